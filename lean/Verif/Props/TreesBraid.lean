import Verif.Lemmas.TreesBraid
import Verif.Props.Trees

/-!
# Properties C05 (braid) and C06: braiding of fusion trees
-/

namespace Cyten.Props
open Cyten Cyten.FusionTree Cyten.FusionTrees
open scoped ComplexConjugate

variable {S : Type} [DecidableEq S]

/-- Unitarity of the R- and C-symbols in the documented sense: R-symbols are phases; as a matrix
from channels `(e, μ, ν)` of `(a b) c → d` to channels `(f, κ, λ)` of `(a c) b → d` the C-symbol
has orthonormal rows and columns. -/
structure BraidUnitary (R : FusionRule S) (D : TopoData S) : Prop where
  comm : ∀ a b c, R.nSymbol a b c = R.nSymbol b a c
  r_phase : ∀ a b c mu, mu < R.nSymbol a b c → D.rSym a b c mu * conj (D.rSym a b c mu) = 1
  c_rows : ∀ a b c d (x y : S × Nat × Nat), x ∈ R.channels a b c d → y ∈ R.channels a b c d →
    ((R.channels a c b d).map fun z =>
      D.cSym a b c d x.1 z.1 x.2.1 x.2.2 z.2.1 z.2.2 *
        conj (D.cSym a b c d y.1 z.1 y.2.1 y.2.2 z.2.1 z.2.2)).sum = if x = y then 1 else 0
  c_cols : ∀ a b c d (x y : S × Nat × Nat), x ∈ R.channels a c b d → y ∈ R.channels a c b d →
    ((R.channels a b c d).map fun z =>
      conj (D.cSym a b c d z.1 x.1 z.2.1 z.2.2 x.2.1 x.2.2) *
        D.cSym a b c d z.1 y.1 z.2.1 z.2.2 y.2.1 y.2.2).sum = if x = y then 1 else 0

theorem cCoef_orth (R : FusionRule S) (D : TopoData S) (hU : BraidUnitary R D) (ov cj : Bool)
    (a b c d : S) (x y : S × Nat × Nat) (hx : x ∈ R.channels a b c d)
    (hy : y ∈ R.channels a b c d) :
    ((R.channels a c b d).map fun z =>
      cCoef D ov cj a b c d x.1 x.2.1 x.2.2 z * cCoef D (!ov) cj a c b d z.1 z.2.1 z.2.2 y).sum =
      if x = y then 1 else 0 := by
  have base : ((R.channels a c b d).map fun z =>
      cCoef D ov false a b c d x.1 x.2.1 x.2.2 z *
        cCoef D (!ov) false a c b d z.1 z.2.1 z.2.2 y).sum = if x = y then 1 else 0 := by
    cases ov
    · simpa [cCoef] using hU.c_cols a c b d x y hx hy
    · simpa [cCoef] using hU.c_rows a b c d x y hx hy
  cases cj
  · exact base
  · have := congrArg conj base
    rw [map_list_sum, List.map_map] at this
    have h2 : (conj (if x = y then 1 else 0 : ℂ)) = if x = y then 1 else 0 := by split <;> simp
    rw [h2] at this
    rw [← this]
    congr 1
    apply List.map_congr_left
    intro z _
    cases ov <;> simp [cCoef]

/-- **C05** (braid). Every tree in the result of a braid is sane, has the two legs exchanged and
the same coupled sector. -/
theorem C05_braid_sane (R : FusionRule S) (D : TopoData S)
    (hcomm : ∀ a b c, R.nSymbol a b c = R.nSymbol b a c)
    (t : FusionTree S) (h : t.Sane R) (j : Nat) (hj : j + 1 < t.uncoupled.length)
    (ov cj : Bool) (cutoff : ℝ) :
    ∃ l x y, t.braid R D j ov cutoff cj = some l ∧ t.uncoupled[j]? = some x ∧
      t.uncoupled[j+1]? = some y ∧
      ∀ p ∈ l, p.1.Sane R ∧ p.1.uncoupled = (t.uncoupled.set j y).set (j+1) x ∧
        p.1.coupled = t.coupled := by
  obtain ⟨a0, bs, hu⟩ : ∃ a0 bs, t.uncoupled = a0 :: bs := by
    match hu : t.uncoupled, hj with
    | a0 :: bs, _ => exact ⟨a0, bs, rfl⟩
  have hlb : j < bs.length := by rw [hu] at hj; simpa using hj
  have hld : t.areDual.length = bs.length + 1 := by have := h.len_dual; rw [hu] at this; simpa using this
  cases j with
  | zero =>
    obtain ⟨a, b, mu, c, hv, g1, g2, g3, g4, g5⟩ := sane_labels R t a0 bs hu h 0 hlb
    simp only [List.getElem?_cons_zero, Option.some.injEq] at g1
    subst g1
    match bs, hlb with
    | b' :: rest, _ =>
      simp at g2; subst g2
      refine ⟨_, a0, b', by
        unfold FusionTree.braid
        rw [if_pos rfl, hv, List.getElem?_eq_getElem (by omega : 0 < t.areDual.length),
          List.getElem?_eq_getElem (by simp at hld; omega : 1 < t.areDual.length)],
        by simp [hu], by simp [hu], ?_⟩
      intro p hp
      simp only [List.mem_singleton] at hp
      subst hp
      refine ⟨?_, rfl, rfl⟩
      rw [sane_iff_chain R t a0 b' rest hu] at h
      rw [sane_iff_chain R _ b' a0 rest (by simp [hu])]
      refine ⟨by simpa using h.1, ?_⟩
      have hch := h.2
      simp only
      match hcs : t.inner ++ [t.coupled], hms : t.mult with
      | [], _ => simp at hcs
      | cc :: cs, [] => rw [hcs, hms] at hch; simp [Chain] at hch
      | cc :: cs, m :: ms =>
        rw [hcs, hms] at hch
        simp only [Chain] at hch ⊢
        exact ⟨by rw [hcomm]; exact hch.1, hch.2⟩
  | succ i =>
    obtain ⟨a, b, mu, e, hv, g1, g2, g3, g4, g5⟩ := sane_labels R t a0 bs hu h i (by omega)
    obtain ⟨e', c, nu, d, hv', q1, q2, q3, q4, q5⟩ := sane_labels R t a0 bs hu h (i+1) hlb
    have : e' = e := by
      rw [List.getElem?_cons_succ, g4] at q1; simpa using q1.symm
    subst this
    have hd0 := List.getElem?_eq_getElem (by omega : i + 1 < t.areDual.length)
    have hd1 := List.getElem?_eq_getElem (by omega : i + 2 < t.areDual.length)
    refine ⟨_, b, c, braid_succ R D t i ov cj cutoff a b c d e' e' mu nu _ _ hv hv' hd0 hd1,
      by rw [hu]; simpa using g2, by rw [hu]; simpa using q2, ?_⟩
    intro p hp
    simp only [List.mem_filter, List.mem_map] at hp
    obtain ⟨⟨⟨f, k, l⟩, hx, rfl⟩, _⟩ := hp
    rw [mem_channels] at hx
    exact ⟨(swapTree_sane R t h i (by omega) a b c d e' mu nu _ _ hv hv' f k l hx.1 hx.2).1,
      rfl, rfl⟩

/-- **C06**. Braiding two neighbouring legs one way and then the other way is the identity on
linear combinations of trees: the resulting coefficient of any tree `t'` is `1` for the original
tree and `0` otherwise.  `hcut` says that the numerical cutoff only drops exact zeros (true e.g. for
`cutoff = 0`). -/
theorem C06_braid_inverse (R : FusionRule S) (hR : R.Lawful) (D : TopoData S)
    (hU : BraidUnitary R D) (t : FusionTree S) (h : t.Sane R) (j : Nat)
    (hj : j + 1 < t.uncoupled.length) (ov cj : Bool) (cutoff : ℝ)
    (hcut : ∀ a b c d e f m n k l, ‖D.cSym a b c d e f m n k l‖ < cutoff →
      D.cSym a b c d e f m n k l = 0) :
    ∃ l, t.braid R D j ov cutoff cj = some l ∧
      (∀ p ∈ l, (p.1.braid R D j (!ov) cutoff cj).isSome) ∧
      ∀ t', coeffOf (bindLC l fun x => (x.braid R D j (!ov) cutoff cj).getD []) t' =
        if t = t' then 1 else 0 := by
  obtain ⟨a0, bs, hu⟩ : ∃ a0 bs, t.uncoupled = a0 :: bs := by
    match hu : t.uncoupled, hj with
    | a0 :: bs, _ => exact ⟨a0, bs, rfl⟩
  have hlb : j < bs.length := by rw [hu] at hj; simpa using hj
  have hld : t.areDual.length = bs.length + 1 := by
    have := h.len_dual; rw [hu] at this; simpa using this
  obtain ⟨l0, x0, y0, hl0, _, _, hsane0⟩ := C05_braid_sane R D hU.comm t h j hj ov cj cutoff
  refine ⟨l0, hl0, ?_, ?_⟩
  · intro p hp
    obtain ⟨hs, hpu, _⟩ := hsane0 p hp
    obtain ⟨l1, _, _, hl1, _⟩ := C05_braid_sane R D hU.comm p.1 hs j
      (by rw [hpu]; simpa using hj) (!ov) cj cutoff
    rw [hl1]; rfl
  intro t'
  cases j with
  | zero =>
    obtain ⟨a, b, mu, c, hv, g1, g2, g3, g4, g5⟩ := sane_labels R t a0 bs hu h 0 hlb
    simp only [List.getElem?_cons_zero, Option.some.injEq] at g1
    subst g1
    match bs, hlb with
    | b' :: rest, _ =>
      simp at g2; subst g2
      obtain ⟨u, co, du, inn, m⟩ := t
      simp only at hu hv g3 g4 hl0 hsane0 hld ⊢
      subst hu
      match du, hld with
      | d0 :: d1 :: du', hld =>
        unfold FusionTree.braid at hl0
        rw [if_pos rfl, hv] at hl0
        simp only [List.getElem?_cons_zero, List.getElem?_cons_succ, List.set_cons_zero,
          List.set_cons_succ, Option.some.injEq] at hl0
        have hs2 := (hsane0 _ (by rw [← hl0]; exact List.mem_singleton_self _)).1
        have hl := hs2.len_mult
        have hli := hs2.len_inner
        simp only [List.length_cons] at hl hli
        obtain ⟨a2, b2, mu2, c2, hv2, k1, k2, k3, k4, k5⟩ :=
          sane_labels R _ b' (a0 :: rest) rfl hs2 0 (by simp)
        simp only [List.getElem?_cons_zero, Option.some.injEq] at k1 k2
        simp only at k3 k4
        subst k1 k2
        rw [g3] at k3; rw [g4] at k4
        simp at k3 k4; subst k3 k4
        rw [coeffOf_bindLC, ← hl0]
        simp only [List.map_cons, List.map_nil, List.sum_cons, List.sum_nil, add_zero]
        unfold FusionTree.braid
        rw [if_pos rfl, hv2]
        simp only [List.getElem?_cons_zero, List.getElem?_cons_succ, List.set_cons_zero,
          List.set_cons_succ, Option.getD_some, coeffOf, List.map_cons, List.map_nil,
          List.sum_cons, List.sum_nil, add_zero]
        have r1 := hU.r_phase a0 b' c mu g5
        have r2 := hU.r_phase b' a0 c mu k5
        by_cases hT : (⟨a0 :: b' :: rest, co, d0 :: d1 :: du', inn, m⟩ : FusionTree S) = t'
        · simp only [hT, if_true]
          cases ov <;> cases cj <;> simp only [Bool.not_true, Bool.not_false, if_true, if_false,
            Bool.false_eq_true, Complex.conj_conj] <;>
            first | exact r1 | exact r2 | (rw [mul_comm]; exact r1) | (rw [mul_comm]; exact r2)
        · simp only [hT, if_false, mul_zero]
  | succ i =>
    obtain ⟨a, b, mu, e, hv, g1, g2, g3, g4, g5⟩ := sane_labels R t a0 bs hu h i (by omega)
    obtain ⟨e', c, nu, d, hv', q1, q2, q3, q4, q5⟩ := sane_labels R t a0 bs hu h (i+1) hlb
    have : e' = e := by
      rw [List.getElem?_cons_succ, g4] at q1; simpa using q1.symm
    subst this
    obtain ⟨d0, hd0⟩ : ∃ d0, t.areDual[i+1]? = some d0 :=
      ⟨_, List.getElem?_eq_getElem (by omega : i + 1 < t.areDual.length)⟩
    obtain ⟨d1, hd1⟩ : ∃ d1, t.areDual[i+2]? = some d1 :=
      ⟨_, List.getElem?_eq_getElem (by omega : i + 2 < t.areDual.length)⟩
    have hb := braid_succ R D t i ov cj cutoff a b c d e' e' mu nu d0 d1 hv hv' hd0 hd1
    rw [hb] at hl0
    simp only [Option.some.injEq] at hl0
    subst hl0
    rw [coeffOf_bindLC, sum_filter_zero _ _ _ (by
      rintro ⟨x1, x2⟩ hx hp
      simp only [decide_not, Bool.not_eq_eq_eq_not, Bool.not_false, decide_eq_true_eq] at hp
      simp only [List.mem_map] at hx
      obtain ⟨z, _, hz⟩ := hx
      have hz1 := congrArg Prod.snd hz
      simp only at hz1
      rw [← hz1] at hp ⊢
      rw [cutoff_zero D cutoff hcut _ _ _ _ _ _ _ _ _ _ hp]; simp)]
    rw [List.map_map]
    -- coefficient of the second braid
    have hsecond : ∀ x ∈ R.channels a c b d,
        coeffOf (((swapTree t i b c d0 d1 x.1 x.2.1 x.2.2).braid R D (i+1) (!ov) cutoff cj).getD [])
          t' = ((R.channels a b c d).map fun y =>
            if reTree t i y = t'
            then cCoef D (!ov) cj a c b d x.1 x.2.1 x.2.2 y else 0).sum := by
      rintro ⟨f, k, l⟩ hx
      rw [mem_channels] at hx
      obtain ⟨hs, w1, w2⟩ := swapTree_sane R t h i (by omega) a b c d e' mu nu d0 d1 hv hv' f k l
        hx.1 hx.2
      have hd0' : (swapTree t i b c d0 d1 f k l).areDual[i+1]? = some d1 := by
        simp only [swapTree]
        rw [List.getElem?_set_ne (by omega), List.getElem?_set_self (by omega)]
      have hd1' : (swapTree t i b c d0 d1 f k l).areDual[i+2]? = some d0 := by
        simp only [swapTree]
        rw [List.getElem?_set_self (by simp; omega)]
      simp only
      rw [braid_succ R D _ i (!ov) cj cutoff a c b d f f k l d1 d0 w1 w2 hd0' hd1']
      simp only [Option.getD_some, coeffOf]
      rw [sum_filter_zero _ _ _ (by
        rintro ⟨x1, x2⟩ hx hp
        simp only [decide_not, Bool.not_eq_eq_eq_not, Bool.not_false, decide_eq_true_eq] at hp
        simp only [List.mem_map] at hx
        obtain ⟨z, _, hz⟩ := hx
        have hz1 := congrArg Prod.snd hz
        simp only at hz1
        rw [← hz1] at hp ⊢
        rw [cutoff_zero D cutoff hcut _ _ _ _ _ _ _ _ _ _ hp]; simp)]
      rw [List.map_map]
      congr 1
      apply List.map_congr_left
      rintro ⟨f', k', l'⟩ _
      simp only [Function.comp]
      rw [swap_swap R t h i (by omega) a b c d e' mu nu d0 d1 hv hv' hd0 hd1]
    have step1 : ((R.channels a c b d).map ((fun p => p.2 * coeffOf
        ((fun x => (x.braid R D (i+1) (!ov) cutoff cj).getD []) p.1) t') ∘ fun x =>
        (swapTree t i b c d0 d1 x.1 x.2.1 x.2.2, cCoef D ov cj a b c d e' mu nu x))) =
        (R.channels a c b d).map fun x => ((R.channels a b c d).map fun y =>
          if reTree t i y = t'
          then cCoef D ov cj a b c d e' mu nu x * cCoef D (!ov) cj a c b d x.1 x.2.1 x.2.2 y
          else 0).sum := by
      apply List.map_congr_left
      intro x hx
      simp only [Function.comp]
      rw [hsecond x hx, ← List.sum_map_mul_left]
      congr 1
      apply List.map_congr_left
      intro y _
      split <;> simp
    rw [step1, list_sum_comm]
    have hmem : (e', mu, nu) ∈ R.channels a b c d := by
      rw [mem_channels]; exact ⟨g5, q5⟩
    have step2 : ((R.channels a b c d).map fun y => ((R.channels a c b d).map fun x =>
          if reTree t i y = t'
          then cCoef D ov cj a b c d e' mu nu x * cCoef D (!ov) cj a c b d x.1 x.2.1 x.2.2 y
          else 0).sum) =
        (R.channels a b c d).map fun y => if (e', mu, nu) = y then
          (if reTree t i y = t'
            then 1 else 0) else 0 := by
      apply List.map_congr_left
      intro y hy
      have ho := cCoef_orth R D hU ov cj a b c d (e', mu, nu) y hmem hy
      by_cases hT : reTree t i y = t'
      · simp only [hT, if_true]
        exact ho
      · simp [hT]
    rw [step2, list_sum_ite_eq _ (channels_nodup R hR a b c d) _ hmem]
    rw [unswap_inj R t h i (by omega) a b c d e' mu nu hv hv']

end Cyten.Props
