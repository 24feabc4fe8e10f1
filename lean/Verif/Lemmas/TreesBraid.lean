import Verif.Model.TreesBraid
import Verif.Lemmas.TreesSurgery

namespace Cyten
open FusionTree
open scoped ComplexConjugate

variable {S : Type} [DecidableEq S]

/-! ### sums over lists -/

theorem list_sum_comm {α β : Type} (l1 : List α) (l2 : List β) (f : α → β → ℂ) :
    (l1.map fun x => (l2.map fun y => f x y).sum).sum =
      (l2.map fun y => (l1.map fun x => f x y).sum).sum := by
  induction l1 with
  | nil => simp
  | cons x l1 ih =>
    simp only [List.map_cons, List.sum_cons, ih]
    rw [← List.sum_map_add]

theorem list_sum_ite_eq {α : Type} [DecidableEq α] (l : List α) (hl : l.Nodup) (x : α) (hx : x ∈ l)
    (g : α → ℂ) : (l.map fun y => if x = y then g y else 0).sum = g x := by
  induction l with
  | nil => simp at hx
  | cons y l ih =>
    rw [List.nodup_cons] at hl
    simp only [List.map_cons, List.sum_cons]
    rcases List.mem_cons.1 hx with rfl | hx'
    · rw [if_pos rfl]
      have : (l.map fun y => if x = y then g y else 0) = l.map fun _ => (0 : ℂ) := by
        apply List.map_congr_left
        intro z hz
        rw [if_neg]; rintro rfl; exact hl.1 hz
      rw [this]; simp
    · rw [if_neg (by rintro rfl; exact hl.1 hx'), ih hl.2 hx', zero_add]

theorem coeffOf_bindLC {T U : Type} [DecidableEq U] (l : List (T × ℂ)) (f : T → List (U × ℂ))
    (u : U) : coeffOf (bindLC l f) u = (l.map fun p => p.2 * coeffOf (f p.1) u).sum := by
  induction l with
  | nil => simp [bindLC, coeffOf]
  | cons p l ih =>
    have h1 : bindLC (p :: l) f = ((f p.1).map fun q => (q.1, p.2 * q.2)) ++ bindLC l f := by
      simp [bindLC]
    rw [h1]
    have h2 : ∀ a b : List (U × ℂ), coeffOf (a ++ b) u = coeffOf a u + coeffOf b u := by
      intro a b; simp [coeffOf]
    rw [h2, ih, List.map_cons, List.sum_cons]
    congr 1
    simp only [coeffOf, List.map_map]
    rw [← List.sum_map_mul_left]
    congr 1
    apply List.map_congr_left
    intro q _
    simp only [Function.comp]
    split <;> simp

theorem sum_filter_zero {T : Type} (l : List (T × ℂ)) (p : T × ℂ → Bool) (g : T × ℂ → ℂ)
    (h : ∀ x ∈ l, p x = false → g x = 0) :
    ((l.filter p).map g).sum = (l.map g).sum := by
  induction l with
  | nil => simp
  | cons x l ih =>
    have ih' := ih (fun y hy => h y (by simp [hy]))
    rw [List.filter_cons]
    by_cases hp : p x = true
    · simp [hp, ih']
    · have := h x (by simp) (by simpa using hp)
      simp [hp, ih', this]

/-! ### channels -/

theorem mem_channels (R : FusionRule S) (a c b d f : S) (k l : Nat) :
    (f, k, l) ∈ R.channels a c b d ↔ k < R.nSymbol a c f ∧ l < R.nSymbol f b d := by
  simp only [FusionRule.channels, List.mem_flatMap, List.mem_filter, List.mem_map, List.mem_range,
    Prod.mk.injEq]
  constructor
  · rintro ⟨f', ⟨h1, h2⟩, k', hk, l', hl, rfl, rfl, rfl⟩
    exact ⟨hk, hl⟩
  · rintro ⟨hk, hl⟩
    exact ⟨f, ⟨mem_of_nSymbol_pos R (by omega), (canFuseTo_iff R f b d).2
      (mem_of_nSymbol_pos R (by omega))⟩, k, hk, l, hl, rfl, rfl, rfl⟩

theorem channels_nodup (R : FusionRule S) (hR : R.Lawful) (a c b d : S) :
    (R.channels a c b d).Nodup := by
  unfold FusionRule.channels
  rw [List.nodup_flatMap]
  refine ⟨?_, ?_⟩
  · intro f _
    rw [List.nodup_flatMap]
    refine ⟨?_, ?_⟩
    · intro k _
      exact List.Nodup.map (fun x y h => by simpa using h) List.nodup_range
    · refine List.Pairwise.imp ?_ (List.nodup_range (n := R.nSymbol a c f))
      intro x y hxy
      simp only [Function.onFun, List.disjoint_left, List.mem_map, not_exists]
      rintro _ ⟨l, _, rfl⟩ l' hl'
      simp at hl'; exact hxy hl'.2.1.symm
  · refine List.Pairwise.imp ?_ ((hR.nodup a c).filter _)
    intro x y hxy
    simp only [Function.onFun, List.disjoint_left, List.mem_flatMap, List.mem_map]
    rintro _ ⟨k, _, l, _, rfl⟩ ⟨k', _, l', _, h⟩
    simp at h; exact hxy h.1.symm

/-! ### labels of sane trees -/

theorem sane_labels (R : FusionRule S) (t : FusionTree S) (a0 : S) (bs : List S)
    (hu : t.uncoupled = a0 :: bs) (h : t.Sane R) (n : Nat) (hn : n < bs.length) :
    ∃ a b mu c, t.vertexLabels n = some (a, b, mu, c) ∧
      (a0 :: (t.inner ++ [t.coupled]))[n]? = some a ∧ bs[n]? = some b ∧ t.mult[n]? = some mu ∧
      (t.inner ++ [t.coupled])[n]? = some c ∧ mu < R.nSymbol a b c := by
  have hi : t.inner.length = bs.length - 1 := by
    have := h.len_inner; rw [hu] at this; simp at this; omega
  obtain ⟨a, b, mu, c, hv, _, hlt⟩ := h.vertices n (by rw [hu]; simpa using hn)
  have hv' := hv
  rw [vertexLabels_eq t a0 bs n hu hi hn] at hv'
  refine ⟨a, b, mu, c, hv, ?_⟩
  split at hv'
  · rename_i a1 b1 m1 c1 h1 h2 h3 h4
    simp at hv'
    obtain ⟨rfl, rfl, rfl, rfl⟩ := hv'
    exact ⟨h1, h2, h3, h4, hlt⟩
  · simp at hv'

theorem vertexLabels_of (t : FusionTree S) (a0 : S) (bs : List S)
    (hu : t.uncoupled = a0 :: bs) (hi : t.inner.length = bs.length - 1) (n : Nat)
    (hn : n < bs.length) (a b c : S) (mu : Nat)
    (h1 : (a0 :: (t.inner ++ [t.coupled]))[n]? = some a) (h2 : bs[n]? = some b)
    (h3 : t.mult[n]? = some mu) (h4 : (t.inner ++ [t.coupled])[n]? = some c) :
    t.vertexLabels n = some (a, b, mu, c) := by
  rw [vertexLabels_eq t a0 bs n hu hi hn, h1, h2, h3, h4]

theorem sane_iff_chain' (R : FusionRule S) (t : FusionTree S) (a0 : S) (bs : List S)
    (hu : t.uncoupled = a0 :: bs) (hb : bs ≠ []) :
    t.Sane R ↔ t.areDual.length = bs.length + 1 ∧
      Chain R a0 bs (t.inner ++ [t.coupled]) t.mult := by
  match bs, hb with
  | b :: rest, _ => simpa using sane_iff_chain R t a0 b rest hu

/-- The tree after the C-move at `i+1` (legs `i+1`, `i+2`), given new labels. -/
def swapTree (t : FusionTree S) (i : Nat) (b c : S) (d0 d1 : Bool) (f : S) (k l : Nat) :
    FusionTree S :=
  { uncoupled := (t.uncoupled.set (i+1) c).set (i+2) b
    coupled := t.coupled
    areDual := (t.areDual.set (i+1) d1).set (i+2) d0
    inner := t.inner.set i f
    mult := (t.mult.set i k).set (i+1) l }

omit [DecidableEq S] in
theorem inner_set_append (inner : List S) (c f : S) (i : Nat) (h : i < inner.length) :
    inner.set i f ++ [c] = (inner ++ [c]).set i f := by
  rw [List.set_append, if_pos h]

theorem swapTree_sane (R : FusionRule S) (t : FusionTree S) (h : t.Sane R) (i : Nat)
    (hN : i + 2 < t.uncoupled.length) (a b c d e : S) (mu nu : Nat) (d0 d1 : Bool)
    (hv : t.vertexLabels i = some (a, b, mu, e)) (hv' : t.vertexLabels (i+1) = some (e, c, nu, d))
    (f : S) (k l : Nat) (hk : k < R.nSymbol a c f) (hl : l < R.nSymbol f b d) :
    (swapTree t i b c d0 d1 f k l).Sane R ∧
    (swapTree t i b c d0 d1 f k l).vertexLabels i = some (a, c, k, f) ∧
    (swapTree t i b c d0 d1 f k l).vertexLabels (i+1) = some (f, b, l, d) := by
  obtain ⟨a0, bs, hu⟩ : ∃ a0 bs, t.uncoupled = a0 :: bs := by
    match hu : t.uncoupled, hN with
    | a0 :: bs, _ => exact ⟨a0, bs, rfl⟩
  have hb : i + 1 < bs.length := by rw [hu] at hN; simp at hN; omega
  obtain ⟨a1, b1, m1, c1, hw1, g1, g2, g3, g4, g5⟩ := sane_labels R t a0 bs hu h i (by omega)
  obtain ⟨a2, b2, m2, c2, hw2, q1, q2, q3, q4, q5⟩ := sane_labels R t a0 bs hu h (i+1) hb
  rw [hv] at hw1; simp at hw1; obtain ⟨rfl, rfl, rfl, rfl⟩ := hw1
  rw [hv'] at hw2; simp at hw2; obtain ⟨rfl, rfl, rfl, rfl⟩ := hw2
  have hi : t.inner.length = bs.length - 1 := by
    have := h.len_inner; rw [hu] at this; simp at this; omega
  have hm : t.mult.length = bs.length := by
    have := h.len_mult; rw [hu] at this; simpa using this
  have hub : (swapTree t i b c d0 d1 f k l).uncoupled = a0 :: (bs.set i c).set (i+1) b := by
    simp [swapTree, hu]
  have hcs : (swapTree t i b c d0 d1 f k l).inner ++ [(swapTree t i b c d0 d1 f k l).coupled] =
      (t.inner ++ [t.coupled]).set i f := by
    simp only [swapTree]; exact inner_set_append _ _ _ _ (by omega)
  have hlc : (t.inner ++ [t.coupled]).length = bs.length := by simp; omega
  have v1 : (swapTree t i b c d0 d1 f k l).vertexLabels i = some (a, c, k, f) := by
    refine vertexLabels_of _ a0 _ hub (by simp [swapTree]; omega) i (by simp; omega) _ _ _ _ ?_ ?_ ?_ ?_
    · rw [hcs, ← g1]
      cases i with
      | zero => simp
      | succ i => simp
    · rw [List.getElem?_set_ne (by omega), List.getElem?_set_self (by omega)]
    · simp only [swapTree]
      rw [List.getElem?_set_ne (by omega), List.getElem?_set_self (by omega)]
    · rw [hcs, List.getElem?_set_self (by omega)]
  have v2 : (swapTree t i b c d0 d1 f k l).vertexLabels (i+1) = some (f, b, l, d) := by
    refine vertexLabels_of _ a0 _ hub (by simp [swapTree]; omega) (i+1) (by simp; omega) _ _ _ _ ?_ ?_ ?_ ?_
    · rw [hcs, List.getElem?_cons_succ, List.getElem?_set_self (by omega)]
    · rw [List.getElem?_set_self (by simp; omega)]
    · simp only [swapTree]
      rw [List.getElem?_set_self (by simp; omega)]
    · rw [hcs, List.getElem?_set_ne (by omega)]; exact q4
  refine ⟨?_, v1, v2⟩
  rw [sane_iff_chain' R _ a0 _ hub (by intro h0; have := congrArg List.length h0; simp at this; subst this; simp at hb)]
  refine ⟨?_, ?_⟩
  · have := h.len_dual
    simp [swapTree, this, hu]
  rw [chain_iff, hcs]
  refine ⟨by simp; omega, by simp [swapTree]; omega, ?_⟩
  intro n a' b' c' m ha hb' hc' hm'
  have horig := (sane_iff_chain' R t a0 bs hu (by intro h0; subst h0; simp at hb)).1 h
  rw [chain_iff] at horig
  by_cases hn1 : n = i
  · subst hn1
    rw [List.getElem?_set_ne (by omega), List.getElem?_set_self (by omega)] at hb'
    rw [List.getElem?_set_self (by omega)] at hc'
    simp only [swapTree] at hm'
    rw [List.getElem?_set_ne (by omega), List.getElem?_set_self (by omega)] at hm'
    have ha2 : (a0 :: (t.inner ++ [t.coupled]))[n]? = some a' := by
      rw [← ha]
      cases n with
      | zero => simp
      | succ n => simp
    rw [g1] at ha2
    simp at hb' hc' hm' ha2
    subst hb' hc' hm' ha2
    exact hk
  · by_cases hn2 : n = i + 1
    · subst hn2
      rw [List.getElem?_set_self (by simp; omega)] at hb'
      rw [List.getElem?_set_ne (by omega), q4] at hc'
      simp only [swapTree] at hm'
      rw [List.getElem?_set_self (by simp; omega)] at hm'
      rw [List.getElem?_cons_succ, List.getElem?_set_self (by omega)] at ha
      simp at ha hb' hc' hm'
      subst ha hb' hc' hm'
      exact hl
    · rw [List.getElem?_set_ne (by omega), List.getElem?_set_ne (by omega)] at hb'
      rw [List.getElem?_set_ne (by omega)] at hc'
      simp only [swapTree] at hm'
      rw [List.getElem?_set_ne (by omega), List.getElem?_set_ne (by omega)] at hm'
      have ha2 : (a0 :: (t.inner ++ [t.coupled]))[n]? = some a' := by
        rw [← ha]
        cases n with
        | zero => simp
        | succ n => simp only [List.getElem?_cons_succ]; rw [List.getElem?_set_ne (by omega)]
      exact horig.2.2.2 n a' b' c' m ha2 hb' hc' hm'

/-- Coefficient of the C-move towards `(f, κ, λ)`. -/
noncomputable def cCoef (D : TopoData S) (ov cj : Bool) (a b c d e : S) (mu nu : Nat)
    (x : S × Nat × Nat) : ℂ :=
  let ai := if ov then D.cSym a b c d e x.1 mu nu x.2.1 x.2.2
    else conj (D.cSym a c b d x.1 e x.2.1 x.2.2 mu nu)
  if cj then conj ai else ai

theorem braid_succ (R : FusionRule S) (D : TopoData S) (t : FusionTree S)
    (i : Nat) (ov cj : Bool) (cutoff : ℝ) (a b c d e e' : S) (mu nu : Nat) (d0 d1 : Bool)
    (hv : t.vertexLabels i = some (a, b, mu, e)) (hv' : t.vertexLabels (i+1) = some (e', c, nu, d))
    (hd0 : t.areDual[i+1]? = some d0) (hd1 : t.areDual[i+2]? = some d1) :
    t.braid R D (i+1) ov cutoff cj = some
      (((R.channels a c b d).map fun x =>
        (swapTree t i b c d0 d1 x.1 x.2.1 x.2.2, cCoef D ov cj a b c d e mu nu x)).filter
          fun p => decide (¬ ‖p.2‖ < cutoff)) := by
  unfold FusionTree.braid
  rw [if_neg (by omega)]
  simp only [Nat.add_sub_cancel, hv, hv', hd0, hd1]
  congr 1

theorem cutoff_zero (D : TopoData S) (cutoff : ℝ)
    (hcut : ∀ a b c d e f m n k l, ‖D.cSym a b c d e f m n k l‖ < cutoff →
      D.cSym a b c d e f m n k l = 0) (ov cj : Bool) (a b c d e : S) (mu nu : Nat)
    (x : S × Nat × Nat) (h : ‖cCoef D ov cj a b c d e mu nu x‖ < cutoff) :
    cCoef D ov cj a b c d e mu nu x = 0 := by
  unfold cCoef at *
  cases ov <;> cases cj <;> simp only [if_true, if_false, Bool.false_eq_true,
    Complex.conj_conj, map_eq_zero, Complex.norm_conj] at * <;> exact hcut _ _ _ _ _ _ _ _ _ _ h

/-- `t` with the labels of vertices `i`, `i+1` and the edge in between replaced. -/
def reTree (t : FusionTree S) (i : Nat) (y : S × Nat × Nat) : FusionTree S :=
  { t with inner := t.inner.set i y.1, mult := (t.mult.set i y.2.1).set (i+1) y.2.2 }

theorem swap_swap (R : FusionRule S) (t : FusionTree S) (h : t.Sane R) (i : Nat)
    (hN : i + 2 < t.uncoupled.length) (a b c d e : S) (mu nu : Nat) (d0 d1 : Bool)
    (hv : t.vertexLabels i = some (a, b, mu, e)) (hv' : t.vertexLabels (i+1) = some (e, c, nu, d))
    (hd0 : t.areDual[i+1]? = some d0) (hd1 : t.areDual[i+2]? = some d1)
    (f f' : S) (k l k' l' : Nat) :
    swapTree (swapTree t i b c d0 d1 f k l) i c b d1 d0 f' k' l' =
      reTree t i (f', k', l') := by
  obtain ⟨a0, bs, hu⟩ : ∃ a0 bs, t.uncoupled = a0 :: bs := by
    match hu : t.uncoupled, hN with
    | a0 :: bs, _ => exact ⟨a0, bs, rfl⟩
  have hb : i + 1 < bs.length := by rw [hu] at hN; simp at hN; omega
  obtain ⟨a1, b1, m1, c1, hw1, g1, g2, g3, g4, g5⟩ := sane_labels R t a0 bs hu h i (by omega)
  obtain ⟨a2, b2, m2, c2, hw2, q1, q2, q3, q4, q5⟩ := sane_labels R t a0 bs hu h (i+1) hb
  rw [hv] at hw1; simp at hw1; obtain ⟨rfl, rfl, rfl, rfl⟩ := hw1
  rw [hv'] at hw2; simp at hw2; obtain ⟨rfl, rfl, rfl, rfl⟩ := hw2
  have hb1 : t.uncoupled[i+1]? = some b := by rw [hu]; simpa using g2
  have hb2 : t.uncoupled[i+2]? = some c := by rw [hu]; simpa using q2
  have key : ∀ {α : Type} (L : List α) (x y : α), L[i+1]? = some x → L[i+2]? = some y →
      (((L.set (i+1) y).set (i+2) x).set (i+1) x).set (i+2) y = L := by
    intro α L x y hx hy
    apply List.ext_getElem?
    intro n
    obtain ⟨hx1, hx2⟩ := List.getElem?_eq_some_iff.1 hx
    obtain ⟨hy1, hy2⟩ := List.getElem?_eq_some_iff.1 hy
    by_cases h2 : n = i + 2
    · subst h2; rw [List.getElem?_set_self (by simp; omega), hy]
    · rw [List.getElem?_set_ne (by omega)]
      by_cases h1 : n = i + 1
      · subst h1; rw [List.getElem?_set_self (by simp; omega), hx]
      · rw [List.getElem?_set_ne (by omega), List.getElem?_set_ne (by omega),
          List.getElem?_set_ne (by omega)]
  simp only [swapTree, reTree, FusionTree.mk.injEq, true_and]
  refine ⟨key _ _ _ hb1 hb2, key _ _ _ hd0 hd1, by simp, ?_⟩
  apply List.ext_getElem?
  intro n
  simp only [List.getElem?_set]
  simp only [List.length_set]
  split <;> split <;> simp_all

theorem unswap_inj (R : FusionRule S) (t : FusionTree S) (h : t.Sane R) (i : Nat)
    (hN : i + 2 < t.uncoupled.length) (a b c d e : S) (mu nu : Nat)
    (hv : t.vertexLabels i = some (a, b, mu, e)) (hv' : t.vertexLabels (i+1) = some (e, c, nu, d))
     : reTree t i (e, mu, nu) = t := by
  obtain ⟨a0, bs, hu⟩ : ∃ a0 bs, t.uncoupled = a0 :: bs := by
    match hu : t.uncoupled, hN with
    | a0 :: bs, _ => exact ⟨a0, bs, rfl⟩
  have hb : i + 1 < bs.length := by rw [hu] at hN; simp at hN; omega
  obtain ⟨a1, b1, m1, c1, hw1, g1, g2, g3, g4, g5⟩ := sane_labels R t a0 bs hu h i (by omega)
  obtain ⟨a2, b2, m2, c2, hw2, q1, q2, q3, q4, q5⟩ := sane_labels R t a0 bs hu h (i+1) hb
  rw [hv] at hw1; simp at hw1; obtain ⟨rfl, rfl, rfl, rfl⟩ := hw1
  rw [hv'] at hw2; simp at hw2; obtain ⟨rfl, rfl, rfl, rfl⟩ := hw2
  have hi : t.inner.length = bs.length - 1 := by
    have := h.len_inner; rw [hu] at this; simp at this; omega
  rw [List.getElem?_append_left (by omega)] at g4
  have e1 : t.inner.set i e = t.inner := by
    obtain ⟨h1, h2⟩ := List.getElem?_eq_some_iff.1 g4
    rw [← h2]; simp
  have e2 : t.mult.set i mu = t.mult := by
    obtain ⟨h1, h2⟩ := List.getElem?_eq_some_iff.1 g3
    rw [← h2]; simp
  have e3 : t.mult.set (i+1) nu = t.mult := by
    obtain ⟨h1, h2⟩ := List.getElem?_eq_some_iff.1 q3
    rw [← h2]; simp
  simp only [reTree]
  rw [e1, e2, e3]

end Cyten
