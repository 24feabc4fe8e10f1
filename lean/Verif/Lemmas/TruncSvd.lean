import Verif.Props.AbelianMaskContract
import Verif.Props.AbelianDecomp
import Verif.Props.AbelianInner
import Mathlib.Analysis.Complex.Basic

/-! # Sums over the basis of one leg, masks and orthonormal factors -/

namespace Cyten.Props
open Cyten.Abelian Cyten.Abelian.Spec Cyten.Tables Cyten.Tools Cyten.ListSum Cyten.Spaces

theorem gridC_single (n : ℕ) : gridC [n] = (List.range n).map fun b => [b] := by
  simp only [gridC, List.map_cons, List.map_nil]
  exact List.map_eq_flatMap.symm

theorem basis_one (m : List ℕ) : basis [m] =
    (List.range m.length).flatMap fun b => (List.range (m.getD b 0)).map fun x => ([b], [x]) := by
  unfold basis
  rw [List.map_cons, List.map_nil, gridC_single, List.flatMap_map]
  refine List.flatMap_congr fun b _ => ?_
  show (gridC [m.getD b 0]).map _ = _
  rw [gridC_single, List.map_map]
  rfl

theorem sum_basis_one {α : Type} [AddCommMonoid α] (m : List ℕ) (f : List ℕ × List ℕ → α) :
    ((basis [m]).map f).sum =
      ((List.range m.length).map fun b => ((List.range (m.getD b 0)).map fun x => f ([b], [x])).sum).sum := by
  rw [basis_one, sum_flatMap]
  refine sum_congr _ fun b _ => ?_
  rw [List.map_map]
  rfl

theorem mem_basis_one {m : List ℕ} {y : List ℕ × List ℕ} :
    y ∈ basis [m] ↔ ∃ b x, IsDiagIndex m b x ∧ y = ([b], [x]) := by
  rw [basis_one, List.mem_flatMap]
  constructor
  · rintro ⟨b, hb, hy⟩
    obtain ⟨x, hx, rfl⟩ := List.mem_map.1 hy
    exact ⟨b, x, ⟨List.mem_range.1 hb, List.mem_range.1 hx⟩, rfl⟩
  · rintro ⟨b, x, ⟨h1, h2⟩, rfl⟩
    exact ⟨b, List.mem_range.2 h1, List.mem_map.2 ⟨x, List.mem_range.2 h2, rfl⟩⟩

theorem sum_flat {α : Type} [AddCommMonoid α] (m : List ℕ) (h : ℕ → α) :
    ((List.range m.length).map fun b =>
      ((List.range (m.getD b 0)).map fun x => h ((m.take b).sum + x)).sum).sum =
      ((List.range m.sum).map h).sum := by
  induction m generalizing h with
  | nil => rfl
  | cons a m ih =>
    rw [List.length_cons, List.range_succ_eq_map, List.map_cons, List.map_map, List.sum_cons,
      List.sum_cons, List.range_add, List.map_append, List.sum_append, List.map_map]
    congr 1
    · simp
    · rw [show ((h ∘ fun x => a + x) : ℕ → α) = fun x => h (a + x) from rfl, ← ih fun x => h (a + x)]
      refine sum_congr _ fun b _ => ?_
      simp [Nat.add_assoc]

/-! ## Masks -/

section Mask
variable {S : Type} [LinearOrder S] {sym : Sym S} {M : MaskT S}

theorem position_unique {e : ESpace S} (h : DenseOK sym [e]) {j b x b' x' : ℕ}
    (h1 : IsPosition sym e j b x) (h2 : IsPosition sym e j b' x') : b = b' ∧ x = x' := by
  have hv := h.valid e (by simp)
  have hnd := nodup_basisPerm h
  obtain ⟨a1, a2, a3⟩ := (isPosition_iff h.one hv j b x).1 h1
  obtain ⟨c1, c2, c3⟩ := (isPosition_iff h.one hv j b' x').1 h2
  have hi : (e.mults.take b).sum + x = (e.mults.take b').sum + x' := by
    obtain ⟨q1, q2⟩ := List.getElem?_eq_some_iff.1 a3
    obtain ⟨q3, q4⟩ := List.getElem?_eq_some_iff.1 c3
    exact (List.Nodup.getElem_inj_iff hnd).1 (q2.trans q4.symm)
  have key : ∀ {b x b' x' : ℕ}, x < e.mults.getD b 0 → b < e.mults.length → b' ≤ e.mults.length →
      (e.mults.take b).sum + x = (e.mults.take b').sum + x' → ¬ b < b' := by
    intro b x b' x' hx hb hb' he hlt
    have g1 := take_sum_succ e.mults b _ (List.getElem?_eq_getElem hb)
    have g2 := take_sum_mono e.mults (b + 1) b' hlt
    rw [List.getD_eq_getElem _ _ hb] at hx
    omega
  have hbb : b = b' := by
    rcases Nat.lt_trichotomy b b' with g | g | g
    · exact absurd g (key a2 a1 c1.le hi)
    · exact g
    · exact absurd g (key c2 c1 a1.le hi.symm)
  subst hbb
  exact ⟨rfl, by omega⟩

theorem position_inj {e : ESpace S} (h : DenseOK sym [e]) {j j' b x : ℕ}
    (h1 : IsPosition sym e j b x) (h2 : IsPosition sym e j' b x) : j = j' := by
  have hv := h.valid e (by simp)
  obtain ⟨-, -, a3⟩ := (isPosition_iff h.one hv j b x).1 h1
  obtain ⟨-, -, c3⟩ := (isPosition_iff h.one hv j' b x).1 h2
  rw [a3] at c3
  exact Option.some.inj c3

theorem exists_nthTrue (v : List Bool) (i : ℕ) (h : i < v.count true) : ∃ j, IsNthTrue v i j := by
  induction v generalizing i with
  | nil => simp at h
  | cons a v ih =>
    cases a with
    | true =>
      cases i with
      | zero => exact ⟨0, rfl, rfl⟩
      | succ i =>
        obtain ⟨j, h1, h2⟩ := ih i (by simpa using h)
        exact ⟨j + 1, by simpa using h1, by simpa using h2⟩
    | false =>
      obtain ⟨j, h1, h2⟩ := ih i (by simpa using h)
      exact ⟨j + 1, by simpa using h1, by simpa using h2⟩

theorem nth_unique {v : List Bool} {i j j' : ℕ} (h1 : IsNthTrue v i j) (h2 : IsNthTrue v i j') :
    j = j' := by
  have key : ∀ {j j' : ℕ}, IsNthTrue v i j → IsNthTrue v i j' → ¬ j < j' := by
    intro j j' h1 h2 hlt
    have e : v.take j' = v.take j ++ true :: (v.drop (j + 1)).take (j' - j - 1) := by
      obtain ⟨hj, hv⟩ := List.getElem?_eq_some_iff.1 h1.1
      rw [← hv]
      conv_lhs => rw [show j' = j + (1 + (j' - j - 1)) by omega]
      rw [List.take_add, List.drop_eq_getElem_cons hj, Nat.add_comm 1, List.take_succ_cons]
    have h3 := h2.2
    rw [e, List.count_append, List.count_cons_self] at h3
    have := h1.2
    omega
  rcases Nat.lt_trichotomy j j' with h | h | h
  · exact absurd h (key h1 h2)
  · exact h
  · exact absurd h (key h2 h1)

/-- The index of the small leg and the one of the large leg that the mask relates. -/
def MaskRel (sym : Sym S) (M : MaskT S) (y z : List ℕ × List ℕ) : Prop :=
  ∃ i j t x b w, IsPosition sym M.small i t x ∧ IsPosition sym M.large j b w ∧
    IsNthTrue (asBlockMask sym M) i j ∧ y = ([t], [x]) ∧ z = ([b], [w])

theorem maskRel_exists (h : MaskSane sym M) {y : List ℕ × List ℕ} (hy : y ∈ basis [M.small.mults]) :
    ∃ z, MaskRel sym M y z ∧ z ∈ basis [M.large.mults] := by
  obtain ⟨t, x, htx, rfl⟩ := mem_basis_one.1 hy
  obtain ⟨i, hi⟩ := exists_position h.smallOK htx
  have h1 := (lt_of_position h.smallOK hi).1
  rw [C37_small_dim h] at h1
  obtain ⟨j, hj⟩ := exists_nthTrue _ i h1
  have hlt : j < M.large.dim sym := by
    rw [← (asBlockMask_spec h).1]; exact (List.getElem?_eq_some_iff.1 hj.1).1
  obtain ⟨b, w, hp, hbw⟩ := position_of_lt h.large hlt
  exact ⟨_, ⟨i, j, t, x, b, w, hi, hp, hj, rfl, rfl⟩, mem_basis_one.2 ⟨b, w, hbw, rfl⟩⟩

theorem maskRel_inj (h : MaskSane sym M) {y y' z : List ℕ × List ℕ} (h1 : MaskRel sym M y z)
    (h2 : MaskRel sym M y' z) : y = y' := by
  obtain ⟨i, j, t, x, b, w, hi, hj, hn, rfl, rfl⟩ := h1
  obtain ⟨i', j', t', x', b', w', hi', hj', hn', rfl, he⟩ := h2
  simp only [Prod.mk.injEq, List.cons.injEq, and_true] at he
  obtain ⟨rfl, rfl⟩ := he
  have := position_inj h.large hj hj'
  subst this
  have : i = i' := hn.2.symm.trans hn'.2
  subst this
  obtain ⟨rfl, rfl⟩ := position_unique h.smallOK hi hi'
  rfl

theorem maskRel_fun (h : MaskSane sym M) {y z z' : List ℕ × List ℕ} (h1 : MaskRel sym M y z)
    (h2 : MaskRel sym M y z') : z = z' := by
  obtain ⟨i, j, t, x, b, w, hi, hj, hn, rfl, rfl⟩ := h1
  obtain ⟨i', j', t', x', b', w', hi', hj', hn', he, rfl⟩ := h2
  simp only [Prod.mk.injEq, List.cons.injEq, and_true] at he
  obtain ⟨rfl, rfl⟩ := he
  have := position_inj h.smallOK hi hi'
  subst this
  have := nth_unique hn hn'
  subst this
  obtain ⟨rfl, rfl⟩ := position_unique h.large hj hj'
  rfl

theorem maskRel_surj (h : MaskSane sym M) {b w : ℕ} (hbw : IsDiagIndex M.large.mults b w)
    (hk : diagEntry M.ents b w = true) :
    ∃ y ∈ basis [M.small.mults], MaskRel sym M y ([b], [w]) := by
  obtain ⟨j, hj⟩ := exists_position h.large hbw
  have h1 := (asBlockMask_spec h).2 j b w hj
  rw [hk] at h1
  have hn : IsNthTrue (asBlockMask sym M) (((asBlockMask sym M).take j).count true) j := ⟨h1, rfl⟩
  have hlt := nth_lt h hn
  obtain ⟨t, x, hp, htx⟩ := position_of_lt h.smallOK hlt
  exact ⟨_, mem_basis_one.2 ⟨t, x, htx, rfl⟩, _, j, t, x, b, w, hp, hj, hn, rfl, rfl⟩

theorem maskRel_kept (h : MaskSane sym M) {y : List ℕ × List ℕ} {z : List ℕ × List ℕ}
    (hr : MaskRel sym M y z) : diagEntry M.ents (z.1.getD 0 0) (z.2.getD 0 0) = true := by
  obtain ⟨i, j, t, x, b, w, hi, hj, hn, rfl, rfl⟩ := hr
  have h1 := (asBlockMask_spec h).2 j b w hj
  rw [hn.1] at h1
  exact (Option.some.inj h1).symm

/-- A sum over the small leg is a sum over the kept indices of the large leg. -/
theorem mask_sum {α : Type} [AddCommMonoid α] (h : MaskSane sym M)
    (f g : List ℕ × List ℕ → α) (hfg : ∀ y z, MaskRel sym M y z → f y = g z) :
    ((basis [M.small.mults]).map f).sum =
      ((basis [M.large.mults]).map fun z =>
        if diagEntry M.ents (z.1.getD 0 0) (z.2.getD 0 0) = true then g z else 0).sum := by
  classical
  rw [← List.sum_toFinset _ (C34_basis_nodup _), ← List.sum_toFinset _ (C34_basis_nodup _),
    ← Finset.sum_filter]
  refine Finset.sum_bij (fun y hy => (maskRel_exists h (List.mem_toFinset.1 hy)).choose) ?_ ?_ ?_ ?_
  · intro y hy
    have := (maskRel_exists h (List.mem_toFinset.1 hy)).choose_spec
    exact Finset.mem_filter.2 ⟨List.mem_toFinset.2 this.2, maskRel_kept h this.1⟩
  · intro y hy y' hy' he
    have h1 := (maskRel_exists h (List.mem_toFinset.1 hy)).choose_spec.1
    have h2 := (maskRel_exists h (List.mem_toFinset.1 hy')).choose_spec.1
    rw [← he] at h2
    exact maskRel_inj h h1 h2
  · intro z hz
    obtain ⟨h1, h2⟩ := Finset.mem_filter.1 hz
    obtain ⟨b, w, hbw, rfl⟩ := mem_basis_one.1 (List.mem_toFinset.1 h1)
    obtain ⟨y, hy, hr⟩ := maskRel_surj h hbw h2
    refine ⟨y, List.mem_toFinset.2 hy, ?_⟩
    have h3 := (maskRel_exists h hy).choose_spec.1
    obtain ⟨i, j, t, x, b', w', hi, hj, hn, rfl, he⟩ := hr
    obtain ⟨i', j', t', x', b'', w'', hi', hj', hn', he', he''⟩ := h3
    simp only [Prod.mk.injEq, List.cons.injEq, and_true] at he'
    obtain ⟨rfl, rfl⟩ := he'
    have e1 := position_inj h.smallOK hi hi'
    subst e1
    have e2 : j = j' := nth_unique hn hn'
    subst e2
    obtain ⟨rfl, rfl⟩ := position_unique h.large hj hj'
    rw [he'', he]
  · intro y hy
    exact hfg _ _ (maskRel_exists h (List.mem_toFinset.1 hy)).choose_spec.1

end Mask

/-! ## Orthonormal factors -/

theorem frob {X Y Z : Type} [DecidableEq Y] (lx : List X) (ly : List Y) (lz : List Z) (hnd : ly.Nodup)
    (u : X → Y → ℂ) (v : Y → Z → ℂ) (w : Y → ℂ)
    (hu : ∀ y ∈ ly, ∀ y' ∈ ly, (lx.map fun x => star (u x y) * u x y').sum = if y = y' then 1 else 0)
    (hv : ∀ y ∈ ly, ∀ y' ∈ ly, (lz.map fun z => v y z * star (v y' z)).sum = if y = y' then 1 else 0) :
    (lx.map fun x => (lz.map fun z => ‖(ly.map fun y => u x y * w y * v y z).sum‖ ^ 2).sum).sum =
      (ly.map fun y => ‖w y‖ ^ 2).sum := by
  have key : ((lx.map fun x => (lz.map fun z =>
      (ly.map fun y => u x y * w y * v y z).sum *
        star (ly.map fun y => u x y * w y * v y z).sum).sum).sum : ℂ) =
      (ly.map fun y => w y * star (w y)).sum := by
    have e1 : ∀ x z, (ly.map fun y => u x y * w y * v y z).sum *
        star (ly.map fun y => u x y * w y * v y z).sum =
        (ly.map fun y => (ly.map fun y' => w y * star (w y') *
          ((star (u x y') * u x y) * (v y z * star (v y' z)))).sum).sum := by
      intro x z
      have : star (ly.map fun y => u x y * w y * v y z).sum =
          (ly.map fun y => star (u x y * w y * v y z)).sum := by
        rw [show ∀ l : List ℂ, star l.sum = (starRingEnd ℂ) l.sum from fun _ => rfl, map_list_sum,
          List.map_map]
        rfl
      rw [this, sum_mul_sum]
      refine sum_congr _ fun y _ => sum_congr _ fun y' _ => ?_
      rw [star_mul', star_mul']
      ring
    simp only [e1]
    have e2 : ∀ y y', (lx.map fun x => (lz.map fun z => w y * star (w y') *
        ((star (u x y') * u x y) * (v y z * star (v y' z)))).sum).sum =
        w y * star (w y') * ((lx.map fun x => star (u x y') * u x y).sum *
          (lz.map fun z => v y z * star (v y' z)).sum) := by
      intro y y'
      rw [sum_mul_sum, mul_sum]
      refine sum_congr _ fun x _ => ?_
      rw [mul_sum]
    have e3 : (lx.map fun x => (lz.map fun z => (ly.map fun y => (ly.map fun y' => w y * star (w y') *
          ((star (u x y') * u x y) * (v y z * star (v y' z)))).sum).sum).sum).sum =
        (ly.map fun y => (ly.map fun y' => (lx.map fun x => (lz.map fun z => w y * star (w y') *
          ((star (u x y') * u x y) * (v y z * star (v y' z)))).sum).sum).sum).sum := by
      have : ∀ x, (lz.map fun z => (ly.map fun y => (ly.map fun y' => w y * star (w y') *
          ((star (u x y') * u x y) * (v y z * star (v y' z)))).sum).sum).sum =
          (ly.map fun y => (ly.map fun y' => (lz.map fun z => w y * star (w y') *
          ((star (u x y') * u x y) * (v y z * star (v y' z)))).sum).sum).sum := by
        intro x
        rw [sum_comm]
        exact sum_congr _ fun y _ => sum_comm _ _ _
      simp only [this]
      rw [sum_comm]
      exact sum_congr _ fun y _ => sum_comm _ _ _
    rw [e3]
    refine sum_congr _ fun y hy => ?_
    simp only [e2]
    rw [sum_single' ly hnd y hy]
    · rw [hu y hy y hy, hv y hy y hy]; simp
    · intro y' hy' hne
      rw [hu y' hy' y hy, if_neg hne]; simp
  have hn : ∀ a : ℂ, ((‖a‖ ^ 2 : ℝ) : ℂ) = a * star a := fun a => by
    show _ = a * (starRingEnd ℂ) a
    rw [Complex.mul_conj, Complex.normSq_eq_norm_sq]
  have hs : ∀ l : List ℝ, ((l.sum : ℝ) : ℂ) = (l.map fun a : ℝ => (a : ℂ)).sum := fun l => by
    rw [show ((l.sum : ℝ) : ℂ) = Complex.ofRealHom l.sum from rfl, map_list_sum]
    rfl
  apply Complex.ofReal_injective
  rw [hs, hs, List.map_map, List.map_map]
  simp only [Function.comp_def, hs, List.map_map, hn]
  exact key

end Cyten.Props
