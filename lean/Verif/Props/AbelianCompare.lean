import Verif.Model.AbelianExp
import Verif.Props.AbelianLinear
import Verif.Props.AbelianOuter
import Verif.Props.AbelianAlgebra
import Mathlib.Data.List.ReduceOption
import Mathlib.Analysis.RCLike.Basic

/-!
# C58: comparing tensors (`almost_equal`), C59: removing trivial legs (`squeeze_legs`)
-/

namespace Cyten.Props
open Cyten.Abelian Cyten.Abelian.Spec Cyten.Tables Cyten.Tools Cyten.ListSum

variable {K : Type}

/-- **C58**: what `almost_equal(a, b)` decides, for every entry: `|a - b| ≤ atol + rtol |b|` where a block of
`a` is stored, `|b| ≤ atol` where no block of `a` is stored. -/
theorem C58_almost_equal_iff [NormedRing K] (M : List (List ℕ)) (a b : Ents K) (rtol atol : ℝ)
    (ht : 0 ≤ atol) (ha : Sane M a) (hb : Sane M b) :
    almostEqual a b rtol atol ↔ ∀ row pos, IsIndex M row pos →
      ((∃ p ∈ a, p.1 = row) → ‖dense a row pos - dense b row pos‖ ≤ atol + rtol * ‖dense b row pos‖) ∧
      ((∀ p ∈ a, p.1 ≠ row) → ‖dense b row pos‖ ≤ atol) := by
  obtain ⟨-, -, h3, h4, h5, h6⟩ := C20_iter_common_noncommon M.length (a.map Prod.fst) (b.map Prod.fst)
    (fun r hr => by
      obtain ⟨p, hp, rfl⟩ := List.mem_map.1 hr
      simpa using (ha.inRange p hp).length_eq)
    (fun r hr => by
      obtain ⟨p, hp, rfl⟩ := List.mem_map.1 hr
      simpa using (hb.inRange p hp).length_eq) ha.sorted hb.sorted
  unfold almostEqual
  generalize iterCommonNoncommon cmpLexsort (a.map Prod.fst) (b.map Prod.fst) = res at h3 h4 h5 h6
  have hgrid : ∀ (M : List (List ℕ)) (T : Ents K), Sane M T → ∀ p ∈ T, ∀ i,
      i ∈ gridC p.2.shape ↔ IsIndex M p.1 i := by
    intro M T hT p hp i
    rw [mem_gridC, hT.shapes p hp]
    exact ⟨fun h => ⟨hT.inRange p hp, h⟩, fun h => h.2⟩
  constructor
  · intro h row pos hi
    refine ⟨?_, ?_⟩
    · rintro ⟨p, hp, rfl⟩
      obtain ⟨i, hpi⟩ := List.mem_iff_getElem?.1 hp
      rw [ha.dense_of_mem hp]
      by_cases hm : ∃ q ∈ b, q.1 = p.1
      · obtain ⟨q, hq, he⟩ := hm
        obtain ⟨j, hqj⟩ := List.mem_iff_getElem?.1 hq
        have := h _ ((h3 i j).2 ⟨p.1, by rw [List.getElem?_map, hpi]; rfl,
          by rw [List.getElem?_map, hqj]; exact congrArg some he⟩) p q hpi hqj pos
          ((hgrid M a ha p hp pos).2 hi)
        rwa [← he, hb.dense_of_mem hq]
      · push Not at hm
        rw [dense_of_not_mem hm, sub_zero, norm_zero, mul_zero, add_zero]
        exact h _ ((h4 i).2 ⟨p.1, by rw [List.getElem?_map, hpi]; rfl, fun hc => by
          obtain ⟨q, hq, he⟩ := List.mem_map.1 hc
          exact hm q hq he⟩) p hpi pos ((hgrid M a ha p hp pos).2 hi)
    · intro hn
      by_cases hm : ∃ q ∈ b, q.1 = row
      · obtain ⟨q, hq, rfl⟩ := hm
        obtain ⟨j, hqj⟩ := List.mem_iff_getElem?.1 hq
        rw [hb.dense_of_mem hq]
        exact h _ ((h5 j).2 ⟨q.1, by rw [List.getElem?_map, hqj]; rfl, fun hc => by
          obtain ⟨p, hp, he⟩ := List.mem_map.1 hc
          exact hn p hp he⟩) q hqj pos ((hgrid M b hb q hq pos).2 hi)
      · push Not at hm
        rw [dense_of_not_mem hm, norm_zero]
        exact ht
  · rintro h ⟨i, j⟩ hij
    match i, j, hij with
    | none, none, hij => exact absurd hij h6
    | some i, none, hij =>
      intro p hp x hx
      have hpm := List.mem_of_getElem? hp
      have := (h p.1 x ((hgrid M a ha p hpm x).1 hx)).1 ⟨p, hpm, rfl⟩
      obtain ⟨r, hr1, hr2⟩ := (h4 i).1 hij
      rw [List.getElem?_map, hp] at hr1
      have he : p.1 = r := Option.some.inj hr1
      rw [ha.dense_of_mem hpm, dense_of_not_mem fun q hq hqe =>
        hr2 (List.mem_map.2 ⟨q, hq, hqe.trans he⟩), sub_zero, norm_zero, mul_zero, add_zero] at this
      exact this
    | none, some j, hij =>
      intro q hq x hx
      have hqm := List.mem_of_getElem? hq
      obtain ⟨r, hr1, hr2⟩ := (h5 j).1 hij
      rw [List.getElem?_map, hq] at hr1
      have he : q.1 = r := Option.some.inj hr1
      have := (h q.1 x ((hgrid M b hb q hqm x).1 hx)).2 fun p hp hpe =>
        hr2 (List.mem_map.2 ⟨p, hp, hpe.trans he⟩)
      rwa [hb.dense_of_mem hqm] at this
    | some i, some j, hij =>
      intro p q hp hq x hx
      have hpm := List.mem_of_getElem? hp
      have hqm := List.mem_of_getElem? hq
      obtain ⟨r, hr1, hr2⟩ := (h3 i j).1 hij
      rw [List.getElem?_map, hp] at hr1
      rw [List.getElem?_map, hq] at hr2
      have he : p.1 = q.1 := (Option.some.inj hr1).trans (Option.some.inj hr2).symm
      have := (h p.1 x ((hgrid M a ha p hpm x).1 hx)).1 ⟨p, hpm, rfl⟩
      rw [ha.dense_of_mem hpm, he, hb.dense_of_mem hqm] at this
      exact this

/-- **C58**: if `almost_equal(a, b)` is true, then `|a - b| ≤ atol + rtol |b|` for every entry, whatever
blocks are stored. -/
theorem C58_almost_equal_sound [NormedRing K] (M : List (List ℕ)) (a b : Ents K) (rtol atol : ℝ)
    (ht : 0 ≤ atol) (hr : 0 ≤ rtol) (ha : Sane M a) (hb : Sane M b) (h : almostEqual a b rtol atol)
    (row pos : List ℕ) (hi : IsIndex M row pos) :
    ‖dense a row pos - dense b row pos‖ ≤ atol + rtol * ‖dense b row pos‖ := by
  obtain ⟨h1, h2⟩ := (C58_almost_equal_iff M a b rtol atol ht ha hb).1 h row pos hi
  by_cases hm : ∃ p ∈ a, p.1 = row
  · exact h1 hm
  · push Not at hm
    rw [dense_of_not_mem hm, zero_sub, norm_neg]
    have := mul_nonneg hr (norm_nonneg (dense b row pos))
    linarith [h2 hm]

/-- **C58**: conversely, if `|a - b| ≤ atol + rtol |b|` for every entry, `almost_equal(a, b)` is true,
provided that every block stored in `b` is stored in `a`, or that `rtol` is zero. -/
theorem C58_almost_equal_complete_partial [NormedRing K] (M : List (List ℕ)) (a b : Ents K) (rtol atol : ℝ)
    (ht : 0 ≤ atol) (ha : Sane M a) (hb : Sane M b)
    (hs : rtol = 0 ∨ ∀ q ∈ b, ∃ p ∈ a, p.1 = q.1)
    (h : ∀ row pos, IsIndex M row pos →
      ‖dense a row pos - dense b row pos‖ ≤ atol + rtol * ‖dense b row pos‖) :
    almostEqual a b rtol atol := by
  refine (C58_almost_equal_iff M a b rtol atol ht ha hb).2 fun row pos hi => ⟨fun _ => h row pos hi, ?_⟩
  intro hn
  rcases hs with rfl | hs
  · have := h row pos hi
    rwa [dense_of_not_mem hn, zero_sub, norm_neg, zero_mul, add_zero] at this
  · rw [dense_of_not_mem fun q hq he => ?_, norm_zero]
    · exact ht
    · obtain ⟨p, hp, hpq⟩ := hs q hq
      exact hn p hp (hpq.trans he)

/-- The dense array of a tensor whose entries are all `x`, in one leg with one sector. -/
def constEnt (x : ℝ) : Ents ℝ := [([0], ⟨[1], fun _ => x⟩)]

theorem constEnt_sane (x : ℝ) : Sane [[1]] (constEnt x) := by
  refine ⟨?_, ?_, List.pairwise_singleton _ _⟩
  · intro p hp
    rw [List.mem_singleton.1 hp]
    exact .cons (by decide) .nil
  · intro p hp
    rw [List.mem_singleton.1 hp]
    rfl

/-- **C58**, negation: the result depends on whether a zero block is stored: the same tensors, with the same
tolerances, are "almost equal" or not. -/
theorem C58_almost_equal_bug : ∃ a a' b : Ents ℝ, Sane [[1]] a ∧ Sane [[1]] a' ∧ Sane [[1]] b ∧
    (∀ row pos, dense a row pos = dense a' row pos) ∧
    almostEqual a b 1 0 ∧ ¬ almostEqual a' b 1 0 := by
  have h0 : Sane [[1]] ([] : Ents ℝ) := ⟨by simp, by simp, List.Pairwise.nil⟩
  refine ⟨constEnt 0, [], constEnt 1, constEnt_sane 0, h0, constEnt_sane 1, ?_, ?_, ?_⟩
  · intro row pos
    simp [dense, constEnt]
  · refine (C58_almost_equal_iff [[1]] _ _ 1 0 le_rfl (constEnt_sane 0) (constEnt_sane 1)).2 ?_
    intro row pos hi
    refine ⟨fun _ => ?_, fun hn => ?_⟩
    · simp only [dense, constEnt]
      simp
    · obtain ⟨hr, -⟩ := hi
      cases hr with
      | cons h t =>
        cases t
        have : _ = 0 := Nat.lt_one_iff.1 h
        subst this
        exact absurd rfl (hn _ List.mem_cons_self)
  · intro h
    have := ((C58_almost_equal_iff [[1]] _ _ 1 0 le_rfl h0 (constEnt_sane 1)).1 h [0] [0]
      ⟨.cons (by decide) .nil, .cons (by decide) .nil⟩).2 (by simp)
    simp [dense, constEnt] at this
    linarith

/-! ## Removing trivial legs -/

section Squeeze
variable {α β γ : Type}

theorem dropAt_append (idcs : List ℕ) (k : ℕ) (l m : List α) :
    dropAt idcs k (l ++ m) = dropAt idcs k l ++ dropAt idcs (k + l.length) m := by
  induction l generalizing k with
  | nil => rfl
  | cons a l ih =>
    show (if k ∈ idcs then dropAt idcs (k + 1) (l ++ m) else a :: dropAt idcs (k + 1) (l ++ m)) =
      (if k ∈ idcs then _ else _) ++ _
    rw [ih, List.length_cons, show k + 1 + l.length = k + (l.length + 1) by omega]
    by_cases h : k ∈ idcs
    · rw [if_pos h, if_pos h]
    · rw [if_neg h, if_neg h]; rfl

theorem dropAt_map (idcs : List ℕ) (f : α → β) (k : ℕ) (l : List α) :
    dropAt idcs k (l.map f) = (dropAt idcs k l).map f := by
  induction l generalizing k with
  | nil => rfl
  | cons a l ih =>
    show (if k ∈ idcs then _ else _) = (if k ∈ idcs then _ else _ : List α).map f
    rw [ih]
    by_cases h : k ∈ idcs
    · rw [if_pos h, if_pos h]
    · rw [if_neg h, if_neg h]; rfl

theorem dropAt_zipWith (idcs : List ℕ) (f : α → β → γ) (k : ℕ) (a : List α) (b : List β) :
    dropAt idcs k (List.zipWith f a b) = List.zipWith f (dropAt idcs k a) (dropAt idcs k b) := by
  induction a generalizing k b with
  | nil => simp [dropAt]
  | cons x a ih =>
    cases b with
    | nil => simp [dropAt]
    | cons y b =>
      show (if k ∈ idcs then _ else _) = List.zipWith f (if k ∈ idcs then _ else _) (if k ∈ idcs then _ else _)
      rw [ih]
      by_cases h : k ∈ idcs
      · rw [if_pos h, if_pos h, if_pos h]
      · rw [if_neg h, if_neg h, if_neg h]; rfl

theorem dropAt_forall₂ (idcs : List ℕ) (r : α → β → Prop) (k : ℕ) {a : List α} {b : List β}
    (h : List.Forall₂ r a b) : List.Forall₂ r (dropAt idcs k a) (dropAt idcs k b) := by
  induction h generalizing k with
  | nil => exact .nil
  | cons hxy _ ih =>
    show List.Forall₂ r (if k ∈ idcs then _ else _) (if k ∈ idcs then _ else _)
    by_cases h : k ∈ idcs
    · rw [if_pos h, if_pos h]; exact ih _
    · rw [if_neg h, if_neg h]; exact .cons hxy (ih _)

/-- The entries at the positions `idcs` are zero. -/
def ZeroAt (idcs : List ℕ) : ℕ → List ℕ → Prop
  | _, [] => True
  | k, x :: xs => (k ∈ idcs → x = 0) ∧ ZeroAt idcs (k + 1) xs

theorem insertZeros_dropAt (idcs : List ℕ) (k : ℕ) (l : List ℕ) (h : ZeroAt idcs k l) :
    insertZeros idcs l.length k (dropAt idcs k l) = l := by
  induction l generalizing k with
  | nil => rfl
  | cons x l ih =>
    obtain ⟨h1, h2⟩ := h
    by_cases hk : k ∈ idcs
    · have e : dropAt idcs k (x :: l) = dropAt idcs (k + 1) l := if_pos hk
      rw [e]
      show (if k ∈ idcs then _ else _) = _
      rw [if_pos hk, ih _ h2, h1 hk]
    · have e : dropAt idcs k (x :: l) = x :: dropAt idcs (k + 1) l := if_neg hk
      rw [e]
      show (if k ∈ idcs then _ else _) = _
      rw [if_neg hk]
      show x :: insertZeros idcs l.length (k + 1) (dropAt idcs (k + 1) l) = _
      rw [ih _ h2]

theorem dropAt_inj {idcs : List ℕ} {k : ℕ} {a b : List ℕ} (ha : ZeroAt idcs k a) (hb : ZeroAt idcs k b)
    (hl : a.length = b.length) (h : dropAt idcs k a = dropAt idcs k b) : a = b := by
  rw [← insertZeros_dropAt idcs k a ha, ← insertZeros_dropAt idcs k b hb, h, hl]

theorem length_dropAt (idcs : List ℕ) (k : ℕ) {a : List α} {b : List β} (h : a.length = b.length) :
    (dropAt idcs k a).length = (dropAt idcs k b).length :=
  (dropAt_forall₂ idcs (fun _ _ => True) k (List.forall₂_iff_get.2 ⟨h, fun _ _ _ => trivial⟩)).length_eq

theorem reverse_lt_cons (x y : ℕ) (r s : List ℕ) (h : r.length = s.length) :
    (x :: r).reverse < (y :: s).reverse ↔ r.reverse < s.reverse ∨ (r = s ∧ x < y) := by
  rw [List.reverse_cons, List.reverse_cons]
  have key : ∀ (u v : List ℕ), u.length = v.length → (u ++ [x] < v ++ [y] ↔ u < v ∨ (u = v ∧ x < y)) := by
    intro u
    induction u with
    | nil =>
      intro v hv
      cases v with
      | nil => simp [List.cons_lt_cons_iff]
      | cons _ _ => simp at hv
    | cons a u ih =>
      intro v hv
      cases v with
      | nil => simp at hv
      | cons b v =>
        rw [List.cons_append, List.cons_append, List.cons_lt_cons_iff, List.cons_lt_cons_iff,
          ih v (by simpa using hv), List.cons.injEq]
        constructor
        · rintro (h | ⟨h, h' | h'⟩)
          · exact Or.inl (Or.inl h)
          · exact Or.inl (Or.inr ⟨h, h'⟩)
          · exact Or.inr ⟨⟨h, h'.1⟩, h'.2⟩
        · rintro ((h | h) | h)
          · exact Or.inl h
          · exact Or.inr ⟨h.1, Or.inl h.2⟩
          · exact Or.inr ⟨h.1.1, Or.inr ⟨h.1.2, h.2⟩⟩
  rw [key _ _ (by simpa using h), List.reverse_inj]

theorem dropAt_lt (idcs : List ℕ) (k : ℕ) {r s : List ℕ} (hr : ZeroAt idcs k r) (hs : ZeroAt idcs k s)
    (hl : r.length = s.length) (h : r.reverse < s.reverse) :
    (dropAt idcs k r).reverse < (dropAt idcs k s).reverse := by
  induction r generalizing k s with
  | nil =>
    cases s with
    | nil => exact h
    | cons _ _ => simp at hl
  | cons x r ih =>
    cases s with
    | nil => simp at hl
    | cons y s =>
      obtain ⟨hr1, hr2⟩ := hr
      obtain ⟨hs1, hs2⟩ := hs
      have hl' : r.length = s.length := by simpa using hl
      rw [reverse_lt_cons _ _ _ _ hl'] at h
      by_cases hk : k ∈ idcs
      · have e1 : dropAt idcs k (x :: r) = dropAt idcs (k + 1) r := if_pos hk
        have e2 : dropAt idcs k (y :: s) = dropAt idcs (k + 1) s := if_pos hk
        rw [e1, e2]
        rcases h with h | ⟨-, h⟩
        · exact ih _ hr2 hs2 hl' h
        · rw [hr1 hk, hs1 hk] at h
          exact absurd h (lt_irrefl 0)
      · have e1 : dropAt idcs k (x :: r) = x :: dropAt idcs (k + 1) r := if_neg hk
        have e2 : dropAt idcs k (y :: s) = y :: dropAt idcs (k + 1) s := if_neg hk
        rw [e1, e2, reverse_lt_cons _ _ _ _ (length_dropAt _ _ hl')]
        rcases h with h | ⟨h1, h2⟩
        · exact Or.inl (ih _ hr2 hs2 hl' h)
        · exact Or.inr ⟨by rw [h1], h2⟩

end Squeeze

/-- The legs `idcs` (counted from `k`) have one sector of multiplicity one. -/
def TrivialAt (idcs : List ℕ) : ℕ → List (List ℕ) → Prop
  | _, [] => True
  | k, m :: ms => (k ∈ idcs → m = [1]) ∧ TrivialAt idcs (k + 1) ms

theorem zeroAt_row {idcs : List ℕ} {k : ℕ} {M : List (List ℕ)} {row : List ℕ} (h : TrivialAt idcs k M)
    (hr : InShape row (M.map List.length)) : ZeroAt idcs k row := by
  induction M generalizing k row with
  | nil => cases hr; trivial
  | cons m M ih =>
    obtain ⟨x, t, hx, ht, rfl⟩ := List.forall₂_cons_right_iff.1 hr
    refine ⟨fun hk => ?_, ih h.2 ht⟩
    rw [h.1 hk] at hx
    exact Nat.lt_one_iff.1 hx

theorem zeroAt_pos {idcs : List ℕ} {k : ℕ} {M : List (List ℕ)} {row pos : List ℕ} (h : TrivialAt idcs k M)
    (hr : InShape row (M.map List.length)) (hp : InShape pos (shapeOf M row)) : ZeroAt idcs k pos := by
  induction M generalizing k row pos with
  | nil => cases hr; cases hp; trivial
  | cons m M ih =>
    obtain ⟨x, t, hx, ht, rfl⟩ := List.forall₂_cons_right_iff.1 hr
    obtain ⟨y, u, hy, hu, rfl⟩ := List.forall₂_cons_right_iff.1
      (show InShape pos (m.getD x 0 :: shapeOf M t) from hp)
    refine ⟨fun hk => ?_, ih h.2 ht hu⟩
    rw [h.1 hk] at hx hy
    have : x = 0 := Nat.lt_one_iff.1 hx
    subst this
    exact Nat.lt_one_iff.1 hy

/-- **C59**, **C41**: removing trivial legs keeps the data consistent; the rows stay sorted. -/
theorem C59_squeeze_sane (M : List (List ℕ)) (idcs : List ℕ) (h : TrivialAt idcs 0 M) (T : Ents K)
    (hT : Sane M T) : Sane (dropAt idcs 0 M) (squeezeLegs T idcs) := by
  have hmem : ∀ p ∈ squeezeLegs T idcs, ∃ q ∈ T, p = (dropAt idcs 0 q.1, q.2.squeezeAxes idcs) := by
    intro p hp
    obtain ⟨q, hq, rfl⟩ := List.mem_map.1 (mem_mkData.1 hp)
    exact ⟨q, hq, rfl⟩
  refine ⟨fun p hp => ?_, fun p hp => ?_, ?_⟩
  · obtain ⟨q, hq, rfl⟩ := hmem p hp
    show InShape (dropAt idcs 0 q.1) ((dropAt idcs 0 M).map List.length)
    rw [← dropAt_map]
    exact dropAt_forall₂ idcs _ 0 (hT.inRange q hq)
  · obtain ⟨q, hq, rfl⟩ := hmem p hp
    show dropAt idcs 0 q.2.shape = _
    rw [hT.shapes q hq]
    exact dropAt_zipWith _ _ _ _ _
  · show StrictlySorted ((T.map fun p => (dropAt idcs 0 p.1, p.2.squeezeAxes idcs)).map Prod.fst)
    rw [List.map_map]
    unfold StrictlySorted
    rw [List.pairwise_map]
    refine hT.keySorted.imp_of_mem fun {p q} hp hq hpq => ?_
    have lp := hT.rowLength hp
    have lq := hT.rowLength hq
    show RowLt (dropAt idcs 0 p.1) (dropAt idcs 0 q.1)
    rw [rowLt_iff _ _ (length_dropAt _ _ (lp.trans lq.symm))]
    exact dropAt_lt idcs 0 (zeroAt_row h (hT.inRange p hp)) (zeroAt_row h (hT.inRange q hq))
      (lp.trans lq.symm) hpq

/-- **C59**: `squeeze_legs` keeps every entry: the entry at a multi-index without the components of the
removed legs is the entry of the tensor. -/
theorem C59_squeeze [AddCommMonoid K] (M : List (List ℕ)) (idcs : List ℕ) (h : TrivialAt idcs 0 M)
    (T : Ents K) (hT : Sane M T) (row pos : List ℕ) (hi : IsIndex M row pos) :
    dense (squeezeLegs T idcs) (dropAt idcs 0 row) (dropAt idcs 0 pos) = dense T row pos := by
  unfold squeezeLegs
  rw [dense_mkData]
  unfold dense
  rw [List.map_map]
  refine sum_congr _ fun p hp => ?_
  simp only [Function.comp]
  have hr := zeroAt_row h hi.1
  have hrp := zeroAt_row h (hT.inRange p hp)
  have hll : p.1.length = row.length := by
    rw [hT.rowLength hp]; simpa using hi.1.length_eq.symm
  by_cases he : p.1 = row
  · rw [if_pos (by rw [he]), if_pos he]
    show p.2.val (insertZeros idcs p.2.shape.length 0 (dropAt idcs 0 pos)) = _
    rw [hT.shapes p hp, he, show (shapeOf M row).length = pos.length from hi.2.length_eq.symm,
      insertZeros_dropAt _ _ _ (zeroAt_pos h hi.1 hi.2)]
  · rw [if_neg he, if_neg fun hd => he (dropAt_inj hrp hr hll hd)]

/-- **C59**: the basis vectors without the components of the removed legs are exactly the basis vectors of
the new legs. -/
theorem C59_basis (M : List (List ℕ)) (idcs : List ℕ) (k : ℕ) (h : TrivialAt idcs k M) :
    (∀ row pos, IsIndex M row pos → IsIndex (dropAt idcs k M) (dropAt idcs k row) (dropAt idcs k pos)) ∧
    (∀ row pos row' pos', IsIndex M row pos → IsIndex M row' pos' →
      dropAt idcs k row = dropAt idcs k row' → dropAt idcs k pos = dropAt idcs k pos' →
      row = row' ∧ pos = pos') ∧
    ∀ row pos, IsIndex (dropAt idcs k M) row pos →
      ∃ row' pos', IsIndex M row' pos' ∧ row = dropAt idcs k row' ∧ pos = dropAt idcs k pos' := by
  refine ⟨fun row pos hi => ?_, fun row pos row' pos' hi hi' h1 h2 => ?_, ?_⟩
  · refine ⟨?_, ?_⟩
    · rw [← dropAt_map]
      exact dropAt_forall₂ idcs _ k hi.1
    · have : shapeOf (dropAt idcs k M) (dropAt idcs k row) = dropAt idcs k (shapeOf M row) :=
        (dropAt_zipWith _ _ _ _ _).symm
      rw [this]
      exact dropAt_forall₂ idcs _ k hi.2
  · have e1 : row = row' := dropAt_inj (zeroAt_row h hi.1) (zeroAt_row h hi'.1)
      (hi.1.length_eq.trans hi'.1.length_eq.symm) h1
    subst e1
    exact ⟨rfl, dropAt_inj (zeroAt_pos h hi.1 hi.2) (zeroAt_pos h hi'.1 hi'.2)
      (hi.2.length_eq.trans hi'.2.length_eq.symm) h2⟩
  · induction M generalizing k with
    | nil =>
      rintro row pos ⟨h1, h2⟩
      cases h1
      cases h2
      exact ⟨[], [], ⟨.nil, .nil⟩, rfl, rfl⟩
    | cons m M ih =>
      intro row pos hi
      by_cases hk : k ∈ idcs
      · have e : dropAt idcs k (m :: M) = dropAt idcs (k + 1) M := if_pos hk
        rw [e] at hi
        obtain ⟨row', pos', h1, h2, h3⟩ := ih (k + 1) h.2 row pos hi
        refine ⟨0 :: row', 0 :: pos', ⟨.cons ?_ h1.1, .cons ?_ h1.2⟩, ?_, ?_⟩
        · rw [h.1 hk]; exact Nat.one_pos
        · rw [h.1 hk]; exact Nat.one_pos
        · rw [h2]; exact (if_pos hk).symm
        · rw [h3]; exact (if_pos hk).symm
      · have e : dropAt idcs k (m :: M) = m :: dropAt idcs (k + 1) M := if_neg hk
        rw [e] at hi
        obtain ⟨i1, i2⟩ := hi
        obtain ⟨x, t, hx, ht, rfl⟩ := List.forall₂_cons_right_iff.1 i1
        obtain ⟨y, u, hy, hu, rfl⟩ := List.forall₂_cons_right_iff.1
          (show InShape pos (m.getD x 0 :: shapeOf (dropAt idcs (k + 1) M) t) from i2)
        obtain ⟨row', pos', h1, h2, h3⟩ := ih (k + 1) h.2 t u ⟨ht, hu⟩
        refine ⟨x :: row', y :: pos', ⟨.cons hx h1.1, .cons hy h1.2⟩, ?_, ?_⟩
        · rw [h2]; exact (if_neg hk).symm
        · rw [h3]; exact (if_neg hk).symm

/-! ### Symmetry -/

variable {S : Type}

/-- The trivial sector does not change a sector by fusion. -/
def UnitLaws (R : Cyten.FusionRule S) : Prop :=
  ∀ a, Cyten.Spaces.fuse2 R R.unit a = a ∧ Cyten.Spaces.fuse2 R a R.unit = a

/-- The legs `idcs` (counted from `k`) are trivial: one trivial sector of multiplicity one. -/
def TrivialLegsAt (R : Cyten.FusionRule S) (idcs : List ℕ) : ℕ → List (BLeg S) → Prop
  | _, [] => True
  | k, l :: ls => (k ∈ idcs → l.sectors = [R.unit] ∧ l.mults = [1]) ∧ TrivialLegsAt R idcs (k + 1) ls

theorem multipleFusion_unit {R : Cyten.FusionRule S} (hu : UnitLaws R) (l : List S) :
    Cyten.Spaces.multipleFusion R l = l.foldl (Cyten.Spaces.fuse2 R) R.unit := by
  cases l with
  | nil => rfl
  | cons a l =>
    show l.foldl _ a = l.foldl _ (Cyten.Spaces.fuse2 R R.unit a)
    rw [(hu a).1]

/-- The entries at the positions `idcs` are the trivial sector. -/
def UnitAt (u : S) (idcs : List ℕ) : ℕ → List (Option S) → Prop
  | _, [] => True
  | k, x :: xs => (k ∈ idcs → x = some u) ∧ UnitAt u idcs (k + 1) xs

theorem foldl_dropAt {R : Cyten.FusionRule S} (hu : UnitLaws R) (idcs : List ℕ) (k : ℕ)
    (L : List (Option S)) (h : UnitAt R.unit idcs k L) (c : S) :
    (dropAt idcs k L).reduceOption.foldl (Cyten.Spaces.fuse2 R) c =
      L.reduceOption.foldl (Cyten.Spaces.fuse2 R) c := by
  induction L generalizing k c with
  | nil => rfl
  | cons x L ih =>
    by_cases hk : k ∈ idcs
    · have e : dropAt idcs k (x :: L) = dropAt idcs (k + 1) L := if_pos hk
      rw [e, h.1 hk, ih _ h.2, List.reduceOption_cons_of_some, List.foldl_cons, (hu c).2]
    · have e : dropAt idcs k (x :: L) = x :: dropAt idcs (k + 1) L := if_neg hk
      rw [e]
      cases x with
      | none => rw [List.reduceOption_cons_of_none, List.reduceOption_cons_of_none, ih _ h.2]
      | some x =>
        rw [List.reduceOption_cons_of_some, List.reduceOption_cons_of_some, List.foldl_cons,
          List.foldl_cons, ih _ h.2]

theorem foldr_dropAt {R : Cyten.FusionRule S} (hu : UnitLaws R) (idcs : List ℕ) (k : ℕ)
    (L : List (Option S)) (h : UnitAt R.unit idcs k L) (c : S) :
    (dropAt idcs k L).reduceOption.foldr (fun a b => Cyten.Spaces.fuse2 R b a) c =
      L.reduceOption.foldr (fun a b => Cyten.Spaces.fuse2 R b a) c := by
  induction L generalizing k c with
  | nil => rfl
  | cons x L ih =>
    by_cases hk : k ∈ idcs
    · have e : dropAt idcs k (x :: L) = dropAt idcs (k + 1) L := if_pos hk
      rw [e, h.1 hk, ih _ h.2, List.reduceOption_cons_of_some, List.foldr_cons, (hu _).2]
    · have e : dropAt idcs k (x :: L) = x :: dropAt idcs (k + 1) L := if_neg hk
      rw [e]
      cases x with
      | none => rw [List.reduceOption_cons_of_none, List.reduceOption_cons_of_none, ih _ h.2]
      | some x =>
        rw [List.reduceOption_cons_of_some, List.reduceOption_cons_of_some, List.foldr_cons,
          List.foldr_cons, ih _ h.2]

theorem unitAt_of {R : Cyten.FusionRule S} {idcs : List ℕ} {k : ℕ} {legs : List (BLeg S)} {row : List ℕ}
    (h : TrivialLegsAt R idcs k legs) (hz : ZeroAt idcs k row) :
    UnitAt R.unit idcs k (List.zipWith (fun (l : BLeg S) i => l.sectors[i]?) legs row) := by
  induction legs generalizing k row with
  | nil => exact trivial
  | cons l legs ih =>
    cases row with
    | nil => exact trivial
    | cons x row =>
      refine ⟨fun hk => ?_, ih h.2 hz.2⟩
      show l.sectors[x]? = _
      rw [(h.1 hk).1, hz.1 hk]
      rfl

theorem fusedCharge_dropAt {R : Cyten.FusionRule S} (hu : UnitLaws R) (idcs : List ℕ) (k : ℕ)
    (legs : List (BLeg S)) (row : List ℕ) (h : TrivialLegsAt R idcs k legs) (hz : ZeroAt idcs k row) :
    fusedCharge R (dropAt idcs k legs) (dropAt idcs k row) = fusedCharge R legs row := by
  unfold fusedCharge
  rw [multipleFusion_unit hu, multipleFusion_unit hu, ← dropAt_zipWith]
  exact foldl_dropAt hu idcs k _ (unitAt_of h hz) _

theorem fusedCharge_dropAt_reverse {R : Cyten.FusionRule S} (hu : UnitLaws R) (idcs : List ℕ) (k : ℕ)
    (legs : List (BLeg S)) (row : List ℕ) (h : TrivialLegsAt R idcs k legs) (hz : ZeroAt idcs k row)
    (hl : legs.length = row.length) :
    fusedCharge R (dropAt idcs k legs).reverse (dropAt idcs k row).reverse =
      fusedCharge R legs.reverse row.reverse := by
  unfold fusedCharge
  rw [multipleFusion_unit hu, multipleFusion_unit hu, ← List.reverse_zipWith hl,
    ← List.reverse_zipWith (length_dropAt idcs k hl), ← dropAt_zipWith]
  unfold List.reduceOption
  rw [List.filterMap_reverse, List.filterMap_reverse, List.foldl_reverse, List.foldl_reverse]
  exact foldr_dropAt hu idcs k _ (unitAt_of h hz) _

theorem trivialLegsAt_append {R : Cyten.FusionRule S} {idcs : List ℕ} {k : ℕ} {l m : List (BLeg S)}
    (h : TrivialLegsAt R idcs k (l ++ m)) :
    TrivialLegsAt R idcs k l ∧ TrivialLegsAt R idcs (k + l.length) m := by
  induction l generalizing k with
  | nil => exact ⟨trivial, h⟩
  | cons a l ih =>
    obtain ⟨h1, h2⟩ := ih h.2
    refine ⟨⟨h.1, h1⟩, ?_⟩
    rw [List.length_cons, show k + (l.length + 1) = k + 1 + l.length by omega]
    exact h2

theorem trivialAt_of {R : Cyten.FusionRule S} {idcs : List ℕ} {k : ℕ} {l : List (BLeg S)}
    (h : TrivialLegsAt R idcs k l) : TrivialAt idcs k (multsOf l) := by
  induction l generalizing k with
  | nil => trivial
  | cons a l ih => exact ⟨fun hk => (h.1 hk).2, ih h.2⟩

theorem zeroAt_append {idcs : List ℕ} {k : ℕ} {l m : List ℕ} (h : ZeroAt idcs k (l ++ m)) :
    ZeroAt idcs k l ∧ ZeroAt idcs (k + l.length) m := by
  induction l generalizing k with
  | nil => exact ⟨trivial, h⟩
  | cons a l ih =>
    obtain ⟨h1, h2⟩ := ih h.2
    refine ⟨⟨h.1, h1⟩, ?_⟩
    rw [List.length_cons, show k + (l.length + 1) = k + 1 + l.length by omega]
    exact h2

/-- **C59**: `squeeze_legs` of a symmetric tensor is a symmetric tensor: the legs `idcs` are removed from the
codomain `cod` and the domain `dom` (given by their numbers in `cod ++ dom.reverse`). -/
theorem C59_squeeze_isHom (R : Cyten.FusionRule S) (hu : UnitLaws R) (cod dom : List (BLeg S))
    (idcs : List ℕ) (h : TrivialLegsAt R idcs 0 (cod ++ dom.reverse)) (T : Ents K)
    (hT : IsHom R cod dom T) :
    IsHom R (dropAt idcs 0 cod) (dropAt idcs cod.length dom.reverse).reverse (squeezeLegs T idcs) := by
  have e : multsOf cod ++ (multsOf dom).reverse = multsOf (cod ++ dom.reverse) := by simp [multsOf]
  have hS := hT.sane
  rw [e] at hS
  have htr := trivialAt_of h
  obtain ⟨hc, hd⟩ := trivialLegsAt_append h
  rw [Nat.zero_add] at hd
  refine ⟨?_, ?_⟩
  · have := C59_squeeze_sane _ idcs htr T hS
    convert this using 1
    simp only [multsOf]
    rw [dropAt_map, dropAt_append, Nat.zero_add, List.map_append, List.map_reverse, List.reverse_reverse]
  · intro p hp
    obtain ⟨q, hq, rfl⟩ := List.mem_map.1 (mem_mkData.1 hp)
    have hql : q.1.length = cod.length + dom.length := by
      rw [hS.rowLength hq]; simp [multsOf]
    have hz := zeroAt_row htr (hS.inRange q hq)
    have hq' : q.1.take cod.length ++ q.1.drop cod.length = q.1 := List.take_append_drop _ _
    have htl : (q.1.take cod.length).length = cod.length := by simp [hql]
    rw [← hq'] at hz
    obtain ⟨z1, z2⟩ := zeroAt_append hz
    rw [Nat.zero_add, htl] at z2
    have hsplit : dropAt idcs 0 q.1 = dropAt idcs 0 (q.1.take cod.length) ++
        dropAt idcs cod.length (q.1.drop cod.length) := by
      conv_lhs => rw [← hq', dropAt_append, Nat.zero_add, htl]
    have hlen : (dropAt idcs 0 cod).length = (dropAt idcs 0 (q.1.take cod.length)).length :=
      length_dropAt _ _ htl.symm
    show fusedCharge R (dropAt idcs 0 cod) ((dropAt idcs 0 q.1).take (dropAt idcs 0 cod).length) =
      fusedCharge R (dropAt idcs cod.length dom.reverse).reverse
        ((dropAt idcs 0 q.1).drop (dropAt idcs 0 cod).length).reverse
    rw [hsplit, hlen, List.take_left, List.drop_left, fusedCharge_dropAt hu idcs 0 _ _ hc z1,
      fusedCharge_dropAt_reverse hu idcs cod.length _ _ hd z2 (by simp [hql]), List.reverse_reverse]
    exact hT.charge q hq

/-- **C59**: removing the leg that `add_trivial_leg` has inserted gives the tensor back. -/
theorem C59_squeeze_add [AddCommMonoid K] (M : List (List ℕ)) (T : Ents K) (hT : Sane M T) (k : ℕ)
    (hk : k ≤ M.length) (row pos : List ℕ) (hi : IsIndex M row pos) :
    dense (squeezeLegs (addTrivialLeg T k) [k]) row pos = dense T row pos := by
  have key : ∀ (l : List ℕ) (x j : ℕ), j ≤ k → k - j ≤ l.length →
      dropAt [k] j (l.insertIdx (k - j) x) = l := by
    intro l x
    induction l with
    | nil =>
      intro j h1 h2
      have hj : j = k := by simp at h2; omega
      subst hj
      simp [dropAt]
    | cons a l ih =>
      intro j h1 h2
      by_cases hj : j = k
      · subst hj
        rw [Nat.sub_self, List.insertIdx_zero]
        show (if j ∈ [j] then _ else _) = _
        rw [if_pos (by simp)]
        have : ∀ (l : List ℕ) (i : ℕ), j < i → dropAt [j] i l = l := by
          intro l
          induction l with
          | nil => intro i _; rfl
          | cons b l ih =>
            intro i hi
            show (if i ∈ [j] then _ else _) = _
            rw [if_neg (by simp; omega), ih _ (by omega)]
        exact this _ _ (by omega)
      · obtain ⟨d, hd⟩ : ∃ d, k - j = d + 1 := ⟨k - j - 1, by omega⟩
        rw [hd, List.insertIdx_succ_cons]
        show (if j ∈ [k] then _ else _) = _
        rw [if_neg (by simpa using hj)]
        have := ih (j + 1) (by omega) (by simp at h2; omega)
        rw [show k - (j + 1) = d by omega] at this
        rw [this]
  have hrl : row.length = M.length := by simpa using hi.1.length_eq
  have hpl : pos.length = M.length := by
    have := hi.2.length_eq
    simp [shapeOf, hrl] at this
    omega
  have hkey1 := key row 0 0 (Nat.zero_le _) (by omega)
  have hkey2 := key pos 0 0 (Nat.zero_le _) (by omega)
  rw [Nat.sub_zero] at hkey1 hkey2
  rw [← C46_add_trivial_leg M T hT k hk row pos hrl]
  have hM : TrivialAt [k] 0 (M.insertIdx k [1]) := by
    have : ∀ (M : List (List ℕ)) (j : ℕ), k - j ≤ M.length → j ≤ k →
        TrivialAt [k] j (M.insertIdx (k - j) [1]) := by
      have gt : ∀ (M : List (List ℕ)) (j : ℕ), k < j → TrivialAt [k] j M := by
        intro M
        induction M with
        | nil => intro j _; trivial
        | cons m M ih => intro j hj; exact ⟨fun h => by simp at h; omega, ih _ (by omega)⟩
      intro M
      induction M with
      | nil =>
        intro j h1 h2
        have hj : j = k := by simp at h1; omega
        subst hj
        rw [Nat.sub_self]
        exact ⟨fun _ => rfl, trivial⟩
      | cons m M ih =>
        intro j h1 h2
        by_cases hj : j = k
        · subst hj
          rw [Nat.sub_self, List.insertIdx_zero]
          exact ⟨fun _ => rfl, gt _ _ (by omega)⟩
        · obtain ⟨d, hd⟩ : ∃ d, k - j = d + 1 := ⟨k - j - 1, by omega⟩
          rw [hd, List.insertIdx_succ_cons]
          refine ⟨fun h => absurd (by simpa using h) hj, ?_⟩
          have := ih (j + 1) (by simp at h1; omega) (by omega)
          rwa [show k - (j + 1) = d by omega] at this
    have := this M 0 (by omega) (Nat.zero_le _)
    rwa [Nat.sub_zero] at this
  have hI : IsIndex (M.insertIdx k [1]) (row.insertIdx k 0) (pos.insertIdx k 0) := by
    refine ⟨?_, ?_⟩
    · rw [List.map_insertIdx]
      exact forall₂_insertIdx hi.1 (by simp) k (by omega)
    · unfold shapeOf
      rw [zipWith_insertIdx _ _ _ _ _ _ hrl.symm hk]
      exact forall₂_insertIdx hi.2 (by simp) k (by omega)
  have := C59_squeeze _ [k] hM (addTrivialLeg T k) (C41_add_trivial_leg M T hT k hk) _ _ hI
  rw [hkey1, hkey2] at this
  exact this

/-- Non-vacuity: a symmetric tensor with three legs, the second of which is trivial; `U(1)`-like charges. -/
theorem C59_nonvacuous : ∃ (R : Cyten.FusionRule ℤ) (cod dom : List (BLeg ℤ)) (T : Ents ℤ), UnitLaws R ∧
    TrivialLegsAt R [1] 0 (cod ++ dom.reverse) ∧ IsHom R cod dom T ∧ cod.length = 2 ∧ dom.length = 1 ∧
    (squeezeLegs T [1]).map (fun p => (p.1, p.2.shape)) = [([0, 0], [1, 2]), ([1, 1], [2, 1])] := by
  refine ⟨⟨0, fun a b => [a + b], fun _ _ _ => 1, true⟩, [⟨[0, 1], [1, 2]⟩, ⟨[0], [1]⟩],
    [⟨[0, 1], [2, 1]⟩], [([0, 0, 0], ⟨[1, 1, 2], fun _ => 3⟩), ([1, 0, 1], ⟨[2, 1, 1], fun _ => 4⟩)],
    ?_, ?_, ⟨⟨?_, ?_, ?_⟩, ?_⟩, rfl, rfl, rfl⟩
  · intro a
    simp [Cyten.Spaces.fuse2]
  · simp [TrivialLegsAt]
  · intro p hp
    simp only [List.mem_cons, List.not_mem_nil, or_false] at hp
    rcases hp with rfl | rfl <;>
      exact .cons (by decide) (.cons (by decide) (.cons (by decide) .nil))
  · intro p hp
    simp only [List.mem_cons, List.not_mem_nil, or_false] at hp
    rcases hp with rfl | rfl <;> rfl
  · exact List.pairwise_pair.2 ⟨2, 0, 1, rfl, rfl, by omega, fun m hm => by
      have : 3 ≤ m ∨ m < 3 := by omega
      rcases this with h | h
      · rw [List.getElem?_eq_none (by simpa using h), List.getElem?_eq_none (by simpa using h)]
      · omega⟩
  · intro p hp
    simp only [List.mem_cons, List.not_mem_nil, or_false] at hp
    rcases hp with rfl | rfl <;> decide

end Cyten.Props
