import Verif.Props.TensorGrid
import Verif.Props.AbelianDecomp2

/-! Concrete cases for C81 and C82. -/

namespace Cyten.Props
open Cyten.Abelian Cyten.Abelian.Spec Cyten.Tables Cyten.Tools Cyten.Spaces Cyten.Spaces.Spec
open Cyten.FusionTrees

/-- **C82**: grids whose tensors do not fit together are rejected: if there is a result, all tensors of the grid have the
same legs except for the first one of the codomain and the last one of the domain, the result has these legs, and all
rows have the same length. -/
theorem C82_legs_checked {S K : Type} [LinearOrder S] [Zero K] [Add K] {sym : Sym S}
    {grid : List (List (Option (GTensor S K)))} {t : GTensor S K} (h : tensorFromGrid sym grid = some t) :
    (∀ row ∈ grid, ∀ op : GTensor S K, some op ∈ row → op.cod ≠ [] ∧ op.dom ≠ [] ∧
      SameLegs sym op.cod.tail t.cod.tail ∧ SameLegs sym op.dom.dropLast t.dom.dropLast) ∧
    ∀ row ∈ grid, ∀ row' ∈ grid, row.length = row'.length := by
  unfold tensorFromGrid at h
  obtain ⟨ref, href, h⟩ := Option.bind_eq_some_iff.1 h
  by_cases hc : (!(grid.flatten.reduceOption.all (gridLegsOk sym ref))) = true
  · rw [if_pos hc] at h; cases h
  rw [if_neg hc] at h
  have hall : ∀ op ∈ grid.flatten.reduceOption, gridLegsOk sym ref op = true := by
    have h0 : grid.flatten.reduceOption.all (gridLegsOk sym ref) = true := by simpa using hc
    exact List.all_eq_true.1 h0
  obtain ⟨row0, hrow0, h⟩ := Option.bind_eq_some_iff.1 h
  by_cases hl : (!(grid.all fun row => row.length == row0.length)) = true
  · rw [if_pos hl] at h; cases h
  rw [if_neg hl] at h
  have hlen : ∀ row ∈ grid, row.length = row0.length := by
    have h0 : (grid.all fun row => row.length == row0.length) = true := by simpa using hl
    intro row hr
    simpa using List.all_eq_true.1 h0 row hr
  obtain ⟨rightOps, -, h⟩ := Option.bind_eq_some_iff.1 h
  obtain ⟨rights, -, h⟩ := Option.bind_eq_some_iff.1 h
  obtain ⟨leftOps, -, h⟩ := Option.bind_eq_some_iff.1 h
  obtain ⟨lefts, -, h⟩ := Option.bind_eq_some_iff.1 h
  obtain ⟨l0, -, h⟩ := Option.bind_eq_some_iff.1 h
  obtain ⟨left, -, h⟩ := Option.bind_eq_some_iff.1 h
  obtain ⟨r0, -, h⟩ := Option.bind_eq_some_iff.1 h
  obtain ⟨right, -, h⟩ := Option.bind_eq_some_iff.1 h
  obtain ⟨data, -, rfl⟩ := Option.map_eq_some_iff.1 h
  refine ⟨?_, fun row hr row' hr' => (hlen row hr).trans (hlen row' hr').symm⟩
  intro row hr op hop
  have hmem : op ∈ grid.flatten.reduceOption := by
    rw [List.reduceOption_mem_iff]
    exact List.mem_flatten.2 ⟨row, hr, hop⟩
  have := hall op hmem
  simp only [gridLegsOk, Bool.and_eq_true, Bool.not_eq_true', beq_iff_eq] at this
  obtain ⟨⟨⟨⟨⟨-, -⟩, h3⟩, h4⟩, h5⟩, h6⟩ := this
  refine ⟨fun h0 => by simp [h0] at h5, fun h0 => by simp [h0] at h6, ?_, ?_⟩
  · exact (sameLegs_iff _ _).1 h3
  · simpa using (sameLegs_iff _ _).1 h4

/-! ## Concrete cases -/

section Example

/-- Charges 0 (twice) and 1 (three times), and charge 1 (twice), with permuted bases. -/
def gridL : List (ESpace ℤ) := [⟨[0, 1], [1, 2], false, some [2, 0, 1]⟩, ⟨[1], [2], false, some [1, 0]⟩]

/-- Legs of the columns. -/
def gridR : List (ESpace ℤ) := [⟨[0, 1], [1, 1], false, none⟩, ⟨[1, 2], [1, 1], false, some [1, 0]⟩]

/-- Blocks at rows and columns. -/
def gridT (l r : ESpace ℤ) (T : Ents ℤ) : GTensor ℤ ℤ := ⟨[l], [r], T⟩

/-- A block with given entries. -/
def gridB (a : List (List ℤ)) (n : ℕ) : Blk ℤ :=
  ⟨[a.length, n], fun i => (a.getD (i.getD 0 0) []).getD (i.getD 1 0) 0⟩

/-- a tensor of the first row and column -/
def gridA00 : GTensor ℤ ℤ := gridT (gridL.getD 0 ⟨[], [], false, none⟩) (gridR.getD 0 ⟨[], [], false, none⟩)
  [([0, 0], gridB [[5]] 1), ([1, 1], gridB [[1], [2]] 1)]

/-- a tensor of the first row and the second column -/
def gridA01 : GTensor ℤ ℤ := gridT (gridL.getD 0 ⟨[], [], false, none⟩) (gridR.getD 1 ⟨[], [], false, none⟩)
  [([1, 0], gridB [[3], [4]] 1)]

/-- a tensor of the second row and the second column -/
def gridA11 : GTensor ℤ ℤ := gridT (gridL.getD 1 ⟨[], [], false, none⟩) (gridR.getD 1 ⟨[], [], false, none⟩)
  [([0, 0], gridB [[6], [7]] 1)]

/-- The grid. -/
def gridEx : List (List (Option (GTensor ℤ ℤ))) := [[some gridA00, some gridA01], [none, some gridA11]]

/-- The hypotheses of C82 hold for this grid. -/
theorem C82_nonvacuous : GridOK exU1 intRule gridEx gridL gridR [] [] := by
  have hval : ∀ e ∈ gridL ++ gridR ++ [] ++ [], ValidSpace exU1 e := by
    intro e he
    simp only [gridL, gridR, List.append_nil, List.cons_append, List.nil_append, List.mem_cons,
      List.not_mem_nil, or_false] at he
    rcases he with rfl | rfl | rfl | rfl
    · refine ⟨rfl, by decide, fun p hp => ?_⟩
      cases hp
      decide
    · refine ⟨rfl, by decide, fun p hp => ?_⟩
      cases hp
      decide
    · exact ⟨rfl, by decide, fun p hp => by cases hp⟩
    · refine ⟨rfl, by decide, fun p hp => ?_⟩
      cases hp
      decide
  refine ⟨exU1_ok, fun _ => rfl, rfl, neg_injective, rfl, ?_, ?_, ?_, by decide, ?_, hval, by decide,
    by decide, by decide⟩
  · intro row hrow
    simp only [gridEx, List.mem_cons, List.not_mem_nil, or_false] at hrow
    rcases hrow with rfl | rfl <;> rfl
  · intro row hrow
    simp only [gridEx, List.mem_cons, List.not_mem_nil, or_false] at hrow
    rcases hrow with rfl | rfl
    · exact ⟨gridA00, by simp⟩
    · exact ⟨gridA11, by simp⟩
  · intro j hj
    have : j = 0 ∨ j = 1 := by simp only [gridR, List.length_cons, List.length_nil] at hj; omega
    rcases this with rfl | rfl
    · exact ⟨_, List.mem_cons_self, gridA00, rfl⟩
    · exact ⟨_, List.mem_cons_self, gridA01, rfl⟩
  · have hom00 : IsHom intRule (gridA00.cod.map (toBLeg exU1)) (gridA00.dom.map (toBLeg exU1)) gridA00.data := by
      refine ⟨Example.sane_of_saneB (by rfl), fun p hp => ?_⟩
      simp only [gridA00, gridT, List.mem_cons, List.not_mem_nil, or_false] at hp
      rcases hp with rfl | rfl <;> rfl
    have hom01 : IsHom intRule (gridA01.cod.map (toBLeg exU1)) (gridA01.dom.map (toBLeg exU1)) gridA01.data := by
      refine ⟨Example.sane_of_saneB (by rfl), fun p hp => ?_⟩
      simp only [gridA01, gridT, List.mem_cons, List.not_mem_nil, or_false] at hp
      rcases hp with rfl <;> rfl
    have hom11 : IsHom intRule (gridA11.cod.map (toBLeg exU1)) (gridA11.dom.map (toBLeg exU1)) gridA11.data := by
      refine ⟨Example.sane_of_saneB (by rfl), fun p hp => ?_⟩
      simp only [gridA11, gridT, List.mem_cons, List.not_mem_nil, or_false] at hp
      rcases hp with rfl <;> rfl
    intro i j row op hi hj
    match i, j with
    | 0, 0 =>
      cases hi; cases hj
      exact ⟨_, _, [], [], rfl, rfl, rfl, rfl, .nil, .nil, hom00⟩
    | 0, 1 =>
      cases hi; cases hj
      exact ⟨_, _, [], [], rfl, rfl, rfl, rfl, .nil, .nil, hom01⟩
    | 1, 0 => cases hi; cases hj
    | 1, 1 =>
      cases hi; cases hj
      exact ⟨_, _, [], [], rfl, rfl, rfl, rfl, .nil, .nil, hom11⟩
    | 0, j + 2 => cases hi; cases hj
    | 1, j + 2 => cases hi; cases hj
    | i + 2, j => cases hi

/-- a tensor with two rows and one column -/
def brdA : GTensor ℤ ℤ := ⟨[⟨[0], [2], false, none⟩], [⟨[0], [1], false, none⟩], [([0, 0], gridB [[1], [2]] 1)]⟩

/-- a tensor with one row and one column -/
def brdB : GTensor ℤ ℤ := ⟨[⟨[0], [1], false, none⟩], [⟨[0], [1], false, none⟩], [([0, 0], gridB [[5]] 1)]⟩

/-- **C82**, false in the code: the documentation demands that the tensors of a row have identical first
codomain legs, but this is not checked: a tensor with a one-dimensional leg beside a tensor with a
two-dimensional leg is not rejected, its only entry is repeated in both rows. -/
theorem C82_row_legs_unchecked :
    brdA.cod.map (ESpace.dim exU1) = [2] ∧ brdB.cod.map (ESpace.dim exU1) = [1] ∧
    (tensorFromGrid exU1 [[some brdA, some brdB]]).map (fun t => (t.cod.map (ESpace.dim exU1),
      t.data.map fun p => (p.1, p.2.shape, p.2.val [0, 1], p.2.val [1, 1]))) =
      some ([2], [([0, 0], [2, 2], 5, 5)]) := by
  refine ⟨by decide +kernel, by decide +kernel, by decide +kernel⟩

/-- The result for the grid `gridEx`: a 5 x 4 block matrix with the expected entries. -/
theorem C82_example : (tensorFromGrid exU1 gridEx).map (fun t => (t.cod.map (ESpace.dim exU1),
    t.dom.map (ESpace.dim exU1), (List.range 5).map fun i => (List.range 4).map fun j =>
      (toDense exU1 (t.cod ++ t.dom.reverse) t.data).val [i, j])) =
    some ([5], [4], [[0, 1, 0, 3], [0, 2, 0, 4], [5, 0, 0, 0], [0, 0, 0, 7], [0, 0, 0, 6]]) := by
  decide +kernel

/-- The hypotheses of C81 hold for the sum of the two legs `gridL`, and it places the public vector 1 of
the second summand at 3 + 1. -/
theorem C81_nonvacuous : ∃ r b, (gridL.getD 0 ⟨[], [], false, none⟩).directSum exU1 gridL.tail = some r ∧
    (r.sectors exU1)[b]? = some 1 ∧ IsPosition exU1 r (3 + 1) b (2 + 0) := by
  obtain ⟨r, hr⟩ : ∃ r, (gridL.getD 0 ⟨[], [], false, none⟩).directSum exU1 gridL.tail = some r :=
    Option.isSome_iff_exists.1 (by decide +kernel)
  have hv : ∀ x ∈ gridL.getD 0 ⟨[], [], false, none⟩ :: gridL.tail, ValidSpace exU1 x :=
    fun x hx => C82_nonvacuous.valid x (List.mem_append_left _ (List.mem_append_left _
      (List.mem_append_left _ hx)))
  obtain ⟨b, h1, h2⟩ := C81_direct_sum_position exU1 exU1_ok (fun _ => rfl) rfl neg_injective _ _ hv r hr 1
    ⟨[1], [2], false, some [1, 0]⟩ rfl 1 0 0 1 ⟨1, 2, rfl, rfl, by decide, by decide⟩ rfl
  exact ⟨r, b, hr, h1, h2⟩

end Example

end Cyten.Props
