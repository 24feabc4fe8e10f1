import Verif.Lemmas.AbelianPipe2

/-! # Lemmas on `AbelianLegPipe`: the tuples partition the product basis -/

namespace Cyten.Spaces
open Cyten.Tables Cyten.Tools Cyten.FusionTrees Cyten.Props

set_option linter.unusedSectionVars false

variable {S : Type} [LinearOrder S]

namespace APipe

/-- A leg of an abelian symmetry: `test_sanity`, and all dimensions are one. -/
structure LegOK (sym : Sym S) (e : ESpace S) : Prop where
  lengths : e.mults.length = e.defining.length
  dim_one : ∀ s, sym.dim s = 1

theorem numStates_one (sym : Sym S) (h1 : ∀ s, sym.dim s = 1) (sectors : List S) (mults : List ℕ)
    (h : mults.length = sectors.length) : numStates sym sectors mults = mults := by
  unfold numStates
  induction sectors generalizing mults with
  | nil => simp at h; simp [h]
  | cons s sectors ih =>
    cases mults with
    | nil => simp at h
    | cons m mults => rw [List.zipWith_cons_cons, h1, ih _ (by simpa using h), Nat.one_mul]

theorem LegOK.numStates {sym : Sym S} {e : ESpace S} (h : LegOK sym e) :
    numStates sym (e.sectors sym) e.mults = e.mults := by
  refine numStates_one sym h.dim_one _ _ ?_
  unfold ESpace.sectors
  split <;> simp [h.lengths]

theorem LegOK.dim {sym : Sym S} {e : ESpace S} (h : LegOK sym e) : e.dim sym = e.mults.sum := by
  unfold ESpace.dim
  rw [h.numStates]

theorem LegOK.bounds {sym : Sym S} {e : ESpace S} (h : LegOK sym e) :
    e.bounds sym = sliceBoundaries 0 e.mults := by
  unfold ESpace.bounds
  rw [h.numStates]

/-- The internal indices of a leg, sector by sector. -/
theorem range_sectors (mults : List ℕ) (acc : ℕ) :
    ((List.range mults.length).flatMap fun i =>
      (List.range (mults.getD i 0)).map fun j => j + (sliceBoundaries acc mults).getD i 0) =
      List.range' acc mults.sum := by
  induction mults generalizing acc with
  | nil => rfl
  | cons m mults ih =>
    rw [List.length_cons, List.range_succ_eq_map, List.flatMap_cons, List.flatMap_map,
      List.sum_cons, ← List.range'_append_1, ← ih]
    congr 1
    · simp only [sliceBoundaries, List.getD_cons_zero]
      rw [List.range'_eq_map_range]
      apply List.map_congr_left
      intro j _
      omega

theorem tuples_grid_perm (sym : Sym S) (legs : List (ESpace S)) (h : ∀ e ∈ legs, LegOK sym e) :
    ((gridC (numSectors legs)).flatMap fun idcs => tuples sym legs true idcs).Perm
      (gridC (legDims sym legs)) := by
  induction legs with
  | nil => simp [numSectors, legDims, gridC, tuples, makeGrid, multsAt, startsAt]
  | cons e legs ih =>
    have he := h e List.mem_cons_self
    have ih' := ih fun x hx => h x (List.mem_cons_of_mem _ hx)
    have hd : legDims sym (e :: legs) = e.mults.sum :: legDims sym legs := by
      simp [legDims, he.dim]
    have hr := range_sectors e.mults 0
    rw [hd, gridC, List.range_eq_range', ← hr, List.flatMap_assoc, ← he.bounds]
    have hn : numSectors (e :: legs) = e.mults.length :: numSectors legs := by
      simp [numSectors, he.lengths]
    rw [hn, gridC, List.flatMap_assoc]
    apply flatMap_perm_congr
    intro i _
    rw [List.flatMap_map, List.flatMap_map]
    have e1 : ∀ idcs, tuples sym (e :: legs) true (i :: idcs) =
        (List.range (e.mults.getD i 0)).flatMap fun j =>
          (tuples sym legs true idcs).map ((j + (e.bounds sym).getD i 0) :: ·) := by
      intro idcs
      unfold tuples multsAt startsAt
      simp only [List.zipWith_cons_cons, makeGrid, if_true, gridC, List.map_flatMap, List.map_map,
        Function.comp_def]
    have e2 : ((gridC (numSectors legs)).flatMap fun idcs => tuples sym (e :: legs) true (i :: idcs)) =
        (gridC (numSectors legs)).flatMap fun idcs =>
          (List.range (e.mults.getD i 0)).flatMap fun j =>
            (tuples sym legs true idcs).map ((j + (e.bounds sym).getD i 0) :: ·) := by
      apply List.flatMap_congr
      intro idcs _
      exact e1 idcs
    rw [e2]
    refine (flatMap_comm_perm _ _ _).trans ?_
    apply flatMap_perm_congr
    intro j _
    rw [← List.map_flatMap]
    exact ih'.map _

/-- For both styles: every multi-index of the legs belongs to exactly one combination. -/
theorem tuples_perm (sym : Sym S) (legs : List (ESpace S)) (h : ∀ e ∈ legs, LegOK sym e)
    (cstyle : Bool) :
    ((makeGrid (numSectors legs) cstyle).flatMap fun idcs => tuples sym legs cstyle idcs).Perm
      (makeGrid (legDims sym legs) cstyle) := by
  have h1 := tuples_grid_perm sym legs h
  have h2 : ((makeGrid (numSectors legs) cstyle).flatMap fun idcs => tuples sym legs cstyle idcs).Perm
      ((makeGrid (numSectors legs) true).flatMap fun idcs => tuples sym legs true idcs) := by
    refine ((grid_perm _ cstyle true).flatMap_right _).trans ?_
    apply flatMap_perm_congr
    intro idcs _
    unfold tuples
    exact (grid_perm _ cstyle true).map _
  exact (h2.trans h1).trans (grid_perm _ true cstyle)

theorem grid_pack_range (shape : List ℕ) (cstyle : Bool) :
    (makeGrid shape cstyle).map (packRow (makeStride shape cstyle)) = List.range shape.prod := by
  apply List.ext_getElem?
  intro m
  rw [List.getElem?_map]
  have hl := (C22_grid_complete shape cstyle).2.2
  by_cases hm : m < shape.prod
  · rw [List.getElem?_range hm, List.getElem?_eq_getElem (by omega)]
    simp only [Option.map_some]
    rw [(C22_stride_grid shape cstyle).1 m _ (List.getElem?_eq_getElem (by omega))]
  · rw [List.getElem?_eq_none (by omega), List.getElem?_eq_none (by simpa using hm)]
    rfl

end APipe
end Cyten.Spaces
