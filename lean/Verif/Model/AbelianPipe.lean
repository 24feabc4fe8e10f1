import Verif.Model.TensorProduct

/-!
# Model of `AbelianLegPipe`, `src/symmetries/spaces.cpp`

For abelian symmetries that can be dropped (otherwise the constructor raises).
-/

namespace Cyten.Spaces
open Cyten.Tables Cyten.Tools Cyten.FusionTrees

variable {S : Type} [LinearOrder S]

/-- A row of `block_ind_map`: the slice within the block, the sector indices of the legs, and the
index of the sector of the pipe. -/
structure PipeRow where
  start : ℕ
  stop : ℕ
  idcs : List ℕ
  J : ℕ
deriving DecidableEq, Repr

/-- One combination of sectors: their indices, the defining sector of the pipe, and the product of
the multiplicities. -/
structure PipeEntry (S : Type) where
  idcs : List ℕ
  sector : S
  mult : ℕ
deriving DecidableEq, Repr

/-- `AbelianLegPipe` -/
structure APipe (S : Type) where
  legs : List (ESpace S)
  isDual : Bool
  cstyle : Bool
  /-- `defining_sectors` -/
  defining : List S
  mults : List ℕ
  /-- `_basis_perm` -/
  perm : List ℕ
  /-- `fusion_outcomes_sort` -/
  sort : List ℕ
  /-- `block_ind_map_slices` -/
  mapSlices : List ℕ
  /-- `block_ind_map` -/
  rows : List PipeRow

namespace APipe

/-- The entry for given sector indices, src/symmetries/spaces.cpp:2865-2886. -/
def entry (sym : Sym S) (R : FusionRule S) (legs : List (ESpace S)) (isDual : Bool)
    (idcs : List ℕ) : PipeEntry S :=
  let fused := multipleFusion R
    (List.zipWith (fun (e : ESpace S) i => (e.sectors sym)[i]?) legs idcs).reduceOption
  ⟨idcs, if isDual then sym.dual fused else fused,
    (List.zipWith (fun (e : ESpace S) i => e.mults.getD i 0) legs idcs).prod⟩

/-- `legs_num_sectors` -/
def numSectors (legs : List (ESpace S)) : List ℕ := legs.map fun e => e.defining.length

/-- All combinations before sorting, src/symmetries/spaces.cpp:2847-2886. -/
def rawEntries (sym : Sym S) (R : FusionRule S) (legs : List (ESpace S)) (isDual cstyle : Bool) :
    List (PipeEntry S) :=
  let nums := numSectors legs
  (List.range nums.prod).map fun m => entry sym R legs isDual
    ((List.range legs.length).map (gridEntry m (makeStride nums cstyle) nums))

/-- src/symmetries/spaces.cpp:2902-2932, for sorted entries: unique sectors, multiplicities,
`block_ind_map_slices`, `block_ind_map`. -/
def bunch (tab : List (PipeEntry S)) : List S × List ℕ × List ℕ × List PipeRow :=
  let sectors := tab.map (·.sector)
  let slices := sliceBoundaries 0 (tab.map (·.mult))
  let diffs := findRowDifferences sectors true
  let starts := diffs.map fun d => slices.getD d 0
  (diffs.dropLast.filterMap fun d => sectors[d]?,
    (consecutive starts).map fun r => r.2 - r.1,
    diffs,
    (consecutive diffs).zipIdx.flatMap fun rk =>
      (List.range' rk.1.1 (rk.1.2 - rk.1.1)).filterMap fun m =>
        tab[m]?.map fun e =>
          ⟨slices.getD m 0 - starts.getD rk.2 0, slices.getD (m + 1) 0 - starts.getD rk.2 0,
            e.idcs, rk.2⟩)

/-- `dim` of each leg. -/
def legDims (sym : Sym S) (legs : List (ESpace S)) : List ℕ := legs.map (ESpace.dim sym)

/-- The inner loops of src/symmetries/spaces.cpp:2993-3028 for one row: the writes
`perm[start + k] = flat`. -/
def rowWrites (sym : Sym S) (legs : List (ESpace S)) (cstyle : Bool) (sliceStarts : List ℕ)
    (row : PipeRow) : List (ℕ × ℕ) :=
  let multShape := List.zipWith (fun (e : ESpace S) i => e.mults.getD i 0) legs row.idcs
  let sectorStarts := List.zipWith (fun (e : ESpace S) i => (e.bounds sym).getD i 0) legs row.idcs
  let multStrides := makeStride multShape cstyle
  let dimStrides := makeStride (legDims sym legs) cstyle
  (List.range multShape.prod).map fun k =>
    (row.start + sliceStarts.getD row.J 0 + k,
      ((List.range legs.length).map fun n =>
        (gridEntry k multStrides multShape n + sectorStarts.getD n 0) * dimStrides.getD n 0).sum)

/-- src/symmetries/spaces.cpp:2975-3030 `fusion_outcomes_perm`. -/
def fusionOutcomesPerm (sym : Sym S) (legs : List (ESpace S)) (cstyle : Bool) (mults : List ℕ)
    (rows : List PipeRow) : List ℕ :=
  (rows.flatMap (rowWrites sym legs cstyle (sliceBoundaries 0 mults))).foldl
    (fun perm w => perm.set w.1 w.2) (List.replicate (legDims sym legs).prod 0)

/-- src/symmetries/spaces.cpp:3032-3077 `calc_basis_perm`. -/
def calcBasisPerm (sym : Sym S) (legs : List (ESpace S)) (cstyle : Bool) (mults : List ℕ)
    (rows : List PipeRow) : List ℕ :=
  let dims := legDims sym legs
  let perms := legs.map (ESpace.basisPerm sym)
  let strides := makeStride dims cstyle
  let combined := (List.range dims.prod).map fun m =>
    ((List.range legs.length).map fun n =>
      (perms.getD n []).getD (gridEntry m strides dims n) 0 * strides.getD n 0).sum
  (fusionOutcomesPerm sym legs cstyle mults rows).map fun i => combined.getD i 0

/-- src/symmetries/spaces.cpp:2821-2945 `prepare`, and the constructor; `none`: no legs, or the
symmetry is not abelian or can not be dropped. -/
def make (sym : Sym S) (R : FusionRule S) (legs : List (ESpace S)) (isDual cstyle : Bool) :
    Option (APipe S) :=
  if legs.isEmpty then none
  else if !(sym.isAbelian && sym.canDrop) then none
  else
    let raw := rawEntries sym R legs isDual cstyle
    let sort := lexsortIndices (raw.map (·.sector))
    let b := bunch (gather raw sort)
    some ⟨legs, isDual, cstyle, b.1, b.2.1, calcBasisPerm sym legs cstyle b.2.1 b.2.2.2, sort,
      b.2.2.1, b.2.2.2⟩

/-- The pipe as an `ElementarySpace`, src/symmetries/spaces.cpp:2948-2962. -/
def toESpace (p : APipe S) : ESpace S := ⟨p.defining, p.mults, p.isDual, some p.perm⟩

/-- src/symmetries/spaces.cpp:3195-3204 `dual_pipe` -/
def dual (sym : Sym S) (R : FusionRule S) (p : APipe S) : Option (APipe S) :=
  make sym R (p.legs.map ESpace.dual).reverse (!p.isDual) (!p.cstyle)

end APipe
end Cyten.Spaces
