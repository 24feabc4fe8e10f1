import Verif.Model.Tables
import Verif.Model.Tools
import Verif.Model.Trees
import Verif.Model.Labels
import Mathlib.Order.Defs.LinearOrder

/-!
# Model of `ElementarySpace` and the sector bookkeeping of `src/symmetries/spaces.cpp`

Sectors are elements of an arbitrary linearly ordered type `S`: the order is the one of
`SectorArray::cmp_lexsort` (that it is a linear order on sectors of equal length is C20).
Multiplicities and dimensions are natural numbers (`int64` without overflow).  `none` is an
exception or a failed assertion.
-/

namespace Cyten.Spaces
open Cyten.Tables Cyten.Tools

variable {S : Type} [LinearOrder S]

/-- What the spaces use of a `Symmetry`: include/cyten/symmetries/base_symmetry.h. -/
structure Sym (S : Type) where
  /-- `sector_dim` -/
  dim : S → ℕ
  /-- `dual_sector` -/
  dual : S → S
  /-- `is_abelian` -/
  isAbelian : Bool
  /-- `can_be_dropped` -/
  canDrop : Bool

/-- src/symmetries/sector_array.cpp:124-133 `SectorArray::lexsort_indices` (`std::stable_sort` of
the indices by the rows). -/
def lexsortIndices (l : List S) : List ℕ :=
  (l.zipIdx.insertionSort fun p q => p.1 ≤ q.1).map Prod.snd

/-- `take` of a `SectorArray` resp. the gather loop over a permutation. -/
def gather {α : Type} (l : List α) (idx : List ℕ) : List α := idx.filterMap fun i => l[i]?

/-- src/symmetries/spaces.cpp:917-927 `sort_sectors`. -/
def sortSectors (sectors : List S) (mults : List ℕ) : List S × List ℕ × List ℕ :=
  let perm := lexsortIndices sectors
  (gather sectors perm, gather mults perm, perm)

/-- src/symmetries/spaces.cpp:930-938 `slice_boundaries`. -/
def sliceBoundaries : ℕ → List ℕ → List ℕ
  | acc, [] => [acc]
  | acc, v :: vs => acc :: sliceBoundaries (acc + v) vs

/-- `(diffs[i], diffs[i + 1])` for all `i`. -/
def consecutive (diffs : List ℕ) : List (ℕ × ℕ) := diffs.zip diffs.tail

/-- `l[a:b]` -/
def slice {α : Type} (l : List α) (a b : ℕ) : List α := (l.drop a).take (b - a)

/-- The last part of src/symmetries/sector_array.cpp:166-194 `SectorArray::unique_sorted`, and of
`from_defining_sectors` src/symmetries/spaces.cpp:1285-1318: one entry per run of equal rows, with
the sum of the multiplicities (the difference of two entries of `mult_slices`). -/
def mergeRuns (sectors : List S) (mults : List ℕ) : List S × List ℕ :=
  let runs := consecutive (findRowDifferences sectors true)
  (runs.filterMap fun r => sectors[r.1]?, runs.map fun r => (slice mults r.1 r.2).sum)

/-- src/symmetries/sector_array.cpp:166-194 `SectorArray::unique_sorted`. -/
def uniqueSorted (sectors : List S) (mults : List ℕ) : List S × List ℕ :=
  let s := sortSectors sectors mults
  mergeRuns s.1 s.2.1

/-- src/symmetries/spaces.cpp:956-966 `num_states_per_sector`. -/
def numStates (sym : Sym S) (sectors : List S) (mults : List ℕ) : List ℕ :=
  List.zipWith (fun s m => sym.dim s * m) sectors mults

/-- `ElementarySpace`: `defining_sectors`, `multiplicities`, `is_dual`, `_basis_perm`
(include/cyten/symmetries/spaces.h); the other members are derived. -/
structure ESpace (S : Type) where
  defining : List S
  mults : List ℕ
  isDual : Bool
  perm : Option (List ℕ)
deriving DecidableEq, Repr

namespace ESpace

/-- `sector_decomposition`, src/symmetries/spaces.cpp:1034-1036. -/
def sectors (sym : Sym S) (e : ESpace S) : List S :=
  if e.isDual then e.defining.map sym.dual else e.defining

/-- `slices` as boundaries, src/symmetries/spaces.cpp:341-351. -/
def bounds (sym : Sym S) (e : ESpace S) : List ℕ :=
  sliceBoundaries 0 (numStates sym (e.sectors sym) e.mults)

/-- `dim` (for symmetries that can be dropped), src/symmetries/spaces.cpp:341-351. -/
def dim (sym : Sym S) (e : ESpace S) : ℕ := (numStates sym (e.sectors sym) e.mults).sum

/-- src/symmetries/spaces.cpp:141-151 `basis_perm()`: the identity if not set. -/
def basisPerm (sym : Sym S) (e : ESpace S) : List ℕ :=
  match e.perm with
  | some p => p
  | none => List.range (e.dim sym)

/-- `_inverse_basis_perm` -/
def inversePerm (e : ESpace S) : Option (List ℕ) := e.perm.map inversePermutation

/-- src/symmetries/spaces.cpp:1378-1401 `sectors_of_basis` -/
def sectorsOfBasis (sym : Sym S) (e : ESpace S) : Option (List S) :=
  if sym.canDrop then
    let res := (List.zipWith (fun s n => List.replicate n s) (e.sectors sym)
      (numStates sym (e.sectors sym) e.mults)).flatten
    match e.inversePerm with
    | none => some res
    | some p => some (gather res p)
  else none

/-- src/symmetries/spaces.cpp:1059-1093 `ElementarySpace::from_basis`. -/
def fromBasis (sym : Sym S) (sectorsOfBasis : List S) : Option (ESpace S) :=
  if sym.canDrop then
    let perm := lexsortIndices sectorsOfBasis
    let sorted := gather sectorsOfBasis perm
    let runs := consecutive (findRowDifferences sorted true)
    let sectors := runs.filterMap fun r => sorted[r.1]?
    if (List.zipWith (fun s (r : ℕ × ℕ) => (r.2 - r.1) % sym.dim s == 0) sectors runs).all id then
      some ⟨sectors, List.zipWith (fun s (r : ℕ × ℕ) => (r.2 - r.1) / sym.dim s) sectors runs, false,
        some perm⟩
    else none
  else none

/-- The loop of src/symmetries/spaces.cpp:1300-1309: in a run of sectors of dimension `d`, the
states are regrouped such that all copies of the first state of the multiplet come first, then all
copies of the second state, ...  `chunks` lists, for each sector of the run, its multiplicity and
its part of the permutation. -/
def regroup (d : ℕ) (chunks : List (ℕ × List ℕ)) : List ℕ :=
  (List.range d).flatMap fun k => chunks.flatMap fun c => slice c.2 (k * c.1) (k * c.1 + c.1)

/-- The part of `basis_perm` that belongs to sector `i`. -/
def chunk (perm bounds : List ℕ) (i : ℕ) : List ℕ :=
  slice perm (bounds.getD i 0) (bounds.getD (i + 1) 0)

/-- The regrouping of src/symmetries/spaces.cpp:1285-1314 for all runs (the in-place copies to
`basis_perm` between `start` and `stop`, which are consecutive). -/
def regroupRuns (sym : Sym S) (sectors : List S) (mults : List ℕ) (perm : List ℕ) : List ℕ :=
  let bounds := sliceBoundaries 0 (numStates sym sectors mults)
  (consecutive (findRowDifferences sectors true)).flatMap fun r =>
    match sectors[r.1]? with
    | none => []
    | some s =>
      if sym.dim s = 1 then slice perm (bounds.getD r.1 0) (bounds.getD r.2 0)
      else regroup (sym.dim s) ((List.range' r.1 (r.2 - r.1)).map fun j =>
        (mults.getD j 0, chunk perm bounds j))

/-- The sorted permutation of src/symmetries/spaces.cpp:1243-1262. -/
def sortedPerm (sym : Sym S) (sectors : List S) (mults : List ℕ) (perm : Option (List ℕ))
    (sort : List ℕ) : List ℕ :=
  let bounds := sliceBoundaries 0 (numStates sym sectors mults)
  if sectors.isEmpty then []
  else
    let p := match perm with
      | some p => p
      | none => List.range (numStates sym sectors mults).sum
    sort.flatMap fun i => chunk p bounds i

/-- src/symmetries/spaces.cpp:1228-1331 `ElementarySpace::from_defining_sectors`.  `none`: the
lengths do not agree, or a `basis_perm` is given for a symmetry that can not be dropped. -/
def fromDefiningSectors (sym : Sym S) (sectors : List S) (mults : Option (List ℕ)) (isDual : Bool)
    (perm : Option (List ℕ)) (unique : Bool) : Option (ESpace S) :=
  let mults := mults.getD (List.replicate sectors.length 1)
  if mults.length ≠ sectors.length then none
  else if !sym.canDrop && perm.isSome then none
  else
    let s := sortSectors sectors mults
    let perm := if sym.canDrop then some (sortedPerm sym sectors mults perm s.2.2) else none
    if unique then some ⟨s.1, s.2.1, isDual, perm⟩
    else
      let perm := if sym.isAbelian then perm else perm.map (regroupRuns sym s.1 s.2.1)
      let m := mergeRuns s.1 s.2.1
      some ⟨m.1, m.2, isDual, perm⟩

/-- src/symmetries/spaces.cpp:1333-1349 `from_sector_decomposition`. -/
def fromSectorDecomposition (sym : Sym S) (sectors : List S) (mults : Option (List ℕ))
    (isDual : Bool) (perm : Option (List ℕ)) (unique : Bool) : Option (ESpace S) :=
  fromDefiningSectors sym (if isDual then sectors.map sym.dual else sectors) mults isDual perm unique

/-- src/symmetries/spaces.cpp:1674-1679 `dual_es`. -/
def dual (e : ESpace S) : ESpace S := { e with isDual := !e.isDual }

/-- src/symmetries/spaces.cpp:1796-1816 `with_opposite_duality`. -/
def withOppositeDuality (sym : Sym S) (e : ESpace S) : Option (ESpace S) :=
  fromDefiningSectors sym (if e.isDual then e.sectors sym else e.defining.map sym.dual)
    (some e.mults) (!e.isDual) e.perm true

/-- src/symmetries/spaces.cpp:1592-1621 `direct_sum` (the others must have the same duality). -/
def directSum (sym : Sym S) (e : ESpace S) (others : List (ESpace S)) : Option (ESpace S) :=
  if others.isEmpty then some e
  else if others.all fun o => o.isDual == e.isDual then
    let perm := if sym.canDrop then
        some ((others.foldl (fun (acc : List ℕ × ℕ) o =>
          (acc.1 ++ (o.basisPerm sym).map (· + acc.2), acc.2 + o.dim sym))
          (e.basisPerm sym, e.dim sym)).1)
      else none
    fromDefiningSectors sym (e.defining ++ others.flatMap (·.defining))
      (some (e.mults ++ others.flatMap (·.mults))) e.isDual perm false
  else none

/-- The binary search of src/symmetries/spaces.cpp:1693-1704: the number of slices whose start is
at most `idx`. -/
def bisect (starts : List ℕ) (idx : ℕ) : ℕ → ℕ → ℕ → ℕ
  | 0, lo, _ => lo
  | fuel + 1, lo, hi =>
    if lo < hi then
      let mid := lo + (hi - lo) / 2
      if starts.getD mid 0 ≤ idx then bisect starts idx fuel (mid + 1) hi
      else bisect starts idx fuel lo mid
    else lo

/-- `idx = _inverse_basis_perm[idx]` if there is one, src/symmetries/spaces.cpp:1688-1690. -/
def internalIndex (e : ESpace S) (i : ℕ) : ℕ :=
  match e.inversePerm with
  | none => i
  | some p => p.getD i 0

/-- src/symmetries/spaces.cpp:1681-1708 `parse_index`. -/
def parseIndex (sym : Sym S) (e : ESpace S) (idx : ℤ) : Option (ℕ × ℕ) :=
  if sym.canDrop then
    match Labels.toValidIdx idx (e.dim sym) with
    | none => none
    | some i =>
      let i := e.internalIndex i
      let starts := (e.bounds sym).dropLast
      let lo := bisect starts i (starts.length + 1) 0 starts.length
      if lo = 0 then none else some (lo - 1, i - starts.getD (lo - 1) 0)
  else none

/-- src/symmetries/spaces.cpp:1710-1715 `idx_to_sector` -/
def idxToSector (sym : Sym S) (e : ESpace S) (idx : ℤ) : Option S :=
  (e.parseIndex sym idx).bind fun p => (e.sectors sym)[p.1]?

end ESpace

/-! ## Comparison of spaces -/

/-- `sector_order` -/
inductive Order
  | sorted | dualSorted
deriving DecidableEq, Repr

/-- The members of `Space` that the comparisons use. -/
structure SpaceData (S : Type) where
  sectors : List S
  mults : List ℕ
  order : Option Order

/-- An `ElementarySpace` as a `Space`, src/symmetries/spaces.cpp:1034-1040. -/
def ESpace.toSpace (sym : Sym S) (e : ESpace S) : SpaceData S :=
  ⟨e.sectors sym, e.mults, some (if e.isDual then .dualSorted else .sorted)⟩

/-- src/symmetries/spaces.cpp:421-431 `Space::is_trivial`; `none` is the out-of-bounds access
`multiplicities[0]`. -/
def SpaceData.isTrivial (triv : S) (x : SpaceData S) : Option Bool :=
  if 1 < x.sectors.length then some false
  else
    match x.mults[0]? with
    | none => none
    | some m =>
      if 1 < m then some false
      else
        match x.sectors[0]? with
        | none => none
        | some s => some (decide (s = triv))

/-- `gather_or_all`, `take_or_all`, src/symmetries/spaces.cpp:278-298. -/
def takeOrAll {α : Type} (l : List α) : Option (List ℕ) → List α
  | none => l
  | some p => gather l p

/-- `perm1` of src/symmetries/spaces.cpp:455-489 -/
def isoPerm1 (sym : Sym S) (x y : SpaceData S) : Option (List ℕ) :=
  match x.order, y.order with
  | none, some .dualSorted => some (lexsortIndices (x.sectors.map sym.dual))
  | none, _ => some (lexsortIndices x.sectors)
  | some .dualSorted, some .sorted => some (lexsortIndices x.sectors)
  | _, _ => none

/-- `perm2` of src/symmetries/spaces.cpp:455-489 -/
def isoPerm2 (sym : Sym S) (x y : SpaceData S) : Option (List ℕ) :=
  match x.order, y.order with
  | none, none => some (lexsortIndices y.sectors)
  | some .sorted, none => some (lexsortIndices y.sectors)
  | some .dualSorted, none => some (lexsortIndices (y.sectors.map sym.dual))
  | some .sorted, some .dualSorted => some (lexsortIndices y.sectors)
  | _, _ => none

/-- src/symmetries/spaces.cpp:440-498 `Space::is_isomorphic_to` (equal symmetries). -/
def SpaceData.isIsomorphicTo (sym : Sym S) (x y : SpaceData S) : Bool :=
  if x.sectors.length ≠ y.sectors.length then false
  else
    takeOrAll x.mults (isoPerm1 sym x y) == takeOrAll y.mults (isoPerm2 sym x y) &&
      takeOrAll x.sectors (isoPerm1 sym x y) == takeOrAll y.sectors (isoPerm2 sym x y)

/-- The loop of src/symmetries/spaces.cpp:519-533: `self` from `n_self` on, `other` from `i` on. -/
def subspaceLoop : List (S × ℕ) → List (S × ℕ) → Bool
  | [], _ => true
  | _ :: _, [] => false
  | a :: as, b :: bs =>
    if a.1 = b.1 then
      if a.2 > b.2 then false
      else subspaceLoop as bs
    else subspaceLoop (a :: as) bs

/-- src/symmetries/spaces.cpp:617-625 `sector_multiplicity`. -/
def SpaceData.sectorMultiplicity (x : SpaceData S) (s : S) : ℕ :=
  match (x.sectors.zip x.mults).find? fun p => p.1 == s with
  | none => 0
  | some p => p.2

/-- The loop of src/symmetries/spaces.cpp:538-548 (`none`: returned false); otherwise the number
of sectors found. -/
def subspaceCount (x : SpaceData S) : List (S × ℕ) → Option ℕ
  | [] => some 0
  | b :: bs =>
    let m := x.sectorMultiplicity b.1
    if m = 0 then subspaceCount x bs
    else if m > b.2 then none
    else (subspaceCount x bs).map (· + 1)

/-- src/symmetries/spaces.cpp:500-553 `Space::is_subspace_of` (equivalent symmetries). -/
def SpaceData.isSubspaceOf (x y : SpaceData S) : Bool :=
  if x.sectors.isEmpty then true
  else if x.order = some .sorted && y.order = some .sorted then
    subspaceLoop (x.sectors.zip x.mults) (y.sectors.zip y.mults)
  else
    match subspaceCount x (y.sectors.zip y.mults) with
    | none => false
    | some n => decide (x.sectors.length ≤ n)

/-- The common sectors of two spaces, src/symmetries/spaces.cpp:1188-1213. -/
def commonSectors (x y : SpaceData S) : List (S × ℕ) :=
  if x.order = some .sorted && y.order = some .sorted then
    ((iterCommonSorted compare x.sectors y.sectors true true).getD []).filterMap fun p =>
      match x.sectors[p.1]?, x.mults[p.1]?, y.mults[p.2]? with
      | some s, some m, some n => some (s, min m n)
      | _, _, _ => none
  else
    (x.sectors.zip x.mults).filterMap fun p =>
      match (y.sectors.zip y.mults).find? fun q => q.1 == p.1 with
      | none => none
      | some q => some (p.1, min p.2 q.2)

/-- src/symmetries/spaces.cpp:1186-1218, the case of two spaces of `from_largest_common_subspace`
(the basis permutation is reset). -/
def largestCommon2 (sym : Sym S) (x y : SpaceData S) (isDual : Bool) : Option (ESpace S) :=
  (ESpace.fromSectorDecomposition sym ((commonSectors x y).map Prod.fst)
    (some ((commonSectors x y).map Prod.snd)) isDual none true).map fun e => { e with perm := none }

/-- src/symmetries/spaces.cpp:554-576 `Space::as_ElementarySpace` -/
def SpaceData.asESpace (sym : Sym S) (x : SpaceData S) (isDual : Bool) : Option (ESpace S) :=
  let defining := if isDual then x.sectors.map sym.dual else x.sectors
  if x.order = some (if isDual then .dualSorted else .sorted) then
    some ⟨defining, x.mults, isDual, none⟩
  else ESpace.fromDefiningSectors sym defining (some x.mults) isDual none true

/-- src/symmetries/spaces.cpp:1164-1218 `from_largest_common_subspace` for spaces that are not
elementary when there is only one of them. -/
def largestCommon (sym : Sym S) : List (SpaceData S) → Bool → Option (ESpace S)
  | [], _ => none
  | [x], isDual => x.asESpace sym isDual
  | [x, y], isDual => largestCommon2 sym x y isDual
  | x :: y :: z :: rest, isDual =>
    match largestCommon2 sym x y false with
    | none => none
    | some p => largestCommon sym (p.toSpace sym :: z :: rest) isDual
termination_by l => l.length

end Cyten.Spaces
