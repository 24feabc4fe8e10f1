import Verif.Model.AbelianData

/-!
# Model of the data of the fusion tree backend, `src/backends/fusion_tree_backend.cpp`

The data of a tensor are matrices, one for some of the pairs (number of a coupled sector of the codomain, number
of the same sector of the domain).  The parallel arrays `block_inds` (two columns) and `blocks` of
`FusionTreeData` are one list of pairs.  Entries come from a ring with conjugation: rounding, dtypes and devices
are not modelled.  What the functions of this file read of a `TensorProduct` is its sector decomposition and its
multiplicities (`block_size`), a `BLeg`.
-/

namespace Cyten.FT
open Cyten.Abelian

/-- A block of dimension two. -/
structure Mat (K : Type) where
  rows : ℕ
  cols : ℕ
  val : ℕ → ℕ → K

namespace Mat
variable {K : Type}

/-- src/block_backend/numpy.cpp:1219-1225 `matrix_dot` of two matrices -/
def dot [AddCommMonoid K] [Mul K] (a b : Mat K) : Mat K :=
  ⟨a.rows, b.cols, fun m n => ((List.range a.cols).map fun k => a.val m k * b.val k n).sum⟩

/-- src/block_backend/block_backend.cpp:839-848 `dagger` of a matrix -/
def dagger [Star K] (a : Mat K) : Mat K := ⟨a.cols, a.rows, fun m n => star (a.val n m)⟩

/-- src/block_backend/numpy.cpp:1368-1372 `mul` -/
def smul [Mul K] (x : K) (a : Mat K) : Mat K := ⟨a.rows, a.cols, fun m n => x * a.val m n⟩

/-- src/block_backend/numpy.cpp:1359-1366 `linear_combination` -/
def linComb [Add K] [Mul K] (x : K) (a : Mat K) (y : K) (b : Mat K) : Mat K :=
  ⟨a.rows, a.cols, fun m n => x * a.val m n + y * b.val m n⟩

/-- src/block_backend/numpy.cpp:816-845 `inner` of two matrices: with `do_dagger` the sum of
`conj(a[m, n]) * b[m, n]`, otherwise the sum of `a[n, m] * b[m, n]`. -/
def inner [AddCommMonoid K] [Mul K] [Star K] (a b : Mat K) (doDagger : Bool) : K :=
  if doDagger then ((List.range a.rows).map fun m => ((List.range a.cols).map fun n =>
    star (a.val m n) * b.val m n).sum).sum
  else ((List.range b.rows).map fun m => ((List.range b.cols).map fun n => a.val n m * b.val m n).sum).sum

/-- src/block_backend/numpy.cpp:1141-1164 `trace_full` of a matrix -/
def trace [AddCommMonoid K] (a : Mat K) : K := ((List.range a.rows).map fun m => a.val m m).sum

/-- src/block_backend/numpy.cpp:1198-1208 `eye_matrix` -/
def eye [Zero K] [One K] (n : ℕ) : Mat K := ⟨n, n, fun i j => if i = j then 1 else 0⟩

/-- `zeros` -/
def zeros [Zero K] (m n : ℕ) : Mat K := ⟨m, n, fun _ _ => 0⟩

end Mat

variable {K S A B : Type}

/-- The entries of `FusionTreeData`: rows of `block_inds` with their blocks. -/
abbrev FEnts (K : Type) := List ((ℕ × ℕ) × Mat K)

/-- The order of `BlockInds::lexsort_indices` for two columns, src/backends/block_inds.cpp:290-299. -/
def rowLe2 (p q : (ℕ × ℕ) × A) : Prop := p.1.2 < q.1.2 ∨ (p.1.2 = q.1.2 ∧ p.1.1 ≤ q.1.1)

instance : DecidableRel (rowLe2 (A := A)) := fun _ _ => by unfold rowLe2; infer_instance

/-- src/backends/fusion_tree_backend.cpp:46-72 constructor of `FusionTreeData`: sort the rows unless they are
declared sorted. -/
def mkData (ents : List ((ℕ × ℕ) × A)) (isSorted : Bool) : List ((ℕ × ℕ) × A) :=
  if isSorted then ents else ents.insertionSort rowLe2

/-- src/backends/fusion_tree_backend.cpp:201-219 `iter_common_sorted_1d`: the pairs of entries with equal
keys that are visited.  Each round advances at least one position: the first argument bounds the rounds. -/
def mergeCommon (ka : A → ℕ) (kb : B → ℕ) : ℕ → List A → List B → List (A × B)
  | fuel + 1, x :: xs, y :: ys =>
    if ka x < kb y then mergeCommon ka kb fuel xs (y :: ys)
    else if kb y < ka x then mergeCommon ka kb fuel (x :: xs) ys
    else (x, y) :: mergeCommon ka kb fuel xs ys
  | _, _, _ => []

/-- `iter_common_sorted_1d` from the start -/
def iterCommon (ka : A → ℕ) (kb : B → ℕ) (a : List A) (b : List B) : List (A × B) :=
  mergeCommon ka kb (a.length + b.length) a b

/-- src/backends/fusion_tree_backend.cpp:221-242 `iter_common_noncommon_sorted_1d`: the entries that are
visited, alone or in pairs with equal keys. -/
def mergeAll (ka : A → ℕ) (kb : B → ℕ) : ℕ → List A → List B → List (Option A × Option B)
  | fuel + 1, x :: xs, y :: ys =>
    if ka x < kb y then (some x, none) :: mergeAll ka kb fuel xs (y :: ys)
    else if kb y < ka x then (none, some y) :: mergeAll ka kb fuel (x :: xs) ys
    else (some x, some y) :: mergeAll ka kb fuel xs ys
  | fuel + 1, x :: xs, [] => (some x, none) :: mergeAll ka kb fuel xs []
  | fuel + 1, [], y :: ys => (none, some y) :: mergeAll ka kb fuel [] ys
  | _, _, _ => []

/-- `iter_common_noncommon_sorted_1d` from the start -/
def iterAll (ka : A → ℕ) (kb : B → ℕ) (a : List A) (b : List B) : List (Option A × Option B) :=
  mergeAll ka kb (a.length + b.length) a b

/-- src/backends/fusion_tree_backend.cpp:668-698 `compose` -/
def compose [AddCommMonoid K] [Mul K] (a b : FEnts K) : FEnts K :=
  mkData (if 0 < a.length ∧ 0 < b.length then
    (iterCommon (fun e : (ℕ × ℕ) × Mat K => e.1.2) (fun e : (ℕ × ℕ) × Mat K => e.1.1) a b).map fun p =>
      ((p.1.1.1, p.2.1.2), p.1.2.dot p.2.2)
    else []) false

/-- src/backends/fusion_tree_backend.cpp:716-729 `dagger` -/
def dagger [Star K] (a : FEnts K) : FEnts K := mkData (a.map fun e => ((e.1.2, e.1.1), e.2.dagger)) false

/-- src/backends/fusion_tree_backend.cpp:1154-1177 `zero_data` -/
def zeroData [DecidableEq S] [Zero K] (cod dom : BLeg S) (allBlocks : Bool) : FEnts K :=
  if ¬ allBlocks then []
  else dom.sectors.zipIdx.filterMap fun cj =>
    if cj.1 ∈ cod.sectors then
      let i := cod.sectors.idxOf cj.1
      some ((i, cj.2), Mat.zeros (cod.mults.getD i 0) (dom.mults.getD cj.2 0))
    else none

/-- src/backends/fusion_tree_backend.cpp:1298-1314 `mul` -/
def mul [Mul K] [Zero K] [DecidableEq K] (x : K) (b : FEnts K) : FEnts K :=
  if x = 0 then [] else mkData (b.map fun e => (e.1, e.2.smul x)) true

/-- src/backends/fusion_tree_backend.cpp:1329-1356: the body of the loop of `linear_combination` -/
def linCombStep [Add K] [Mul K] (x y : K) :
    Option ((ℕ × ℕ) × Mat K) × Option ((ℕ × ℕ) × Mat K) → Option ((ℕ × ℕ) × Mat K)
  | (none, some q) => some (q.1, q.2.smul y)
  | (some p, none) => some (p.1, p.2.smul x)
  | (some p, some q) => some (p.1, Mat.linComb x p.2 y q.2)
  | (none, none) => none

/-- src/backends/fusion_tree_backend.cpp:1316-1360 `linear_combination` -/
def linearCombination [Add K] [Mul K] (x : K) (v : FEnts K) (y : K) (w : FEnts K) : FEnts K :=
  mkData ((iterAll (fun e : (ℕ × ℕ) × Mat K => e.1.1) (fun e : (ℕ × ℕ) × Mat K => e.1.1) v w).filterMap
    (linCombStep x y)) false

/-- src/backends/fusion_tree_backend.cpp:1179-1192 `eye_data` -/
def eyeData [Zero K] [One K] (t : BLeg S) : FEnts K :=
  mkData ((List.range t.sectors.length).map fun i => ((i, i), Mat.eye (t.mults.getD i 0))) false

/-- src/backends/fusion_tree_backend.cpp:1237-1259 `inner`; `qdims` are the quantum dimensions of the sectors
of the codomain of `a` (`sector_qdims`). -/
def inner [AddCommMonoid K] [Mul K] [Star K] (qdims : List K) (a b : FEnts K) (doDagger : Bool) : K :=
  ((iterCommon (fun e : (ℕ × ℕ) × Mat K => e.1.1)
      (fun e : (ℕ × ℕ) × Mat K => if doDagger then e.1.1 else e.1.2) a b).map fun p =>
    qdims.getD p.1.1.1 0 * p.1.2.inner p.2.2 doDagger).sum

/-- src/backends/fusion_tree_backend.cpp:1261-1278 `trace_full` -/
def traceFull [AddCommMonoid K] [Mul K] (qdims : List K) (a : FEnts K) : K :=
  (a.map fun e => qdims.getD e.1.1 0 * e.2.trace).sum

/-- src/backends/fusion_tree_backend.cpp:1280-1296 `norm`, before the square root (the square of the norm of a
block is its inner product with itself, src/block_backend/numpy.cpp:899-914) -/
def normSq [AddCommMonoid K] [Mul K] [Star K] (qdims : List K) (a : FEnts K) : K :=
  (a.map fun e => qdims.getD e.1.1 0 * e.2.inner e.2 true).sum

/-- src/backends/fusion_tree_backend.cpp:509-543: the loop of `act_block_diagonal_square_matrix` over the
sectors with numbers from `i` on (the last argument: how many), with the blocks not yet used. -/
def actLoop [Zero K] (f : Mat K → Mat K) (t : BLeg S) : ℕ → FEnts K → ℕ → FEnts K
  | _, _, 0 => []
  | i, [], n + 1 => ((i, i), f (Mat.zeros (t.mults.getD i 0) (t.mults.getD i 0))) :: actLoop f t (i + 1) [] n
  | i, e :: es, n + 1 =>
    if e.1.1 = i then ((i, i), f e.2) :: actLoop f t (i + 1) es n
    else ((i, i), f (Mat.zeros (t.mults.getD i 0) (t.mults.getD i 0))) :: actLoop f t (i + 1) (e :: es) n

/-- src/backends/fusion_tree_backend.cpp:509-543 `act_block_diagonal_square_matrix` -/
def actBlockDiagonal [Zero K] (f : Mat K → Mat K) (t : BLeg S) (a : FEnts K) : FEnts K :=
  mkData (actLoop f t 0 a t.sectors.length) false

/-- src/backends/fusion_tree_backend.cpp:1194-1219 `from_sector_block_func` -/
def fromSectorBlockFunc [LinearOrder S] (f : ℕ → ℕ → S → Mat K) (cod dom : BLeg S) : FEnts K :=
  mkData (((Cyten.Tables.iterCommonSorted compare cod.sectors dom.sectors true true).getD []).filterMap
    fun ij => cod.sectors[ij.1]?.map fun c =>
      ((ij.1, ij.2), f (cod.mults.getD ij.1 0) (dom.mults.getD ij.2 0) c)) false

/-- src/backends/fusion_tree_backend.cpp:545-557 `add_trivial_leg`: the data are not changed. -/
def addTrivialLeg (a : FEnts K) : FEnts K := a

/-- src/backends/fusion_tree_backend.cpp:102-120 `discard_zero_blocks`; `big`: the norm of the block is at
least `eps`. -/
def discardZeroBlocks (big : Mat K → Bool) (a : FEnts K) : FEnts K := a.filter fun e => big e.2

/-- src/backends/block_inds.cpp:573-590 `searchsorted_column` for the second column: bisection; the first
argument bounds the rounds. -/
def searchCol (a : List ((ℕ × ℕ) × A)) (value : ℕ) : ℕ → ℕ → ℕ → ℕ
  | 0, lo, _ => lo
  | fuel + 1, lo, hi =>
    if lo < hi then
      let mid := lo + (hi - lo) / 2
      if ((a[mid]?.map fun e => e.1.2).getD 0) < value then searchCol a value fuel (mid + 1) hi
      else searchCol a value fuel lo mid
    else lo

/-- src/backends/fusion_tree_backend.cpp:84-100 `block_ind_from_domain_sector_ind`: the position of the block of
a sector of the domain, if there is one; `none`: the exception for duplicates. -/
def blockIndFromDomain (a : List ((ℕ × ℕ) × A)) (j : ℕ) : Option (Option ℕ) :=
  let n := searchCol a j a.length 0 a.length
  if a[n]?.map (fun e => e.1.2) ≠ some j then some none
  else if a[n + 1]?.map (fun e => e.1.2) = some j then none
  else some (some n)

/-- src/backends/fusion_tree_backend.cpp:74-82 `block_ind_from_coupled` -/
def blockIndFromCoupled [DecidableEq S] (a : List ((ℕ × ℕ) × A)) (dom : BLeg S) (c : S) : Option (Option ℕ) :=
  if c ∈ dom.sectors then blockIndFromDomain a (dom.sectors.idxOf c) else some none

end Cyten.FT
