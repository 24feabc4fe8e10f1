import Verif.Model.Tables
import Verif.Model.Tools
import Verif.Model.TensorProduct
import Mathlib.Algebra.Ring.Defs
import Mathlib.Algebra.Star.Basic

/-!
# Model of the block-sparse data of the abelian backend, `src/backends/abelian.cpp`

A block is an array: a shape and a function giving the entry at a multi-index (only multi-indices
inside the shape matter).  Entries come from a commutative ring with conjugation, so rounding,
dtypes and devices are not modelled.  The parallel arrays `block_inds` and `blocks` of
`AbelianBackendData` are one list of pairs (row of `block_inds`, block).
-/

namespace Cyten.Abelian
open Cyten.Tables Cyten.Tools Cyten.FusionTrees

/-- A block (`BlockBackend::Block`): shape and entries. -/
structure Blk (K : Type) where
  shape : List ℕ
  val : List ℕ → K

/-- The entries of `AbelianBackendData`: rows of `block_inds` with their blocks. -/
abbrev Ents (K : Type) := List (List ℕ × Blk K)

/-- What the backend reads of a leg: `sector_decomposition` and `multiplicities`. -/
structure BLeg (S : Type) where
  sectors : List S
  mults : List ℕ

/-! ## Operations on blocks, `src/block_backend/numpy.cpp` and `block_backend.cpp` -/

namespace Blk
variable {K : Type}

/-- `zeros` -/
def zeros [Zero K] (shape : List ℕ) : Blk K := ⟨shape, fun _ => 0⟩

/-- src/block_backend/numpy.cpp:1368-1372 `mul` -/
def smul [Mul K] (a : K) (b : Blk K) : Blk K := ⟨b.shape, fun i => a * b.val i⟩

/-- `Block::operator+` for equal shapes -/
def add [Add K] (v w : Blk K) : Blk K := ⟨v.shape, fun i => v.val i + w.val i⟩

/-- src/block_backend/numpy.cpp:1358-1366 `linear_combination` for equal shapes -/
def linComb [Add K] [Mul K] (a : K) (v : Blk K) (b : K) (w : Blk K) : Blk K :=
  ⟨v.shape, fun i => a * v.val i + b * w.val i⟩

/-- src/block_backend/numpy.cpp:924-931 `permute_axes`: `np.transpose`, axis `k` of the result is
the axis `perm[k]` of the argument. -/
def permuteAxes (b : Blk K) (perm : List ℕ) : Blk K :=
  ⟨perm.map fun p => b.shape.getD p 0,
    fun i => b.val ((inversePermutation perm).map fun p => i.getD p 0)⟩

/-- `conj` -/
def conj [Star K] (b : Blk K) : Blk K := ⟨b.shape, fun i => star (b.val i)⟩

/-- src/block_backend/block_backend.cpp:839-848 `dagger` -/
def dagger [Star K] (b : Blk K) : Blk K :=
  conj (b.permuteAxes (List.range b.shape.length).reverse)

/-- src/block_backend/numpy.cpp:1057-1064 `reshape`: `np.reshape` in C order. -/
def reshape (b : Blk K) (shape : List ℕ) : Blk K :=
  ⟨shape, fun i => b.val ((List.range b.shape.length).map
    (gridEntry (packRow (makeStride shape true) i) (makeStride b.shape true) b.shape))⟩

/-- src/block_backend/numpy.cpp:1218-1225 `matrix_dot`: `np.dot` of arrays of dimension one or two:
contraction of the last axis of `a` with the first axis of `b`. -/
def matrixDot [AddCommMonoid K] [Mul K] (a b : Blk K) : Blk K :=
  ⟨a.shape.dropLast ++ b.shape.tail, fun i =>
    ((List.range (a.shape.getLastD 1)).map fun x =>
      a.val (i.take (a.shape.length - 1) ++ [x]) *
        b.val (x :: i.drop (a.shape.length - 1))).sum⟩

/-- src/block_backend/numpy.cpp:915-922 `outer` -/
def outer [Mul K] (a b : Blk K) : Blk K :=
  ⟨a.shape ++ b.shape, fun i => a.val (i.take a.shape.length) * b.val (i.drop a.shape.length)⟩

/-- src/block_backend/block_backend.cpp:993-1010 `tensor_outer` -/
def tensorOuter [Mul K] (a b : Blk K) (k : ℕ) : Blk K :=
  let n := a.shape.length
  let m := b.shape.length
  (outer a b).permuteAxes
    (List.range k ++ (List.range m).map (n + ·) ++ List.range' k (n - k))

/-- `sum_all` -/
def sumAll [AddCommMonoid K] (b : Blk K) : K := ((gridC b.shape).map b.val).sum

/-- src/block_backend/numpy.cpp:815-845 `inner`, src/block_backend/block_backend.cpp:1083-1097. -/
def inner [AddCommMonoid K] [Mul K] [Star K] (a b : Blk K) (doDagger : Bool) : K :=
  let ac := if doDagger then conj a else a.permuteAxes (List.range a.shape.length).reverse
  sumAll ⟨ac.shape, fun i => ac.val i * b.val i⟩

/-- src/block_backend/numpy.cpp:524-531 `add_axis`: `np.expand_dims` -/
def addAxis (b : Blk K) (pos : ℕ) : Blk K :=
  ⟨b.shape.insertIdx pos 1, fun i => b.val (i.eraseIdx pos)⟩

/-- src/block_backend/numpy.cpp:1197-1208 `eye_matrix` -/
def eyeMatrix [Zero K] [One K] (dim : ℕ) : Blk K :=
  ⟨[dim, dim], fun i => if i.getD 0 0 = i.getD 1 0 then 1 else 0⟩

/-- src/block_backend/block_backend.cpp:1012-1031 `eye_block` -/
def eyeBlock [Zero K] [One K] (legs : List ℕ) : Blk K :=
  let j := legs.length
  ((eyeMatrix legs.prod).reshape (legs ++ legs)).permuteAxes
    (List.range j ++ (List.range j).reverse.map (j + ·))

/-- src/block_backend/numpy.cpp:1140-1164 `trace_full` -/
def traceFull [AddCommMonoid K] (a : Blk K) : K :=
  let n := a.shape.length / 2
  let dim := (a.shape.take n).prod
  let m := (a.permuteAxes (List.range n ++ (List.range n).map fun i => 2 * n - 1 - i)).reshape
    [dim, dim]
  ((List.range dim).map fun x => m.val [x, x]).sum

end Blk

/-! ## Tables of blocks -/

variable {K : Type}

/-- The order of `BlockInds::lexsort_indices`, src/backends/block_inds.cpp:290-299. -/
def rowLe (p q : List ℕ × Blk K) : Prop := cmpLexsort p.1 q.1 ≠ .gt

instance : DecidableRel (rowLe (K := K)) := fun _ _ => inferInstanceAs (Decidable (_ ≠ _))

/-- src/backends/abelian.cpp:57-81 constructor of `AbelianBackendData`: sort the rows (a stable
sort) unless they are declared sorted. -/
def mkData (ents : Ents K) (isSorted : Bool) : Ents K :=
  if isSorted then ents else ents.insertionSort rowLe

/-- src/backends/abelian.cpp:101-112 `get_block` (`row_where` finds the first equal row,
src/backends/block_inds.cpp:338-360). -/
def getBlock (T : Ents K) (row : List ℕ) : Option (Blk K) :=
  (T.find? fun p => p.1 == row).map Prod.snd

/-- src/backends/abelian.cpp:2758-2778 `mul`; `is_zero_scalar`: compare with zero. -/
def mul [Mul K] [Zero K] [DecidableEq K] (a : K) (b : Ents K) : Ents K :=
  if a = 0 then [] else mkData (b.map fun p => (p.1, p.2.smul a)) true

/-- src/backends/abelian.cpp:2253-2301 `linear_combination`. -/
def linearCombination [Add K] [Mul K] (a : K) (v : Ents K) (b : K) (w : Ents K) : Ents K :=
  mkData
    ((iterCommonNoncommon cmpLexsort (v.map Prod.fst) (w.map Prod.fst)).filterMap fun
      | (some i, none) => v[i]?.map fun p => (p.1, p.2.smul a)
      | (none, some j) => w[j]?.map fun q => (q.1, q.2.smul b)
      | (some i, some j) =>
        v[i]?.bind fun p => w[j]?.map fun q => (p.1, Blk.linComb a p.2 b q.2)
      | (none, none) => none) true

/-- src/backends/abelian.cpp:693-703 `dagger`. -/
def dagger [Star K] (a : Ents K) : Ents K :=
  mkData (a.map fun p => (p.1.reverse, p.2.dagger)) false

/-- src/backends/abelian.cpp:987-1005 `permute_legs` (the braid of an abelian symmetry with trivial
braid: levels and bends do not enter). -/
def permuteLegs (a : Ents K) (codomainIdcs domainIdcs : List ℕ) : Ents K :=
  let perm := codomainIdcs ++ domainIdcs.reverse
  mkData (a.map fun p => (perm.map fun c => p.1.getD c 0, p.2.permuteAxes perm)) false

/-- src/backends/abelian.cpp:592-612 `add_trivial_leg`. -/
def addTrivialLeg (a : Ents K) (pos : ℕ) : Ents K :=
  mkData (a.map fun p => (p.1.insertIdx pos 0, p.2.addAxis pos)) true

/-- src/backends/abelian.cpp:2197-2219: the contribution of a pair of blocks with equal keys. -/
def innerPair [AddCommMonoid K] [Mul K] [Star K] (a : Ents K) (bs : List (ℕ × Blk K))
    (doDagger : Bool) (ij : ℕ × ℕ) : K :=
  match a[ij.1]?, bs[ij.2]? with
  | some p, some q => Blk.inner p.2 q.2 doDagger
  | _, _ => 0

/-- src/backends/abelian.cpp:2158-2211 `inner`; `none`: the exceptions of `make_stride`. -/
def inner [AddCommMonoid K] [Mul K] [Star K] (nsecs : List ℕ) (a b : Ents K) (doDagger : Bool) :
    Option K :=
  (makeStridePy nsecs false).map fun strides =>
    let aKeys := a.map fun p => packRow strides p.1
    let bk := b.map fun q =>
      (packRow (if doDagger then strides else strides.reverse) q.1, q.2)
    let bs := if doDagger then bk else bk.insertionSort fun x y => x.1 ≤ y.1
    ((commonLoop compare true true (aKeys.length + bs.length) 0 aKeys 0 (bs.map Prod.fst)).map
      (innerPair a bs doDagger)).foldl (· + ·) 0

/-- src/backends/abelian.cpp:2815-2845: the pair of blocks for a row of the grid. -/
def outerPair {β : Type} (a b : Ents K) (f : List ℕ × Blk K → List ℕ × Blk K → β)
    (g : List ℕ) : Option β :=
  a[g.getD 0 0]?.bind fun p => b[g.getD 1 0]?.map fun q => f p q

/-- src/backends/abelian.cpp:2792-2850 `outer`; `k` is the number of codomain legs of `a`. -/
def outer [Mul K] (a b : Ents K) (k : ℕ) : Ents K :=
  mkData ((makeGrid [a.length, b.length] false).filterMap (outerPair a b fun p q =>
    (p.1.take k ++ q.1 ++ p.1.drop k, Blk.tensorOuter p.2 q.2 k))) false

/-- src/backends/abelian.cpp:1517-1564 `_compose_no_contraction`. -/
def composeNoContraction [Mul K] (a b : Ents K) : Ents K :=
  mkData ((makeGrid [a.length, b.length] false).filterMap (outerPair a b fun p q =>
    (p.1 ++ q.1, Blk.outer p.2 q.2))) true

/-- src/backends/abelian.cpp:1790-1826 `eye_data`, from the multiplicities of the legs of the
codomain. -/
def eyeData [Zero K] [One K] (mults : List (List ℕ)) : Ents K :=
  mkData ((gridF (mults.reverse.map List.length)).map fun dom =>
    (dom.reverse ++ dom,
      Blk.eyeBlock (List.zipWith (fun (m : List ℕ) i => m.getD i 0) mults
        ((dom.reverse ++ dom).take mults.length)))) true

/-- src/backends/abelian.cpp:3594-3620 `trace_full`; `k` is the number of codomain legs. -/
def traceFull [AddCommMonoid K] (a : Ents K) (k : ℕ) : K :=
  a.foldl (fun res p =>
    if (List.range k).all (fun c => p.1.getD c 0 == p.1.getD (p.1.length - 1 - c) 0) then
      res + p.2.traceFull
    else res) 0

/-! ## Composition -/

/-- The consecutive runs between the boundaries `slices`, src/backends/abelian.cpp:1318-1345. -/
def groups {α : Type} (l : List α) : List ℕ → List (List α)
  | i0 :: i1 :: rest => (l.drop i0).take (i1 - i0) :: groups l (i1 :: rest)
  | _ => []

/-- `multiple_fusion_broadcast` of the sectors selected by a row, for the legs in their order:
src/backends/abelian.cpp:1395-1426; `R.unit` if there are no legs. -/
def fusedCharge {S : Type} (R : FusionRule S) (legs : List (BLeg S)) (row : List ℕ) : S :=
  Spaces.multipleFusion R
    (List.zipWith (fun (l : BLeg S) i => l.sectors[i]?) legs row).reduceOption

/-- An entry of a table prepared for the composition: kept columns, key of the contracted ones,
block. -/
structure CEnt (K : Type) where
  keep : List ℕ
  key : ℕ
  blk : Blk K

/-- The lists of a group of entries with equal kept columns: the kept columns, the kept part of
the shape, the keys, the blocks reshaped to matrices. -/
structure CGroup (K : Type) where
  keep : List ℕ
  shape : List ℕ
  keys : List ℕ
  blks : List (Blk K)

/-- `reshape` with `-1` for the missing dimension (numpy raises if the others have product zero,
which can not happen for positive multiplicities). -/
def missing (total known : ℕ) : ℕ := total / known

/-- src/backends/abelian.cpp:1346-1361: a block of `a` as a matrix (a vector if there are no codomain
legs); `sh` is the kept part of the shape. -/
def aMatrix (n : ℕ) (sh : List ℕ) (b : Blk K) : Blk K :=
  if n = 0 then b.reshape [b.shape.prod]
  else b.reshape [sh.prod, missing b.shape.prod sh.prod]

/-- src/backends/abelian.cpp:1362-1390: a block of `b` as a matrix (a vector if there are no domain
legs): the `c` contracted axes come first, they are reversed. -/
def bMatrix (c n : ℕ) (sh : List ℕ) (b : Blk K) : Blk K :=
  if n = 0 then (b.permuteAxes (List.range c).reverse).reshape [b.shape.prod]
  else (b.permuteAxes ((List.range c).reverse ++ List.range' c n)).reshape
    [missing b.shape.prod sh.prod, sh.prod]

/-- src/backends/abelian.cpp:1297-1390 for `a`: the groups with equal kept columns. `n` is the
number of codomain legs. -/
def aGroups (n : ℕ) (es : List (CEnt K)) : List (CGroup K) :=
  (groups es (findRowDifferences (es.map (·.keep)) true)).filterMap fun g =>
    g.head?.map fun e0 =>
      let sh := e0.blk.shape.take n
      ⟨e0.keep, sh, g.map (·.key), g.map fun e => aMatrix n sh e.blk⟩

/-- src/backends/abelian.cpp:1297-1390 for `b`: the contracted axes come first, they are reversed.
`c` is the number of contracted legs, `n` the number of domain legs. -/
def bGroups (c n : ℕ) (es : List (CEnt K)) : List (CGroup K) :=
  (groups es (findRowDifferences (es.map (·.keep)) true)).filterMap fun g =>
    g.head?.map fun e0 =>
      let sh := e0.blk.shape.drop c
      ⟨e0.keep, sh, g.map (·.key), g.map fun e => bMatrix c n sh e.blk⟩

/-- The product of a pair of matrices, src/backends/abelian.cpp:1440-1450. -/
def dotPair [AddCommMonoid K] [Mul K] (xs ys : List (Blk K)) (ij : ℕ × ℕ) : Option (Blk K) :=
  xs[ij.1]?.bind fun x => ys[ij.2]?.map fun y => Blk.matrixDot x y

/-- `Σ` of a list of blocks; `none` for the empty list. -/
def sumBlocks [Add K] : List (Blk K) → Option (Blk K)
  | [] => none
  | x :: rest => some (rest.foldl Blk.add x)

/-- The sum of the products over the common keys, src/backends/abelian.cpp:1436-1455; `none`: no
common key. -/
def contractGroups [AddCommMonoid K] [Mul K] (ga gb : CGroup K) : Option (Blk K) :=
  sumBlocks ((commonLoop compare true true (ga.keys.length + gb.keys.length) 0 ga.keys 0
    gb.keys).filterMap (dotPair ga.blks gb.blks))

variable {S : Type} [DecidableEq S]

/-- src/backends/abelian.cpp:1238-1469 `abelian_compose_worker`; `none`: the exceptions of
`make_stride`.  `codom`: legs of the new codomain, `contr`: the contracted legs in the order of
`b`, `dom`: factors of the new domain.  The dictionary from charges to groups of `a` is modelled by
filtering the groups of `a` in order. -/
def composeWorker [AddCommMonoid K] [Mul K] (R : FusionRule S) (codom contr dom : List (BLeg S))
    (a b : Ents K) : Option (Ents K) :=
  if a.isEmpty || b.isEmpty then some []
  else
    (makeStridePy (contr.map fun l => l.sectors.length) false).map fun strides =>
      let n := codom.length
      let c := contr.length
      let ae := a.map fun p =>
        (⟨p.1.take n, packRow strides.reverse (p.1.drop n), p.2⟩ : CEnt K)
      let as := ae.insertionSort fun x y => cmpLexsort (x.key :: x.keep) (y.key :: y.keep) ≠ .gt
      let bs := b.map fun q => (⟨q.1.drop c, packRow strides (q.1.take c), q.2⟩ : CEnt K)
      let ga := aGroups n as
      let gb := bGroups c dom.length bs
      mkData (gb.flatMap fun y =>
        (ga.filter fun x =>
          fusedCharge R codom x.keep = fusedCharge R dom y.keep.reverse).filterMap fun x =>
            (contractGroups x y).map fun blk =>
              (x.keep ++ y.keep, blk.reshape (x.shape ++ y.shape))) true

/-- src/backends/abelian.cpp:1221-1234 `compose`. -/
def compose [AddCommMonoid K] [Mul K] [Star K] (R : FusionRule S) (codom contr dom : List (BLeg S))
    (a b : Ents K) : Option (Ents K) :=
  if codom.isEmpty && dom.isEmpty then
    (inner (contr.reverse.map fun l => l.sectors.length) a b false).map fun s =>
      mkData [([], ⟨[], fun _ => s⟩)] true
  else if contr.isEmpty then some (composeNoContraction a b)
  else composeWorker R codom contr dom a b

end Cyten.Abelian
