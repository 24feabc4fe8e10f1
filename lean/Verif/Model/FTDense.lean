import Verif.Model.FTData
import Verif.Model.TensorProduct
import Verif.Model.AbelianDense
import Mathlib.Data.Complex.Basic

/-!
# Model of the dense conversions of the fusion tree backend

`src/symmetries/trees.cpp` (`FusionTree::to_dense_block`) and `src/backends/fusion_tree_backend.cpp`
(`to_dense_block`, `from_dense_block`), in the internal basis order of the flat legs, without leg pipes.
Arithmetic is exact.  The symmetry enters with its fusion rules and its fusion tensors.
-/

namespace Cyten.FT
open Cyten.Abelian Cyten.Spaces Cyten.Tools

variable {S K : Type}

/-- What the dense conversions read of a symmetry with `can_be_dropped`: `sector_dim`, `dual_sector`,
`fusion_tensor(a, b, c, Z_a, Z_b)[mu, i, j, k]` (`X a b c Z_a Z_b mu i j k`) and `Z_iso(a)[i, j]`,
include/cyten/symmetries/base_symmetry.h. -/
structure FTensors (S K : Type) where
  dim : S → ℕ
  dual : S → S
  X : S → S → S → Bool → Bool → ℕ → ℕ → ℕ → ℕ → K
  Z : S → ℕ → ℕ → K

/-- src/symmetries/trees.cpp:1150-1162: one round of the loop over the vertices,
`tdot(res, X, -1, 0)`: `[a0, ..., an, i{n-1}] & [i{n-1}, a{n+1}, in] -> [a0, ..., a{n+1}, in]` -/
def vertexStep [AddCommMonoid K] [Mul K] (T : FTensors S K) (res : List ℕ → ℕ → K) (a b c : S) (d : Bool)
    (mu : ℕ) : List ℕ → ℕ → K := fun is k =>
  ((List.range (T.dim a)).map fun g => res is.dropLast g * T.X a b c false d mu g (is.getLastD 0) k).sum

/-- src/symmetries/trees.cpp:1150-1162: the loop over the vertices after the first one. The arguments: the
tensor so far, the sector of its last axis, the remaining `uncoupled`, `are_dual`, outgoing sectors
(`inner_sectors`, at last `coupled`) and `multiplicities`. -/
def vertexLoop [AddCommMonoid K] [Mul K] (T : FTensors S K) : (List ℕ → ℕ → K) → S → List S → List Bool →
    List S → List ℕ → List ℕ → ℕ → K
  | res, a, b :: bs, d :: ds, c :: cs, mu :: mus => vertexLoop T (vertexStep T res a b c d mu) c bs ds cs mus
  | res, _, _, _, _, _ => res

/-- src/symmetries/trees.cpp:1075-1164 `FusionTree::to_dense_block`: the entry with the indices of the
uncoupled sectors and the index of the coupled sector.  (The case of two sectors, 1133-1140, is the general one
without further vertices.) -/
def treeTensor [AddCommMonoid K] [Mul K] [One K] (T : FTensors S K) (t : FusionTree S) : List ℕ → ℕ → K :=
  match t.uncoupled, t.areDual, t.inner ++ [t.coupled], t.mult with
  | [], _, _, _ => fun _ _ => 1
  | [a], d :: _, _, _ => fun is k =>
    if d then T.Z (T.dual a) k (is.getD 0 0) else if is.getD 0 0 = k then 1 else 0
  | a :: b :: bs, d :: e :: ds, c :: cs, mu :: mus =>
    vertexLoop T (fun is k => T.X a b c d e mu (is.getD 0 0) (is.getD 1 0) k) c bs ds cs mus
  | _, _, _, _ => fun _ _ => 0

/-! ## Uncoupled sectors with slices -/

/-- `Space::slices`, src/symmetries/spaces.cpp:341-351 -/
def spaceSlice (dim : S → ℕ) (x : SpaceData S) (i : ℕ) : ℕ × ℕ :=
  let b := sliceBoundaries 0 (List.zipWith (fun s m => dim s * m) x.sectors x.mults)
  (b.getD i 0, b.getD (i + 1) 0)

/-- `Space::dim`, src/symmetries/spaces.cpp:352 -/
def spaceDim (dim : S → ℕ) (x : SpaceData S) : ℕ := (List.zipWith (fun s m => dim s * m) x.sectors x.mults).sum

/-- `UncoupledItem`: `uncoupled`, `multiplicities`, `slices` -/
structure UItem (S : Type) where
  unc : List S
  mults : List ℕ
  slices : List (ℕ × ℕ)

/-- src/symmetries/spaces.cpp:2463-2511 `iter_uncoupled(yield_slices=true)` -/
def iterUncoupledSlices [LinearOrder S] (dim : S → ℕ) (spaces : List (SpaceData S)) : List (UItem S) :=
  if spaces.isEmpty then [⟨[], [], []⟩]
  else (List.range (spaces.map fun x => x.sectors.length).prod).map fun m =>
    let nums := spaces.map fun x => x.sectors.length
    let idcs := (List.range spaces.length).map (gridEntry m (makeStride nums true) nums)
    ⟨(TProd.uncoupledItem spaces m).1, (TProd.uncoupledItem spaces m).2,
      List.zipWith (spaceSlice dim) spaces idcs⟩

/-! ## The loops over tree blocks -/

/-- A fusion tree with the first row (column) of its tree block and its uncoupled sectors. -/
structure Placed (S : Type) where
  tree : FusionTree S
  start : ℕ
  item : UItem S

/-- src/backends/fusion_tree_backend.cpp:1580-1600, 1648-1673: the trees of one forest block, with the running
start of the tree block. -/
def placeTrees (item : UItem S) (size : ℕ) : List (FusionTree S) → ℕ → List (Placed S)
  | [], _ => []
  | t :: ts, start => ⟨t, start, item⟩ :: placeTrees item size ts (start + size)

/-- What the loops read of the codomain or the domain: the flat legs and `flat_are_dual`. -/
structure Side (S : Type) where
  spaces : List (SpaceData S)
  areDual : List Bool

/-- The trees of `item` that fuse to `c` -/
def Side.trees [LinearOrder S] (R : FusionRule S) (s : Side S) (c : S) (item : UItem S) : List (FusionTree S) :=
  FusionTrees.allTrees R item.unc c s.areDual

/-- `tree_block_size(uncoupled)` -/
def Side.size [LinearOrder S] (s : Side S) (item : UItem S) : ℕ := TProd.treeBlockSize s.spaces item.unc

/-- src/backends/fusion_tree_backend.cpp:1579-1602, 1647-1675: the pairs of trees of one forest block -/
def forestVisits [LinearOrder S] (R : FusionRule S) (cod dom : Side S) (c : S) (ai bi : UItem S) (i1 i2 : ℕ) :
    List (Placed S × Placed S) :=
  (placeTrees ai (cod.size ai) (cod.trees R c ai) i1).flatMap fun x =>
    (placeTrees bi (dom.size bi) (dom.trees R c bi) i2).map fun y => (x, y)

/-- The loop over `codomain->iter_uncoupled`, src/backends/fusion_tree_backend.cpp:1774-1826 (`skip = false`)
and 1892-1947 (`skip = true`: `continue` for empty forest blocks). -/
def rowLoop [LinearOrder S] (R : FusionRule S) (skip : Bool) (cod dom : Side S) (c : S) (bi : UItem S) (i2 : ℕ) :
    List (UItem S) → ℕ → List (Placed S × Placed S)
  | [], _ => []
  | ai :: ais, i1 =>
    let height := (cod.trees R c ai).length * cod.size ai
    let width := (dom.trees R c bi).length * dom.size bi
    if skip && (height == 0 || width == 0) then rowLoop R skip cod dom c bi i2 ais i1
    else forestVisits R cod dom c ai bi i1 i2 ++ rowLoop R skip cod dom c bi i2 ais (i1 + height)

/-- The loop over `domain->iter_uncoupled`, src/backends/fusion_tree_backend.cpp:1770-1829, 1886-1950: the
width of the forest block is the one of the last round of the inner loop. -/
def colLoop [LinearOrder S] (R : FusionRule S) (skip : Bool) (cod dom : Side S) (c : S) (ais : List (UItem S)) :
    List (UItem S) → ℕ → List (Placed S × Placed S)
  | [], _ => []
  | bi :: bis, i2 =>
    let width := if ais.isEmpty then 0 else (dom.trees R c bi).length * dom.size bi
    rowLoop R skip cod dom c bi i2 ais 0 ++ colLoop R skip cod dom c ais bis (i2 + width)

/-- All pairs of trees that are visited for the coupled sector `c`, in the order of the loops -/
def visits [LinearOrder S] (R : FusionRule S) (dim : S → ℕ) (skip : Bool) (cod dom : Side S) (c : S) :
    List (Placed S × Placed S) :=
  colLoop R skip cod dom c (iterUncoupledSlices dim cod.spaces) (iterUncoupledSlices dim dom.spaces) 0

/-! ## to_dense_block -/

/-- The indices within the sectors of an entry inside the slices: the axes `[a1, m1, ..., aJ, mJ]` are combined
in C-style, src/backends/fusion_tree_backend.cpp:1927-1937. -/
def UItem.symIdx (u : UItem S) (is : List ℕ) : List ℕ :=
  List.zipWith (fun (p : (ℕ × ℕ) × ℕ) x => (x - p.1.1) / p.2) (u.slices.zip u.mults) is

/-- The indices of the degeneracies, see `symIdx` -/
def UItem.degIdx (u : UItem S) (is : List ℕ) : List ℕ :=
  List.zipWith (fun (p : (ℕ × ℕ) × ℕ) x => (x - p.1.1) % p.2) (u.slices.zip u.mults) is

/-- `reshape` of a slice of the block to `[m1, ..., mJ]` in C-style,
src/backends/fusion_tree_backend.cpp:1588-1593 -/
def UItem.ravel (u : UItem S) (ms : List ℕ) : ℕ := packRow (makeStride u.mults true) ms

/-- src/backends/fusion_tree_backend.cpp:1582-1594: what the tree pair adds to the entry with codomain indices
`is` and domain indices `js` (`b_set_add` into the slices, 1938-1944) -/
def contribution [Semiring K] [StarRing K] (T : FTensors S K) (c : S) (M : Mat K) (is js : List ℕ)
    (v : Placed S × Placed S) : K :=
  if inSlices is v.1.item.slices && inSlices js v.2.item.slices then
    ((List.range (T.dim c)).map fun g =>
      star (treeTensor T v.1.tree (v.1.item.symIdx is) g) * treeTensor T v.2.tree (v.2.item.symIdx js) g).sum *
    M.val (v.1.start + v.1.item.ravel (v.1.item.degIdx is)) (v.2.start + v.2.item.ravel (v.2.item.degIdx js))
  else 0

/-- src/backends/fusion_tree_backend.cpp:1882-1951: the entry of `res` with codomain indices `is` and domain
indices `js`; `sectors` is the sector decomposition of the codomain. -/
def toDenseCore [LinearOrder S] [Semiring K] [StarRing K] (R : FusionRule S) (T : FTensors S K)
    (sectors : List S) (cod dom : Side S) (D : FEnts K) (is js : List ℕ) : K :=
  (D.map fun e =>
    match sectors[e.1.1]? with
    | none => 0
    | some c => ((visits R T.dim true cod dom c).map (contribution T c e.2 is js)).sum).sum

/-- src/backends/fusion_tree_backend.cpp:1854-1958 `to_dense_block`: the axes of the domain are reversed at the
end -/
def toDenseBlock [LinearOrder S] [Semiring K] [StarRing K] (R : FusionRule S) (T : FTensors S K)
    (sectors : List S) (cod dom : Side S) (D : FEnts K) : Blk K :=
  ⟨cod.spaces.map (spaceDim T.dim) ++ (dom.spaces.map (spaceDim T.dim)).reverse, fun idx =>
    toDenseCore R T sectors cod dom D (idx.take cod.spaces.length) (idx.drop cod.spaces.length).reverse⟩

/-! ## from_dense_block -/

/-- The dense indices of the entry `[a1, m1, ..., aJ, mJ]` of a slice,
src/backends/fusion_tree_backend.cpp:1783-1802 -/
def UItem.place (u : UItem S) (as ms : List ℕ) : List ℕ :=
  List.zipWith (fun (p : (ℕ × ℕ) × ℕ) (x : ℕ × ℕ) => p.1.1 + (x.1 * p.2 + x.2)) (u.slices.zip u.mults) (as.zip ms)

/-- The multi-index of the degeneracies for a row of a tree block, `reshape` in C-style,
src/backends/fusion_tree_backend.cpp:1661-1665 -/
def UItem.unravel (u : UItem S) (m : ℕ) : List ℕ :=
  (List.range u.mults.length).map (gridEntry m (makeStride u.mults true) u.mults)

/-- src/backends/fusion_tree_backend.cpp:1649-1665: an entry of the tree block,
`1 / dim_c * sum Y[{a}, g] conj(X[{b}, g]) entries[{a}, {b}, {m}, {n}]` -/
def treeBlockEntry [Field K] [StarRing K] (T : FTensors S K) (c : S) (a : List ℕ → List ℕ → K)
    (v : Placed S × Placed S) (m n : ℕ) : K :=
  ((List.range (T.dim c)).map fun g =>
    ((gridC (v.2.item.unc.map T.dim)).map fun bs =>
      ((gridC (v.1.item.unc.map T.dim)).map fun as =>
        a (v.1.item.place as (v.1.item.unravel m)) (v.2.item.place bs (v.2.item.unravel n)) *
          treeTensor T v.1.tree as g).sum * star (treeTensor T v.2.tree bs g)).sum).sum / (T.dim c : K)

/-- src/backends/fusion_tree_backend.cpp:1666-1668: `block[i1:i1+h, i2:i2+w] = tree_block` -/
def setTreeBlock [LinearOrder S] [Field K] [StarRing K] (T : FTensors S K) (cod dom : Side S) (c : S)
    (a : List ℕ → List ℕ → K) (M : Mat K) (v : Placed S × Placed S) : Mat K :=
  ⟨M.rows, M.cols, fun m n =>
    if v.1.start ≤ m ∧ m < v.1.start + cod.size v.1.item ∧ v.2.start ≤ n ∧ n < v.2.start + dom.size v.2.item
    then treeBlockEntry T c a v (m - v.1.start) (n - v.2.start) else M.val m n⟩

/-- src/backends/fusion_tree_backend.cpp:1759-1829: the block of a coupled sector -/
def denseBlock [LinearOrder S] [Field K] [StarRing K] (R : FusionRule S) (T : FTensors S K) (cod dom : Side S)
    (c : S) (a : List ℕ → List ℕ → K) (m n : ℕ) : Mat K :=
  (visits R T.dim false cod dom c).foldl (setTreeBlock T cod dom c a) (Mat.zeros m n)

/-- src/backends/fusion_tree_backend.cpp:1750-1836: the loop over the coupled sectors; `big`: the norm of the
block is larger than `1e-14`. -/
def fromDenseCore [LinearOrder S] [Field K] [StarRing K] (R : FusionRule S) (T : FTensors S K) (big : Mat K → Bool)
    (lc ld : BLeg S) (cod dom : Side S) (a : List ℕ → List ℕ → K) : FEnts K :=
  ((Cyten.Tables.iterCommonSorted compare lc.sectors ld.sectors true true).getD []).filterMap fun ij =>
    lc.sectors[ij.1]?.bind fun c =>
      let M := denseBlock R T cod dom c a (lc.mults.getD ij.1 0) (ld.mults.getD ij.2 0)
      if big M then some ((ij.1, ij.2), M) else none

/-- src/backends/fusion_tree_backend.cpp:1679-1852 `from_dense_block`, without the comparison with `tol` -/
def fromDenseBlock [LinearOrder S] [Field K] [StarRing K] (R : FusionRule S) (T : FTensors S K) (big : Mat K → Bool)
    (lc ld : BLeg S) (cod dom : Side S) (a : Blk K) : FEnts K :=
  mkData (fromDenseCore R T big lc ld cod dom fun is js => a.val (is ++ js.reverse)) false

/-- The square of the 2-norm of a block -/
noncomputable def blockNormSq (a : Mat ℂ) : ℝ :=
  ((List.range a.rows).map fun m => ((List.range a.cols).map fun n => Complex.normSq (a.val m n)).sum).sum

/-- src/backends/fusion_tree_backend.cpp:1750-1836: `norm_sq_projected`, summed over the kept blocks -/
noncomputable def normSqProjected (T : FTensors S ℂ) (sectors : List S) (D : FEnts ℂ) : ℝ :=
  (D.map fun e => match sectors[e.1.1]? with
    | none => 0
    | some c => (T.dim c : ℝ) * blockNormSq e.2).sum

open Classical in
/-- src/backends/fusion_tree_backend.cpp:1679-1852 `from_dense_block` with the comparison 1834-1839; `none` models
the exception. -/
noncomputable def fromDenseChecked [LinearOrder S] (R : FusionRule S) (T : FTensors S ℂ) (big : Mat ℂ → Bool)
    (lc ld : BLeg S) (cod dom : Side S) (tol : ℝ) (a : Blk ℂ) : Option (FEnts ℂ) :=
  let D := fromDenseBlock R T big lc ld cod dom a
  let aNormSq := ((gridC a.shape).map fun idx => Complex.normSq (a.val idx)).sum
  if tol ≠ 0 ∧ tol * tol * aNormSq < aNormSq - normSqProjected T lc.sectors D then none else some D

end Cyten.FT
