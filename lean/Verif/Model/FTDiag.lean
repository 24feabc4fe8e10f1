import Verif.Model.FTScale
import Verif.Model.AbelianDiag

/-!
# Model of `DiagonalTensor` with the fusion tree backend

`src/backends/fusion_tree_backend.cpp:634-656, 742-983, 1041-1049, 1362-1382, 1975-2030`.  As for the abelian
backend (`Verif/Model/AbelianDiag.lean`) a row `[i, i]` of `block_inds` is written `i` and a one-dimensional block
is a list; `i` is the number of a sector of the codomain, i.e. of the `TensorProduct` of the leg, whose sectors
are always sorted, while those of the leg itself need not be.  dtypes and devices are not modelled.
-/

namespace Cyten.FT
open Cyten.Abelian Cyten.Spaces Cyten.Tools

variable {S K L P : Type}

/-- Both columns of `block_inds`. -/
def asRows (D : DEnts K) : FDiag K := D.map fun p => ((p.1, p.1), p.2)

/-- src/backends/fusion_tree_backend.cpp:742-756 `diagonal_all` -/
def diagAll (co : BLeg S) (a : DEnts Bool) : Bool :=
  if a.length < co.sectors.length then false else a.all fun p => p.2.all id

/-- src/backends/fusion_tree_backend.cpp:758-766 `diagonal_any` -/
def diagAny (a : DEnts Bool) : Bool := a.any fun p => p.2.any id

/-- src/backends/fusion_tree_backend.cpp:794-822: the loop over all sectors; the blocks from `n_a` and `n_b` on are
carried along (`bi == -1` when there is none). -/
def diagBinaryLoop [Zero K] [Zero L] (f : List K → List L → List P) : ℕ → List ℕ → DEnts K → DEnts L → DEnts P
  | _, [], _, _ => []
  | i, m :: ms, a, b =>
    (i, f ((headBlock i a).getD (zeros1 m)) ((headBlock i b).getD (zeros1 m))) ::
      diagBinaryLoop f (i + 1) ms (advance i a) (advance i b)

/-- src/backends/fusion_tree_backend.cpp:768-832 `diagonal_elementwise_binary` -/
def diagBinary [Zero K] [Zero L] (co : BLeg S) (f : List K → List L → List P) (partialZeroIsZero : Bool)
    (a : DEnts K) (b : DEnts L) : DEnts P :=
  if partialZeroIsZero then (iterCommon Prod.fst Prod.fst a b).map fun p => (p.1.1, f p.1.2 p.2.2)
  else diagBinaryLoop f 0 co.mults a b

/-- src/backends/fusion_tree_backend.cpp:847-863: the loop of `diagonal_elementwise_unary` -/
def diagUnaryLoop [Zero K] (f : List K → List L) : ℕ → List ℕ → DEnts K → DEnts L
  | _, [], _ => []
  | i, m :: ms, a => (i, f ((headBlock i a).getD (zeros1 m))) :: diagUnaryLoop f (i + 1) ms (advance i a)

/-- src/backends/fusion_tree_backend.cpp:834-870 `diagonal_elementwise_unary` -/
def diagUnary [Zero K] (co : BLeg S) (f : List K → List L) (mapsZeroToZero : Bool) (a : DEnts K) : DEnts L :=
  if mapsZeroToZero then a.map fun p => (p.1, f p.2) else diagUnaryLoop f 0 co.mults a

/-- src/backends/fusion_tree_backend.cpp:939-952 `diagonal_tensor_trace_full`; `qdims` of the sectors of the domain -/
def diagTrace [AddCommMonoid K] [Mul K] (qdims : List K) (a : DEnts K) : K :=
  a.foldl (fun t p => t + qdims.getD p.1 0 * p.2.sum) 0

/-- src/backends/fusion_tree_backend.cpp:1984-1998: the loop of `reduce_DiagonalTensor` -/
def diagReduceLoop [Zero K] {A : Type} (blockFunc : List K → A) : ℕ → List ℕ → DEnts K → List A
  | _, [], _ => []
  | i, m :: ms, a =>
    blockFunc ((headBlock i a).getD (zeros1 m)) :: diagReduceLoop blockFunc (i + 1) ms (advance i a)

/-- src/backends/fusion_tree_backend.cpp:1975-2000 `reduce_DiagonalTensor`, with the functions of
src/tensors/diagonal_tensor.cpp:620-633 `DiagonalTensor::max` -/
def diagMax [LinearOrder K] [Zero K] (co : BLeg S) (a : DEnts K) : Option K :=
  maxOfAll (diagReduceLoop maxOf 0 co.mults a)

/-- src/backends/fusion_tree_backend.cpp:634-656 `apply_mask_to_DiagonalTensor`; `M` are the data of the mask. -/
def diagApplyMask (a : DEnts K) (M : List ((ℕ × ℕ) × List Bool)) : DEnts K :=
  (iterCommon Prod.fst (fun e : (ℕ × ℕ) × List Bool => e.1.2) a M).map fun p => (p.2.1.1, compress p.2.2 p.1.2)

/-- src/backends/fusion_tree_backend.cpp:2002-2030 `diagonal_transpose`: the data (`dual` of the sectors; the
result lives on the dual leg). -/
def diagTranspose [LinearOrder S] (dual : S → S) (co : BLeg S) (a : DEnts K) : DEnts K :=
  let inv := inversePermutation (lexsortIndices (co.sectors.map dual))
  (mkData (a.map fun p => ((inv.getD p.1 0, inv.getD p.1 0), p.2)) false).map fun e => (e.1.1, e.2)

/-- src/backends/fusion_tree_backend.cpp:1041-1049 `full_data_from_diagonal_tensor` (`np.diag` of every block) -/
def diagFull [Zero K] (a : DEnts K) : FEnts K :=
  a.map fun p => ((p.1, p.1), ⟨p.2.length, p.2.length, fun m n => if m = n then p.2.getD m 0 else 0⟩)

/-- src/block_backend/numpy.cpp:786-804 `get_diagonal`; `small = none` for `tol = None`, otherwise it says which
numbers are at most `tol` in absolute value. -/
def Mat.getDiagonal (small : Option (K → Bool)) (M : Mat K) : Option (List K) :=
  let d := (List.range (min M.rows M.cols)).map fun x => M.val x x
  match small with
  | none => some d
  | some s =>
    if (List.range M.rows).all fun m => (List.range M.cols).all fun n => m == n || s (M.val m n) then some d else none

/-- src/backends/fusion_tree_backend.cpp:928-937 `diagonal_tensor_from_full_tensor`; `none`: the exception of
`get_diagonal` -/
def diagFromFull (small : Option (K → Bool)) (a : FEnts K) : Option (DEnts K) :=
  a.mapM fun e => (e.2.getDiagonal small).map fun d => (e.1.1, d)

/-! ## Dense blocks -/

/-- `reshape(a, {n, m})` of an array with one dimension -/
def rows2 [Zero K] (a : List K) (n m : ℕ) : List (List K) :=
  (List.range n).map fun d => (List.range m).map fun x => a.getD (d * m + x) 0

/-- src/backends/fusion_tree_backend.cpp:886-903: one sector of `diagonal_from_block`; `near entries projected` is
the comparison of the norms with the tolerance, `none` an exception (of `reshape` if `a` is too short). -/
def diagSector [DecidableEq S] [Field K] (dim : S → ℕ) (near : List (List K) → List (List K) → Bool)
    (leg : SpaceData S) (a : List K) (c : S) (m : ℕ) : Option (List K) :=
  if c ∈ leg.sectors then
    let e := getSlice1 a (spaceSlice dim leg (leg.sectors.idxOf c))
    if e.length = dim c * m then
      let entries := rows2 e (dim c) m
      let block := (List.range m).map fun x => (entries.map fun r => r.getD x 0).sum / (dim c : K)
      let projected := List.replicate (dim c) block
      if near entries projected then some block else none
    else none
  else none

/-- src/backends/fusion_tree_backend.cpp:872-904 `diagonal_from_block`; `co` is the co-domain -/
def diagFromBlock [DecidableEq S] [Field K] (dim : S → ℕ) (near : List (List K) → List (List K) → Bool)
    (leg : SpaceData S) (co : BLeg S) (a : List K) : Option (DEnts K) :=
  (List.range co.sectors.length).mapM fun i =>
    match co.sectors[i]? with
    | none => none
    | some c => (diagSector dim near leg a c (co.mults.getD i 0)).map fun b => (i, b)

/-- src/backends/fusion_tree_backend.cpp:964-981: one block of `diagonal_tensor_to_block` -/
def diagPut [DecidableEq S] [Zero K] (dim : S → ℕ) (leg : SpaceData S) (co : BLeg S) (res : List K)
    (p : ℕ × List K) : List K :=
  match co.sectors[p.1]? with
  | none => res
  | some c => setSlice1 res (spaceSlice dim leg (leg.sectors.idxOf c)) (List.replicate (dim c) p.2).flatten

/-- src/backends/fusion_tree_backend.cpp:954-983 `diagonal_tensor_to_block` -/
def diagToBlock [DecidableEq S] [Zero K] (dim : S → ℕ) (leg : SpaceData S) (co : BLeg S) (D : DEnts K) : List K :=
  D.foldl (diagPut dim leg co) (zeros1 (spaceDim dim leg))

/-- src/backends/fusion_tree_backend.cpp:1362-1382 `get_element_diagonal`: the entry at the offset `w` of the
sector with number `j` of the leg, as found by `parse_index`. -/
def diagGetElement [DecidableEq S] [Zero K] (isDual : Bool) (leg : SpaceData S) (co : BLeg S) (D : DEnts K)
    (j w : ℕ) : Option K :=
  let i := if isDual then (leg.sectors[j]?.bind fun c => if c ∈ co.sectors then some (co.sectors.idxOf c) else none)
    else some j
  i.bind fun i => (blockIndFromDomain (asRows D) i).map fun
    | none => 0
    | some n => ((D[n]?.map Prod.snd).getD []).getD (w % leg.mults.getD j 0) 0

end Cyten.FT
