import Verif.Model.AbelianDense
import Mathlib.Algebra.Order.Ring.Abs

/-!
# Model of `DiagonalTensor` with the abelian backend

The data of a `DiagonalTensor` is an `AbelianBackendData` whose rows of `block_inds` are `[i, i]` and
whose blocks are one-dimensional arrays.  Here a row `[i, i]` is written `i`, and a one-dimensional
array is a list.  The leg is an `ElementarySpace`, or only its multiplicities where nothing else is
used.  dtypes and devices are not modelled: the entries of a tensor form an arbitrary type `K`.
-/

namespace Cyten.Abelian
open Cyten.Tables Cyten.Tools Cyten.Spaces

variable {S K L P : Type}

/-- `block_inds` and `blocks` of a `DiagonalTensor`. -/
abbrev DEnts (K : Type) := List (ℕ × List K)

/-- The rows of `block_inds`. -/
def DEnts.rows (a : DEnts K) : List (List ℕ) := a.map fun p => [p.1, p.1]

/-- `BlockInds::arange_diag(n)` -/
def arangeDiag (n : ℕ) : List (List ℕ) := (List.range n).map fun i => [i, i]

/-- `block_backend->zeros({m})` -/
def zeros1 [Zero K] (m : ℕ) : List K := List.replicate m 0

/-- src/backends/abelian.cpp:763-773: the callback of `diagonal_elementwise_unary`.  The cases
with `none` in the first place do not occur: the first table has all sectors. -/
def unaryPick [Zero K] (mults : List ℕ) (f : List K → List L) (a : DEnts K) :
    Option ℕ × Option ℕ → Option (ℕ × List L)
  | (some i, none) => some (i, f (zeros1 (mults.getD i 0)))
  | (some i, some j) => a[j]?.map fun q => (i, f q.2)
  | (none, some j) => a[j]?.map fun q => (q.1, f q.2)
  | (none, none) => none

/-- src/backends/abelian.cpp:741-782 `diagonal_elementwise_unary` -/
def elementwiseUnary [Zero K] (mults : List ℕ) (f : List K → List L) (mapsZeroToZero : Bool)
    (a : DEnts K) : DEnts L :=
  if mapsZeroToZero then a.map fun p => (p.1, f p.2)
  else (iterCommonNoncommon cmpLexsort (arangeDiag mults.length) a.rows).filterMap
    (unaryPick mults f a)

/-- src/backends/abelian.cpp:1592-1610: the next block, if it belongs to sector `i`. -/
def headBlock (i : ℕ) : DEnts K → Option (List K)
  | [] => none
  | p :: _ => if i = p.1 then some p.2 else none

/-- src/backends/abelian.cpp:1593-1604: advance to the next block, if the current one belongs to
sector `i`. -/
def advance (i : ℕ) (a : DEnts K) : DEnts K := if (headBlock i a).isSome then a.tail else a

/-- src/backends/abelian.cpp:1590-1615: the loop of `diagonal_elementwise_binary` from sector `i` on;
`a` and `b` are the blocks from `ia` and `ib` on.  `continue` for a missing block of `a` comes before
`ib` is advanced. -/
def binaryLoop [Zero K] [Zero L] (f : List K → List L → List P) (partialZeroIsZero : Bool) :
    ℕ → List ℕ → DEnts K → DEnts L → DEnts P
  | _, [], _, _ => []
  | i, m :: ms, a, b =>
    if partialZeroIsZero && (headBlock i a).isNone then
      binaryLoop f partialZeroIsZero (i + 1) ms a b
    else if partialZeroIsZero && (headBlock i b).isNone then
      binaryLoop f partialZeroIsZero (i + 1) ms (advance i a) b
    else
      (i, f ((headBlock i a).getD (zeros1 m)) ((headBlock i b).getD (zeros1 m))) ::
        binaryLoop f partialZeroIsZero (i + 1) ms (advance i a) (advance i b)

/-- src/backends/abelian.cpp:1566-1632 `diagonal_elementwise_binary` -/
def elementwiseBinary [Zero K] [Zero L] (mults : List ℕ) (f : List K → List L → List P)
    (partialZeroIsZero : Bool) (a : DEnts K) (b : DEnts L) : DEnts P :=
  binaryLoop f partialZeroIsZero 0 mults a b

/-- src/backends/abelian.cpp:715-729 `diagonal_all` -/
def diagonalAll (mults : List ℕ) (a : DEnts Bool) : Bool :=
  if a.length < mults.length then false else a.all fun p => p.2.all id

/-- src/backends/abelian.cpp:731-739 `diagonal_any` -/
def diagonalAny (a : DEnts Bool) : Bool := a.any fun p => p.2.any id

/-- src/backends/abelian.cpp:1653-1675 `diagonal_from_sector_block_func` with
`ones_block`, src/tensors/diagonal_tensor.cpp:205-225 `DiagonalTensor::from_eye`. -/
def diagonalEye [One K] (mults : List ℕ) : DEnts K :=
  mults.zipIdx.map fun p => (p.2, List.replicate p.1 1)

/-- src/backends/abelian.cpp:965-974 `diagonal_tensor_trace_full` -/
def diagonalTrace [AddCommMonoid K] (a : DEnts K) : K := a.foldl (fun t p => t + p.2.sum) 0

/-- src/backends/abelian.cpp:3160-3173: the blocks of all sectors, zeros where none is stored. -/
def reduceLoop [Zero K] : ℕ → List ℕ → DEnts K → List (List K)
  | _, [], _ => []
  | j, m :: ms, a => (headBlock j a).getD (zeros1 m) :: reduceLoop (j + 1) ms (advance j a)

/-- src/backends/abelian.cpp:3153-3175 `reduce_DiagonalTensor` -/
def reduceDiagonal [Zero K] {α β : Type} (mults : List ℕ) (blockFunc : List K → α)
    (func : List α → β) (a : DEnts K) : β :=
  func ((reduceLoop 0 mults a).map blockFunc)

/-- numpy and python `max` of a sequence; raises for an empty one. -/
def maxOf [LinearOrder K] : List K → Option K
  | [] => none
  | x :: xs => some (xs.foldl max x)

/-- `func` of src/tensors/diagonal_tensor.cpp:624-631 applied to what `block_func` gave. -/
def maxOfAll [LinearOrder K] (xs : List (Option K)) : Option K := (xs.mapM id).bind maxOf

/-- src/tensors/diagonal_tensor.cpp:620-633 `DiagonalTensor::max` -/
def diagonalMax [LinearOrder K] [Zero K] (mults : List ℕ) (a : DEnts K) : Option K :=
  reduceDiagonal mults maxOf maxOfAll a

/-! ## Elementwise comparison -/

section AlmostEqual
variable [Ring K] [LinearOrder K]

/-- src/tensors/diagonal_tensor.cpp:521-551 `elementwise_almost_equal` with real entries. -/
def elementwiseAlmostEqual (mults : List ℕ) (rtol atol : K) (a b : DEnts K) : DEnts Bool :=
  let diff := elementwiseBinary mults (List.zipWith (· - ·)) false a b
  let left := elementwiseUnary mults (List.map abs) true diff
  let atolOnes := elementwiseUnary mults (List.map (· * atol)) false (diagonalEye mults)
  let rtolAbs := elementwiseUnary mults (List.map (· * rtol)) false
    (elementwiseUnary mults (List.map abs) true a)
  let right := elementwiseBinary mults (List.zipWith (· + ·)) false atolOnes rtolAbs
  elementwiseBinary mults (List.zipWith fun x y => decide (x ≤ y)) false left right

end AlmostEqual

/-! ## Conversions -/

/-- `np.take(a, perm)` -/
def take1 [Zero K] (a : List K) (perm : List ℕ) : List K := perm.map fun i => a.getD i 0

/-- `a[slc]` -/
def getSlice1 (a : List K) (sl : ℕ × ℕ) : List K := slice a sl.1 sl.2

/-- `res[slc] = b` for a slice as long as `b` -/
def setSlice1 (res : List K) (sl : ℕ × ℕ) (b : List K) : List K :=
  res.take sl.1 ++ b ++ res.drop sl.2

/-- src/backends/abelian.cpp:1634-1651 `diagonal_from_block` -/
def diagonalFromBlock (sym : Sym S) (e : ESpace S) (a : List K) : DEnts K :=
  (List.range e.mults.length).map fun i => (i, getSlice1 a (legSlice sym e i))

/-- src/tensors/diagonal_tensor.cpp:179-203 `DiagonalTensor::from_diag_block`; `none`: the index
`basis_perm[k]` is out of range for the array. -/
def fromDiagBlock [Zero K] (sym : Sym S) (e : ESpace S) (a : List K) : Option (DEnts K) :=
  if (e.basisPerm sym).all (fun i => decide (i < a.length)) then
    some (diagonalFromBlock sym e (take1 a (e.basisPerm sym)))
  else none

/-- src/backends/abelian.cpp:1677-1691 `diagonal_tensor_to_block` -/
def diagonalToBlock [Zero K] (sym : Sym S) (e : ESpace S) (D : DEnts K) : List K :=
  D.foldl (fun res p => setSlice1 res (legSlice sym e p.1) p.2) (zeros1 (e.dim sym))

/-- src/tensors/diagonal_tensor.cpp:492-506 `diagonal_as_block` -/
def diagonalAsBlock [Zero K] (sym : Sym S) (e : ESpace S) (D : DEnts K) : List K :=
  take1 (diagonalToBlock sym e D) (inverseBasisPerm sym e)

/-- src/backends/abelian.cpp:2125-2130: the entry of a block, zero if it is not stored. -/
def entry1 [Zero K] : Option (List K) → ℕ → K
  | none, _ => 0
  | some b, x => b.getD x 0

/-- src/backends/abelian.cpp:2116-2131 `get_element_diagonal`; the block is found with `get_block`. -/
def getElementDiagonal [LinearOrder S] [Zero K] (sym : Sym S) (e : ESpace S) (D : DEnts K) (idx : ℤ) :
    Option K :=
  (e.parseIndex sym idx).map fun p => entry1 (D.lookup p.1) p.2

/-- src/tensors/diagonal_tensor.cpp:585-596 `DiagonalTensor::_get_item` -/
def getItemDiagonal [LinearOrder S] [Zero K] (sym : Sym S) (e : ESpace S) (D : DEnts K) (i1 i2 : ℤ) :
    Option K :=
  if i1 ≠ i2 then some 0 else getElementDiagonal sym e D i1

/-- src/block_backend/numpy.cpp:739-746 `block_from_diagonal` (`np.diag`) -/
def Blk.fromDiagonal [Zero K] (d : List K) : Blk K :=
  ⟨[d.length, d.length], fun pos => if pos.getD 0 0 = pos.getD 1 0 then d.getD (pos.getD 0 0) 0 else 0⟩

/-- src/backends/abelian.cpp:935-943 `full_data_from_diagonal_tensor` -/
def fullFromDiagonal [Zero K] (D : DEnts K) : Ents K :=
  D.map fun p => ([p.1, p.1], Blk.fromDiagonal p.2)

/-- `np.allclose(a, np.diag(np.diagonal(a)), atol=tol)`: on the diagonal the arrays agree, elsewhere
the entry of `a` has to be at most `tol` in absolute value (`small`). -/
def Blk.isDiagonal (small : K → Bool) (b : Blk K) : Bool :=
  (gridC b.shape).all fun pos => pos.getD 0 0 == pos.getD 1 0 || small (b.val pos)

/-- `np.diagonal(a)` -/
def Blk.diagonal (b : Blk K) : List K :=
  (List.range (min (b.shape.getD 0 0) (b.shape.getD 1 0))).map fun x => b.val [x, x]

/-- src/block_backend/numpy.cpp:786-804 `get_diagonal`; `small = none` for `tol = None`. -/
def Blk.getDiagonal (small : Option (K → Bool)) (b : Blk K) : Option (List K) :=
  match small with
  | none => some b.diagonal
  | some s => if b.isDiagonal s then some b.diagonal else none

/-- src/backends/abelian.cpp:955-963 `diagonal_tensor_from_full_tensor`.  The rows of `block_inds` are
kept; they are of the form `[i, i]` by the charge rule (`C36_charge_rule`). -/
def diagonalFromFull (small : Option (K → Bool)) (T : Ents K) : Option (DEnts K) :=
  T.mapM fun p => (p.2.getDiagonal small).map fun d => (p.1.getD 0 0, d)

end Cyten.Abelian
