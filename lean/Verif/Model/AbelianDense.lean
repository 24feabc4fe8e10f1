import Verif.Model.AbelianData
import Verif.Model.AbelianNorm
import Verif.Model.AbelianPipe

/-!
# Model of the dense conversions of the abelian backend

`src/backends/abelian.cpp`, `src/tensors/symmetric_tensor.cpp`.  Every leg is given by the
`ElementarySpace` data the conversions read (an `AbelianLegPipe` is one, see `APipe.toESpace`).
-/

namespace Cyten.Abelian
open Cyten.Tables Cyten.Tools Cyten.Spaces

variable {S K : Type}

/-- What the backend reads of a leg. -/
def toBLeg (sym : Sym S) (e : ESpace S) : BLeg S := ⟨e.sectors sym, e.mults⟩

/-- `conventional_leg_order`, include/cyten/symmetries/spaces.h: the codomain, then the factors of
the domain in reversed order. -/
def legOrder {α : Type} (codom dom : List α) : List α := codom ++ dom.reverse

/-- `leg.slices[i]`, src/symmetries/spaces.cpp:341-351. -/
def legSlice (sym : Sym S) (e : ESpace S) (i : ℕ) : ℕ × ℕ :=
  ((e.bounds sym).getD i 0, (e.bounds sym).getD (i + 1) 0)

/-- The slices of a row of `block_inds`, src/backends/abelian.cpp:1844-1849, 3583-3588. -/
def rowSlices (sym : Sym S) (legs : List (ESpace S)) (row : List ℕ) : List (ℕ × ℕ) :=
  List.zipWith (legSlice sym) legs row

/-- Is a multi-index inside the slices? -/
def inSlices : List ℕ → List (ℕ × ℕ) → Bool
  | [], _ => true
  | _, [] => true
  | x :: xs, s :: ss => s.1 ≤ x && x < s.2 && inSlices xs ss

/-- `a[slices]`, src/backends/abelian.cpp:230-234 -/
def Blk.getSlice (a : Blk K) (sl : List (ℕ × ℕ)) : Blk K :=
  ⟨sl.map fun s => s.2 - s.1, fun i => a.val (List.zipWith (fun x s => x + s.1) i sl)⟩

/-- `res[slices] = b`, src/backends/abelian.cpp:236-240 -/
def Blk.setSlice (res : Blk K) (sl : List (ℕ × ℕ)) (b : Blk K) : Blk K :=
  ⟨res.shape, fun i =>
    if inSlices i sl then b.val (List.zipWith (fun x s => x - s.1) i sl) else res.val i⟩

/-- src/block_backend/numpy.cpp:1345-1356 `apply_leg_permutations`: `a[np.ix_(*perms)]` -/
def Blk.applyLegPermutations (b : Blk K) (perms : List (List ℕ)) : Blk K :=
  ⟨perms.map List.length, fun i => b.val (List.zipWith (fun p x => p.getD x 0) perms i)⟩

/-- The entrywise difference of blocks of equal shape. -/
def Blk.sub [Sub K] (v w : Blk K) : Blk K := ⟨v.shape, fun i => v.val i - w.val i⟩

/-- src/symmetries/spaces.cpp:166-176 `inverse_basis_perm()`: the identity if not set. -/
def inverseBasisPerm (sym : Sym S) (e : ESpace S) : List ℕ :=
  match e.inversePerm with
  | some p => p
  | none => List.range (e.dim sym)

/-- src/backends/abelian.cpp:3569-3592 `AbelianBackend::to_dense_block`: in the internal basis
order. -/
def toDenseBlock [Zero K] (sym : Sym S) (legs : List (ESpace S)) (T : Ents K) : Blk K :=
  T.foldl (fun res p => res.setSlice (rowSlices sym legs p.1) p.2)
    (Blk.zeros (legs.map (ESpace.dim sym)))

/-- src/tensors/symmetric_tensor.cpp:728-756 `SymmetricTensor::to_dense_block` without `leg_order`
(`apply_basis_perm`: src/block_backend/block_backend.cpp:719-737). -/
def toDense [Zero K] (sym : Sym S) (legs : List (ESpace S)) (T : Ents K) : Blk K :=
  (toDenseBlock sym legs T).applyLegPermutations (legs.map (inverseBasisPerm sym))

/-- The calls of `parse_index` for all legs, src/backends/abelian.cpp:2097-2104. -/
def parseAll [LinearOrder S] (sym : Sym S) : List (ESpace S) → List ℤ → Option (List (ℕ × ℕ))
  | [], _ => some []
  | _ :: _, [] => none
  | e :: es, i :: is =>
    match e.parseIndex sym i, parseAll sym es is with
    | some p, some ps => some (p :: ps)
    | _, _ => none

/-- src/backends/abelian.cpp:2107-2113: the entry of a block, zero if it is not stored. -/
def blockEntry [Zero K] : Option (Blk K) → List ℕ → K
  | none, _ => 0
  | some b, pos => b.val pos

/-- src/backends/abelian.cpp:2093-2114 `get_element` -/
def getElement [LinearOrder S] [Zero K] (sym : Sym S) (legs : List (ESpace S)) (T : Ents K)
    (idcs : List ℤ) : Option K :=
  (parseAll sym legs idcs).map fun pos =>
    blockEntry (getBlock T (pos.map Prod.fst)) (pos.map Prod.snd)

/-- cyten/tools/misc.py:282-330 `make_grid`: `np.indices([]).reshape(..)` raises for the empty
shape (a dimension `-1` can not be deduced for an array without entries and an axis of length 0). -/
def makeGridPy (shape : List ℕ) (cstyle : Bool) : Option (List (List ℕ)) :=
  if shape.isEmpty then none else some (makeGrid shape cstyle)

/-- Do the sectors selected by a row fuse to the same charge in codomain and domain,
src/backends/abelian.cpp:363-394: domain factor `i` is column `nlegs - 1 - i`. -/
def chargesAgree [DecidableEq S] (R : FusionRule S) (codom dom : List (BLeg S)) (row : List ℕ) :
    Bool :=
  fusedCharge R codom (row.take codom.length) =
    fusedCharge R dom ((row.drop codom.length).reverse)

/-- src/backends/abelian.cpp:328-399 `valid_block_inds` -/
def validBlockInds [DecidableEq S] (R : FusionRule S) (codom dom : List (BLeg S)) :
    Option (List (List ℕ)) :=
  (makeGridPy ((legOrder codom dom).map fun l => l.sectors.length) false).map fun grid =>
    (grid.filter (chargesAgree R codom dom)).insertionSort fun r s => cmpLexsort r s ≠ .gt

/-- src/backends/abelian.cpp:1836-1855: the blocks of a dense array. -/
def cutBlocks (sym : Sym S) (legs : List (ESpace S)) (a : Blk K) (rows : List (List ℕ)) : Ents K :=
  rows.map fun row => (row, a.getSlice (rowSlices sym legs row))

/-- src/backends/abelian.cpp:1827-1860 `AbelianBackend::from_dense_block` (exact arithmetic);
`none`: an exception.  `projected` is filled with the blocks like in `to_dense_block`. -/
noncomputable def fromDenseBlock [DecidableEq S] (sym : Sym S) (R : FusionRule S)
    (codom dom : List (ESpace S)) (a : Blk ℂ) (tol : ℝ) : Option (Ents ℂ) :=
  (validBlockInds R (codom.map (toBLeg sym)) (dom.map (toBLeg sym))).bind fun rows =>
    let ents := cutBlocks sym (legOrder codom dom) a rows
    let projected := ents.foldl (fun res p => res.setSlice (rowSlices sym (legOrder codom dom) p.1)
      p.2) (Blk.zeros a.shape)
    if (a.sub projected).norm > tol * a.norm then none else some (mkData ents true)

/-- src/tensors/symmetric_tensor.cpp:222-260 `SymmetricTensor::from_dense_block`: without the checks
of the arguments (symmetry can be dropped, number of axes). -/
noncomputable def fromDense [DecidableEq S] (sym : Sym S) (R : FusionRule S)
    (codom dom : List (ESpace S)) (a : Blk ℂ) (tol : ℝ) : Option (Ents ℂ) :=
  fromDenseBlock sym R codom dom
    (a.applyLegPermutations ((legOrder codom dom).map (ESpace.basisPerm sym))) tol

end Cyten.Abelian
