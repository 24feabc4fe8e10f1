import Verif.Model.AbelianDiag

/-!
# Model of `Mask` with the abelian backend

The data of a `Mask` is an `AbelianBackendData` with two columns of `block_inds` and one-dimensional
boolean blocks, each as long as the sector of the large leg.  A projection mask has the small leg in
the codomain (first column), an inclusion mask in the domain (second column).
-/

namespace Cyten.Abelian
open Cyten.Tables Cyten.Tools Cyten.Spaces

/-- `zeros(…, Dtype::Bool)` -/
scoped instance boolZero : Zero Bool := ⟨false⟩

variable {S K : Type}

/-- A row of `block_inds` and its block. -/
abbrev MEnts := List ((ℕ × ℕ) × List Bool)

/-- `Mask`, include/cyten/tensors/mask.h; the members `codomain` and `domain` are given by the large
and the small leg. -/
structure MaskT (S : Type) where
  isProjection : Bool
  large : ESpace S
  small : ESpace S
  data : MEnts
deriving DecidableEq

/-- `l[m]` for a boolean array `m`, `np.compress(m, l)` -/
def compress {α : Type} (m : List Bool) (l : List α) : List α :=
  ((m.zip l).filter Prod.fst).map Prod.snd

/-- `sum_all` of a boolean block -/
def countTrue (m : List Bool) : ℕ := m.count true

/-- `if (mult == 0) continue;` of src/backends/abelian.cpp:2424-2427, 2599-2601, 2712-2714 -/
def keepBlocks (bs : DEnts Bool) : DEnts Bool := bs.filter fun p => countTrue p.2 != 0

/-- `misc.rank_data` (cyten/tools/misc.py:208-238) of distinct integers. -/
def rankNat (a : List ℕ) : List ℕ := rankData (lexsortIndices (S := ℕ)) a

/-- `basis_perm_opt` of src/backends/abelian.cpp:1735-1738, 2450-2453, 2622-2625, 2735-2738: the ranks
of the entries of the permutation that are kept. -/
def smallPerm (sym : Sym S) (large : ESpace S) (kept : DEnts Bool) : Option (List ℕ) :=
  match large.perm with
  | none => none
  | some perm =>
    if kept.isEmpty then none
    else some (rankNat (kept.flatMap fun p => compress p.2 (getSlice1 perm (legSlice sym large p.1))))

/-- `small_leg` of src/backends/abelian.cpp:1743-1748, 2460-2465, 2630-2634, 2744-2749 -/
def smallLeg (sym : Sym S) (large : ESpace S) (kept : DEnts Bool) : ESpace S :=
  ⟨kept.filterMap fun p => large.defining[p.1]?, kept.map fun p => countTrue p.2, large.isDual,
    smallPerm sym large kept⟩

/-- `block_inds` and `blocks` of src/backends/abelian.cpp:1739-1740, 2454-2457, 2626-2627,
2739-2742 -/
def maskData (kept : DEnts Bool) : MEnts := kept.zipIdx.map fun p => ((p.2, p.1.1), p.1.2)

/-- The last part of the functions that build a mask from the blocks that are kept. -/
def buildMask (sym : Sym S) (large : ESpace S) (kept : DEnts Bool) : MaskT S :=
  ⟨true, large, smallLeg sym large kept, maskData kept⟩

/-- src/backends/abelian.cpp:2583-2638 `mask_from_block` -/
def maskFromBlock (sym : Sym S) (large : ESpace S) (a : List Bool) : MaskT S :=
  buildMask sym large (keepBlocks (diagonalFromBlock sym large a))

/-- src/tensors/mask.cpp:270-288 `Mask::from_block_mask`; `none`: the array is too short for the
permutation. -/
def fromBlockMask (sym : Sym S) (large : ESpace S) (a : List Bool) : Option (MaskT S) :=
  if (large.basisPerm sym).all (fun i => decide (i < a.length)) then
    some (maskFromBlock sym large (take1 a (large.basisPerm sym)))
  else none

/-- src/backends/abelian.cpp:1693-1750 `diagonal_to_mask`, src/tensors/mask.cpp:290-304
`Mask::from_DiagonalTensor` -/
def maskFromDiagonal (sym : Sym S) (large : ESpace S) (D : DEnts Bool) : MaskT S :=
  buildMask sym large (D.filter fun p => p.2.any id)

/-- src/tensors/mask.cpp:255-268 `Mask::from_eye` for a projection -/
def maskEye (sym : Sym S) (large : ESpace S) : MaskT S :=
  maskFromDiagonal sym large (large.mults.zipIdx.map fun p => (p.2, List.replicate p.1 true))

/-- src/tensors/mask.cpp:414-429 `Mask::from_zero`, src/symmetries/spaces.cpp:1220-1226
`from_null_space` -/
def maskZero (large : ESpace S) : MaskT S := ⟨true, large, ⟨[], [], large.isDual, none⟩, []⟩

/-- The blocks with the numbers of the sectors of the large leg,
src/backends/abelian.cpp:2649-2653, 2667-2668 -/
def MaskT.ents (M : MaskT S) : DEnts Bool :=
  M.data.map fun r => (if M.isProjection then r.1.2 else r.1.1, r.2)

/-- src/backends/abelian.cpp:975-985 `mask_dagger`, src/tensors/mask.cpp:574-592 `Mask::dagger` -/
def MaskT.dagger (M : MaskT S) : MaskT S :=
  { M with isProjection := !M.isProjection, data := M.data.map fun r => ((r.1.2, r.1.1), r.2) }

/-- src/backends/abelian.cpp:2684-2757 `mask_unary_operand`, of a projection.  The loop reads a block or
zeros for each sector as the one of `reduce_DiagonalTensor` does. -/
def maskUnary (sym : Sym S) (f : List Bool → List Bool) (M : MaskT S) : MaskT S :=
  buildMask sym M.large (keepBlocks
    ((reduceLoop 0 M.large.mults M.ents).zipIdx.map fun p => (p.2, f p.1)))

/-- src/tensors/mask.cpp:524-541 `Mask::_unary_operand` -/
def MaskT.unary (sym : Sym S) (f : List Bool → List Bool) (M : MaskT S) : MaskT S :=
  if M.isProjection then maskUnary sym f M else (maskUnary sym f M.dagger).dagger

/-- src/backends/abelian.cpp:2383-2467 `mask_binary_operand`, of projections.  The loop reads a block
or zeros for each sector as the one of `diagonal_elementwise_binary` does. -/
def maskBinary (sym : Sym S) (f : List Bool → List Bool → List Bool) (M₁ M₂ : MaskT S) : MaskT S :=
  buildMask sym M₁.large (keepBlocks (elementwiseBinary M₁.large.mults f false M₁.ents M₂.ents))

/-- src/tensors/mask.cpp:495-522 `Mask::_binary_operand`; `none`: the kinds of mask differ.  That the
large legs are equal is a hypothesis of the theorems. -/
def MaskT.binary (sym : Sym S) (f : List Bool → List Bool → List Bool) (M₁ M₂ : MaskT S) :
    Option (MaskT S) :=
  if M₁.isProjection ≠ M₂.isProjection then none
  else if M₁.isProjection then some (maskBinary sym f M₁ M₂)
  else some (maskBinary sym f M₁.dagger M₂.dagger).dagger

/-- src/backends/abelian.cpp:2640-2656 `mask_to_block` -/
def maskToBlock (sym : Sym S) (M : MaskT S) : List Bool :=
  M.ents.foldl (fun res p => setSlice1 res (legSlice sym M.large p.1) p.2) (zeros1 (M.large.dim sym))

/-- src/tensors/mask.cpp:637-643 `Mask::as_block_mask` -/
def asBlockMask (sym : Sym S) (M : MaskT S) : List Bool :=
  take1 (maskToBlock sym M) (inverseBasisPerm sym M.large)

/-- src/tensors/mask.cpp:621-629 `Mask::all` -/
def MaskT.all (M : MaskT S) : Bool := M.small.mults.sum == M.large.mults.sum

/-- src/tensors/mask.cpp:631-635 `Mask::any` -/
def MaskT.any (sym : Sym S) (M : MaskT S) : Bool := decide (0 < M.small.dim sym)

/-- src/backends/abelian.cpp:2658-2672 `mask_to_diagonal` -/
def maskToDiagonal [Zero K] [One K] (M : MaskT S) : DEnts K :=
  M.ents.map fun p => (p.1, p.2.map fun b => if b then 1 else 0)

/-- src/block_backend/block_backend.cpp:738-757 `get_block_mask_element`; `large` is less than the
length of the block here. -/
def blockMaskElement (a : List Bool) (large small : ℕ) : Bool :=
  a.getD large false && small == countTrue (a.take large)

/-- The entry of a block, false if there is none. -/
def maskEntry : Option (List Bool) → ℕ → ℕ → Bool
  | none, _, _ => false
  | some a, large, small => blockMaskElement a large small

/-- src/backends/abelian.cpp:2132-2156 `get_element_mask`; `i` belongs to the codomain, `j` to the
domain. -/
def getElementMask [LinearOrder S] (sym : Sym S) (M : MaskT S) (i j : ℤ) : Option Bool :=
  if M.isProjection then
    (M.small.parseIndex sym i).bind fun p => (M.large.parseIndex sym j).map fun q =>
      maskEntry (M.data.lookup (p.1, q.1)) q.2 p.2
  else
    (M.large.parseIndex sym i).bind fun p => (M.small.parseIndex sym j).map fun q =>
      maskEntry (M.data.lookup (p.1, q.1)) p.2 q.2

/-- `np.nonzero(m)[0]`, by which `m` acts as an index. -/
def nonzero (m : List Bool) : List ℕ := compress m (List.range m.length)

/-- `res = zeros((N, M)); res[arange(N), mask] = 1`, src/block_backend/numpy.cpp:748-765
`block_from_mask` and src/tensors/mask.cpp:737-746 -/
def Blk.fromMask [Zero K] [One K] (m : List Bool) : Blk K :=
  ⟨[countTrue m, m.length],
    fun pos => if (nonzero m)[pos.getD 0 0]? = some (pos.getD 1 0) then 1 else 0⟩

/-- src/backends/abelian.cpp:945-953 `full_data_from_mask`, of a projection -/
def fullFromMask [Zero K] [One K] (M : MaskT S) : Ents K :=
  M.data.map fun r => ([r.1.1, r.1.2], Blk.fromMask r.2)

/-- The condition of src/tensors/mask.cpp:222-238 `Mask::test_sanity` on the permutation of the small
leg (also for a trivial permutation of the large leg). -/
def permOk (sym : Sym S) (M : MaskT S) : Prop :=
  (gather (compress (maskToBlock sym M) (M.large.basisPerm sym)) (inverseBasisPerm sym M.small)).Pairwise
    (· < ·)

/-- src/backends/abelian.cpp:2674-2682 `mask_transpose`, src/tensors/ops_algebra.cpp:1971-1980 -/
def MaskT.transpose (M : MaskT S) : MaskT S :=
  { isProjection := !M.isProjection, large := M.large.dual, small := M.small.dual,
    data := M.data.map fun r => ((r.1.2, r.1.1), r.2) }

/-! ## Contraction with a mask -/

/-- `np.compress(mask, block, ax)`, src/block_backend/numpy.cpp:605-612 `apply_mask` -/
def Blk.applyMask (b : Blk K) (m : List Bool) (ax : ℕ) : Blk K :=
  ⟨b.shape.set ax (countTrue m), fun i => b.val (i.set ax ((nonzero m).getD (i.getD ax 0) 0))⟩

/-- `res = zeros(shape); res[:, …, mask, …, :] = block`, src/block_backend/numpy.cpp:700-731
`enlarge_leg` -/
def Blk.enlargeLeg [Zero K] (b : Blk K) (m : List Bool) (ax : ℕ) : Blk K :=
  ⟨b.shape.set ax m.length, fun i =>
    if m.getD (i.getD ax 0) false then b.val (i.set ax (countTrue (m.take (i.getD ax 0)))) else 0⟩

/-- The column of the mask that is contracted and the other one, src/backends/abelian.cpp:2494-2502,
2558: `mask_contr` is 0 for a leg in the domain and 1 for a leg in the codomain. -/
def maskCols (inDomain : Bool) (r : ℕ × ℕ) : ℕ × ℕ := if inDomain then (r.1, r.2) else (r.2, r.1)

/-- The block and the row of the result for a pair of common blocks, src/backends/abelian.cpp:2547-2562 -/
def maskPair [Zero K] (ax : ℕ) (inDomain largeLeg : Bool) (T : Ents K) (D : MEnts) (ij : ℕ × ℕ) :
    Option (List ℕ × Blk K) :=
  T[ij.1]?.bind fun p => D[ij.2]?.map fun r =>
    (p.1.set ax (maskCols inDomain r.1).2,
      if largeLeg then p.2.applyMask r.2 ax else p.2.enlargeLeg r.2 ax)

/-- src/backends/abelian.cpp:2483-2566 `_mask_contract`: contraction of leg `ax` of a tensor with `n`
legs.  The assertions of L2497, L2500 are hypotheses of the theorems. -/
def maskContract [Zero K] (n ax : ℕ) (inDomain largeLeg : Bool) (T : Ents K) (D : MEnts) : Ents K :=
  let T' := if ax = n - 1 then T else
    T.insertionSort fun p q => cmpLexsort [p.1.getD ax 0] [q.1.getD ax 0] ≠ .gt
  let D' := if inDomain then
      D.insertionSort fun p q => cmpLexsort [(maskCols inDomain p.1).1] [(maskCols inDomain q.1).1] ≠ .gt
    else D
  mkData (((iterCommonSorted cmpLexsort (T'.map fun p => [p.1.getD ax 0])
    (D'.map fun r => [(maskCols inDomain r.1).1]) false true).getD []).filterMap
      (maskPair ax inDomain largeLeg T' D')) false

/-- src/backends/abelian.cpp:645-674 `apply_mask_to_DiagonalTensor`, for a projection. -/
def maskDiagonal (D : DEnts K) (M : MEnts) : DEnts K :=
  ((iterCommonSorted cmpLexsort (D.map fun p => [p.1]) (M.map fun r => [r.1.2]) true true).getD
    []).filterMap fun ij =>
      D[ij.1]?.bind fun p => M[ij.2]?.map fun r => (r.1.1, compress r.2 p.2)

end Cyten.Abelian
