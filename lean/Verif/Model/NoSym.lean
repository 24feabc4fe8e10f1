import Verif.Model.AbelianCombine
import Verif.Model.AbelianLegs
import Verif.Model.AbelianMask

/-!
# Model of the backend without symmetry, `src/backends/no_symmetry.cpp`

The data of a tensor is a single block, in the internal basis order of the legs.  The legs of the
results, which the functions of `src/tensors` compute and hand over to the backend, are part of the
model of each operation; `is_dual` and the symmetry (which is trivial) are left out.
-/

namespace Cyten.NoSym
open Cyten.Abelian Cyten.Tools Cyten.Tables

/-- A leg: its dimension and `_basis_perm`, src/symmetries/spaces.cpp:140-190. -/
structure NLeg where
  dim : ℕ
  perm : Option (List ℕ)
deriving DecidableEq

namespace NLeg

/-- src/symmetries/spaces.cpp:140-150 `basis_perm` -/
def basisPerm (l : NLeg) : List ℕ :=
  match l.perm with
  | some p => p
  | none => List.range l.dim

/-- src/symmetries/spaces.cpp:166-176 `inverse_basis_perm`; it is stored when the permutation is set,
152-164. -/
def inversePerm (l : NLeg) : List ℕ :=
  match l.perm with
  | some p => inversePermutation p
  | none => List.range l.dim

/-- src/symmetries/spaces.cpp:629-672 `combined_basis_perm` and the constructor of `LegPipe`;
`none`: `combine_permutations` raises. -/
def pipe (legs : List NLeg) (cstyle : Bool) : Option NLeg :=
  if legs.all fun l => l.perm.isNone then some ⟨(legs.map dim).prod, none⟩
  else (combinePermutations (legs.map basisPerm) cstyle).map fun p => ⟨(legs.map dim).prod, some p⟩

end NLeg

/-- A tensor: `codomain`, `domain`, the block of `data`. -/
structure NTensor (K : Type) where
  cod : List NLeg
  dom : List NLeg
  blk : Blk K

/-- `conventional_leg_order` -/
def NTensor.legs {K : Type} (t : NTensor K) : List NLeg := t.cod ++ t.dom.reverse

/-- The dimensions of the legs, src/backends/no_symmetry.cpp:46-54 `dims_from_legs` -/
def ldims (legs : List NLeg) : List ℕ := legs.map NLeg.dim

end Cyten.NoSym

namespace Cyten.Abelian
open Cyten.Tools

/-- src/block_backend/numpy.cpp:1118-1130 `tdot`: `np.tensordot`: the axes `idcs_a` of `a` and `idcs_b`
of `b` are contracted, the other axes of `a`, then those of `b` stay in their order. -/
def Blk.tdot {K : Type} [AddCommMonoid K] [Mul K] (a b : Blk K) (idcsA idcsB : List ℕ) : Blk K :=
  let keepA := otherLegs a.shape.length idcsA
  let keepB := otherLegs b.shape.length idcsB
  ⟨(keepA.map fun c => a.shape.getD c 0) ++ keepB.map fun c => b.shape.getD c 0, fun i =>
    ((gridC (idcsA.map fun c => a.shape.getD c 0)).map fun x =>
      (a.permuteAxes (keepA ++ idcsA)).val (i.take keepA.length ++ x) *
        (b.permuteAxes (idcsB ++ keepB)).val (x ++ i.drop keepA.length)).sum⟩

/-- The dimensions that an axis of dimension `d` is split into. -/
def splitDims (s : Option (List ℕ × Bool)) (d : ℕ) : List ℕ :=
  match s with
  | none => [d]
  | some (ds, _) => ds

/-- Are the new axes reversed after the split? -/
def splitRev (s : Option (List ℕ × Bool)) : Bool :=
  match s with
  | none => false
  | some (_, cstyle) => !cstyle

/-- src/block_backend/block_backend.cpp:923-982 `split_legs` of a block: `segs` has for each axis the
dimensions `dims` and the `cstyle`, or `none` if the axis is not split.  `none`: the exception for
dimensions that do not match. -/
def Blk.splitLegs {K : Type} (b : Blk K) (segs : List (Option (List ℕ × Bool))) : Option (Blk K) :=
  let newDims := List.zipWith splitDims segs b.shape
  if newDims.map List.prod = b.shape then
    some ((b.reshape newDims.flatten).permuteAxes (axesPerm 0
      (List.zipWith (fun s (ds : List ℕ) => (ds.length, splitRev s)) segs newDims)))
  else none

end Cyten.Abelian

namespace Cyten.NoSym
open Cyten.Abelian Cyten.Tools Cyten.Tables

variable {K : Type}

/-! ## Dense arrays -/

/-- A block in the order of the public bases of the legs, src/block_backend/block_backend.cpp:719-737
`apply_basis_perm` with `inverse`. -/
def pub (legs : List NLeg) (b : Blk K) : Blk K := b.applyLegPermutations (legs.map NLeg.inversePerm)

/-- src/backends/no_symmetry.cpp:941-945 `to_dense_block` and
src/tensors/symmetric_tensor.cpp:728-756 `SymmetricTensor::to_dense_block`. -/
def toDense (t : NTensor K) : Blk K := pub t.legs t.blk

/-- src/backends/no_symmetry.cpp:365-372 `from_dense_block` and
src/tensors/symmetric_tensor.cpp:222-260 `SymmetricTensor::from_dense_block`. -/
def fromDense (cod dom : List NLeg) (a : Blk K) : NTensor K :=
  ⟨cod, dom, a.applyLegPermutations ((cod ++ dom.reverse).map NLeg.basisPerm)⟩

/-- src/backends/no_symmetry.cpp:482-495 `get_element` (for indices in range);
src/symmetries/spaces.cpp:231-252 `apply_basis_perm` with `inverse` and `pre_compose`. -/
def getElement (t : NTensor K) (idcs : List ℕ) : K :=
  t.blk.val (List.zipWith (fun (l : NLeg) x => match l.perm with
    | none => x
    | some p => (inversePermutation p).getD x 0) t.legs idcs)

/-- src/backends/no_symmetry.cpp:996-1005 `zero_data` -/
def zeroData [Zero K] (cod dom : List NLeg) : NTensor K := ⟨cod, dom, Blk.zeros (ldims (cod ++ dom.reverse))⟩

/-- src/backends/no_symmetry.cpp:350-363 `eye_data` -/
def eye [Zero K] [One K] (legs : List NLeg) : NTensor K := ⟨legs, legs, Blk.eyeBlock (ldims legs)⟩

/-! ## Algebra -/

/-- src/backends/no_symmetry.cpp:551-559 `linear_combination` -/
def linearCombination [Add K] [Mul K] (a : K) (v : NTensor K) (b : K) (w : NTensor K) : NTensor K :=
  ⟨v.cod, v.dom, Blk.linComb a v.blk b w.blk⟩

/-- src/backends/no_symmetry.cpp:698-702 `mul` -/
def mul [Mul K] (a : K) (v : NTensor K) : NTensor K := ⟨v.cod, v.dom, v.blk.smul a⟩

/-- src/backends/no_symmetry.cpp:230-234 `dagger`: codomain and domain are exchanged,
src/tensors/ops_algebra.cpp `dagger_py`. -/
def dagger [Star K] (a : NTensor K) : NTensor K := ⟨a.dom, a.cod, a.blk.dagger⟩

/-- src/backends/no_symmetry.cpp:804-818 `permute_legs`; a leg that changes between codomain and
domain is replaced by its dual, which has the same dimension and `_basis_perm`. -/
def permuteLegs (a : NTensor K) (codomainIdcs domainIdcs : List ℕ) : NTensor K :=
  ⟨codomainIdcs.map fun i => a.legs.getD i ⟨0, none⟩, domainIdcs.map fun i => a.legs.getD i ⟨0, none⟩,
    a.blk.permuteAxes (codomainIdcs ++ domainIdcs.reverse)⟩

/-- src/backends/no_symmetry.cpp:710-715 `outer`; legs: src/tensors/ops_algebra.cpp `outer_py`. -/
def outer [Mul K] (a b : NTensor K) : NTensor K :=
  ⟨a.cod ++ b.cod, a.dom ++ b.dom, Blk.tensorOuter a.blk b.blk a.cod.length⟩

/-- src/backends/no_symmetry.cpp:209-222 `compose` -/
def compose [AddCommMonoid K] [Mul K] (a b : NTensor K) : NTensor K :=
  ⟨a.cod, b.dom, Blk.tdot a.blk b.blk (List.range' a.cod.length a.dom.length).reverse
    (List.range b.cod.length)⟩

/-- src/backends/no_symmetry.cpp:530-534 `inner` -/
def inner [AddCommMonoid K] [Mul K] [Star K] (a b : NTensor K) (doDagger : Bool) : K :=
  Blk.inner a.blk b.blk doDagger

/-- src/backends/no_symmetry.cpp:963-970 `trace_full` -/
def traceFull [AddCommMonoid K] (a : NTensor K) : K := a.blk.traceFull

/-- src/backends/no_symmetry.cpp:757-802 `partial_trace`: the data and the legs that remain. -/
def partialTrace [AddCommMonoid K] (a : NTensor K) (pairs : List (ℕ × ℕ)) : NTensor K :=
  let n := a.cod.length + a.dom.length
  let remaining := (List.range n).filter fun i =>
    !((pairs.map Prod.fst).contains i) && !((pairs.map Prod.snd).contains i)
  ⟨((List.range a.cod.length).filter fun i => remaining.contains i).map fun i => a.cod.getD i ⟨0, none⟩,
    ((List.range a.dom.length).filter fun i => remaining.contains (n - 1 - i)).map fun i =>
      a.dom.getD i ⟨0, none⟩,
    a.blk.tracePartial (pairs.map Prod.fst) (pairs.map Prod.snd) remaining⟩

/-- src/backends/no_symmetry.cpp:717-755 `partial_compose`; the new codomain and domain are computed by
src/tensors/ops_algebra.cpp:1180-1371 `partial_compose_py`: the contracted legs are replaced by the
open legs of `b`. -/
def partialCompose [AddCommMonoid K] [Mul K] (a b : NTensor K) (first : ℕ) : NTensor K :=
  let na := a.cod.length + a.dom.length
  let inCod := decide (first < a.cod.length)
  let numContr := if inCod then b.dom.length else b.cod.length
  let numAdd := if inCod then b.cod.length else b.dom.length
  let idcsB := if inCod then (List.range' b.cod.length b.dom.length).reverse
    else (List.range b.cod.length).reverse
  let res := Blk.tdot a.blk b.blk (List.range' first numContr) idcsB
  let perm := List.range first ++ (List.range numAdd).map (na - numContr + ·) ++
    List.range' first (na - numContr - first)
  if inCod then
    ⟨a.cod.take first ++ b.cod ++ a.cod.drop (first + numContr), a.dom, res.permuteAxes perm⟩
  else
    ⟨a.cod, a.dom.take (na - (first + numContr)) ++ b.dom ++ a.dom.drop (na - first),
      res.permuteAxes perm⟩

/-! ## Diagonal tensors and masks: one-dimensional blocks in the internal order of one leg -/

/-- A diagonal tensor: its leg and the block. -/
structure NDiag (K : Type) where
  leg : NLeg
  blk : List K

/-- src/backends/no_symmetry.cpp:300-304 `diagonal_tensor_to_block`, with the inverse basis permutation
of src/tensors/diagonal_tensor.cpp `diagonal_as_block`. -/
def NDiag.toDense [Zero K] (d : NDiag K) : List K := take1 d.blk d.leg.inversePerm

/-- src/backends/no_symmetry.cpp:271-277 `diagonal_from_block`, with the basis permutation. -/
def NDiag.fromDense [Zero K] (leg : NLeg) (a : List K) : NDiag K := ⟨leg, take1 a leg.basisPerm⟩

/-- src/backends/no_symmetry.cpp:458-462 `full_data_from_diagonal_tensor` -/
def NDiag.full [Zero K] (d : NDiag K) : NTensor K := ⟨[d.leg], [d.leg], Blk.fromDiagonal d.blk⟩

/-- src/backends/no_symmetry.cpp:294-298 `diagonal_tensor_trace_full` -/
def NDiag.trace [AddCommMonoid K] (d : NDiag K) : K := d.blk.sum

/-- src/backends/no_symmetry.cpp:848-852 `scale_axis` -/
def scaleAxis [Mul K] [Zero K] (a : NTensor K) (d : NDiag K) (leg : ℕ) : NTensor K :=
  ⟨a.cod, a.dom, a.blk.scaleAxis d.blk leg⟩

/-- A mask: large leg, small leg, the block over the large leg. -/
structure NMask where
  large : NLeg
  small : NLeg
  blk : List Bool

/-- src/backends/no_symmetry.cpp:68-75, 85-92 `rank_basis_perm_masked`, `elementary_from_trivial`
(src/symmetries/spaces.cpp:1352-1369 `from_trivial_sector`: a space of dimension zero has no
`_basis_perm`). -/
def smallLeg (large : NLeg) (m : List Bool) : NLeg :=
  if countTrue m = 0 then ⟨0, none⟩
  else ⟨countTrue m, large.perm.map fun p => rankNat (compress m p)⟩

/-- src/backends/no_symmetry.cpp:649-657 `mask_from_block`; `from_block_mask` of src/tensors/mask.cpp
applies the basis permutation to the public mask. -/
def maskFromBlock (large : NLeg) (a : List Bool) : NMask :=
  let m := large.basisPerm.map fun i => a.getD i false
  ⟨large, smallLeg large m, m⟩

/-- src/backends/no_symmetry.cpp:593-616 `mask_contract_large_leg`: axis `leg` is projected. -/
def maskLarge (a : NTensor K) (m : NMask) (leg : ℕ) : NTensor K :=
  if leg < a.cod.length then ⟨a.cod.set leg m.small, a.dom, a.blk.applyMask m.blk leg⟩
  else ⟨a.cod, a.dom.set (a.cod.length + a.dom.length - 1 - leg) m.small, a.blk.applyMask m.blk leg⟩

/-- src/backends/no_symmetry.cpp:618-641 `mask_contract_small_leg`: axis `leg` is filled with zeros. -/
def maskSmall [Zero K] (a : NTensor K) (m : NMask) (leg : ℕ) : NTensor K :=
  if leg < a.cod.length then ⟨a.cod.set leg m.large, a.dom, a.blk.enlargeLeg m.blk leg⟩
  else ⟨a.cod, a.dom.set (a.cod.length + a.dom.length - 1 - leg) m.large, a.blk.enlargeLeg m.blk leg⟩

/-! ## Decompositions -/

/-- src/backends/no_symmetry.cpp:820-838 `qr`, for a block function `f`; the new leg has no basis
permutation. -/
def qr (f : Blk K → Blk K × Blk K) (a : NTensor K) : NTensor K × NTensor K :=
  let qd := ldims a.cod
  let rd := ldims a.dom.reverse
  let (q, r) := f (a.blk.reshape [qd.prod, rd.prod])
  let k := r.shape.getD 0 0
  (⟨a.cod, [⟨k, none⟩], q.reshape (qd ++ [k])⟩, ⟨[⟨k, none⟩], a.dom, r.reshape (k :: rd)⟩)

/-- src/backends/no_symmetry.cpp:325-348 `eigh`, for a block function `f`: the eigenvalues and the
eigenvectors; `newLeg` is `domain.as_ElementarySpace`. -/
def eigh (f : Blk K → List K × Blk K) (newLeg : NLeg) (a : NTensor K) : NDiag K × NTensor K :=
  let j := a.cod.length
  let k := (ldims a.dom).prod
  let mat := (a.blk.permuteAxes (List.range j ++ (List.range' j j).reverse)).reshape [k, k]
  let (w, v) := f mat
  (⟨newLeg, w⟩, ⟨a.cod, [newLeg], v.reshape (ldims a.cod ++ [k])⟩)

/-! ## Combining and splitting legs -/

/-- A leg that stays, or a group of legs with the `combine_cstyle` of its pipe (in the order of
`pipe.legs`) and whether it is in the domain. -/
inductive NSeg
  | keep (l : NLeg)
  | pipe (legs : List NLeg) (p : NLeg) (cstyle inDomain : Bool)

namespace NSeg

/-- The legs before combining, in the order of the tensor legs: the group of a pipe in the domain has
the reversed order of `pipe.legs`. -/
def legs : NSeg → List NLeg
  | keep l => [l]
  | pipe ls _ _ d => if d then ls.reverse else ls

/-- The leg after combining. -/
def leg : NSeg → NLeg
  | keep l => l
  | pipe _ p _ _ => p

/-- Reverse the axes? `!cstyles`: src/backends/no_symmetry.cpp:201-205,
src/block_backend/block_backend.cpp:815-816 -/
def rev : NSeg → Bool
  | keep _ => false
  | pipe _ _ c d => !(c != d)

/-- src/backends/no_symmetry.cpp:860-879: dimensions and `cstyle` for `split_legs`; the tensor leg of a
pipe in the domain is its dual, with reversed legs and flipped `combine_cstyle`
(src/symmetries/spaces.cpp:695-704). -/
def splitArg : NSeg → Option (List ℕ × Bool)
  | keep _ => none
  | pipe ls _ c d =>
    let c' := c != d
    let ls' := if d then ls.reverse else ls
    some (if c' then ldims ls' else (ldims ls').reverse, c')

end NSeg

/-- src/backends/no_symmetry.cpp:192-207 `combine_legs` on the block; `segs` describes the legs of the
tensor in their order. -/
def combineBlk (segs : List NSeg) (b : Blk K) : Blk K :=
  b.combineLegs (segs.map fun s => (s.legs.length, s.rev))

/-- src/backends/no_symmetry.cpp:854-881 `split_legs` on the block. -/
def splitBlk (segs : List NSeg) (b : Blk K) : Option (Blk K) := b.splitLegs (segs.map NSeg.splitArg)

end Cyten.NoSym
