import Mathlib.Analysis.InnerProductSpace.PiL2

/-!
Model of `src/tensors/sparse.cpp` (linear operators acting on vectors by `matvec`) and of the vector
interface `VectorLike` (`src/tensors/tensor.cpp` L925-1005, `src/tensors/direct_sum.cpp`).

A vector (`VectorLike`) is an element of an arbitrary inner product space `E` over `𝕜` (ℝ or ℂ):
the four operations of the interface that the code uses are

* `axpy`         (`tensor.cpp` L972, `direct_sum.cpp` L147)  `a * self + other`,
* `scaled`       (`tensor.cpp` L966, `direct_sum.cpp` L135)  `a * self`,
* `vector_inner` (`tensor.cpp` L956, `direct_sum.cpp` L124)  `<self, other>`, conjugating `self`,
* `vector_norm`  (`tensor.cpp` L950, `direct_sum.cpp` L111).

Simplifications: exact arithmetic instead of floating point; legs, labels, dtypes, devices and the
checks on them (`compatible_with`, `same_legs`, null pointers) are left out: all vectors live in the
one space `E`.
-/

namespace Cyten.Sparse

open scoped InnerProductSpace

variable {𝕜 E : Type} [RCLike 𝕜] [NormedAddCommGroup E] [InnerProductSpace 𝕜 E]

/-- `VectorLike::axpy(a, other)` of `v`: `a * v + other`
(`src/tensors/tensor.cpp` L972-981: `linear_combination(a, this, one, other)`). -/
def axpy (v : E) (a : 𝕜) (other : E) : E := a • v + other

/-- `vec->vector_inner(other)` with the default `do_dagger = true`
(`src/tensors/tensor.cpp` L956-964): antilinear in `vec`, linear in `other`. -/
def vinner (𝕜 : Type) {E : Type} [RCLike 𝕜] [NormedAddCommGroup E] [InnerProductSpace 𝕜 E]
    (v other : E) : 𝕜 := ⟪v, other⟫_𝕜

/-- What an operator at the leaves of an operator expression provides: `matvec` and, if implemented,
the operator represented by `to_tensor` (a `TensorLinearOperator`, `sparse.cpp` L68-140, or a
subclass of `LinearOperator` written by the user). -/
structure Leaf (𝕜 E : Type) [RCLike 𝕜] [NormedAddCommGroup E] [InnerProductSpace 𝕜 E] where
  /-- `matvec` -/
  apply : E → E
  /-- the map represented by `to_tensor`; `none` if it raises -/
  tens : Option (E →ₗ[𝕜] E)

/-- The classes of `include/cyten/tensors/sparse.h` that act on an arbitrary `VectorLike`:
`LinearOperator` (leaf), `LinearOperatorWrapper`, `SumLinearOperator`, `ShiftedLinearOperator`,
`ProjectedLinearOperator`.  `leaf A adj`: `adj` is what `A.adjoint()` returns, `none` if it raises
(`sparse.cpp` L62-66). -/
inductive Op (𝕜 E : Type) [RCLike 𝕜] [NormedAddCommGroup E] [InnerProductSpace 𝕜 E] : Type where
  | leaf (A : Leaf 𝕜 E) (adj : Option (Leaf 𝕜 E)) : Op 𝕜 E
  | wrap (orig : Op 𝕜 E) : Op 𝕜 E
  | sum (orig : Op 𝕜 E) (more : List (Op 𝕜 E)) : Op 𝕜 E
  | shifted (orig : Op 𝕜 E) (shift : 𝕜) : Op 𝕜 E
  | projected (orig : Op 𝕜 E) (orthoVecs : List E) (projectOperator : Bool)
      (penalty : Option 𝕜) : Op 𝕜 E

/-- First loop of `ProjectedLinearOperator::matvec` with `project_operator` (`sparse.cpp` L301-306):
`c = <o, res>; coeffs.push_back(c); res = o->axpy(-c, res)`. Returns `(res, coeffs)`. -/
def projectLoop : List E → E → E × List 𝕜
  | [], res => (res, [])
  | o :: os, res =>
    let c := vinner 𝕜 o res
    let r := projectLoop os (axpy o (-c) res)
    (r.1, c :: r.2)

/-- Second projection loop of `ProjectedLinearOperator::matvec` (`sparse.cpp` L314-319). -/
def projectLoop2 (𝕜 : Type) {E : Type} [RCLike 𝕜] [NormedAddCommGroup E] [InnerProductSpace 𝕜 E] :
    List E → E → E
  | [], res => res
  | o :: os, res => projectLoop2 𝕜 os (axpy o (-(vinner 𝕜 o res)) res)

/-- Penalty loop of `ProjectedLinearOperator::matvec` (`sparse.cpp` L320-325):
`res = ortho_vecs[i]->axpy(p * coeffs[i], res)`. -/
def penaltyLoop (p : 𝕜) : List E → List 𝕜 → E → E
  | o :: os, c :: cs, res => penaltyLoop p os cs (axpy o (p * c) res)
  | _, _, res => res

/-- The statements of `ProjectedLinearOperator::matvec` before the wrapped operator is applied
(`sparse.cpp` L297-311). -/
def projectBefore (os : List E) (projectOperator : Bool) (v : E) : E × List 𝕜 :=
  if projectOperator then projectLoop os v else (v, os.map fun o => vinner 𝕜 o v)

/-- The statements of `ProjectedLinearOperator::matvec` after the wrapped operator is applied
(`sparse.cpp` L314-326). -/
def projectAfter (os : List E) (projectOperator : Bool) (penalty : Option 𝕜) (cs : List 𝕜)
    (w : E) : E :=
  let res := if projectOperator then projectLoop2 𝕜 os w else w
  match penalty with
  | none => res
  | some p => penaltyLoop p os cs res

mutual
/-- `LinearOperator::matvec` (`sparse.cpp` L170-174, L205-215, L249-255, L294-327). -/
def Op.matvec : Op 𝕜 E → E → E
  | .leaf A _, v => A.apply v
  | .wrap A, v => A.matvec v
  | .sum A more, v => Op.sumLoop more v (A.matvec v)
  | .shifted A s, v => axpy v s (A.matvec v)
  | .projected A os po pen, v =>
    let rc := projectBefore os po v
    projectAfter os po pen rc.2 (A.matvec rc.1)
/-- Loop of `SumLinearOperator::matvec` (`sparse.cpp` L210-213):
`term = op->matvec(vec); res = term->axpy(one, res)`. -/
def Op.sumLoop : List (Op 𝕜 E) → E → E → E
  | [], _, res => res
  | A :: more, v, res => Op.sumLoop more v (axpy (A.matvec v) (1 : 𝕜) res)
end

mutual
/-- `LinearOperator::adjoint` (`sparse.cpp` L62-66, L182-186, L228-237, L270-274, L335-344);
`none`: raises "No adjoint defined". -/
def Op.adjoint : Op 𝕜 E → Option (Op 𝕜 E)
  | .leaf A adj => adj.map fun B => .leaf B (some A)
  | .wrap A => A.adjoint.map .wrap
  | .sum A more => do
    let A' ← A.adjoint
    let more' ← Op.adjointList more
    pure (.sum A' more')
  | .shifted A s => A.adjoint.map fun A' => .shifted A' (starRingEnd 𝕜 s)
  | .projected A os po pen =>
    A.adjoint.map fun A' => .projected A' os po (pen.map (starRingEnd 𝕜))
/-- the loop over `more_operators` in `SumLinearOperator::adjoint` (`sparse.cpp` L233-235) -/
def Op.adjointList : List (Op 𝕜 E) → Option (List (Op 𝕜 E))
  | [] => some []
  | A :: more => do
    let A' ← A.adjoint
    let more' ← Op.adjointList more
    pure (A' :: more')
end

mutual
/-- `LinearOperator::to_tensor` (`sparse.cpp` L176-180, L217-226, L257-268, L329-333); the tensor is
represented by the linear map it stands for. `none`: raises. -/
def Op.toTensor : Op 𝕜 E → Option (E →ₗ[𝕜] E)
  | .leaf A _ => A.tens
  | .wrap A => A.toTensor
  | .sum A more => do
    let t ← A.toTensor
    Op.toTensorLoop more t
  | .shifted A s => A.toTensor.map fun t => t + s • LinearMap.id
  | .projected _ _ _ _ => none
/-- loop of `SumLinearOperator::to_tensor` (`sparse.cpp` L222-224) -/
def Op.toTensorLoop : List (Op 𝕜 E) → (E →ₗ[𝕜] E) → Option (E →ₗ[𝕜] E)
  | [], res => some res
  | A :: more, res => do
    let t ← A.toTensor
    Op.toTensorLoop more (t + res)
end

/-- `LinearOperatorWrapper::unwrapped(recursive)` (`sparse.cpp` L153-168) with `fuel` =
`kMaxUnwrapDepth`. Every class but the leaves is a wrapper. `none`: raises
"maximum recursion depth for unwrapping reached". -/
def Op.original? : Op 𝕜 E → Option (Op 𝕜 E)
  | .leaf _ _ => none
  | .wrap A => some A
  | .sum A _ => some A
  | .shifted A _ => some A
  | .projected A _ _ _ => some A

/-- the loop of `LinearOperatorWrapper::unwrapped` (`sparse.cpp` L159-165) -/
def Op.unwrapLoop : ℕ → Op 𝕜 E → Option (Op 𝕜 E)
  | 0, _ => none
  | n + 1, parent =>
    match parent.original? with
    | none => some parent
    | some p => Op.unwrapLoop n p

/-- `LinearOperatorWrapper::unwrapped` (`sparse.cpp` L153-168); the outer `none`: not a wrapper, so
there is no such method. -/
def Op.unwrapped (op : Op 𝕜 E) (recursive : Bool) : Option (Option (Op 𝕜 E)) :=
  op.original?.map fun parent => if recursive then Op.unwrapLoop 10000 parent else some parent

/-- The inner loop of `gram_schmidt` (`sparse.cpp` L425-428):
`ov = <other, vec>; vec = other->axpy(-ov, vec)`. -/
def gsRemainder (𝕜 : Type) {E : Type} [RCLike 𝕜] [NormedAddCommGroup E] [InnerProductSpace 𝕜 E] :
    List E → E → E
  | [], v => v
  | o :: os, v => gsRemainder 𝕜 os (axpy o (-(vinner 𝕜 o v)) v)

open Classical in
/-- One pass of the outer loop of `gram_schmidt` (`sparse.cpp` L423-433): the remainder is kept,
normalised, if its norm is greater than `rcond`. -/
noncomputable def gsStep (𝕜 : Type) {E : Type} [RCLike 𝕜] [NormedAddCommGroup E]
    [InnerProductSpace 𝕜 E] (rcond : ℝ) (res : List E) (v : E) : List E :=
  let r := gsRemainder 𝕜 res v
  if ‖r‖ > rcond then res ++ [((1 / ‖r‖ : ℝ) : 𝕜) • r] else res

/-- `gram_schmidt(vecs, rcond)` (`sparse.cpp` L420-436). -/
noncomputable def gramSchmidt (𝕜 : Type) {E : Type} [RCLike 𝕜] [NormedAddCommGroup E]
    [InnerProductSpace 𝕜 E] (vecs : List E) (rcond : ℝ) : List E :=
  vecs.foldl (gsStep 𝕜 rcond) []

/-! ### Operators given by a two-leg tensor -/

/-- The matrix with which `TensorLinearOperator::matvec` acts (`sparse.cpp` L104-119:
`tdot(tensor, vec, {which_leg}, {0})`) and which `to_tensor` represents (L121-129: the tensor itself
if `which_leg == 1`, else its legs are exchanged). `T a b` is the entry of the two-leg tensor at
index `a` of leg 0 and `b` of leg 1; `whichLeg1` says that `which_leg = 1`. -/
def tensorMatrix {ι : Type} (T : ι → ι → 𝕜) (whichLeg1 : Bool) (a b : ι) : 𝕜 :=
  if whichLeg1 then T a b else T b a

/-- `TensorLinearOperator::matvec` (`sparse.cpp` L104-119). -/
noncomputable def tensorMatvec {ι : Type} [Fintype ι] (T : ι → ι → 𝕜) (whichLeg1 : Bool)
    (v : EuclideanSpace 𝕜 ι) : EuclideanSpace 𝕜 ι :=
  WithLp.toLp 2 fun a => ∑ b, tensorMatrix T whichLeg1 a b * v b

/-- the map represented by `TensorLinearOperator::to_tensor` (`sparse.cpp` L121-129) -/
noncomputable def tensorMap {ι : Type} [Fintype ι] (T : ι → ι → 𝕜) (whichLeg1 : Bool) :
    EuclideanSpace 𝕜 ι →ₗ[𝕜] EuclideanSpace 𝕜 ι where
  toFun := tensorMatvec T whichLeg1
  map_add' v w := by
    ext a; simp [tensorMatvec, mul_add, Finset.sum_add_distrib]
  map_smul' c v := by
    ext a; simp [tensorMatvec, Finset.mul_sum, mul_left_comm]

/-- `dagger` of a two-leg tensor (`src/backends/abelian.cpp` L693-714 on the dense entries): the legs
are reversed and the entries conjugated. -/
def tensorDagger {ι : Type} (T : ι → ι → 𝕜) (a b : ι) : 𝕜 := starRingEnd 𝕜 (T b a)

/-- `TensorLinearOperator(tensor, which_leg)` with its `adjoint` (`sparse.cpp` L131-140:
`TensorLinearOperator(dagger(tensor), which_leg)`). -/
noncomputable def tensorOp {ι : Type} [Fintype ι] (T : ι → ι → 𝕜) (whichLeg1 : Bool) :
    Op 𝕜 (EuclideanSpace 𝕜 ι) :=
  .leaf ⟨tensorMatvec T whichLeg1, some (tensorMap T whichLeg1)⟩
    (some ⟨tensorMatvec (tensorDagger T) whichLeg1, some (tensorMap (tensorDagger T) whichLeg1)⟩)

/-! ### Direct sums -/

/-- `DirectSum::vector_inner` (`src/tensors/direct_sum.cpp` L124-133); `none`: raises (no components
or size mismatch, `as_direct_sum` L95-108, constructor L32-36). -/
def dsInner (𝕜 : Type) {E : Type} [RCLike 𝕜] [NormedAddCommGroup E] [InnerProductSpace 𝕜 E]
    (xs ys : List E) : Option 𝕜 :=
  if ys.length ≠ xs.length then none
  else match xs, ys with
    | x :: xs, y :: ys =>
      some ((List.zip xs ys).foldl (fun acc p => acc + vinner 𝕜 p.1 p.2) (vinner 𝕜 x y))
    | _, _ => none

/-- `DirectSum::vector_norm` (`src/tensors/direct_sum.cpp` L110-121). -/
noncomputable def dsNorm {E : Type} [NormedAddCommGroup E] (xs : List E) : Option ℝ :=
  match xs with
  | [] => none
  | x :: xs => some (Real.sqrt (xs.foldl (fun acc y => acc + ‖y‖ * ‖y‖) (‖x‖ * ‖x‖)))

/-- `DirectSum::scaled` (`src/tensors/direct_sum.cpp` L135-144). -/
def dsScaled (a : 𝕜) (xs : List E) : List E := xs.map fun x => a • x

/-- `DirectSum::axpy` (`src/tensors/direct_sum.cpp` L146-158). -/
def dsAxpy (xs : List E) (a : 𝕜) (ys : List E) : Option (List E) :=
  if ys.length ≠ xs.length then none
  else some (List.zipWith (fun x y => axpy x a y) xs ys)

/-- `normalize_index` and `DirectSum::at` (`src/tensors/direct_sum.cpp` L15-26, L56-60). -/
def dsAt {α : Type} (xs : List α) (i : ℤ) : Option α :=
  let j := if i < 0 then i + xs.length else i
  if j < 0 ∨ (xs.length : ℤ) ≤ j then none else xs[j.toNat]?

/-- `DirectSumLinearOperator::matvec` (`sparse.cpp` L377-401); `none`: raises on a component count
mismatch. -/
def dsMatvec (ops : List (Op 𝕜 E)) (xs : List E) : Option (List E) :=
  if xs.length ≠ ops.length then none
  else some (List.zipWith (fun A x => A.matvec x) ops xs)

/-- `DirectSumLinearOperator::adjoint` (`sparse.cpp` L409-418). -/
def dsAdjoint (ops : List (Op 𝕜 E)) : Option (List (Op 𝕜 E)) := Op.adjointList ops

/-- `DirectSumLinearOperator` (`sparse.cpp` L346-418) as an operator on the inner product space of
`n`-component direct sums, so that it can be wrapped (summed, shifted, projected) and given to the
Krylov methods like any other; `to_tensor` raises (L403-407). That this is the list-level code above
is `C38_direct_sum_operator`. -/
noncomputable def dsOp {n : ℕ} (ops : Fin n → Op 𝕜 E) : Op 𝕜 (PiLp 2 fun _ : Fin n => E) :=
  .leaf ⟨fun v => WithLp.toLp 2 fun i => (ops i).matvec (v i), none⟩
    (if h : ∀ i, ((ops i).adjoint).isSome then
      some ⟨fun v => WithLp.toLp 2 fun i => (((ops i).adjoint).get (h i)).matvec (v i), none⟩
    else none)

end Cyten.Sparse
