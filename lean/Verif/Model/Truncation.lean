import Mathlib.Algebra.Field.Defs
import Mathlib.Algebra.BigOperators.Group.List.Defs
import Mathlib.Order.Defs.LinearOrder
import Mathlib.Data.List.Sort

/-!
# Model of the truncation of singular values

Floating point numbers are elements of an ordered field `K` (no rounding, no NaN, no overflow).
The logarithm is a parameter `lg` (only the degeneracy constraint uses it), and so is numpy's
`argsort` (whose treatment of ties is unspecified); `IsArgsort` is what numpy documents.
-/

namespace Cyten.Truncation

variable {K : Type} [Field K] [LinearOrder K]

/-- The truncation options of src/backends/tensor_backend.cpp:138-146. -/
structure Opts (K : Type) where
  chiMax : Option ℤ
  chiMin : ℤ
  degTol : K
  truncCut : K
  svdMin : Option K
  minimizeError : Bool

/-- The first index selected by the python slice `start:` on a sequence of length `n`
(negative starts count from the end, then clipped to the length). -/
def sliceStart (start : ℤ) (n : ℕ) : ℕ :=
  if start < 0 then (start + n).toNat else min start.toNat n

/-- numpy `good[start:] = b`. -/
def setFrom (good : List Bool) (start : ℤ) (b : Bool) : List Bool :=
  good.mapIdx fun i x => if sliceStart start good.length ≤ i then b else x

/-- cyten/tools/misc.py:146-157 `combine_constraints` (the warning is not modelled). -/
def combineConstraints (good1 good2 : List Bool) : List Bool :=
  let res := List.zipWith and good1 good2
  if res.any id then res else good1

/-- numpy `cumsum`, started at `acc`. -/
def cumsumFrom (acc : K) : List K → List K
  | [] => []
  | x :: xs => (acc + x) :: cumsumFrom (acc + x) xs

/-- src/backends/tensor_backend.cpp:160-165: `qdims * S**2`, or `S**2` without `qdims`. -/
def marginalErrs (S : List K) (qdims : Option (List K)) : List K :=
  match qdims with
  | none => S.map (· ^ 2)
  | some q => List.zipWith (· * ·) q (S.map (· ^ 2))

/-- src/backends/tensor_backend.cpp:174-176: values `≤ 1e-100` are replaced by `1e-100`. -/
def clipped (S : List K) : List K := S.map fun s => if s ≤ 1 / 10 ^ 100 then 1 / 10 ^ 100 else s

/-- src/backends/tensor_backend.cpp:202-208: `good2[0] = True`,
`good2[1:] = logS[1:] - logS[:-1] >= degeneracy_tol`. -/
def degGood (lg : K → K) (tol : K) (S : List K) : List Bool :=
  let logS := (clipped S).map lg
  true :: List.zipWith (fun b a => decide (b - a ≥ tol)) logS.tail logS.dropLast

/-- src/backends/tensor_backend.cpp:184-190: keep at most `chi_max` values. -/
def chiMaxStep (o : Opts K) (n : ℕ) (good : List Bool) : List Bool :=
  match o.chiMax with
  | some chi =>
    if chi < n then combineConstraints good (setFrom (List.replicate n false) (-chi) true)
    else good
  | none => good

/-- src/backends/tensor_backend.cpp:192-198: keep at least `chi_min` values. -/
def chiMinStep (o : Opts K) (n : ℕ) (good : List Bool) : List Bool :=
  if 1 < o.chiMin then
    combineConstraints good (setFrom (List.replicate n true) (-o.chiMin + 1) false)
  else good

/-- src/backends/tensor_backend.cpp:200-210: don't cut between degenerate values. -/
def degStep (lg : K → K) (o : Opts K) (S : List K) (good : List Bool) : List Bool :=
  if 0 < o.degTol then combineConstraints good (degGood lg o.degTol S) else good

/-- src/backends/tensor_backend.cpp:212-215: keep only values `S[i] >= svd_min`. -/
def svdMinStep (o : Opts K) (S : List K) (good : List Bool) : List Bool :=
  match o.svdMin with
  | some m => combineConstraints good (S.map fun s => decide (s ≥ m))
  | none => good

/-- src/backends/tensor_backend.cpp:217-221: `cumsum(marginal_errs) > trunc_cut * trunc_cut`. -/
def truncStep (o : Opts K) (marg : List K) (good : List Bool) : List Bool :=
  combineConstraints good
    ((cumsumFrom 0 marg).map fun x => decide (x > o.truncCut * o.truncCut))

/-- src/backends/tensor_backend.cpp:181-221: the array `good` of admissible cuts, for the sorted
singular values `S` and sorted marginal errors `marg`. -/
def goodCuts (lg : K → K) (o : Opts K) (S marg : List K) : List Bool :=
  let n := S.length
  let good := List.replicate n true
  let good := chiMaxStep o n good
  let good := chiMinStep o n good
  let good := degStep lg o S good
  let good := svdMinStep o S good
  truncStep o marg good

/-- src/backends/tensor_backend.cpp:223-230: smallest or largest admissible cut. -/
def chooseCut (minimizeError : Bool) (good : List Bool) : Option ℕ :=
  let nonzero := (List.range good.length).filter fun i => good.getD i false
  if minimizeError then nonzero.head? else nonzero.getLast?

/-- src/backends/tensor_backend.cpp:138-242 `_truncate_singular_values_selection`: the mask
(`True` means keep) in the original order, the truncation error and the new norm.  `none` is an
exception: an empty spectrum, or `qdims` of another length. -/
def select (argsort : List K → List ℕ) (lg : K → K) (S : List K) (qdims : Option (List K))
    (o : Opts K) : Option (List Bool × K × K) := do
  let marg := marginalErrs S qdims
  if marg.length ≠ S.length then none
  let piv := argsort marg
  let S' := piv.map fun i => S.getD i 0
  let marg' := piv.map fun i => marg.getD i 0
  let good := goodCuts lg o S' marg'
  let cut ← chooseCut o.minimizeError good
  let err := (marg'.take cut).sum
  let newNorm := (marg'.drop cut).sum
  let mask := (List.range S.length).map fun i => decide (i ∈ piv.drop cut)
  return (mask, err, newNorm)

/-- A stable `argsort` (numpy's `kind="stable"`), used for examples. -/
def stableArgsort (l : List K) : List ℕ :=
  (List.range l.length).insertionSort fun i j => l.getD i 0 ≤ l.getD j 0

/-- Apply a mask to a list (`S[mask]`), src/tensors/decompositions.cpp:619-632
`svd_apply_mask_py`. -/
def applyMask {α : Type} (S : List α) (mask : List Bool) : List α :=
  ((S.zip mask).filter fun p => p.2).map fun p => p.1

/-- src/tensors/decompositions.cpp:686-707 `truncated_svd_py`, on the level of the list of
singular values: divide by the norm `N`, select, keep the selected values of the *original* `S`,
multiply by `normalize_to / N / new_norm`.  The computation of the singular values and the
factors `U`, `Vh` are not modelled. Returns the new singular values (with the quantum dimensions
that belong to them), the error and the factor `renormalize`. -/
def truncatedSvd (argsort : List K → List ℕ) (lg : K → K) (N : K) (S : List K)
    (qdims : Option (List K)) (o : Opts K) (normalizeTo : Option K) :
    Option (List K × Option (List K) × K × K) := do
  let (mask, err, newNorm) ← select argsort lg (S.map (· / N)) qdims o
  let Skept := applyMask S mask
  let qkept := qdims.map fun q => applyMask q mask
  match normalizeTo with
  | some x =>
    let r := x / N / newNorm
    return (Skept.map (· * r), qkept, err, r)
  | none => return (Skept, qkept, err, 1)

end Cyten.Truncation
