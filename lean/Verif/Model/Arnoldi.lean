import Verif.Model.Gmres

/-!
Model of `Arnoldi` and `ArnoldiEvolution` (`src/tensors/krylov_based.cpp` L532-801).

Vectors are elements of a complex inner product space, the operator is its `matvec`. Exact
arithmetic. `numpy.linalg.eig`, `numpy.linalg.solve` and the (unstable) `std::ranges::sort` are
parameters of the model, their specifications are hypotheses of the theorems.
`numpy.real_if_close` (L640) is left out: it only drops rounding errors. Logging is left out.
-/

namespace Cyten.Krylov

open Cyten.Sparse
open scoped InnerProductSpace

variable {E : Type} [NormedAddCommGroup E] [InnerProductSpace ℂ E]

/-- options of an `Arnoldi` run (`krylov_based.cpp` L275-288, L532-538) -/
structure AOptions where
  nMin : ℕ
  nMax : ℕ
  pTol : ℝ
  minGap : ℝ
  /-- `none`: infinity, the default -/
  eTol : Option ℝ
  cutoff : ℝ
  numEv : ℕ
  which : String

/-- the members of an `Arnoldi` object that change -/
structure AObj (E : Type) where
  psi0 : E
  cache : List E
  h : ℕ → ℕ → ℂ
  es : ℕ → ℕ → ℂ

/-- a new object (`krylov_based.cpp` L259-299) -/
def aNew (psi0 : E) : AObj E := ⟨psi0, [], fun _ _ => 0, fun _ _ => 0⟩

/-- `numpy.linalg.eig` of the leading `n × n` block: eigenvalues and the matrix (row, column) of
eigenvectors -/
abbrev Eig : Type := ℕ → (ℕ → ℕ → ℂ) → (ℕ → ℂ) × (ℕ → ℕ → ℂ)

/-- the sorting key of `argsort_which` (`krylov_based.cpp` L170-190) -/
noncomputable def whichKey (which : String) (z : ℂ) : ℝ :=
  if which = "LM" ∨ which = "m>" then -‖z‖
  else if which = "SM" ∨ which = "m<" then ‖z‖
  else if which = "LR" ∨ which = ">" ∨ which = "LA" then -z.re
  else if which = "SR" ∨ which = "<" ∨ which = "SA" then z.re
  else if which = "LI" then -z.im
  else if which = "SI" then z.im
  else z.re

/-- `argsort_which(values, which)` (`krylov_based.cpp` L165-195) for `n` values: the index of the
value at each position, for the sorting key -/
abbrev ArgSort : Type := (ℂ → ℝ) → ℕ → (ℕ → ℂ) → ℕ → ℕ

/-- `numpy.linalg.solve(V, e_0)` for the leading `n × n` block; `none`: raises `LinAlgError` -/
abbrev Solve0 : Type := ℕ → (ℕ → ℕ → ℂ) → Option (ℕ → ℂ)

/-- What the virtual methods `_calc_result_krylov` and `_converged` compute: the row of `Es`,
`_result_krylov` and `_result_norm`. -/
structure AKind where
  calcResult : ℕ → (ℕ → ℕ → ℂ) → Option ((ℕ → ℂ) × (ℕ → ℕ → ℂ) × ℝ)
  converged : ℕ → (ℕ → ℕ → ℂ) → (ℕ → ℕ → ℂ) → (ℕ → ℕ → ℂ) → Prop

/-- the variables of `Arnoldi::_build_krylov` (`krylov_based.cpp` L562-588) -/
structure AState (E : Type) where
  w : E
  wNorm : ℝ
  cache : List E
  h : ℕ → ℕ → ℂ
  es : ℕ → ℕ → ℂ
  vf : ℕ → ℕ → ℂ
  resultNorm : ℝ

/-- One pass of the loop of `Arnoldi::_build_krylov` up to (not including) the stopping test
(`krylov_based.cpp` L570-582), with `Arnoldi::_to_cache` (L669-676), which raises when the cache
exceeds `N_cache`; the constructor sets `N_cache = N_max` (L278). -/
noncomputable def aStep (o : AOptions) (K : AKind) (H : E → E) (k : ℕ) (s : AState E) :
    Option (AState E) :=
  let w := ((1 / s.wNorm : ℝ) : ℂ) • s.w
  let cache := s.cache ++ [w]
  if cache.length > o.nMax then none
  else
    let r := arnoldiLoop k cache 0 s.h (H w)
    let wNorm := ‖r.2‖
    let h := set2 r.1 (k + 1) k (wNorm : ℂ)
    (K.calcResult k h).map fun c =>
      { w := r.2, wNorm := wNorm, cache := cache, h := h,
        es := fun i j => if i = k then c.1 j else s.es i j, vf := c.2.1, resultNorm := c.2.2 }

/-- the stopping criterion (`krylov_based.cpp` L583) -/
def aStop (o : AOptions) (K : AKind) (k : ℕ) (s : AState E) : Prop :=
  s.wNorm < o.cutoff ∨ (o.nMin ≤ k + 1 ∧ K.converged k s.es s.vf s.h)

open Classical in
/-- The loop of `Arnoldi::_build_krylov` (`krylov_based.cpp` L569-586). -/
noncomputable def aLoop (o : AOptions) (K : AKind) (H : E → E) :
    ℕ → ℕ → AState E → Option (AState E × ℕ)
  | 0, k, s => some (s, k)
  | fuel + 1, k, s =>
    match aStep o K H k s with
    | none => none
    | some s' => if aStop o K k s' then some (s', k + 1) else aLoop o K H fuel (k + 1) s'

open Classical in
/-- `Arnoldi::_build_krylov` (`krylov_based.cpp` L562-588). Returns the normalised `psi0`, the
variables and the number of steps. `none`: raises, or the starting vector is zero (the code divides
by its norm; the result is NaN). -/
noncomputable def aBuild (o : AOptions) (K : AKind) (H : E → E) (obj : AObj E) :
    Option (E × AState E × ℕ) :=
  if ‖obj.psi0‖ = 0 then none
  else
    (aLoop o K H o.nMax 0
      { w := obj.psi0
        wNorm := ‖obj.psi0‖
        cache := obj.cache
        h := obj.h
        es := obj.es
        vf := fun _ _ => 0
        resultNorm := 1 }).map fun r => (((1 / ‖obj.psi0‖ : ℝ) : ℂ) • obj.psi0, r.1, r.2)

/-- `Arnoldi::_calc_result_krylov` (`krylov_based.cpp` L590-619) -/
noncomputable def arnCalc (o : AOptions) (eig : Eig) (sort : ArgSort) (k : ℕ)
    (h : ℕ → ℕ → ℂ) :
    Option ((ℕ → ℂ) × (ℕ → ℕ → ℂ) × ℝ) :=
  if k = 0 then some (fun j => if j = 0 then h 0 0 else 0, fun _ _ => 1, 1)
  else
    let n := k + 1
    let r := eig n h
    let p := sort (whichKey o.which) n r.1
    some (fun j => if j < n then r.1 (p j) else 0, fun row col => r.2 row (p col), 1)

/-- the distances of the eigenvalues whose minimum `Arnoldi::_converged` takes
(`krylov_based.cpp` L682-688) -/
noncomputable def arnDiffs (o : AOptions) (k : ℕ) (es : ℕ → ℕ → ℂ) : List ℝ :=
  (List.range o.numEv).flatMap fun i =>
    (List.range' (i + 1) (o.nMax - (i + 1))).map fun j => ‖es k j - es k i‖

/-- `Arnoldi::_converged` (`krylov_based.cpp` L678-695); without distances the gap is infinite and
`P_err` is 0. -/
noncomputable def arnConv (o : AOptions) (k : ℕ) (es vf h : ℕ → ℕ → ℂ) : Prop :=
  let ritzRes := ‖vf k 0‖ * ‖h (k + 1) k‖
  let pErr := match (arnDiffs o k es).min? with
    | none => 0
    | some d => (ritzRes / max d o.minGap) * (ritzRes / max d o.minGap)
  pErr < o.pTol ∧ (match o.eTol with | none => True | some t => (es (k - 1) 0 - es k 0).re < t)

/-- the virtual methods of `Arnoldi` -/
noncomputable def arnKind (o : AOptions) (eig : Eig) (sort : ArgSort) : AKind where
  calcResult := arnCalc o eig sort
  converged := arnConv o

/-- The combination of the Krylov basis with the coefficients in a column
(`krylov_based.cpp` L647-652 and L787-792). -/
noncomputable def aCombine (cache : List E) (v : ℕ → ℂ) (N : ℕ) : E :=
  (List.range' 1 (N - 1)).foldl (fun psi k => axpy psi (1 : ℂ) (v k • cache.getD k 0))
    (v 0 • cache.getD 0 0)

/-- `Arnoldi::_calc_result_full_multi` (`krylov_based.cpp` L621-667) for `N > 1`; it raises if the
basis is shorter than `N`. -/
noncomputable def arnFull (o : AOptions) (s : AState E) (N : ℕ) : Option (List E) :=
  if s.cache.length < N then none
  else some ((List.range (min N o.numEv)).map fun i =>
    let psi := aCombine s.cache (fun row => s.vf row i) N
    ((1 / ‖psi‖ : ℝ) : ℂ) • psi)

/-- `Arnoldi::run` (`krylov_based.cpp` L540-560); `H` is the operator with `E_shift` already added
by the constructor (L289-296). Returns the eigenvalues, the vectors, the number of steps and the
object afterwards. -/
noncomputable def arnoldiRun (o : AOptions) (eig : Eig) (sort : ArgSort) (H : E → E) (obj : AObj E)
    (eShift : Option ℝ) : Option (List ℂ × List E × ℕ × AObj E) :=
  match aBuild o (arnKind o eig sort) H obj with
  | none => none
  | some (q0, s, N) =>
    let e0 := (List.range o.numEv).map fun i => s.es (N - 1) i - ((eShift.getD 0 : ℝ) : ℂ)
    (if N = 1 then some [q0] else arnFull o s N).map fun psis =>
      (e0, psis, N, ⟨q0, s.cache, s.h, s.es⟩)

/-! ### Evolution -/

/-- `ArnoldiEvolution::_calc_result_krylov` (`krylov_based.cpp` L740-774). -/
noncomputable def aevoCalc (eig : Eig) (solve : Solve0) (delta : ℂ) (k : ℕ) (h : ℕ → ℕ → ℂ) :
    Option ((ℕ → ℂ) × (ℕ → ℕ → ℂ) × ℝ) :=
  if k = 0 then
    let expdE := Complex.exp (delta * h 0 0)
    some (fun _ => 0, fun _ _ => expdE / (‖expdE‖ : ℂ), ‖expdE‖)
  else
    let n := k + 1
    let r := eig n h
    (solve n r.2).map fun coeff =>
      let y := fun i : ℕ => ∑ c ∈ Finset.range n,
        r.2 i c * (Complex.exp (r.1 c * delta) * coeff c)
      let nrm := Real.sqrt (∑ i ∈ Finset.range n, ‖y i‖ ^ 2)
      (fun _ => 0, fun i _ => y i / (nrm : ℂ), nrm)

/-- `ArnoldiEvolution::_converged` (`krylov_based.cpp` L776-780) -/
def aevoConv (o : AOptions) (k : ℕ) (_ vf _ : ℕ → ℕ → ℂ) : Prop := ‖vf k 0‖ < o.pTol

/-- the virtual methods of `ArnoldiEvolution` -/
noncomputable def aevoKind (o : AOptions) (eig : Eig) (solve : Solve0) (delta : ℂ) : AKind where
  calcResult := aevoCalc eig solve delta
  converged := aevoConv o

/-- `ArnoldiEvolution::_calc_result_full_evolution` (`krylov_based.cpp` L782-801) -/
noncomputable def aevoFull (s : AState E) (N : ℕ) : Option E :=
  if s.cache.length < N then none
  else
    let psif := aCombine s.cache (fun row => s.vf row 0) N
    some (((1 / ‖psif‖ : ℝ) : ℂ) • psif)

/-- `ArnoldiEvolution::run` (`krylov_based.cpp` L708-738). `psi0Norm` is computed in the constructor
(L705); the cache is reset at the start (L716, L301-307). Returns the result, the number of steps
and the object afterwards. -/
noncomputable def arnoldiEvolve (o : AOptions) (eig : Eig) (solve : Solve0) (H : E → E)
    (obj : AObj E) (psi0Norm : ℝ) (delta : ℂ) (normalize : Option Bool) :
    Option (E × ℕ × AObj E) :=
  match aBuild o (aevoKind o eig solve delta) H (aNew obj.psi0) with
  | none => none
  | some (q0, s, N) =>
    (if N = 1 then some (s.vf 0 0 • q0) else aevoFull s N).map fun r =>
      (if normalize.getD false then r else ((psi0Norm * s.resultNorm : ℝ) : ℂ) • r, N,
        ⟨q0, s.cache, s.h, s.es⟩)

end Cyten.Krylov
