import Verif.Model.Sparse
import Mathlib.Analysis.SpecialFunctions.Complex.Log

/-!
Model of the Krylov methods of `src/tensors/krylov_based.cpp`: `KrylovBased`, `LanczosGroundState`,
`LanczosEvolution`, `Arnoldi`, `ArnoldiEvolution`.

Vectors are elements of an inner product space `E` over `𝕜` (see `Verif.Model.Sparse`), the operator
is its `matvec : E → E`.  Exact arithmetic; `std::abs(complex128)` of a norm is the norm.
`numpy.linalg.eigh`/`eig` are parameters of the model (their specification is a hypothesis of the
theorems).  Arrays such as `_h_krylov` and `Es` are functions on indices, with the value 0 where
nothing was written.  Logging is left out.
-/

namespace Cyten.Krylov

open Cyten.Sparse
open scoped InnerProductSpace

variable {𝕜 E : Type} [RCLike 𝕜] [NormedAddCommGroup E] [InnerProductSpace 𝕜 E]

/-- write one entry of an array -/
def set2 {α : Type} (h : ℕ → ℕ → α) (i j : ℕ) (x : α) : ℕ → ℕ → α :=
  fun a b => if a = i ∧ b = j then x else h a b

/-- `KrylovBased::KrylovBased` (`krylov_based.cpp` L259-299), the part concerning the operator
(L289-296): returns the operator the algorithm uses, and what the operator *object passed by the
caller* has become: a `ProjectedLinearOperator` is modified in place. -/
def krylovCtor (H : Op 𝕜 E) (eShift : Option ℝ) : Op 𝕜 E × Op 𝕜 E :=
  match eShift with
  | none => (H, H)
  | some s =>
    match H with
    | .projected A os po pen =>
      (.projected (.shifted A (s : 𝕜)) os po pen, .projected (.shifted A (s : 𝕜)) os po pen)
    | H => (.shifted H (s : 𝕜), H)

/-- `KrylovBased::_to_cache` (`krylov_based.cpp` L343-350): a first-in-first-out cache of at most
`N_cache` vectors. -/
def toCache (nCache : ℕ) (cache : List E) (psi : E) : List E :=
  let c := cache ++ [psi]
  if c.length > nCache then c.tail else c

/-- numerical options of a Lanczos run (`krylov_based.cpp` L275-288, L803-813) -/
structure Options where
  nMin : ℕ
  nMax : ℕ
  nCache : ℕ
  pTol : ℝ
  minGap : ℝ
  /-- `none`: infinity, the default -/
  eTol : Option ℝ
  cutoff : ℝ
  reortho : Bool

/-- What the virtual methods `_calc_result_krylov` and `_converged` of a Lanczos class compute.
`calcResult k h` returns the row `Es[k, :]`, `_result_krylov` and `_result_norm`. -/
structure Kind (𝕜 : Type) where
  calcResult : ℕ → (ℕ → ℕ → ℝ) → (ℕ → ℝ) × List 𝕜 × ℝ
  converged : ℕ → (ℕ → ℕ → ℝ) → List 𝕜 → (ℕ → ℕ → ℝ) → Prop

/-- The variables of `LanczosGroundState::_build_krylov` (`krylov_based.cpp` L842-882). -/
structure LState (𝕜 E : Type) where
  w : E
  beta : ℝ
  cache : List E
  h : ℕ → ℕ → ℝ
  es : ℕ → ℕ → ℝ
  vf : List 𝕜
  resultNorm : ℝ

/-- The reorthogonalisation loop (`krylov_based.cpp` L864-867, L906-909) over all cached vectors but
the last. -/
def reorthoLoop (𝕜 : Type) {E : Type} [RCLike 𝕜] [NormedAddCommGroup E] [InnerProductSpace 𝕜 E] :
    List E → E → E
  | [], w => w
  | c :: cs, w => reorthoLoop 𝕜 cs (axpy c (-(vinner 𝕜 c w)) w)

/-- Subtracting the projections on the previous vectors (`krylov_based.cpp` L863-870 and L905-912):
all cached ones with `reortho`, else `beta` times the one before the last. -/
noncomputable def subtractPrevious (𝕜 : Type) {E : Type} [RCLike 𝕜] [NormedAddCommGroup E]
    [InnerProductSpace 𝕜 E] (reortho : Bool) (k : ℕ) (cache : List E) (beta : ℝ) (w : E) : E :=
  if reortho then reorthoLoop 𝕜 cache.dropLast w
  else if 0 < k then axpy (cache.getD (cache.length - 2) 0) (-((beta : ℝ) : 𝕜)) w
  else w

/-- One pass of the loop of `LanczosGroundState::_build_krylov` up to (not including) the test of
the stopping criterion (`krylov_based.cpp` L857-874). -/
noncomputable def lanczosStep (o : Options) (K : Kind 𝕜) (H : E → E) (k : ℕ) (s : LState 𝕜 E) :
    LState 𝕜 E :=
  let w := ((1 / s.beta : ℝ) : 𝕜) • s.w
  let cache := toCache o.nCache s.cache w
  let w := H w
  let alpha := RCLike.re (vinner 𝕜 w (cache.getLastD 0))
  let h := set2 s.h k k alpha
  let r := K.calcResult k h
  let es := fun i j => if i = k then r.1 j else s.es i j
  let w := axpy (cache.getLastD 0) (-((alpha : ℝ) : 𝕜)) w
  let w := subtractPrevious 𝕜 o.reortho k cache s.beta w
  let beta := ‖w‖
  let h := set2 (set2 h k (k + 1) beta) (k + 1) k beta
  { w := w, beta := beta, cache := cache, h := h, es := es, vf := r.2.1, resultNorm := r.2.2 }

/-- The stopping criterion (`krylov_based.cpp` L876). -/
def lanczosStop (o : Options) (K : Kind 𝕜) (k : ℕ) (s : LState 𝕜 E) : Prop :=
  |s.beta| < o.cutoff ∨ (o.nMin ≤ k + 1 ∧ K.converged k s.es s.vf s.h)

open Classical in
/-- The loop of `LanczosGroundState::_build_krylov` (`krylov_based.cpp` L856-881); `fuel` is the
number of passes left, `k` their index. Returns the variables and `performed`. -/
noncomputable def lanczosLoop (o : Options) (K : Kind 𝕜) (H : E → E) :
    ℕ → ℕ → LState 𝕜 E → LState 𝕜 E × ℕ
  | 0, k, s => (s, k)
  | fuel + 1, k, s =>
    let s' := lanczosStep o K H k s
    if lanczosStop o K k s' then (s', k + 1) else lanczosLoop o K H fuel (k + 1) s'

open Classical in
/-- `LanczosGroundState::_build_krylov` (`krylov_based.cpp` L842-882) on an object whose cache and
matrices are empty (a new object, or after `_reset_krylov_state` L301-307). Returns `psi0`
(normalised), the final variables and the number `N` of steps; `none`: raises because the norm of
`psi0` is below the cutoff. -/
noncomputable def lanczosBuild (o : Options) (K : Kind 𝕜) (H : E → E) (psi0 : E) :
    Option (E × LState 𝕜 E × ℕ) :=
  let beta := ‖psi0‖
  if beta < o.cutoff then none
  else
    let s : LState 𝕜 E :=
      { w := psi0
        beta := beta
        cache := []
        h := fun _ _ => 0
        es := fun _ _ => 0
        vf := []
        resultNorm := 1 }
    let r := lanczosLoop o K H o.nMax 0 s
    some (((1 / beta : ℝ) : 𝕜) • psi0, r.1, r.2)

/-- The first loop of `KrylovBased::_calc_result_full` (`krylov_based.cpp` L321-325), over `k` in a
list of values: `psif = psif + vf[N-k] * cache[len_cache - k]`. -/
def addCached (vf : List 𝕜) (cache : List E) (N : ℕ) : List ℕ → E → E
  | [], psif => psif
  | k :: ks, psif =>
    addCached vf cache N ks
      (axpy psif (1 : 𝕜) (vf.getD (N - k) 0 • cache.getD (cache.length - k) 0))

/-- The loop of `LanczosGroundState::_rebuild_krylov_for_result_full` (`krylov_based.cpp`
L895-919); `fuel` passes are left, `k` is the index of the next. -/
noncomputable def rebuildLoop (o : Options) (H : E → E) (h : ℕ → ℕ → ℝ) (vf : List 𝕜) :
    ℕ → ℕ → List E → E → ℝ → E → E
  | 0, _, _, _, _, psif => psif
  | fuel + 1, k, cache, w, beta, psif =>
    let cache := toCache o.nCache cache w
    let w := H w
    let alpha := h k k
    let w := axpy (cache.getLastD 0) (-((alpha : ℝ) : 𝕜)) w
    let w := subtractPrevious 𝕜 o.reortho k cache beta w
    let beta := h k (k + 1)
    let w := ((1 / beta : ℝ) : 𝕜) • w
    rebuildLoop o H h vf fuel (k + 1) cache w beta (axpy psif (1 : 𝕜) (vf.getD (k + 1) 0 • w))

/-- The vector accumulated by `KrylovBased::_calc_result_full` before it is normalised
(`krylov_based.cpp` L309-330), for Lanczos. `N - len_cache - 1` is computed in signed integers;
a loop up to a negative bound is empty. -/
noncomputable def calcResultRaw (o : Options) (H : E → E) (psi0 : E) (s : LState 𝕜 E) (N : ℕ) : E :=
  let psif := s.vf.getD 0 0 • psi0
  let lenCache := s.cache.length
  let nLoop := min (lenCache + 1) N
  let psif := addCached s.vf s.cache N (List.range' 1 (nLoop - 1)) psif
  rebuildLoop o H s.h s.vf (N - lenCache - 1) 0 [] psi0 0 psif

/-- `KrylovBased::_calc_result_full` (`krylov_based.cpp` L309-341) for Lanczos. `none`: raises. -/
noncomputable def calcResultFull (o : Options) (H : E → E) (psi0 : E) (s : LState 𝕜 E) (N : ℕ) :
    Option E :=
  if N = s.vf.length ∧ 1 < N then
    let psif := calcResultRaw o H psi0 s N
    some (((1 / ‖psif‖ : ℝ) : 𝕜) • psif)
  else none

/-- `numpy.linalg.eigh` of the leading `n × n` block of a real symmetric array: eigenvalues in
ascending order and the matrix (row, column) whose columns are the eigenvectors. -/
abbrev Eigh : Type := ℕ → (ℕ → ℕ → ℝ) → (ℕ → ℝ) × (ℕ → ℕ → ℝ)

/-- `LanczosGroundState::_calc_result_krylov` (`krylov_based.cpp` L921-946). -/
noncomputable def groundCalc (𝕜 : Type) [RCLike 𝕜] (eigh : Eigh) (k : ℕ) (h : ℕ → ℕ → ℝ) :
    (ℕ → ℝ) × List 𝕜 × ℝ :=
  if k = 0 then (fun j => if j = 0 then h 0 0 else 0, [1], 1)
  else
    let n := k + 1
    let r := eigh n h
    (fun j => if j < n then r.1 j else 0, (List.range n).map fun row => ((r.2 row 0 : ℝ) : 𝕜), 1)

/-- `LanczosGroundState::_converged` (`krylov_based.cpp` L884-893). -/
def groundConv (𝕜 : Type) [RCLike 𝕜] (o : Options) (k : ℕ) (es : ℕ → ℕ → ℝ) (vf : List 𝕜)
    (h : ℕ → ℕ → ℝ) : Prop :=
  let ritzRes := ‖vf.getD k 0‖ * |h k (k + 1)|
  let gap := max (es k 1 - es k 0) o.minGap
  let pErr := (ritzRes / gap) * (ritzRes / gap)
  let deltaE0 := es (k - 1) 0 - es k 0
  pErr < o.pTol ∧ (match o.eTol with | none => True | some t => deltaE0 < t)

/-- the virtual methods of `LanczosGroundState` -/
noncomputable def groundKind (𝕜 : Type) [RCLike 𝕜] (o : Options) (eigh : Eigh) : Kind 𝕜 where
  calcResult := groundCalc 𝕜 eigh
  converged := groundConv 𝕜 o

/-- `LanczosGroundState::run` (`krylov_based.cpp` L815-840) with the operator `H` as set by the
constructor. Returns `(E0, psi, N)`. -/
noncomputable def lanczosRun (o : Options) (eigh : Eigh) (H : E → E) (psi0 : E)
    (eShift : Option ℝ) : Option (ℝ × E × ℕ) :=
  match lanczosBuild o (groundKind 𝕜 o eigh) H psi0 with
  | none => none
  | some (q0, s, N) =>
    let E0 := s.es (N - 1) 0 - eShift.getD 0
    if N = 1 then some (E0, q0, N)
    else (calcResultFull o H q0 s N).map fun psi => (E0, psi, N)

/-- `lanczos(H, psi, options)` (`krylov_based.cpp` L1021-1025), constructor and run, on an operator
expression. Returns the result and what the operator object of the caller has become. -/
noncomputable def lanczosOp (o : Options) (eigh : Eigh) (H : Op 𝕜 E) (psi0 : E)
    (eShift : Option ℝ) : Option (ℝ × E × ℕ) × Op 𝕜 E :=
  let c := krylovCtor H eShift
  (lanczosRun (𝕜 := 𝕜) o eigh c.1.matvec psi0 eShift, c.2)

/-! ### Time evolution -/

/-- `LanczosEvolution::_calc_result_krylov` (`krylov_based.cpp` L987-1013). `Es` is not written. -/
noncomputable def evoCalc (eigh : Eigh) (delta : ℂ) (k : ℕ) (h : ℕ → ℕ → ℝ) :
    (ℕ → ℝ) × List ℂ × ℝ :=
  if k = 0 then
    let expdE := Complex.exp (delta * (h 0 0 : ℂ))
    (fun _ => 0, [expdE / (‖expdE‖ : ℂ)], ‖expdE‖)
  else
    let n := k + 1
    let r := eigh n h
    let y := fun i : ℕ => ∑ c ∈ Finset.range n,
      ((r.2 i c : ℝ) : ℂ) * (Complex.exp (((r.1 c : ℝ) : ℂ) * delta) * starRingEnd ℂ ((r.2 0 c : ℝ) : ℂ))
    let nrm := Real.sqrt (∑ i ∈ Finset.range n, ‖y i‖ ^ 2)
    (fun _ => 0, (List.range n).map fun i => y i / (nrm : ℂ), nrm)

/-- `LanczosEvolution::_converged` (`krylov_based.cpp` L1015-1019). -/
def evoConv (o : Options) (k : ℕ) (_ : ℕ → ℕ → ℝ) (vf : List ℂ) (_ : ℕ → ℕ → ℝ) : Prop :=
  ‖vf.getD k 0‖ < o.pTol

/-- the virtual methods of `LanczosEvolution` -/
noncomputable def evoKind (o : Options) (eigh : Eigh) (delta : ℂ) : Kind ℂ where
  calcResult := evoCalc eigh delta
  converged := evoConv o

/-- The members of a `LanczosEvolution` object that survive a `run`: the others are reset at its
start (`krylov_based.cpp` L960-961, L301-307) or overwritten. -/
structure EvoObj (E : Type) where
  psi0 : E
  psi0Norm : Option ℝ

open Classical in
/-- `LanczosEvolution::run(delta, normalize)` (`krylov_based.cpp` L957-985). Returns the evolved
vector, the number of steps and the new state of the object. -/
noncomputable def evolveRun {E : Type} [NormedAddCommGroup E] [InnerProductSpace ℂ E] (o : Options)
    (eigh : Eigh) (H : E → E) (obj : EvoObj E) (delta : ℂ) (normalize : Option Bool) :
    Option (E × ℕ × EvoObj E) :=
  match lanczosBuild o (evoKind o eigh delta) H obj.psi0 with
  | none => none
  | some (q0, s, N) =>
    let psi0Norm := obj.psi0Norm.getD ‖obj.psi0‖
    let full := if N = 1 then some (s.vf.getD 0 0 • q0) else calcResultFull o H q0 s N
    full.map fun r =>
      (if normalize.getD (decide (delta.re = 0)) then r
        else ((psi0Norm * s.resultNorm : ℝ) : ℂ) • r, N, ⟨q0, some psi0Norm⟩)

end Cyten.Krylov
