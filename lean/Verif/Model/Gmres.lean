import Verif.Model.Krylov

/-!
Model of `GMRES` (`src/tensors/krylov_based.cpp` L358-530).

Vectors are elements of an inner product space `E` over `𝕜`, the operator is its `matvec : E → E`.
Exact arithmetic. A division by zero, which gives NaN entries that spread to the result, is `none`.
`sq` is `std::sqrt(complex128)`; for vectors with real entries all numbers are real and it is the
real square root. Arrays are functions on indices, with the value 0 where nothing was written.
-/

namespace Cyten.Krylov

open Cyten.Sparse
open scoped InnerProductSpace

variable {𝕜 E : Type} [RCLike 𝕜] [NormedAddCommGroup E] [InnerProductSpace 𝕜 E]

/-- write one entry of an array -/
def set1 {α : Type} (f : ℕ → α) (i : ℕ) (x : α) : ℕ → α := fun a => if a = i then x else f a

/-- options of `GMRES` (`krylov_based.cpp` L369-373) -/
structure GOptions where
  nMin : ℕ
  nMax : ℕ
  restart : ℕ
  res : ℝ

/-- the members of a `GMRES` object that change during one cycle -/
structure GState (𝕜 E : Type) where
  qs : List E
  h : ℕ → ℕ → 𝕜
  cosine : ℕ → 𝕜
  sine : ℕ → 𝕜
  e1 : ℕ → 𝕜
  /-- the last entry of `total_error` -/
  errs : List ℝ

/-- `b_norm != 0.0 ? b_norm : 1.0` (`krylov_based.cpp` L379, L422, L522) -/
noncomputable def gDenom (bNorm : ℝ) : ℝ := open Classical in if bNorm ≠ 0 then bNorm else 1

/-- `sub_vec(a, b)` (`krylov_based.cpp` L92-96): `b->axpy(-1, a)` -/
def subVec (𝕜 : Type) {E : Type} [RCLike 𝕜] [NormedAddCommGroup E] [InnerProductSpace 𝕜 E]
    (a b : E) : E := axpy b (-1 : 𝕜) a

open Classical in
/-- The start of a cycle for the residual `r`: in the constructor (L375-387 with
`_init_hessenberg` L389-397) and in `reset` (L515-530). -/
noncomputable def gInit (bNorm : ℝ) (r : E) : GState 𝕜 E :=
  let rNorm := ‖r‖
  { qs := if 0 < rNorm then [((1 / rNorm : ℝ) : 𝕜) • r] else [r]
    h := fun _ _ => 0
    cosine := fun _ => 0
    sine := fun _ => 0
    e1 := set1 (fun _ => 0) 0 (rNorm : 𝕜)
    errs := [rNorm / gDenom bNorm] }

/-- The loop of `GMRES::arnoldi` over the vectors (`krylov_based.cpp` L458-462), from index `i`. -/
def arnoldiLoop (k : ℕ) : List E → ℕ → (ℕ → ℕ → 𝕜) → E → (ℕ → ℕ → 𝕜) × E
  | [], _, h, q => (h, q)
  | c :: cs, i, h, q =>
    let hik := vinner 𝕜 c q
    arnoldiLoop k cs (i + 1) (set2 h i k hik) (axpy c (-hik) q)

open Classical in
/-- `GMRES::arnoldi` (`krylov_based.cpp` L453-469). -/
noncomputable def gArnoldi (A : E → E) (k : ℕ) (s : GState 𝕜 E) : GState 𝕜 E :=
  let q := A (s.qs.getLastD 0)
  let r := arnoldiLoop k (s.qs.take (k + 1)) 0 s.h q
  let hNext := ‖r.2‖
  let q := if 0 < hNext then ((1 / hNext : ℝ) : 𝕜) • r.2 else r.2
  { s with h := set2 r.1 (k + 1) k (hNext : 𝕜), qs := s.qs ++ [q] }

/-- The loop of `GMRES::apply_givens_rotation` (`krylov_based.cpp` L475-481); `fuel` passes are left
and `i` is the index of the next. -/
def rotateLoop (cosine sine : ℕ → 𝕜) (k : ℕ) : ℕ → ℕ → (ℕ → ℕ → 𝕜) → (ℕ → ℕ → 𝕜)
  | 0, _, h => h
  | fuel + 1, i, h =>
    let temp := cosine i * h i k + sine i * h (i + 1) k
    let h := set2 h (i + 1) k (-sine i * h i k + cosine i * h (i + 1) k)
    let h := set2 h i k temp
    rotateLoop cosine sine k fuel (i + 1) h

open Classical in
/-- `GMRES::apply_givens_rotation` with `givens_rotation` (`krylov_based.cpp` L471-498). -/
noncomputable def gRotate (sq : 𝕜 → 𝕜) (k : ℕ) (s : GState 𝕜 E) : Option (GState 𝕜 E) :=
  let h := rotateLoop s.cosine s.sine k k 0 s.h
  let v1 := h k k
  let v2 := h (k + 1) k
  let t := sq (v1 * v1 + v2 * v2)
  if t = 0 then none
  else
    let cosine := set1 s.cosine k (v1 / t)
    let sine := set1 s.sine k (v2 / t)
    let h := set2 h k k (cosine k * h k k + sine k * h (k + 1) k)
    let h := set2 h (k + 1) k 0
    some { s with h := h, cosine := cosine, sine := sine }

/-- One pass of the loop of `GMRES::run` up to (not including) the stopping test
(`krylov_based.cpp` L415-425). -/
noncomputable def gStep (sq : 𝕜 → 𝕜) (A : E → E) (bNorm : ℝ) (k : ℕ) (s : GState 𝕜 E) :
    Option (GState 𝕜 E) :=
  (gRotate sq k (gArnoldi A k s)).map fun s =>
    let e1 := set1 s.e1 (k + 1) (-s.sine k * s.e1 k)
    let e1 := set1 e1 k (s.cosine k * e1 k)
    { s with e1 := e1, errs := s.errs ++ [‖e1 (k + 1)‖ / gDenom bNorm] }

open Classical in
/-- The loop of one cycle (`krylov_based.cpp` L414-430); `fuel` passes are left, `k` is the index of
the next. Returns the state, `performed` and `converged`. -/
noncomputable def gLoop (o : GOptions) (sq : 𝕜 → 𝕜) (A : E → E) (bNorm : ℝ) :
    ℕ → ℕ → GState 𝕜 E → Option (GState 𝕜 E × ℕ × Bool)
  | 0, k, s => some (s, k, false)
  | fuel + 1, k, s =>
    match gStep sq A bNorm k s with
    | none => none
    | some s' =>
      if s'.errs.getLastD 0 < o.res ∧ o.nMin ≤ k then some (s', k + 1, true)
      else gLoop o sq A bNorm fuel (k + 1) s'

/-- `GMRES::backsolve` (`krylov_based.cpp` L500-513): the loop over `i` from `n - 1` down to 0. -/
def gBackLoop (h : ℕ → ℕ → 𝕜) (e1 : ℕ → 𝕜) (k : ℕ) : ℕ → (ℕ → 𝕜) → (ℕ → 𝕜)
  | 0, y => y
  | i + 1, y =>
    let yi := (List.range' (i + 1) (k - (i + 1))).foldl (fun a j => a - h i j * y j) (e1 i)
    gBackLoop h e1 k i (set1 y i (yi / h i i))

open Classical in
/-- `GMRES::backsolve` (`krylov_based.cpp` L500-513) -/
noncomputable def gBacksolve (h : ℕ → ℕ → 𝕜) (e1 : ℕ → 𝕜) (k : ℕ) : Option (ℕ → 𝕜) :=
  if ∃ i, i < k ∧ h i i = 0 then none else some (gBackLoop h e1 k k fun _ => 0)

/-- The update of the solution (`krylov_based.cpp` L433-437). -/
def gUpdate (qs : List E) (y : ℕ → 𝕜) (x : E) (k : ℕ) : E :=
  (List.range k).foldl (fun x i => axpy x (1 : 𝕜) (y i • qs.getD i 0)) x

/-- what `GMRES::run` returns (its `x`, relative error, `total_error`, `total_iters`) -/
structure GResult (E : Type) where
  x : E
  rel : ℝ
  totalError : List (List ℝ)
  totalIters : List ℕ

/-- The loop of `GMRES::run` over the cycles (`krylov_based.cpp` L410-443): `fuel` cycles are left,
`s` is the state at the beginning of the next. Returns `x`, `total_error`, `total_iters`. -/
noncomputable def gCycles (o : GOptions) (sq : 𝕜 → 𝕜) (A : E → E) (b : E) :
    ℕ → E → GState 𝕜 E → List (List ℝ) → List ℕ → Option (E × List (List ℝ) × List ℕ)
  | 0, x, s, te, ti => some (x, te ++ [s.errs], ti)
  | fuel + 1, x, s, te, ti =>
    match gLoop o sq A ‖b‖ o.nMax 0 s with
    | none => none
    | some (s', performed, converged) =>
      match gBacksolve s'.h s'.e1 performed with
      | none => none
      | some y =>
        let x' := gUpdate s'.qs y x performed
        if converged then some (x', te ++ [s'.errs], ti ++ [performed])
        else gCycles o sq A b fuel x' (gInit ‖b‖ (subVec 𝕜 b (A x'))) (te ++ [s'.errs])
          (ti ++ [performed])

open Classical in
/-- `GMRES(A, x, b, options).run()` (`krylov_based.cpp` L358-387 and L405-451). -/
noncomputable def gmresRun (o : GOptions) (sq : 𝕜 → 𝕜) (A : E → E) (x b : E) :
    Option (GResult E) :=
  let s : GState 𝕜 E := gInit ‖b‖ (subVec 𝕜 b (A x))
  let err0 := s.errs.getD 0 0
  if err0 < o.res then some ⟨x, err0, [s.errs], []⟩
  else
    match gCycles o sq A b o.restart x s [] [] with
    | none => none
    | some (x', te, ti) =>
      let rel := ‖subVec 𝕜 (A x') b‖
      some ⟨x', if ‖b‖ ≠ 0 then rel / ‖b‖ else rel, te, ti⟩

end Cyten.Krylov
