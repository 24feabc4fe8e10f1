import Verif.Props.Sparse
import Mathlib.LinearAlgebra.Complex.FiniteDimensional

/-!
C38, continued: direct sums, unwrapping, what happens when the `ortho_vecs` are not orthonormal, and
concrete cases.
-/

namespace Cyten.Props

open Cyten.Sparse
open scoped InnerProductSpace

variable {𝕜 E : Type} [RCLike 𝕜] [NormedAddCommGroup E] [InnerProductSpace 𝕜 E]

/-! ### Direct sums -/

theorem foldl_add_eq {α M : Type} [AddCommMonoid M] (f : α → M) (l : List α) (a : M) :
    l.foldl (fun acc p => acc + f p) a = a + (l.map f).sum := by
  induction l generalizing a with
  | nil => simp
  | cons x l ih => rw [List.foldl_cons, ih, List.map_cons, List.sum_cons, add_assoc]

theorem zip_ofFn {α β : Type} {n : ℕ} (x : Fin n → α) (y : Fin n → β) :
    List.zip (List.ofFn x) (List.ofFn y) = List.ofFn fun i => (x i, y i) := by
  apply List.ext_getElem <;> simp

theorem zipWith_ofFn {α β γ : Type} {n : ℕ} (f : α → β → γ) (x : Fin n → α) (y : Fin n → β) :
    List.zipWith f (List.ofFn x) (List.ofFn y) = List.ofFn fun i => f (x i) (y i) := by
  apply List.ext_getElem <;> simp

/-- **C38**: inner products of direct sums are those of the orthogonal direct sum. -/
theorem C38_direct_sum_inner {n : ℕ} (x y : PiLp 2 fun _ : Fin (n + 1) => E) :
    dsInner 𝕜 (List.ofFn x) (List.ofFn y) = some ⟪x, y⟫_𝕜 := by
  unfold dsInner
  rw [if_neg (by simp)]
  rw [List.ofFn_succ, List.ofFn_succ]
  simp only
  rw [zip_ofFn, foldl_add_eq, List.map_ofFn, List.sum_ofFn, PiLp.inner_apply, Fin.sum_univ_succ]
  rfl

/-- **C38**: the norm of a direct sum is that of the orthogonal direct sum. -/
theorem C38_direct_sum_norm {n : ℕ} (x : PiLp 2 fun _ : Fin (n + 1) => E) :
    dsNorm (List.ofFn x) = some ‖x‖ := by
  rw [List.ofFn_succ]
  unfold dsNorm
  simp only
  rw [foldl_add_eq, List.map_ofFn, List.sum_ofFn, PiLp.norm_eq_of_L2, Fin.sum_univ_succ]
  simp only [pow_two, Function.comp_apply]

/-- **C38**: `axpy` and `scaled` act componentwise. -/
theorem C38_direct_sum_axpy {n : ℕ} (x y : PiLp 2 fun _ : Fin n => E) (a : 𝕜) :
    dsAxpy (List.ofFn x) a (List.ofFn y) = some (List.ofFn (a • x + y)) ∧
    dsScaled a (List.ofFn x) = List.ofFn (a • x) := by
  constructor
  · unfold dsAxpy
    rw [if_neg (by simp), zipWith_ofFn]
    rfl
  · unfold dsScaled
    rw [List.map_ofFn]
    rfl

/-- **C38**: direct sums with different numbers of components are rejected. -/
theorem C38_direct_sum_mismatch (xs ys : List E) (a : 𝕜) (h : xs.length ≠ ys.length) :
    dsInner 𝕜 xs ys = none ∧ dsAxpy xs a ys = none := by
  refine ⟨?_, ?_⟩
  · unfold dsInner; rw [if_pos (Ne.symm h)]
  · unfold dsAxpy; rw [if_pos (Ne.symm h)]

/-- **C38**: `DirectSumLinearOperator` acts componentwise. -/
theorem C38_direct_sum_operator {n : ℕ} (ops : Fin n → Op 𝕜 E) (x : PiLp 2 fun _ : Fin n => E) :
    dsMatvec (List.ofFn ops) (List.ofFn x) = some (List.ofFn ((dsOp ops).matvec x)) := by
  unfold dsMatvec
  rw [if_neg (by simp), zipWith_ofFn]
  unfold dsOp
  rw [Op.matvec]

/-- **C38**: `DirectSumLinearOperator` is linear and its adjoint is its adjoint, if this is so for
its components. -/
theorem C38_direct_sum_good {n : ℕ} (ops : Fin n → Op 𝕜 E) (h : ∀ i, GoodOp (ops i)) :
    GoodOp (dsOp ops) := by
  unfold dsOp
  rw [GoodOp]
  refine ⟨?_, ?_, by intro t ht; cases ht⟩
  · choose L hL using fun i => matvec_linear (ops i) (h i)
    refine ⟨⟨⟨fun v => WithLp.toLp 2 fun i => L i (v i), ?_⟩, ?_⟩, ?_⟩
    · intro v w; ext i; simp
    · intro c v; ext i; simp
    · intro v
      ext i
      simp [hL]
  · intro B hB
    split_ifs at hB with hs
    cases hB
    have hadj : ∀ i x y, ⟪x, (ops i).matvec y⟫_𝕜 =
        ⟪(((ops i).adjoint).get (hs i)).matvec x, y⟫_𝕜 := fun i =>
      C38_adjoint (ops i) _ (h i) (Option.some_get _).symm
    have hlin : ∀ i, ∃ L : E →ₗ[𝕜] E, ∀ v, (((ops i).adjoint).get (hs i)).matvec v = L v := by
      intro i
      refine ⟨⟨⟨(((ops i).adjoint).get (hs i)).matvec, ?_⟩, ?_⟩, fun v => rfl⟩
      · intro v w
        refine ext_inner_right 𝕜 fun z => ?_
        rw [inner_add_left, ← hadj, ← hadj, ← hadj, inner_add_left]
      · intro c v
        refine ext_inner_right 𝕜 fun z => ?_
        rw [RingHom.id_apply, inner_smul_left, ← hadj, ← hadj, inner_smul_left]
    constructor
    · choose L hL using hlin
      refine ⟨⟨⟨fun v => WithLp.toLp 2 fun i => L i (v i), ?_⟩, ?_⟩, ?_⟩
      · intro v w; ext i; simp
      · intro c v; ext i; simp
      · intro v
        ext i
        simp [hL]
    · intro x y
      simp only [PiLp.inner_apply]
      exact Finset.sum_congr rfl fun i _ => hadj i _ _

theorem adjointList_iff (ops ops' : List (Op 𝕜 E)) : Op.adjointList ops = some ops' ↔
    List.Forall₂ (fun A B => A.adjoint = some B) ops ops' := by
  induction ops generalizing ops' with
  | nil =>
    rw [Op.adjointList, List.forall₂_nil_left_iff]
    exact ⟨fun h => by cases h; rfl, fun h => by rw [h]⟩
  | cons A ops ih =>
    rw [Op.adjointList]
    simp only [Option.bind_eq_bind, Option.bind_eq_some_iff, Option.pure_def,
      Option.some.injEq, List.forall₂_cons_left_iff]
    constructor
    · rintro ⟨B, hB, more, hm, rfl⟩
      exact ⟨B, more, hB, (ih more).1 hm, rfl⟩
    · rintro ⟨B, more, hB, hm, rfl⟩
      exact ⟨B, hB, more, (ih more).2 hm, rfl⟩

/-- **C38**: `DirectSumLinearOperator.adjoint` is the adjoint for the inner product of direct
sums. -/
theorem C38_direct_sum_adjoint (ops ops' : List (Op 𝕜 E)) (h : GoodOps ops)
    (e : dsAdjoint ops = some ops') (xs ys xs' ys' : List E) (hne : ops ≠ [])
    (hx : dsMatvec ops' xs = some xs') (hy : dsMatvec ops ys = some ys') :
    dsInner 𝕜 xs ys' = dsInner 𝕜 xs' ys ∧ (dsInner 𝕜 xs ys').isSome := by
  have e' := (adjointList_iff ops ops').1 e
  have hlen := e'.length_eq
  unfold dsMatvec at hx hy
  split_ifs at hx hy with h1 h2
  simp only [not_not] at h1 h2
  cases hx; cases hy
  have key : ∀ (ops ops' : List (Op 𝕜 E)) (xs ys : List E), GoodOps ops →
      List.Forall₂ (fun A B => A.adjoint = some B) ops ops' → xs.length = ops'.length →
      ys.length = ops.length →
      ((List.zip xs (List.zipWith (fun A x => A.matvec x) ops ys)).map
        fun p => vinner 𝕜 p.1 p.2).sum =
      ((List.zip (List.zipWith (fun A x => A.matvec x) ops' xs) ys).map
        fun p => vinner 𝕜 p.1 p.2).sum := by
    intro ops ops' xs ys hg hf
    induction hf generalizing xs ys with
    | nil => intro h1 h2; simp at h1 h2; subst h1; subst h2; rfl
    | @cons A B ops ops' hA hf ih =>
      intro h1 h2
      cases xs with
      | nil => simp at h1
      | cons x xs =>
        cases ys with
        | nil => simp at h2
        | cons y ys =>
          rw [GoodOps] at hg
          simp only [List.zipWith_cons_cons, List.zip_cons_cons, List.map_cons, List.sum_cons]
          rw [ih xs ys hg.2 (by simpa using h1) (by simpa using h2)]
          congr 1
          exact C38_adjoint A B hg.1 hA x y
  cases e' with
  | nil => exact absurd rfl hne
  | @cons A B ops ops' hA hf =>
    cases xs with
    | nil => simp at h1
    | cons x xs =>
      cases ys with
      | nil => simp at h2
      | cons y ys =>
        rw [GoodOps] at h
        have h1' : xs.length = ops'.length := by simpa using h1
        have h2' : ys.length = ops.length := by simpa using h2
        have hl : ops.length = ops'.length := by simpa using hlen
        unfold dsInner
        rw [if_neg (by simp; omega), if_neg (by simp; omega)]
        simp only [List.zipWith_cons_cons]
        rw [foldl_add_eq, foldl_add_eq, key ops ops' xs ys h.2 hf h1' h2']
        refine ⟨?_, rfl⟩
        congr 2
        exact C38_adjoint A B h.1 hA x y

/-- **C38**: `DirectSum.at(i)`: indices `-n … n-1`, negative ones counting from the end; others are
rejected. -/
theorem C38_direct_sum_at {α : Type} (xs : List α) (i : ℤ) :
    dsAt xs i = if 0 ≤ i then xs[i.toNat]?
      else if -(xs.length : ℤ) ≤ i then xs[(i + xs.length).toNat]? else none := by
  unfold dsAt
  dsimp only
  by_cases h0 : i < 0
  · rw [if_pos h0, if_neg (show ¬ (0 ≤ i) by omega)]
    by_cases h1 : -(xs.length : ℤ) ≤ i
    · rw [if_pos h1, if_neg (by omega)]
    · rw [if_neg h1, if_pos (by omega)]
  · rw [if_neg h0, if_pos (show 0 ≤ i by omega)]
    split_ifs with h
    · rw [List.getElem?_eq_none (by omega)]
    · rfl

/-! ### Unwrapping -/

/-- number of wrappers around the leaf -/
def wrapDepth : Op 𝕜 E → ℕ
  | .leaf _ _ => 0
  | .wrap A => wrapDepth A + 1
  | .sum A _ => wrapDepth A + 1
  | .shifted A _ => wrapDepth A + 1
  | .projected A _ _ _ => wrapDepth A + 1

theorem original_depth (op : Op 𝕜 E) : match op.original? with
    | none => wrapDepth op = 0
    | some p => wrapDepth op = wrapDepth p + 1 := by
  cases op <;> simp [Op.original?, wrapDepth]

theorem unwrapLoop_spec (n : ℕ) (op : Op 𝕜 E) :
    (wrapDepth op < n → ∃ A adj, Op.unwrapLoop n op = some (.leaf A adj)) ∧
    (n ≤ wrapDepth op → Op.unwrapLoop n op = none) := by
  induction n generalizing op with
  | zero => exact ⟨by omega, fun _ => rfl⟩
  | succ n ih =>
    cases op with
    | leaf A adj =>
      refine ⟨fun _ => ⟨A, adj, rfl⟩, fun h => ?_⟩
      simp [wrapDepth] at h
    | wrap A =>
      have := ih A
      exact ⟨fun h => this.1 (by simp only [wrapDepth] at h; omega),
        fun h => this.2 (by simp only [wrapDepth] at h; omega)⟩
    | sum A m =>
      have := ih A
      exact ⟨fun h => this.1 (by simp only [wrapDepth] at h; omega),
        fun h => this.2 (by simp only [wrapDepth] at h; omega)⟩
    | shifted A s =>
      have := ih A
      exact ⟨fun h => this.1 (by simp only [wrapDepth] at h; omega),
        fun h => this.2 (by simp only [wrapDepth] at h; omega)⟩
    | projected A os po pen =>
      have := ih A
      exact ⟨fun h => this.1 (by simp only [wrapDepth] at h; omega),
        fun h => this.2 (by simp only [wrapDepth] at h; omega)⟩

/-- **C38**: `unwrapped(recursive=True)` returns an operator that is not a wrapper exactly when there
are at most 10000 wrappers; else it raises. -/
theorem C38_unwrapped (op : Op 𝕜 E) (h : 0 < wrapDepth op) :
    (wrapDepth op ≤ 10000 → ∃ A adj, op.unwrapped true = some (some (.leaf A adj))) ∧
    (10000 < wrapDepth op → op.unwrapped true = some none) := by
  have hd := original_depth op
  cases ho : op.original? with
  | none => rw [ho] at hd; simp only at hd; omega
  | some p =>
    rw [ho] at hd
    simp only at hd
    unfold Op.unwrapped
    rw [ho]
    have := unwrapLoop_spec 10000 p
    refine ⟨fun hl => ?_, fun hl => ?_⟩
    · obtain ⟨A, adj, e⟩ := this.1 (by omega)
      exact ⟨A, adj, by simp [e]⟩
    · simp [this.2 (by omega)]

/-! ### Vectors that are not orthonormal

The documentation of `ProjectedLinearOperator` says of `ortho_vecs`: "They need not be orthonormal, as
Gram-Schmidt is performed on them explicitly."  The constructor does not do this
(`sparse.cpp` L277-293), so the documented operator is not what is computed. -/

/-- the identity operator -/
noncomputable def idOp (𝕜 E : Type) [RCLike 𝕜] [NormedAddCommGroup E] [InnerProductSpace 𝕜 E] :
    Op 𝕜 E := .leaf ⟨id, some LinearMap.id⟩ (some ⟨id, some LinearMap.id⟩)

theorem idOp_good : GoodOp (idOp 𝕜 E) := by
  unfold idOp
  rw [GoodOp]
  refine ⟨⟨LinearMap.id, fun _ => rfl⟩, ?_, ?_⟩
  · intro B hB
    cases hB
    exact ⟨⟨LinearMap.id, fun _ => rfl⟩, fun _ _ => rfl⟩
  · intro t ht; cases ht; exact fun _ => rfl

/-- **C38**, the documented claim is false of the code: for `ortho_vecs = [o]` with `|o| = 2` on the
real line, the operator does not act as `P H P + penalty * (1 - P)`; the vector `o` is not mapped to
`penalty * o`. -/
theorem C38_documented_false : ∃ (os : List ℝ) (v : ℝ), v ∈ listSpan ℝ os ∧
    (Op.projected (idOp ℝ ℝ) os true none).matvec v ≠ (0 : ℝ) • v ∧
    (Op.projected (idOp ℝ ℝ) os true none).matvec v ≠
      docProj ℝ os ((idOp ℝ ℝ).matvec (docProj ℝ os v)) := by
  refine ⟨[2], 2, mem_listSpan (by simp), ?_, ?_⟩
  · simp [Op.matvec, projectBefore, projectAfter, projectLoop, projectLoop2, idOp, axpy, vinner]
    norm_num
  · have e : docProj ℝ [(2 : ℝ)] 2 = 0 := by
      unfold docProj
      rw [Submodule.starProjection_apply_eq_zero_iff]
      exact Submodule.le_orthogonal_orthogonal _ (mem_listSpan (by simp))
    rw [e]
    simp [Op.matvec, projectBefore, projectAfter, projectLoop, projectLoop2, idOp, axpy, vinner]
    norm_num

/-- a two-by-two matrix as an operator -/
noncomputable def matOp (T : Fin 2 → Fin 2 → ℝ) : Op ℝ (EuclideanSpace ℝ (Fin 2)) := tensorOp T true

/-- vector with the given coordinates -/
noncomputable def vec2 (a b : ℝ) : EuclideanSpace ℝ (Fin 2) := WithLp.toLp 2 ![a, b]

/-- **C38**: for `ortho_vecs` that are not orthogonal, `adjoint()` is not the adjoint either. -/
theorem C38_adjoint_false : ∃ (H H' : Op ℝ (EuclideanSpace ℝ (Fin 2)))
    (os : List (EuclideanSpace ℝ (Fin 2))) (x y : EuclideanSpace ℝ (Fin 2)),
    GoodOp H ∧ (Op.projected H os true none).adjoint = some H' ∧
    ⟪x, (Op.projected H os true none).matvec y⟫_ℝ ≠ ⟪H'.matvec x, y⟫_ℝ := by
  refine ⟨matOp ![![0, 0], ![1, 0]], _, [vec2 1 0, vec2 1 1], vec2 1 0, vec2 0 1,
    C38_tensor_op _ _, rfl, ?_⟩
  simp [matOp, tensorOp, Op.matvec, projectBefore, projectAfter, projectLoop, projectLoop2, axpy,
    vinner, vec2, tensorMatvec, tensorMatrix, tensorDagger, PiLp.inner_apply, Fin.sum_univ_two]

/-! ### Concrete cases -/

/-- An expression with every kind of node satisfies `GoodOp` and has an adjoint: the shifted sum of
a matrix and the projection of its transpose to the complement of a unit vector, with penalty 3. -/
noncomputable def exOp : Op ℝ (EuclideanSpace ℝ (Fin 2)) :=
  .shifted (.sum (matOp ![![1, 2], ![3, 4]])
    [.wrap (.projected (tensorOp ![![1, 2], ![3, 4]] false) [vec2 1 0] true (some 3))]) 5

theorem vec2_orthonormal : OrthonormalList ℝ [vec2 1 0] := by
  rw [orthonormalList_iff]
  simp [vec2, EuclideanSpace.norm_eq]

/-- **C38**: the hypotheses of the theorems are met by a non-trivial expression. -/
theorem C38_nonvacuous : GoodOp exOp ∧ exOp.adjoint.isSome ∧
    exOp.matvec (vec2 1 1) ≠ exOp.matvec (vec2 0 1) := by
  refine ⟨?_, rfl, ?_⟩
  · unfold exOp
    simp only [GoodOp, GoodOps]
    exact ⟨C38_tensor_op _ _, ⟨C38_tensor_op _ _, vec2_orthonormal⟩, trivial⟩
  · intro h
    have := congrArg (fun v : EuclideanSpace ℝ (Fin 2) => v 0) h
    simp [exOp, matOp, tensorOp, Op.matvec, Op.sumLoop, projectBefore, projectAfter, projectLoop,
      projectLoop2, penaltyLoop, axpy, vinner, vec2, tensorMatvec, tensorMatrix, PiLp.inner_apply,
      Fin.sum_univ_two] at this
    norm_num at this

/-- **C39**: linearly dependent input. -/
example : (gramSchmidt ℝ [vec2 1 0, vec2 2 0, vec2 1 1] 0).length =
    Module.finrank ℝ (listSpan ℝ [vec2 1 0, vec2 2 0, vec2 1 1]) := C39_length_eq _

/-- **C39**: with a positive `rcond` the result need not span the same space as the input, contrary
to the documentation: short vectors are dropped. -/
theorem C39_span_false (rcond : ℝ) (h : 0 < rcond) : ∃ vecs : List ℝ,
    listSpan ℝ (gramSchmidt ℝ vecs rcond) ≠ listSpan ℝ vecs := by
  refine ⟨[rcond / 2], ?_⟩
  have e : gramSchmidt ℝ [rcond / 2] rcond = [] := by
    have := gsStep_of_le (𝕜 := ℝ) (rcond := rcond) (res := []) (v := rcond / 2) orthonormalList_nil
      (by
        simp only [projSum, List.map_nil, List.sum_nil, sub_zero, Real.norm_eq_abs, gt_iff_lt,
          not_lt]
        rw [abs_of_pos (by positivity)]; linarith)
    simpa [gramSchmidt] using this
  rw [e]
  intro h'
  have h1 : rcond / 2 ∈ listSpan ℝ [rcond / 2] := mem_listSpan (by simp)
  rw [← h'] at h1
  unfold listSpan at h1
  simp at h1
  linarith

end Cyten.Props
