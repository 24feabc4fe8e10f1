import Verif.Model.Sparse
import Mathlib.Analysis.InnerProductSpace.Orthonormal
import Mathlib.Analysis.InnerProductSpace.Projection.Basic
import Mathlib.Analysis.InnerProductSpace.Projection.FiniteDimensional

/-!
C38: linear operators (`SumLinearOperator`, `ShiftedLinearOperator`, `ProjectedLinearOperator`,
`TensorLinearOperator`, `DirectSumLinearOperator`).
C39: `gram_schmidt`.
-/

namespace Cyten.Props

open Cyten.Sparse
open scoped InnerProductSpace

variable {𝕜 E : Type} [RCLike 𝕜] [NormedAddCommGroup E] [InnerProductSpace 𝕜 E]

/-! ### Specification -/

/-- A list of vectors is orthonormal (Mathlib's `Orthonormal` for the family of its entries). -/
def OrthonormalList (𝕜 : Type) {E : Type} [RCLike 𝕜] [NormedAddCommGroup E]
    [InnerProductSpace 𝕜 E] (os : List E) : Prop := Orthonormal 𝕜 os.get

/-- The subspace spanned by a list of vectors. -/
def listSpan (𝕜 : Type) {E : Type} [RCLike 𝕜] [NormedAddCommGroup E]
    [InnerProductSpace 𝕜 E] (os : List E) : Submodule 𝕜 E := Submodule.span 𝕜 {o | o ∈ os}

instance (os : List E) : FiniteDimensional 𝕜 (listSpan 𝕜 os) :=
  FiniteDimensional.span_of_finite 𝕜 (List.finite_toSet os)

/-- The documented projector `P` of `ProjectedLinearOperator`: the orthogonal projection onto the
complement of the span of the `ortho_vecs`. -/
noncomputable def docProj (𝕜 : Type) {E : Type} [RCLike 𝕜] [NormedAddCommGroup E]
    [InnerProductSpace 𝕜 E] (os : List E) : E →L[𝕜] E :=
  ((listSpan 𝕜 os)ᗮ).starProjection

mutual
/-- The leaves of an operator expression keep their promises (linear `matvec`, the adjoint they
offer is the adjoint, `to_tensor` represents `matvec`), and the `ortho_vecs` of each projection are
orthonormal. -/
def GoodOp : Op 𝕜 E → Prop
  | .leaf A adj =>
    (∃ L : E →ₗ[𝕜] E, ∀ v, A.apply v = L v) ∧
    (∀ B, adj = some B → (∃ L : E →ₗ[𝕜] E, ∀ v, B.apply v = L v) ∧
      ∀ x y, ⟪x, A.apply y⟫_𝕜 = ⟪B.apply x, y⟫_𝕜) ∧
    (∀ t, A.tens = some t → ∀ v, A.apply v = t v)
  | .wrap A => GoodOp A
  | .sum A more => GoodOp A ∧ GoodOps more
  | .shifted A _ => GoodOp A
  | .projected A os _ _ => GoodOp A ∧ OrthonormalList 𝕜 os
/-- `GoodOp` for every operator of a list. -/
def GoodOps : List (Op 𝕜 E) → Prop
  | [] => True
  | A :: more => GoodOp A ∧ GoodOps more
end

/-! ### Orthonormal lists -/

theorem orthonormalList_iff {os : List E} : OrthonormalList 𝕜 os ↔
    os.Pairwise (fun a b => ⟪a, b⟫_𝕜 = 0) ∧ ∀ o ∈ os, ‖o‖ = 1 := by
  unfold OrthonormalList Orthonormal
  constructor
  · rintro ⟨h1, h2⟩
    refine ⟨List.pairwise_iff_get.2 fun i j hij => h2 (ne_of_lt hij), ?_⟩
    intro o ho
    obtain ⟨i, rfl⟩ := List.mem_iff_get.1 ho
    exact h1 i
  · rintro ⟨h1, h2⟩
    refine ⟨fun i => h2 _ (List.get_mem _ _), ?_⟩
    intro i j hij
    rcases lt_or_gt_of_ne hij with h | h
    · exact List.pairwise_iff_get.1 h1 i j h
    · exact inner_eq_zero_symm.1 (List.pairwise_iff_get.1 h1 j i h)

theorem orthonormalList_cons {o : E} {os : List E} (h : OrthonormalList 𝕜 (o :: os)) :
    ‖o‖ = 1 ∧ (∀ p ∈ os, ⟪o, p⟫_𝕜 = 0) ∧ OrthonormalList 𝕜 os := by
  rw [orthonormalList_iff] at *
  rw [List.pairwise_cons] at h
  exact ⟨h.2 _ (by simp), h.1.1, h.1.2, fun p hp => h.2 p (by simp [hp])⟩

/-- what the loops subtract: `Σ <o, v> o` -/
def projSum (𝕜 : Type) {E : Type} [RCLike 𝕜] [NormedAddCommGroup E]
    [InnerProductSpace 𝕜 E] (os : List E) (v : E) : E := (os.map fun o => ⟪o, v⟫_𝕜 • o).sum

theorem inner_projSum_of_orth {x v : E} {os : List E} (h : ∀ p ∈ os, ⟪x, p⟫_𝕜 = 0) :
    ⟪x, projSum 𝕜 os v⟫_𝕜 = 0 := by
  induction os with
  | nil => simp [projSum]
  | cons o os ih =>
    simp only [projSum, List.map_cons, List.sum_cons, inner_add_right, inner_smul_right] at ih ⊢
    rw [h o (by simp), ih fun p hp => h p (by simp [hp])]; simp

theorem inner_self_of_norm_one {o : E} (h : ‖o‖ = 1) : ⟪o, o⟫_𝕜 = 1 := by
  rw [inner_self_eq_norm_sq_to_K, h]; simp

theorem inner_projSum_mem {o v : E} {os : List E} (h : OrthonormalList 𝕜 os) (ho : o ∈ os) :
    ⟪o, projSum 𝕜 os v⟫_𝕜 = ⟪o, v⟫_𝕜 := by
  induction os with
  | nil => simp at ho
  | cons p os ih =>
    obtain ⟨h1, h2, h3⟩ := orthonormalList_cons h
    show ⟪o, ⟪p, v⟫_𝕜 • p + projSum 𝕜 os v⟫_𝕜 = _
    rw [inner_add_right, inner_smul_right]
    rcases List.mem_cons.1 ho with rfl | ho'
    · rw [inner_projSum_of_orth h2, inner_self_of_norm_one h1]; simp
    · rw [ih h3 ho', inner_eq_zero_symm.1 (h2 o ho')]; simp

theorem projSum_mem (os : List E) (v : E) : projSum 𝕜 os v ∈ listSpan 𝕜 os := by
  unfold projSum
  refine list_sum_mem ?_
  intro x hx
  obtain ⟨o, ho, rfl⟩ := List.mem_map.1 hx
  exact Submodule.smul_mem _ _ (Submodule.subset_span ho)

theorem starProjection_eq_projSum {os : List E} (h : OrthonormalList 𝕜 os) (v : E) :
    (listSpan 𝕜 os).starProjection v = projSum 𝕜 os v := by
  symm
  refine (Submodule.eq_starProjection_of_mem_orthogonal (projSum_mem os v) ?_).symm
  rw [Submodule.mem_orthogonal]
  intro u hu
  unfold listSpan at hu
  induction hu using Submodule.span_induction with
  | mem x hx => rw [inner_sub_right, inner_projSum_mem h hx, sub_self]
  | zero => simp
  | add x y _ _ hx hy => rw [inner_add_left, hx, hy, add_zero]
  | smul a x _ hx => rw [inner_smul_left, hx, mul_zero]

theorem docProj_eq {os : List E} (h : OrthonormalList 𝕜 os) (v : E) :
    docProj 𝕜 os v = v - projSum 𝕜 os v := by
  unfold docProj
  rw [Submodule.starProjection_orthogonal, ← starProjection_eq_projSum h]
  simp

theorem projSum_sub_of_orth {o v : E} {os : List E} (h : ∀ p ∈ os, ⟪o, p⟫_𝕜 = 0) (c : 𝕜) :
    projSum 𝕜 os (c • o + v) = projSum 𝕜 os v := by
  unfold projSum
  congr 1
  refine List.map_congr_left fun p hp => ?_
  rw [inner_add_right, inner_smul_right, inner_eq_zero_symm.1 (h p hp)]; simp

theorem projectLoop2_eq {os : List E} (h : OrthonormalList 𝕜 os) (v : E) :
    projectLoop2 𝕜 os v = v - projSum 𝕜 os v := by
  induction os generalizing v with
  | nil => simp [projectLoop2, projSum]
  | cons o os ih =>
    obtain ⟨h1, h2, h3⟩ := orthonormalList_cons h
    rw [projectLoop2, ih h3]
    unfold axpy
    rw [projSum_sub_of_orth h2]
    show _ = v - (⟪o, v⟫_𝕜 • o + projSum 𝕜 os v)
    unfold vinner
    rw [neg_smul]; abel

theorem projectLoop_fst (os : List E) (v : E) :
    (projectLoop (𝕜 := 𝕜) os v).1 = projectLoop2 𝕜 os v := by
  induction os generalizing v with
  | nil => rfl
  | cons o os ih => rw [projectLoop, projectLoop2]; exact ih _

theorem projectLoop_snd {os : List E} (h : OrthonormalList 𝕜 os) (v : E) :
    (projectLoop (𝕜 := 𝕜) os v).2 = os.map fun o => ⟪o, v⟫_𝕜 := by
  induction os generalizing v with
  | nil => rfl
  | cons o os ih =>
    obtain ⟨h1, h2, h3⟩ := orthonormalList_cons h
    rw [projectLoop, List.map_cons]
    show _ :: _ = _
    rw [ih h3]
    congr 1
    refine List.map_congr_left fun p hp => ?_
    unfold axpy
    rw [inner_add_right, inner_smul_right, inner_eq_zero_symm.1 (h2 p hp)]; simp

theorem penaltyLoop_eq (p : 𝕜) (os : List E) (v w : E) :
    penaltyLoop p os (os.map fun o => ⟪o, v⟫_𝕜) w = w + p • projSum 𝕜 os v := by
  induction os generalizing w with
  | nil => simp [penaltyLoop, projSum]
  | cons o os ih =>
    rw [List.map_cons, penaltyLoop, ih]
    show _ = w + p • (⟪o, v⟫_𝕜 • o + projSum 𝕜 os v)
    unfold axpy
    rw [smul_add, smul_smul]; abel

/-! ### C38 -/

theorem sumLoop_eq (more : List (Op 𝕜 E)) (v res : E) :
    Op.sumLoop more v res = res + (more.map fun A => A.matvec v).sum := by
  induction more generalizing res with
  | nil => simp [Op.sumLoop]
  | cons A more ih =>
    rw [Op.sumLoop, ih, List.map_cons, List.sum_cons, axpy, one_smul]; abel

/-- **C38**: `SumLinearOperator` acts as the sum of its operators. -/
theorem C38_sum (A : Op 𝕜 E) (more : List (Op 𝕜 E)) (v : E) :
    (Op.sum A more).matvec v = A.matvec v + (more.map fun B => B.matvec v).sum := by
  rw [Op.matvec, sumLoop_eq]

/-- **C38**: `ShiftedLinearOperator` acts as `A + shift * 1`. -/
theorem C38_shifted (A : Op 𝕜 E) (s : 𝕜) (v : E) :
    (Op.shifted A s).matvec v = A.matvec v + s • v := by
  rw [Op.matvec, axpy, add_comm]

/-- **C38**: with orthonormal `ortho_vecs`, `ProjectedLinearOperator` acts as the documented
`P H P + penalty * (1 - P)`, `P` the orthogonal projector on the complement of their span
(without `project_operator`: `H + penalty * (1 - P)`), no penalty being the penalty 0. -/
theorem C38_projected (A : Op 𝕜 E) {os : List E} (h : OrthonormalList 𝕜 os) (po : Bool)
    (pen : Option 𝕜) (v : E) :
    (Op.projected A os po pen).matvec v =
      (if po then docProj 𝕜 os (A.matvec (docProj 𝕜 os v)) else A.matvec v)
        + pen.getD 0 • (v - docProj 𝕜 os v) := by
  have e0 : v - docProj 𝕜 os v = projSum 𝕜 os v := by rw [docProj_eq h]; abel
  rw [e0, Op.matvec]
  cases po with
  | true =>
    simp only [projectBefore, projectAfter, if_true]
    rw [projectLoop_snd h, projectLoop_fst, projectLoop2_eq h, projectLoop2_eq h, ← docProj_eq h,
      ← docProj_eq h]
    cases pen with
    | none => simp
    | some p => simp only [penaltyLoop_eq, Option.getD_some]
  | false =>
    simp only [projectBefore, projectAfter, Bool.false_eq_true, if_false]
    cases pen with
    | none => simp
    | some p =>
      show penaltyLoop p os (os.map fun o => ⟪o, v⟫_𝕜) _ = _
      simp only [penaltyLoop_eq, Option.getD_some]

/-- **C38**: as documented, every vector in the span of the (orthonormal) `ortho_vecs` is then an
eigenvector with eigenvalue `penalty` … -/
theorem C38_projected_span (A : Op 𝕜 E) (h0 : A.matvec 0 = 0) {os : List E}
    (h : OrthonormalList 𝕜 os) (pen : Option 𝕜) (v : E) (hv : v ∈ listSpan 𝕜 os) :
    (Op.projected A os true pen).matvec v = pen.getD 0 • v := by
  have e : docProj 𝕜 os v = 0 := by
    unfold docProj
    rw [Submodule.starProjection_apply_eq_zero_iff]
    exact Submodule.le_orthogonal_orthogonal _ hv
  rw [C38_projected A h, e, h0]
  simp

/-- **C38**: … and on the complement the operator is the original one, projected. -/
theorem C38_projected_orth (A : Op 𝕜 E) {os : List E}
    (h : OrthonormalList 𝕜 os) (pen : Option 𝕜) (v : E) (hv : v ∈ (listSpan 𝕜 os)ᗮ) :
    (Op.projected A os true pen).matvec v = docProj 𝕜 os (A.matvec v) := by
  have e : docProj 𝕜 os v = v := Submodule.starProjection_eq_self_iff.2 hv
  rw [C38_projected A h, e]
  simp

mutual
theorem matvec_linear : ∀ (op : Op 𝕜 E), GoodOp op → ∃ L : E →ₗ[𝕜] E, ∀ v, op.matvec v = L v
  | .leaf A _, h => by
    rw [GoodOp] at h
    obtain ⟨L, hL⟩ := h.1
    exact ⟨L, fun v => by rw [Op.matvec]; exact hL v⟩
  | .wrap A, h => by
    rw [GoodOp] at h
    obtain ⟨L, hL⟩ := matvec_linear A h
    exact ⟨L, fun v => by rw [Op.matvec]; exact hL v⟩
  | .sum A more, h => by
    rw [GoodOp] at h
    obtain ⟨L, hL⟩ := matvec_linear A h.1
    obtain ⟨M, hM⟩ := matvec_linear_list more h.2
    exact ⟨L + M, fun v => by rw [C38_sum, hL, hM]; rfl⟩
  | .shifted A s, h => by
    rw [GoodOp] at h
    obtain ⟨L, hL⟩ := matvec_linear A h
    exact ⟨L + s • LinearMap.id, fun v => by rw [C38_shifted, hL]; rfl⟩
  | .projected A os po pen, h => by
    rw [GoodOp] at h
    obtain ⟨L, hL⟩ := matvec_linear A h.1
    refine ⟨(if po then (docProj 𝕜 os).toLinearMap ∘ₗ L ∘ₗ (docProj 𝕜 os).toLinearMap else L)
      + pen.getD 0 • (LinearMap.id - (docProj 𝕜 os).toLinearMap), fun v => ?_⟩
    rw [C38_projected A h.2]
    cases po <;> simp [hL]
theorem matvec_linear_list : ∀ (ops : List (Op 𝕜 E)), GoodOps ops →
    ∃ L : E →ₗ[𝕜] E, ∀ v, (ops.map fun B => B.matvec v).sum = L v
  | [], _ => ⟨0, fun v => by simp⟩
  | A :: more, h => by
    rw [GoodOps] at h
    obtain ⟨L, hL⟩ := matvec_linear A h.1
    obtain ⟨M, hM⟩ := matvec_linear_list more h.2
    exact ⟨L + M, fun v => by rw [List.map_cons, List.sum_cons, hL, hM]; rfl⟩
end

/-- **C38**: every operator expression acts linearly. -/
theorem C38_linear (op : Op 𝕜 E) (h : GoodOp op) (a b : 𝕜) (v w : E) :
    op.matvec (a • v + b • w) = a • op.matvec v + b • op.matvec w := by
  obtain ⟨L, hL⟩ := matvec_linear op h
  simp [hL]

theorem docProj_symm (os : List E) (x y : E) :
    ⟪x, docProj 𝕜 os y⟫_𝕜 = ⟪docProj 𝕜 os x, y⟫_𝕜 := by
  unfold docProj
  rw [Submodule.inner_starProjection_left_eq_right]

mutual
theorem adjoint_good : ∀ (op op' : Op 𝕜 E), GoodOp op → op.adjoint = some op' →
    (∀ x y, ⟪x, op.matvec y⟫_𝕜 = ⟪op'.matvec x, y⟫_𝕜)
  | .leaf A adj, op', h, e => by
    rw [GoodOp] at h
    rw [Op.adjoint] at e
    obtain ⟨B, hB, rfl⟩ := Option.map_eq_some_iff.1 e
    intro x y
    rw [Op.matvec, Op.matvec]
    exact (h.2.1 B hB).2 x y
  | .wrap A, op', h, e => by
    rw [GoodOp] at h
    rw [Op.adjoint] at e
    obtain ⟨B, hB, rfl⟩ := Option.map_eq_some_iff.1 e
    intro x y
    rw [Op.matvec, Op.matvec]
    exact adjoint_good A B h hB x y
  | .sum A more, op', h, e => by
    rw [GoodOp] at h
    rw [Op.adjoint] at e
    simp only [Option.bind_eq_bind, Option.bind_eq_some_iff, Option.pure_def,
      Option.some.injEq] at e
    obtain ⟨B, hB, more', hm, rfl⟩ := e
    intro x y
    rw [C38_sum, C38_sum, inner_add_right, inner_add_left, adjoint_good A B h.1 hB x y,
      adjoint_good_list more more' h.2 hm x y]
  | .shifted A s, op', h, e => by
    rw [GoodOp] at h
    rw [Op.adjoint] at e
    obtain ⟨B, hB, rfl⟩ := Option.map_eq_some_iff.1 e
    intro x y
    rw [C38_shifted, C38_shifted, inner_add_right, inner_add_left, adjoint_good A B h hB x y,
      inner_smul_left, inner_smul_right]
    simp
  | .projected A os po pen, op', h, e => by
    rw [GoodOp] at h
    rw [Op.adjoint] at e
    obtain ⟨B, hB, rfl⟩ := Option.map_eq_some_iff.1 e
    intro x y
    rw [C38_projected A h.2, C38_projected B h.2, inner_add_right, inner_add_left]
    have e1 : ⟪x, pen.getD 0 • (y - docProj 𝕜 os y)⟫_𝕜 =
        ⟪(pen.map (starRingEnd 𝕜)).getD 0 • (x - docProj 𝕜 os x), y⟫_𝕜 := by
      rw [inner_smul_left, inner_smul_right, inner_sub_left, inner_sub_right, docProj_symm]
      cases pen <;> simp
    rw [e1]
    cases po with
    | true =>
      simp only [if_true]
      rw [docProj_symm, adjoint_good A B h.1 hB, docProj_symm]
    | false =>
      simp only [Bool.false_eq_true, if_false]
      rw [adjoint_good A B h.1 hB]
theorem adjoint_good_list : ∀ (ops ops' : List (Op 𝕜 E)), GoodOps ops →
    Op.adjointList ops = some ops' → ∀ x y, ⟪x, (ops.map fun B => B.matvec y).sum⟫_𝕜 =
      ⟪(ops'.map fun B => B.matvec x).sum, y⟫_𝕜
  | [], ops', _, e => by
    rw [Op.adjointList] at e
    cases e
    simp
  | A :: more, ops', h, e => by
    rw [GoodOps] at h
    rw [Op.adjointList] at e
    simp only [Option.bind_eq_bind, Option.bind_eq_some_iff, Option.pure_def,
      Option.some.injEq] at e
    obtain ⟨B, hB, more', hm, rfl⟩ := e
    intro x y
    rw [List.map_cons, List.map_cons, List.sum_cons, List.sum_cons, inner_add_right,
      inner_add_left, adjoint_good A B h.1 hB x y, adjoint_good_list more more' h.2 hm x y]
end

/-- **C38**: `adjoint()` is the adjoint, `<x, A y> = <A.adjoint() x, y>`, for every operator
expression. -/
theorem C38_adjoint (op op' : Op 𝕜 E) (h : GoodOp op) (e : op.adjoint = some op') (x y : E) :
    ⟪x, op.matvec y⟫_𝕜 = ⟪op'.matvec x, y⟫_𝕜 := adjoint_good op op' h e x y

mutual
theorem adjoint_adjoint : ∀ (op op' : Op 𝕜 E), op.adjoint = some op' → op'.adjoint = some op
  | .leaf A adj, op', e => by
    rw [Op.adjoint] at e
    obtain ⟨B, hB, rfl⟩ := Option.map_eq_some_iff.1 e
    rw [Op.adjoint, hB]; rfl
  | .wrap A, op', e => by
    rw [Op.adjoint] at e
    obtain ⟨B, hB, rfl⟩ := Option.map_eq_some_iff.1 e
    rw [Op.adjoint, adjoint_adjoint A B hB]; rfl
  | .sum A more, op', e => by
    rw [Op.adjoint] at e
    simp only [Option.bind_eq_bind, Option.bind_eq_some_iff, Option.pure_def,
      Option.some.injEq] at e
    obtain ⟨B, hB, more', hm, rfl⟩ := e
    rw [Op.adjoint, adjoint_adjoint A B hB, adjoint_adjoint_list more more' hm]; rfl
  | .shifted A s, op', e => by
    rw [Op.adjoint] at e
    obtain ⟨B, hB, rfl⟩ := Option.map_eq_some_iff.1 e
    rw [Op.adjoint, adjoint_adjoint A B hB]; simp
  | .projected A os po pen, op', e => by
    rw [Op.adjoint] at e
    obtain ⟨B, hB, rfl⟩ := Option.map_eq_some_iff.1 e
    rw [Op.adjoint, adjoint_adjoint A B hB]
    cases pen <;> simp
theorem adjoint_adjoint_list : ∀ (ops ops' : List (Op 𝕜 E)), Op.adjointList ops = some ops' →
    Op.adjointList ops' = some ops
  | [], ops', e => by rw [Op.adjointList] at e; cases e; rw [Op.adjointList]
  | A :: more, ops', e => by
    rw [Op.adjointList] at e
    simp only [Option.bind_eq_bind, Option.bind_eq_some_iff, Option.pure_def,
      Option.some.injEq] at e
    obtain ⟨B, hB, more', hm, rfl⟩ := e
    rw [Op.adjointList, adjoint_adjoint A B hB, adjoint_adjoint_list more more' hm]; rfl
end

/-- **C38**: the adjoint of the adjoint acts as the operator itself. -/
theorem C38_adjoint_twice (op op' : Op 𝕜 E) (e : op.adjoint = some op') :
    ∃ op'', op'.adjoint = some op'' ∧ ∀ v, op''.matvec v = op.matvec v :=
  ⟨op, adjoint_adjoint op op' e, fun _ => rfl⟩

mutual
theorem toTensor_good : ∀ (op : Op 𝕜 E) (t : E →ₗ[𝕜] E), GoodOp op → op.toTensor = some t →
    ∀ v, op.matvec v = t v
  | .leaf A adj, t, h, e => by
    rw [GoodOp] at h
    rw [Op.toTensor] at e
    intro v
    rw [Op.matvec]
    exact h.2.2 t e v
  | .wrap A, t, h, e => by
    rw [GoodOp] at h
    rw [Op.toTensor] at e
    intro v
    rw [Op.matvec]
    exact toTensor_good A t h e v
  | .sum A more, t, h, e => by
    rw [GoodOp] at h
    rw [Op.toTensor] at e
    obtain ⟨s, hs, e'⟩ := Option.bind_eq_some_iff.1 e
    intro v
    rw [C38_sum, toTensor_good A s h.1 hs]
    exact (toTensorLoop_good more s t h.2 e' v).symm
  | .shifted A s, t, h, e => by
    rw [GoodOp] at h
    rw [Op.toTensor] at e
    obtain ⟨B, hB, rfl⟩ := Option.map_eq_some_iff.1 e
    intro v
    rw [C38_shifted, toTensor_good A B h hB]; rfl
  | .projected A os po pen, t, h, e => by
    rw [Op.toTensor] at e
    cases e
theorem toTensorLoop_good : ∀ (ops : List (Op 𝕜 E)) (s t : E →ₗ[𝕜] E), GoodOps ops →
    Op.toTensorLoop ops s = some t → ∀ v, t v = s v + (ops.map fun B => B.matvec v).sum
  | [], s, t, _, e => by
    rw [Op.toTensorLoop] at e
    cases e
    simp
  | A :: more, s, t, h, e => by
    rw [GoodOps] at h
    rw [Op.toTensorLoop] at e
    obtain ⟨u, hu, e'⟩ := Option.bind_eq_some_iff.1 e
    intro v
    rw [toTensorLoop_good more (u + s) t h.2 e' v, List.map_cons, List.sum_cons,
      toTensor_good A u h.1 hu, LinearMap.add_apply]
    abel
end

/-- **C38**: whenever `to_tensor()` succeeds, applying the tensor is the same as `matvec`. -/
theorem C38_to_tensor (op : Op 𝕜 E) (t : E →ₗ[𝕜] E) (h : GoodOp op) (e : op.toTensor = some t)
    (v : E) : op.matvec v = t v := toTensor_good op t h e v

/-- **C38**: a `TensorLinearOperator` contracting the leg `which_leg` is a good leaf: its
`matvec`, `to_tensor` and `adjoint` fit together, for both choices of the leg. -/
theorem C38_tensor_op {ι : Type} [Fintype ι] (T : ι → ι → 𝕜) (w : Bool) :
    GoodOp (tensorOp T w) := by
  unfold tensorOp
  rw [GoodOp]
  refine ⟨⟨tensorMap T w, fun v => rfl⟩, ?_, ?_⟩
  · intro B hB
    cases hB
    refine ⟨⟨tensorMap (tensorDagger T) w, fun v => rfl⟩, fun x y => ?_⟩
    simp only [tensorMatvec, PiLp.inner_apply, RCLike.inner_apply, map_sum, map_mul,
      Finset.sum_mul, Finset.mul_sum]
    rw [Finset.sum_comm]
    refine Finset.sum_congr rfl fun b _ => Finset.sum_congr rfl fun a _ => ?_
    cases w <;> simp [tensorMatrix, tensorDagger] <;> ring
  · intro t ht
    cases ht
    exact fun v => rfl

/-! ### C39 -/

theorem gsRemainder_eq {os : List E} (h : OrthonormalList 𝕜 os) (v : E) :
    gsRemainder 𝕜 os v = v - projSum 𝕜 os v := by
  have : ∀ (os : List E) (v : E), gsRemainder 𝕜 os v = projectLoop2 𝕜 os v := by
    intro os
    induction os with
    | nil => intro v; rfl
    | cons o os ih => intro v; rw [gsRemainder, projectLoop2, ih]
  rw [this, projectLoop2_eq h]

theorem orthonormalList_append {os : List E} {u : E} (h : OrthonormalList 𝕜 os) (hu : ‖u‖ = 1)
    (ho : ∀ o ∈ os, ⟪o, u⟫_𝕜 = 0) : OrthonormalList 𝕜 (os ++ [u]) := by
  rw [orthonormalList_iff] at *
  refine ⟨List.pairwise_append.2 ⟨h.1, by simp, ?_⟩, ?_⟩
  · intro a ha b hb
    rw [List.mem_singleton] at hb
    subst hb
    exact ho a ha
  · intro o hm
    rcases List.mem_append.1 hm with hm | hm
    · exact h.2 o hm
    · rw [List.mem_singleton] at hm
      subst hm
      exact hu

theorem gsStep_of_gt {rcond : ℝ} {res : List E} {v : E} (h : OrthonormalList 𝕜 res)
    (hg : ‖v - projSum 𝕜 res v‖ > rcond) : gsStep 𝕜 rcond res v =
      res ++ [((1 / ‖v - projSum 𝕜 res v‖ : ℝ) : 𝕜) • (v - projSum 𝕜 res v)] := by
  unfold gsStep
  simp only [gsRemainder_eq h]
  rw [if_pos hg]

theorem gsStep_of_le {rcond : ℝ} {res : List E} {v : E} (h : OrthonormalList 𝕜 res)
    (hg : ¬ ‖v - projSum 𝕜 res v‖ > rcond) : gsStep 𝕜 rcond res v = res := by
  unfold gsStep
  simp only [gsRemainder_eq h]
  rw [if_neg hg]

theorem gsStep_orthonormal {rcond : ℝ} (hr : 0 ≤ rcond) {res : List E} (v : E)
    (h : OrthonormalList 𝕜 res) : OrthonormalList 𝕜 (gsStep 𝕜 rcond res v) := by
  by_cases hg : ‖v - projSum 𝕜 res v‖ > rcond
  · rw [gsStep_of_gt h hg]
    have hpos : 0 < ‖v - projSum 𝕜 res v‖ := lt_of_le_of_lt hr hg
    refine orthonormalList_append h ?_ ?_
    · rw [norm_smul, RCLike.norm_ofReal, abs_of_pos (by positivity)]
      field_simp
    · intro o ho
      rw [inner_smul_right, inner_sub_right, inner_projSum_mem h ho, sub_self, mul_zero]
  · rw [gsStep_of_le h hg]; exact h

theorem orthonormalList_nil : OrthonormalList 𝕜 ([] : List E) := by
  rw [orthonormalList_iff]; simp

theorem gsFold_orthonormal {rcond : ℝ} (hr : 0 ≤ rcond) (vecs : List E) {res : List E}
    (h : OrthonormalList 𝕜 res) : OrthonormalList 𝕜 (vecs.foldl (gsStep 𝕜 rcond) res) := by
  induction vecs generalizing res with
  | nil => exact h
  | cons v vecs ih => exact ih (gsStep_orthonormal hr v h)

/-- **C39**: `gram_schmidt` returns an orthonormal family. -/
theorem C39_orthonormal (vecs : List E) {rcond : ℝ} (hr : 0 ≤ rcond) :
    Orthonormal 𝕜 (gramSchmidt 𝕜 vecs rcond).get :=
  gsFold_orthonormal hr vecs orthonormalList_nil

theorem listSpan_append (a b : List E) : listSpan 𝕜 (a ++ b) = listSpan 𝕜 a ⊔ listSpan 𝕜 b := by
  unfold listSpan
  rw [← Submodule.span_union]
  congr 1
  ext x; simp

theorem listSpan_mono {a b : List E} (h : ∀ x ∈ a, x ∈ b) : listSpan 𝕜 a ≤ listSpan 𝕜 b :=
  Submodule.span_mono fun x hx => h x hx

theorem mem_listSpan {os : List E} {o : E} (h : o ∈ os) : o ∈ listSpan 𝕜 os :=
  Submodule.subset_span h

theorem gsStep_prefix (rcond : ℝ) (res : List E) (v : E) : res <+: gsStep 𝕜 rcond res v := by
  unfold gsStep
  dsimp only
  split_ifs
  · exact List.prefix_append _ _
  · exact List.prefix_refl _

theorem gsFold_prefix (rcond : ℝ) (vecs res : List E) :
    res <+: vecs.foldl (gsStep 𝕜 rcond) res := by
  induction vecs generalizing res with
  | nil => exact List.prefix_refl _
  | cons v vecs ih => exact (gsStep_prefix rcond res v).trans (ih _)

theorem gsStep_span {rcond : ℝ} {res : List E} (v : E) (h : OrthonormalList 𝕜 res)
    {K : Submodule 𝕜 E} (hK : listSpan 𝕜 res ≤ K) (hv : v ∈ K) :
    listSpan 𝕜 (gsStep 𝕜 rcond res v) ≤ K := by
  by_cases hg : ‖v - projSum 𝕜 res v‖ > rcond
  · rw [gsStep_of_gt h hg, listSpan_append]
    refine sup_le hK (Submodule.span_le.2 ?_)
    intro x hx
    have hx' : x = ((1 / ‖v - projSum 𝕜 res v‖ : ℝ) : 𝕜) • (v - projSum 𝕜 res v) := by
      simpa using hx
    rw [hx']
    exact K.smul_mem _ (K.sub_mem hv (hK (projSum_mem res v)))
  · rw [gsStep_of_le h hg]; exact hK

theorem gsFold_span {rcond : ℝ} (hr : 0 ≤ rcond) (vecs : List E) {res : List E}
    (h : OrthonormalList 𝕜 res) {K : Submodule 𝕜 E} (hK : listSpan 𝕜 res ≤ K)
    (hv : ∀ v ∈ vecs, v ∈ K) : listSpan 𝕜 (vecs.foldl (gsStep 𝕜 rcond) res) ≤ K := by
  induction vecs generalizing res with
  | nil => exact hK
  | cons v vecs ih =>
    exact ih (gsStep_orthonormal hr v h) (gsStep_span v h hK (hv v (by simp)))
      fun w hw => hv w (by simp [hw])

/-- **C39**: the result lies in the span of the input. -/
theorem C39_span_le (vecs : List E) {rcond : ℝ} (hr : 0 ≤ rcond) :
    listSpan 𝕜 (gramSchmidt 𝕜 vecs rcond) ≤ listSpan 𝕜 vecs := by
  refine gsFold_span hr vecs orthonormalList_nil ?_ fun v hv => mem_listSpan hv
  unfold listSpan
  rw [Submodule.span_le]
  intro x hx
  simp at hx

theorem gsStep_near {rcond : ℝ} (hr : 0 ≤ rcond) {res : List E} (v : E)
    (h : OrthonormalList 𝕜 res) :
    ∃ w ∈ listSpan 𝕜 (gsStep 𝕜 rcond res v), ‖v - w‖ ≤ rcond := by
  by_cases hg : ‖v - projSum 𝕜 res v‖ > rcond
  · refine ⟨v, ?_, by simpa using hr⟩
    rw [gsStep_of_gt h hg]
    have hpos : 0 < ‖v - projSum 𝕜 res v‖ := lt_of_le_of_lt hr hg
    set u := ((1 / ‖v - projSum 𝕜 res v‖ : ℝ) : 𝕜) • (v - projSum 𝕜 res v) with hu
    have e : v = projSum 𝕜 res v + ((‖v - projSum 𝕜 res v‖ : ℝ) : 𝕜) • u := by
      rw [hu, smul_smul, ← RCLike.ofReal_mul, mul_one_div_cancel hpos.ne']
      simp
    have h1 : projSum 𝕜 res v ∈ listSpan 𝕜 (res ++ [u]) :=
      listSpan_mono (fun x hx => List.mem_append_left _ hx) (projSum_mem res v)
    have h2 : u ∈ listSpan 𝕜 (res ++ [u]) := mem_listSpan (by simp)
    have h3 := Submodule.add_mem _ h1 (Submodule.smul_mem _ ((‖v - projSum 𝕜 res v‖ : ℝ) : 𝕜) h2)
    rw [← e] at h3
    exact h3
  · rw [gsStep_of_le h hg]
    exact ⟨projSum 𝕜 res v, projSum_mem res v, not_lt.1 hg⟩

theorem gsFold_near {rcond : ℝ} (hr : 0 ≤ rcond) (vecs : List E) {res : List E}
    (h : OrthonormalList 𝕜 res) (v : E) (hv : v ∈ vecs) :
    ∃ w ∈ listSpan 𝕜 (vecs.foldl (gsStep 𝕜 rcond) res), ‖v - w‖ ≤ rcond := by
  induction vecs generalizing res with
  | nil => simp at hv
  | cons u vecs ih =>
    rcases List.mem_cons.1 hv with rfl | hv
    · obtain ⟨w, hw, hn⟩ := gsStep_near hr v h
      refine ⟨w, listSpan_mono (fun x hx => ?_) hw, hn⟩
      exact (gsFold_prefix rcond vecs (gsStep 𝕜 rcond res v)).subset hx
    · exact ih (gsStep_orthonormal hr u h) hv

/-- **C39**: every input vector is within `rcond` of the span of the result. -/
theorem C39_near (vecs : List E) {rcond : ℝ} (hr : 0 ≤ rcond) (v : E) (hv : v ∈ vecs) :
    ∃ w ∈ listSpan 𝕜 (gramSchmidt 𝕜 vecs rcond), ‖v - w‖ ≤ rcond :=
  gsFold_near hr vecs orthonormalList_nil v hv

/-- **C39**: with `rcond = 0` the result spans the same space as the input, as documented. -/
theorem C39_span_eq (vecs : List E) :
    listSpan 𝕜 (gramSchmidt 𝕜 vecs 0) = listSpan 𝕜 vecs := by
  refine le_antisymm (C39_span_le vecs le_rfl) (Submodule.span_le.2 ?_)
  intro v hv
  obtain ⟨w, hw, hn⟩ := C39_near (𝕜 := 𝕜) vecs le_rfl v hv
  have : v = w := by
    rw [← sub_eq_zero, ← norm_le_zero_iff]; exact hn
  rw [this]
  exact hw

theorem gsFold_length (rcond : ℝ) (vecs res : List E) :
    (vecs.foldl (gsStep 𝕜 rcond) res).length ≤ res.length + vecs.length := by
  induction vecs generalizing res with
  | nil => simp
  | cons v vecs ih =>
    refine (ih _).trans ?_
    have : (gsStep 𝕜 rcond res v).length ≤ res.length + 1 := by
      unfold gsStep
      dsimp only
      split_ifs
      · simp
      · simp
    simp only [List.length_cons]
    omega

/-- **C39**: there are at most as many results as inputs. -/
theorem C39_length_le (vecs : List E) (rcond : ℝ) :
    (gramSchmidt 𝕜 vecs rcond).length ≤ vecs.length := by
  have := gsFold_length (𝕜 := 𝕜) rcond vecs []
  simpa [gramSchmidt] using this

/-- **C39**: the number of results is the dimension of what they span; with `rcond = 0`, the
dimension of the span of the input. -/
theorem C39_length_eq (vecs : List E) :
    (gramSchmidt 𝕜 vecs 0).length = Module.finrank 𝕜 (listSpan 𝕜 vecs) := by
  have ho : Orthonormal 𝕜 (gramSchmidt 𝕜 vecs 0).get := C39_orthonormal vecs le_rfl
  rw [← C39_span_eq vecs]
  have := finrank_span_eq_card ho.linearIndependent
  rw [Fintype.card_fin] at this
  have hset : Set.range (gramSchmidt 𝕜 vecs 0).get = {o | o ∈ gramSchmidt 𝕜 vecs 0} := by
    ext x
    rw [Set.mem_setOf_eq, List.mem_iff_get, Set.mem_range]
  rw [hset] at this
  exact this.symm

/-- **C39**: the results for a longer list of inputs extend those for a shorter one. -/
theorem C39_prefix (vecs more : List E) (rcond : ℝ) :
    gramSchmidt 𝕜 vecs rcond <+: gramSchmidt 𝕜 (vecs ++ more) rcond := by
  unfold gramSchmidt
  rw [List.foldl_append]
  exact gsFold_prefix rcond more _

/-- **C39**: orthonormal inputs are returned unchanged (for `rcond < 1`). -/
theorem C39_fixed (vecs : List E) {rcond : ℝ} (hr : 0 ≤ rcond) (hr1 : rcond < 1)
    (h : Orthonormal 𝕜 vecs.get) : gramSchmidt 𝕜 vecs rcond = vecs := by
  have key : ∀ (b a : List E), OrthonormalList 𝕜 (a ++ b) →
      b.foldl (gsStep 𝕜 rcond) a = a ++ b := by
    intro b
    induction b with
    | nil => intro a _; simp
    | cons v b ih =>
      intro a hab
      have hab' := orthonormalList_iff.1 hab
      have ha : OrthonormalList 𝕜 a := orthonormalList_iff.2
        ⟨(List.pairwise_append.1 hab'.1).1, fun o ho => hab'.2 o (by simp [ho])⟩
      have hv : ‖v‖ = 1 := hab'.2 v (by simp)
      have h0 : projSum 𝕜 a v = 0 := by
        unfold projSum
        refine List.sum_eq_zero fun x hx => ?_
        obtain ⟨o, ho, rfl⟩ := List.mem_map.1 hx
        rw [(List.pairwise_append.1 hab'.1).2.2 o ho v (by simp), zero_smul]
      rw [List.foldl_cons]
      have : gsStep 𝕜 rcond a v = a ++ [v] := by
        rw [gsStep_of_gt ha (by rw [h0, sub_zero, hv]; exact hr1), h0, sub_zero, hv]
        simp
      rw [this, ih _ (by simpa using hab)]
      simp
  exact key vecs [] h

/-- **C38** with **C39**: running `gram_schmidt` on arbitrary vectors first gives the documented
operator for their span. -/
theorem C38_projected_gram_schmidt (A : Op 𝕜 E) (vecs : List E) (pen : Option 𝕜) (v : E) :
    (Op.projected A (gramSchmidt 𝕜 vecs 0) true pen).matvec v =
      docProj 𝕜 vecs (A.matvec (docProj 𝕜 vecs v)) + pen.getD 0 • (v - docProj 𝕜 vecs v) := by
  have e : docProj 𝕜 (gramSchmidt 𝕜 vecs 0) = docProj 𝕜 vecs := by
    unfold docProj
    have := C39_span_eq (𝕜 := 𝕜) vecs
    simp only [this]
  rw [C38_projected A (C39_orthonormal vecs le_rfl), e]
  simp

end Cyten.Props
