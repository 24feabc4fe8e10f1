import Mathlib.Analysis.InnerProductSpace.PiL2
import Mathlib.Analysis.InnerProductSpace.Symmetric
import Mathlib.Analysis.Matrix.Spectrum
import Mathlib.Data.Fin.Tuple.Sort

/-!
Ritz vectors: eigenvectors of the matrix of an operator with respect to an orthonormal family.
-/

namespace Cyten.Krylov

open scoped InnerProductSpace

variable {𝕜 E : Type} [RCLike 𝕜] [NormedAddCommGroup E] [InnerProductSpace 𝕜 E]

section
variable {n : ℕ} {q : Fin n → E} {V : Fin n → Fin n → ℝ}

/-- Ritz vector for column `a` of `V` -/
noncomputable def ritz (𝕜 : Type) {E : Type} [RCLike 𝕜] [NormedAddCommGroup E]
    [InnerProductSpace 𝕜 E] {n : ℕ} (q : Fin n → E) (V : Fin n → Fin n → ℝ) (a : Fin n) : E :=
  ∑ i, ((V i a : ℝ) : 𝕜) • q i

theorem ritz_mem (a : Fin n) : ritz 𝕜 q V a ∈ Submodule.span 𝕜 (Set.range q) :=
  Submodule.sum_mem _ fun i _ => Submodule.smul_mem _ _ (Submodule.subset_span ⟨i, rfl⟩)

theorem inner_q_ritz (hq : Orthonormal 𝕜 q) (i a : Fin n) :
    ⟪q i, ritz 𝕜 q V a⟫_𝕜 = ((V i a : ℝ) : 𝕜) := by
  unfold ritz
  exact hq.inner_right_fintype _ _

theorem ritz_orthonormal (hq : Orthonormal 𝕜 q)
    (hV : ∀ a b, ∑ i, V i a * V i b = if a = b then 1 else 0) : Orthonormal 𝕜 (ritz 𝕜 q V) := by
  rw [orthonormal_iff_ite]
  intro a b
  conv_lhs => rw [ritz]
  rw [sum_inner]
  simp only [inner_smul_left, inner_q_ritz hq, RCLike.conj_ofReal, ← RCLike.ofReal_mul]
  rw [← RCLike.ofReal_sum, hV]
  split_ifs <;> simp

theorem complete_of_orth (hV : ∀ a b, ∑ i, V i a * V i b = if a = b then 1 else 0) (i j : Fin n) :
    ∑ a, V i a * V j a = if i = j then 1 else 0 := by
  have h1 : (Matrix.of V).transpose * Matrix.of V = 1 := by
    ext a b
    rw [Matrix.mul_apply, Matrix.one_apply]
    exact hV a b
  have h2 := mul_eq_one_comm.1 h1
  have := congrFun (congrFun h2 i) j
  rw [Matrix.mul_apply, Matrix.one_apply] at this
  exact this

theorem q_eq_sum_ritz (hV : ∀ a b, ∑ i, V i a * V i b = if a = b then 1 else 0) (i : Fin n) :
    q i = ∑ a, ((V i a : ℝ) : 𝕜) • ritz 𝕜 q V a := by
  unfold ritz
  simp only [Finset.smul_sum, smul_smul]
  rw [Finset.sum_comm]
  simp only [← Finset.sum_smul, ← RCLike.ofReal_mul, ← RCLike.ofReal_sum, complete_of_orth hV]
  simp

theorem span_ritz (hV : ∀ a b, ∑ i, V i a * V i b = if a = b then 1 else 0) :
    Submodule.span 𝕜 (Set.range (ritz 𝕜 q V)) = Submodule.span 𝕜 (Set.range q) := by
  apply le_antisymm
  · rw [Submodule.span_le]
    rintro _ ⟨a, rfl⟩
    exact ritz_mem a
  · rw [Submodule.span_le]
    rintro _ ⟨i, rfl⟩
    rw [q_eq_sum_ritz (𝕜 := 𝕜) (q := q) hV i]
    exact Submodule.sum_mem _ fun a _ => Submodule.smul_mem _ _ (Submodule.subset_span ⟨a, rfl⟩)

/-- a vector orthogonal to a family is orthogonal to its span -/
theorem inner_span_zero {ι : Type} {f : ι → E} {x : E} (h : ∀ i, ⟪f i, x⟫_𝕜 = 0) {φ : E}
    (hφ : φ ∈ Submodule.span 𝕜 (Set.range f)) : ⟪φ, x⟫_𝕜 = 0 := by
  induction hφ using Submodule.span_induction with
  | mem y hy => obtain ⟨i, rfl⟩ := hy; exact h i
  | zero => simp
  | add a b _ _ ha hb => rw [inner_add_left, ha, hb, add_zero]
  | smul c a _ ha => rw [inner_smul_left, ha, mul_zero]

variable {H : E →ₗ[𝕜] E} {T : Fin n → Fin n → ℝ} {ev : Fin n → ℝ}

/-- the residual of a Ritz pair is orthogonal to the subspace -/
theorem ritz_galerkin (hq : Orthonormal 𝕜 q) (hT : ∀ i j, ⟪q i, H (q j)⟫_𝕜 = ((T i j : ℝ) : 𝕜))
    (he : ∀ c i, ∑ j, T i j * V j c = ev c * V i c) (b : Fin n) {φ : E}
    (hφ : φ ∈ Submodule.span 𝕜 (Set.range q)) :
    ⟪φ, H (ritz 𝕜 q V b) - ((ev b : ℝ) : 𝕜) • ritz 𝕜 q V b⟫_𝕜 = 0 := by
  refine inner_span_zero (fun i => ?_) hφ
  rw [inner_sub_right, inner_smul_right, inner_q_ritz hq]
  conv_lhs => rw [ritz]
  rw [map_sum, inner_sum]
  simp only [map_smul, inner_smul_right, hT, ← RCLike.ofReal_mul]
  rw [← RCLike.ofReal_sum, ← RCLike.ofReal_sub, RCLike.ofReal_eq_zero]
  rw [← he b i, sub_eq_zero]
  exact Finset.sum_congr rfl fun j _ => mul_comm _ _

/-- expectation value in terms of the coefficients in the Ritz basis -/
theorem ritz_expectation (hq : Orthonormal 𝕜 q)
    (hT : ∀ i j, ⟪q i, H (q j)⟫_𝕜 = ((T i j : ℝ) : 𝕜))
    (hV : ∀ a b, ∑ i, V i a * V i b = if a = b then 1 else 0)
    (he : ∀ c i, ∑ j, T i j * V j c = ev c * V i c) {φ : E}
    (hφ : φ ∈ Submodule.span 𝕜 (Set.range q)) :
    ∃ d : Fin n → 𝕜, φ = ∑ a, d a • ritz 𝕜 q V a ∧ (∀ a, ⟪ritz 𝕜 q V a, φ⟫_𝕜 = d a) ∧
      ‖φ‖ ^ 2 = ∑ a, ‖d a‖ ^ 2 ∧ RCLike.re ⟪φ, H φ⟫_𝕜 = ∑ a, ev a * ‖d a‖ ^ 2 := by
  have ho := ritz_orthonormal hq hV
  have hφ' := hφ
  rw [← span_ritz (𝕜 := 𝕜) hV, Submodule.mem_span_range_iff_exists_fun] at hφ'
  obtain ⟨d, hd⟩ := hφ'
  have hin : ∀ a, ⟪ritz 𝕜 q V a, φ⟫_𝕜 = d a := by
    intro a
    rw [← hd]
    exact ho.inner_right_fintype _ _
  refine ⟨d, hd.symm, hin, ?_, ?_⟩
  · have h1 : ⟪φ, φ⟫_𝕜 = ∑ a, starRingEnd 𝕜 (d a) * d a := by
      conv_lhs => rw [← hd]
      rw [ho.inner_sum]
    have h2 := congrArg RCLike.re h1
    rw [inner_self_eq_norm_sq] at h2
    rw [h2, map_sum]
    refine Finset.sum_congr rfl fun a _ => ?_
    rw [RCLike.conj_mul, ← RCLike.ofReal_pow, RCLike.ofReal_re]
  · have h1 : ⟪φ, H φ⟫_𝕜 = ∑ a, d a * (((ev a : ℝ) : 𝕜) * starRingEnd 𝕜 (d a)) := by
      conv_lhs => rw [show H φ = ∑ a, d a • H (ritz 𝕜 q V a) by rw [← hd]; simp]
      rw [inner_sum]
      refine Finset.sum_congr rfl fun a _ => ?_
      rw [inner_smul_right]
      congr 1
      have := ritz_galerkin hq hT he a hφ
      rw [inner_sub_right, sub_eq_zero, inner_smul_right] at this
      rw [this, ← hin a, inner_conj_symm]
    rw [h1, map_sum]
    refine Finset.sum_congr rfl fun a _ => ?_
    rw [mul_left_comm, RCLike.mul_conj, ← RCLike.ofReal_pow, ← RCLike.ofReal_mul, RCLike.ofReal_re]

end

/-! ### Existence of the eigen-decomposition that is assumed of numpy -/

/-- specification of `numpy.linalg.eigh` for the leading `n × n` block of `h` -/
structure IsEigh (n : ℕ) (h : ℕ → ℕ → ℝ) (r : (ℕ → ℝ) × (ℕ → ℕ → ℝ)) : Prop where
  /-- the columns are eigenvectors -/
  eig : ∀ c i, c < n → i < n → ∑ j ∈ Finset.range n, h i j * r.2 j c = r.1 c * r.2 i c
  /-- the columns are orthonormal -/
  orth : ∀ a b, a < n → b < n →
    ∑ i ∈ Finset.range n, r.2 i a * r.2 i b = if a = b then 1 else 0
  /-- the eigenvalues are ascending -/
  mono : ∀ a b, a ≤ b → b < n → r.1 a ≤ r.1 b

/-- `eigh` is correct for every symmetric matrix of every size. -/
def EighSpec (eigh : ℕ → (ℕ → ℕ → ℝ) → (ℕ → ℝ) × (ℕ → ℕ → ℝ)) : Prop :=
  ∀ n h, (∀ i j, i < n → j < n → h i j = h j i) → IsEigh n h (eigh n h)

theorem exists_isEigh (n : ℕ) (h : ℕ → ℕ → ℝ) (hs : ∀ i j, i < n → j < n → h i j = h j i) :
    ∃ r, IsEigh n h r := by
  classical
  let A : Matrix (Fin n) (Fin n) ℝ := Matrix.of fun i j => h i j
  have hA : A.IsHermitian := by
    ext i j
    simp only [Matrix.conjTranspose_apply, star_trivial]
    exact hs _ _ j.2 i.2
  let σ := Tuple.sort hA.eigenvalues
  have hm : Monotone (hA.eigenvalues ∘ σ) := Tuple.monotone_sort _
  refine ⟨(fun c => if hc : c < n then hA.eigenvalues (σ ⟨c, hc⟩) else 0, fun i c =>
    if hc : i < n ∧ c < n then hA.eigenvectorBasis (σ ⟨c, hc.2⟩) ⟨i, hc.1⟩ else 0), ?_, ?_, ?_⟩
  · intro c i hc hi
    dsimp only
    rw [dif_pos hc, dif_pos ⟨hi, hc⟩, Finset.sum_range]
    have := congrFun (hA.mulVec_eigenvectorBasis (σ ⟨c, hc⟩)) ⟨i, hi⟩
    rw [Matrix.mulVec, dotProduct] at this
    simp only [Pi.smul_apply, smul_eq_mul] at this
    rw [← this]
    refine Finset.sum_congr rfl fun j _ => ?_
    rw [dif_pos ⟨j.2, hc⟩]
    rfl
  · intro a b ha hb
    dsimp only
    rw [Finset.sum_range]
    have := (orthonormal_iff_ite.1 hA.eigenvectorBasis.orthonormal) (σ ⟨a, ha⟩) (σ ⟨b, hb⟩)
    rw [PiLp.inner_apply] at this
    simp only [RCLike.inner_apply, conj_trivial, σ.injective.eq_iff, Fin.mk.injEq] at this
    rw [← this]
    refine Finset.sum_congr rfl fun j _ => ?_
    rw [dif_pos ⟨j.2, ha⟩, dif_pos ⟨j.2, hb⟩, mul_comm]
  · intro a b hab hb
    dsimp only
    rw [dif_pos (by omega), dif_pos hb]
    exact hm (by simpa using hab)

/-- The specification can be met. -/
theorem exists_eighSpec : ∃ eigh, EighSpec eigh := by
  classical
  refine ⟨fun n h => if hs : ∀ i j, i < n → j < n → h i j = h j i
    then (exists_isEigh n h hs).choose else (fun _ => 0, fun _ _ => 0), ?_⟩
  intro n h hs
  dsimp only
  rw [dif_pos hs]
  exact (exists_isEigh n h hs).choose_spec

end Cyten.Krylov
