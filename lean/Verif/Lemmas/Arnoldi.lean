import Verif.Props.Lanczos

/-!
The Arnoldi process as a recursion, shared by `GMRES`, `Arnoldi` and `ArnoldiEvolution`.
-/

namespace Cyten.Krylov

open Cyten.Sparse Cyten.Props
open scoped InnerProductSpace

variable {𝕜 E : Type} [RCLike 𝕜] [NormedAddCommGroup E] [InnerProductSpace 𝕜 E]

/-- Arnoldi vectors -/
noncomputable def aq (A : E →ₗ[𝕜] E) (q0 : E) : ℕ → E
  | 0 => q0
  | k + 1 =>
    let u := A (aq A q0 k) - ∑ i : Fin (k + 1), ⟪aq A q0 i, A (aq A q0 k)⟫_𝕜 • aq A q0 i
    ((1 / ‖u‖ : ℝ) : 𝕜) • u
termination_by k => k
decreasing_by all_goals omega

/-- entries of the Hessenberg matrix on and above the diagonal -/
noncomputable def ah (A : E →ₗ[𝕜] E) (q0 : E) (i k : ℕ) : 𝕜 := ⟪aq A q0 i, A (aq A q0 k)⟫_𝕜
/-- the vector that is normalised to the next Arnoldi vector -/
noncomputable def au (A : E →ₗ[𝕜] E) (q0 : E) (k : ℕ) : E :=
  A (aq A q0 k) - ∑ i ∈ Finset.range (k + 1), ah A q0 i k • aq A q0 i
/-- subdiagonal entry -/
noncomputable def ab (A : E →ₗ[𝕜] E) (q0 : E) (k : ℕ) : ℝ := ‖au A q0 k‖

section
variable (A : E →ₗ[𝕜] E) (q0 : E)

theorem aq_zero : aq A q0 0 = q0 := by rw [aq]

theorem aq_succ (k : ℕ) : aq A q0 (k + 1) = ((1 / ab A q0 k : ℝ) : 𝕜) • au A q0 k := by
  rw [aq]
  unfold ab au ah
  rw [Finset.sum_range]

theorem au_eq (k : ℕ) : au A q0 k = ((ab A q0 k : ℝ) : 𝕜) • aq A q0 (k + 1) := by
  rw [aq_succ, smul_smul, ← RCLike.ofReal_mul]
  by_cases h : ab A q0 k = 0
  · have : au A q0 k = 0 := norm_eq_zero.1 h
    rw [this]; simp
  · rw [mul_one_div_cancel h]; simp

/-- the Arnoldi relation -/
theorem A_aq (k : ℕ) : A (aq A q0 k) = ∑ i ∈ Finset.range (k + 1), ah A q0 i k • aq A q0 i +
    ((ab A q0 k : ℝ) : 𝕜) • aq A q0 (k + 1) := by
  rw [← au_eq]
  unfold au
  abel

theorem aq_zero_succ {k : ℕ} (h : aq A q0 k = 0) : aq A q0 (k + 1) = 0 := by
  have : au A q0 k = 0 := by
    unfold au ah
    rw [h]; simp
  rw [aq_succ, this, smul_zero]

theorem aq_zero_of_ab {j k : ℕ} (h : ab A q0 j = 0) (hjk : j < k) : aq A q0 k = 0 := by
  induction k with
  | zero => omega
  | succ k ih =>
    by_cases e : j = k
    · subst e
      have : au A q0 j = 0 := norm_eq_zero.1 h
      rw [aq_succ, this, smul_zero]
    · exact aq_zero_succ A q0 (ih (by omega))

end

/-- one or zero -/
def UnitOrZero (x : E) : Prop := ‖x‖ = 1 ∨ x = 0

section
variable {A : E →ₗ[𝕜] E} {q0 : E}

theorem norm_normalise {u : E} (h : ‖u‖ ≠ 0) : ‖((1 / ‖u‖ : ℝ) : 𝕜) • u‖ = 1 := by
  rw [norm_smul, RCLike.norm_ofReal, abs_of_nonneg (by positivity)]
  field_simp

theorem aq_unit_or_zero (h0 : UnitOrZero q0) (k : ℕ) : UnitOrZero (aq A q0 k) := by
  cases k with
  | zero => rw [aq_zero]; exact h0
  | succ k =>
    by_cases h : ab A q0 k = 0
    · right; exact aq_zero_of_ab A q0 h (by omega)
    · left
      rw [aq_succ]
      exact norm_normalise h

theorem inner_self_unit_or_zero {x : E} (h : UnitOrZero x) (y : E) :
    ⟪x, y⟫_𝕜 * ⟪x, x⟫_𝕜 = ⟪x, y⟫_𝕜 := by
  rcases h with h | h
  · rw [inner_self_of_norm_one h, mul_one]
  · rw [h]; simp

/-- the remainder is orthogonal to the previous vectors -/
theorem inner_aq_au (h0 : UnitOrZero q0) {k : ℕ}
    (ho : ∀ i j, i ≤ k → j ≤ k → i ≠ j → ⟪aq A q0 i, aq A q0 j⟫_𝕜 = 0) {i : ℕ} (hi : i ≤ k) :
    ⟪aq A q0 i, au A q0 k⟫_𝕜 = 0 := by
  unfold au
  rw [inner_sub_right, inner_sum, Finset.sum_eq_single i]
  · rw [inner_smul_right]
    unfold ah
    rw [inner_self_unit_or_zero (aq_unit_or_zero h0 i), sub_self]
  · intro j hj hne
    rw [inner_smul_right, ho i j hi (by simpa using Nat.lt_succ_iff.1 (Finset.mem_range.1 hj)) hne.symm,
      mul_zero]
  · intro h
    exact absurd (Finset.mem_range.2 (by omega)) h

theorem aq_orth (h0 : UnitOrZero q0) : ∀ i j, i ≠ j → ⟪aq A q0 i, aq A q0 j⟫_𝕜 = 0 := by
  have key : ∀ n, ∀ i j, i ≤ n → j ≤ n → i ≠ j → ⟪aq A q0 i, aq A q0 j⟫_𝕜 = 0 := by
    intro n
    induction n with
    | zero => intro i j hi hj h; omega
    | succ n ih =>
      have hn : ∀ i, i ≤ n → ⟪aq A q0 i, aq A q0 (n + 1)⟫_𝕜 = 0 := by
        intro i hi
        rw [aq_succ, inner_smul_right, inner_aq_au h0 ih hi, mul_zero]
      intro i j hi hj hne
      by_cases e1 : i = n + 1
      · subst e1
        exact inner_eq_zero_symm.1 (hn j (by omega))
      · by_cases e2 : j = n + 1
        · subst e2; exact hn i (by omega)
        · exact ih i j (by omega) (by omega) hne
  intro i j h
  exact key (max i j) i j (le_max_left _ _) (le_max_right _ _) h

theorem aq_norm (h0 : ‖q0‖ = 1) {k : ℕ} (hb : ∀ i, i < k → ab A q0 i ≠ 0) : ‖aq A q0 k‖ = 1 := by
  cases k with
  | zero => rw [aq_zero]; exact h0
  | succ k =>
    rw [aq_succ]
    exact norm_normalise (hb k (by omega))

theorem aq_ortho (h0 : ‖q0‖ = 1) {n : ℕ} (hb : ∀ i, i < n → ab A q0 i ≠ 0) {i j : ℕ} (hi : i ≤ n)
    (hj : j ≤ n) : ⟪aq A q0 i, aq A q0 j⟫_𝕜 = if i = j then 1 else 0 := by
  split_ifs with h
  · subst h
    exact inner_self_of_norm_one (aq_norm h0 fun l hl => hb l (by omega))
  · exact aq_orth (Or.inl h0) i j h

theorem aq_orthonormal (h0 : ‖q0‖ = 1) {n : ℕ} (hb : ∀ i, i + 1 < n → ab A q0 i ≠ 0) :
    Orthonormal 𝕜 fun i : Fin n => aq A q0 i := by
  rw [orthonormal_iff_ite]
  intro i j
  have := aq_ortho (A := A) h0 (n := n - 1) (fun l hl => hb l (by omega)) (i := i) (j := j)
    (by omega) (by omega)
  rw [this]
  simp [Fin.ext_iff]

/-- Subtracting the projections one after the other is subtracting them all at once. -/
theorem reorthoLoop_orth {os : List E} (hu : ∀ x ∈ os, UnitOrZero x)
    (ho : os.Pairwise fun x y => ⟪x, y⟫_𝕜 = 0) (v : E) :
    reorthoLoop 𝕜 os v = v - (os.map fun x => ⟪x, v⟫_𝕜 • x).sum := by
  induction os generalizing v with
  | nil => simp [reorthoLoop]
  | cons o os ih =>
    rw [List.pairwise_cons] at ho
    rw [reorthoLoop, ih (fun x hx => hu x (by simp [hx])) ho.2]
    rw [List.map_cons, List.sum_cons]
    have hm : (os.map fun x => ⟪x, axpy o (-(vinner 𝕜 o v)) v⟫_𝕜 • x) =
        os.map fun x => ⟪x, v⟫_𝕜 • x := by
      apply List.map_congr_left
      intro x hx
      unfold axpy vinner
      rw [inner_add_right, inner_smul_right, inner_eq_zero_symm.1 (ho.1 x hx)]
      simp
    rw [hm]
    unfold axpy vinner
    rw [neg_smul]
    abel

/-! ### Span -/

theorem aq_mem_krylov (r : E) (c : 𝕜) (k : ℕ) : aq A (c • r) k ∈ krylovSpace A r (k + 1) := by
  induction k using Nat.strong_induction_on with
  | _ k ih =>
    cases k with
    | zero =>
      rw [aq_zero]
      exact Submodule.smul_mem _ _ (krylov_pow_mem A r (k := 0) (by omega))
    | succ k =>
      rw [aq_succ]
      refine Submodule.smul_mem _ _ (Submodule.sub_mem _ (krylov_map _ _ (ih k (by omega))) ?_)
      refine Submodule.sum_mem _ fun i hi => Submodule.smul_mem _ _ ?_
      have := Finset.mem_range.1 hi
      exact krylov_mono A r (by omega) (ih i (by omega))

theorem A_aq_mem {N k : ℕ} (h : k + 1 < N) : A (aq A q0 k) ∈
    Submodule.span 𝕜 (Set.range fun i : Fin N => aq A q0 i) := by
  rw [A_aq]
  refine Submodule.add_mem _ (Submodule.sum_mem _ fun i hi => ?_) ?_
  · have := Finset.mem_range.1 hi
    exact Submodule.smul_mem _ _ (Submodule.subset_span ⟨⟨i, by omega⟩, rfl⟩)
  · exact Submodule.smul_mem _ _ (Submodule.subset_span ⟨⟨k + 1, h⟩, rfl⟩)

theorem span_aq {r : E} {c : 𝕜} (hc : c ≠ 0) (N : ℕ) :
    Submodule.span 𝕜 (Set.range fun i : Fin N => aq A (c • r) i) = krylovSpace A r N := by
  apply le_antisymm
  · rw [Submodule.span_le]
    rintro _ ⟨k, rfl⟩
    exact krylov_mono A r (by omega) (aq_mem_krylov r c (k : ℕ))
  · unfold krylovSpace
    rw [Submodule.span_le]
    rintro _ ⟨k, rfl⟩
    have key : ∀ k, k < N → (A ^ k) r ∈
        Submodule.span 𝕜 (Set.range fun i : Fin (k + 1) => aq A (c • r) i) := by
      intro k
      induction k with
      | zero =>
        intro hk
        have : (A ^ 0) r = c⁻¹ • aq A (c • r) 0 := by
          rw [aq_zero, smul_smul, inv_mul_cancel₀ hc]; simp
        rw [this]
        exact Submodule.smul_mem _ _ (Submodule.subset_span ⟨⟨0, by omega⟩, rfl⟩)
      | succ k ih =>
        intro hk
        have h1 := ih (by omega)
        rw [pow_succ', Module.End.mul_apply]
        generalize (A ^ k) r = z at h1
        induction h1 using Submodule.span_induction with
        | mem y hy =>
          obtain ⟨i, rfl⟩ := hy
          exact A_aq_mem (by omega)
        | zero => simp
        | add a b _ _ ha hb => rw [map_add]; exact Submodule.add_mem _ ha hb
        | smul c a _ ha => rw [map_smul]; exact Submodule.smul_mem _ _ ha
    refine Submodule.span_mono ?_ (key k k.2)
    rintro _ ⟨i, rfl⟩
    exact ⟨⟨i, by omega⟩, rfl⟩

end

end Cyten.Krylov
