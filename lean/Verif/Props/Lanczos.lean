import Verif.Lemmas.Lanczos2
import Verif.Lemmas.Ritz

/-!
C51: `LanczosGroundState` / `lanczos`.

In exact arithmetic, for a Hermitian operator, the returned `(E0, psi, N)` is the best approximation
of the ground state in the Krylov space of dimension `N`.
-/

namespace Cyten.Props

open Cyten.Sparse Cyten.Krylov
open scoped InnerProductSpace

variable {𝕜 E : Type} [RCLike 𝕜] [NormedAddCommGroup E] [InnerProductSpace 𝕜 E]

/-! ### Specification -/

/-- The Krylov space `span {psi, H psi, …, H^(N-1) psi}`. -/
def krylovSpace (H : E →ₗ[𝕜] E) (psi : E) (N : ℕ) : Submodule 𝕜 E :=
  Submodule.span 𝕜 (Set.range fun k : Fin N => (H ^ (k : ℕ)) psi)

/-- `psi` is the best approximation in the subspace `K` of an eigenvector for the lowest eigenvalue:
normalised, of energy `e` minimal in `K`, and such that `H psi - e psi` is orthogonal to `K`. -/
structure IsGroundIn (H : E →ₗ[𝕜] E) (K : Submodule 𝕜 E) (e : ℝ) (psi : E) : Prop where
  mem : psi ∈ K
  norm : ‖psi‖ = 1
  energy : ⟪psi, H psi⟫_𝕜 = (e : 𝕜)
  minimal : ∀ φ ∈ K, ‖φ‖ = 1 → e ≤ RCLike.re ⟪φ, H φ⟫_𝕜
  galerkin : ∀ φ ∈ K, ⟪φ, H psi - (e : 𝕜) • psi⟫_𝕜 = 0

/-! ### Krylov spaces and Lanczos vectors -/

theorem krylov_pow_mem (H : E →ₗ[𝕜] E) (psi : E) {N k : ℕ} (h : k < N) :
    (H ^ k) psi ∈ krylovSpace H psi N := Submodule.subset_span ⟨⟨k, h⟩, rfl⟩

theorem krylov_mono (H : E →ₗ[𝕜] E) (psi : E) {N M : ℕ} (h : N ≤ M) :
    krylovSpace H psi N ≤ krylovSpace H psi M := by
  unfold krylovSpace
  rw [Submodule.span_le]
  rintro _ ⟨k, rfl⟩
  exact krylov_pow_mem H psi (by omega)

theorem krylov_map (H : E →ₗ[𝕜] E) (psi : E) {N : ℕ} {x : E} (hx : x ∈ krylovSpace H psi N) :
    H x ∈ krylovSpace H psi (N + 1) := by
  unfold krylovSpace at hx
  induction hx using Submodule.span_induction with
  | mem y hy =>
    obtain ⟨k, rfl⟩ := hy
    have := krylov_pow_mem H psi (N := N + 1) (k := k + 1) (by omega)
    rw [pow_succ'] at this
    exact this
  | zero => simp
  | add a b _ _ ha hb => rw [map_add]; exact Submodule.add_mem _ ha hb
  | smul c a _ ha => rw [map_smul]; exact Submodule.smul_mem _ _ ha

section
variable {H : E →ₗ[𝕜] E} {psi0 : E}

/-- normalised starting vector -/
noncomputable def unit0 (𝕜 : Type) {E : Type} [RCLike 𝕜] [NormedAddCommGroup E]
    [InnerProductSpace 𝕜 E] (psi0 : E) : E := ((1 / ‖psi0‖ : ℝ) : 𝕜) • psi0

theorem unit0_norm (h : psi0 ≠ 0) : ‖unit0 𝕜 psi0‖ = 1 := by
  unfold unit0
  have : ‖psi0‖ ≠ 0 := norm_ne_zero_iff.2 h
  rw [norm_smul, RCLike.norm_ofReal, abs_of_nonneg (by positivity)]
  field_simp

theorem lu_eq_smul' (q0 : E) (k : ℕ) : lu H q0 k = (lb H q0 k : 𝕜) • lq H q0 (k + 1) := by
  by_cases h : lb H q0 k = 0
  · rw [h]
    have : lu H q0 k = 0 := norm_eq_zero.1 h
    rw [this]; simp
  · exact lu_eq_smul H q0 h

theorem lq_mem_krylov (k : ℕ) :
    lq H (unit0 𝕜 psi0) k ∈ krylovSpace H psi0 (k + 1) := by
  induction k using Nat.strong_induction_on with
  | _ k ih =>
    cases k with
    | zero =>
      rw [lq_zero]
      exact Submodule.smul_mem _ _ (krylov_pow_mem H psi0 (k := 0) (by omega))
    | succ k =>
      rw [lq_succ]
      refine Submodule.smul_mem _ _ ?_
      have h1 := ih k (by omega)
      have h2 : H (lq H (unit0 𝕜 psi0) k) ∈ krylovSpace H psi0 (k + 2) := krylov_map H psi0 h1
      have h3 := krylov_mono H psi0 (by omega : k + 1 ≤ k + 2) h1
      cases k with
      | zero =>
        rw [lu_zero]
        rw [lq_zero] at h2 h3
        exact Submodule.sub_mem _ h2 (Submodule.smul_mem _ _ h3)
      | succ k =>
        rw [lu_succ]
        have h4 := krylov_mono H psi0 (by omega : k + 1 ≤ k + 1 + 2) (ih k (by omega))
        exact Submodule.sub_mem _ (Submodule.sub_mem _ h2 (Submodule.smul_mem _ _ h3))
          (Submodule.smul_mem _ _ h4)

theorem H_lq_mem (q0 : E) {N k : ℕ} (h : k + 1 < N) :
    H (lq H q0 k) ∈ Submodule.span 𝕜 (Set.range fun i : Fin N => lq H q0 i) := by
  have hm : ∀ i, i < N → lq H q0 i ∈ Submodule.span 𝕜 (Set.range fun i : Fin N => lq H q0 i) :=
    fun i hi => Submodule.subset_span ⟨⟨i, hi⟩, rfl⟩
  cases k with
  | zero =>
    rw [H_lq_zero, lu_eq_smul']
    exact Submodule.add_mem _ (Submodule.smul_mem _ _ (hm _ h))
      (Submodule.smul_mem _ _ (hm _ (by omega)))
  | succ k =>
    rw [H_lq_succ, lu_eq_smul']
    exact Submodule.add_mem _ (Submodule.add_mem _ (Submodule.smul_mem _ _ (hm _ h))
      (Submodule.smul_mem _ _ (hm _ (by omega)))) (Submodule.smul_mem _ _ (hm _ (by omega)))

theorem span_lq (h0 : psi0 ≠ 0) (N : ℕ) :
    Submodule.span 𝕜 (Set.range fun i : Fin N => lq H (unit0 𝕜 psi0) i) =
      krylovSpace H psi0 N := by
  apply le_antisymm
  · rw [Submodule.span_le]
    rintro _ ⟨k, rfl⟩
    exact krylov_mono H psi0 (by omega) (lq_mem_krylov (k : ℕ))
  · -- powers are combinations of the Lanczos vectors
    have key : ∀ k, k < N →
        (H ^ k) psi0 ∈ Submodule.span 𝕜 (Set.range fun i : Fin (k + 1) => lq H (unit0 𝕜 psi0) i) := by
      intro k
      induction k with
      | zero =>
        intro hk
        have hm : lq H (unit0 𝕜 psi0) 0 ∈
            Submodule.span 𝕜 (Set.range fun i : Fin (0 + 1) => lq H (unit0 𝕜 psi0) i) :=
          Submodule.subset_span ⟨⟨0, by omega⟩, rfl⟩
        have : (H ^ 0) psi0 = ((‖psi0‖ : ℝ) : 𝕜) • lq H (unit0 𝕜 psi0) 0 := by
          rw [lq_zero]
          unfold unit0
          rw [smul_smul, ← RCLike.ofReal_mul, mul_one_div_cancel (norm_ne_zero_iff.2 h0)]
          simp
        rw [this]
        exact Submodule.smul_mem _ _ hm
      | succ k ih =>
        intro hk
        have h1 := ih (by omega)
        rw [pow_succ']
        show H ((H ^ k) psi0) ∈ _
        have : ∀ x ∈ Submodule.span 𝕜 (Set.range fun i : Fin (k + 1) => lq H (unit0 𝕜 psi0) i),
            H x ∈ Submodule.span 𝕜 (Set.range fun i : Fin (k + 1 + 1) => lq H (unit0 𝕜 psi0) i) := by
          intro x hx
          induction hx using Submodule.span_induction with
          | mem y hy =>
            obtain ⟨i, rfl⟩ := hy
            exact H_lq_mem _ (by omega)
          | zero => simp
          | add a b _ _ ha hb => rw [map_add]; exact Submodule.add_mem _ ha hb
          | smul c a _ ha => rw [map_smul]; exact Submodule.smul_mem _ _ ha
        exact this _ h1
    unfold krylovSpace
    rw [Submodule.span_le]
    rintro _ ⟨k, rfl⟩
    refine Submodule.span_mono ?_ (key k k.2)
    rintro _ ⟨i, rfl⟩
    exact ⟨⟨i, by omega⟩, rfl⟩

theorem lq_orthonormal {q0 : E} {N : ℕ} (hN : 1 ≤ N) (ho : LOrtho H q0 (N - 1)) :
    Orthonormal 𝕜 fun i : Fin N => lq H q0 i := by
  rw [orthonormal_iff_ite]
  intro i j
  rw [ho i j (by omega) (by omega)]
  simp [Fin.ext_iff]

theorem inner_lq_H (hs : H.IsSymmetric) {q0 : E} {n : ℕ} (ho : LOrtho H q0 n)
    (hb : ∀ i, i < n → lb H q0 i ≠ 0) (i j : ℕ) (hi : i ≤ n) (hj : j ≤ n) :
    ⟪lq H q0 i, H (lq H q0 j)⟫_𝕜 = ((ltri H q0 (n + 1) i j : ℝ) : 𝕜) := by
  have up : ∀ i j, i ≤ j → j ≤ n →
      ⟪lq H q0 i, H (lq H q0 j)⟫_𝕜 = ((ltri H q0 (n + 1) i j : ℝ) : 𝕜) := by
    intro i j hij hj
    have hoj : LOrtho H q0 j := fun a b ha hb => ho a b (by omega) (by omega)
    have h := inner_lu hs hoj (fun i hi => hb i (by omega)) i hij
    unfold ltri
    cases j with
    | zero =>
      have : i = 0 := by omega
      subst this
      rw [if_pos (by omega), inner_la hs]
    | succ j =>
      rw [lu_succ, inner_sub_right, inner_sub_right, inner_smul_right, inner_smul_right,
        ho i (j + 1) (by omega) hj, ho i j (by omega) (by omega), sub_sub, sub_eq_zero] at h
      rw [h]
      by_cases h1 : i = j + 1
      · rw [if_pos h1, if_neg (by omega), if_pos (show i = j + 1 ∧ i < n + 1 by omega), h1]; simp
      · rw [if_neg h1, if_neg (show ¬ (i = j + 1 ∧ i < n + 1) by omega)]
        by_cases h2 : i = j
        · rw [if_pos h2, if_pos (show j + 1 = i + 1 ∧ i < n + 1 by omega), h2]; simp
        · rw [if_neg h2, if_neg (show ¬ (j + 1 = i + 1 ∧ i < n + 1) by omega),
            if_neg (show ¬ (i = j + 1 + 1 ∧ j + 1 < n + 1) by omega)]; simp
  rcases Nat.le_total i j with h | h
  · exact up i j h hj
  · have h1 := up j i h hi
    have h2 : ltri H q0 (n + 1) i j = ltri H q0 (n + 1) j i := by
      unfold ltri
      by_cases e1 : i = j
      · subst e1; rfl
      · rw [if_neg (show ¬ (i = j ∧ i < n + 1) by omega), if_neg (show ¬ (j = i ∧ j < n + 1) by omega),
          if_neg (show ¬ (j = i + 1 ∧ i < n + 1) by omega),
          if_neg (show ¬ (j = i + 1 ∧ i < n + 1) by omega)]
    rw [h2, ← hs, ← inner_conj_symm, h1, RCLike.conj_ofReal]

theorem lmid_eq_ltri (q0 : E) (k i j : ℕ) (hi : i ≤ k) (hj : j ≤ k) :
    lmid H q0 k i j = ltri H q0 (k + 1) i j := by
  rw [← ltri_succ]
  unfold set2
  rw [if_neg (by omega), if_neg (by omega)]

theorem lmid_symm (q0 : E) (k i j : ℕ) : lmid H q0 k i j = lmid H q0 k j i := by
  unfold lmid set2 ltri
  by_cases e1 : i = j
  · subst e1; rfl
  · rw [if_neg (show ¬ (i = k ∧ j = k) by omega), if_neg (show ¬ (j = k ∧ i = k) by omega),
      if_neg (show ¬ (i = j ∧ i < k) by omega), if_neg (show ¬ (j = i ∧ j < k) by omega)]
    by_cases e2 : j = i + 1
    · rw [if_neg (show ¬ (i = j + 1 ∧ j < k) by omega)]
      simp only [e2, true_and]
      split_ifs <;> first | rfl | omega
    · rw [if_neg (show ¬ (j = i + 1 ∧ i < k) by omega)]
      split_ifs <;> first | rfl | omega

/-- data of the small eigenvalue problem: eigenvalues and eigenvectors of the tridiagonal matrix -/
structure SmallEig (H : E →ₗ[𝕜] E) (q0 : E) (N : ℕ) (ev : Fin N → ℝ) (V : Fin N → Fin N → ℝ) :
    Prop where
  eig : ∀ c i : Fin N, ∑ j : Fin N, ltri H q0 N (i : ℕ) (j : ℕ) * V j c = ev c * V i c
  orth : ∀ a b, ∑ i, V i a * V i b = if a = b then 1 else 0
  mono : Monotone ev

variable {N : ℕ} {ev : Fin N → ℝ} {V : Fin N → Fin N → ℝ}

/-- the family of Lanczos vectors -/
noncomputable def lfam (H : E →ₗ[𝕜] E) (q0 : E) (N : ℕ) (i : Fin N) : E := lq H q0 i

theorem ground_of_smallEig (hs : H.IsSymmetric) (h0 : psi0 ≠ 0) (hN : 0 < N)
    (hb : ∀ i, i < N - 1 → lb H (unit0 𝕜 psi0) i ≠ 0)
    (hV : SmallEig H (unit0 𝕜 psi0) N ev V) :
    IsGroundIn H (krylovSpace H psi0 N) (ev ⟨0, hN⟩)
      (ritz 𝕜 (lfam H (unit0 𝕜 psi0) N) V ⟨0, hN⟩) := by
  have ho := lortho hs (unit0_norm (𝕜 := 𝕜) h0) (N - 1) hb
  have hq : Orthonormal 𝕜 (lfam H (unit0 𝕜 psi0) N) := lq_orthonormal (by omega) ho
  have hsp : Submodule.span 𝕜 (Set.range (lfam H (unit0 𝕜 psi0) N)) = krylovSpace H psi0 N :=
    span_lq h0 N
  have hT : ∀ i j : Fin N, ⟪lfam H (unit0 𝕜 psi0) N i, H (lfam H (unit0 𝕜 psi0) N j)⟫_𝕜 =
      ((ltri H (unit0 𝕜 psi0) N (i : ℕ) (j : ℕ) : ℝ) : 𝕜) := by
    intro i j
    have := inner_lq_H hs ho hb i j (by omega) (by omega)
    rw [show N - 1 + 1 = N by omega] at this
    exact this
  have hg : ∀ φ ∈ krylovSpace H psi0 N, ⟪φ, H (ritz 𝕜 (lfam H (unit0 𝕜 psi0) N) V ⟨0, hN⟩) -
      ((ev ⟨0, hN⟩ : ℝ) : 𝕜) • ritz 𝕜 (lfam H (unit0 𝕜 psi0) N) V ⟨0, hN⟩⟫_𝕜 = 0 :=
    fun φ hφ => ritz_galerkin hq hT hV.eig _ (by rw [hsp]; exact hφ)
  have hmem : ritz 𝕜 (lfam H (unit0 𝕜 psi0) N) V ⟨0, hN⟩ ∈ krylovSpace H psi0 N := by
    rw [← hsp]; exact ritz_mem _
  have hnorm := (ritz_orthonormal hq hV.orth).1 ⟨0, hN⟩
  refine ⟨hmem, hnorm, ?_, ?_, hg⟩
  · have := hg _ hmem
    rw [inner_sub_right, sub_eq_zero, inner_smul_right, inner_self_of_norm_one hnorm, mul_one] at this
    exact this
  · intro φ hφ hn
    obtain ⟨d, -, -, hd1, hd2⟩ := ritz_expectation hq hT hV.orth hV.eig (φ := φ)
      (by rw [hsp]; exact hφ)
    rw [hd2]
    calc ev ⟨0, hN⟩ = ∑ a, ev ⟨0, hN⟩ * ‖d a‖ ^ 2 := by
          rw [← Finset.mul_sum, ← hd1, hn]; simp
      _ ≤ ∑ a, ev a * ‖d a‖ ^ 2 := by
          refine Finset.sum_le_sum fun a _ => ?_
          exact mul_le_mul_of_nonneg_right (hV.mono (by simp [Fin.le_def])) (by positivity)

/-- the residual of a Ritz pair is the last component times the next remainder -/
theorem ritz_residual (hs : H.IsSymmetric) (h0 : psi0 ≠ 0) (hN : 0 < N)
    (hb : ∀ i, i < N - 1 → lb H (unit0 𝕜 psi0) i ≠ 0)
    (hV : SmallEig H (unit0 𝕜 psi0) N ev V) (a : Fin N) :
    H (ritz 𝕜 (lfam H (unit0 𝕜 psi0) N) V a) -
      ((ev a : ℝ) : 𝕜) • ritz 𝕜 (lfam H (unit0 𝕜 psi0) N) V a =
      ((V ⟨N - 1, by omega⟩ a : ℝ) : 𝕜) • lu H (unit0 𝕜 psi0) (N - 1) := by
  have ho := lortho hs (unit0_norm (𝕜 := 𝕜) h0) (N - 1) hb
  have hq : Orthonormal 𝕜 (lfam H (unit0 𝕜 psi0) N) := lq_orthonormal (by omega) ho
  have hT : ∀ i j : Fin N, ⟪lfam H (unit0 𝕜 psi0) N i, H (lfam H (unit0 𝕜 psi0) N j)⟫_𝕜 =
      ((ltri H (unit0 𝕜 psi0) N (i : ℕ) (j : ℕ) : ℝ) : 𝕜) := by
    intro i j
    have := inner_lq_H hs ho hb i j (by omega) (by omega)
    rw [show N - 1 + 1 = N by omega] at this
    exact this
  set K := Submodule.span 𝕜 (Set.range (lfam H (unit0 𝕜 psi0) N)) with hK
  have hmq : ∀ i, i < N → lq H (unit0 𝕜 psi0) i ∈ K := fun i hi =>
    Submodule.subset_span ⟨⟨i, hi⟩, rfl⟩
  set x := H (ritz 𝕜 (lfam H (unit0 𝕜 psi0) N) V a) -
      ((ev a : ℝ) : 𝕜) • ritz 𝕜 (lfam H (unit0 𝕜 psi0) N) V a -
      ((V ⟨N - 1, by omega⟩ a : ℝ) : 𝕜) • lu H (unit0 𝕜 psi0) (N - 1) with hx
  -- images of the Lanczos vectors
  have himg : ∀ k (hk : k < N), H (lq H (unit0 𝕜 psi0) k) -
      (if k = N - 1 then lu H (unit0 𝕜 psi0) (N - 1) else 0) ∈ K := by
    intro k hk
    by_cases e : k = N - 1
    · rw [if_pos e, ← e]
      cases k with
      | zero =>
        rw [H_lq_zero, add_sub_cancel_left]
        exact Submodule.smul_mem _ _ (hmq _ hk)
      | succ k =>
        rw [H_lq_succ, add_assoc, add_sub_cancel_left]
        exact Submodule.add_mem _ (Submodule.smul_mem _ _ (hmq _ hk))
          (Submodule.smul_mem _ _ (hmq _ (by omega)))
    · rw [if_neg e, sub_zero]
      exact H_lq_mem _ (by omega)
  have hxK : x ∈ K := by
    have e1 : H (ritz 𝕜 (lfam H (unit0 𝕜 psi0) N) V a) -
        ((V ⟨N - 1, by omega⟩ a : ℝ) : 𝕜) • lu H (unit0 𝕜 psi0) (N - 1) ∈ K := by
      have e2 : H (ritz 𝕜 (lfam H (unit0 𝕜 psi0) N) V a) -
          ((V ⟨N - 1, by omega⟩ a : ℝ) : 𝕜) • lu H (unit0 𝕜 psi0) (N - 1) =
          ∑ i : Fin N, ((V i a : ℝ) : 𝕜) • (H (lq H (unit0 𝕜 psi0) i) -
            (if (i : ℕ) = N - 1 then lu H (unit0 𝕜 psi0) (N - 1) else 0)) := by
        simp only [smul_sub, Finset.sum_sub_distrib]
        congr 1
        · unfold ritz
          rw [map_sum]
          exact Finset.sum_congr rfl fun i _ => by rw [map_smul]; rfl
        · rw [Finset.sum_eq_single ⟨N - 1, by omega⟩]
          · simp
          · intro b _ hb'
            rw [if_neg (by intro h; exact hb' (Fin.ext h)), smul_zero]
          · intro h; exact absurd (Finset.mem_univ _) h
      rw [e2]
      exact Submodule.sum_mem _ fun i _ => Submodule.smul_mem _ _ (himg i i.2)
    have e3 : ((ev a : ℝ) : 𝕜) • ritz 𝕜 (lfam H (unit0 𝕜 psi0) N) V a ∈ K :=
      Submodule.smul_mem _ _ (ritz_mem _)
    have := Submodule.sub_mem _ e1 e3
    rw [sub_right_comm] at this
    exact this
  have hxo : ∀ φ ∈ K, ⟪φ, x⟫_𝕜 = 0 := by
    intro φ hφ
    rw [hx, inner_sub_right, ritz_galerkin hq hT hV.eig a hφ, inner_smul_right]
    have : ⟪φ, lu H (unit0 𝕜 psi0) (N - 1)⟫_𝕜 = 0 :=
      inner_span_zero (fun i : Fin N => inner_lu hs ho hb i (by omega)) hφ
    rw [this]; simp
  have hx0 : x = 0 := inner_self_eq_zero.1 (hxo x hxK)
  exact sub_eq_zero.1 hx0


/-! ### What a run computes -/

/-- columns of the small eigenvalue problem solved at the end of a run of `N` steps -/
noncomputable def smallEv (eigh : Eigh) (H : E →ₗ[𝕜] E) (q0 : E) (N : ℕ) (c : Fin N) : ℝ :=
  if N = 1 then la H q0 0 else (eigh N (lmid H q0 (N - 1))).1 c

noncomputable def smallV (eigh : Eigh) (H : E →ₗ[𝕜] E) (q0 : E) (N : ℕ) (i c : Fin N) : ℝ :=
  if N = 1 then 1 else (eigh N (lmid H q0 (N - 1))).2 i c

theorem smallEig_of_spec {eigh : Eigh} (he : EighSpec eigh) (H : E →ₗ[𝕜] E) (q0 : E)
    (hN : 0 < N) : SmallEig H q0 N (smallEv eigh H q0 N) (smallV eigh H q0 N) := by
  by_cases h1 : N = 1
  · subst h1
    refine ⟨?_, ?_, ?_⟩
    · intro c i
      have hi : i = 0 := Subsingleton.elim _ _
      subst hi
      simp [smallEv, smallV, ltri]
    · intro a b
      have : a = b := Subsingleton.elim _ _
      subst this
      simp [smallV]
    · intro a b _
      have : a = b := Subsingleton.elim _ _
      rw [this]
  · have h := he N (lmid H q0 (N - 1)) fun i j _ _ => lmid_symm q0 _ i j
    refine ⟨?_, ?_, ?_⟩
    · intro c i
      have := h.eig c i c.2 i.2
      rw [Finset.sum_range] at this
      unfold smallEv smallV
      simp only [if_neg h1]
      rw [← this]
      refine Finset.sum_congr rfl fun j _ => ?_
      rw [lmid_eq_ltri q0 (N - 1) i j (by omega) (by omega), show N - 1 + 1 = N by omega]
    · intro a b
      have := h.orth a b a.2 b.2
      rw [Finset.sum_range] at this
      unfold smallV
      simp only [if_neg h1]
      rw [this]
      simp [Fin.ext_iff]
    · intro a b hab
      unfold smallEv
      simp only [if_neg h1]
      exact h.mono a b hab b.2

/-- initial variables satisfy the invariant -/
theorem linv_init {o : Options} {K : Kind 𝕜} (h0 : psi0 ≠ 0) :
    LInv H (unit0 𝕜 psi0) o K 0
      { w := psi0, beta := ‖psi0‖, cache := [], h := fun _ _ => 0, es := fun _ _ => 0, vf := [],
        resultNorm := 1 } where
  w := by
    rw [lq_zero]
    unfold unit0
    rw [smul_smul, ← RCLike.ofReal_mul, mul_one_div_cancel (norm_ne_zero_iff.2 h0)]
    simp
  beta_ne := norm_ne_zero_iff.2 h0
  beta := by omega
  cache := by simp [lcache, lqs]
  h := by funext i j; simp [ltri]
  es := by omega
  lb_ne := by omega

theorem lanczosBuild_post {o : Options} {K : Kind 𝕜} (hs : H.IsSymmetric) (hn : 2 ≤ o.nCache)
    (hm : 1 ≤ o.nMax) (hc : 0 < o.cutoff) {q : E} {s : LState 𝕜 E} {N : ℕ}
    (hr : lanczosBuild o K H psi0 = some (q, s, N)) :
    o.cutoff ≤ ‖psi0‖ ∧ psi0 ≠ 0 ∧ q = unit0 𝕜 psi0 ∧ 1 ≤ N ∧ N ≤ o.nMax ∧
      LPost H (unit0 𝕜 psi0) o K (N - 1) s ∧ (N = o.nMax ∨ lanczosStop o K (N - 1) s) := by
  unfold lanczosBuild at hr
  dsimp only at hr
  by_cases hb : ‖psi0‖ < o.cutoff
  · rw [if_pos hb] at hr; simp at hr
  · rw [if_neg hb] at hr
    have h0 : psi0 ≠ 0 := by
      intro h
      rw [h, norm_zero] at hb
      exact hb hc
    simp only [Option.some.injEq, Prod.mk.injEq] at hr
    obtain ⟨rfl, rfl, rfl⟩ := hr
    have := lanczosLoop_post hs (unit0_norm (𝕜 := 𝕜) h0) hn hc K o.nMax 0 _ (linv_init h0) (by omega)
    simp only [Nat.zero_add] at this
    exact ⟨not_lt.1 hb, h0, rfl, by omega, this.2.1, this.2.2.1, this.2.2.2⟩

theorem groundCalc_es (eigh : Eigh) (q0 : E) (hN : 0 < N) (j : Fin N) :
    (groundCalc 𝕜 eigh (N - 1) (lmid H q0 (N - 1))).1 j = smallEv eigh H q0 N j := by
  unfold groundCalc smallEv
  by_cases h : N = 1
  · subst h
    have hj : j = 0 := Subsingleton.elim _ _
    subst hj
    simp [lmid, set2]
  · rw [if_neg (by omega), if_neg h]
    dsimp only
    rw [if_pos (by omega), show N - 1 + 1 = N by omega]

theorem groundCalc_vf (eigh : Eigh) (q0 : E) (hN : 0 < N) (i : Fin N) :
    (groundCalc 𝕜 eigh (N - 1) (lmid H q0 (N - 1))).2.1.getD i 0 =
      ((smallV eigh H q0 N i ⟨0, hN⟩ : ℝ) : 𝕜) := by
  unfold groundCalc smallV
  by_cases h : N = 1
  · subst h
    have hj : i = 0 := Subsingleton.elim _ _
    subst hj
    simp
  · rw [if_neg (by omega), if_neg h]
    dsimp only
    rw [List.getD_eq_getElem?_getD, List.getElem?_map, List.getElem?_range (by omega),
      show N - 1 + 1 = N by omega]
    rfl

theorem groundCalc_len (eigh : Eigh) (q0 : E) (hN : 0 < N) :
    (groundCalc 𝕜 eigh (N - 1) (lmid H q0 (N - 1))).2.1.length = N := by
  unfold groundCalc
  by_cases h : N = 1
  · subst h; simp
  · rw [if_neg (by omega)]; simp; omega

/-- The result of a run in terms of the Lanczos recurrence. -/
theorem lanczosRun_post {o : Options} {eigh : Eigh} (hs : H.IsSymmetric) (he : EighSpec eigh)
    (hn : 2 ≤ o.nCache) (hm : 1 ≤ o.nMax) (hc : 0 < o.cutoff) {eShift : Option ℝ} {E0 : ℝ} {psi : E}
    {N : ℕ} (hr : lanczosRun (𝕜 := 𝕜) o eigh H psi0 eShift = some (E0, psi, N)) :
    o.cutoff ≤ ‖psi0‖ ∧ psi0 ≠ 0 ∧ N ≤ o.nMax ∧ (∀ i, i < N - 1 → lb H (unit0 𝕜 psi0) i ≠ 0) ∧
    ∃ hN : 0 < N, E0 + eShift.getD 0 = smallEv eigh H (unit0 𝕜 psi0) N ⟨0, hN⟩ ∧
      psi = ritz 𝕜 (lfam H (unit0 𝕜 psi0) N) (smallV eigh H (unit0 𝕜 psi0) N) ⟨0, hN⟩ ∧
      ∃ s : LState 𝕜 E, LPost H (unit0 𝕜 psi0) o (groundKind 𝕜 o eigh) (N - 1) s ∧
        (N = o.nMax ∨ lanczosStop o (groundKind 𝕜 o eigh) (N - 1) s) := by
  unfold lanczosRun at hr
  cases hb : lanczosBuild o (groundKind 𝕜 o eigh) H psi0 with
  | none => rw [hb] at hr; simp at hr
  | some r =>
    obtain ⟨q, s, N'⟩ := r
    rw [hb] at hr
    obtain ⟨h1, h2, h3, h4, h5, h6, h7⟩ := lanczosBuild_post hs hn hm hc hb
    subst h3
    dsimp only at hr
    have hes : s.es (N' - 1) 0 = smallEv eigh H (unit0 𝕜 psi0) N' ⟨0, h4⟩ := by
      rw [h6.es (N' - 1) (by omega)]
      exact groundCalc_es eigh _ h4 ⟨0, h4⟩
    by_cases hN1 : N' = 1
    · rw [if_pos hN1] at hr
      simp only [Option.some.injEq, Prod.mk.injEq] at hr
      obtain ⟨rfl, rfl, rfl⟩ := hr
      refine ⟨h1, h2, h5, h6.lb_ne, h4, by rw [hes]; ring, ?_, s, h6, h7⟩
      subst hN1
      simp [ritz, smallV, lfam, lq_zero]
    · rw [if_neg hN1] at hr
      have hlen : s.vf.length = N' := by rw [h6.vf]; exact groundCalc_len eigh _ h4
      have hq : unit0 𝕜 psi0 = unit0 𝕜 psi0 := rfl
      have hraw := calcResultRaw_eq hs (unit0_norm (𝕜 := 𝕜) h2) hn _ N' (by omega) s h6
      have hraw2 : calcResultRaw o H (unit0 𝕜 psi0) s N' =
          ritz 𝕜 (lfam H (unit0 𝕜 psi0) N') (smallV eigh H (unit0 𝕜 psi0) N') ⟨0, h4⟩ := by
        rw [hraw, Finset.sum_range]
        unfold ritz
        refine Finset.sum_congr rfl fun i _ => ?_
        rw [h6.vf]
        congr 1
        exact groundCalc_vf eigh _ h4 i
      have ho := lortho hs (unit0_norm (𝕜 := 𝕜) h2) (N' - 1) h6.lb_ne
      have hor : Orthonormal 𝕜 (lfam H (unit0 𝕜 psi0) N') := lq_orthonormal (by omega) ho
      have hnorm := (ritz_orthonormal hor
        (smallEig_of_spec he H (unit0 𝕜 psi0) h4).orth).1 ⟨0, h4⟩
      unfold calcResultFull at hr
      rw [if_pos ⟨hlen.symm, by omega⟩] at hr
      dsimp only at hr
      rw [hraw2, hnorm] at hr
      simp only [Option.map_some, Option.some.injEq, Prod.mk.injEq] at hr
      obtain ⟨rfl, rfl, rfl⟩ := hr
      refine ⟨h1, h2, h5, h6.lb_ne, h4, by rw [hes]; ring, by simp, s, h6, h7⟩

end

/-! ### The theorems -/

section
variable {H : E →ₗ[𝕜] E} {psi0 : E} {o : Options} {eigh : Eigh}

/-- **C51.** For a Hermitian operator, every cache size the constructor accepts, with or without
reorthogonalisation, whatever stopped the iteration: the result is the ground state within the
Krylov space of `N` vectors, `N` is at most `N_max`, the Krylov space has dimension `N`, and the
energy is the one of the operator without the shift. -/
theorem C51_lanczos (hs : H.IsSymmetric) (he : EighSpec eigh) (hn : 2 ≤ o.nCache)
    (hm : 1 ≤ o.nMax) (hc : 0 < o.cutoff) {eShift : Option ℝ} {E0 : ℝ} {psi : E} {N : ℕ}
    (hr : lanczosRun (𝕜 := 𝕜) o eigh H psi0 eShift = some (E0, psi, N)) :
    1 ≤ N ∧ N ≤ o.nMax ∧ Module.finrank 𝕜 (krylovSpace H psi0 N) = N ∧
      IsGroundIn H (krylovSpace H psi0 N) (E0 + eShift.getD 0) psi := by
  obtain ⟨-, h0, h5, hb, hN, h1, h2, -⟩ := lanczosRun_post hs he hn hm hc hr
  have ho := lortho hs (unit0_norm (𝕜 := 𝕜) h0) (N - 1) hb
  have hor : Orthonormal 𝕜 (lfam H (unit0 𝕜 psi0) N) := lq_orthonormal (by omega) ho
  refine ⟨hN, h5, ?_, ?_⟩
  · rw [← span_lq h0 N]
    have := finrank_span_eq_card hor.linearIndependent
    rw [Fintype.card_fin] at this
    exact this
  · rw [h1, h2]
    exact ground_of_smallEig hs h0 hN hb (smallEig_of_spec he H _ hN)


/-- **C51.** A run raises exactly when the norm of the starting vector is below the cutoff. -/
theorem C51_succeeds (hs : H.IsSymmetric) (hn : 2 ≤ o.nCache)
    (hm : 1 ≤ o.nMax) (hc : 0 < o.cutoff) (eShift : Option ℝ) :
    (lanczosRun (𝕜 := 𝕜) o eigh H psi0 eShift).isSome ↔ o.cutoff ≤ ‖psi0‖ := by
  constructor
  · intro h
    by_contra hb
    rw [not_le] at hb
    unfold lanczosRun lanczosBuild at h
    dsimp only at h
    rw [if_pos hb] at h
    simp at h
  · intro hb
    unfold lanczosRun
    cases hbd : lanczosBuild o (groundKind 𝕜 o eigh) H psi0 with
    | none =>
      unfold lanczosBuild at hbd
      dsimp only at hbd
      rw [if_neg (not_lt.2 hb)] at hbd
      simp at hbd
    | some r =>
      obtain ⟨q, s, N⟩ := r
      obtain ⟨-, -, -, h4, h5, h6, -⟩ := lanczosBuild_post hs hn hm hc hbd
      dsimp only
      by_cases hN : N = 1
      · rw [if_pos hN]; rfl
      · rw [if_neg hN]
        have hlen : s.vf.length = N := by rw [h6.vf]; exact groundCalc_len eigh _ h4
        unfold calcResultFull
        rw [if_pos ⟨hlen.symm, by omega⟩]
        rfl

/-- the same options with another cache size and reorthogonalisation flag -/
def withCache (o : Options) (c : ℕ) (r : Bool) : Options := { o with nCache := c, reortho := r }

theorem lanczosLoop_indep {q0 : E} (hs : H.IsSymmetric) (h0 : ‖q0‖ = 1) (hn : 2 ≤ o.nCache) {c : ℕ}
    (hcc : 2 ≤ c) (r : Bool) (hc : 0 < o.cutoff) (K : Kind 𝕜) (fuel k : ℕ) (s s' : LState 𝕜 E)
    (hi : LInv H q0 o K k s) (hi' : LInv H q0 (withCache o c r) K k s') (hes : s.es = s'.es) :
    (lanczosLoop o K H fuel k s).2 = (lanczosLoop (withCache o c r) K H fuel k s').2 := by
  induction fuel generalizing k s s' with
  | zero => rfl
  | succ fuel ih =>
    have hp := lanczosStep_post hs h0 hn K k s hi
    have hp' := lanczosStep_post hs h0 (o := withCache o c r) hcc K k s' hi'
    have hes2 : (lanczosStep o K H k s).es = (lanczosStep (withCache o c r) K H k s').es := by
      funext i
      by_cases h : i = k
      · rw [hp.es i (by omega), hp'.es i (by omega)]
      · have e1 : (lanczosStep o K H k s).es i = s.es i := by
          unfold lanczosStep
          funext j
          dsimp only
          rw [if_neg h]
        have e2 : (lanczosStep (withCache o c r) K H k s').es i = s'.es i := by
          unfold lanczosStep
          funext j
          dsimp only
          rw [if_neg h]
        rw [e1, e2, hes]
    have hst : lanczosStop o K k (lanczosStep o K H k s) ↔
        lanczosStop (withCache o c r) K k (lanczosStep (withCache o c r) K H k s') := by
      unfold lanczosStop
      rw [hp.beta, hp'.beta, hes2, hp.vf, hp'.vf, hp.h, hp'.h]
      rfl
    rw [lanczosLoop, lanczosLoop]
    by_cases hS : lanczosStop o K k (lanczosStep o K H k s)
    · rw [if_pos hS, if_pos (hst.1 hS)]
    · have hbk : lb H q0 k ≠ 0 := by
        intro h
        refine hS (Or.inl ?_)
        rw [hp.beta, h, abs_zero]
        exact hc
      rw [if_neg hS, if_neg fun h => hS (hst.2 h)]
      exact ih (k + 1) _ _ (hp.toInv hbk) (hp'.toInv hbk) hes2

/-- **C51.** The result does not depend on the cache size and on the reorthogonalisation flag: they
only trade memory, time and (in floating point) accuracy. -/
theorem C51_independent (hs : H.IsSymmetric) (he : EighSpec eigh) (hn : 2 ≤ o.nCache) {c : ℕ}
    (hcc : 2 ≤ c) (r : Bool) (hm : 1 ≤ o.nMax) (hc : 0 < o.cutoff) (eShift : Option ℝ) :
    lanczosRun (𝕜 := 𝕜) (withCache o c r) eigh H psi0 eShift =
      lanczosRun (𝕜 := 𝕜) o eigh H psi0 eShift := by
  by_cases hb : o.cutoff ≤ ‖psi0‖
  · obtain ⟨⟨E1, p1, N1⟩, h1⟩ := Option.isSome_iff_exists.1
      ((C51_succeeds (eigh := eigh) (psi0 := psi0) hs hn hm hc eShift).2 hb)
    obtain ⟨⟨E2, p2, N2⟩, h2⟩ := Option.isSome_iff_exists.1
      ((C51_succeeds (eigh := eigh) (psi0 := psi0) (o := withCache o c r) hs hcc hm hc eShift).2 hb)
    have hN : N1 = N2 := by
      have h0 : psi0 ≠ 0 := by
        intro h
        rw [h, norm_zero] at hb
        exact absurd hc (not_lt.2 hb)
      have key := lanczosLoop_indep hs (unit0_norm (𝕜 := 𝕜) h0) hn hcc r hc (groundKind 𝕜 o eigh)
        o.nMax 0 _ _ (linv_init (H := H) h0) (linv_init (H := H) h0) rfl
      have hk : groundKind 𝕜 (withCache o c r) eigh = groundKind 𝕜 o eigh := rfl
      have aux : ∀ (o' : Options) {E' : ℝ} {p' : E} {N' : ℕ}, o'.cutoff ≤ ‖psi0‖ →
          lanczosRun (𝕜 := 𝕜) o' eigh H psi0 eShift = some (E', p', N') →
          N' = (lanczosLoop o' (groundKind 𝕜 o' eigh) H o'.nMax 0
            { w := psi0, beta := ‖psi0‖, cache := [], h := fun _ _ => 0, es := fun _ _ => 0,
              vf := [], resultNorm := 1 }).2 := by
        intro o' E' p' N' hb' h'
        unfold lanczosRun lanczosBuild at h'
        dsimp only at h'
        rw [if_neg (not_lt.2 hb')] at h'
        dsimp only at h'
        split_ifs at h' with hN1
        · simp only [Option.some.injEq, Prod.mk.injEq] at h'
          exact h'.2.2.symm
        · rw [Option.map_eq_some_iff] at h'
          obtain ⟨a, -, ha⟩ := h'
          simp only [Prod.mk.injEq] at ha
          exact ha.2.2.symm
      rw [aux o hb h1, aux (withCache o c r) hb h2, hk]
      exact key
    subst hN
    obtain ⟨-, -, -, -, _, e1, e2, -⟩ := lanczosRun_post hs he hn hm hc h1
    obtain ⟨-, -, -, -, _, e3, e4, -⟩ := lanczosRun_post (o := withCache o c r) hs he hcc hm hc h2
    rw [h1, h2]
    have : E1 = E2 := by linarith
    rw [this, e2, e4]
  · have n1 := (C51_succeeds (eigh := eigh) (psi0 := psi0) hs hn hm hc eShift).not.2 hb
    have n2 := (C51_succeeds (eigh := eigh) (psi0 := psi0) (o := withCache o c r) hs hcc hm hc
      eShift).not.2 hb
    rw [Bool.not_eq_true, Option.isSome_eq_false_iff, Option.isNone_iff_eq_none] at n1 n2
    rw [n1, n2]

/-- **C51.** The energy is between the lowest energy of the operator and the one of the starting
vector. -/
theorem C51_bounds (hs : H.IsSymmetric) (he : EighSpec eigh) (hn : 2 ≤ o.nCache)
    (hm : 1 ≤ o.nMax) (hc : 0 < o.cutoff) {eShift : Option ℝ} {E0 : ℝ} {psi : E} {N : ℕ}
    (hr : lanczosRun (𝕜 := 𝕜) o eigh H psi0 eShift = some (E0, psi, N)) :
    (∀ c : ℝ, (∀ φ : E, ‖φ‖ = 1 → c ≤ RCLike.re ⟪φ, H φ⟫_𝕜) → c ≤ E0 + eShift.getD 0) ∧
      (E0 + eShift.getD 0) * ‖psi0‖ ^ 2 ≤ RCLike.re ⟪psi0, H psi0⟫_𝕜 := by
  obtain ⟨h1, -, -, hg⟩ := C51_lanczos hs he hn hm hc hr
  obtain ⟨-, h0, -⟩ := lanczosRun_post hs he hn hm hc hr
  constructor
  · intro c hcl
    have := hcl psi hg.norm
    rw [hg.energy, RCLike.ofReal_re] at this
    exact this
  · have hmem : unit0 𝕜 psi0 ∈ krylovSpace H psi0 N :=
      Submodule.smul_mem _ _ (krylov_pow_mem H psi0 (k := 0) (by omega))
    have := hg.minimal _ hmem (unit0_norm h0)
    unfold unit0 at this
    rw [map_smul, inner_smul_left, inner_smul_right, RCLike.conj_ofReal, ← mul_assoc,
      ← RCLike.ofReal_mul, RCLike.re_ofReal_mul] at this
    have hp : 0 < ‖psi0‖ := norm_pos_iff.2 h0
    have h2 := mul_le_mul_of_nonneg_right this (by positivity : (0 : ℝ) ≤ ‖psi0‖ ^ 2)
    refine h2.trans (le_of_eq ?_)
    field_simp

/-- **C51.** Once the Krylov space is invariant under the operator the result is an exact
eigenvector. -/
theorem C51_exact (hs : H.IsSymmetric) (he : EighSpec eigh) (hn : 2 ≤ o.nCache)
    (hm : 1 ≤ o.nMax) (hc : 0 < o.cutoff) {eShift : Option ℝ} {E0 : ℝ} {psi : E} {N : ℕ}
    (hr : lanczosRun (𝕜 := 𝕜) o eigh H psi0 eShift = some (E0, psi, N))
    (hinv : krylovSpace H psi0 (N + 1) = krylovSpace H psi0 N) :
    H psi = ((E0 + eShift.getD 0 : ℝ) : 𝕜) • psi := by
  obtain ⟨-, -, -, hg⟩ := C51_lanczos hs he hn hm hc hr
  have hm : H psi - ((E0 + eShift.getD 0 : ℝ) : 𝕜) • psi ∈ krylovSpace H psi0 N := by
    refine Submodule.sub_mem _ ?_ (Submodule.smul_mem _ _ hg.mem)
    rw [← hinv]
    exact krylov_map H psi0 hg.mem
  have := hg.galerkin _ hm
  exact sub_eq_zero.1 (inner_self_eq_zero.1 this)

/-- `e` is the second-lowest energy in `K`, the lowest one orthogonal to `psi`. -/
def IsSecondIn (H : E →ₗ[𝕜] E) (K : Submodule 𝕜 E) (psi : E) (e : ℝ) : Prop :=
  (∃ φ ∈ K, ‖φ‖ = 1 ∧ ⟪psi, φ⟫_𝕜 = 0 ∧ RCLike.re ⟪φ, H φ⟫_𝕜 = e) ∧
    ∀ φ ∈ K, ‖φ‖ = 1 → ⟪psi, φ⟫_𝕜 = 0 → e ≤ RCLike.re ⟪φ, H φ⟫_𝕜

theorem second_of_smallEig {N : ℕ} {ev : Fin N → ℝ} {V : Fin N → Fin N → ℝ} (hs : H.IsSymmetric)
    (h0 : psi0 ≠ 0) (hN : 1 < N)
    (hb : ∀ i, i < N - 1 → lb H (unit0 𝕜 psi0) i ≠ 0)
    (hV : SmallEig H (unit0 𝕜 psi0) N ev V) :
    IsSecondIn H (krylovSpace H psi0 N)
      (ritz 𝕜 (lfam H (unit0 𝕜 psi0) N) V ⟨0, by omega⟩) (ev ⟨1, hN⟩) := by
  have ho := lortho hs (unit0_norm (𝕜 := 𝕜) h0) (N - 1) hb
  have hq : Orthonormal 𝕜 (lfam H (unit0 𝕜 psi0) N) := lq_orthonormal (by omega) ho
  have hsp : Submodule.span 𝕜 (Set.range (lfam H (unit0 𝕜 psi0) N)) = krylovSpace H psi0 N :=
    span_lq h0 N
  have hT : ∀ i j : Fin N, ⟪lfam H (unit0 𝕜 psi0) N i, H (lfam H (unit0 𝕜 psi0) N j)⟫_𝕜 =
      ((ltri H (unit0 𝕜 psi0) N (i : ℕ) (j : ℕ) : ℝ) : 𝕜) := by
    intro i j
    have := inner_lq_H hs ho hb i j (by omega) (by omega)
    rw [show N - 1 + 1 = N by omega] at this
    exact this
  have hro := ritz_orthonormal hq hV.orth
  constructor
  · have hmem : ritz 𝕜 (lfam H (unit0 𝕜 psi0) N) V ⟨1, hN⟩ ∈ krylovSpace H psi0 N := by
      rw [← hsp]; exact ritz_mem _
    refine ⟨_, hmem, hro.1 ⟨1, hN⟩, hro.2 (by simp), ?_⟩
    have := ritz_galerkin hq hT hV.eig ⟨1, hN⟩ (by rw [hsp]; exact hmem)
    rw [inner_sub_right, sub_eq_zero, inner_smul_right, inner_self_of_norm_one (hro.1 _),
      mul_one] at this
    rw [this, RCLike.ofReal_re]
  · intro φ hφ hn hort
    obtain ⟨d, -, hd0, hd1, hd2⟩ := ritz_expectation hq hT hV.orth hV.eig (φ := φ)
      (by rw [hsp]; exact hφ)
    rw [hd2]
    have hz : d ⟨0, by omega⟩ = 0 := by rw [← hd0]; exact hort
    calc ev ⟨1, hN⟩ = ∑ a, ev ⟨1, hN⟩ * ‖d a‖ ^ 2 := by
          rw [← Finset.mul_sum, ← hd1, hn]; simp
      _ ≤ ∑ a, ev a * ‖d a‖ ^ 2 := by
          refine Finset.sum_le_sum fun a _ => ?_
          by_cases ha : (a : ℕ) = 0
          · have : a = ⟨0, by omega⟩ := Fin.ext ha
            rw [this, hz]; simp
          · exact mul_le_mul_of_nonneg_right
              (hV.mono (by simp only [Fin.le_def]; omega)) (by positivity)

/-- **C51.** If the iteration stops before `N_max` steps, the residual is below the cutoff or the
error estimate `(residual / gap)^2` is below `P_tol`, where the gap is between the two lowest
energies in the Krylov space but at least `min_gap`, and the energy changed by less than `E_tol` in
the last step. -/
theorem C51_early_stop (hs : H.IsSymmetric) (he : EighSpec eigh) (hn : 2 ≤ o.nCache)
    (hm : 1 ≤ o.nMax) (hc : 0 < o.cutoff) (hmin : 2 ≤ o.nMin) {eShift : Option ℝ} {E0 : ℝ} {psi : E}
    {N : ℕ} (hr : lanczosRun (𝕜 := 𝕜) o eigh H psi0 eShift = some (E0, psi, N)) (hN : N < o.nMax) :
    ‖H psi - ((E0 + eShift.getD 0 : ℝ) : 𝕜) • psi‖ < o.cutoff ∨
    (o.nMin ≤ N ∧ ∃ e1 ePrev : ℝ, ∃ psiPrev : E,
      IsSecondIn H (krylovSpace H psi0 N) psi e1 ∧
      IsGroundIn H (krylovSpace H psi0 (N - 1)) ePrev psiPrev ∧
      (‖H psi - ((E0 + eShift.getD 0 : ℝ) : 𝕜) • psi‖ /
        max (e1 - (E0 + eShift.getD 0)) o.minGap) ^ 2 < o.pTol ∧
      ∀ t, o.eTol = some t → ePrev - (E0 + eShift.getD 0) < t) := by
  obtain ⟨-, h0, -, hb, hN0, h1, h2, s, hp, hst⟩ := lanczosRun_post hs he hn hm hc hr
  have hV := smallEig_of_spec he H (unit0 𝕜 psi0) hN0
  have hres := ritz_residual hs h0 hN0 hb hV ⟨0, hN0⟩
  rw [← h2, ← h1] at hres
  have hnres : ‖H psi - ((E0 + eShift.getD 0 : ℝ) : 𝕜) • psi‖ =
      |smallV eigh H (unit0 𝕜 psi0) N ⟨N - 1, by omega⟩ ⟨0, hN0⟩| * lb H (unit0 𝕜 psi0) (N - 1) := by
    rw [hres, norm_smul, RCLike.norm_ofReal]
    rfl
  have hst' := hst.resolve_left (by omega)
  unfold lanczosStop at hst'
  rcases hst' with hbeta | ⟨hmn, hconv⟩
  · left
    rw [hp.beta] at hbeta
    have hV1 : |smallV eigh H (unit0 𝕜 psi0) N ⟨N - 1, by omega⟩ ⟨0, hN0⟩| ≤ 1 := by
      have h := hV.orth ⟨0, hN0⟩ ⟨0, hN0⟩
      rw [if_pos rfl] at h
      have h' := Finset.single_le_sum (f := fun i : Fin N =>
        smallV eigh H (unit0 𝕜 psi0) N i ⟨0, hN0⟩ * smallV eigh H (unit0 𝕜 psi0) N i ⟨0, hN0⟩)
        (fun i _ => mul_self_nonneg _) (Finset.mem_univ ⟨N - 1, by omega⟩)
      rw [h] at h'
      exact abs_le_one_iff_mul_self_le_one.2 h'
    rw [hnres]
    calc _ ≤ 1 * lb H (unit0 𝕜 psi0) (N - 1) :=
          mul_le_mul_of_nonneg_right hV1 (norm_nonneg _)
      _ ≤ |lb H (unit0 𝕜 psi0) (N - 1)| := by rw [one_mul]; exact le_abs_self _
      _ < o.cutoff := hbeta
  · right
    have hN2 : 2 ≤ N := by omega
    refine ⟨by omega, smallEv eigh H (unit0 𝕜 psi0) N ⟨1, by omega⟩,
      smallEv eigh H (unit0 𝕜 psi0) (N - 1) ⟨0, by omega⟩, _, ?_,
      ground_of_smallEig hs h0 (by omega) (fun i hi => hb i (by omega))
        (smallEig_of_spec he H (unit0 𝕜 psi0) (by omega)), ?_, ?_⟩
    · rw [h2]
      exact second_of_smallEig hs h0 (by omega) hb hV
    all_goals
      have hes0 : s.es (N - 1) 0 = E0 + eShift.getD 0 := by
        rw [h1, hp.es (N - 1) (by omega)]
        exact groundCalc_es eigh _ hN0 ⟨0, hN0⟩
      have hes1 : s.es (N - 1) 1 = smallEv eigh H (unit0 𝕜 psi0) N ⟨1, by omega⟩ := by
        rw [hp.es (N - 1) (by omega)]
        exact groundCalc_es eigh _ hN0 ⟨1, by omega⟩
      have hesp : s.es (N - 1 - 1) 0 = smallEv eigh H (unit0 𝕜 psi0) (N - 1) ⟨0, by omega⟩ := by
        rw [hp.es (N - 1 - 1) (by omega)]
        exact groundCalc_es eigh _ (by omega) ⟨0, by omega⟩
      have hh : s.h (N - 1) (N - 1 + 1) = lb H (unit0 𝕜 psi0) (N - 1) := by
        rw [hp.h]
        unfold ltri
        rw [if_neg (by omega), if_pos (by omega)]
      have hv : s.vf.getD (N - 1) 0 =
          ((smallV eigh H (unit0 𝕜 psi0) N ⟨N - 1, by omega⟩ ⟨0, hN0⟩ : ℝ) : 𝕜) := by
        rw [hp.vf]
        exact groundCalc_vf eigh _ hN0 ⟨N - 1, by omega⟩
      have hc' : groundConv 𝕜 o (N - 1) s.es s.vf s.h := hconv
      unfold groundConv at hc'
      dsimp only at hc'
      rw [hes0, hes1, hesp, hh, hv, RCLike.norm_ofReal,
        abs_of_nonneg (show 0 ≤ lb H (unit0 𝕜 psi0) (N - 1) from norm_nonneg _), ← hnres] at hc'
    · rw [pow_two]
      exact hc'.1
    · intro t ht
      have := hc'.2
      rw [ht] at this
      exact this

end

end Cyten.Props
