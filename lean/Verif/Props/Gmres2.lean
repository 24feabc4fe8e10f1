import Verif.Props.Gmres
import Mathlib.Analysis.SpecialFunctions.Pow.Complex
import Mathlib.LinearAlgebra.Matrix.ToLin

/-!
C50: witnesses for `GMRES`: the hypotheses can be met; for complex non-Hermitian operators the claims
fail.
-/

namespace Cyten.Props

open Cyten.Sparse Cyten.Krylov
open scoped InnerProductSpace

/-- `std::sqrt(complex128)`: the principal square root -/
noncomputable def csqrt (z : ℂ) : ℂ := z ^ (1 / 2 : ℂ)

theorem csqrt_mul_self (z : ℂ) : csqrt z * csqrt z = z := by
  have h := Complex.cpow_nat_inv_pow z (n := 2) (by norm_num)
  rw [pow_two] at h
  unfold csqrt
  rw [one_div]
  exact_mod_cast h

theorem sqrtSpec_csqrt : SqrtSpec csqrt := fun _ _ => csqrt_mul_self _

theorem csqrt_real {x : ℝ} (hx : 0 ≤ x) : csqrt (x : ℂ) = ((Real.sqrt x : ℝ) : ℂ) := by
  unfold csqrt
  rw [Real.sqrt_eq_rpow, Complex.ofReal_cpow hx]
  norm_num

theorem realSqrt_csqrt : RealSqrt (𝕜 := ℂ) csqrt := fun _ hx => csqrt_real hx

/-- **C50.** For complex vectors the theorems apply to Hermitian operators. -/
theorem C50_hermitian {E : Type} [NormedAddCommGroup E] [InnerProductSpace ℂ E] {A : E →ₗ[ℂ] E}
    (hs : A.IsSymmetric) {o : GOptions} {x b : E} {R : GResult E}
    (hr : gmresRun o csqrt A x b = some R) :
    ∃ te, GCyclesSpec A b x te R.totalIters R.x ∧ R.rel ≤ relRes A b x := by
  obtain ⟨te, h1, -⟩ := C50_gmres sqrtSpec_csqrt realSqrt_csqrt (realHessenberg_symmetric hs) hr
  exact ⟨te, h1, (C50_monotone sqrtSpec_csqrt realSqrt_csqrt (realHessenberg_symmetric hs) hr).1⟩

/-- One step from `x = 0` in an abstract setting: `A b = 3i b + 5 c` with `b`, `c` orthonormal. -/
theorem gmres_complex {E : Type} [NormedAddCommGroup E] [InnerProductSpace ℂ E] {A : E →ₗ[ℂ] E}
    {b c : E} (hb : ‖b‖ = 1) (hc : ‖c‖ = 1) (hbc : ⟪b, c⟫_ℂ = 0)
    (hA : A b = (3 * Complex.I) • b + (5 : ℂ) • c) {o : GOptions} (hm : o.nMax = 1)
    (hn : 1 ≤ o.nMin) (hrs : o.restart = 1) (hres : o.res ≤ 1) :
    ∃ R, gmresRun o csqrt A 0 b = some R ∧ R.rel = Real.sqrt 850 / 16 ∧
      R.totalError = [[1, 5 / 4], [Real.sqrt 850 / 16]] := by
  have hu : unit0 ℂ (b - A 0) = b := by
    rw [map_zero, sub_zero]
    unfold unit0
    rw [hb]; simp
  have hn1 : ‖b - A 0‖ = 1 := by rw [map_zero, sub_zero, hb]
  have hbb : ⟪b, b⟫_ℂ = 1 := inner_self_of_norm_one hb
  have hcc : ⟪c, c⟫_ℂ = 1 := inner_self_of_norm_one hc
  have hinit := (gInit_good (A := A) (b := b) (x := 0)).inv
  set s0 : GState ℂ E := gInit ‖b‖ (subVec ℂ b (A 0)) with hs0
  -- the Arnoldi step
  have hq0 : aq A b 0 = b := aq_zero _ _
  have hah : ah A b 0 0 = 3 * Complex.I := by
    unfold ah
    rw [hq0, hA, inner_add_right, inner_smul_right, inner_smul_right, hbb, hbc]
    ring
  have hau : au A b 0 = (5 : ℂ) • c := by
    unfold au
    rw [Finset.sum_range_one, hah, hq0, hA, add_sub_cancel_left]
  have hab : ab A b 0 = 5 := by
    unfold ab
    rw [hau, norm_smul, hc]; norm_num
  have hq1 : aq A b 1 = c := by
    rw [aq_succ, hab, hau, smul_smul]
    norm_num
  rw [hu, hn1] at hinit
  have hv := gV_eq (by left; exact hb) hinit
  have hv2 : (gV A 0 s0).2 = 5 := by rw [hv.1, hab]; norm_num
  have hv1 : (gV A 0 s0).1 = 3 * Complex.I := by
    unfold gV
    dsimp only
    rw [rotateLoop]
    rw [(gArnoldi_h (by left; exact hb) hinit.qs).2.1 0 le_rfl, hah]
  have ht : csqrt ((gV A 0 s0).1 * (gV A 0 s0).1 + (gV A 0 s0).2 * (gV A 0 s0).2) = 4 := by
    rw [hv1, hv2]
    have e : (3 * Complex.I * (3 * Complex.I) + 5 * 5 : ℂ) = ((16 : ℝ) : ℂ) := by
      have := Complex.I_mul_I
      push_cast
      linear_combination 9 * this
    rw [e, csqrt_real (by norm_num)]
    rw [show (16 : ℝ) = 4 * 4 by norm_num, Real.sqrt_mul_self (by norm_num)]
    norm_num
  cases hst : gStep csqrt A ‖b‖ 0 s0 with
  | none =>
    rw [gStep_none_iff, ht] at hst
    norm_num at hst
  | some s1 =>
    obtain ⟨g1, -, g3, -, -, gc, gs, ge⟩ := gStep_some sqrtSpec_csqrt (by left; exact hb) hinit hst
    rw [ht, hv1] at gc
    rw [ht, hv2] at gs
    have he0 : s0.e1 0 = 1 := by
      rw [hs0]
      unfold gInit
      dsimp only
      rw [set1_eq, subVec_eq, hn1]; norm_num
    rw [gs, he0] at ge
    have hd : gDenom ‖b‖ = 1 := by
      unfold gDenom; rw [hb]; simp
    have herr0 : s0.errs = [1] := by
      rw [hs0]
      unfold gInit
      dsimp only
      rw [subVec_eq, hn1, hd]; norm_num
    have herr : s1.errs = [1, 5 / 4] := by
      rw [g3, herr0, ge, hd]
      norm_num
    have hloop : gLoop o csqrt A ‖b‖ o.nMax 0 s0 = some (s1, 1, false) := by
      rw [hm, gLoop, hst]
      dsimp only
      rw [if_neg (by omega)]
      rfl
    have hback : gBacksolve s1.h s1.e1 1 = some (gBackLoop s1.h s1.e1 1 1 fun _ => 0) := by
      unfold gBacksolve
      rw [if_neg]
      rintro ⟨i, hi, h⟩
      exact g1.diag i hi h
    set x' := gUpdate s1.qs (gBackLoop s1.h s1.e1 1 1 fun _ => 0) 0 1 with hx'
    -- the residual
    have hresid : b - A x' = (25 / 16 : ℂ) • b - (15 / 16 * Complex.I) • c := by
      have h := residual_eq g1
      have hx2 : x' = ∑ j ∈ Finset.range 1, gBackLoop s1.h s1.e1 1 1 (fun _ => 0) j • aq A b j := by
        rw [hx', g1.qs, gUpdate_eq _ _ _ _ (by omega), zero_add]
      rw [← hx2] at h
      have e1 : (((1 : ℝ) : ℂ)) • b = b := by norm_num
      have h' : b - A x' = s1.e1 1 • gw A b s1.cosine s1.sine 1 := by
        rw [← h]
        congr 1
        exact e1.symm
      rw [h', ge, gw, gw, hq0, hq1, gc, gs, smul_add, smul_smul, smul_smul, sub_eq_add_neg, ← neg_smul]
      congr 2 <;> ring
    have hnorm : ‖b - A x'‖ = Real.sqrt 850 / 16 := by
      have h2 : ‖b - A x'‖ ^ 2 = 850 / 256 := by
        have h3 := inner_self_eq_norm_sq_to_K (𝕜 := ℂ) (b - A x')
        have hcb : ⟪c, b⟫_ℂ = 0 := inner_eq_zero_symm.1 hbc
        have h4 : ⟪b - A x', b - A x'⟫_ℂ = 850 / 256 := by
          rw [hresid, inner_sub_left, inner_sub_right, inner_sub_right]
          simp only [inner_smul_left, inner_smul_right, hbb, hcc, hbc, hcb, map_mul, map_div₀,
            map_ofNat, Complex.conj_I]
          have := Complex.I_mul_I
          linear_combination (-(225 / 256 : ℂ)) * this
        rw [h4] at h3
        have h5 : ((‖b - A x'‖ ^ 2 : ℝ) : ℂ) = ((850 / 256 : ℝ) : ℂ) := by
          push_cast
          exact h3.symm
        exact_mod_cast h5
      have h6 : (Real.sqrt 850 / 16) ^ 2 = 850 / 256 := by
        rw [div_pow, Real.sq_sqrt (by norm_num)]; norm_num
      rw [← h6] at h2
      exact (sq_eq_sq₀ (norm_nonneg _) (by positivity)).1 h2
    refine ⟨⟨x', Real.sqrt 850 / 16, [[1, 5 / 4], [Real.sqrt 850 / 16]], [1]⟩, ?_, rfl, rfl⟩
    unfold gmresRun
    dsimp only
    rw [← hs0, if_neg (by rw [herr0]; simpa using hres), hrs, gCycles, hloop]
    dsimp only
    rw [hback]
    dsimp only
    rw [if_neg (by simp), gCycles]
    dsimp only
    rw [← hx', if_pos (by rw [hb]; norm_num)]
    have e1 : ‖subVec ℂ (A x') b‖ = Real.sqrt 850 / 16 := by
      rw [subVec_eq, norm_sub_rev, hnorm]
    have e2 : (gInit ‖b‖ (subVec ℂ b (A x')) : GState ℂ E).errs = [Real.sqrt 850 / 16] := by
      unfold gInit
      dsimp only
      rw [subVec_eq, hnorm, hd, div_one]
    rw [e1, e2, herr, hb, div_one]
    rfl

/-- **C50, defect.** For complex vectors the rotations are not unitary: a cycle can *increase* the
residual, and the error it records (5/4) is neither the residual of the solution (√850/16 ≈ 1.82)
nor the minimal one. The operator is invertible. -/
theorem C50_complex_wrong : ∃ (A : EuclideanSpace ℂ (Fin 2) →ₗ[ℂ] EuclideanSpace ℂ (Fin 2))
    (b : EuclideanSpace ℂ (Fin 2)) (R : GResult (EuclideanSpace ℂ (Fin 2))),
    Function.Injective A ∧
    gmresRun { nMin := 5, nMax := 1, restart := 1, res := 1e-8 } csqrt A 0 b = some R ∧
    relRes A b 0 = 1 ∧ 1 < R.rel ∧ R.totalError.getD 0 [] = [1, 5 / 4] ∧ 5 / 4 < R.rel := by
  set A := Matrix.toEuclideanLin !![3 * Complex.I, 0; 5, 1] with hA
  set b : EuclideanSpace ℂ (Fin 2) := EuclideanSpace.single 0 1 with hb
  set c : EuclideanSpace ℂ (Fin 2) := EuclideanSpace.single 1 1 with hc
  have hb1 : ‖b‖ = 1 := by rw [hb, EuclideanSpace.norm_single]; simp
  have hc1 : ‖c‖ = 1 := by rw [hc, EuclideanSpace.norm_single]; simp
  have hbc : ⟪b, c⟫_ℂ = 0 := by rw [hb, hc, EuclideanSpace.inner_single_left]; simp
  have hAb : A b = (3 * Complex.I) • b + (5 : ℂ) • c := by
    rw [hA, hb, hc]
    ext i
    fin_cases i <;> simp [Matrix.toEuclideanLin, Matrix.mulVec, dotProduct, Fin.sum_univ_two]
  obtain ⟨R, h1, h2, h3⟩ := gmres_complex hb1 hc1 hbc hAb (o := { nMin := 5, nMax := 1, restart := 1, res := 1e-8 })
    rfl (by norm_num) rfl (by norm_num)
  have hlt : 5 / 4 < Real.sqrt 850 / 16 := by
    rw [lt_div_iff₀ (by norm_num)]
    exact Real.lt_sqrt_of_sq_lt (by norm_num)
  refine ⟨A, b, R, ?_, h1, ?_, ?_, ?_, ?_⟩
  · rw [injective_iff_map_eq_zero]
    intro v hv
    have h0 := congrArg (fun w : EuclideanSpace ℂ (Fin 2) => w 0) hv
    have h1 := congrArg (fun w : EuclideanSpace ℂ (Fin 2) => w 1) hv
    rw [hA] at h0 h1
    simp [Matrix.toEuclideanLin, Matrix.mulVec, dotProduct, Fin.sum_univ_two] at h0 h1
    ext i
    fin_cases i
    · simpa using h0
    · rw [h0] at h1
      simpa using h1
  · unfold relRes
    have hb0 : b ≠ 0 := by intro h; rw [h, norm_zero] at hb1; norm_num at hb1
    rw [map_zero, sub_zero, if_neg hb0, hb1]; norm_num
  · rw [h2]; linarith
  · rw [h3]; rfl
  · rw [h2]; exact hlt

/-- **C50, defect.** A concrete breakdown, with the default options: `2 x = b`. -/
theorem C50_breakdown_witness {F : Type} [NormedAddCommGroup F] [InnerProductSpace ℝ F] {b : F}
    (hb : b ≠ 0) :
    gmresRun { nMin := 5, nMax := 20, restart := 10, res := 1e-8 } Real.sqrt
      ((2 : ℝ) • LinearMap.id : F →ₗ[ℝ] F) 0 b = none := by
  refine C50_breakdown_fails sqrtSpec_real (d := 1) ?_ (by norm_num) (by norm_num) (by norm_num) ?_
  · apply le_antisymm
    · unfold krylovSpace
      rw [Submodule.span_le]
      rintro _ ⟨k, rfl⟩
      dsimp only
      have hpow : ∀ n : ℕ, ∀ v : F, (((2 : ℝ) • LinearMap.id : F →ₗ[ℝ] F) ^ n) v = (2 : ℝ) ^ n • v := by
        intro n
        induction n with
        | zero => intro v; simp
        | succ n ih =>
          intro v
          rw [pow_succ', Module.End.mul_apply, ih]
          simp [pow_succ', smul_smul, mul_comm]
      rw [hpow]
      refine Submodule.smul_mem _ _ (Submodule.subset_span ⟨0, ?_⟩)
      simp
    · exact krylov_mono _ _ (by omega)
  · unfold relRes
    rw [map_zero, sub_zero, if_neg hb, div_self (norm_ne_zero_iff.2 hb)]
    norm_num

/-- A run that succeeds: any injective operator, `N_min = 0`. -/
example {F : Type} [NormedAddCommGroup F] [InnerProductSpace ℝ F] {b : F} (hb : b ≠ 0) :
    ∃ R, gmresRun { nMin := 0, nMax := 20, restart := 1, res := 1e-8 } Real.sqrt
      ((2 : ℝ) • LinearMap.id : F →ₗ[ℝ] F) 0 b = some R := by
  rw [← Option.isSome_iff_exists, Option.isSome_iff_ne_none]
  intro h
  obtain ⟨te, ti, xf, d, h1, -, h3, h4, -, h6⟩ := C50_fails_only sqrtSpec_real realSqrt_real
    (realHessenberg_real _) (by
      intro v w h
      have h' : (2 : ℝ) • v = (2 : ℝ) • w := h
      exact smul_right_injective F (by norm_num : (2 : ℝ) ≠ 0) h') (by norm_num) h
  have hti : ti = [] := List.length_eq_zero_iff.1 (by simpa using h3)
  subst hti
  cases h1
  have hd : d = 0 := by simpa using h4
  subst hd
  have : b ∈ krylovSpace ((2 : ℝ) • LinearMap.id : F →ₗ[ℝ] F)
      (b - ((2 : ℝ) • LinearMap.id : F →ₗ[ℝ] F) 0) 1 := by
    have := krylov_pow_mem ((2 : ℝ) • LinearMap.id : F →ₗ[ℝ] F)
      (b - ((2 : ℝ) • LinearMap.id : F →ₗ[ℝ] F) 0) (N := 1) (k := 0) (by omega)
    simpa using this
  rw [h6] at this
  unfold krylovSpace at this
  simp at this
  exact hb this

end Cyten.Props
