import Verif.Props.Lanczos2
import Mathlib.Analysis.Normed.Algebra.Exponential
import Mathlib.Analysis.SpecialFunctions.Exponential
import Mathlib.Analysis.InnerProductSpace.Projection.Basic
import Mathlib.Topology.Algebra.Module.FiniteDimension

/-!
C52: `LanczosEvolution`.

In exact arithmetic, for a Hermitian operator `H`, the result of `run(delta)` is
`exp(delta * H_K) psi0` where `H_K` is the compression of `H` to the Krylov space `K` of the `N`
steps performed; it is `exp(delta * H) psi0` once the Krylov space is invariant.
-/

namespace Cyten.Props

open Cyten.Sparse Cyten.Krylov
open scoped InnerProductSpace

variable {E : Type} [NormedAddCommGroup E] [InnerProductSpace ℂ E]

/-! ### Specification -/

instance krylov_finite (H : E →ₗ[ℂ] E) (psi : E) (N : ℕ) :
    FiniteDimensional ℂ (krylovSpace H psi N) :=
  FiniteDimensional.span_of_finite ℂ (Set.finite_range _)

/-- The compression of `H` to a subspace: apply `H`, then project back orthogonally. -/
noncomputable def compress (H : E →ₗ[ℂ] E) (K : Submodule ℂ E) [FiniteDimensional ℂ K] :
    K →L[ℂ] K :=
  LinearMap.toContinuousLinearMap (K.orthogonalProjectionOnto.toLinearMap ∘ₗ H ∘ₗ K.subtype)

/-- `exp(A) x`, with the exponential series of Mathlib. -/
noncomputable def expApply {F : Type} [NormedAddCommGroup F] [NormedSpace ℂ F] (A : F →L[ℂ] F)
    (x : F) : F := NormedSpace.exp A x

/-- `exp(delta * H_K) psi` for the compression `H_K` of `H` to a subspace that contains `psi`. -/
noncomputable def evolved (H : E →ₗ[ℂ] E) (K : Submodule ℂ E) [FiniteDimensional ℂ K] (delta : ℂ)
    (psi : K) : E := (expApply (F := K) (delta • compress H K) psi : K)

/-! ### Exponentials and eigenvectors -/

theorem exp_eigenvector {F : Type} [NormedAddCommGroup F] [NormedSpace ℂ F] [CompleteSpace F]
    (A : F →L[ℂ] F) (c : ℂ) (x : F) (h : A x = c • x) :
    expApply A x = Complex.exp c • x := by
  unfold expApply
  have hpow : ∀ n : ℕ, (A ^ n) x = c ^ n • x := by
    intro n
    induction n with
    | zero => simp
    | succ n ih => rw [pow_succ', ContinuousLinearMap.mul_apply, ih, map_smul, h, smul_smul, pow_succ]
  have h1 := NormedSpace.exp_series_hasSum_exp' (𝕂 := ℂ) A
  have h2 := (ContinuousLinearMap.apply ℂ F x).hasSum h1
  have h3 := NormedSpace.exp_series_hasSum_exp' (𝕂 := ℂ) c
  have h4 : HasSum (fun n : ℕ => ((n.factorial : ℂ)⁻¹ • c ^ n) • x) (NormedSpace.exp c • x) :=
    h3.smul_const x
  have h5 : HasSum (fun n : ℕ => ((n.factorial : ℂ)⁻¹ • A ^ n) x) (NormedSpace.exp A x) := h2
  have h6 : (fun n : ℕ => ((n.factorial : ℂ)⁻¹ • A ^ n) x) =
      fun n : ℕ => ((n.factorial : ℂ)⁻¹ • c ^ n) • x := by
    funext n
    simp [hpow, smul_smul]
  rw [h6] at h5
  rw [Complex.exp_eq_exp_ℂ]
  exact h5.unique h4

theorem expApply_sum {F : Type} [NormedAddCommGroup F] [NormedSpace ℂ F]
    (A : F →L[ℂ] F) {n : ℕ} (d : Fin n → ℂ) (x : Fin n → F) :
    expApply A (∑ a, d a • x a) = ∑ a, d a • expApply A (x a) := by
  unfold expApply
  rw [map_sum]
  exact Finset.sum_congr rfl fun a _ => map_smul _ _ _

theorem compress_eigenvector {H : E →ₗ[ℂ] E} {K : Submodule ℂ E} [FiniteDimensional ℂ K] {e : ℂ}
    {r : E} (hr : r ∈ K) (hg : ∀ φ ∈ K, ⟪φ, H r - e • r⟫_ℂ = 0) :
    compress H K ⟨r, hr⟩ = e • ⟨r, hr⟩ := by
  apply Subtype.ext
  show (K.orthogonalProjectionOnto (H r) : E) = e • r
  refine Submodule.eq_starProjection_of_mem_of_inner_eq_zero (K.smul_mem _ hr) ?_
  intro φ hφ
  have := hg φ hφ
  rw [← inner_conj_symm, this, map_zero]

section
variable {H : E →ₗ[ℂ] E} {psi0 : E} {N : ℕ} {ev : Fin N → ℝ} {V : Fin N → Fin N → ℝ}

/-- the evolved normalised vector in the Ritz basis -/
noncomputable def ritzEvolved (H : E →ₗ[ℂ] E) (q0 : E) (delta : ℂ) {N : ℕ} (ev : Fin N → ℝ)
    (V : Fin N → Fin N → ℝ) (hN : 0 < N) : E :=
  ∑ c, (Complex.exp ((ev c : ℂ) * delta) * (V ⟨0, hN⟩ c : ℂ)) • ritz ℂ (lfam H q0 N) V c

/-- its coefficients with respect to the Lanczos vectors -/
noncomputable def evoCoeff (delta : ℂ) {N : ℕ} (ev : Fin N → ℝ)
    (V : Fin N → Fin N → ℝ) (hN : 0 < N) (i : Fin N) : ℂ :=
  ∑ c, ((V i c : ℝ) : ℂ) * (Complex.exp ((ev c : ℂ) * delta) * (V ⟨0, hN⟩ c : ℂ))

theorem sum_evoCoeff (q0 : E) (delta : ℂ) (hN : 0 < N) :
    ∑ i, evoCoeff delta ev V hN i • lfam H q0 N i = ritzEvolved H q0 delta ev V hN := by
  unfold evoCoeff ritzEvolved ritz
  simp only [Finset.sum_smul, Finset.smul_sum, smul_smul]
  rw [Finset.sum_comm]
  refine Finset.sum_congr rfl fun c _ => Finset.sum_congr rfl fun i _ => ?_
  congr 1
  exact mul_comm _ _

theorem norm_sq_orthonormal_sum {n : ℕ} {q : Fin n → E} (hq : Orthonormal ℂ q) (d : Fin n → ℂ) :
    ‖∑ i, d i • q i‖ ^ 2 = ∑ i, ‖d i‖ ^ 2 := by
  have h1 := hq.inner_sum d d Finset.univ
  have h2 := congrArg RCLike.re h1
  rw [inner_self_eq_norm_sq] at h2
  rw [h2, map_sum]
  refine Finset.sum_congr rfl fun a _ => ?_
  rw [RCLike.conj_mul, ← RCLike.ofReal_pow, RCLike.ofReal_re]

theorem ritzEvolved_ne (hs : H.IsSymmetric) (h0 : psi0 ≠ 0) (hN : 0 < N)
    (hb : ∀ i, i < N - 1 → lb H (unit0 ℂ psi0) i ≠ 0)
    (hV : SmallEig H (unit0 ℂ psi0) N ev V) (delta : ℂ) :
    ‖ritzEvolved H (unit0 ℂ psi0) delta ev V hN‖ ≠ 0 := by
  have ho := lortho hs (unit0_norm (𝕜 := ℂ) h0) (N - 1) hb
  have hq : Orthonormal ℂ (lfam H (unit0 ℂ psi0) N) := lq_orthonormal (by omega) ho
  have hr := ritz_orthonormal hq hV.orth
  have h1 := norm_sq_orthonormal_sum hr fun c =>
    Complex.exp ((ev c : ℂ) * delta) * (V ⟨0, hN⟩ c : ℂ)
  intro h
  have h2 : ‖ritzEvolved H (unit0 ℂ psi0) delta ev V hN‖ ^ 2 = 0 := by rw [h]; simp
  unfold ritzEvolved at h2
  rw [h1, Finset.sum_eq_zero_iff_of_nonneg (fun _ _ => by positivity)] at h2
  have h3 := complete_of_orth hV.orth ⟨0, hN⟩ ⟨0, hN⟩
  rw [if_pos rfl] at h3
  have h4 : ∑ a, V ⟨0, hN⟩ a * V ⟨0, hN⟩ a = 0 := by
    refine Finset.sum_eq_zero fun a ha => ?_
    have := h2 a ha
    simp only [norm_mul, ne_eq, OfNat.ofNat_ne_zero, not_false_eq_true, pow_eq_zero_iff,
      mul_eq_zero, norm_eq_zero, Complex.exp_ne_zero, false_or, Complex.ofReal_eq_zero] at this
    rw [this, mul_zero]
  rw [h4] at h3
  exact zero_ne_one h3

theorem krylov_self_mem (H : E →ₗ[ℂ] E) (psi0 : E) (hN : 0 < N) : psi0 ∈ krylovSpace H psi0 N := by
  simpa using krylov_pow_mem H psi0 (N := N) (k := 0) hN

theorem psi0_eq_unit0 (psi0 : E) : psi0 = ((‖psi0‖ : ℝ) : ℂ) • unit0 ℂ psi0 := by
  by_cases h : psi0 = 0
  · rw [h]; simp [unit0]
  · unfold unit0
    rw [smul_smul]
    have : ((‖psi0‖ : ℝ) : ℂ) * ((1 / ‖psi0‖ : ℝ) : ℂ) = 1 := by
      rw [← Complex.ofReal_mul, mul_one_div_cancel (norm_ne_zero_iff.2 h)]; simp
    erw [this]
    simp

theorem unit0_eq_ritz (hN : 0 < N) (hV : SmallEig H (unit0 ℂ psi0) N ev V) :
    unit0 ℂ psi0 = ∑ c, ((V ⟨0, hN⟩ c : ℝ) : ℂ) • ritz ℂ (lfam H (unit0 ℂ psi0) N) V c :=
  q_eq_sum_ritz (𝕜 := ℂ) (q := lfam H (unit0 ℂ psi0) N) hV.orth ⟨0, hN⟩

theorem evolved_eq (hs : H.IsSymmetric) (h0 : psi0 ≠ 0) (hN : 0 < N)
    (hb : ∀ i, i < N - 1 → lb H (unit0 ℂ psi0) i ≠ 0)
    (hV : SmallEig H (unit0 ℂ psi0) N ev V) (delta : ℂ) :
    evolved H (krylovSpace H psi0 N) delta ⟨psi0, krylov_self_mem H psi0 hN⟩ =
      ((‖psi0‖ : ℝ) : ℂ) • ritzEvolved H (unit0 ℂ psi0) delta ev V hN := by
  have ho := lortho hs (unit0_norm (𝕜 := ℂ) h0) (N - 1) hb
  have hq : Orthonormal ℂ (lfam H (unit0 ℂ psi0) N) := lq_orthonormal (by omega) ho
  have hsp : Submodule.span ℂ (Set.range (lfam H (unit0 ℂ psi0) N)) = krylovSpace H psi0 N :=
    span_lq h0 N
  have hT : ∀ i j : Fin N, ⟪lfam H (unit0 ℂ psi0) N i, H (lfam H (unit0 ℂ psi0) N j)⟫_ℂ =
      ((ltri H (unit0 ℂ psi0) N (i : ℕ) (j : ℕ) : ℝ) : ℂ) := by
    intro i j
    have := inner_lq_H hs ho hb i j (by omega) (by omega)
    rw [show N - 1 + 1 = N by omega] at this
    exact this
  have hmem : ∀ c, ritz ℂ (lfam H (unit0 ℂ psi0) N) V c ∈ krylovSpace H psi0 N := fun c => by
    rw [← hsp]; exact ritz_mem _
  have heig : ∀ c, (delta • compress H (krylovSpace H psi0 N)) ⟨_, hmem c⟩ =
      ((ev c : ℂ) * delta) • (⟨_, hmem c⟩ : krylovSpace H psi0 N) := by
    intro c
    rw [ContinuousLinearMap.smul_apply, compress_eigenvector (hmem c) (e := (ev c : ℂ)) ?_,
      smul_smul, mul_comm]
    intro φ hφ
    exact ritz_galerkin hq hT hV.eig c (by rw [hsp]; exact hφ)
  have hpsi : (⟨psi0, krylov_self_mem H psi0 hN⟩ : krylovSpace H psi0 N) =
      ∑ c, (((‖psi0‖ : ℝ) : ℂ) * ((V ⟨0, hN⟩ c : ℝ) : ℂ)) •
        (⟨_, hmem c⟩ : krylovSpace H psi0 N) := by
    apply Subtype.ext
    rw [Submodule.coe_sum]
    simp only [Submodule.coe_smul]
    conv_lhs => rw [psi0_eq_unit0 psi0, unit0_eq_ritz hN hV]
    rw [Finset.smul_sum]
    simp only [smul_smul]
  unfold evolved
  rw [hpsi, expApply_sum]
  simp only [exp_eigenvector _ _ _ (heig _)]
  rw [Submodule.coe_sum]
  unfold ritzEvolved
  rw [Finset.smul_sum]
  refine Finset.sum_congr rfl fun c _ => ?_
  simp only [Submodule.coe_smul, smul_smul]
  congr 1
  ring

theorem evoCalc_vf (eigh : Eigh) (delta : ℂ) (hs : H.IsSymmetric) (h0 : psi0 ≠ 0) (hN : 0 < N)
    (hb : ∀ i, i < N - 1 → lb H (unit0 ℂ psi0) i ≠ 0) :
    (evoCalc eigh delta (N - 1) (lmid H (unit0 ℂ psi0) (N - 1))).2.1.length = N ∧
    (evoCalc eigh delta (N - 1) (lmid H (unit0 ℂ psi0) (N - 1))).2.2 =
      ‖ritzEvolved H (unit0 ℂ psi0) delta (smallEv eigh H (unit0 ℂ psi0) N)
        (smallV eigh H (unit0 ℂ psi0) N) hN‖ ∧
    ∀ i : Fin N, (evoCalc eigh delta (N - 1) (lmid H (unit0 ℂ psi0) (N - 1))).2.1.getD i 0 =
      evoCoeff delta (smallEv eigh H (unit0 ℂ psi0) N) (smallV eigh H (unit0 ℂ psi0) N) hN i /
        ((‖ritzEvolved H (unit0 ℂ psi0) delta (smallEv eigh H (unit0 ℂ psi0) N)
        (smallV eigh H (unit0 ℂ psi0) N) hN‖ : ℝ) : ℂ) := by
  have ho := lortho hs (unit0_norm (𝕜 := ℂ) h0) (N - 1) hb
  have hq : Orthonormal ℂ (lfam H (unit0 ℂ psi0) N) := lq_orthonormal (by omega) ho
  have hn : ∀ y : Fin N → ℂ, (∀ i, y i = evoCoeff delta (smallEv eigh H (unit0 ℂ psi0) N)
      (smallV eigh H (unit0 ℂ psi0) N) hN i) → Real.sqrt (∑ i, ‖y i‖ ^ 2) =
      ‖ritzEvolved H (unit0 ℂ psi0) delta (smallEv eigh H (unit0 ℂ psi0) N)
        (smallV eigh H (unit0 ℂ psi0) N) hN‖ := by
    intro y hy
    rw [← sum_evoCoeff, ← norm_sq_orthonormal_sum hq, Real.sqrt_sq (norm_nonneg _)]
    simp only [hy]
  by_cases h : N = 1
  · subst h
    have hy : ∀ i : Fin 1, Complex.exp (delta * (lmid H (unit0 ℂ psi0) 0 0 0 : ℂ)) =
        evoCoeff delta (smallEv eigh H (unit0 ℂ psi0) 1) (smallV eigh H (unit0 ℂ psi0) 1) hN i := by
      intro i
      simp [evoCoeff, smallEv, smallV, lmid, set2, mul_comm]
    have hn' := hn (fun _ => Complex.exp (delta * (lmid H (unit0 ℂ psi0) 0 0 0 : ℂ))) hy
    simp only [Finset.univ_unique, Fin.default_eq_zero, Finset.sum_const, Finset.card_singleton,
      one_smul, Real.sqrt_sq (norm_nonneg _)] at hn'
    rw [← hn']
    refine ⟨rfl, rfl, fun i => ?_⟩
    rw [← hy i]
    have hi : i = 0 := Subsingleton.elim _ _
    subst hi
    rfl
  · have e1 : N - 1 + 1 = N := by omega
    unfold evoCalc
    rw [if_neg (by omega)]
    dsimp only
    rw [e1]
    set y : ℕ → ℂ := fun i => ∑ c ∈ Finset.range N,
      (((eigh N (lmid H (unit0 ℂ psi0) (N - 1))).2 i c : ℝ) : ℂ) *
      (Complex.exp ((((eigh N (lmid H (unit0 ℂ psi0) (N - 1))).1 c : ℝ) : ℂ) * delta) *
        starRingEnd ℂ (((eigh N (lmid H (unit0 ℂ psi0) (N - 1))).2 0 c : ℝ) : ℂ)) with hydef
    have hy : ∀ i : Fin N, y i = evoCoeff delta (smallEv eigh H (unit0 ℂ psi0) N)
        (smallV eigh H (unit0 ℂ psi0) N) hN i := by
      intro i
      rw [hydef]
      dsimp only
      rw [Finset.sum_range]
      unfold evoCoeff smallEv smallV
      simp only [if_neg h, Complex.conj_ofReal]
    have hn' := hn (fun i => y i) hy
    rw [Finset.sum_range, hn']
    refine ⟨by simp, rfl, fun i => ?_⟩
    rw [List.getD_eq_getElem?_getD, List.getElem?_map, List.getElem?_range i.2, ← hy i]
    rfl

/-- The result of a run in terms of the Lanczos recurrence. -/
theorem evolveRun_post {o : Options} {eigh : Eigh} (hs : H.IsSymmetric) (he : EighSpec eigh)
    (hn : 2 ≤ o.nCache) (hm : 1 ≤ o.nMax) (hc : 0 < o.cutoff) {obj obj' : EvoObj E} {delta : ℂ}
    {nrm : Option Bool} {res : E}
    (hr : evolveRun o eigh H obj delta nrm = some (res, N, obj')) :
    obj.psi0 ≠ 0 ∧ N ≤ o.nMax ∧ (∀ i, i < N - 1 → lb H (unit0 ℂ obj.psi0) i ≠ 0) ∧
    obj' = ⟨unit0 ℂ obj.psi0, some (obj.psi0Norm.getD ‖obj.psi0‖)⟩ ∧
    ∃ hN : 0 < N, ∃ Z : E, Z = ritzEvolved H (unit0 ℂ obj.psi0) delta
        (smallEv eigh H (unit0 ℂ obj.psi0) N) (smallV eigh H (unit0 ℂ obj.psi0) N) hN ∧ ‖Z‖ ≠ 0 ∧
      res = (if nrm.getD (decide (delta.re = 0)) then ((1 / ‖Z‖ : ℝ) : ℂ) • Z
        else ((obj.psi0Norm.getD ‖obj.psi0‖ : ℝ) : ℂ) • Z) ∧
      ∃ s : LState ℂ E, LPost H (unit0 ℂ obj.psi0) o (evoKind o eigh delta) (N - 1) s ∧
        (N = o.nMax ∨ lanczosStop o (evoKind o eigh delta) (N - 1) s) := by
  unfold evolveRun at hr
  cases hb : lanczosBuild o (evoKind o eigh delta) H obj.psi0 with
  | none => rw [hb] at hr; simp at hr
  | some r =>
    obtain ⟨q, s, N'⟩ := r
    rw [hb] at hr
    obtain ⟨-, h2, h3, h4, h5, h6, h7⟩ := lanczosBuild_post hs hn hm hc hb
    subst h3
    dsimp only at hr
    rw [Option.map_eq_some_iff] at hr
    obtain ⟨r, hfull, hr⟩ := hr
    simp only [Prod.mk.injEq] at hr
    obtain ⟨hr1, rfl, hr3⟩ := hr
    have hev := evoCalc_vf eigh delta hs h2 h4 h6.lb_ne
    have hV := smallEig_of_spec he H (unit0 ℂ obj.psi0) h4
    set Z := ritzEvolved H (unit0 ℂ obj.psi0) delta
        (smallEv eigh H (unit0 ℂ obj.psi0) N') (smallV eigh H (unit0 ℂ obj.psi0) N') h4 with hZ
    have hZn : ‖Z‖ ≠ 0 := ritzEvolved_ne hs h2 h4 h6.lb_ne hV delta
    have hsn : s.resultNorm = ‖Z‖ := by rw [h6.resultNorm]; exact hev.2.1
    have hsum : ∑ k ∈ Finset.range N', s.vf.getD k 0 • lq H (unit0 ℂ obj.psi0) k =
        ((1 / ‖Z‖ : ℝ) : ℂ) • Z := by
      rw [Finset.sum_range]
      have hZs : Z = _ := hZ.trans (sum_evoCoeff _ _ _).symm
      conv_rhs => enter [2]; rw [hZs]
      rw [Finset.smul_sum]
      refine Finset.sum_congr rfl fun i _ => ?_
      rw [h6.vf, smul_smul]
      have := hev.2.2 i
      rw [show (evoKind o eigh delta).calcResult = evoCalc eigh delta from rfl, this]
      congr 1
      rw [one_div, Complex.ofReal_inv, div_eq_mul_inv, mul_comm]
    have hr' : r = ((1 / ‖Z‖ : ℝ) : ℂ) • Z := by
      by_cases hN1 : N' = 1
      · rw [if_pos hN1] at hfull
        subst hN1
        rw [← hsum]
        simpa [lq_zero] using hfull.symm
      · rw [if_neg hN1] at hfull
        have hlen : s.vf.length = N' := by rw [h6.vf]; exact hev.1
        unfold calcResultFull at hfull
        rw [if_pos ⟨hlen.symm, by omega⟩] at hfull
        dsimp only at hfull
        rw [calcResultRaw_eq hs (unit0_norm (𝕜 := ℂ) h2) hn _ N' (by omega) s h6, hsum] at hfull
        have hn1 : ‖((1 / ‖Z‖ : ℝ) : ℂ) • Z‖ = 1 := by
          rw [norm_smul, Complex.norm_real, Real.norm_of_nonneg (by positivity)]
          field_simp
        rw [hn1] at hfull
        simpa using hfull.symm
    refine ⟨h2, h5, h6.lb_ne, hr3.symm, h4, Z, rfl, hZn, ?_, s, h6, h7⟩
    rw [← hr1, hr', hsn]
    split_ifs with hc'
    · rfl
    · rw [smul_smul]
      congr 1
      rw [← Complex.ofReal_mul]
      congr 1
      field_simp

end

/-! ### The theorems -/

section
variable {H : E →ₗ[ℂ] E} {psi0 : E} {o : Options} {eigh : Eigh}

/-- A new object. -/
def evoNew (psi0 : E) : EvoObj E := ⟨psi0, none⟩

/-- **C52.** Without normalisation, the result of a run on a new object is `exp(delta * H_K) psi0`,
`H_K` the compression of the operator to the Krylov space of dimension `N ≤ N_max`; with
normalisation it is that vector divided by its norm. This holds for every cache size the
constructor accepts and with or without reorthogonalisation. -/
theorem C52_evolution (hs : H.IsSymmetric) (he : EighSpec eigh) (hn : 2 ≤ o.nCache)
    (hm : 1 ≤ o.nMax) (hc : 0 < o.cutoff) {delta : ℂ} {nrm : Option Bool} {res : E} {N : ℕ}
    {obj' : EvoObj E}
    (hr : evolveRun o eigh H (evoNew psi0) delta nrm = some (res, N, obj')) :
    N ≤ o.nMax ∧ ∃ hN : 0 < N, ∃ psit : E,
      psit = evolved H (krylovSpace H psi0 N) delta ⟨psi0, krylov_self_mem H psi0 hN⟩ ∧ psit ≠ 0 ∧
      res = if nrm.getD (decide (delta.re = 0)) then ((1 / ‖psit‖ : ℝ) : ℂ) • psit else psit := by
  obtain ⟨h0, h1, hb, -, hN, Z, hZ, hZn, hres, -⟩ := evolveRun_post hs he hn hm hc hr
  have hev := evolved_eq hs h0 hN hb (smallEig_of_spec he H (unit0 ℂ psi0) hN) delta
  have hp : ‖psi0‖ ≠ 0 := norm_ne_zero_iff.2 h0
  have hev' : evolved H (krylovSpace H psi0 N) delta ⟨psi0, krylov_self_mem H psi0 hN⟩ =
      ((‖psi0‖ : ℝ) : ℂ) • Z := by rw [hZ]; exact hev
  refine ⟨h1, hN, _, rfl, ?_, ?_⟩
  · rw [hev', ← norm_ne_zero_iff, norm_smul, Complex.norm_real, norm_norm]
    exact mul_ne_zero hp hZn
  · rw [hres, hev']
    show (if _ then _ else ((‖psi0‖ : ℝ) : ℂ) • Z) = _
    split_ifs with h
    · rw [norm_smul, Complex.norm_real, norm_norm, smul_smul]
      congr 1
      rw [← Complex.ofReal_mul]
      congr 1
      field_simp
    · rfl

/-- **C52.** A run raises exactly when the norm of the starting vector is below the cutoff. -/
theorem C52_succeeds (hs : H.IsSymmetric) (hn : 2 ≤ o.nCache) (hm : 1 ≤ o.nMax) (hc : 0 < o.cutoff)
    (obj : EvoObj E) (delta : ℂ) (nrm : Option Bool) :
    (evolveRun o eigh H obj delta nrm).isSome ↔ o.cutoff ≤ ‖obj.psi0‖ := by
  constructor
  · intro h
    by_contra hb
    rw [not_le] at hb
    unfold evolveRun lanczosBuild at h
    dsimp only at h
    rw [if_pos hb] at h
    simp at h
  · intro hb
    unfold evolveRun
    cases hbd : lanczosBuild o (evoKind o eigh delta) H obj.psi0 with
    | none =>
      unfold lanczosBuild at hbd
      dsimp only at hbd
      rw [if_neg (not_lt.2 hb)] at hbd
      simp at hbd
    | some r =>
      obtain ⟨q, s, N⟩ := r
      obtain ⟨-, h2, -, h4, h5, h6, -⟩ := lanczosBuild_post hs hn hm hc hbd
      dsimp only
      rw [Option.isSome_map]
      by_cases hN : N = 1
      · rw [if_pos hN]; rfl
      · rw [if_neg hN]
        have hlen : s.vf.length = N := by
          rw [h6.vf]; exact (evoCalc_vf eigh delta hs h2 h4 h6.lb_ne).1
        unfold calcResultFull
        rw [if_pos ⟨hlen.symm, by omega⟩]
        rfl

/-- **C52.** Once the Krylov space is invariant under the operator the result is the exact
`exp(delta * H) psi0`. -/
theorem C52_exact [CompleteSpace E] {Hc : E →L[ℂ] E} (hs : Hc.toLinearMap.IsSymmetric)
    (he : EighSpec eigh)
    (hn : 2 ≤ o.nCache) (hm : 1 ≤ o.nMax) (hc : 0 < o.cutoff) {delta : ℂ} {res : E} {N : ℕ}
    {obj' : EvoObj E}
    (hr : evolveRun o eigh Hc (evoNew psi0) delta (some false) = some (res, N, obj'))
    (hinv : krylovSpace Hc.toLinearMap psi0 (N + 1) = krylovSpace Hc.toLinearMap psi0 N) :
    res = expApply (delta • Hc) psi0 := by
  have hr' : evolveRun o eigh Hc.toLinearMap (evoNew psi0) delta (some false) =
    some (res, N, obj') := hr
  obtain ⟨h0, h1, hb, -, hN, Z, hZ, hZn, hres, -⟩ := evolveRun_post hs he hn hm hc hr'
  have hV := smallEig_of_spec he Hc.toLinearMap (unit0 ℂ psi0) hN
  have ho := lortho hs (unit0_norm (𝕜 := ℂ) h0) (N - 1) hb
  have hq : Orthonormal ℂ (lfam Hc.toLinearMap (unit0 ℂ psi0) N) := lq_orthonormal (by omega) ho
  have hsp : Submodule.span ℂ (Set.range (lfam Hc.toLinearMap (unit0 ℂ psi0) N)) =
      krylovSpace Hc.toLinearMap psi0 N := span_lq h0 N
  have hT : ∀ i j : Fin N, ⟪lfam Hc.toLinearMap (unit0 ℂ psi0) N i,
      Hc.toLinearMap (lfam Hc.toLinearMap (unit0 ℂ psi0) N j)⟫_ℂ =
      ((ltri Hc.toLinearMap (unit0 ℂ psi0) N (i : ℕ) (j : ℕ) : ℝ) : ℂ) := by
    intro i j
    have := inner_lq_H hs ho hb i j (by omega) (by omega)
    rw [show N - 1 + 1 = N by omega] at this
    exact this
  have heig : ∀ c, (delta • Hc) (ritz ℂ (lfam Hc.toLinearMap (unit0 ℂ psi0) N)
      (smallV eigh Hc.toLinearMap (unit0 ℂ psi0) N) c) =
      ((smallEv eigh Hc.toLinearMap (unit0 ℂ psi0) N c : ℂ) * delta) •
        ritz ℂ (lfam Hc.toLinearMap (unit0 ℂ psi0) N)
          (smallV eigh Hc.toLinearMap (unit0 ℂ psi0) N) c := by
    intro c
    have hmem : ritz ℂ (lfam Hc.toLinearMap (unit0 ℂ psi0) N)
        (smallV eigh Hc.toLinearMap (unit0 ℂ psi0) N) c ∈ krylovSpace Hc.toLinearMap psi0 N := by
      rw [← hsp]; exact ritz_mem _
    have hd : Hc.toLinearMap (ritz ℂ (lfam Hc.toLinearMap (unit0 ℂ psi0) N)
        (smallV eigh Hc.toLinearMap (unit0 ℂ psi0) N) c) -
        (smallEv eigh Hc.toLinearMap (unit0 ℂ psi0) N c : ℂ) •
        ritz ℂ (lfam Hc.toLinearMap (unit0 ℂ psi0) N)
          (smallV eigh Hc.toLinearMap (unit0 ℂ psi0) N) c ∈ krylovSpace Hc.toLinearMap psi0 N := by
      refine Submodule.sub_mem _ ?_ (Submodule.smul_mem _ _ hmem)
      rw [← hinv]
      exact krylov_map _ _ hmem
    have hz := ritz_galerkin hq hT hV.eig c (by rw [hsp]; exact hd)
    have hz' := sub_eq_zero.1 (inner_self_eq_zero.1 hz)
    rw [ContinuousLinearMap.smul_apply]
    have : Hc (ritz ℂ (lfam Hc.toLinearMap (unit0 ℂ psi0) N)
        (smallV eigh Hc.toLinearMap (unit0 ℂ psi0) N) c) = _ := hz'
    rw [this, smul_smul, mul_comm]
  have hZ' : Z = ritzEvolved Hc.toLinearMap (unit0 ℂ psi0) delta
    (smallEv eigh Hc.toLinearMap (unit0 ℂ psi0) N) (smallV eigh Hc.toLinearMap (unit0 ℂ psi0) N) hN :=
    hZ
  rw [hres]
  simp only [Option.getD_some, Bool.false_eq_true, if_false]
  conv_rhs => rw [psi0_eq_unit0 psi0, unit0_eq_ritz hN hV, Finset.smul_sum]
  simp only [smul_smul]
  rw [expApply_sum]
  simp only [exp_eigenvector _ _ _ (heig _)]
  rw [hZ']
  unfold ritzEvolved
  show ((‖psi0‖ : ℝ) : ℂ) • _ = _
  rw [Finset.smul_sum]
  refine Finset.sum_congr rfl fun c _ => ?_
  rw [smul_smul, smul_smul]
  congr 1
  ring

/-- **C52.** For an imaginary `delta` (real time) a run without normalisation conserves the norm. -/
theorem C52_unitary (hs : H.IsSymmetric) (he : EighSpec eigh) (hn : 2 ≤ o.nCache)
    (hm : 1 ≤ o.nMax) (hc : 0 < o.cutoff) {delta : ℂ} (hd : delta.re = 0) {res : E} {N : ℕ}
    {obj' : EvoObj E}
    (hr : evolveRun o eigh H (evoNew psi0) delta (some false) = some (res, N, obj')) :
    ‖res‖ = ‖psi0‖ := by
  obtain ⟨h0, h1, hb, -, hN, Z, hZ, hZn, hres, -⟩ := evolveRun_post hs he hn hm hc hr
  have hV := smallEig_of_spec he H (unit0 ℂ psi0) hN
  have ho := lortho hs (unit0_norm (𝕜 := ℂ) h0) (N - 1) hb
  have hq : Orthonormal ℂ (lfam H (unit0 ℂ psi0) N) := lq_orthonormal (by omega) ho
  have hro := ritz_orthonormal hq hV.orth
  have hZ' : Z = ritzEvolved H (unit0 ℂ psi0) delta (smallEv eigh H (unit0 ℂ psi0) N)
    (smallV eigh H (unit0 ℂ psi0) N) hN := hZ
  have hZ1 : ‖Z‖ ^ 2 = 1 := by
    rw [hZ']
    unfold ritzEvolved
    rw [norm_sq_orthonormal_sum hro]
    have h3 := complete_of_orth hV.orth ⟨0, hN⟩ ⟨0, hN⟩
    rw [if_pos rfl] at h3
    rw [← h3]
    refine Finset.sum_congr rfl fun c _ => ?_
    rw [norm_mul, Complex.norm_exp, Complex.norm_real]
    have : (((smallEv eigh H (unit0 ℂ psi0) N c : ℝ) : ℂ) * delta).re = 0 := by
      simp [hd]
    rw [this, Real.exp_zero, one_mul, Real.norm_eq_abs, sq_abs, pow_two]
  have hZ2 : ‖Z‖ = 1 := by nlinarith [norm_nonneg Z]
  rw [hres]
  simp only [Option.getD_some, Bool.false_eq_true, if_false]
  show ‖((‖psi0‖ : ℝ) : ℂ) • Z‖ = _
  rw [norm_smul, Complex.norm_real, norm_norm, hZ2, mul_one]

/-- **C52.** If the iteration stops before `N_max` steps, either applying the operator leaves the
Krylov space by less than the cutoff, or the (normalised) result is closer than `P_tol` to the
Krylov space of one step less. -/
theorem C52_early_stop (hs : H.IsSymmetric) (he : EighSpec eigh) (hn : 2 ≤ o.nCache)
    (hm : 1 ≤ o.nMax) (hc : 0 < o.cutoff) {delta : ℂ} {res : E} {N : ℕ}
    {obj' : EvoObj E}
    (hr : evolveRun o eigh H (evoNew psi0) delta (some true) = some (res, N, obj'))
    (hN : N < o.nMax) :
    (∀ x ∈ krylovSpace H psi0 N, ∃ y ∈ krylovSpace H psi0 N, ‖H x - y‖ ≤ o.cutoff * ‖x‖) ∨
    (o.nMin ≤ N ∧ ∃ y ∈ krylovSpace H psi0 (N - 1), ‖res - y‖ < o.pTol) := by
  obtain ⟨h0, h1, hb, -, hN0, Z, hZ, hZn, hres, s, hp, hst⟩ := evolveRun_post hs he hn hm hc hr
  have ho := lortho hs (unit0_norm (𝕜 := ℂ) h0) (N - 1) hb
  have hq : Orthonormal ℂ (lfam H (unit0 ℂ psi0) N) := lq_orthonormal (by omega) ho
  have hsp : Submodule.span ℂ (Set.range (lfam H (unit0 ℂ psi0) N)) = krylovSpace H psi0 N :=
    span_lq h0 N
  rcases hst.resolve_left (by omega) with hbeta | ⟨hmn, hconv⟩
  · left
    intro x hx
    rw [hp.beta] at hbeta
    rw [← hsp, Submodule.mem_span_range_iff_exists_fun] at hx
    obtain ⟨d, rfl⟩ := hx
    refine ⟨H (∑ i, d i • lfam H (unit0 ℂ psi0) N i) -
      d ⟨N - 1, by omega⟩ • lu H (unit0 ℂ psi0) (N - 1), ?_, ?_⟩
    · rw [← hsp, map_sum]
      have e2 : ∑ i, H (d i • lfam H (unit0 ℂ psi0) N i) -
          d ⟨N - 1, by omega⟩ • lu H (unit0 ℂ psi0) (N - 1) =
          ∑ i : Fin N, d i • (H (lq H (unit0 ℂ psi0) i) -
            (if (i : ℕ) = N - 1 then lu H (unit0 ℂ psi0) (N - 1) else 0)) := by
        simp only [smul_sub, Finset.sum_sub_distrib]
        congr 1
        · exact Finset.sum_congr rfl fun i _ => by rw [map_smul]; rfl
        · rw [Finset.sum_eq_single ⟨N - 1, by omega⟩]
          · simp
          · intro b _ hb'
            rw [if_neg (by intro h; exact hb' (Fin.ext h)), smul_zero]
          · intro h; exact absurd (Finset.mem_univ _) h
      rw [e2]
      refine Submodule.sum_mem _ fun i _ => Submodule.smul_mem _ _ ?_
      have hmq : ∀ i, i < N → lq H (unit0 ℂ psi0) i ∈
          Submodule.span ℂ (Set.range (lfam H (unit0 ℂ psi0) N)) := fun i hi =>
        Submodule.subset_span ⟨⟨i, hi⟩, rfl⟩
      obtain ⟨k, hk⟩ := i
      dsimp only
      by_cases e : k = N - 1
      · rw [if_pos e, ← e]
        cases k with
        | zero =>
          rw [H_lq_zero, add_sub_cancel_left]
          exact Submodule.smul_mem _ _ (hmq _ hk)
        | succ k =>
          rw [H_lq_succ, add_assoc, add_sub_cancel_left]
          exact Submodule.add_mem _ (Submodule.smul_mem _ _ (hmq _ hk))
            (Submodule.smul_mem _ _ (hmq _ (by omega)))
      · rw [if_neg e, sub_zero]
        exact H_lq_mem _ (by omega)
    · rw [sub_sub_cancel, norm_smul, mul_comm]
      have hd : ‖d ⟨N - 1, by omega⟩‖ ≤ ‖∑ i, d i • lfam H (unit0 ℂ psi0) N i‖ := by
        have h := norm_sq_orthonormal_sum hq d
        have h' := Finset.single_le_sum (f := fun i : Fin N => ‖d i‖ ^ 2)
          (fun i _ => by positivity) (Finset.mem_univ ⟨N - 1, by omega⟩)
        rw [← h] at h'
        exact (sq_le_sq₀ (norm_nonneg _) (norm_nonneg _)).1 h'
      refine mul_le_mul ?_ hd (norm_nonneg _) hc.le
      exact ((le_abs_self _).trans_lt hbeta).le
  · right
    refine ⟨by omega, ?_⟩
    have hev := evoCalc_vf (psi0 := psi0) eigh delta hs h0 hN0 hb
    have hlast := hev.2.2 ⟨N - 1, by omega⟩
    have hconv' : ‖s.vf.getD (N - 1) 0‖ < o.pTol := hconv
    rw [hp.vf] at hconv'
    have hl2 : ‖(evoCalc eigh delta (N - 1) (lmid H (unit0 ℂ psi0) (N - 1))).2.1.getD (N - 1) 0‖
      < o.pTol := hconv'
    have hres' : res = ((1 / ‖Z‖ : ℝ) : ℂ) • Z := by rw [hres]; simp
    have hZsum : Z = ∑ i, evoCoeff delta (smallEv eigh H (unit0 ℂ psi0) N)
        (smallV eigh H (unit0 ℂ psi0) N) hN0 i • lfam H (unit0 ℂ psi0) N i := by
      rw [hZ, sum_evoCoeff]; rfl
    set cf := evoCoeff delta (smallEv eigh H (unit0 ℂ psi0) N)
        (smallV eigh H (unit0 ℂ psi0) N) hN0 with hcf
    have hZeq : ‖ritzEvolved H (unit0 ℂ psi0) delta (smallEv eigh H (unit0 ℂ psi0) N)
        (smallV eigh H (unit0 ℂ psi0) N) hN0‖ = ‖Z‖ := by rw [hZ]; rfl
    rw [hZeq] at hlast
    have hsplit : ∑ i : Fin N, cf i • lfam H (unit0 ℂ psi0) N i =
        (∑ i ∈ Finset.univ.erase (⟨N - 1, by omega⟩ : Fin N), cf i • lfam H (unit0 ℂ psi0) N i) +
          cf ⟨N - 1, by omega⟩ • lq H (unit0 ℂ psi0) (N - 1) := by
      rw [Finset.sum_erase_eq_sub (Finset.mem_univ _)]
      unfold lfam
      abel
    refine ⟨((1 / ‖Z‖ : ℝ) : ℂ) •
      ∑ i ∈ Finset.univ.erase (⟨N - 1, by omega⟩ : Fin N), cf i • lfam H (unit0 ℂ psi0) N i, ?_, ?_⟩
    · rw [← span_lq (psi0 := psi0) h0 (N - 1)]
      refine Submodule.smul_mem _ _ (Submodule.sum_mem _ fun i hi => Submodule.smul_mem _ _ ?_)
      have hne : (i : ℕ) ≠ N - 1 := fun h => (Finset.mem_erase.1 hi).1 (Fin.ext h)
      exact Submodule.subset_span ⟨⟨i, by omega⟩, rfl⟩
    · rw [hres', ← smul_sub]
      have hsub : Z - ∑ i ∈ Finset.univ.erase (⟨N - 1, by omega⟩ : Fin N),
          cf i • lfam H (unit0 ℂ psi0) N i = cf ⟨N - 1, by omega⟩ • lq H (unit0 ℂ psi0) (N - 1) := by
        rw [hZsum.trans hsplit, add_sub_cancel_left]
      rw [hsub, smul_smul, norm_smul]
      have hq1 : ‖lq H (unit0 ℂ psi0) (N - 1)‖ = 1 := hq.1 ⟨N - 1, by omega⟩
      rw [hq1, mul_one]
      have hl3 : (evoCalc eigh delta (N - 1) (lmid H (unit0 ℂ psi0) (N - 1))).2.1.getD (N - 1) 0 =
        cf ⟨N - 1, by omega⟩ / ((‖Z‖ : ℝ) : ℂ) := hlast
      rw [hl3] at hl2
      convert hl2 using 2
      rw [one_div, Complex.ofReal_inv, div_eq_mul_inv, mul_comm]

theorem unit0_unit0 (h0 : psi0 ≠ 0) : unit0 ℂ (unit0 ℂ psi0) = unit0 ℂ psi0 := by
  have h1 := unit0_norm (𝕜 := ℂ) h0
  conv_lhs => unfold unit0
  change (((1 / ‖unit0 ℂ psi0‖ : ℝ)) : ℂ) • unit0 ℂ psi0 = _
  rw [h1]
  simp

theorem lanczosStep_first {𝕜 F : Type} [RCLike 𝕜] [NormedAddCommGroup F] [InnerProductSpace 𝕜 F]
    (K : Kind 𝕜) (A : F → F) {w w' : F} {b b' : ℝ}
    (h : ((1 / b : ℝ) : 𝕜) • w = ((1 / b' : ℝ) : 𝕜) • w') (c : List F) (hm es : ℕ → ℕ → ℝ)
    (vf : List 𝕜) (rn : ℝ) :
    lanczosStep o K A 0 ⟨w, b, c, hm, es, vf, rn⟩ = lanczosStep o K A 0 ⟨w', b', c, hm, es, vf, rn⟩ := by
  unfold lanczosStep subtractPrevious
  dsimp only
  simp only [lt_irrefl, if_false]
  rw [h]

theorem lanczosBuild_unit0 (K : Kind ℂ) (A : E → E) (hm : 1 ≤ o.nMax) (hc : 0 < o.cutoff)
    (hc1 : o.cutoff ≤ 1) (hb : o.cutoff ≤ ‖psi0‖) :
    lanczosBuild o K A (unit0 ℂ psi0) = lanczosBuild o K A psi0 := by
  have h0 : psi0 ≠ 0 := by
    intro h
    rw [h, norm_zero] at hb
    exact absurd hc (not_lt.2 hb)
  have h1 := unit0_norm (𝕜 := ℂ) h0
  unfold lanczosBuild
  dsimp only
  rw [if_neg (by rw [h1]; exact not_lt.2 hc1), if_neg (not_lt.2 hb)]
  have hu := unit0_unit0 h0
  have hloop : lanczosLoop o K A o.nMax 0 ⟨unit0 ℂ psi0, ‖unit0 ℂ psi0‖, [], fun _ _ => 0,
      fun _ _ => 0, [], 1⟩ = lanczosLoop o K A o.nMax 0 ⟨psi0, ‖psi0‖, [], fun _ _ => 0,
      fun _ _ => 0, [], 1⟩ := by
    obtain ⟨m, hm'⟩ : ∃ m, o.nMax = m + 1 := ⟨o.nMax - 1, by omega⟩
    rw [hm']
    unfold lanczosLoop
    dsimp only
    rw [lanczosStep_first K A (w' := psi0) (b' := ‖psi0‖) hu]
  rw [hloop]
  congr 2

/-- **C52.** The result does not depend on the history of the object: after any run, a further run
(with any time step) returns exactly what it returns on a new object, and leaves the object in the
same state again. -/
theorem C52_history (hs : H.IsSymmetric) (he : EighSpec eigh) (hn : 2 ≤ o.nCache)
    (hm : 1 ≤ o.nMax) (hc : 0 < o.cutoff) (hc1 : o.cutoff ≤ 1) {d1 : ℂ} {n1 : Option Bool} {r1 : E}
    {N1 : ℕ} {obj' : EvoObj E}
    (hr : evolveRun o eigh H (evoNew psi0) d1 n1 = some (r1, N1, obj')) (delta : ℂ)
    (nrm : Option Bool) :
    evolveRun o eigh H obj' delta nrm = evolveRun o eigh H (evoNew psi0) delta nrm ∧
    ∀ r2 N2 obj2, evolveRun o eigh H obj' delta nrm = some (r2, N2, obj2) → obj2 = obj' := by
  have hb : o.cutoff ≤ ‖psi0‖ := (C52_succeeds hs hn hm hc (evoNew psi0) d1 n1).1 (by rw [hr]; rfl)
  obtain ⟨h0, -, -, hobj, -⟩ := evolveRun_post hs he hn hm hc hr
  have hobj' : obj' = ⟨unit0 ℂ psi0, some ‖psi0‖⟩ := hobj
  have heq : evolveRun o eigh H obj' delta nrm = evolveRun o eigh H (evoNew psi0) delta nrm := by
    rw [hobj']
    unfold evolveRun evoNew
    dsimp only
    rw [lanczosBuild_unit0 _ _ hm hc hc1 hb]
    rfl
  refine ⟨heq, fun r2 N2 obj2 h2 => ?_⟩
  rw [heq] at h2
  obtain ⟨-, -, -, h3, -⟩ := evolveRun_post hs he hn hm hc h2
  rw [hobj', h3]
  rfl

/-- **C52.** The result does not depend on `N_cache` nor on `reortho`. -/
theorem C52_independent (hs : H.IsSymmetric) (he : EighSpec eigh) (hn : 2 ≤ o.nCache) {c : ℕ}
    (hcc : 2 ≤ c) (r : Bool) (hm : 1 ≤ o.nMax) (hc : 0 < o.cutoff) (obj : EvoObj E) (delta : ℂ)
    (nrm : Option Bool) :
    evolveRun (withCache o c r) eigh H obj delta nrm = evolveRun o eigh H obj delta nrm := by
  by_cases hb : o.cutoff ≤ ‖obj.psi0‖
  · obtain ⟨⟨p1, N1, o1⟩, h1⟩ := Option.isSome_iff_exists.1
      ((C52_succeeds (eigh := eigh) hs hn hm hc obj delta nrm).2 hb)
    obtain ⟨⟨p2, N2, o2⟩, h2⟩ := Option.isSome_iff_exists.1
      ((C52_succeeds (eigh := eigh) (o := withCache o c r) hs hcc hm hc obj delta nrm).2 hb)
    have h0 : obj.psi0 ≠ 0 := by
      intro h
      rw [h, norm_zero] at hb
      exact absurd hc (not_lt.2 hb)
    have hN : N1 = N2 := by
      have key := lanczosLoop_indep hs (unit0_norm (𝕜 := ℂ) h0) hn hcc r hc (evoKind o eigh delta)
        o.nMax 0 _ _ (linv_init (H := H) h0) (linv_init (H := H) h0) rfl
      have aux : ∀ (o' : Options) {p' : E} {N' : ℕ} {ob : EvoObj E}, o'.cutoff ≤ ‖obj.psi0‖ →
          evolveRun o' eigh H obj delta nrm = some (p', N', ob) →
          N' = (lanczosLoop o' (evoKind o' eigh delta) H o'.nMax 0
            { w := obj.psi0, beta := ‖obj.psi0‖, cache := [], h := fun _ _ => 0, es := fun _ _ => 0,
              vf := [], resultNorm := 1 }).2 := by
        intro o' p' N' ob hb' h'
        unfold evolveRun lanczosBuild at h'
        dsimp only at h'
        rw [if_neg (not_lt.2 hb')] at h'
        dsimp only at h'
        rw [Option.map_eq_some_iff] at h'
        obtain ⟨r, -, hr⟩ := h'
        simp only [Prod.mk.injEq] at hr
        exact hr.2.1.symm
      rw [aux o hb h1, aux (withCache o c r) hb h2]
      exact key
    subst hN
    obtain ⟨-, -, -, ho1, hN1, Z1, hZ1, -, hr1, -⟩ := evolveRun_post hs he hn hm hc h1
    obtain ⟨-, -, -, ho2, hN2, Z2, hZ2, -, hr2, -⟩ :=
      evolveRun_post (o := withCache o c r) hs he hcc hm hc h2
    rw [h1, h2, hr1, hr2, ho1, ho2, hZ1, hZ2]
  · have h1 : ¬ (evolveRun o eigh H obj delta nrm).isSome := by
      rw [C52_succeeds hs hn hm hc]; exact hb
    have h2 : ¬ (evolveRun (withCache o c r) eigh H obj delta nrm).isSome := by
      rw [C52_succeeds (o := withCache o c r) hs hcc hm hc]; exact hb
    rw [Option.not_isSome_iff_eq_none] at h1 h2
    rw [h1, h2]

end

/-! ### The hypotheses can be met -/

/-- a non-trivial instance: `diag(0, 1)` on `ℂ²`, starting from `(1, 1)`. -/
example : ∃ eigh : Eigh, EighSpec eigh ∧
    ∃ r, evolveRun (E := EuclideanSpace ℂ (Fin 2))
      { nMin := 2, nMax := 20, nCache := 2, pTol := 1e-14, minGap := 1e-12, eTol := none,
        cutoff := 1e-13, reortho := true } eigh
      (Matrix.toEuclideanLin (Matrix.diagonal ![(0 : ℂ), 1])) (evoNew (WithLp.toLp 2 ![1, 1]))
      Complex.I (some false) = some r := by
  obtain ⟨eigh, he⟩ := exists_eighSpec
  refine ⟨eigh, he, Option.isSome_iff_exists.1 ?_⟩
  refine (C52_succeeds ?_ (by norm_num) (by norm_num) (by norm_num) _ _ _).2 ?_
  · rw [← Matrix.isHermitian_iff_isSymmetric, Matrix.isHermitian_diagonal_iff]
    intro i
    fin_cases i <;> simp [isSelfAdjoint_iff]
  · show (1e-13 : ℝ) ≤ ‖(WithLp.toLp 2 ![1, 1] : EuclideanSpace ℂ (Fin 2))‖
    rw [EuclideanSpace.norm_eq]
    rw [Real.le_sqrt (by norm_num) (by positivity)]
    simp [Fin.sum_univ_two]
    norm_num

end Cyten.Props
