import Verif.Props.Arnoldi

/-!
C53, continued: `ArnoldiEvolution`, and concrete cases.
-/

namespace Cyten.Props

open Cyten.Sparse Cyten.Krylov
open scoped InnerProductSpace

variable {E : Type} [NormedAddCommGroup E] [InnerProductSpace ℂ E]

/-- `numpy.linalg.solve(V, e_0)` returns a solution (or raises). -/
def SolveSpec (solve : Solve0) : Prop :=
  ∀ (n : ℕ) (V : ℕ → ℕ → ℂ) (c : ℕ → ℂ), solve n V = some c → ∀ i, i < n →
    ∑ j ∈ Finset.range n, V i j * c j = if i = 0 then 1 else 0

/-! ### Exponentials -/

theorem expApply_ne {F : Type} [NormedAddCommGroup F] [NormedSpace ℂ F] [CompleteSpace F]
    (A : F →L[ℂ] F) {x : F} (hx : x ≠ 0) : expApply A x ≠ 0 := by
  have hu : IsUnit (NormedSpace.exp A) :=
    NormedSpace.isUnit_exp_of_mem_ball (𝕂 := ℂ)
      ((NormedSpace.expSeries_radius_eq_top ℂ (F →L[ℂ] F)).symm ▸ edist_lt_top _ _)
  obtain ⟨B, hB⟩ := hu.exists_left_inv
  intro h
  apply hx
  have : (B * NormedSpace.exp A) x = x := by rw [hB]; rfl
  rw [← this, ContinuousLinearMap.mul_apply]
  unfold expApply at h
  rw [h, map_zero]

theorem expApply_smul {F : Type} [NormedAddCommGroup F] [NormedSpace ℂ F] (A : F →L[ℂ] F) (c : ℂ)
    (x : F) : expApply A (c • x) = c • expApply A x := by
  unfold expApply
  exact map_smul _ _ _

/-- On an invariant subspace the compression evolves like the operator. -/
theorem evolved_invariant [CompleteSpace E] (Hc : E →L[ℂ] E) (K : Submodule ℂ E)
    [FiniteDimensional ℂ K] (hK : ∀ x ∈ K, Hc x ∈ K) (delta : ℂ) (psi : K) :
    evolved Hc.toLinearMap K delta psi = expApply (delta • Hc) (psi : E) := by
  have hc : ∀ x : K, ((compress Hc.toLinearMap K x : K) : E) = Hc x := by
    intro x
    show (K.orthogonalProjectionOnto (Hc x) : E) = Hc x
    exact congrArg Subtype.val (Submodule.orthogonalProjectionOnto_mem_subspace_eq_self (K := K) ⟨Hc x, hK x x.2⟩)
  have hpow : ∀ n : ℕ, ((((delta • compress Hc.toLinearMap K) ^ n) psi : K) : E) =
      ((delta • Hc) ^ n) (psi : E) := by
    intro n
    induction n with
    | zero => simp
    | succ n ih =>
      rw [pow_succ', pow_succ', ContinuousLinearMap.mul_apply, ContinuousLinearMap.mul_apply, ← ih,
        ContinuousLinearMap.smul_apply, ContinuousLinearMap.smul_apply, Submodule.coe_smul, hc]
  unfold evolved expApply
  have h1 := (ContinuousLinearMap.apply ℂ K psi).hasSum
    (NormedSpace.exp_series_hasSum_exp' (𝕂 := ℂ) (delta • compress Hc.toLinearMap K))
  have h2 := K.subtypeL.hasSum h1
  have h3 := (ContinuousLinearMap.apply ℂ E (psi : E)).hasSum
    (NormedSpace.exp_series_hasSum_exp' (𝕂 := ℂ) (delta • Hc))
  refine HasSum.unique h2 ?_
  convert! h3 using 1
  funext n
  show (((((n.factorial : ℂ)⁻¹ • (delta • compress Hc.toLinearMap K) ^ n) psi : K)) : E) =
    ((n.factorial : ℂ)⁻¹ • (delta • Hc) ^ n) (psi : E)
  rw [ContinuousLinearMap.smul_apply, ContinuousLinearMap.smul_apply, Submodule.coe_smul, hpow]

/-! ### The coefficients -/

section
variable {H : E →ₗ[ℂ] E} {psi0 : E} {o : AOptions} {eig : Eig} {solve : Solve0}

theorem comb_delta (q0 : E) {N : ℕ} (hN : 0 < N) :
    comb H q0 N (fun i => if i = 0 then 1 else 0) = q0 := by
  unfold comb
  rw [Finset.sum_eq_single 0]
  · dsimp only
    rw [if_pos rfl, one_smul, aq_zero]
  · intro b _ hb
    dsimp only
    rw [if_neg hb, zero_smul]
  · intro h
    exact absurd (Finset.mem_range.2 hN) h

theorem comb_sum (q0 : E) (N n : ℕ) (V : ℕ → ℕ → ℂ) (c : ℕ → ℂ) :
    comb H q0 N (fun i => ∑ j ∈ Finset.range n, V i j * c j) =
      ∑ j ∈ Finset.range n, c j • comb H q0 N fun i => V i j := by
  unfold comb
  simp only [Finset.sum_smul, Finset.smul_sum, smul_smul]
  rw [Finset.sum_comm]
  exact Finset.sum_congr rfl fun j _ => Finset.sum_congr rfl fun i _ => by rw [mul_comm]

theorem comb_congr (q0 : E) {N : ℕ} {v w : ℕ → ℂ} (h : ∀ i, i < N → v i = w i) :
    comb H q0 N v = comb H q0 N w :=
  Finset.sum_congr rfl fun i hi => by rw [h i (Finset.mem_range.1 hi)]

theorem unit0_mem (H : E →ₗ[ℂ] E) (psi0 : E) {N : ℕ} (hN : 0 < N) :
    unit0 ℂ psi0 ∈ krylovSpace H psi0 N :=
  Submodule.smul_mem _ _ (krylov_self_mem H psi0 hN)

/-- the sum over the eigenvectors is the evolved vector -/
theorem evolved_eig (h0 : psi0 ≠ 0) {N : ℕ} (hN : 0 < N) {ev : ℕ → ℂ} {V : ℕ → ℕ → ℂ} {c : ℕ → ℂ}
    (hv : ∀ j, j < N → ∀ i, i < N → ∑ l ∈ Finset.range N, ahm H (unit0 ℂ psi0) N i l * V l j =
      ev j * V i j)
    (hs : ∀ i, i < N → ∑ j ∈ Finset.range N, V i j * c j = if i = 0 then 1 else 0) (delta : ℂ) :
    evolved H (krylovSpace H psi0 N) delta ⟨unit0 ℂ psi0, unit0_mem H psi0 hN⟩ =
      comb H (unit0 ℂ psi0) N fun i => ∑ j ∈ Finset.range N, V i j *
        (Complex.exp (ev j * delta) * c j) := by
  set x : ℕ → E := fun j => comb H (unit0 ℂ psi0) N fun i => V i j with hx
  have hmem : ∀ j, x j ∈ krylovSpace H psi0 N := by
    intro j
    rw [← span_aq_unit0]
    exact comb_mem N _
  have heig : ∀ j : Fin N, (delta • compress H (krylovSpace H psi0 N)) ⟨x j, hmem j⟩ =
      (ev j * delta) • (⟨x j, hmem j⟩ : krylovSpace H psi0 N) := by
    intro j
    rw [ContinuousLinearMap.smul_apply, compress_eigenvector (hmem j) (e := ev j) ?_, smul_smul,
      mul_comm]
    intro φ hφ
    have h1 : H (x j) - ev j • x j = (V (N - 1) j * ((ab H (unit0 ℂ psi0) (N - 1) : ℝ) : ℂ)) •
        aq H (unit0 ℂ psi0) N := by
      rw [sub_eq_iff_eq_add']
      exact A_comb hN (hv j j.2)
    rw [h1, inner_smul_right, inner_aq_span (Or.inl (unit0_norm h0)) (by rw [span_aq_unit0]; exact hφ),
      mul_zero]
  have hpsi : (⟨unit0 ℂ psi0, unit0_mem H psi0 hN⟩ : krylovSpace H psi0 N) =
      ∑ j : Fin N, c j • (⟨x j, hmem j⟩ : krylovSpace H psi0 N) := by
    apply Subtype.ext
    rw [Submodule.coe_sum]
    simp only [Submodule.coe_smul]
    rw [← Finset.sum_range fun j => c j • x j, ← comb_sum, comb_congr _ hs, comb_delta _ hN]
  unfold evolved
  rw [hpsi, expApply_sum]
  simp only [exp_eigenvector _ _ _ (heig _)]
  rw [Submodule.coe_sum, comb_sum, Finset.sum_range]
  refine Finset.sum_congr rfl fun j _ => ?_
  simp only [Submodule.coe_smul, smul_smul]
  congr 1
  ring

/-- What `_calc_result_krylov` computes. -/
theorem aevoCalc_post (he : EigSpec eig) (hs : SolveSpec solve) (h0 : psi0 ≠ 0) {N : ℕ} (hN : 0 < N)
    {delta : ℂ} {es : ℕ → ℂ} {vf : ℕ → ℕ → ℂ} {rn : ℝ}
    (h : aevoCalc eig solve delta (N - 1) (ahm H (unit0 ℂ psi0) N) = some (es, vf, rn)) :
    ∃ y : ℕ → ℂ, (∀ i, i < N → vf i 0 = y i / (rn : ℂ)) ∧
      rn = Real.sqrt (∑ i ∈ Finset.range N, ‖y i‖ ^ 2) ∧
      evolved H (krylovSpace H psi0 N) delta ⟨unit0 ℂ psi0, unit0_mem H psi0 hN⟩ =
        comb H (unit0 ℂ psi0) N y := by
  unfold aevoCalc at h
  by_cases h1 : N - 1 = 0
  · rw [if_pos h1] at h
    obtain rfl : N = 1 := by omega
    obtain ⟨-, rfl, rfl⟩ : (fun _ => 0) = es ∧ (fun _ _ =>
        Complex.exp (delta * ahm H (unit0 ℂ psi0) 1 0 0) /
          (‖Complex.exp (delta * ahm H (unit0 ℂ psi0) 1 0 0)‖ : ℂ)) = vf ∧
        ‖Complex.exp (delta * ahm H (unit0 ℂ psi0) 1 0 0)‖ = rn := by
      simpa only [Option.some.injEq, Prod.mk.injEq] using h
    refine ⟨fun _ => Complex.exp (delta * ahm H (unit0 ℂ psi0) 1 0 0), fun _ _ => rfl, ?_, ?_⟩
    · rw [Finset.sum_range_one, Real.sqrt_sq (norm_nonneg _)]
    · have := evolved_eig (H := H) h0 (N := 1) (by omega) (ev := fun _ => ahm H (unit0 ℂ psi0) 1 0 0)
        (V := fun _ _ => 1) (c := fun _ => 1) (fun j hj i hi => by
          obtain rfl : i = 0 := by omega
          simp) (fun i hi => by
          obtain rfl : i = 0 := by omega
          simp) delta
      rw [this]
      refine comb_congr _ fun i hi => ?_
      simp [mul_comm]
  · rw [if_neg h1] at h
    dsimp only at h
    rw [Nat.sub_add_cancel hN] at h
    obtain ⟨c, hc, h⟩ := Option.map_eq_some_iff.1 h
    simp only [Prod.mk.injEq] at h
    obtain ⟨-, rfl, rfl⟩ := h
    refine ⟨_, fun i hi => rfl, rfl, ?_⟩
    exact evolved_eig h0 hN (fun j hj i hi => he.pair N _ j i hj hi) (hs N _ c hc) delta

theorem arnoldiEvolve_post (he : EigSpec eig) (hs : SolveSpec solve) (hm : 1 ≤ o.nMax)
    (hc : 0 < o.cutoff) {obj obj' : AObj E} {pn : ℝ} {delta : ℂ} {nrm : Option Bool} {res : E}
    {N : ℕ} (hr : arnoldiEvolve o eig solve H obj pn delta nrm = some (res, N, obj')) :
    obj.psi0 ≠ 0 ∧ N ≤ o.nMax ∧ obj'.psi0 = unit0 ℂ obj.psi0 ∧
    ∃ (hN : 0 < N) (s : AState E) (Z : E),
      APost o (aevoKind o eig solve delta) H (unit0 ℂ obj.psi0) N s ∧
      (∀ i, i + 1 < N → ab H (unit0 ℂ obj.psi0) i ≠ 0) ∧
      Z = evolved H (krylovSpace H obj.psi0 N) delta
        ⟨unit0 ℂ obj.psi0, unit0_mem H obj.psi0 hN⟩ ∧ Z ≠ 0 ∧
      ((1 / ‖Z‖ : ℝ) : ℂ) • Z = comb H (unit0 ℂ obj.psi0) N (fun i => s.vf i 0) ∧
      res = if nrm.getD false then ((1 / ‖Z‖ : ℝ) : ℂ) • Z else ((pn : ℝ) : ℂ) • Z := by
  unfold arnoldiEvolve at hr
  cases hb : aBuild o (aevoKind o eig solve delta) H (aNew obj.psi0) with
  | none => rw [hb] at hr; exact absurd hr (by simp)
  | some r =>
    obtain ⟨q, s, N'⟩ := r
    rw [hb] at hr
    dsimp only at hr
    obtain ⟨p, hp, hr⟩ := Option.map_eq_some_iff.1 hr
    simp only [Prod.mk.injEq] at hr
    obtain ⟨rfl, rfl, rfl⟩ := hr
    obtain ⟨h0, rfl, hN, hpost⟩ := aBuild_post hm hb
    have hab : ∀ i, i + 1 < N' → ab H (unit0 ℂ obj.psi0) i ≠ 0 :=
      fun i hi => (lt_of_lt_of_le hc (hpost.cut i hi)).ne'
    have hres := hpost.inv.res hN
    rw [hpost.inv.h] at hres
    obtain ⟨y, hy1, hy2, hy3⟩ := aevoCalc_post he hs h0 hN hres
    set Z := evolved H (krylovSpace H obj.psi0 N') delta
      ⟨unit0 ℂ obj.psi0, unit0_mem H obj.psi0 hN⟩ with hZ
    have hZ0 : Z ≠ 0 := by
      rw [hZ]
      unfold evolved
      intro h
      have hne : (⟨unit0 ℂ obj.psi0, unit0_mem H obj.psi0 hN⟩ : krylovSpace H obj.psi0 N') ≠ 0 := by
        intro h'
        have h2 := congrArg Subtype.val h'
        have h3 := unit0_norm (𝕜 := ℂ) h0
        rw [show unit0 ℂ obj.psi0 = 0 from h2, norm_zero] at h3
        exact absurd h3 (by norm_num)
      exact expApply_ne (F := krylovSpace H obj.psi0 N') _ hne (Subtype.ext h)
    have hrn : s.resultNorm = ‖Z‖ := by
      have h1 := norm_comb (H := H) (unit0_norm (𝕜 := ℂ) h0) hab y
      rw [← hy3] at h1
      rw [hy2, ← h1, Real.sqrt_sq (norm_nonneg _)]
    have hZn : ‖Z‖ ≠ 0 := norm_ne_zero_iff.2 hZ0
    have hcomb : ((1 / ‖Z‖ : ℝ) : ℂ) • Z = comb H (unit0 ℂ obj.psi0) N' (fun i => s.vf i 0) := by
      rw [comb_congr _ hy1]
      have h1 : ∀ c : ℂ, c • Z = c • comb H (unit0 ℂ obj.psi0) N' y := fun c => by rw [← hy3]
      rw [h1]
      unfold comb
      rw [Finset.smul_sum]
      refine Finset.sum_congr rfl fun i _ => ?_
      rw [smul_smul, hrn]
      congr 1
      push_cast
      ring
    have hpz : p = ((1 / ‖Z‖ : ℝ) : ℂ) • Z := by
      by_cases h1 : N' = 1
      · subst h1
        rw [if_pos rfl] at hp
        obtain rfl := Option.some.inj hp
        rw [hcomb]
        unfold comb
        rw [Finset.sum_range_one, aq_zero]
      · rw [if_neg h1] at hp
        unfold aevoFull at hp
        rw [hpost.inv.cache, aqs_length, if_neg (by omega)] at hp
        obtain rfl := Option.some.inj hp
        rw [aCombine_eq _ hN, ← hcomb]
        have h2 : ‖((1 / ‖Z‖ : ℝ) : ℂ) • Z‖ = 1 := norm_normalise (𝕜 := ℂ) hZn
        rw [h2]
        simp
    refine ⟨h0, hpost.le, rfl, hN, s, Z, hpost, hab, rfl, hZ0, hcomb, ?_⟩
    rw [hpz]
    by_cases hnn : nrm.getD false = true
    · rw [if_pos hnn, if_pos hnn]
    · rw [if_neg hnn, if_neg hnn, hrn, smul_smul]
      congr 1
      rw [← Complex.ofReal_mul, mul_assoc, mul_one_div_cancel hZn, mul_one]

theorem evolved_psi0 {N : ℕ} (hN : 0 < N) (delta : ℂ) :
    evolved H (krylovSpace H psi0 N) delta ⟨psi0, krylov_self_mem H psi0 hN⟩ =
      ((‖psi0‖ : ℝ) : ℂ) • evolved H (krylovSpace H psi0 N) delta
        ⟨unit0 ℂ psi0, unit0_mem H psi0 hN⟩ := by
  unfold evolved
  have : (⟨psi0, krylov_self_mem H psi0 hN⟩ : krylovSpace H psi0 N) =
      ((‖psi0‖ : ℝ) : ℂ) • ⟨unit0 ℂ psi0, unit0_mem H psi0 hN⟩ :=
    Subtype.ext (psi0_eq_unit0 psi0)
  rw [this, expApply_smul]
  rfl

/-- **C53.** Without normalisation, `ArnoldiEvolution(H, psi0).run(delta)` returns
`exp(delta * H_K) psi0`, `H_K` the compression of the operator to the Krylov space of dimension
`N ≤ N_max`; with normalisation it is that vector divided by its norm. No symmetry of the operator
is needed. -/
theorem C53_evolution (he : EigSpec eig) (hs : SolveSpec solve) (hm : 1 ≤ o.nMax)
    (hc : 0 < o.cutoff) {obj' : AObj E} {delta : ℂ} {nrm : Option Bool} {res : E}
    {N : ℕ} (hr : arnoldiEvolve o eig solve H (aNew psi0) ‖psi0‖ delta nrm = some (res, N, obj')) :
    N ≤ o.nMax ∧ ∃ (hN : 0 < N) (psit : E),
      psit = evolved H (krylovSpace H psi0 N) delta ⟨psi0, krylov_self_mem H psi0 hN⟩ ∧ psit ≠ 0 ∧
      res = if nrm.getD false then ((1 / ‖psit‖ : ℝ) : ℂ) • psit else psit := by
  obtain ⟨h0, hle, -, hN, s, Z, -, -, hZ, hZ0, -, hres⟩ := arnoldiEvolve_post he hs hm hc hr
  have h1 := evolved_psi0 (H := H) (psi0 := psi0) hN delta
  change psi0 ≠ 0 at h0
  change Z = evolved H (krylovSpace H psi0 N) delta ⟨unit0 ℂ psi0, unit0_mem H psi0 hN⟩ at hZ
  rw [← hZ] at h1
  have hn0 : ‖psi0‖ ≠ 0 := norm_ne_zero_iff.2 h0
  refine ⟨hle, hN, _, rfl, ?_, ?_⟩
  · rw [h1]
    exact smul_ne_zero (by exact_mod_cast hn0) hZ0
  · rw [hres, h1]
    by_cases hnn : nrm.getD false = true
    · have hZn : ‖Z‖ ≠ 0 := norm_ne_zero_iff.2 hZ0
      rw [if_pos hnn, if_pos hnn, norm_smul, Complex.norm_real, norm_norm, smul_smul,
        ← Complex.ofReal_mul]
      congr 2
      field_simp
    · rw [if_neg hnn, if_neg hnn]

/-- **C53.** If the Krylov space is invariant, the evolution is exact. -/
theorem C53_evolution_exact [CompleteSpace E] {Hc : E →L[ℂ] E} (he : EigSpec eig)
    (hs : SolveSpec solve) (hm : 1 ≤ o.nMax) (hc : 0 < o.cutoff) {obj' : AObj E} {delta : ℂ}
    {res : E} {N : ℕ}
    (hr : arnoldiEvolve o eig solve Hc (aNew psi0) ‖psi0‖ delta none = some (res, N, obj'))
    (hinv : krylovSpace Hc.toLinearMap psi0 (N + 1) = krylovSpace Hc.toLinearMap psi0 N) :
    res = expApply (delta • Hc) psi0 := by
  obtain ⟨-, hN, psit, h1, -, h2⟩ := C53_evolution (H := Hc.toLinearMap) he hs hm hc hr
  rw [h2, h1]
  simp only [Option.getD_none, Bool.false_eq_true, if_false]
  exact evolved_invariant Hc _ (fun x hx => hinv ▸ krylov_map Hc.toLinearMap psi0 hx) delta _

theorem aStep_first (K : AKind) (A : E → E) {w w' : E} {b b' : ℝ}
    (h : ((1 / b : ℝ) : ℂ) • w = ((1 / b' : ℝ) : ℂ) • w') (c : List E) (hm es vf : ℕ → ℕ → ℂ)
    (rn : ℝ) :
    aStep o K A 0 ⟨w, b, c, hm, es, vf, rn⟩ = aStep o K A 0 ⟨w', b', c, hm, es, vf, rn⟩ := by
  unfold aStep
  dsimp only
  rw [h]

theorem aBuild_unit0 (K : AKind) (A : E → E) (hm : 1 ≤ o.nMax) (h0 : psi0 ≠ 0) :
    aBuild o K A (aNew (unit0 ℂ psi0)) = aBuild o K A (aNew psi0) := by
  have h1 := unit0_norm (𝕜 := ℂ) h0
  have h2 : (((1 / ‖unit0 ℂ psi0‖ : ℝ) : ℂ)) • unit0 ℂ psi0 = unit0 ℂ psi0 := by
    rw [h1]; simp
  unfold aBuild aNew
  dsimp only
  rw [if_neg (by rw [h1]; norm_num), if_neg (norm_ne_zero_iff.2 h0), h2, unit0_complex]
  congr 1
  obtain ⟨M, hM⟩ : ∃ M, o.nMax = M + 1 := ⟨o.nMax - 1, by omega⟩
  rw [hM, aLoop, aLoop, aStep_first K A (w' := psi0) (b' := ‖psi0‖)]
  rw [h2]
  rfl

/-- **C53.** Earlier runs of the same `ArnoldiEvolution` object have no influence. -/
theorem C53_history (he : EigSpec eig) (hs : SolveSpec solve) (hm : 1 ≤ o.nMax) (hc : 0 < o.cutoff)
    {d1 : ℂ} {n1 : Option Bool} {r1 : E} {N1 : ℕ} {obj' : AObj E}
    (hr : arnoldiEvolve o eig solve H (aNew psi0) ‖psi0‖ d1 n1 = some (r1, N1, obj')) (delta : ℂ)
    (nrm : Option Bool) :
    arnoldiEvolve o eig solve H obj' ‖psi0‖ delta nrm =
      arnoldiEvolve o eig solve H (aNew psi0) ‖psi0‖ delta nrm := by
  obtain ⟨h0, -, ho, -⟩ := arnoldiEvolve_post he hs hm hc hr
  change psi0 ≠ 0 at h0
  change obj'.psi0 = unit0 ℂ psi0 at ho
  unfold arnoldiEvolve
  rw [ho, aBuild_unit0 _ _ hm h0]
  rfl

/-- **C53.** If the evolution ends before `N_max` steps, either the Krylov space is almost invariant,
or the normalised result is within `P_tol` of the previous Krylov space. -/
theorem C53_evolution_stop (he : EigSpec eig) (hs : SolveSpec solve) (hm : 1 ≤ o.nMax)
    (hc : 0 < o.cutoff) {obj' : AObj E} {delta : ℂ} {res : E} {N : ℕ}
    (hr : arnoldiEvolve o eig solve H (aNew psi0) ‖psi0‖ delta (some true) = some (res, N, obj'))
    (hN : N < o.nMax) :
    (∀ x ∈ krylovSpace H psi0 N, ∃ y ∈ krylovSpace H psi0 N, ‖H x - y‖ ≤ o.cutoff * ‖x‖) ∨
    (o.nMin ≤ N ∧ ∃ y ∈ krylovSpace H psi0 (N - 1), ‖res - y‖ < o.pTol) := by
  obtain ⟨h0, -, -, hN0, s, Z, hpost, hab, -, -, hcomb, hres⟩ := arnoldiEvolve_post he hs hm hc hr
  change psi0 ≠ 0 at h0
  rcases hpost.stop hN with h | ⟨h1, h2⟩
  · left
    rw [hpost.inv.norm hN0] at h
    exact near_invariant h0 hN0 hab h
  · right
    refine ⟨by omega, comb H (unit0 ℂ psi0) (N - 1) (fun i => s.vf i 0), ?_, ?_⟩
    · rw [← span_aq_unit0]
      exact comb_mem _ _
    · rw [hres]
      simp only [Option.getD_some, if_true]
      rw [hcomb]
      change ‖comb H (unit0 ℂ psi0) N (fun i => s.vf i 0) - _‖ < _
      obtain ⟨M, rfl⟩ : ∃ M, N = M + 1 := ⟨N - 1, by omega⟩
      rw [Nat.add_sub_cancel]
      unfold comb
      rw [Finset.sum_range_succ, add_sub_cancel_left, norm_smul]
      rw [aq_norm (unit0_norm (𝕜 := ℂ) h0) (fun i hi => hab i (by omega)), mul_one]
      exact h2

theorem evolution_fails' (delta : ℂ) (nrm : Option Bool) (hm : 1 ≤ o.nMax)
    (h : arnoldiEvolve o eig solve H (aNew psi0) ‖psi0‖ delta nrm = none) :
    psi0 = 0 ∨ ∃ n, n ≤ o.nMax ∧
      solve n (eig n (fun i j => ahm H (unit0 ℂ psi0) n i j)).2 = none ∧
      ∀ i, i + 1 < n → o.cutoff ≤ ab H (unit0 ℂ psi0) i := by
  unfold arnoldiEvolve at h
  cases hb : aBuild o (aevoKind o eig solve delta) H (aNew (aNew psi0).psi0) with
  | none =>
    rcases aBuild_none hb with h1 | ⟨j, hj, h1, h2⟩
    · exact Or.inl h1
    · right
      refine ⟨j + 1, hj, ?_, fun i hi => h2 i (by omega)⟩
      change aevoCalc eig solve delta j _ = none at h1
      unfold aevoCalc at h1
      by_cases e : j = 0
      · rw [if_pos e] at h1
        exact absurd h1 (by simp)
      · rw [if_neg e] at h1
        exact Option.map_eq_none_iff.1 h1
  | some r =>
    obtain ⟨q, s, N⟩ := r
    rw [hb] at h
    obtain ⟨-, -, hN, hpost⟩ := aBuild_post hm hb
    dsimp only at h
    rw [Option.map_eq_none_iff] at h
    by_cases h1 : N = 1
    · rw [if_pos h1] at h
      exact absurd h (by simp)
    · rw [if_neg h1] at h
      unfold aevoFull at h
      rw [hpost.inv.cache, aqs_length, if_neg (by omega)] at h
      exact absurd h (by simp)

/-- **C53.** `ArnoldiEvolution.run` raises (or yields NaN) only if the starting vector is zero or a
matrix of eigenvectors computed on the way is singular. -/
theorem C53_evolution_fails (delta : ℂ) (nrm : Option Bool) (hm : 1 ≤ o.nMax)
    (h : arnoldiEvolve o eig solve H (aNew psi0) ‖psi0‖ delta nrm = none) :
    psi0 = 0 ∨ ∃ n, n ≤ o.nMax ∧
      solve n (eig n (fun i j => ahm H (unit0 ℂ psi0) n i j)).2 = none := by
  obtain h | ⟨n, h1, h2, -⟩ := evolution_fails' delta nrm hm h
  · exact Or.inl h
  · exact Or.inr ⟨n, h1, h2⟩

/-! ### Hermitian operators -/

/-- `numpy.linalg.solve` raises only for singular matrices. -/
def SolveComplete (solve : Solve0) : Prop :=
  ∀ (n : ℕ) (V : ℕ → ℕ → ℂ), (∀ c : ℕ → ℂ, (∀ i, i < n → ∑ j ∈ Finset.range n, V i j * c j = 0) →
    ∀ j, j < n → c j = 0) → (solve n V).isSome

/-- eigenvectors of the small matrix are determined by their last entry -/
theorem ahm_simple {q0 : E} {N : ℕ} (hb : ∀ i, i + 1 < N → ab H q0 i ≠ 0) {v : ℕ → ℂ} {e : ℂ}
    (hv : ∀ i, i < N → ∑ j ∈ Finset.range N, ahm H q0 N i j * v j = e * v i)
    (hl : v (N - 1) = 0) : ∀ i, i < N → v i = 0 := by
  have key : ∀ d, d < N → v (N - 1 - d) = 0 := by
    intro d
    induction d using Nat.strong_induction_on with
    | _ d ih =>
      intro hd
      cases d with
      | zero => exact hl
      | succ d =>
        have h1 := hv (N - 1 - d) (by omega)
        rw [ih d (by omega) (by omega), mul_zero, Finset.sum_eq_single (N - 1 - (d + 1))] at h1
        · have h2 : ahm H q0 N (N - 1 - d) (N - 1 - (d + 1)) =
              ((ab H q0 (N - 1 - (d + 1)) : ℝ) : ℂ) := by
            unfold ahm
            rw [if_pos (by omega), if_neg (by omega), if_pos (by omega)]
            rfl
          rw [h2] at h1
          exact (mul_eq_zero.1 h1).resolve_left
            (by exact_mod_cast hb (N - 1 - (d + 1)) (by omega))
        · intro j hj hne
          have hj' := Finset.mem_range.1 hj
          by_cases h3 : j < N - 1 - (d + 1)
          · unfold ahm
            rw [if_pos hj', if_neg (by omega), if_neg (by omega), zero_mul]
          · have := ih (N - 1 - j) (by omega) (by omega)
            rw [show N - 1 - (N - 1 - j) = j by omega] at this
            rw [this, mul_zero]
        · intro h
          exact absurd (Finset.mem_range.2 (by omega)) h
  intro i hi
  have := key (N - 1 - i) (by omega)
  rwa [show N - 1 - (N - 1 - i) = i by omega] at this

/-- the small matrix of a Hermitian operator -/
theorem ahm_hermitian (hs : H.IsSymmetric) (h0 : psi0 ≠ 0) {N : ℕ}
    (hb : ∀ i, i + 1 < N → ab H (unit0 ℂ psi0) i ≠ 0) :
    (Matrix.of fun i j : Fin N => ahm H (unit0 ℂ psi0) N i j).IsHermitian := by
  ext i j
  rw [Matrix.conjTranspose_apply, Matrix.of_apply, Matrix.of_apply,
    ← inner_A_aq (unit0_norm h0) hb j.2 i.2, ← inner_A_aq (unit0_norm h0) hb i.2 j.2]
  change starRingEnd ℂ _ = _
  rw [inner_conj_symm, hs]

/-- the eigenvalues of an irreducible Hermitian matrix are distinct, so `eig` finds independent
eigenvectors -/
theorem eig_independent (he : EigSpec eig) (hs : H.IsSymmetric) (h0 : psi0 ≠ 0) {N : ℕ}
    (hb : ∀ i, i + 1 < N → ab H (unit0 ℂ psi0) i ≠ 0) (c : ℕ → ℂ)
    (hc : ∀ i, i < N → ∑ j ∈ Finset.range N,
      (eig N (ahm H (unit0 ℂ psi0) N)).2 i j * c j = 0) : ∀ j, j < N → c j = 0 := by
  set M : Matrix (Fin N) (Fin N) ℂ := Matrix.of fun i j : Fin N => ahm H (unit0 ℂ psi0) N i j
    with hM
  have hH : M.IsHermitian := ahm_hermitian hs h0 hb
  set ev := (eig N (ahm H (unit0 ℂ psi0) N)).1 with hev
  set V := (eig N (ahm H (unit0 ℂ psi0) N)).2 with hV
  -- the eigenvalues are distinct
  have hsimple : ∀ (v : Fin N → ℂ) (e : ℂ), M.mulVec v = e • v →
      (∀ h : 0 < N, v ⟨N - 1, by omega⟩ = 0) → v = 0 := by
    intro v e hv hl
    funext i
    have hN : 0 < N := by have := i.2; omega
    have := ahm_simple (H := H) (q0 := unit0 ℂ psi0) hb
      (v := fun i => if h : i < N then v ⟨i, h⟩ else 0) (e := e) (fun i hi => by
        have := congrFun hv ⟨i, hi⟩
        simp only [Matrix.mulVec, dotProduct, Pi.smul_apply, smul_eq_mul] at this
        rw [dif_pos hi, ← this, Finset.sum_range]
        refine Finset.sum_congr rfl fun j _ => ?_
        rw [dif_pos j.2]
        rfl) (by
        rw [dif_pos (show N - 1 < N by omega)]
        exact hl hN) i i.2
    rw [dif_pos i.2] at this
    exact this
  have hinj : Function.Injective hH.eigenvalues := by
    intro a b hab
    by_contra hne
    have hN : 0 < N := by have := a.2; omega
    set l : Fin N := ⟨N - 1, by omega⟩
    set x : Fin N → ℂ := (hH.eigenvectorBasis a).ofLp with hx
    set y : Fin N → ℂ := (hH.eigenvectorBasis b).ofLp with hy
    have hxe : M.mulVec x = ((hH.eigenvalues a : ℝ) : ℂ) • x := by
      have := hH.mulVec_eigenvectorBasis a
      exact this
    have hye : M.mulVec y = ((hH.eigenvalues a : ℝ) : ℂ) • y := by
      rw [hab]
      have := hH.mulVec_eigenvectorBasis b
      exact this
    have hz : y l • x - x l • y = 0 := by
      refine hsimple _ ((hH.eigenvalues a : ℝ) : ℂ) ?_ fun h => ?_
      · rw [Matrix.mulVec_sub, Matrix.mulVec_smul, Matrix.mulVec_smul, hxe, hye, smul_sub,
          smul_comm, smul_comm (x l)]
      · simp only [Pi.sub_apply, Pi.smul_apply, smul_eq_mul]
        exact by ring
    have hz' : y l • hH.eigenvectorBasis a + (- x l) • hH.eigenvectorBasis b = 0 := by
      ext i
      have := congrFun hz i
      simpa [hx, hy, sub_eq_add_neg] using this
    have hxl : x l = 0 := by
      have h1 := congrArg (fun t => ⟪hH.eigenvectorBasis b, t⟫_ℂ) hz'
      rw [inner_add_right, inner_smul_right, inner_smul_right,
        hH.eigenvectorBasis.orthonormal.2 (Ne.symm hne), inner_zero_right,
        inner_self_of_norm_one (hH.eigenvectorBasis.orthonormal.1 b), mul_zero, zero_add,
        mul_one] at h1
      exact neg_eq_zero.1 h1
    have hx0 : x = 0 := hsimple x _ hxe fun _ => hxl
    have := hH.eigenvectorBasis.orthonormal.1 a
    rw [show hH.eigenvectorBasis a = 0 from by ext i; exact congrFun hx0 i, norm_zero] at this
    exact absurd this (by norm_num)
  have hsurj : ∀ a : Fin N, ∃ b : Fin N, ev b = ((hH.eigenvalues a : ℝ) : ℂ) := by
    intro a
    obtain ⟨b, hb1, hb2⟩ := he.complete N (ahm H (unit0 ℂ psi0) N)
      (fun i => if h : i < N then (hH.eigenvectorBasis a).ofLp ⟨i, h⟩ else 0)
      ((hH.eigenvalues a : ℝ) : ℂ) (by
        by_contra hcon
        push Not at hcon
        have h1 : hH.eigenvectorBasis a = 0 := by
          ext i
          have := hcon i i.2
          rw [dif_pos i.2] at this
          exact this
        have := hH.eigenvectorBasis.orthonormal.1 a
        rw [h1, norm_zero] at this
        exact absurd this (by norm_num)) (by
        intro i hi
        have := congrFun (hH.mulVec_eigenvectorBasis a) ⟨i, hi⟩
        dsimp only
        rw [dif_pos hi]
        refine Eq.trans ?_ this
        simp only [Matrix.mulVec, dotProduct]
        rw [Finset.sum_range]
        refine Finset.sum_congr rfl fun j _ => ?_
        rw [dif_pos j.2]
        rfl)
    exact ⟨⟨b, hb1⟩, hb2⟩
  choose f hf using hsurj
  have hfi : Function.Injective f := by
    intro a b hab
    apply hinj
    have : ((hH.eigenvalues a : ℝ) : ℂ) = ((hH.eigenvalues b : ℝ) : ℂ) := by rw [← hf, ← hf, hab]
    exact_mod_cast this
  have hfs := Finite.surjective_of_injective hfi
  have hevi : Function.Injective fun j : Fin N => ev j := by
    intro a b hab
    obtain ⟨a', rfl⟩ := hfs a
    obtain ⟨b', rfl⟩ := hfs b
    dsimp only at hab
    rw [hf, hf] at hab
    have h1 : hH.eigenvalues a' = hH.eigenvalues b' := by exact_mod_cast hab
    rw [hinj h1]
  have hli := Module.End.eigenvectors_linearIndependent' (Matrix.toLin' M) (fun j : Fin N => ev j)
    hevi (fun j i => V i j) (fun j => by
      rw [Module.End.hasEigenvector_iff, Module.End.mem_eigenspace_iff]
      constructor
      · funext i
        have := he.pair N (ahm H (unit0 ℂ psi0) N) j i j.2 i.2
        rw [Matrix.toLin'_apply]
        simp only [Matrix.mulVec, dotProduct, Pi.smul_apply, smul_eq_mul]
        refine Eq.trans ?_ this
        rw [Finset.sum_range]
        rfl
      · intro h
        have h1 := he.unit N (ahm H (unit0 ℂ psi0) N) j j.2
        rw [Finset.sum_eq_zero] at h1
        · exact absurd h1 (by norm_num)
        · intro i hi
          have : V i j = 0 := congrFun h ⟨i, Finset.mem_range.1 hi⟩
          change ‖V i j‖ ^ 2 = 0
          rw [this, norm_zero]
          norm_num)
  intro j hj
  refine Fintype.linearIndependent_iff.1 hli (fun j => c j) ?_ ⟨j, hj⟩
  funext i
  rw [Finset.sum_apply]
  refine Eq.trans ?_ (hc i i.2)
  rw [Finset.sum_range]
  exact Finset.sum_congr rfl fun j _ => by simp [mul_comm]

/-- **C53.** For a Hermitian operator `ArnoldiEvolution.run` succeeds for every starting vector other
than zero. -/
theorem C53_evolution_succeeds (he : EigSpec eig) (hsc : SolveComplete solve) (hs : H.IsSymmetric)
    (hm : 1 ≤ o.nMax) (hc : 0 < o.cutoff) (h0 : psi0 ≠ 0) (delta : ℂ) (nrm : Option Bool) :
    (arnoldiEvolve o eig solve H (aNew psi0) ‖psi0‖ delta nrm).isSome := by
  by_contra h
  rw [Option.not_isSome_iff_eq_none] at h
  rcases evolution_fails' delta nrm hm h with h | ⟨n, -, h1, h2⟩
  · exact h0 h
  · have := hsc n (eig n (ahm H (unit0 ℂ psi0) n)).2
      (eig_independent he hs h0 fun i hi => (lt_of_lt_of_le hc (h2 i hi)).ne')
    rw [show solve n (eig n (ahm H (unit0 ℂ psi0) n)).2 = none from h1] at this
    exact absurd this (by simp)

theorem exists_solveSpec : ∃ solve : Solve0, SolveSpec solve ∧ SolveComplete solve := by
  classical
  have key : ∀ (n : ℕ) (V : ℕ → ℕ → ℂ), (∀ c : ℕ → ℂ, (∀ i, i < n →
      ∑ j ∈ Finset.range n, V i j * c j = 0) → ∀ j, j < n → c j = 0) →
      ∃ c : ℕ → ℂ, ∀ i, i < n → ∑ j ∈ Finset.range n, V i j * c j = if i = 0 then 1 else 0 := by
    intro n V h
    set M : Matrix (Fin n) (Fin n) ℂ := Matrix.of fun i j : Fin n => V i j
    have hinj : Function.Injective M.mulVecLin := by
      rw [← LinearMap.ker_eq_bot, LinearMap.ker_eq_bot']
      intro v hv
      funext j
      have := h (fun j => if hj : j < n then v ⟨j, hj⟩ else 0) (fun i hi => by
        have := congrFun hv ⟨i, hi⟩
        refine Eq.trans ?_ this
        rw [Finset.sum_range, Matrix.mulVecLin_apply]
        simp only [Matrix.mulVec, dotProduct]
        refine Finset.sum_congr rfl fun l _ => ?_
        rw [dif_pos l.2]
        rfl) j j.2
      rw [dif_pos j.2] at this
      exact this
    obtain ⟨v, hv⟩ := LinearMap.surjective_of_injective hinj
      (fun i : Fin n => if (i : ℕ) = 0 then 1 else 0)
    refine ⟨fun j => if hj : j < n then v ⟨j, hj⟩ else 0, fun i hi => ?_⟩
    have := congrFun hv ⟨i, hi⟩
    refine Eq.trans ?_ this
    rw [Finset.sum_range, Matrix.mulVecLin_apply]
    simp only [Matrix.mulVec, dotProduct]
    refine Finset.sum_congr rfl fun l _ => ?_
    rw [dif_pos l.2]
    rfl
  refine ⟨fun n V => if h : ∃ c : ℕ → ℂ, ∀ i, i < n →
    ∑ j ∈ Finset.range n, V i j * c j = if i = 0 then 1 else 0 then some h.choose else none, ?_, ?_⟩
  · intro n V c hc
    dsimp only at hc
    by_cases h : ∃ c : ℕ → ℂ, ∀ i, i < n →
      ∑ j ∈ Finset.range n, V i j * c j = if i = 0 then 1 else 0
    · rw [dif_pos h] at hc
      obtain rfl := Option.some.inj hc
      exact h.choose_spec
    · rw [dif_neg h] at hc
      exact absurd hc (by simp)
  · intro n V h
    dsimp only
    rw [dif_pos (key n V h)]
    rfl

/-- The hypotheses are met: with suitable `eig`, `sort` and `solve`, for the operator that swaps the
two components, a run of `Arnoldi` for two eigenvalues and a run of `ArnoldiEvolution` succeed. -/
example : ∃ (eig : Eig) (sort : ArgSort) (solve : Solve0), EigSpec eig ∧ SortSpec sort ∧
    SolveSpec solve ∧ ∃ (E0 : List ℂ) (psis : List (EuclideanSpace ℂ (Fin 2))) (N : ℕ) (obj : _),
    arnoldiRun ⟨2, 20, 1e-14, 1e-12, none, 1e-13, 2, "LM"⟩ eig sort
      (Matrix.toEuclideanLin !![0, 1; 1, 0]) (aNew (EuclideanSpace.single 0 1)) none =
      some (E0, psis, N, obj) ∧
    ∃ (res : EuclideanSpace ℂ (Fin 2)) (N' : ℕ) (obj' : _), arnoldiEvolve ⟨2, 20, 1e-14, 1e-12, none, 1e-13, 2, "LM"⟩ eig solve
      (Matrix.toEuclideanLin !![0, 1; 1, 0]) (aNew (EuclideanSpace.single 0 1))
      ‖(EuclideanSpace.single 0 1 : EuclideanSpace ℂ (Fin 2))‖ (Complex.I / 2) none =
      some (res, N', obj') := by
  obtain ⟨eig, he⟩ := exists_eigSpec
  obtain ⟨sort, hso⟩ := exists_sortSpec
  obtain ⟨solve, hs, hsc⟩ := exists_solveSpec
  have h0 : (EuclideanSpace.single 0 1 : EuclideanSpace ℂ (Fin 2)) ≠ 0 := by
    intro h
    have := congrArg norm h
    rw [EuclideanSpace.norm_single, norm_zero, norm_one] at this
    exact absurd this (by norm_num)
  have hsym : (Matrix.toEuclideanLin !![0, 1; 1, (0 : ℂ)]).IsSymmetric := by
    rw [← Matrix.isHermitian_iff_isSymmetric]
    ext i j
    fin_cases i <;> fin_cases j <;> simp [Matrix.conjTranspose_apply]
  refine ⟨eig, sort, solve, he, hso, hs, ?_⟩
  obtain ⟨⟨a, b, c, d⟩, h1⟩ := Option.isSome_iff_exists.1
    ((C53_succeeds (o := ⟨2, 20, 1e-14, 1e-12, none, 1e-13, 2, "LM"⟩) (eig := eig) (sort := sort)
      (H := Matrix.toEuclideanLin !![0, 1; 1, 0]) none (by norm_num)).2 h0)
  obtain ⟨⟨e, f, g⟩, h2⟩ := Option.isSome_iff_exists.1
    (C53_evolution_succeeds (o := ⟨2, 20, 1e-14, 1e-12, none, 1e-13, 2, "LM"⟩) he hsc hsym
      (by norm_num) (by norm_num) h0 (Complex.I / 2) none)
  exact ⟨a, b, c, d, h1, e, f, g, h2⟩

end

end Cyten.Props
