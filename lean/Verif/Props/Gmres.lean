import Verif.Lemmas.Gmres
import Mathlib.Analysis.SpecialFunctions.Pow.Real
import Mathlib.Analysis.InnerProductSpace.PiL2

/-!
C50: `GMRES`.

In exact arithmetic, for a real operator (or a Hermitian one), every cycle of `GMRES` minimises the
residual over the Krylov space; the errors recorded are the minimal relative residuals.
-/

namespace Cyten.Props

open Cyten.Sparse Cyten.Krylov
open scoped InnerProductSpace

variable {𝕜 E : Type} [RCLike 𝕜] [NormedAddCommGroup E] [InnerProductSpace 𝕜 E]

/-! ### Specification -/

/-- `z` minimises the residual of `A z = b` among `x + K`, `K` the Krylov space of dimension `m` of
the residual of `x`. -/
structure IsMinRes (A : E →ₗ[𝕜] E) (b x : E) (m : ℕ) (z : E) : Prop where
  mem : z - x ∈ krylovSpace A (b - A x) m
  minimal : ∀ z', z' - x ∈ krylovSpace A (b - A x) m → ‖b - A z‖ ≤ ‖b - A z'‖

/-- norm of the residual relative to `b` (absolute if `b = 0`) -/
noncomputable def relRes (A : E →ₗ[𝕜] E) (b z : E) : ℝ :=
  ‖b - A z‖ / (open Classical in if b = 0 then 1 else ‖b‖)

/-- One cycle of `m` steps leads from `x` to `x'`; `errs` are the errors it records. -/
structure GCycle (A : E →ₗ[𝕜] E) (b x : E) (errs : List ℝ) (m : ℕ) (x' : E) : Prop where
  minres : IsMinRes A b x m x'
  length : errs.length = m + 1
  errs : ∀ (i : ℕ) (e : ℝ), errs[i]? = some e → ∃ z, IsMinRes A b x i z ∧ e = relRes A b z

/-- A sequence of cycles leads from `x` to `xf`. -/
inductive GCyclesSpec (A : E →ₗ[𝕜] E) (b : E) : E → List (List ℝ) → List ℕ → E → Prop
  | nil (x : E) : GCyclesSpec A b x [] [] x
  | cons {x x' xf : E} {errs : List ℝ} {m : ℕ} {te : List (List ℝ)} {ti : List ℕ} :
      GCycle A b x errs m x' → GCyclesSpec A b x' te ti xf →
      GCyclesSpec A b x (errs :: te) (m :: ti) xf

/-- `std::sqrt` for numbers that are real and non-negative -/
def RealSqrt (sq : 𝕜 → 𝕜) : Prop := ∀ x : ℝ, 0 ≤ x → sq (x : 𝕜) = ((Real.sqrt x : ℝ) : 𝕜)

/-- The inner products computed during the iterations that start from `r` are real numbers. -/
def RealHessenberg (A : E →ₗ[𝕜] E) : Prop :=
  ∀ (r : E) (i k : ℕ), starRingEnd 𝕜 (ah A (unit0 𝕜 r) i k) = ah A (unit0 𝕜 r) i k

/-! ### Real rotations -/

section
variable {A : E →ₗ[𝕜] E} {q0 : E} {c s : ℕ → 𝕜} {n : ℕ}

theorem gw_orth (ho : ∀ i j, i ≤ n → j ≤ n → ⟪aq A q0 i, aq A q0 j⟫_𝕜 = if i = j then 1 else 0)
    (hc : ∀ m, m < n → starRingEnd 𝕜 (c m) = c m) (hs : ∀ m, m < n → starRingEnd 𝕜 (s m) = s m)
    (h1 : ∀ m, m < n → c m * c m + s m * s m = 1) (m : ℕ) (hm : m ≤ n) :
    ⟪gw A q0 c s m, gw A q0 c s m⟫_𝕜 = 1 ∧
    (∀ j, m < j → j ≤ n → ⟪gw A q0 c s m, aq A q0 j⟫_𝕜 = 0) ∧
    (∀ i, i < m → ⟪gp A q0 c s i, gw A q0 c s m⟫_𝕜 = 0 ∧
      ∀ j, i + 1 < j → j ≤ n → ⟪gp A q0 c s i, aq A q0 j⟫_𝕜 = 0) := by
  induction m with
  | zero =>
    refine ⟨?_, fun j hj hjn => ?_, fun i hi => by omega⟩
    · have := ho 0 0 (by omega) (by omega)
      rw [if_pos rfl] at this
      exact this
    · have := ho 0 j (by omega) hjn
      rw [if_neg (by omega)] at this
      exact this
  | succ m ih =>
    obtain ⟨i1, i2, i3⟩ := ih (by omega)
    have hcm := hc m (by omega)
    have hsm := hs m (by omega)
    have h1m := h1 m (by omega)
    have hww := i2 (m + 1) (by omega) hm
    have hqq := ho (m + 1) (m + 1) hm hm
    rw [if_pos rfl] at hqq
    have hqw : ⟪aq A q0 (m + 1), gw A q0 c s m⟫_𝕜 = 0 := inner_eq_zero_symm.1 hww
    refine ⟨?_, fun j hj hjn => ?_, fun i hi => ?_⟩
    · rw [gw, inner_add_left, inner_add_right, inner_add_right]
      simp only [inner_smul_left, inner_smul_right, i1, hww, hqw, hqq, map_neg, hcm, hsm]
      linear_combination h1m
    · have e := ho (m + 1) j hm hjn
      rw [if_neg (by omega)] at e
      rw [gw, inner_add_left, inner_smul_left, inner_smul_left, i2 j (by omega) hjn, e]
      simp
    · by_cases e : i = m
      · subst e
        constructor
        · unfold gp
          rw [gw, inner_add_left, inner_add_right, inner_add_right]
          simp only [inner_smul_left, inner_smul_right, i1, hww, hqw, hqq, hcm, hsm]
          ring
        · intro j hj hjn
          have e := ho (i + 1) j hm hjn
          rw [if_neg (by omega)] at e
          unfold gp
          rw [inner_add_left, inner_smul_left, inner_smul_left, i2 j (by omega) hjn, e]
          simp
      · obtain ⟨j1, j2⟩ := i3 i (by omega)
        refine ⟨?_, j2⟩
        rw [gw, inner_add_right, inner_smul_right, inner_smul_right, j1, j2 (m + 1) (by omega) hm]
        simp

end

/-! ### One cycle -/

section
variable {A : E →ₗ[𝕜] E} {b x : E} {sq : 𝕜 → 𝕜}

/-- What holds after `k` passes of a cycle, if the numbers are real. -/
structure GGood (A : E →ₗ[𝕜] E) (b x : E) (k : ℕ) (s : GState 𝕜 E) : Prop where
  inv : GInv A (unit0 𝕜 (b - A x)) ‖b - A x‖ k s
  conj : ∀ i, i < k → starRingEnd 𝕜 (s.cosine i) = s.cosine i ∧ starRingEnd 𝕜 (s.sine i) = s.sine i
  nz : ∀ i, i < k → aq A (unit0 𝕜 (b - A x)) i ≠ 0
  brk : aq A (unit0 𝕜 (b - A x)) k = 0 → 0 < k → s.e1 k = 0
  errs : ∀ (i : ℕ) (e : ℝ), s.errs[i]? = some e → ∃ z, IsMinRes A b x i z ∧ e = relRes A b z
  last : 0 < k → s.errs.getLastD 0 = ‖s.e1 k‖ / gDenom ‖b‖

theorem gDenom_eq (b : E) : gDenom ‖b‖ = (open Classical in if b = 0 then 1 else ‖b‖) := by
  unfold gDenom
  by_cases h : b = 0
  · simp [h]
  · simp [h]

theorem unit0_unitOrZero (r : E) : UnitOrZero (unit0 𝕜 r) := by
  by_cases h : r = 0
  · right; rw [h]; simp [unit0]
  · left; exact unit0_norm h

theorem norm_smul_unit0 (r : E) : ((‖r‖ : ℝ) : 𝕜) • unit0 𝕜 r = r := by
  by_cases h : r = 0
  · rw [h]; simp [unit0]
  · unfold unit0
    rw [smul_smul, ← RCLike.ofReal_mul, mul_one_div_cancel (norm_ne_zero_iff.2 h)]
    simp

theorem span_aq_unit0 (r : E) (N : ℕ) :
    Submodule.span 𝕜 (Set.range fun i : Fin N => aq A (unit0 𝕜 r) i) = krylovSpace A r N := by
  by_cases h : r = 0
  · subst h
    have h1 : ∀ i, aq A (unit0 𝕜 (0 : E)) i = 0 := by
      intro i
      induction i with
      | zero => rw [aq_zero]; simp [unit0]
      | succ i ih => exact aq_zero_succ _ _ ih
    unfold krylovSpace
    simp [h1]
  · exact span_aq (by
      have := norm_ne_zero_iff.2 h
      simp [this]) N

theorem subVec_eq (a b : E) : subVec 𝕜 a b = a - b := by
  unfold subVec axpy
  rw [neg_smul, one_smul, sub_eq_add_neg, add_comm]

theorem isMinRes_zero : IsMinRes A b x 0 x := by
  refine ⟨by simp, fun z' hz => ?_⟩
  have : z' - x = 0 := by
    unfold krylovSpace at hz
    simpa using hz
  rw [sub_eq_zero.1 this]

theorem isMinRes_norm_eq {m : ℕ} {z z' : E} (h : IsMinRes A b x m z) (h' : IsMinRes A b x m z') :
    ‖b - A z‖ = ‖b - A z'‖ := le_antisymm (h.minimal _ h'.mem) (h'.minimal _ h.mem)

theorem gInit_good : GGood A b x 0 (gInit ‖b‖ (subVec 𝕜 b (A x))) := by
  have hq : (gInit ‖b‖ (subVec 𝕜 b (A x)) : GState 𝕜 E).qs = [unit0 𝕜 (b - A x)] := by
    unfold gInit
    dsimp only
    rw [subVec_eq]
    split_ifs with h
    · rfl
    · have : b - A x = 0 := by
        rw [not_lt] at h; exact norm_le_zero_iff.1 h
      rw [this]; simp [unit0]
  constructor
  · constructor
    · rw [hq]; simp [aqs, aq_zero]
    · intro i hi; omega
    · intro i hi; omega
    · intro i hi; omega
    · rw [Finset.sum_range_zero, zero_add]
      unfold gInit gw
      dsimp only
      rw [set1_eq, subVec_eq, aq_zero]
    · rfl
  · intro i hi; omega
  · intro i hi; omega
  · intro _ h; omega
  · intro i e he
    unfold gInit at he
    dsimp only at he
    rw [subVec_eq] at he
    cases i with
    | zero =>
      refine ⟨x, isMinRes_zero, ?_⟩
      simp only [List.getElem?_cons_zero, Option.some.injEq] at he
      rw [← he, gDenom_eq]; rfl
    | succ i => simp at he
  · intro h; omega

/-- the solution after `k` passes -/
noncomputable def gSol (A : E →ₗ[𝕜] E) (b x : E) (k : ℕ) (s : GState 𝕜 E) : E :=
  x + ∑ j ∈ Finset.range k, gBackLoop s.h s.e1 k k (fun _ => 0) j • aq A (unit0 𝕜 (b - A x)) j

theorem gSol_residual {k : ℕ} {s : GState 𝕜 E}
    (hi : GInv A (unit0 𝕜 (b - A x)) ‖b - A x‖ k s) :
    b - A (gSol A b x k s) = s.e1 k • gw A (unit0 𝕜 (b - A x)) s.cosine s.sine k := by
  have := residual_eq hi
  rw [norm_smul_unit0] at this
  unfold gSol
  rw [← this, map_add]
  abel

theorem gSol_mem {k : ℕ} {s : GState 𝕜 E} : gSol A b x k s - x ∈ krylovSpace A (b - A x) k := by
  unfold gSol
  rw [add_sub_cancel_left, ← span_aq_unit0]
  refine Submodule.sum_mem _ fun i hi => Submodule.smul_mem _ _ ?_
  exact Submodule.subset_span ⟨⟨i, Finset.mem_range.1 hi⟩, rfl⟩

/-- the images of the Krylov space are combinations of the rotated vectors -/
theorem A_krylov_mem {k : ℕ} {s : GState 𝕜 E}
    (hi : GInv A (unit0 𝕜 (b - A x)) ‖b - A x‖ k s) {v : E}
    (hv : v ∈ krylovSpace A (b - A x) k) :
    A v ∈ Submodule.span 𝕜
      (Set.range fun i : Fin k => gp A (unit0 𝕜 (b - A x)) s.cosine s.sine i) := by
  rw [← span_aq_unit0] at hv
  induction hv using Submodule.span_induction with
  | mem y hy =>
    obtain ⟨j, rfl⟩ := hy
    dsimp only
    rw [hi.col j j.2]
    refine Submodule.sum_mem _ fun i hij => Submodule.smul_mem _ _ ?_
    have := Finset.mem_range.1 hij
    exact Submodule.subset_span ⟨⟨i, by omega⟩, rfl⟩
  | zero => simp
  | add a b _ _ ha hb => rw [map_add]; exact Submodule.add_mem _ ha hb
  | smul c a _ ha => rw [map_smul]; exact Submodule.smul_mem _ _ ha

theorem minres_core {k : ℕ} {s : GState 𝕜 E}
    (hi : GInv A (unit0 𝕜 (b - A x)) ‖b - A x‖ k s)
    (hconj : ∀ i, i < k →
      starRingEnd 𝕜 (s.cosine i) = s.cosine i ∧ starRingEnd 𝕜 (s.sine i) = s.sine i)
    (hall : ∀ i, i ≤ k → aq A (unit0 𝕜 (b - A x)) i ≠ 0) :
    IsMinRes A b x k (gSol A b x k s) ∧ ‖b - A (gSol A b x k s)‖ = ‖s.e1 k‖ := by
  have hres := gSol_residual hi
  have ho : ∀ i j, i ≤ k → j ≤ k → ⟪aq A (unit0 𝕜 (b - A x)) i, aq A (unit0 𝕜 (b - A x)) j⟫_𝕜 =
      if i = j then 1 else 0 := by
    intro i j hik hjk
    split_ifs with h
    · subst h
      exact inner_self_of_norm_one
        ((aq_unit_or_zero (unit0_unitOrZero _) i).resolve_right (hall i hik))
    · exact aq_orth (unit0_unitOrZero _) i j h
  obtain ⟨g1, -, g3⟩ := gw_orth (c := s.cosine) (s := s.sine) ho (fun m hm => (hconj m hm).1)
    (fun m hm => (hconj m hm).2) hi.rot k le_rfl
  have hgn : ‖gw A (unit0 𝕜 (b - A x)) s.cosine s.sine k‖ = 1 := by
    have h2 := inner_self_eq_norm_sq_to_K (𝕜 := 𝕜) (gw A (unit0 𝕜 (b - A x)) s.cosine s.sine k)
    rw [g1] at h2
    have h3 : ‖gw A (unit0 𝕜 (b - A x)) s.cosine s.sine k‖ ^ 2 = 1 := by exact_mod_cast h2.symm
    nlinarith [norm_nonneg (gw A (unit0 𝕜 (b - A x)) s.cosine s.sine k)]
  have horth : ∀ v ∈ krylovSpace A (b - A x) k, ⟪A v, b - A (gSol A b x k s)⟫_𝕜 = 0 := by
    intro v hv
    have hm := A_krylov_mem hi hv
    rw [hres, inner_smul_right]
    have : ∀ u ∈ Submodule.span 𝕜
        (Set.range fun i : Fin k => gp A (unit0 𝕜 (b - A x)) s.cosine s.sine i),
        ⟪u, gw A (unit0 𝕜 (b - A x)) s.cosine s.sine k⟫_𝕜 = 0 := by
      intro u hu
      induction hu using Submodule.span_induction with
      | mem y hy =>
        obtain ⟨i, rfl⟩ := hy
        exact (g3 i i.2).1
      | zero => simp
      | add a b _ _ ha hb => rw [inner_add_left, ha, hb, add_zero]
      | smul c a _ ha => rw [inner_smul_left, ha, mul_zero]
    rw [this _ hm, mul_zero]
  refine ⟨⟨gSol_mem, fun z' hz' => ?_⟩, ?_⟩
  · have hd : z' - gSol A b x k s ∈ krylovSpace A (b - A x) k := by
      have := Submodule.sub_mem _ hz' (gSol_mem (A := A) (b := b) (x := x) (k := k) (s := s))
      rwa [sub_sub_sub_cancel_right] at this
    have h0 := horth _ hd
    have e1 : b - A z' = (b - A (gSol A b x k s)) - A (z' - gSol A b x k s) := by
      rw [map_sub]; abel
    have e2 : ‖b - A z'‖ * ‖b - A z'‖ = ‖b - A (gSol A b x k s)‖ * ‖b - A (gSol A b x k s)‖ +
        ‖A (z' - gSol A b x k s)‖ * ‖A (z' - gSol A b x k s)‖ := by
      rw [e1]
      have := norm_add_sq_eq_norm_sq_add_norm_sq_of_inner_eq_zero (𝕜 := 𝕜)
        (b - A (gSol A b x k s)) (-A (z' - gSol A b x k s)) (by
          rw [inner_neg_right, inner_eq_zero_symm.1 h0, neg_zero])
      rw [← sub_eq_add_neg, norm_neg] at this
      exact this
    nlinarith [norm_nonneg (b - A z'), norm_nonneg (b - A (gSol A b x k s)),
      norm_nonneg (A (z' - gSol A b x k s)), sq_nonneg (‖A (z' - gSol A b x k s)‖)]
  · rw [hres, norm_smul, hgn, mul_one]

theorem minres_of {k : ℕ} {s : GState 𝕜 E}
    (hi : GInv A (unit0 𝕜 (b - A x)) ‖b - A x‖ k s)
    (hconj : ∀ i, i < k →
      starRingEnd 𝕜 (s.cosine i) = s.cosine i ∧ starRingEnd 𝕜 (s.sine i) = s.sine i)
    (hnz : ∀ i, i < k → aq A (unit0 𝕜 (b - A x)) i ≠ 0)
    (hbrk : aq A (unit0 𝕜 (b - A x)) k = 0 → s.e1 k = 0) :
    IsMinRes A b x k (gSol A b x k s) ∧ ‖b - A (gSol A b x k s)‖ = ‖s.e1 k‖ := by
  by_cases hz : aq A (unit0 𝕜 (b - A x)) k = 0
  · have hres := gSol_residual hi
    rw [hbrk hz, zero_smul] at hres
    refine ⟨⟨gSol_mem, fun z' _ => ?_⟩, ?_⟩
    · rw [hres, norm_zero]; exact norm_nonneg _
    · rw [hres, hbrk hz, norm_zero, norm_zero]
  · exact minres_core hi hconj (fun i hik => by
      by_cases e : i = k
      · rw [e]; exact hz
      · exact hnz i (by omega))

theorem minres_of_good {k : ℕ} {s : GState 𝕜 E} (hg : GGood A b x k s) (hk : 0 < k) :
    IsMinRes A b x k (gSol A b x k s) ∧ ‖b - A (gSol A b x k s)‖ = ‖s.e1 k‖ :=
  minres_of hg.inv hg.conj hg.nz fun h => hg.brk h hk

theorem conj_of_real {z : 𝕜} (h : starRingEnd 𝕜 z = z) : ((RCLike.re z : ℝ) : 𝕜) = z :=
  RCLike.conj_eq_iff_re.1 h

theorem gV_real (hr : RealHessenberg A) {k : ℕ} {s : GState 𝕜 E} (hg : GGood A b x k s) :
    ∃ v1 v2 : ℝ, (gV A k s).1 = (v1 : 𝕜) ∧ (gV A k s).2 = (v2 : 𝕜) := by
  obtain ⟨-, hh2, hh3⟩ := gArnoldi_h (unit0_unitOrZero _) hg.inv.qs
  have h1 : starRingEnd 𝕜 (gV A k s).1 = (gV A k s).1 := by
    unfold gV
    refine rotateLoop_conj _ _ _ _ _ _ k (by omega) (fun m hm => (hg.conj m hm).1)
      (fun m hm => (hg.conj m hm).2) (fun a ha => ?_) k le_rfl
    rw [hh2 a ha]
    exact hr _ a k
  refine ⟨RCLike.re (gV A k s).1, _, (conj_of_real h1).symm,
    (gV_eq (unit0_unitOrZero _) hg.inv).1⟩

theorem real_sqrt_eq (hsq : RealSqrt sq) (v1 v2 : ℝ) :
    sq ((v1 : 𝕜) * (v1 : 𝕜) + (v2 : 𝕜) * (v2 : 𝕜)) =
      ((Real.sqrt (v1 * v1 + v2 * v2) : ℝ) : 𝕜) := by
  rw [← hsq _ (by nlinarith [mul_self_nonneg v1, mul_self_nonneg v2])]
  congr 1
  push_cast
  ring

theorem gStep_good (hs2 : SqrtSpec sq) (hsq : RealSqrt sq) (hr : RealHessenberg A) {k : ℕ}
    {s s' : GState 𝕜 E} (hg : GGood A b x k s) (hs : gStep sq A ‖b‖ k s = some s') :
    GGood A b x (k + 1) s' := by
  obtain ⟨h1, h2, h3, h4, ht, hck, hsk, he⟩ := gStep_some hs2 (unit0_unitOrZero _) hg.inv hs
  obtain ⟨v1, v2, e1, e2⟩ := gV_real hr hg
  have hlast : s'.errs.getLastD 0 = ‖s'.e1 (k + 1)‖ / gDenom ‖b‖ := by
    rw [h3]; simp
  have hconj : ∀ i, i < k + 1 →
      starRingEnd 𝕜 (s'.cosine i) = s'.cosine i ∧ starRingEnd 𝕜 (s'.sine i) = s'.sine i := by
    intro i hi
    by_cases e : i = k
    · subst e
      rw [e1, e2, real_sqrt_eq hsq] at hck hsk
      rw [hck, hsk]
      simp
    · rw [(h4 i (by omega)).1, (h4 i (by omega)).2]
      exact hg.conj i (by omega)
  have hnz : ∀ i, i < k + 1 → aq A (unit0 𝕜 (b - A x)) i ≠ 0 := by
    intro i hi
    by_cases e : i = k
    · rw [e]; exact h2
    · exact hg.nz i (by omega)
  have hbrk : aq A (unit0 𝕜 (b - A x)) (k + 1) = 0 → s'.e1 (k + 1) = 0 := by
    intro hz
    have hau := au_eq A (unit0 𝕜 (b - A x)) k
    rw [hz, smul_zero] at hau
    have : (gV A k s).2 = 0 := by
      rw [(gV_eq (unit0_unitOrZero _) hg.inv).1]
      unfold ab
      rw [hau]; simp
    rw [he, hsk, this]
    simp
  have hold : ∀ (i : ℕ) (e : ℝ), s'.errs[i]? = some e → i ≤ k →
      ∃ z, IsMinRes A b x i z ∧ e = relRes A b z := by
    intro i e hie hik
    rw [h3, List.getElem?_append_left (by rw [hg.inv.errs]; omega)] at hie
    exact hg.errs i e hie
  have hm := minres_of h1 hconj hnz hbrk
  refine ⟨h1, hconj, hnz, fun hz _ => hbrk hz, ?_, fun _ => hlast⟩
  intro i e hie
  by_cases hik : i ≤ k
  · exact hold i e hie hik
  · have hlen : i < s'.errs.length := by
      by_contra h
      rw [List.getElem?_eq_none (by omega)] at hie
      simp at hie
    have : i = k + 1 := by rw [h1.errs] at hlen; omega
    subst this
    refine ⟨_, hm.1, ?_⟩
    rw [h3, List.getElem?_append_right (by rw [hg.inv.errs]), hg.inv.errs, Nat.sub_self] at hie
    simp only [List.getElem?_cons_zero, Option.some.injEq] at hie
    rw [← hie, gDenom_eq]
    unfold relRes
    rw [hm.2]

theorem gLoop_good {o : GOptions} (hs2 : SqrtSpec sq) (hsq : RealSqrt sq) (hr : RealHessenberg A)
    (fuel k : ℕ) (s : GState 𝕜 E) (hg : GGood A b x k s) {s' : GState 𝕜 E} {m : ℕ} {cv : Bool}
    (hl : gLoop o sq A ‖b‖ fuel k s = some (s', m, cv)) :
    GGood A b x m s' ∧ k ≤ m ∧ m ≤ k + fuel ∧
    (cv = true → o.nMin < m ∧ s'.errs.getLastD 0 < o.res) ∧ (cv = false → m = k + fuel) := by
  induction fuel generalizing k s with
  | zero =>
    simp only [gLoop, Option.some.injEq, Prod.mk.injEq] at hl
    obtain ⟨rfl, rfl, rfl⟩ := hl
    exact ⟨hg, le_rfl, le_rfl, by simp, fun _ => rfl⟩
  | succ fuel ih =>
    rw [gLoop] at hl
    cases hst : gStep sq A ‖b‖ k s with
    | none => rw [hst] at hl; simp at hl
    | some s1 =>
      rw [hst] at hl
      dsimp only at hl
      have hg1 := gStep_good hs2 hsq hr hg hst
      split_ifs at hl with hc
      · simp only [Option.some.injEq, Prod.mk.injEq] at hl
        obtain ⟨rfl, rfl, rfl⟩ := hl
        exact ⟨hg1, by omega, by omega, fun _ => ⟨by omega, hc.1⟩, by simp⟩
      · obtain ⟨h1, h2, h3, h4, h5⟩ := ih (k + 1) s1 hg1 hl
        exact ⟨h1, by omega, by omega, h4, fun h => by have := h5 h; omega⟩

theorem gBacksolve_good {m : ℕ} {s : GState 𝕜 E} (hg : GGood A b x m s) :
    gBacksolve s.h s.e1 m = some (gBackLoop s.h s.e1 m m fun _ => 0) := by
  unfold gBacksolve
  rw [if_neg]
  rintro ⟨i, hi, h⟩
  exact hg.inv.diag i hi h

theorem gUpdate_good {m : ℕ} {s : GState 𝕜 E} (hg : GGood A b x m s) :
    gUpdate s.qs (gBackLoop s.h s.e1 m m fun _ => 0) x m = gSol A b x m s := by
  rw [hg.inv.qs, gUpdate_eq _ _ _ _ (by omega)]
  rfl

theorem gCycle_good {m : ℕ} {s : GState 𝕜 E} (hg : GGood A b x m s) :
    GCycle A b x s.errs m (gSol A b x m s) := by
  refine ⟨?_, hg.inv.errs, hg.errs⟩
  by_cases hm : 0 < m
  · exact (minres_of_good hg hm).1
  · have : m = 0 := by omega
    subst this
    have : gSol A b x 0 s = x := by simp [gSol]
    rw [this]
    exact isMinRes_zero

theorem gCycles_good {o : GOptions} (hs2 : SqrtSpec sq) (hsq : RealSqrt sq) (hr : RealHessenberg A)
    (fuel : ℕ) (x : E) (te0 : List (List ℝ)) (ti0 : List ℕ) {xf : E} {te : List (List ℝ)}
    {ti : List ℕ}
    (h : gCycles o sq A b fuel x (gInit ‖b‖ (subVec 𝕜 b (A x))) te0 ti0 = some (xf, te, ti)) :
    ∃ te1 ti1, GCyclesSpec A b x te1 ti1 xf ∧ ti = ti0 ++ ti1 ∧
      (∀ m ∈ ti1.dropLast, m = o.nMax) ∧ (∀ m ∈ ti1, m ≤ o.nMax) ∧
      ((te = te0 ++ te1 ∧ relRes A b xf < o.res ∧ o.nMin < ti1.getLastD 0) ∨
       (te = te0 ++ te1 ++ [[relRes A b xf]] ∧ ti1.length = fuel)) := by
  induction fuel generalizing x te0 ti0 with
  | zero =>
    simp only [gCycles, Option.some.injEq, Prod.mk.injEq] at h
    obtain ⟨rfl, rfl, rfl⟩ := h
    refine ⟨[], [], .nil _, by simp, by simp, by simp, Or.inr ⟨?_, rfl⟩⟩
    rw [List.append_nil]
    congr 2
    unfold gInit relRes
    dsimp only
    rw [subVec_eq, gDenom_eq]
  | succ fuel ih =>
    rw [gCycles] at h
    cases hl : gLoop o sq A ‖b‖ o.nMax 0 (gInit ‖b‖ (subVec 𝕜 b (A x))) with
    | none => rw [hl] at h; simp at h
    | some r =>
      obtain ⟨s', m, cv⟩ := r
      rw [hl] at h
      dsimp only at h
      obtain ⟨hg, -, hm, h4, h5⟩ := gLoop_good hs2 hsq hr o.nMax 0 _ gInit_good hl
      rw [gBacksolve_good hg] at h
      dsimp only at h
      rw [gUpdate_good hg] at h
      have hcy := gCycle_good hg
      cases cv with
      | true =>
        rw [if_pos rfl, Option.some.injEq, Prod.mk.injEq, Prod.mk.injEq] at h
        obtain ⟨rfl, rfl, rfl⟩ := h
        obtain ⟨h6, h7⟩ := h4 rfl
        refine ⟨[s'.errs], [m], .cons hcy (.nil _), rfl, by simp, by simp; omega,
          Or.inl ⟨rfl, ?_, by simpa using h6⟩⟩
        rw [hg.last (by omega)] at h7
        unfold relRes
        rw [(minres_of_good hg (by omega)).2, ← gDenom_eq]
        exact h7
      | false =>
        rw [if_neg (by simp)] at h
        obtain ⟨te1, ti1, g1, g2, g3, g4, g5⟩ := ih _ _ _ h
        refine ⟨s'.errs :: te1, m :: ti1, .cons hcy g1, ?_, ?_, ?_, ?_⟩
        · rw [g2]; simp
        · intro m' hm'
          have h6 := h5 rfl
          cases ti1 with
          | nil => simp at hm'
          | cons a l =>
            rw [List.dropLast_cons_of_ne_nil (by simp), List.mem_cons] at hm'
            rcases hm' with rfl | h
            · omega
            · exact g3 _ h
        · intro m' hm'
          rw [List.mem_cons] at hm'
          rcases hm' with rfl | h
          · omega
          · exact g4 _ h
        · rcases g5 with ⟨g6, g7, g8⟩ | ⟨g6, g7⟩
          · refine Or.inl ⟨by rw [g6]; simp, g7, ?_⟩
            cases ti1 with
            | nil => simp at g8
            | cons a l => simpa using g8
          · exact Or.inr ⟨by rw [g6]; simp, by simp [g7]⟩

theorem rel_eq (z : E) : (open Classical in if ‖b‖ ≠ 0 then ‖subVec 𝕜 (A z) b‖ / ‖b‖ else
    ‖subVec 𝕜 (A z) b‖) = relRes A b z := by
  unfold relRes
  rw [subVec_eq, norm_sub_rev]
  by_cases h : b = 0
  · simp [h]
  · simp [h]

/-! ### The theorems -/

/-- **C50.** The relative error returned is the relative residual of the solution returned (for
every operator, real or complex). -/
theorem C50_rel {o : GOptions} {A : E → E} {R : GResult E} (hr : gmresRun o sq A x b = some R) :
    R.rel = ‖b - A R.x‖ / (open Classical in if b = 0 then 1 else ‖b‖) := by
  unfold gmresRun at hr
  dsimp only at hr
  by_cases h : (gInit ‖b‖ (subVec 𝕜 b (A x)) : GState 𝕜 E).errs.getD 0 0 < o.res
  · rw [if_pos h, Option.some.injEq] at hr
    subst hr
    dsimp only
    unfold gInit
    dsimp only
    rw [subVec_eq, gDenom_eq]
    rfl
  · rw [if_neg h] at hr
    cases hc : gCycles o sq A b o.restart x (gInit ‖b‖ (subVec 𝕜 b (A x))) [] [] with
    | none => rw [hc] at hr; simp at hr
    | some r =>
      rw [hc, Option.some.injEq] at hr
      subst hr
      dsimp only
      rw [subVec_eq, norm_sub_rev]
      by_cases h : b = 0
      · simp [h]
      · simp [h]

/-- **C50.** The run is a sequence of cycles, each of which minimises the residual over the Krylov
space of its starting point and records the minimal relative residuals of the spaces of all smaller
dimensions; all cycles but the last have `N_max` steps. It ends when the relative residual is below
`res` (after more than `N_min` steps of the last cycle, or before the first) or after `restart`
cycles. -/
theorem C50_gmres {o : GOptions} (hs2 : SqrtSpec sq) (hsq : RealSqrt sq) (hA : RealHessenberg A)
    {R : GResult E} (hr : gmresRun o sq A x b = some R) :
    ∃ te, GCyclesSpec A b x te R.totalIters R.x ∧ R.rel = relRes A b R.x ∧
      (∀ m ∈ R.totalIters.dropLast, m = o.nMax) ∧ (∀ m ∈ R.totalIters, m ≤ o.nMax) ∧
      ((R.totalError = te ∧ R.rel < o.res ∧ o.nMin < R.totalIters.getLastD 0) ∨
       (R.totalError = te ++ [[R.rel]] ∧
        (R.totalIters.length = o.restart ∨ (R.totalIters = [] ∧ R.rel < o.res)))) := by
  have hrel : R.rel = relRes A b R.x := C50_rel hr
  unfold gmresRun at hr
  dsimp only at hr
  by_cases h : (gInit ‖b‖ (subVec 𝕜 b (A x)) : GState 𝕜 E).errs.getD 0 0 < o.res
  · rw [if_pos h, Option.some.injEq] at hr
    refine ⟨[], ?_, hrel, ?_, ?_, Or.inr ⟨?_, Or.inr ⟨?_, ?_⟩⟩⟩
    · subst hr; exact .nil _
    · subst hr; simp
    · subst hr; simp
    · subst hr; rfl
    · subst hr; rfl
    · subst hr; exact h
  · rw [if_neg h] at hr
    cases hc : gCycles o sq A b o.restart x (gInit ‖b‖ (subVec 𝕜 b (A x))) [] [] with
    | none => rw [hc] at hr; simp at hr
    | some r =>
      obtain ⟨xf, te, ti⟩ := r
      rw [hc, Option.some.injEq] at hr
      obtain ⟨te1, ti1, g1, g2, g3, g4, g5⟩ := gCycles_good hs2 hsq hA o.restart x [] [] hc
      rw [List.nil_append] at g2
      subst g2
      have hx : R.x = xf := by rw [← hr]
      have hti : R.totalIters = ti := by rw [← hr]
      have hte : R.totalError = te := by rw [← hr]
      rw [hx, hti, hte]
      rw [hx] at hrel
      refine ⟨te1, g1, hrel, g3, g4, ?_⟩
      rcases g5 with ⟨g6, g7, g8⟩ | ⟨g6, g7⟩
      · exact Or.inl ⟨by simpa using g6, by rw [hrel]; exact g7, g8⟩
      · exact Or.inr ⟨by rw [hrel]; simpa using g6, Or.inl g7⟩

theorem relRes_le {m : ℕ} {z z' : E} (h : IsMinRes A b x m z)
    (hz : z' - x ∈ krylovSpace A (b - A x) m) : relRes A b z ≤ relRes A b z' := by
  unfold relRes
  refine div_le_div_of_nonneg_right (h.minimal _ hz) ?_
  split_ifs
  · exact zero_le_one
  · exact norm_nonneg _

/-- **C50.** The relative residual never gets worse: the final one is at most the initial one, and
the errors recorded in a cycle decrease. -/
theorem C50_monotone {o : GOptions} (hs2 : SqrtSpec sq) (hsq : RealSqrt sq)
    (hA : RealHessenberg A) {R : GResult E} (hr : gmresRun o sq A x b = some R) :
    R.rel ≤ relRes A b x ∧ ∀ errs ∈ R.totalError, errs.Pairwise (· ≥ ·) := by
  obtain ⟨te, h1, h2, -, -, h5⟩ := C50_gmres hs2 hsq hA hr
  have hcy : ∀ {x errs m x'}, GCycle A b x errs m x' →
      relRes A b x' ≤ relRes A b x ∧ errs.Pairwise (· ≥ ·) := by
    intro x errs m x' h
    refine ⟨relRes_le h.minres (by simp), ?_⟩
    rw [List.pairwise_iff_getElem]
    intro i j hi hj hij
    obtain ⟨z, hz, e1⟩ := h.errs i _ (List.getElem?_eq_getElem hi)
    obtain ⟨z', hz', e2⟩ := h.errs j _ (List.getElem?_eq_getElem hj)
    rw [e1, e2]
    exact relRes_le hz' (krylov_mono _ _ hij.le hz.mem)
  have hall : relRes A b R.x ≤ relRes A b x ∧ ∀ errs ∈ te, errs.Pairwise (· ≥ ·) := by
    generalize R.x = xf at h1
    generalize R.totalIters = ti at h1
    clear h2 h5 hr
    induction h1 with
    | nil x => exact ⟨le_rfl, by simp⟩
    | cons hc _ ih =>
      refine ⟨ih.1.trans (hcy hc).1, ?_⟩
      intro errs he
      rw [List.mem_cons] at he
      rcases he with rfl | he
      · exact (hcy hc).2
      · exact ih.2 _ he
  refine ⟨by rw [h2]; exact hall.1, ?_⟩
  rcases h5 with ⟨h6, -⟩ | ⟨h6, -⟩
  · rw [h6]; exact hall.2
  · rw [h6]
    intro errs he
    rw [List.mem_append, List.mem_singleton] at he
    rcases he with he | rfl
    · exact hall.2 _ he
    · simp

/-- **C50.** A cycle whose Krylov space contains a solution finds a solution. -/
theorem C50_exact {m : ℕ} {errs : List ℝ} {x' z : E} (h : GCycle A b x errs m x')
    (hz : z - x ∈ krylovSpace A (b - A x) m) (hs : A z = b) : A x' = b := by
  have := h.minres.minimal z hz
  rw [hs, sub_self, norm_zero] at this
  exact (sub_eq_zero.1 (norm_le_zero_iff.1 this)).symm

/-! ### When a run fails -/

theorem aq_zero_of_invariant {r : E} {d : ℕ}
    (hd : krylovSpace A r (d + 1) = krylovSpace A r d) : aq A (unit0 𝕜 r) d = 0 := by
  have hmem : aq A (unit0 𝕜 r) d ∈ krylovSpace A r (d + 1) := by
    rw [← span_aq_unit0]
    exact Submodule.subset_span ⟨⟨d, by omega⟩, rfl⟩
  rw [hd, ← span_aq_unit0] at hmem
  have : ∀ v ∈ Submodule.span 𝕜 (Set.range fun i : Fin d => aq A (unit0 𝕜 r) i),
      ⟪v, aq A (unit0 𝕜 r) d⟫_𝕜 = 0 := by
    intro v hv
    induction hv using Submodule.span_induction with
    | mem y hy =>
      obtain ⟨i, rfl⟩ := hy
      exact aq_orth (unit0_unitOrZero r) _ _ (by omega)
    | zero => simp
    | add a b _ _ ha hb => rw [inner_add_left, ha, hb, add_zero]
    | smul c a _ ha => rw [inner_smul_left, ha, mul_zero]
  exact inner_self_eq_zero.1 (this _ hmem)

theorem invariant_of_aq_zero {r : E} {d : ℕ} (h : aq A (unit0 𝕜 r) d = 0) :
    krylovSpace A r (d + 1) = krylovSpace A r d := by
  rw [← span_aq_unit0, ← span_aq_unit0]
  apply le_antisymm
  · rw [Submodule.span_le]
    rintro _ ⟨i, rfl⟩
    by_cases e : (i : ℕ) = d
    · dsimp only
      rw [e, h]
      exact Submodule.zero_mem _
    · exact Submodule.subset_span ⟨⟨i, by omega⟩, rfl⟩
  · refine Submodule.span_mono ?_
    rintro _ ⟨i, rfl⟩
    exact ⟨⟨i, by omega⟩, rfl⟩

theorem gLoop_fails {o : GOptions} (hs2 : SqrtSpec sq) {d : ℕ}
    (hd : aq A (unit0 𝕜 (b - A x)) d = 0) (h1 : d ≤ o.nMin) (fuel k : ℕ) (hk : k ≤ d)
    (hf : d < k + fuel) (s : GState 𝕜 E) (hi : GInv A (unit0 𝕜 (b - A x)) ‖b - A x‖ k s) :
    gLoop o sq A ‖b‖ fuel k s = none := by
  induction fuel generalizing k s with
  | zero => omega
  | succ fuel ih =>
    rw [gLoop]
    cases hst : gStep sq A ‖b‖ k s with
    | none => rfl
    | some s1 =>
      dsimp only
      obtain ⟨g1, g2, -⟩ := gStep_some hs2 (unit0_unitOrZero _) hi hst
      have hkd : k ≠ d := fun e => g2 (by rw [e]; exact hd)
      rw [if_neg (by omega)]
      exact ih (k + 1) (by omega) (by omega) s1 g1

/-- **C50, defect.** The documentation promises a solution whenever the Krylov space contains one;
but if the Krylov space stops growing after at most `N_min` steps (and before `N_max`), so that it
contains the solution of every regular equation, then the run divides zero by zero: the result is
NaN. (`N_min` is 5 by default.) This holds for real and complex vectors. -/
theorem C50_breakdown_fails {o : GOptions} (hs2 : SqrtSpec sq) {d : ℕ}
    (hd : krylovSpace A (b - A x) (d + 1) = krylovSpace A (b - A x) d) (h1 : d ≤ o.nMin)
    (h2 : d < o.nMax) (h3 : 1 ≤ o.restart) (h4 : o.res ≤ relRes A b x) :
    gmresRun o sq A x b = none := by
  unfold gmresRun
  dsimp only
  rw [if_neg]
  · obtain ⟨n, hn⟩ : ∃ n, o.restart = n + 1 := ⟨o.restart - 1, by omega⟩
    rw [hn, gCycles, gLoop_fails hs2 (aq_zero_of_invariant hd) h1 o.nMax 0 (by omega) (by omega) _
      gInit_good.inv]
  · unfold gInit
    dsimp only
    rw [subVec_eq, gDenom_eq, not_lt]
    exact h4

theorem gStep_none {k : ℕ} {s : GState 𝕜 E} (hs2 : SqrtSpec sq) (hsq : RealSqrt sq)
    (hA : RealHessenberg A) (hinj : Function.Injective A) (hg : GGood A b x k s)
    (hn : gStep sq A ‖b‖ k s = none) : aq A (unit0 𝕜 (b - A x)) k = 0 := by
  rw [gStep_none_iff] at hn
  obtain ⟨v1, v2, e1, e2⟩ := gV_real hA hg
  obtain ⟨-, hAk⟩ := gV_eq (unit0_unitOrZero _) hg.inv
  rw [e1, e2, real_sqrt_eq hsq, RCLike.ofReal_eq_zero, Real.sqrt_eq_zero'] at hn
  have hv1 : v1 = 0 := by nlinarith [mul_self_nonneg v1, mul_self_nonneg v2]
  have hv2 : v2 = 0 := by nlinarith [mul_self_nonneg v1, mul_self_nonneg v2]
  rw [e1, e2, hv1, hv2] at hAk
  simp only [RCLike.ofReal_zero, zero_smul, add_zero] at hAk
  rw [← solve_tri hg.inv] at hAk
  have hak := hinj hAk
  have : ⟪aq A (unit0 𝕜 (b - A x)) k, aq A (unit0 𝕜 (b - A x)) k⟫_𝕜 = 0 := by
    conv_lhs => enter [2]; rw [hak]
    rw [sum_inner]
    refine Finset.sum_eq_zero fun i hi => ?_
    have := Finset.mem_range.1 hi
    rw [inner_smul_left, aq_orth (unit0_unitOrZero _) _ _ (by omega), mul_zero]
  exact inner_self_eq_zero.1 this

theorem gLoop_none {o : GOptions} (hs2 : SqrtSpec sq) (hsq : RealSqrt sq) (hA : RealHessenberg A)
    (hinj : Function.Injective A) (hres : 0 < o.res) (fuel k : ℕ) (s : GState 𝕜 E)
    (hg : GGood A b x k s) (hb : 0 < k → aq A (unit0 𝕜 (b - A x)) k = 0 → k ≤ o.nMin)
    (hl : gLoop o sq A ‖b‖ fuel k s = none) :
    ∃ d, d ≤ o.nMin ∧ d < k + fuel ∧
      krylovSpace A (b - A x) (d + 1) = krylovSpace A (b - A x) d := by
  induction fuel generalizing k s with
  | zero => simp [gLoop] at hl
  | succ fuel ih =>
    rw [gLoop] at hl
    cases hst : gStep sq A ‖b‖ k s with
    | none =>
      have hz := gStep_none hs2 hsq hA hinj hg hst
      refine ⟨k, ?_, by omega, invariant_of_aq_zero hz⟩
      by_cases hk : 0 < k
      · exact hb hk hz
      · omega
    | some s1 =>
      rw [hst] at hl
      dsimp only at hl
      have hg1 := gStep_good hs2 hsq hA hg hst
      by_cases hc : s1.errs.getLastD 0 < o.res ∧ o.nMin ≤ k
      · rw [if_pos hc] at hl; simp at hl
      · rw [if_neg hc] at hl
        obtain ⟨d, h1, h2, h3⟩ := ih (k + 1) s1 hg1 (fun _ hz => by
          by_contra hlt
          apply hc
          refine ⟨?_, by omega⟩
          rw [hg1.last (by omega), hg1.brk hz (by omega), norm_zero, zero_div]
          exact hres) hl
        exact ⟨d, h1, by omega, h3⟩

/-- **C50.** For an injective operator that is the only way a run can fail: if it does, it has
reached (after complete cycles) a point whose Krylov space stops growing after at most `N_min` steps
and before `N_max`. -/
theorem C50_fails_only {o : GOptions} (hs2 : SqrtSpec sq) (hsq : RealSqrt sq)
    (hA : RealHessenberg A) (hinj : Function.Injective A) (hres : 0 < o.res)
    (hr : gmresRun o sq A x b = none) :
    ∃ te ti xf d, GCyclesSpec A b x te ti xf ∧ (∀ m ∈ ti, m = o.nMax) ∧ ti.length < o.restart ∧
      d ≤ o.nMin ∧ d < o.nMax ∧
      krylovSpace A (b - A xf) (d + 1) = krylovSpace A (b - A xf) d := by
  have key : ∀ fuel (x : E) te0 ti0,
      gCycles o sq A b fuel x (gInit ‖b‖ (subVec 𝕜 b (A x))) te0 ti0 = none →
      ∃ te ti xf d, GCyclesSpec A b x te ti xf ∧ (∀ m ∈ ti, m = o.nMax) ∧ ti.length < fuel ∧
        d ≤ o.nMin ∧ d < o.nMax ∧
        krylovSpace A (b - A xf) (d + 1) = krylovSpace A (b - A xf) d := by
    intro fuel
    induction fuel with
    | zero => intro x te0 ti0 h; simp [gCycles] at h
    | succ fuel ih =>
      intro x te0 ti0 h
      rw [gCycles] at h
      cases hl : gLoop o sq A ‖b‖ o.nMax 0 (gInit ‖b‖ (subVec 𝕜 b (A x))) with
      | none =>
        obtain ⟨d, h1, h2, h3⟩ := gLoop_none hs2 hsq hA hinj hres o.nMax 0 _ gInit_good
          (fun h => by omega) hl
        exact ⟨[], [], x, d, .nil _, by simp, by simp, h1, by omega, h3⟩
      | some r =>
        obtain ⟨s', m, cv⟩ := r
        rw [hl] at h
        dsimp only at h
        obtain ⟨hg, -, hm, h4, h5⟩ := gLoop_good hs2 hsq hA o.nMax 0 _ gInit_good hl
        rw [gBacksolve_good hg] at h
        dsimp only at h
        rw [gUpdate_good hg] at h
        cases cv with
        | true => rw [if_pos rfl] at h; simp at h
        | false =>
          rw [if_neg (by simp)] at h
          obtain ⟨te, ti, xf, d, h6, h7, h8, h9⟩ := ih _ _ _ h
          refine ⟨s'.errs :: te, m :: ti, xf, d, .cons (gCycle_good hg) h6, ?_, by simp; omega, h9⟩
          intro m' hm'
          rw [List.mem_cons] at hm'
          rcases hm' with rfl | hm'
          · have := h5 rfl; omega
          · exact h7 _ hm'
  unfold gmresRun at hr
  dsimp only at hr
  by_cases h : (gInit ‖b‖ (subVec 𝕜 b (A x)) : GState 𝕜 E).errs.getD 0 0 < o.res
  · rw [if_pos h] at hr; simp at hr
  · rw [if_neg h] at hr
    cases hc : gCycles o sq A b o.restart x (gInit ‖b‖ (subVec 𝕜 b (A x))) [] [] with
    | none => exact key _ _ _ _ hc
    | some r => rw [hc] at hr; simp at hr

end

/-! ### The hypotheses can be met -/

theorem sqrtSpec_real : SqrtSpec Real.sqrt := by
  intro v1 v2
  exact Real.mul_self_sqrt (by nlinarith [mul_self_nonneg v1, mul_self_nonneg v2])

theorem realSqrt_real : RealSqrt (𝕜 := ℝ) Real.sqrt := fun _ _ => rfl

/-- over the real numbers all inner products are real -/
theorem realHessenberg_real {F : Type} [NormedAddCommGroup F] [InnerProductSpace ℝ F]
    (A : F →ₗ[ℝ] F) : RealHessenberg A := fun _ _ _ => rfl

/-- for a Hermitian operator, too -/
theorem realHessenberg_symmetric {A : E →ₗ[𝕜] E} (hs : A.IsSymmetric) : RealHessenberg A := by
  intro r i k
  have h0 := unit0_unitOrZero (𝕜 := 𝕜) r
  have hlow : ∀ i k, k + 1 < i → ah A (unit0 𝕜 r) i k = 0 := by
    intro i k hik
    unfold ah
    rw [A_aq, inner_add_right, inner_sum, inner_smul_right, aq_orth h0 _ _ (by omega), mul_zero,
      add_zero]
    refine Finset.sum_eq_zero fun j hj => ?_
    have := Finset.mem_range.1 hj
    rw [inner_smul_right, aq_orth h0 _ _ (by omega), mul_zero]
  have hsub : ∀ k, ∃ c : ℝ, ah A (unit0 𝕜 r) (k + 1) k = (c : 𝕜) := by
    intro k
    unfold ah
    rw [A_aq, inner_add_right, inner_sum, inner_smul_right]
    rw [Finset.sum_eq_zero, zero_add]
    · rw [inner_self_eq_norm_sq_to_K]
      refine ⟨ab A (unit0 𝕜 r) k * ‖aq A (unit0 𝕜 r) (k + 1)‖ ^ 2, by push_cast; ring⟩
    · intro j hj
      have := Finset.mem_range.1 hj
      rw [inner_smul_right, aq_orth h0 _ _ (by omega), mul_zero]
  have hswap : starRingEnd 𝕜 (ah A (unit0 𝕜 r) i k) = ah A (unit0 𝕜 r) k i := by
    unfold ah
    rw [inner_conj_symm, hs]
  have hreal : ∀ i k, k < i → starRingEnd 𝕜 (ah A (unit0 𝕜 r) i k) = ah A (unit0 𝕜 r) i k := by
    intro i k hik
    by_cases e : i = k + 1
    · subst e
      obtain ⟨c, hc⟩ := hsub k
      rw [hc, RCLike.conj_ofReal]
    · rw [hlow i k (by omega), map_zero]
  rcases Nat.lt_trichotomy i k with h | h | h
  · have h1 := hreal k i h
    rw [hswap, ← h1, ← hswap, RCLike.conj_conj]
  · subst h; exact hswap
  · exact hreal i k h

end Cyten.Props
