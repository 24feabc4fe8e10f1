import Verif.Model.Arnoldi
import Verif.Lemmas.Gmres
import Verif.Props.Lanczos3

/-!
Invariants of the loop of `Arnoldi::_build_krylov` and Ritz pairs.
-/

namespace Cyten.Krylov

open Cyten.Sparse Cyten.Props
open scoped InnerProductSpace

/-! ### Matrix elements -/

section
variable {𝕜 E : Type} [RCLike 𝕜] [NormedAddCommGroup E] [InnerProductSpace 𝕜 E]

/-- the array `_h_krylov` after `k` steps -/
noncomputable def ahm (A : E →ₗ[𝕜] E) (q0 : E) (k : ℕ) (a b : ℕ) : 𝕜 :=
  if b < k then if a ≤ b then ah A q0 a b else if a = b + 1 then ((ab A q0 b : ℝ) : 𝕜) else 0 else 0

variable {A : E →ₗ[𝕜] E} {q0 : E}

theorem ahm_zero : ahm A q0 0 = fun _ _ => 0 := by
  funext a b
  unfold ahm
  rw [if_neg (by omega)]

theorem ahm_last {k : ℕ} : ahm A q0 (k + 1) (k + 1) k = ((ab A q0 k : ℝ) : 𝕜) := by
  unfold ahm
  rw [if_pos (by omega), if_neg (by omega), if_pos rfl]

theorem ahm_succ (h0 : UnitOrZero q0) (k : ℕ) :
    set2 (arnoldiLoop k (aqs A q0 (k + 1)) 0 (ahm A q0 k) (A (aq A q0 k))).1 (k + 1) k
      ((ab A q0 k : ℝ) : 𝕜) = ahm A q0 (k + 1) := by
  funext a b
  by_cases h1 : a = k + 1 ∧ b = k
  · rw [h1.1, h1.2, set2_eq, ahm_last]
  · rw [set2_ne _ _ h1, arnoldiLoop_fst _ _ _ _ _ (aqs_pairwise h0 _), aqs_length]
    by_cases h2 : b = k ∧ 0 ≤ a ∧ a < 0 + (k + 1)
    · rw [if_pos h2]
      unfold ahm
      rw [if_pos (by omega), if_pos (by omega), Nat.sub_zero, aqs_getD _ _ (by omega), h2.1]
      rfl
    · rw [if_neg h2]
      unfold ahm
      by_cases h3 : b < k
      · rw [if_pos h3, if_pos (by omega : b < k + 1)]
      · rw [if_neg h3]
        by_cases h4 : b < k + 1
        · rw [if_pos h4, if_neg (by omega), if_neg (by omega)]
        · rw [if_neg h4]

/-- the operator in the basis of the Arnoldi vectors -/
theorem A_aq_ahm {N j : ℕ} (hj : j < N) : A (aq A q0 j) =
    ∑ i ∈ Finset.range N, ahm A q0 N i j • aq A q0 i +
      (if j + 1 = N then ((ab A q0 j : ℝ) : 𝕜) else 0) • aq A q0 N := by
  rw [A_aq]
  have h1 : ∀ i ∈ Finset.range (j + 1), ah A q0 i j • aq A q0 i = ahm A q0 N i j • aq A q0 i := by
    intro i hi
    have := Finset.mem_range.1 hi
    unfold ahm
    rw [if_pos hj, if_pos (by omega)]
  rw [Finset.sum_congr rfl h1]
  by_cases h : j + 1 = N
  · subst h
    rw [if_pos rfl]
  · rw [if_neg h, zero_smul, add_zero]
    have h2 : ((ab A q0 j : ℝ) : 𝕜) = ahm A q0 N (j + 1) j := by
      unfold ahm
      rw [if_pos hj, if_neg (by omega), if_pos rfl]
    rw [h2, ← Finset.sum_range_succ (fun i => ahm A q0 N i j • aq A q0 i)]
    apply Finset.sum_subset
    · intro i hi
      have := Finset.mem_range.1 hi
      exact Finset.mem_range.2 (by omega)
    · intro i _ hi
      have : ¬ i < j + 2 := fun h => hi (Finset.mem_range.2 (by omega))
      unfold ahm
      rw [if_pos hj, if_neg (by omega), if_neg (by omega), zero_smul]

/-- a vector given by its coefficients -/
noncomputable def comb (A : E →ₗ[𝕜] E) (q0 : E) (N : ℕ) (v : ℕ → 𝕜) : E :=
  ∑ j ∈ Finset.range N, v j • aq A q0 j

theorem A_comb {N : ℕ} (hN : 0 < N) {v : ℕ → 𝕜} {e : 𝕜}
    (hv : ∀ i, i < N → ∑ j ∈ Finset.range N, ahm A q0 N i j * v j = e * v i) :
    A (comb A q0 N v) = e • comb A q0 N v +
      (v (N - 1) * ((ab A q0 (N - 1) : ℝ) : 𝕜)) • aq A q0 N := by
  unfold comb
  rw [map_sum]
  have h1 : ∀ j ∈ Finset.range N, A (v j • aq A q0 j) =
      ∑ i ∈ Finset.range N, (ahm A q0 N i j * v j) • aq A q0 i +
        (if j = N - 1 then v j * ((ab A q0 j : ℝ) : 𝕜) else 0) • aq A q0 N := by
    intro j hj
    have hj' := Finset.mem_range.1 hj
    rw [map_smul, A_aq_ahm hj', smul_add, Finset.smul_sum, smul_smul]
    congr 1
    · exact Finset.sum_congr rfl fun i _ => by rw [smul_smul, mul_comm]
    · by_cases h : j = N - 1
      · rw [if_pos h, if_pos (by omega)]
      · rw [if_neg h, if_neg (by omega), mul_zero]
  rw [Finset.sum_congr rfl h1, Finset.sum_add_distrib, Finset.sum_comm, Finset.smul_sum]
  congr 1
  · refine Finset.sum_congr rfl fun i hi => ?_
    rw [← Finset.sum_smul, hv i (Finset.mem_range.1 hi), smul_smul]
  · rw [← Finset.sum_smul]
    congr 1
    rw [Finset.sum_eq_single (N - 1)]
    · rw [if_pos rfl]
    · intro b _ hb
      rw [if_neg hb]
    · intro h
      exact absurd (Finset.mem_range.2 (by omega)) h

theorem comb_mem (N : ℕ) (v : ℕ → 𝕜) :
    comb A q0 N v ∈ Submodule.span 𝕜 (Set.range fun i : Fin N => aq A q0 i) := by
  refine Submodule.sum_mem _ fun i hi => Submodule.smul_mem _ _ ?_
  exact Submodule.subset_span ⟨⟨i, Finset.mem_range.1 hi⟩, rfl⟩

theorem inner_comb (h0 : ‖q0‖ = 1) {N : ℕ} (hb : ∀ i, i + 1 < N → ab A q0 i ≠ 0) (v : ℕ → 𝕜) {i : ℕ}
    (hi : i < N) : ⟪aq A q0 i, comb A q0 N v⟫_𝕜 = v i := by
  unfold comb
  rw [inner_sum, Finset.sum_eq_single i]
  · rw [inner_smul_right, aq_ortho h0 (n := N - 1) (fun l hl => hb l (by omega)) (by omega)
      (by omega), if_pos rfl, mul_one]
  · intro b _ hb
    rw [inner_smul_right, aq_orth (Or.inl h0) _ _ (Ne.symm hb), mul_zero]
  · intro h
    exact absurd (Finset.mem_range.2 hi) h

theorem inner_aq_span (h0 : UnitOrZero q0) {N : ℕ} {x : E}
    (hx : x ∈ Submodule.span 𝕜 (Set.range fun i : Fin N => aq A q0 i)) :
    ⟪x, aq A q0 N⟫_𝕜 = 0 := by
  induction hx using Submodule.span_induction with
  | mem y hy =>
    obtain ⟨i, rfl⟩ := hy
    exact aq_orth h0 _ _ (by omega)
  | zero => exact inner_zero_left _
  | add x y _ _ h1 h2 => rw [inner_add_left, h1, h2, add_zero]
  | smul a x _ h => rw [inner_smul_left, h, mul_zero]

/-- every vector of the Krylov space is the combination with its coefficients -/
theorem eq_comb (h0 : ‖q0‖ = 1) {N : ℕ} (hb : ∀ i, i + 1 < N → ab A q0 i ≠ 0) {x : E}
    (hx : x ∈ Submodule.span 𝕜 (Set.range fun i : Fin N => aq A q0 i)) :
    x = comb A q0 N fun i => ⟪aq A q0 i, x⟫_𝕜 := by
  induction hx using Submodule.span_induction with
  | mem y hy =>
    obtain ⟨i, rfl⟩ := hy
    unfold comb
    dsimp only
    rw [Finset.sum_eq_single (i : ℕ)]
    · rw [aq_ortho h0 (n := N - 1) (fun l hl => hb l (by omega)) (by omega) (by omega), if_pos rfl,
        one_smul]
    · intro b _ hb
      rw [aq_orth (Or.inl h0) _ _ hb, zero_smul]
    · intro h
      exact absurd (Finset.mem_range.2 i.2) h
  | zero => simp [comb]
  | add x y _ _ h1 h2 =>
    conv_lhs => rw [h1, h2]
    unfold comb
    rw [← Finset.sum_add_distrib]
    exact Finset.sum_congr rfl fun i _ => by dsimp only; rw [inner_add_right, add_smul]
  | smul a x _ h =>
    conv_lhs => rw [h]
    unfold comb
    rw [Finset.smul_sum]
    exact Finset.sum_congr rfl fun i _ => by dsimp only; rw [inner_smul_right, smul_smul]

theorem inner_A_aq (h0 : ‖q0‖ = 1) {N : ℕ} (hb : ∀ i, i + 1 < N → ab A q0 i ≠ 0) {i j : ℕ}
    (hi : i < N) (hj : j < N) : ⟪aq A q0 i, A (aq A q0 j)⟫_𝕜 = ahm A q0 N i j := by
  rw [A_aq_ahm hj, inner_add_right, inner_smul_right, aq_orth (Or.inl h0) _ _ (by omega), mul_zero,
    add_zero]
  exact inner_comb h0 hb (fun i => ahm A q0 N i j) hi

/-- conversely, a Ritz pair gives an eigenvector of the small matrix -/
theorem eig_of_ritz (h0 : ‖q0‖ = 1) {N : ℕ} (hb : ∀ i, i + 1 < N → ab A q0 i ≠ 0) {x : E} {e : 𝕜}
    (hx : x ∈ Submodule.span 𝕜 (Set.range fun i : Fin N => aq A q0 i))
    (hr : ∀ i, i < N → ⟪aq A q0 i, A x - e • x⟫_𝕜 = 0) (i : ℕ) (hi : i < N) :
    ∑ j ∈ Finset.range N, ahm A q0 N i j * ⟪aq A q0 j, x⟫_𝕜 = e * ⟪aq A q0 i, x⟫_𝕜 := by
  have h1 := hr i hi
  rw [inner_sub_right, inner_smul_right, sub_eq_zero] at h1
  rw [← h1]
  conv_rhs => rw [eq_comb h0 hb hx]
  unfold comb
  rw [map_sum, inner_sum]
  refine Finset.sum_congr rfl fun j hj => ?_
  rw [map_smul, inner_smul_right, inner_A_aq h0 hb hi (Finset.mem_range.1 hj), mul_comm]

end

/-! ### The loop -/

variable {E : Type} [NormedAddCommGroup E] [InnerProductSpace ℂ E]
variable {A : E →ₗ[ℂ] E} {psi0 : E} {o : AOptions} {K : AKind}

theorem unit0_complex (x : E) : (((1 / ‖x‖ : ℝ) : ℂ)) • x = unit0 ℂ x := rfl

theorem au_complex (q0 : E) (k : ℕ) : (((1 / ab A q0 k : ℝ) : ℂ)) • au A q0 k = aq A q0 (k + 1) :=
  (aq_succ A q0 k).symm

/-- What holds after `k` steps. -/
structure AInv (K : AKind) (A : E →ₗ[ℂ] E) (q0 : E) (k : ℕ) (s : AState E) : Prop where
  w : ((1 / s.wNorm : ℝ) : ℂ) • s.w = aq A q0 k
  cache : s.cache = aqs A q0 k
  h : s.h = ahm A q0 k
  norm : 0 < k → s.wNorm = ab A q0 (k - 1)
  res : 0 < k → K.calcResult (k - 1) s.h = some (s.es (k - 1), s.vf, s.resultNorm)

theorem aStep_inv {q0 : E} (h0 : UnitOrZero q0) {k : ℕ} {s s' : AState E} (hs : AInv K A q0 k s)
    (h : aStep o K A k s = some s') : AInv K A q0 (k + 1) s' ∧ k + 1 ≤ o.nMax := by
  unfold aStep at h
  dsimp only at h
  rw [hs.w, hs.cache, ← aqs_succ, aqs_length, hs.h, arnoldiLoop_snd, reortho_aqs h0] at h
  by_cases hk : k + 1 > o.nMax
  · rw [if_pos hk] at h
    exact absurd h (by simp)
  · rw [if_neg hk] at h
    refine ⟨?_, by omega⟩
    rw [show set2 (arnoldiLoop k (aqs A q0 (k + 1)) 0 (ahm A q0 k) (A (aq A q0 k))).1 (k + 1) k
      ((‖au A q0 k‖ : ℝ) : ℂ) = ahm A q0 (k + 1) from ahm_succ h0 k] at h
    obtain ⟨c, hc, h⟩ := Option.map_eq_some_iff.1 h
    subst h
    refine ⟨au_complex q0 k, rfl, rfl, fun _ => rfl, fun _ => ?_⟩
    dsimp only
    rw [Nat.add_sub_cancel, hc]
    congr 1
    refine Prod.ext ?_ rfl
    funext j
    dsimp only
    rw [if_pos rfl]

theorem aStep_none {q0 : E} (h0 : UnitOrZero q0) {k : ℕ} {s : AState E} (hs : AInv K A q0 k s)
    (hk : k < o.nMax) (h : aStep o K A k s = none) : K.calcResult k (ahm A q0 (k + 1)) = none := by
  unfold aStep at h
  dsimp only at h
  rw [hs.w, hs.cache, ← aqs_succ, aqs_length, hs.h, arnoldiLoop_snd, reortho_aqs h0] at h
  rw [if_neg (by omega)] at h
  rw [show set2 (arnoldiLoop k (aqs A q0 (k + 1)) 0 (ahm A q0 k) (A (aq A q0 k))).1 (k + 1) k
      ((‖au A q0 k‖ : ℝ) : ℂ) = ahm A q0 (k + 1) from ahm_succ h0 k] at h
  exact Option.map_eq_none_iff.1 h

/-- What holds when the loop ends after `N` steps. -/
structure APost (o : AOptions) (K : AKind) (A : E →ₗ[ℂ] E) (q0 : E) (N : ℕ) (s : AState E) :
    Prop where
  inv : AInv K A q0 N s
  le : N ≤ o.nMax
  cut : ∀ i, i + 1 < N → o.cutoff ≤ ab A q0 i
  stop : N < o.nMax → aStop o K (N - 1) s

theorem aLoop_post {q0 : E} (h0 : UnitOrZero q0) :
    ∀ (fuel k : ℕ) (s : AState E), fuel + k = o.nMax → AInv K A q0 k s →
      (∀ i, i < k → o.cutoff ≤ ab A q0 i) → ∀ s' N, aLoop o K A fuel k s = some (s', N) →
      APost o K A q0 N s' ∧ k ≤ N ∧ (0 < fuel → k < N)
  | 0, k, s, hf, hs, hc, s', N, h => by
    rw [aLoop] at h
    obtain ⟨rfl, rfl⟩ : s = s' ∧ k = N := by simpa using h
    exact ⟨⟨hs, by omega, fun i hi => hc i (by omega), fun h => by omega⟩, le_rfl, by omega⟩
  | fuel + 1, k, s, hf, hs, hc, s', N, h => by
    rw [aLoop] at h
    cases h1 : aStep o K A k s with
    | none => rw [h1] at h; exact absurd h (by simp)
    | some t =>
      rw [h1] at h
      dsimp only at h
      obtain ⟨hi, hk⟩ := aStep_inv h0 hs h1
      by_cases h2 : aStop o K k t
      · rw [if_pos h2] at h
        obtain ⟨rfl, rfl⟩ : t = s' ∧ k + 1 = N := by simpa using h
        exact ⟨⟨hi, hk, fun i hi => hc i (by omega), fun _ => h2⟩, by omega, by omega⟩
      · rw [if_neg h2] at h
        have := aLoop_post h0 fuel (k + 1) t (by omega) hi (fun i hi' => ?_) s' N h
        · exact ⟨this.1, by omega, fun _ => by omega⟩
        · by_cases e : i = k
          · subst e
            unfold aStop at h2
            rw [not_or, not_lt] at h2
            have := hi.norm (by omega)
            rw [Nat.add_sub_cancel] at this
            rw [← this]
            exact h2.1
          · exact hc i (by omega)

theorem aLoop_none {q0 : E} (h0 : UnitOrZero q0) :
    ∀ (fuel k : ℕ) (s : AState E), fuel + k = o.nMax → AInv K A q0 k s →
      (∀ i, i < k → o.cutoff ≤ ab A q0 i) →
      aLoop o K A fuel k s = none → ∃ j, j < o.nMax ∧ K.calcResult j (ahm A q0 (j + 1)) = none ∧
        ∀ i, i < j → o.cutoff ≤ ab A q0 i
  | 0, k, s, hf, hs, hc, h => by
    rw [aLoop] at h
    exact absurd h (by simp)
  | fuel + 1, k, s, hf, hs, hc, h => by
    rw [aLoop] at h
    cases h1 : aStep o K A k s with
    | none => exact ⟨k, by omega, aStep_none h0 hs (by omega) h1, hc⟩
    | some t =>
      rw [h1] at h
      dsimp only at h
      obtain ⟨hi, hk⟩ := aStep_inv h0 hs h1
      by_cases h2 : aStop o K k t
      · rw [if_pos h2] at h
        exact absurd h (by simp)
      · rw [if_neg h2] at h
        refine aLoop_none h0 fuel (k + 1) t (by omega) hi (fun i hi' => ?_) h
        by_cases e : i = k
        · subst e
          unfold aStop at h2
          rw [not_or, not_lt] at h2
          have := hi.norm (by omega)
          rw [Nat.add_sub_cancel] at this
          rw [← this]
          exact h2.1
        · exact hc i (by omega)

theorem aNew_inv (h : psi0 ≠ 0) (rn : ℝ) :
    AInv K A (unit0 ℂ psi0) 0
      { w := psi0, wNorm := ‖psi0‖, cache := [], h := fun _ _ => 0, es := fun _ _ => 0,
        vf := fun _ _ => 0, resultNorm := rn } := by
  refine ⟨?_, rfl, ?_, fun h => by omega, fun h => by omega⟩
  · rw [aq_zero]; rfl
  · rw [ahm_zero]

theorem aBuild_post (hm : 1 ≤ o.nMax) {q : E} {s : AState E} {N : ℕ}
    (h : aBuild o K A (aNew psi0) = some (q, s, N)) :
    psi0 ≠ 0 ∧ q = unit0 ℂ psi0 ∧ 0 < N ∧ APost o K A (unit0 ℂ psi0) N s := by
  unfold aBuild aNew at h
  dsimp only at h
  by_cases h0 : ‖psi0‖ = 0
  · rw [if_pos h0] at h
    exact absurd h (by simp)
  · rw [if_neg h0] at h
    have hp : psi0 ≠ 0 := norm_ne_zero_iff.1 h0
    obtain ⟨⟨s1, N1⟩, hc, h⟩ := Option.map_eq_some_iff.1 h
    obtain ⟨rfl, rfl, rfl⟩ : unit0 ℂ psi0 = q ∧ s1 = s ∧ N1 = N := by
      rw [unit0_complex] at h
      simpa using h
    have := aLoop_post (Or.inl (unit0_norm hp)) o.nMax 0 _ rfl (aNew_inv hp 1) (by omega) _ _ hc
    exact ⟨hp, rfl, by have := this.2.2 (by omega); omega, this.1⟩

theorem aBuild_none (h : aBuild o K A (aNew psi0) = none) :
    psi0 = 0 ∨ ∃ j, j < o.nMax ∧ K.calcResult j (ahm A (unit0 ℂ psi0) (j + 1)) = none ∧
      ∀ i, i < j → o.cutoff ≤ ab A (unit0 ℂ psi0) i := by
  unfold aBuild aNew at h
  dsimp only at h
  by_cases h0 : ‖psi0‖ = 0
  · exact Or.inl (norm_eq_zero.1 h0)
  · rw [if_neg h0] at h
    have hp : psi0 ≠ 0 := norm_ne_zero_iff.1 h0
    exact Or.inr (aLoop_none (Or.inl (unit0_norm hp)) o.nMax 0 _ rfl (aNew_inv hp 1)
      (by omega) (Option.map_eq_none_iff.1 h))

theorem aCombine_eq (q0 : E) {N : ℕ} (hN : 0 < N) (v : ℕ → ℂ) :
    aCombine (aqs A q0 N) v N = comb A q0 N v := by
  unfold aCombine comb
  have key : ∀ m, m + 1 ≤ N → (List.range' 1 m).foldl
      (fun psi k => axpy psi (1 : ℂ) (v k • (aqs A q0 N).getD k 0)) (v 0 • (aqs A q0 N).getD 0 0) =
      ∑ j ∈ Finset.range (m + 1), v j • aq A q0 j := by
    intro m
    induction m with
    | zero =>
      intro _
      rw [aqs_getD A q0 hN]
      simp
    | succ m ih =>
      intro hm
      rw [List.range'_concat, List.foldl_append, ih (by omega), Finset.sum_range_succ _ (m + 1)]
      simp only [List.foldl_cons, List.foldl_nil]
      rw [aqs_getD _ _ (by omega : 1 + 1 * m < N)]
      unfold axpy
      rw [one_smul, Nat.one_mul, Nat.add_comm 1 m]
  have := key (N - 1) (by omega)
  rw [this, Nat.sub_add_cancel hN]

end Cyten.Krylov
