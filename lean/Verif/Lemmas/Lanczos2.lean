import Verif.Lemmas.Lanczos
import Mathlib.Algebra.BigOperators.Intervals

/-!
Loop invariants of the Lanczos classes.
-/

namespace Cyten.Krylov

open Cyten.Sparse Cyten.Props
open scoped InnerProductSpace

variable {𝕜 E : Type} [RCLike 𝕜] [NormedAddCommGroup E] [InnerProductSpace 𝕜 E]
variable {H : E →ₗ[𝕜] E} {q0 : E}

variable (H q0) in
/-- the tridiagonal matrix after `k` steps -/
noncomputable def ltri (k i j : ℕ) : ℝ :=
  if i = j ∧ i < k then la H q0 i
  else if j = i + 1 ∧ i < k then lb H q0 i
  else if i = j + 1 ∧ j < k then lb H q0 j
  else 0

variable (H q0) in
/-- the matrix during step `k`, when the small problem is solved -/
noncomputable def lmid (k : ℕ) : ℕ → ℕ → ℝ := set2 (ltri H q0 k) k k (la H q0 k)

theorem ltri_succ (k : ℕ) :
    set2 (set2 (lmid H q0 k) k (k + 1) (lb H q0 k)) (k + 1) k (lb H q0 k) = ltri H q0 (k + 1) := by
  funext i j
  unfold set2 lmid set2 ltri
  by_cases h1 : i = k + 1 ∧ j = k
  · rw [if_pos h1, if_neg (by omega), if_neg (by omega), if_pos (by omega), h1.2]
  · rw [if_neg h1]
    by_cases h2 : i = k ∧ j = k + 1
    · rw [if_pos h2, if_neg (by omega), if_pos (by omega), h2.1]
    · rw [if_neg h2]
      by_cases h3 : i = k ∧ j = k
      · rw [if_pos h3, if_pos (by omega), h3.1]
      · rw [if_neg h3]
        by_cases h4 : i = j ∧ i < k
        · rw [if_pos h4, if_pos (show i = j ∧ i < k + 1 by omega)]
        · rw [if_neg h4, if_neg (show ¬ (i = j ∧ i < k + 1) by omega)]
          by_cases h5 : j = i + 1 ∧ i < k
          · rw [if_pos h5, if_pos (show j = i + 1 ∧ i < k + 1 by omega)]
          · rw [if_neg h5, if_neg (show ¬ (j = i + 1 ∧ i < k + 1) by omega)]
            by_cases h6 : i = j + 1 ∧ j < k
            · rw [if_pos h6, if_pos (show i = j + 1 ∧ j < k + 1 by omega)]
            · rw [if_neg h6, if_neg (show ¬ (i = j + 1 ∧ j < k + 1) by omega)]

/-- state of the variables before step `k` -/
structure LInv (H : E →ₗ[𝕜] E) (q0 : E) (o : Options) (K : Kind 𝕜) (k : ℕ) (s : LState 𝕜 E) :
    Prop where
  w : s.w = (s.beta : 𝕜) • lq H q0 k
  beta_ne : s.beta ≠ 0
  beta : ∀ j, k = j + 1 → s.beta = lb H q0 j
  cache : s.cache = lcache H q0 o.nCache k
  h : s.h = ltri H q0 k
  es : ∀ i, i < k → s.es i = (K.calcResult i (lmid H q0 i)).1
  lb_ne : ∀ i, i < k → lb H q0 i ≠ 0

/-- state of the variables after step `k` -/
structure LPost (H : E →ₗ[𝕜] E) (q0 : E) (o : Options) (K : Kind 𝕜) (k : ℕ) (s : LState 𝕜 E) :
    Prop where
  w : s.w = lu H q0 k
  beta : s.beta = lb H q0 k
  cache : s.cache = lcache H q0 o.nCache (k + 1)
  h : s.h = ltri H q0 (k + 1)
  es : ∀ i, i < k + 1 → s.es i = (K.calcResult i (lmid H q0 i)).1
  vf : s.vf = (K.calcResult k (lmid H q0 k)).2.1
  resultNorm : s.resultNorm = (K.calcResult k (lmid H q0 k)).2.2
  lb_ne : ∀ i, i < k → lb H q0 i ≠ 0

theorem LPost.toInv {o : Options} {K : Kind 𝕜} {k : ℕ} {s : LState 𝕜 E}
    (h : LPost H q0 o K k s) (hk : lb H q0 k ≠ 0) : LInv H q0 o K (k + 1) s where
  w := by rw [h.w, h.beta, lu_eq_smul H q0 hk]
  beta_ne := by rw [h.beta]; exact hk
  beta := by intro j hj; rw [h.beta]; congr 1; omega
  cache := h.cache
  h := h.h
  es := h.es
  lb_ne := by
    intro i hi
    rcases Nat.lt_or_ge i k with h' | h'
    · exact h.lb_ne i h'
    · have : i = k := by omega
      rw [this]; exact hk

theorem lanczosStep_post (hs : H.IsSymmetric) (h0 : ‖q0‖ = 1) {o : Options} (hn : 2 ≤ o.nCache)
    (K : Kind 𝕜) (k : ℕ) (s : LState 𝕜 E) (hi : LInv H q0 o K k s) :
    LPost H q0 o K k (lanczosStep o K H k s) := by
  have hw : ((1 / s.beta : ℝ) : 𝕜) • s.w = lq H q0 k := by
    rw [hi.w, smul_smul, ← RCLike.ofReal_mul, one_div_mul_cancel hi.beta_ne]; simp
  have hc : toCache o.nCache s.cache (lq H q0 k) = lcache H q0 o.nCache (k + 1) := by
    rw [hi.cache, toCache_eq (by omega)]
  have hl := lcache_last (H := H) (q0 := q0) (nC := o.nCache) (by omega) k
  have ha : RCLike.re (vinner 𝕜 (H (lq H q0 k)) (lq H q0 k)) = la H q0 k := rfl
  have hm : set2 s.h k k (la H q0 k) = lmid H q0 k := by rw [hi.h]; rfl
  have hx : axpy (lq H q0 k) (-((la H q0 k : ℝ) : 𝕜)) (H (lq H q0 k)) =
      H (lq H q0 k) - (la H q0 k : 𝕜) • lq H q0 k := by
    unfold axpy; rw [neg_smul]; abel
  have hsub := subtractPrevious_eq hs h0 hn o.reortho k hi.lb_ne s.beta hi.beta
  have hb : ‖lu H q0 k‖ = lb H q0 k := rfl
  have key : lanczosStep o K H k s =
      { w := lu H q0 k
        beta := lb H q0 k
        cache := lcache H q0 o.nCache (k + 1)
        h := ltri H q0 (k + 1)
        es := fun i j => if i = k then (K.calcResult k (lmid H q0 k)).1 j else s.es i j
        vf := (K.calcResult k (lmid H q0 k)).2.1
        resultNorm := (K.calcResult k (lmid H q0 k)).2.2 } := by
    unfold lanczosStep
    dsimp only
    simp only [hw, hc, hl, ha, hm, hx, hsub, hb, ltri_succ]
  rw [key]
  refine ⟨rfl, rfl, rfl, rfl, ?_, rfl, rfl, hi.lb_ne⟩
  intro i hik
  funext j
  dsimp only
  by_cases h : i = k
  · rw [if_pos h, h]
  · rw [if_neg h, hi.es i (by omega)]

theorem lanczosLoop_post (hs : H.IsSymmetric) (h0 : ‖q0‖ = 1) {o : Options} (hn : 2 ≤ o.nCache)
    (hc : 0 < o.cutoff) (K : Kind 𝕜) (fuel k : ℕ) (s : LState 𝕜 E) (hi : LInv H q0 o K k s)
    (hf : 0 < fuel) :
    k < (lanczosLoop o K H fuel k s).2 ∧ (lanczosLoop o K H fuel k s).2 ≤ k + fuel ∧
    LPost H q0 o K ((lanczosLoop o K H fuel k s).2 - 1) (lanczosLoop o K H fuel k s).1 ∧
    ((lanczosLoop o K H fuel k s).2 = k + fuel ∨
      lanczosStop o K ((lanczosLoop o K H fuel k s).2 - 1) (lanczosLoop o K H fuel k s).1) := by
  induction fuel generalizing k s with
  | zero => omega
  | succ fuel ih =>
    have hp := lanczosStep_post hs h0 hn K k s hi
    rw [lanczosLoop]
    by_cases hst : lanczosStop o K k (lanczosStep o K H k s)
    · rw [if_pos hst]
      dsimp only
      rw [Nat.add_sub_cancel]
      exact ⟨by omega, by omega, hp, Or.inr hst⟩
    · rw [if_neg hst]
      cases fuel with
      | zero =>
        rw [lanczosLoop]
        dsimp only
        rw [Nat.add_sub_cancel]
        exact ⟨by omega, by omega, hp, Or.inl rfl⟩
      | succ fuel =>
        have hbk : lb H q0 k ≠ 0 := by
          intro h
          refine hst (Or.inl ?_)
          rw [hp.beta, h, abs_zero]
          exact hc
        have := ih (k + 1) _ (hp.toInv hbk) (by omega)
        refine ⟨by omega, by omega, this.2.2.1, ?_⟩
        rcases this.2.2.2 with h | h
        · left; omega
        · right; exact h

theorem addCached_eq {nC N : ℕ} (vf : List 𝕜) (m : ℕ) (hm : m ≤ min N nC) (a : ℕ) (psif : E)
    (ha : 1 ≤ a) (ham : a + m ≤ min N nC + 1) :
    addCached vf (lcache H q0 nC N) N (List.range' a m) psif =
      psif + ∑ k ∈ Finset.range m, vf.getD (N - (a + k)) 0 • lq H q0 (N - (a + k)) := by
  induction m generalizing a psif with
  | zero => simp [addCached]
  | succ m ih =>
    rw [List.range'_succ, addCached, ih (by omega) (a + 1) _ (by omega) (by omega)]
    rw [Finset.sum_range_succ']
    have e : (lcache H q0 nC N).getD ((lcache H q0 nC N).length - a) 0 = lq H q0 (N - a) := by
      rw [List.getD_eq_getElem?_getD, lcache_length, lcache_getElem? _ _ _ (by omega)]
      simp only [Option.getD_some]
      congr 1
      omega
    rw [e]
    unfold axpy
    rw [one_smul, add_zero, add_assoc, add_comm (vf.getD (N - a) 0 • lq H q0 (N - a))]
    congr 2
    refine Finset.sum_congr rfl fun k _ => ?_
    rw [show a + 1 + k = a + (k + 1) by omega]

theorem rebuildLoop_eq (hs : H.IsSymmetric) (h0 : ‖q0‖ = 1) {o : Options} (hn : 2 ≤ o.nCache)
    (h : ℕ → ℕ → ℝ) (vf : List 𝕜) (fuel k : ℕ)
    (hh : ∀ i, i < k + fuel → h i i = la H q0 i ∧ h i (i + 1) = lb H q0 i)
    (hb : ∀ i, i < k + fuel → lb H q0 i ≠ 0) (beta : ℝ)
    (hbeta : ∀ j, k = j + 1 → beta = lb H q0 j) (psif : E) :
    rebuildLoop o H h vf fuel k (lcache H q0 o.nCache k) (lq H q0 k) beta psif =
      psif + ∑ j ∈ Finset.range fuel, vf.getD (k + j + 1) 0 • lq H q0 (k + j + 1) := by
  induction fuel generalizing k beta psif with
  | zero => simp [rebuildLoop]
  | succ fuel ih =>
    rw [rebuildLoop]
    have hc : toCache o.nCache (lcache H q0 o.nCache k) (lq H q0 k) = lcache H q0 o.nCache (k + 1) :=
      toCache_eq (by omega) k
    have hl := lcache_last (H := H) (q0 := q0) (nC := o.nCache) (by omega) k
    have hx : axpy (lq H q0 k) (-((la H q0 k : ℝ) : 𝕜)) (H (lq H q0 k)) =
        H (lq H q0 k) - (la H q0 k : 𝕜) • lq H q0 k := by
      unfold axpy; rw [neg_smul]; abel
    have hsub := subtractPrevious_eq hs h0 hn o.reortho k (fun i hi => hb i (by omega)) beta hbeta
    rw [hc, hl, (hh k (by omega)).1, (hh k (by omega)).2, hx, hsub, ← lq_succ]
    rw [ih (k + 1) (fun i hi => hh i (by omega)) (fun i hi => hb i (by omega)) (lb H q0 k)
      (by intro j hj; congr 1; omega)]
    rw [Finset.sum_range_succ']
    unfold axpy
    rw [one_smul, add_assoc, add_zero, add_comm (vf.getD (k + 1) 0 • lq H q0 (k + 1))]
    congr 2
    refine Finset.sum_congr rfl fun j _ => ?_
    rw [show k + 1 + j + 1 = k + (j + 1) + 1 by omega]

theorem sum_split {M : Type} [AddCommMonoid M] (f : ℕ → M) (N m : ℕ) (hm : m < N) :
    f 0 + ∑ k ∈ Finset.range m, f (N - (1 + k)) + ∑ j ∈ Finset.range (N - m - 1), f (0 + j + 1) =
      ∑ k ∈ Finset.range N, f k := by
  have e1 : ∑ k ∈ Finset.range m, f (N - (1 + k)) = ∑ k ∈ Finset.Ico (N - m) N, f k := by
    rw [Finset.sum_Ico_eq_sum_range, show N - (N - m) = m by omega, ← Finset.sum_range_reflect]
    refine Finset.sum_congr rfl fun k hk => ?_
    rw [Finset.mem_range] at hk
    congr 1; omega
  have e2 : f 0 + ∑ j ∈ Finset.range (N - m - 1), f (0 + j + 1) =
      ∑ k ∈ Finset.range (N - m), f k := by
    obtain ⟨r, hr⟩ : ∃ r, N - m = r + 1 := ⟨N - m - 1, by omega⟩
    rw [hr, Finset.sum_range_succ', add_comm]
    simp
  rw [add_right_comm, e1, e2, Finset.sum_range_add_sum_Ico _ (by omega)]

/-- The accumulated result is the combination of the Lanczos vectors, for every size of the
cache and with or without reorthogonalisation. -/
theorem calcResultRaw_eq (hs : H.IsSymmetric) (h0 : ‖q0‖ = 1) {o : Options} (hn : 2 ≤ o.nCache)
    (K : Kind 𝕜) (N : ℕ) (hN : 1 < N) (s : LState 𝕜 E) (hp : LPost H q0 o K (N - 1) s) :
    calcResultRaw o H q0 s N = ∑ k ∈ Finset.range N, s.vf.getD k 0 • lq H q0 k := by
  unfold calcResultRaw
  dsimp only
  have hcache : s.cache = lcache H q0 o.nCache N := by
    rw [hp.cache]; congr 1; omega
  rw [hcache, lcache_length]
  rw [addCached_eq s.vf _ (by omega) 1 _ le_rfl (by omega)]
  have := rebuildLoop_eq hs h0 hn s.h s.vf (N - min N o.nCache - 1) 0
    (by
      intro i hi
      rw [hp.h]
      unfold ltri
      exact ⟨by rw [if_pos (by omega)], by rw [if_neg (by omega), if_pos (by omega)]⟩)
    (fun i hi => hp.lb_ne i (by omega)) 0 (by omega)
  have e0 : lcache H q0 o.nCache 0 = [] := by simp [lcache, lqs]
  rw [e0, lq_zero] at this
  rw [this]
  rw [← sum_split (fun k => s.vf.getD k 0 • lq H q0 k) N (min (min N o.nCache + 1) N - 1) (by omega)]
  rw [show N - (min (min N o.nCache + 1) N - 1) - 1 = N - min N o.nCache - 1 by omega]
  rfl

end Cyten.Krylov
