import Verif.Model.Krylov
import Verif.Props.Sparse
import Mathlib.Analysis.InnerProductSpace.Symmetric

/-!
The three-term recurrence of the Lanczos method and its relation to the loops of
`LanczosGroundState`.
-/

namespace Cyten.Krylov

open Cyten.Sparse Cyten.Props
open scoped InnerProductSpace

variable {𝕜 E : Type} [RCLike 𝕜] [NormedAddCommGroup E] [InnerProductSpace 𝕜 E]

/-! ### The pure recurrence -/

/-- `<H q, q>`, real part -/
noncomputable def lanAlpha (H : E →ₗ[𝕜] E) (q : E) : ℝ := RCLike.re ⟪H q, q⟫_𝕜

/-- previous vector, current vector, coefficient between them -/
noncomputable def lan (H : E →ₗ[𝕜] E) (q0 : E) : ℕ → E × E × ℝ
  | 0 => (0, q0, 0)
  | k + 1 =>
    let s := lan H q0 k
    let u := H s.2.1 - (lanAlpha H s.2.1 : 𝕜) • s.2.1 - (s.2.2 : 𝕜) • s.1
    (s.2.1, ((1 / ‖u‖ : ℝ) : 𝕜) • u, ‖u‖)

/-- Lanczos vectors -/
noncomputable def lq (H : E →ₗ[𝕜] E) (q0 : E) (k : ℕ) : E := (lan H q0 k).2.1
/-- diagonal -/
noncomputable def la (H : E →ₗ[𝕜] E) (q0 : E) (k : ℕ) : ℝ := lanAlpha H (lq H q0 k)
/-- the vector that is normalised to the next Lanczos vector -/
noncomputable def lu (H : E →ₗ[𝕜] E) (q0 : E) (k : ℕ) : E :=
  H (lq H q0 k) - (la H q0 k : 𝕜) • lq H q0 k - ((lan H q0 k).2.2 : 𝕜) • (lan H q0 k).1
/-- off-diagonal -/
noncomputable def lb (H : E →ₗ[𝕜] E) (q0 : E) (k : ℕ) : ℝ := ‖lu H q0 k‖

section
variable (H : E →ₗ[𝕜] E) (q0 : E)

theorem lq_zero : lq H q0 0 = q0 := rfl

theorem lq_succ (k : ℕ) : lq H q0 (k + 1) = ((1 / lb H q0 k : ℝ) : 𝕜) • lu H q0 k := rfl

theorem lu_zero : lu H q0 0 = H q0 - (la H q0 0 : 𝕜) • q0 := by
  unfold lu
  rw [lq_zero]
  simp [lan]

theorem lu_succ (k : ℕ) : lu H q0 (k + 1) = H (lq H q0 (k + 1))
    - (la H q0 (k + 1) : 𝕜) • lq H q0 (k + 1) - (lb H q0 k : 𝕜) • lq H q0 k := rfl

theorem lu_eq_smul {k : ℕ} (h : lb H q0 k ≠ 0) :
    lu H q0 k = (lb H q0 k : 𝕜) • lq H q0 (k + 1) := by
  rw [lq_succ, smul_smul, ← RCLike.ofReal_mul, mul_one_div_cancel h]
  simp

theorem H_lq_zero : H (lq H q0 0) = lu H q0 0 + (la H q0 0 : 𝕜) • lq H q0 0 := by
  rw [lu_zero, lq_zero]; abel

theorem H_lq_succ (k : ℕ) : H (lq H q0 (k + 1)) = lu H q0 (k + 1)
    + (la H q0 (k + 1) : 𝕜) • lq H q0 (k + 1) + (lb H q0 k : 𝕜) • lq H q0 k := by
  rw [lu_succ]; abel

end

/-- the first `n + 1` Lanczos vectors are orthonormal -/
def LOrtho (H : E →ₗ[𝕜] E) (q0 : E) (n : ℕ) : Prop :=
  ∀ i j, i ≤ n → j ≤ n → ⟪lq H q0 i, lq H q0 j⟫_𝕜 = if i = j then 1 else 0

section
variable {H : E →ₗ[𝕜] E} {q0 : E}

theorem inner_la (hs : H.IsSymmetric) (k : ℕ) :
    ⟪lq H q0 k, H (lq H q0 k)⟫_𝕜 = (la H q0 k : 𝕜) := by
  unfold la lanAlpha
  rw [← hs]
  have := hs.coe_re_inner_apply_self (lq H q0 k)
  exact this.symm

/-- if the vectors are orthonormal up to `n`, the next remainder is orthogonal to all of them -/
theorem inner_lu (hs : H.IsSymmetric) {n : ℕ} (ho : LOrtho H q0 n)
    (hb : ∀ i, i < n → lb H q0 i ≠ 0) (i : ℕ) (hi : i ≤ n) :
    ⟪lq H q0 i, lu H q0 n⟫_𝕜 = 0 := by
  -- the image of an earlier vector
  have himg : ∀ i, i < n → ⟪H (lq H q0 i), lq H q0 n⟫_𝕜 =
      if i + 1 = n then (lb H q0 i : 𝕜) else 0 := by
    intro i hi
    cases i with
    | zero =>
      rw [H_lq_zero, lu_eq_smul H q0 (hb 0 hi), inner_add_left, inner_smul_left,
        inner_smul_left, ho _ _ (by omega) le_rfl, ho _ _ (by omega) le_rfl]
      rw [if_neg (by omega : ¬ (0 = n))]
      split_ifs <;> simp
    | succ i =>
      rw [H_lq_succ, lu_eq_smul H q0 (hb _ hi), inner_add_left, inner_add_left, inner_smul_left,
        inner_smul_left, inner_smul_left, ho _ _ (by omega) le_rfl, ho _ _ (by omega) le_rfl,
        ho _ _ (by omega) le_rfl]
      rw [if_neg (by omega : ¬ (i + 1 = n)), if_neg (by omega : ¬ (i = n))]
      split_ifs <;> simp
  cases n with
  | zero =>
    have : i = 0 := by omega
    subst this
    have h1 := inner_la (q0 := q0) hs 0
    have h2 := ho 0 0 le_rfl le_rfl
    rw [lu_zero, inner_sub_right, inner_smul_right]
    rw [lq_zero] at h1 h2 ⊢
    rw [h1, h2]; simp
  | succ n =>
    rw [lu_succ, inner_sub_right, inner_sub_right, inner_smul_right, inner_smul_right,
      ho i (n + 1) hi le_rfl, ho i n hi (by omega)]
    rcases Nat.lt_or_ge i (n + 1) with h | h
    · rw [← hs, himg i h]
      by_cases hin : i = n
      · subst hin; simp
      · rw [if_neg (by omega), if_neg (by omega), if_neg hin]; simp
    · have : i = n + 1 := by omega
      subst this
      rw [inner_la hs]; simp

theorem lortho (hs : H.IsSymmetric) (h0 : ‖q0‖ = 1) (n : ℕ) (hb : ∀ i, i < n → lb H q0 i ≠ 0) :
    LOrtho H q0 n := by
  induction n with
  | zero =>
    intro i j hi hj
    have : i = 0 := by omega
    subst this
    have : j = 0 := by omega
    subst this
    rw [lq_zero, inner_self_of_norm_one h0]; simp
  | succ n ih =>
    have ho := ih fun i hi => hb i (by omega)
    have hu := fun i hi => inner_lu hs ho (fun i hi => hb i (by omega)) i hi
    have hbn := hb n (by omega)
    have hq : ∀ i, i ≤ n → ⟪lq H q0 i, lq H q0 (n + 1)⟫_𝕜 = 0 := by
      intro i hi
      rw [lq_succ, inner_smul_right, hu i hi, mul_zero]
    intro i j hi hj
    rcases Nat.lt_or_ge n i with h | h
    · have : i = n + 1 := by omega
      subst this
      rcases Nat.lt_or_ge n j with h' | h'
      · have : j = n + 1 := by omega
        subst this
        rw [if_pos rfl]
        refine inner_self_of_norm_one ?_
        rw [lq_succ, norm_smul, RCLike.norm_ofReal]
        unfold lb at hbn ⊢
        rw [abs_of_nonneg (by positivity)]
        field_simp
      · rw [if_neg (by omega)]
        exact inner_eq_zero_symm.1 (hq j h')
    · rcases Nat.lt_or_ge n j with h' | h'
      · have : j = n + 1 := by omega
        subst this
        rw [if_neg (by omega)]
        exact hq i h
      · exact ho i j h h'

/-! ### The cache -/

variable (H q0) in
/-- the list of the first `k` Lanczos vectors -/
noncomputable def lqs (k : ℕ) : List E := (List.range k).map (lq H q0)

variable (H q0) in
/-- contents of the cache after `k` vectors were added -/
noncomputable def lcache (nC k : ℕ) : List E := (lqs H q0 k).drop (k - nC)

theorem lqs_succ (k : ℕ) : lqs H q0 (k + 1) = lqs H q0 k ++ [lq H q0 k] := by
  unfold lqs
  rw [List.range_succ, List.map_append]; rfl

@[simp] theorem lqs_length (k : ℕ) : (lqs H q0 k).length = k := by simp [lqs]

theorem lcache_length (nC k : ℕ) : (lcache H q0 nC k).length = min k nC := by
  unfold lcache
  rw [List.length_drop, lqs_length]; omega

theorem lcache_getElem? (nC k i : ℕ) (hi : i < min k nC) :
    (lcache H q0 nC k)[i]? = some (lq H q0 (k - min k nC + i)) := by
  unfold lcache lqs
  rw [List.getElem?_drop, List.getElem?_map, List.getElem?_range (by omega)]
  have : k - nC + i = k - min k nC + i := by omega
  rw [this]; rfl

theorem toCache_eq {nC : ℕ} (hn : 1 ≤ nC) (k : ℕ) :
    toCache nC (lcache H q0 nC k) (lq H q0 k) = lcache H q0 nC (k + 1) := by
  unfold toCache
  have e : lcache H q0 nC k ++ [lq H q0 k] = (lqs H q0 (k + 1)).drop (k - nC) := by
    unfold lcache
    rw [lqs_succ, List.drop_append_of_le_length (by simp)]
  dsimp only
  rw [e, List.length_drop, lqs_length]
  by_cases h : nC ≤ k
  · rw [if_pos (by omega), List.tail_drop]
    unfold lcache
    congr 1
    omega
  · rw [if_neg (by omega)]
    unfold lcache
    congr 1
    omega

theorem lcache_last {nC : ℕ} (hn : 1 ≤ nC) (k : ℕ) :
    (lcache H q0 nC (k + 1)).getLastD 0 = lq H q0 k := by
  unfold lcache
  rw [lqs_succ, List.drop_append_of_le_length (by simp; omega)]
  simp [List.getLastD_eq_getLast?]

theorem lcache_dropLast {nC : ℕ} (hn : 1 ≤ nC) (k : ℕ) :
    (lcache H q0 nC (k + 1)).dropLast = (lqs H q0 k).drop (k + 1 - nC) := by
  unfold lcache
  rw [lqs_succ, List.drop_append_of_le_length (by simp; omega)]
  simp

theorem lcache_second {nC : ℕ} (hn : 2 ≤ nC) (k : ℕ) :
    (lcache H q0 nC (k + 2)).getD ((lcache H q0 nC (k + 2)).length - 2) 0 = lq H q0 k := by
  rw [List.getD_eq_getElem?_getD, lcache_length, lcache_getElem? _ _ _ (by omega)]
  simp only [Option.getD_some]
  congr 1
  omega

theorem lqs_orthonormal {n k : ℕ} (ho : LOrtho H q0 n) (hk : k ≤ n + 1) :
    OrthonormalList 𝕜 (lqs H q0 k) := by
  rw [orthonormalList_iff]
  constructor
  · unfold lqs
    rw [List.pairwise_map]
    have := List.nodup_range (n := k)
    refine List.Pairwise.imp_of_mem ?_ this
    intro a b ha hb hab
    rw [List.mem_range] at ha hb
    rw [ho a b (by omega) (by omega), if_neg hab]
  · intro x hx
    unfold lqs at hx
    obtain ⟨i, hi, rfl⟩ := List.mem_map.1 hx
    rw [List.mem_range] at hi
    have h := ho i i (by omega) (by omega)
    rw [if_pos rfl, inner_self_eq_norm_sq_to_K] at h
    have h' : ‖lq H q0 i‖ ^ 2 = 1 := by exact_mod_cast h
    nlinarith [norm_nonneg (lq H q0 i)]

theorem orthonormalList_drop {os : List E} (h : OrthonormalList 𝕜 os) (d : ℕ) :
    OrthonormalList 𝕜 (os.drop d) := by
  rw [orthonormalList_iff] at *
  exact ⟨h.1.drop, fun o ho => h.2 o (List.mem_of_mem_drop ho)⟩

theorem reorthoLoop_eq {os : List E} (h : OrthonormalList 𝕜 os) (v : E) :
    reorthoLoop 𝕜 os v = v - projSum 𝕜 os v := by
  have : ∀ (os : List E) (v : E), reorthoLoop 𝕜 os v = gsRemainder 𝕜 os v := by
    intro os
    induction os with
    | nil => intro v; rfl
    | cons o os ih => intro v; rw [reorthoLoop, gsRemainder, ih]
  rw [this, gsRemainder_eq h]

/-- Both ways of subtracting the projections on previous vectors give the three-term recurrence,
however many (but at least two) vectors are cached. -/
theorem subtractPrevious_eq (hs : H.IsSymmetric) (h0 : ‖q0‖ = 1) {nC : ℕ} (hn : 2 ≤ nC)
    (reortho : Bool) (k : ℕ) (hb : ∀ i, i < k → lb H q0 i ≠ 0) (beta : ℝ)
    (hbeta : ∀ j, k = j + 1 → beta = lb H q0 j) :
    subtractPrevious 𝕜 reortho k (lcache H q0 nC (k + 1)) beta
      (H (lq H q0 k) - (la H q0 k : 𝕜) • lq H q0 k) = lu H q0 k := by
  have ho : LOrtho H q0 k := lortho hs h0 k hb
  unfold subtractPrevious
  cases reortho with
  | true =>
    rw [if_pos rfl, lcache_dropLast (by omega),
      reorthoLoop_eq (orthonormalList_drop (lqs_orthonormal ho (by omega)) _)]
    cases k with
    | zero =>
      rw [lu_zero]
      simp [lqs, projSum, lq_zero]
    | succ k =>
      rw [lu_succ]
      congr 1
      rw [lqs_succ, List.drop_append_of_le_length (by simp; omega)]
      unfold projSum
      rw [List.map_append, List.sum_append]
      -- inner products with the remainder
      have key : ∀ i, i ≤ k → ⟪lq H q0 i, H (lq H q0 (k + 1)) -
          (la H q0 (k + 1) : 𝕜) • lq H q0 (k + 1)⟫_𝕜 = if i = k then (lb H q0 k : 𝕜) else 0 := by
        intro i hi
        have h1 := inner_lu hs ho hb i (by omega)
        rw [lu_succ, inner_sub_right, sub_eq_zero] at h1
        rw [h1, inner_smul_right, ho i k (by omega) (by omega)]
        split_ifs <;> simp
      have hz : ((List.drop (k + 1 + 1 - nC) (lqs H q0 k)).map fun o =>
          ⟪o, H (lq H q0 (k + 1)) - (la H q0 (k + 1) : 𝕜) • lq H q0 (k + 1)⟫_𝕜 • o).sum = 0 := by
        refine List.sum_eq_zero fun x hx => ?_
        obtain ⟨o, ho', rfl⟩ := List.mem_map.1 hx
        have := List.mem_of_mem_drop ho'
        unfold lqs at this
        obtain ⟨i, hi, rfl⟩ := List.mem_map.1 this
        rw [List.mem_range] at hi
        rw [key i (by omega), if_neg (by omega), zero_smul]
      rw [hz, zero_add]
      simp only [List.map_cons, List.map_nil, List.sum_cons, List.sum_nil, add_zero]
      rw [key k le_rfl, if_pos rfl]
  | false =>
    rw [if_neg (by simp)]
    cases k with
    | zero => rw [if_neg (by omega), lu_zero]; rfl
    | succ k =>
      rw [if_pos (by omega), lcache_second hn, hbeta k rfl, lu_succ]
      unfold axpy
      rw [neg_smul]; abel

end

end Cyten.Krylov
