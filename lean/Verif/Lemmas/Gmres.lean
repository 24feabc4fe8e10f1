import Verif.Model.Gmres
import Verif.Lemmas.Arnoldi

/-!
Invariants of the loops of `GMRES`.
-/

namespace Cyten.Krylov

open Cyten.Sparse Cyten.Props
open scoped InnerProductSpace

variable {𝕜 E : Type} [RCLike 𝕜] [NormedAddCommGroup E] [InnerProductSpace 𝕜 E]

theorem set2_eq {α : Type} (h : ℕ → ℕ → α) (i j : ℕ) (x : α) : set2 h i j x i j = x := by
  simp [set2]

theorem set2_ne {α : Type} (h : ℕ → ℕ → α) {i j a b : ℕ} (x : α) (hn : ¬ (a = i ∧ b = j)) :
    set2 h i j x a b = h a b := by
  unfold set2; rw [if_neg hn]

theorem set1_eq {α : Type} (f : ℕ → α) (i : ℕ) (x : α) : set1 f i x i = x := by simp [set1]

theorem set1_ne {α : Type} (f : ℕ → α) {i a : ℕ} (x : α) (hn : a ≠ i) : set1 f i x a = f a := by
  unfold set1; rw [if_neg hn]

/-! ### `arnoldi` -/

theorem arnoldiLoop_snd (k : ℕ) (cs : List E) (i : ℕ) (h : ℕ → ℕ → 𝕜) (q : E) :
    (arnoldiLoop k cs i h q).2 = reorthoLoop 𝕜 cs q := by
  induction cs generalizing i h q with
  | nil => rfl
  | cons c cs ih => rw [arnoldiLoop, ih, reorthoLoop]

theorem arnoldiLoop_fst (k : ℕ) (cs : List E) (i : ℕ) (h : ℕ → ℕ → 𝕜) (q : E)
    (ho : cs.Pairwise fun x y => ⟪x, y⟫_𝕜 = 0) (a b : ℕ) :
    (arnoldiLoop k cs i h q).1 a b =
      if b = k ∧ i ≤ a ∧ a < i + cs.length then ⟪cs.getD (a - i) 0, q⟫_𝕜 else h a b := by
  induction cs generalizing i h q with
  | nil =>
    rw [if_neg (by simp only [List.length_nil]; omega)]
    rfl
  | cons c cs ih =>
    rw [List.pairwise_cons] at ho
    rw [arnoldiLoop, ih _ _ _ ho.2]
    rw [List.length_cons]
    by_cases h1 : b = k ∧ i + 1 ≤ a ∧ a < i + 1 + cs.length
    · rw [if_pos h1, if_pos ⟨h1.1, by omega, by omega⟩]
      obtain ⟨m, hm⟩ : ∃ m, a - i = m + 1 := ⟨a - i - 1, by omega⟩
      rw [hm, List.getD_cons_succ, show a - (i + 1) = m by omega]
      have hmem : cs.getD m 0 ∈ cs := by
        rw [List.getD_eq_getElem?_getD, List.getElem?_eq_getElem (by omega)]
        exact List.getElem_mem _
      unfold axpy vinner
      rw [inner_add_right, inner_smul_right, inner_eq_zero_symm.1 (ho.1 _ hmem)]
      simp
    · rw [if_neg h1]
      by_cases h2 : a = i ∧ b = k
      · obtain ⟨rfl, rfl⟩ := h2
        rw [set2_eq, if_pos ⟨rfl, le_rfl, by omega⟩]
        simp [vinner]
      · rw [set2_ne _ _ h2, if_neg (by omega)]

section
variable (A : E →ₗ[𝕜] E) (q0 : E)

/-- the first `n` Arnoldi vectors -/
noncomputable def aqs (n : ℕ) : List E := (List.range n).map (aq A q0)

theorem aqs_length (n : ℕ) : (aqs A q0 n).length = n := by simp [aqs]

theorem aqs_getD {n i : ℕ} (h : i < n) : (aqs A q0 n).getD i 0 = aq A q0 i := by
  rw [List.getD_eq_getElem?_getD, List.getElem?_eq_getElem (by rw [aqs_length]; exact h)]
  simp [aqs]

theorem aqs_last (n : ℕ) : (aqs A q0 (n + 1)).getLastD 0 = aq A q0 n := by
  simp [aqs, List.range_succ]

theorem aqs_succ (n : ℕ) : aqs A q0 (n + 1) = aqs A q0 n ++ [aq A q0 n] := by
  simp [aqs, List.range_succ]

end

section
variable {A : E →ₗ[𝕜] E} {q0 : E}

theorem aqs_pairwise (h0 : UnitOrZero q0) (n : ℕ) :
    (aqs A q0 n).Pairwise fun x y => ⟪x, y⟫_𝕜 = 0 := by
  unfold aqs
  rw [List.pairwise_map]
  exact List.nodup_range.imp fun h => aq_orth h0 _ _ h

theorem aqs_sum (f : E → E) (n : ℕ) :
    ((aqs A q0 n).map f).sum = ∑ i ∈ Finset.range n, f (aq A q0 i) := by
  unfold aqs
  rw [List.map_map]
  rfl

theorem reortho_aqs (h0 : UnitOrZero q0) (k : ℕ) :
    reorthoLoop 𝕜 (aqs A q0 (k + 1)) (A (aq A q0 k)) = au A q0 k := by
  rw [reorthoLoop_orth ?_ (aqs_pairwise h0 _), aqs_sum]
  · rfl
  · intro x hx
    unfold aqs at hx
    obtain ⟨i, -, rfl⟩ := List.mem_map.1 hx
    exact aq_unit_or_zero h0 i

theorem normalise_au (k : ℕ) : (open Classical in if 0 < ‖au A q0 k‖ then
    ((1 / ‖au A q0 k‖ : ℝ) : 𝕜) • au A q0 k else au A q0 k) = aq A q0 (k + 1) := by
  rw [aq_succ]
  split_ifs with h
  · rfl
  · have : au A q0 k = 0 := by
      rw [not_lt] at h
      exact norm_le_zero_iff.1 h
    rw [this, smul_zero]

theorem gArnoldi_qs (h0 : UnitOrZero q0) {k : ℕ} {s : GState 𝕜 E} (hq : s.qs = aqs A q0 (k + 1)) :
    (gArnoldi A k s).qs = aqs A q0 (k + 2) := by
  unfold gArnoldi
  dsimp only
  rw [arnoldiLoop_snd, hq, aqs_last, List.take_of_length_le (by rw [aqs_length]), reortho_aqs h0,
    aqs_succ _ _ (k + 1), normalise_au]

theorem gArnoldi_h (h0 : UnitOrZero q0) {k : ℕ} {s : GState 𝕜 E} (hq : s.qs = aqs A q0 (k + 1)) :
    (∀ a b, b ≠ k → (gArnoldi A k s).h a b = s.h a b) ∧
    (∀ i, i ≤ k → (gArnoldi A k s).h i k = ah A q0 i k) ∧
    (gArnoldi A k s).h (k + 1) k = ((ab A q0 k : ℝ) : 𝕜) := by
  unfold gArnoldi
  dsimp only
  rw [arnoldiLoop_snd, hq, aqs_last, List.take_of_length_le (by rw [aqs_length]), reortho_aqs h0]
  refine ⟨fun a b hb => ?_, fun i hi => ?_, ?_⟩
  · rw [set2_ne _ _ (by omega), arnoldiLoop_fst _ _ _ _ _ (aqs_pairwise h0 _), if_neg (by omega)]
  · rw [set2_ne _ _ (by omega), arnoldiLoop_fst _ _ _ _ _ (aqs_pairwise h0 _),
      if_pos ⟨rfl, by omega, by rw [aqs_length]; omega⟩]
    rw [Nat.sub_zero, aqs_getD _ _ (by omega)]
    rfl
  · rw [set2_eq]; rfl

end

/-! ### Givens rotations, seen as rotations of the basis -/

section
variable (A : E →ₗ[𝕜] E) (q0 : E)

/-- the last vector of the rotated basis -/
noncomputable def gw (c s : ℕ → 𝕜) : ℕ → E
  | 0 => aq A q0 0
  | m + 1 => -(s m) • gw c s m + c m • aq A q0 (m + 1)

/-- the other vectors of the rotated basis -/
noncomputable def gp (c s : ℕ → 𝕜) (m : ℕ) : E := c m • gw A q0 c s m + s m • aq A q0 (m + 1)

theorem gw_congr {c s c' s' : ℕ → 𝕜} {k : ℕ} (hc : ∀ i, i < k → c i = c' i)
    (hs : ∀ i, i < k → s i = s' i) {m : ℕ} (hm : m ≤ k) : gw A q0 c s m = gw A q0 c' s' m := by
  induction m with
  | zero => rfl
  | succ m ih => rw [gw, gw, ih (by omega), hc m (by omega), hs m (by omega)]

theorem gp_congr {c s c' s' : ℕ → 𝕜} {k : ℕ} (hc : ∀ i, i < k → c i = c' i)
    (hs : ∀ i, i < k → s i = s' i) {m : ℕ} (hm : m < k) : gp A q0 c s m = gp A q0 c' s' m := by
  unfold gp
  rw [gw_congr A q0 hc hs hm.le, hc m hm, hs m hm]

theorem rotate_one {c s v x : 𝕜} (w q : E) (h : c * c + s * s = 1) :
    v • w + x • q = (c * v + s * x) • (c • w + s • q) + (-s * v + c * x) • (-s • w + c • q) := by
  have e1 : (c * v + s * x) * c + (-s * v + c * x) * -s = v := by
    linear_combination v * h
  have e2 : (c * v + s * x) * s + (-s * v + c * x) * c = x := by
    linear_combination x * h
  rw [smul_add, smul_add, smul_smul, smul_smul, smul_smul, smul_smul]
  rw [show ∀ a b c d : E, a + b + (c + d) = (a + c) + (b + d) by intros; abel]
  rw [← add_smul, ← add_smul, e1, e2]

end

section
variable {A : E →ₗ[𝕜] E} {q0 : E}

theorem rotateLoop_col (c s : ℕ → 𝕜) (k fuel i : ℕ) (h : ℕ → ℕ → 𝕜) :
    ∀ a b, (b ≠ k ∨ a < i ∨ i + fuel < a) → rotateLoop c s k fuel i h a b = h a b := by
  induction fuel generalizing i h with
  | zero => intro a b _; rfl
  | succ fuel ih =>
    intro a b hab
    rw [rotateLoop]
    rw [ih (i + 1) _ a b (by omega), set2_ne _ _ (by omega), set2_ne _ _ (by omega)]

theorem rotateLoop_sum (c s : ℕ → 𝕜) (k fuel i : ℕ) (h : ℕ → ℕ → 𝕜)
    (hcs : ∀ m, i ≤ m → m < i + fuel → c m * c m + s m * s m = 1) :
    h i k • gw A q0 c s i + ∑ l ∈ Finset.range fuel, h (i + 1 + l) k • aq A q0 (i + 1 + l) =
      ∑ l ∈ Finset.range fuel, rotateLoop c s k fuel i h (i + l) k • gp A q0 c s (i + l) +
        rotateLoop c s k fuel i h (i + fuel) k • gw A q0 c s (i + fuel) := by
  induction fuel generalizing i h with
  | zero => simp [rotateLoop]
  | succ fuel ih =>
    set h2 : ℕ → ℕ → 𝕜 := set2 (set2 h (i + 1) k (-s i * h i k + c i * h (i + 1) k)) i k
      (c i * h i k + s i * h (i + 1) k) with hh2
    have hrec : rotateLoop c s k (fuel + 1) i h = rotateLoop c s k fuel (i + 1) h2 := rfl
    have e1 : h2 i k = c i * h i k + s i * h (i + 1) k := by rw [hh2, set2_eq]
    have e2 : h2 (i + 1) k = -s i * h i k + c i * h (i + 1) k := by
      rw [hh2, set2_ne _ _ (by omega), set2_eq]
    have e3 : ∀ l, h2 (i + 1 + 1 + l) k = h (i + 1 + 1 + l) k := by
      intro l
      rw [hh2, set2_ne _ _ (by omega), set2_ne _ _ (by omega)]
    have ih' := ih (i + 1) h2 (fun m h1 h2 => hcs m (by omega) (by omega))
    simp only [e3, e2] at ih'
    rw [hrec, Finset.sum_range_succ', Finset.sum_range_succ']
    have e6 : ∀ l, i + 1 + (l + 1) = i + 1 + 1 + l := fun l => by omega
    have e6' : ∑ l ∈ Finset.range fuel, h (i + 1 + (l + 1)) k • aq A q0 (i + 1 + (l + 1)) =
        ∑ l ∈ Finset.range fuel, h (i + 1 + 1 + l) k • aq A q0 (i + 1 + 1 + l) :=
      Finset.sum_congr rfl fun l _ => by rw [e6]
    rw [e6']
    have e4 : rotateLoop c s k fuel (i + 1) h2 (i + 0) k = c i * h i k + s i * h (i + 1) k := by
      rw [rotateLoop_col _ _ _ _ _ _ _ _ (by omega), Nat.add_zero, e1]
    rw [e4]
    have e5 : ∀ l, i + (l + 1) = i + 1 + l := fun l => by omega
    have e5' : ∑ l ∈ Finset.range fuel, rotateLoop c s k fuel (i + 1) h2 (i + (l + 1)) k •
        gp A q0 c s (i + (l + 1)) = ∑ l ∈ Finset.range fuel,
        rotateLoop c s k fuel (i + 1) h2 (i + 1 + l) k • gp A q0 c s (i + 1 + l) :=
      Finset.sum_congr rfl fun l _ => by rw [e5 l]
    rw [e5', e5 fuel]
    simp only [Nat.add_zero]
    have hr := rotate_one (v := h i k) (x := h (i + 1) k) (gw A q0 c s i) (aq A q0 (i + 1))
      (hcs i le_rfl (by omega))
    have hw : gw A q0 c s (i + 1) = -(s i) • gw A q0 c s i + c i • aq A q0 (i + 1) := rfl
    have hp : gp A q0 c s i = c i • gw A q0 c s i + s i • aq A q0 (i + 1) := rfl
    rw [← hw, ← hp] at hr
    calc _ = (h i k • gw A q0 c s i + h (i + 1) k • aq A q0 (i + 1)) +
          ∑ l ∈ Finset.range fuel, h (i + 1 + 1 + l) k • aq A q0 (i + 1 + 1 + l) := by abel
      _ = (c i * h i k + s i * h (i + 1) k) • gp A q0 c s i +
          ((-s i * h i k + c i * h (i + 1) k) • gw A q0 c s (i + 1) +
          ∑ l ∈ Finset.range fuel, h (i + 1 + 1 + l) k • aq A q0 (i + 1 + 1 + l)) := by
          rw [hr]; abel
      _ = _ := by rw [ih']; abel

theorem rotateLoop_zero (c s : ℕ → 𝕜) (k fuel i : ℕ) (h : ℕ → ℕ → 𝕜)
    (hz : ∀ a, h a k = 0) : ∀ a, rotateLoop c s k fuel i h a k = 0 := by
  induction fuel generalizing i h with
  | zero => intro a; exact hz a
  | succ fuel ih =>
    intro a
    rw [rotateLoop]
    refine ih _ _ (fun a => ?_) a
    unfold set2
    simp only [hz]
    split_ifs <;> simp

theorem rotateLoop_conj (c s : ℕ → 𝕜) (k fuel i : ℕ) (h : ℕ → ℕ → 𝕜) (n : ℕ)
    (hi : i + fuel ≤ n)
    (hc : ∀ m, m < n → starRingEnd 𝕜 (c m) = c m) (hs : ∀ m, m < n → starRingEnd 𝕜 (s m) = s m)
    (hz : ∀ a, a ≤ n → starRingEnd 𝕜 (h a k) = h a k) :
    ∀ a, a ≤ n → starRingEnd 𝕜 (rotateLoop c s k fuel i h a k) = rotateLoop c s k fuel i h a k := by
  induction fuel generalizing i h with
  | zero => intro a ha; exact hz a ha
  | succ fuel ih =>
    intro a ha
    rw [rotateLoop]
    refine ih _ _ (by omega) (fun a ha => ?_) a ha
    unfold set2
    split_ifs <;>
      simp [hz i (by omega), hz (i + 1) (by omega), hc i (by omega), hs i (by omega), hz a ha]

end

/-! ### Back substitution -/

theorem foldl_sub (l : List ℕ) (f : ℕ → 𝕜) (a : 𝕜) :
    l.foldl (fun a j => a - f j) a = a - (l.map f).sum := by
  induction l generalizing a with
  | nil => simp
  | cons x l ih => rw [List.foldl_cons, ih, List.map_cons, List.sum_cons]; ring

theorem range'_sum (f : ℕ → 𝕜) (i k : ℕ) :
    ((List.range' i (k - i)).map f).sum = ∑ j ∈ Finset.Ico i k, f j := rfl

theorem gBackLoop_eq (h : ℕ → ℕ → 𝕜) (e1 : ℕ → 𝕜) (k n : ℕ) (hn : n ≤ k) (y : ℕ → 𝕜)
    (hd : ∀ i, i < k → h i i ≠ 0)
    (hy : ∀ i, n ≤ i → i < k → ∑ j ∈ Finset.Ico i k, h i j * y j = e1 i) :
    ∀ i, i < k → ∑ j ∈ Finset.Ico i k, h i j * gBackLoop h e1 k n y j = e1 i := by
  induction n generalizing y with
  | zero => intro i hi; exact hy i (by omega) hi
  | succ n ih =>
    intro i hi
    rw [gBackLoop]
    refine ih (by omega) _ (fun i h1 h2 => ?_) i hi
    rw [foldl_sub (f := fun j => h n j * y j), range'_sum]
    by_cases e : i = n
    · subst e
      rw [Finset.sum_eq_sum_Ico_succ_bot h2, set1_eq]
      have : ∑ j ∈ Finset.Ico (i + 1) k, h i j * set1 y i ((e1 i -
          ∑ j ∈ Finset.Ico (i + 1) k, h i j * y j) / h i i) j =
          ∑ j ∈ Finset.Ico (i + 1) k, h i j * y j := by
        refine Finset.sum_congr rfl fun j hj => ?_
        have := Finset.mem_Ico.1 hj
        rw [set1_ne _ _ (by omega)]
      rw [this, mul_div_cancel₀ _ (hd i h2)]
      ring
    · rw [← hy i (by omega) h2]
      refine Finset.sum_congr rfl fun j hj => ?_
      have := Finset.mem_Ico.1 hj
      rw [set1_ne _ _ (by omega)]

theorem gBack_eq (h : ℕ → ℕ → 𝕜) (e1 : ℕ → 𝕜) (k : ℕ) (hd : ∀ i, i < k → h i i ≠ 0) :
    ∀ i, i < k → ∑ j ∈ Finset.Ico i k, h i j * gBackLoop h e1 k k (fun _ => 0) j = e1 i :=
  gBackLoop_eq h e1 k k le_rfl _ hd (fun i h1 h2 => by omega)

theorem gUpdate_eq (A : E →ₗ[𝕜] E) (q0 : E) (y : ℕ → 𝕜) (x : E) {k n : ℕ} (h : k ≤ n) :
    gUpdate (aqs A q0 n) y x k = x + ∑ i ∈ Finset.range k, y i • aq A q0 i := by
  unfold gUpdate
  induction k with
  | zero => simp
  | succ k ih =>
    rw [List.range_succ, List.foldl_append, ih (by omega), Finset.sum_range_succ]
    simp only [List.foldl_cons, List.foldl_nil]
    rw [aqs_getD _ _ (by omega)]
    unfold axpy
    rw [one_smul, add_assoc]

/-! ### The invariant -/

section
variable (A : E →ₗ[𝕜] E) (q0 : E)

/-- After `k` passes. -/
structure GInv (beta : ℝ) (k : ℕ) (s : GState 𝕜 E) : Prop where
  qs : s.qs = aqs A q0 (k + 1)
  rot : ∀ i, i < k → s.cosine i * s.cosine i + s.sine i * s.sine i = 1
  col : ∀ j, j < k → A (aq A q0 j) =
    ∑ i ∈ Finset.range (j + 1), s.h i j • gp A q0 s.cosine s.sine i
  diag : ∀ j, j < k → s.h j j ≠ 0
  res : ((beta : ℝ) : 𝕜) • q0 = ∑ i ∈ Finset.range k, s.e1 i • gp A q0 s.cosine s.sine i +
    s.e1 k • gw A q0 s.cosine s.sine k
  errs : s.errs.length = k + 1

end

section
variable {A : E →ₗ[𝕜] E} {q0 : E}

/-- any combination of the rotated vectors is the image of a combination of Arnoldi vectors -/
theorem solve_tri {beta : ℝ} {k : ℕ} {s : GState 𝕜 E} (hi : GInv A q0 beta k s) (d : ℕ → 𝕜) :
    A (∑ j ∈ Finset.range k, gBackLoop s.h d k k (fun _ => 0) j • aq A q0 j) =
      ∑ i ∈ Finset.range k, d i • gp A q0 s.cosine s.sine i := by
  have hy := gBack_eq s.h d k hi.diag
  set y := gBackLoop s.h d k k fun _ => 0 with hyd
  rw [map_sum]
  have e1 : ∀ j ∈ Finset.range k, A (y j • aq A q0 j) =
      ∑ i ∈ Finset.range (j + 1), (s.h i j * y j) • gp A q0 s.cosine s.sine i := by
    intro j hj
    rw [map_smul, hi.col j (Finset.mem_range.1 hj), Finset.smul_sum]
    refine Finset.sum_congr rfl fun i _ => ?_
    rw [smul_smul, mul_comm]
  rw [Finset.sum_congr rfl e1]
  rw [Finset.sum_comm' (t' := Finset.range k) (s' := fun i => Finset.Ico i k)]
  · refine Finset.sum_congr rfl fun i hi' => ?_
    rw [← Finset.sum_smul, hy i (Finset.mem_range.1 hi')]
  · intro a b
    simp only [Finset.mem_range, Finset.mem_Ico]
    omega

/-- the residual after `k` passes -/
theorem residual_eq {beta : ℝ} {k : ℕ} {s : GState 𝕜 E} (hi : GInv A q0 beta k s) :
    ((beta : ℝ) : 𝕜) • q0 -
      A (∑ j ∈ Finset.range k, gBackLoop s.h s.e1 k k (fun _ => 0) j • aq A q0 j) =
      s.e1 k • gw A q0 s.cosine s.sine k := by
  rw [solve_tri hi, hi.res, add_sub_cancel_left]

/-- What is needed of `std::sqrt`. -/
def SqrtSpec (sq : 𝕜 → 𝕜) : Prop := ∀ v1 v2 : 𝕜, sq (v1 * v1 + v2 * v2) * sq (v1 * v1 + v2 * v2) =
  v1 * v1 + v2 * v2

/-- the two entries that determine the next rotation -/
noncomputable def gV (A : E →ₗ[𝕜] E) (k : ℕ) (s : GState 𝕜 E) : 𝕜 × 𝕜 :=
  let h := rotateLoop s.cosine s.sine k k 0 (gArnoldi A k s).h
  (h k k, h (k + 1) k)

theorem gV_eq (h0 : UnitOrZero q0) {beta : ℝ} {k : ℕ} {s : GState 𝕜 E}
    (hi : GInv A q0 beta k s) :
    (gV A k s).2 = ((ab A q0 k : ℝ) : 𝕜) ∧
    A (aq A q0 k) = ∑ i ∈ Finset.range k,
      rotateLoop s.cosine s.sine k k 0 (gArnoldi A k s).h i k • gp A q0 s.cosine s.sine i +
      (gV A k s).1 • gw A q0 s.cosine s.sine k + (gV A k s).2 • aq A q0 (k + 1) := by
  obtain ⟨-, hh2, hh3⟩ := gArnoldi_h h0 hi.qs
  have e2 : (gV A k s).2 = ((ab A q0 k : ℝ) : 𝕜) := by
    unfold gV
    dsimp only
    rw [rotateLoop_col _ _ _ _ _ _ _ _ (by omega), hh3]
  refine ⟨e2, ?_⟩
  rw [e2, A_aq]
  congr 1
  have hsum := rotateLoop_sum (A := A) (q0 := q0) s.cosine s.sine k k 0 (gArnoldi A k s).h
    (fun m _ hm => hi.rot m (by omega))
  simp only [Nat.zero_add] at hsum
  unfold gV
  dsimp only
  rw [← hsum, Finset.sum_range_succ', add_comm]
  congr 1
  · rw [hh2 0 (by omega)]; rfl
  · refine Finset.sum_congr rfl fun i hi => ?_
    have := Finset.mem_range.1 hi
    rw [hh2 (1 + i) (by omega), Nat.add_comm 1 i]

/-- a pass fails exactly if the square root vanishes -/
theorem gStep_none_iff (sq : 𝕜 → 𝕜) (bn : ℝ) (k : ℕ) (s : GState 𝕜 E) :
    gStep sq A bn k s = none ↔
      sq ((gV A k s).1 * (gV A k s).1 + (gV A k s).2 * (gV A k s).2) = 0 := by
  unfold gStep
  rw [Option.map_eq_none_iff]
  unfold gRotate gV
  dsimp only
  have e1 : (gArnoldi A k s).cosine = s.cosine := rfl
  have e2 : (gArnoldi A k s).sine = s.sine := rfl
  rw [e1, e2]
  split_ifs with h
  · simp [h]
  · simp [h]

theorem gStep_some {sq : 𝕜 → 𝕜} (hsq : SqrtSpec sq) (h0 : UnitOrZero q0) {beta bn : ℝ} {k : ℕ}
    {s s' : GState 𝕜 E} (hi : GInv A q0 beta k s) (hs : gStep sq A bn k s = some s') :
    GInv A q0 beta (k + 1) s' ∧ aq A q0 k ≠ 0 ∧
    s'.errs = s.errs ++ [‖s'.e1 (k + 1)‖ / gDenom bn] ∧
    (∀ i, i < k → s'.cosine i = s.cosine i ∧ s'.sine i = s.sine i) ∧
    (let t := sq ((gV A k s).1 * (gV A k s).1 + (gV A k s).2 * (gV A k s).2); t ≠ 0 ∧ s'.cosine k = (gV A k s).1 / t ∧ s'.sine k = (gV A k s).2 / t ∧
      s'.e1 (k + 1) = -s'.sine k * s.e1 k) := by
  obtain ⟨ev2, hAk⟩ := gV_eq h0 hi
  have hne : sq ((gV A k s).1 * (gV A k s).1 + (gV A k s).2 * (gV A k s).2) ≠ 0 := by
    intro h
    rw [(gStep_none_iff sq bn k s).2 h] at hs
    exact absurd hs (by simp)
  obtain ⟨hh1, hh2, hh3⟩ := gArnoldi_h h0 hi.qs
  set t := sq ((gV A k s).1 * (gV A k s).1 + (gV A k s).2 * (gV A k s).2) with ht
  have htt : t * t = (gV A k s).1 * (gV A k s).1 + (gV A k s).2 * (gV A k s).2 := hsq _ _
  set h1 := rotateLoop s.cosine s.sine k k 0 (gArnoldi A k s).h with hh1d
  have hv1 : (gV A k s).1 = h1 k k := rfl
  have hv2 : (gV A k s).2 = h1 (k + 1) k := rfl
  -- the new state
  have hs' : s' =
      { qs := (gArnoldi A k s).qs
        h := set2 (set2 h1 k k ((gV A k s).1 / t * (gV A k s).1 + (gV A k s).2 / t * (gV A k s).2))
          (k + 1) k 0
        cosine := set1 s.cosine k ((gV A k s).1 / t)
        sine := set1 s.sine k ((gV A k s).2 / t)
        e1 := set1 (set1 s.e1 (k + 1) (-((gV A k s).2 / t) * s.e1 k)) k ((gV A k s).1 / t * s.e1 k)
        errs := s.errs ++ [‖-((gV A k s).2 / t) * s.e1 k‖ / gDenom bn] } := by
    unfold gStep at hs
    rw [Option.map_eq_some_iff] at hs
    obtain ⟨s1, hr, rfl⟩ := hs
    unfold gRotate at hr
    dsimp only at hr
    have e1 : (gArnoldi A k s).cosine = s.cosine := rfl
    have e2 : (gArnoldi A k s).sine = s.sine := rfl
    rw [e1, e2, ← hh1d, ← hv1, ← hv2, ← ht, if_neg hne] at hr
    rw [Option.some.injEq] at hr
    subst hr
    dsimp only
    have e3 : (gArnoldi A k s).e1 = s.e1 := rfl
    have e4 : (gArnoldi A k s).errs = s.errs := rfl
    rw [set1_eq, set1_eq, e3, e4]
    have e5 : set1 s.e1 (k + 1) (-((gV A k s).2 / t) * s.e1 k) k = s.e1 k := set1_ne _ _ (by omega)
    rw [e5, set1_ne _ _ (by omega : k + 1 ≠ k), set1_eq]
  have hc : ∀ i, i < k → s'.cosine i = s.cosine i := by
    intro i hik; rw [hs']; exact set1_ne _ _ (by omega)
  have hsn : ∀ i, i < k → s'.sine i = s.sine i := by
    intro i hik; rw [hs']; exact set1_ne _ _ (by omega)
  have hck : s'.cosine k = (gV A k s).1 / t := by rw [hs']; exact set1_eq _ _ _
  have hsk : s'.sine k = (gV A k s).2 / t := by rw [hs']; exact set1_eq _ _ _
  have he : ∀ i, i < k → s'.e1 i = s.e1 i := by
    intro i hik
    rw [hs']
    dsimp only
    rw [set1_ne _ _ (by omega), set1_ne _ _ (by omega)]
  have hek : s'.e1 k = s'.cosine k * s.e1 k := by rw [hck, hs']; exact set1_eq _ _ _
  have hek1 : s'.e1 (k + 1) = -s'.sine k * s.e1 k := by
    rw [hsk, hs']
    dsimp only
    rw [set1_ne _ _ (by omega), set1_eq]
  have hunit : s'.cosine k * s'.cosine k + s'.sine k * s'.sine k = 1 := by
    rw [hck, hsk]
    field_simp
    rw [pow_two, pow_two, pow_two, ← htt]
  have hgp : ∀ i, i < k → gp A q0 s'.cosine s'.sine i = gp A q0 s.cosine s.sine i := fun i hik =>
    gp_congr A q0 hc hsn hik
  have hgw : gw A q0 s'.cosine s'.sine k = gw A q0 s.cosine s.sine k :=
    gw_congr A q0 hc hsn le_rfl
  have hgpk : gp A q0 s'.cosine s'.sine k =
      s'.cosine k • gw A q0 s.cosine s.sine k + s'.sine k • aq A q0 (k + 1) := by
    unfold gp; rw [hgw]
  have hgwk : gw A q0 s'.cosine s'.sine (k + 1) =
      -(s'.sine k) • gw A q0 s.cosine s.sine k + s'.cosine k • aq A q0 (k + 1) := by
    rw [gw, hgw]
  have hhcol : ∀ a b, b < k → s'.h a b = s.h a b := by
    intro a b hb
    rw [hs']
    dsimp only
    rw [set2_ne _ _ (by omega), set2_ne _ _ (by omega), hh1d,
      rotateLoop_col _ _ _ _ _ _ _ _ (by omega), hh1 a b (by omega)]
  have hhk : ∀ i, i < k → s'.h i k = h1 i k := by
    intro i hik
    rw [hs']
    dsimp only
    rw [set2_ne _ _ (by omega), set2_ne _ _ (by omega)]
  have hhkk : s'.h k k = t := by
    rw [hs']
    dsimp only
    rw [set2_ne _ _ (by omega), set2_eq]
    field_simp
    rw [pow_two, pow_two, pow_two, ← htt]
  refine ⟨⟨?_, ?_, ?_, ?_, ?_, ?_⟩, ?_, ?_, fun i hik => ⟨hc i hik, hsn i hik⟩, hne, hck, hsk, hek1⟩
  · rw [hs']; exact gArnoldi_qs h0 hi.qs
  · intro i hik
    by_cases e : i = k
    · subst e; exact hunit
    · rw [hc i (by omega), hsn i (by omega)]; exact hi.rot i (by omega)
  · intro j hj
    by_cases e : j = k
    · subst e
      rw [hAk, Finset.sum_range_succ, hhkk, add_assoc]
      congr 1
      · refine Finset.sum_congr rfl fun i hik => ?_
        have := Finset.mem_range.1 hik
        rw [hhk i this, hgp i this]
      · rw [rotate_one _ _ hunit, ← hgpk, ← hgwk, hck, hsk]
        have z1 : -((gV A j s).2 / t) * (gV A j s).1 + (gV A j s).1 / t * (gV A j s).2 = 0 := by ring
        have z2 : (gV A j s).1 / t * (gV A j s).1 + (gV A j s).2 / t * (gV A j s).2 = t := by
          field_simp
          rw [pow_two, pow_two, pow_two, ← htt]
        rw [z1, z2, zero_smul, add_zero]
    · rw [hi.col j (by omega)]
      refine Finset.sum_congr rfl fun i hij => ?_
      have := Finset.mem_range.1 hij
      rw [hgp i (by omega), hhcol i j (by omega)]
  · intro j hj
    by_cases e : j = k
    · subst e; rw [hhkk]; exact hne
    · rw [hhcol j j (by omega)]; exact hi.diag j (by omega)
  · rw [hi.res, Finset.sum_range_succ, add_assoc]
    congr 1
    · refine Finset.sum_congr rfl fun i hik => ?_
      have := Finset.mem_range.1 hik
      rw [he i this, hgp i this]
    · have hr := rotate_one (v := s.e1 k) (x := 0) (gw A q0 s.cosine s.sine k) (aq A q0 (k + 1)) hunit
      rw [zero_smul, add_zero, ← hgpk, ← hgwk] at hr
      rw [hr, hek, hek1]
      simp
  · rw [hs']
    dsimp only
    rw [List.length_append, hi.errs]
    rfl
  · intro hz
    apply hne
    have hall : ∀ a, (gArnoldi A k s).h a k = 0 ∨ k + 1 < a := by
      intro a
      by_cases h1 : a ≤ k
      · left; rw [hh2 a h1]; unfold ah; rw [hz]; simp
      · by_cases h2 : a = k + 1
        · left
          rw [h2, hh3]
          have : au A q0 k = 0 := by
            unfold au ah; rw [hz]; simp
          unfold ab
          rw [this]; simp
        · right; omega
    have hz1 : (gV A k s).1 = 0 := by
      have hau : A (aq A q0 k) = 0 := by rw [hz]; simp
      -- the rotations see only zeros
      have hcol : ∀ fuel i (h : ℕ → ℕ → 𝕜), i + fuel ≤ k + 1 → (∀ a, a ≤ k + 1 → h a k = 0) →
          ∀ a, a ≤ k + 1 → rotateLoop s.cosine s.sine k fuel i h a k = 0 := by
        intro fuel
        induction fuel with
        | zero => intro i h _ hz a ha; exact hz a ha
        | succ fuel ih =>
          intro i h hik hz a ha
          rw [rotateLoop]
          refine ih _ _ (by omega) (fun a ha => ?_) a ha
          unfold set2
          rw [hz i (by omega), hz (i + 1) (by omega), hz a ha]
          split_ifs <;> simp
      rw [hv1, hh1d]
      refine hcol k 0 _ (by omega) (fun a ha => ?_) k (by omega)
      rcases hall a with h | h
      · exact h
      · omega
    have hz2 : (gV A k s).2 = 0 := by
      rw [ev2]
      have : au A q0 k = 0 := by
        unfold au ah; rw [hz]; simp
      unfold ab
      rw [this]; simp
    have := htt
    rw [hz1, hz2] at this
    simpa using this
  · rw [hek1, hsk, hs']

end

end Cyten.Krylov
