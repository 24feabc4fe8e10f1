import Verif.Lemmas.Sites2

/-!
# State labels and sectors of occupation sites
-/

namespace Cyten.Sites

open Matrix

theorem foldl_mul_range (Nmax : ℕ → ℕ) (L : List ℕ) (a b : ℕ) :
    L.foldl (fun p j => p * (Nmax j + 1)) (a * b) = L.foldl (fun p j => p * (Nmax j + 1)) a * b := by
  induction L generalizing a with
  | nil => rfl
  | cons x L ih =>
    rw [List.foldl_cons, List.foldl_cons, ← ih]
    congr 1; ring

theorem dimProd_succ (Nmax : ℕ → ℕ) (n k : ℕ) (h : k < n) :
    dimProd Nmax (n + 1) k = dimProd Nmax n k * (Nmax n + 1) := by
  rw [dimProd, List.range_succ, List.filter_append, List.foldl_append]
  rw [show List.filter (fun j => decide (k < j)) [n] = [n] by simp [h]]
  rfl

theorem dimProd_last (Nmax : ℕ → ℕ) (n : ℕ) : dimProd Nmax (n + 1) n = 1 := by
  rw [dimProd, List.filter_eq_nil_iff.mpr]
  · rfl
  · intro a ha
    have := List.mem_range.mp ha
    simp; omega

theorem labelIndex_succ (Nmax : ℕ → ℕ) (n : ℕ) (o : ℕ → ℕ) :
    labelIndex Nmax (n + 1) o = labelIndex Nmax n o * (Nmax n + 1) + o n := by
  rw [labelIndex, Finset.sum_range_succ, dimProd_last, mul_one, labelIndex, Finset.sum_mul]
  congr 1
  refine Finset.sum_congr rfl fun k hk => ?_
  rw [dimProd_succ Nmax n k (Finset.mem_range.mp hk), mul_assoc]

theorem labelIndex_lt (Nmax : ℕ → ℕ) (n : ℕ) (o : ℕ → ℕ) (h : ∀ k < n, o k ≤ Nmax k) :
    labelIndex Nmax n o < siteDim Nmax n := by
  induction n with
  | zero => exact Nat.one_pos
  | succ n ih =>
    rw [labelIndex_succ]
    show _ < siteDim Nmax n * (Nmax n + 1)
    have h1 := ih fun k hk => h k (by omega)
    have h2 := h n (Nat.lt_succ_self n)
    calc labelIndex Nmax n o * (Nmax n + 1) + o n
        < labelIndex Nmax n o * (Nmax n + 1) + (Nmax n + 1) := by omega
      _ = (labelIndex Nmax n o + 1) * (Nmax n + 1) := by ring
      _ ≤ _ := Nat.mul_le_mul_right _ h1

theorem occ_labelIndex (Nmax : ℕ → ℕ) (n : ℕ) (o : ℕ → ℕ) (h : ∀ k < n, o k ≤ Nmax k) (k : ℕ)
    (hk : k < n) : occ Nmax n (labelIndex Nmax n o) k = o k := by
  induction n with
  | zero => omega
  | succ n ih =>
    have h2 := h n (Nat.lt_succ_self n)
    rw [labelIndex_succ]
    show (if k = n then (labelIndex Nmax n o * (Nmax n + 1) + o n) % (Nmax n + 1)
      else occ Nmax n ((labelIndex Nmax n o * (Nmax n + 1) + o n) / (Nmax n + 1)) k) = o k
    by_cases e : k = n
    · rw [if_pos e, e, mul_comm, Nat.mul_add_mod, Nat.mod_eq_of_lt (by omega)]
    · rw [if_neg e, mul_comm, Nat.mul_add_div (Nat.succ_pos _), Nat.div_eq_of_lt (by omega), add_zero]
      exact ih (fun l hl => h l (by omega)) (by omega)

theorem labelIndex_occ (Nmax : ℕ → ℕ) (n i : ℕ) (h : i < siteDim Nmax n) :
    labelIndex Nmax n (occ Nmax n i) = i :=
  occ_ext Nmax n _ _ (labelIndex_lt Nmax n _ fun k _ => occ_le Nmax n i k) h
    fun k hk => occ_labelIndex Nmax n _ (fun k _ => occ_le Nmax n i k) k hk

theorem labelIndex_congr (Nmax : ℕ → ℕ) (n : ℕ) (o o' : ℕ → ℕ) (h : ∀ k < n, o k = o' k) :
    labelIndex Nmax n o = labelIndex Nmax n o' :=
  Finset.sum_congr rfl fun k hk => by rw [h k (Finset.mem_range.mp hk)]

theorem fermionLabelIndex_eq (n : ℕ) (o : ℕ → ℕ) (h : ∀ k < n, o k ≤ 1) :
    fermionLabelIndex n o = labelIndex (fun _ => 1) n o := by
  induction n with
  | zero => rfl
  | succ n ih =>
    have h1 := ih fun k hk => h k (by omega)
    rw [labelIndex_succ, ← h1]
    have : fermionLabelIndex (n + 1) o = (fermionLabelIndex n o <<< 1) ||| o n := by
      rw [fermionLabelIndex, List.range_succ, List.foldl_append]; rfl
    rw [this, Nat.shiftLeft_eq, pow_one]
    rcases Nat.le_one_iff_eq_zero_or_eq_one.mp (h n (Nat.lt_succ_self n)) with e | e
    · rw [e]; simp
    · rw [e]
      have := Nat.two_pow_add_eq_or_of_lt (i := 1) (b := 1) (by norm_num) (fermionLabelIndex n o)
      rw [pow_one] at this
      rw [mul_comm, ← this]

theorem range_mul_map {β : Type} (a b : ℕ) (f : ℕ → β) :
    (List.range (a * b)).map f
      = (List.range a).flatMap fun i => (List.range b).map fun j => f (i * b + j) := by
  induction a with
  | zero => simp
  | succ a ih =>
    rw [Nat.succ_mul, List.range_add, List.map_append, ih, List.range_succ, List.flatMap_append]
    simp [List.map_map, Function.comp_def]

theorem productRows_eq (Nmax : ℕ → ℕ) (n : ℕ) :
    productRows Nmax n
      = (List.range (siteDim Nmax n)).map fun i => (List.range n).map (occ Nmax n i) := by
  induction n with
  | zero => rfl
  | succ n ih =>
    show (productRows Nmax n).flatMap _ = (List.range (siteDim Nmax n * (Nmax n + 1))).map _
    rw [ih, range_mul_map, List.flatMap_map]
    congr 1; funext i
    refine List.map_congr_left fun x hx => ?_
    have hx := List.mem_range.mp hx
    rw [List.range_succ, List.map_append, List.map_singleton]
    congr 1
    · refine List.map_congr_left fun k hk => ?_
      have hk := List.mem_range.mp hk
      have : occ Nmax (n + 1) (i * (Nmax n + 1) + x) k
          = occ Nmax n ((i * (Nmax n + 1) + x) / (Nmax n + 1)) k := if_neg (by omega)
      rw [this, mul_comm, Nat.mul_add_div (Nat.succ_pos _), Nat.div_eq_of_lt hx, add_zero]
    · have : occ Nmax (n + 1) (i * (Nmax n + 1) + x) n = (i * (Nmax n + 1) + x) % (Nmax n + 1) :=
        if_pos rfl
      rw [this, mul_comm, Nat.mul_add_mod, Nat.mod_eq_of_lt hx]

theorem sum_range_map (n : ℕ) (f : ℕ → ℕ) : ((List.range n).map f).sum = ∑ k ∈ Finset.range n, f k := by
  induction n with
  | zero => rfl
  | succ n ih => rw [List.range_succ, List.map_append, List.sum_append, ih, Finset.sum_range_succ]; simp

theorem productRows_getElem? (Nmax : ℕ → ℕ) (n i : ℕ) (h : i < siteDim Nmax n) :
    (productRows Nmax n)[i]? = some ((List.range n).map (occ Nmax n i)) := by
  rw [productRows_eq, List.getElem?_map, List.getElem?_range h]; rfl

theorem patched_sanity (Nmax : ℕ → ℕ) (n k : ℕ) (hk : k < n) (m : ℝ) (hm : m = Nmax k) :
    patchedBBd Nmax n k m - numberOp Nmax n k = 1 := by
  ext i j
  rw [Matrix.sub_apply, patchedBBd, of_apply, antiNumber_eq Nmax n k hk, numberOp_eq Nmax n k hk,
    one_apply, diagonal_apply_eq, diagonal_apply, diagonal_apply]
  by_cases h : i = j
  · subst h
    rw [if_pos rfl, if_pos rfl, if_pos rfl]
    by_cases h2 : occ Nmax n i.val k = Nmax k
    · simp only [if_pos h2, true_and, if_true, h2, hm]; push_cast; ring
    · have h3 : ¬ ((occ Nmax n i.val k : ℂ) + 1 = 0) := by exact_mod_cast Nat.succ_ne_zero (occ Nmax n i.val k)
      simp only [if_neg h2, true_and, if_neg h3]; ring
  · simp [h]

theorem max_BBd (Nmax : ℕ → ℕ) (n k : ℕ) (hk : k < n) (h1 : 1 ≤ Nmax k) (m : ℝ)
    (hm : IsGreatest {x : ℝ | ∃ i j, ((annihilator Nmax n k * creator Nmax n k) i j).re = x} m) :
    m = Nmax k := by
  rw [antiNumber_eq Nmax n k hk] at hm
  have up : IsGreatest {x : ℝ | ∃ i j : Fin (siteDim Nmax n), ((diagonal fun i : Fin (siteDim Nmax n) =>
      if occ Nmax n i.val k = Nmax k then (0 : ℂ) else (occ Nmax n i.val k : ℂ) + 1) i j).re = x}
      (Nmax k : ℝ) := by
    constructor
    · have hb : ∀ l < n, (fun l => if l = k then Nmax k - 1 else 0) l ≤ Nmax l := by
        intro l _
        by_cases e : l = k
        · subst e; simp
        · simp [e]
      refine ⟨⟨_, labelIndex_lt Nmax n _ hb⟩, ⟨_, labelIndex_lt Nmax n _ hb⟩, ?_⟩
      rw [diagonal_apply_eq]
      show (if occ Nmax n (labelIndex Nmax n _) k = _ then (0 : ℂ)
        else (occ Nmax n (labelIndex Nmax n _) k : ℂ) + 1).re = _
      rw [occ_labelIndex Nmax n _ hb k hk]
      simp only [if_true]
      rw [if_neg (by omega)]
      rw [show ((Nmax k - 1 : ℕ) : ℂ) + 1 = ((Nmax k : ℝ) : ℂ) by
        have : ((Nmax k - 1 + 1 : ℕ) : ℂ) = ((Nmax k : ℕ) : ℂ) := by rw [Nat.sub_add_cancel h1]
        push_cast at this ⊢; exact this]
      exact Complex.ofReal_re _
    · rintro x ⟨i, j, rfl⟩
      rw [diagonal_apply]
      by_cases e : i = j
      · rw [if_pos e]
        have := occ_le Nmax n i.val k
        by_cases e2 : occ Nmax n i.val k = Nmax k
        · rw [if_pos e2]; simp
        · rw [if_neg e2]
          have h3 : occ Nmax n i.val k + 1 ≤ Nmax k := by omega
          have h4 : ((occ Nmax n i.val k : ℂ) + 1).re = ((occ Nmax n i.val k + 1 : ℕ) : ℝ) := by
            simp
          rw [h4]; exact_mod_cast h3
      · rw [if_neg e]; simp
  exact hm.unique up

end Cyten.Sites
