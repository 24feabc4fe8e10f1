import Verif.Model.Planar
import Verif.Lemmas.Tools
import Mathlib.Data.List.Rotate
import Mathlib.Data.List.Sort

/-! # Arcs of a circle of legs -/

namespace Cyten.Planar
open Cyten.Tools

/-- A rotation of `0, 1, …, n - 1`. -/
theorem isRotated_range {L : List ℕ} {n : ℕ} :
    L ~r List.range n ↔ ∃ s, s ≤ n ∧ (0 < n → s < n) ∧ L = rangeOf s n ++ rangeOf 0 s := by
  constructor
  · intro h
    obtain ⟨k, hk⟩ := h.symm
    rcases Nat.eq_zero_or_pos n with rfl | hn
    · refine ⟨0, le_refl _, fun h => h, ?_⟩
      simpa [rangeOf] using hk.symm
    · refine ⟨k % n, (Nat.mod_lt _ hn).le, fun _ => Nat.mod_lt _ hn, ?_⟩
      rw [← hk, ← List.rotate_mod, List.length_range, List.rotate_eq_drop_append_take (by
        rw [List.length_range]; exact (Nat.mod_lt _ hn).le)]
      congr 1
      · unfold rangeOf
        rw [List.range_eq_range', List.drop_range']
        simp
      · unfold rangeOf
        rw [List.take_range, Nat.min_eq_left (Nat.mod_lt _ hn).le, List.range_eq_range']
        simp
  · rintro ⟨s, hs, -, rfl⟩
    refine (List.isRotated_append).trans ?_
    rw [show rangeOf 0 s ++ rangeOf s n = List.range n from ?_]
    unfold rangeOf
    rw [List.range_eq_range', Nat.sub_zero]
    have := List.range'_append (s := 0) (m := s) (n := n - s) (step := 1)
    rw [show 0 + 1 * s = s by omega, show s + (n - s) = n by omega] at this
    exact this

theorem mem_rangeOf {a b x : ℕ} : x ∈ rangeOf a b ↔ a ≤ x ∧ x < b := by
  unfold rangeOf
  rw [List.mem_range'_1]
  omega

theorem rangeOf_append {a b c : ℕ} (h1 : a ≤ b) (h2 : b ≤ c) : rangeOf a b ++ rangeOf b c = rangeOf a c := by
  unfold rangeOf
  have := List.range'_append (s := a) (m := b - a) (n := c - b) (step := 1)
  rw [show a + 1 * (b - a) = b by omega, show b - a + (c - b) = c - a by omega] at this
  exact this

theorem rangeOf_nil {a b : ℕ} (h : b ≤ a) : rangeOf a b = [] := by
  unfold rangeOf
  rw [show b - a = 0 by omega]; rfl

@[simp] theorem length_rangeOf {a b : ℕ} : (rangeOf a b).length = b - a := by simp [rangeOf]

theorem rangeOf_zero (n : ℕ) : rangeOf 0 n = List.range n := by
  rw [rangeOf, List.range_eq_range', Nat.sub_zero]

theorem getElem?_rangeOf {a b i : ℕ} (h : a + i < b) : (rangeOf a b)[i]? = some (a + i) := by
  unfold rangeOf
  rw [List.getElem?_range' (by omega)]
  simp

theorem rangeOf_pairwise (a b : ℕ) : (rangeOf a b).Pairwise (· < ·) := List.pairwise_lt_range'

theorem rangeOf_nodup (a b : ℕ) : (rangeOf a b).Nodup := List.nodup_range'

/-- A list of consecutive numbers. -/
theorem eq_rangeOf {l : List ℕ} {a b : ℕ} (hl : l.length = b - a) (h : ∀ i, i < l.length → l.getD i 0 = a + i) :
    l = rangeOf a b := by
  apply List.ext_getElem?
  intro i
  by_cases hi : i < l.length
  · rw [getElem?_rangeOf (by omega)]
    have := h i hi
    rw [List.getD_eq_getElem?_getD] at this
    rw [List.getElem?_eq_getElem hi] at this ⊢
    simpa using this
  · rw [List.getElem?_eq_none (by omega), List.getElem?_eq_none (by simp; omega)]

theorem steps {f : ℕ → ℕ} {a k : ℕ} (h : ∀ i, a ≤ i → i < a + k → f (i + 1) = f i + 1) :
    ∀ i, i ≤ k → f (a + i) = f a + i := by
  intro i hi
  induction i with
  | zero => rfl
  | succ i ih =>
    rw [show a + (i + 1) = a + i + 1 by omega, h (a + i) (by omega) (by omega), ih (by omega)]
    omega

theorem mem_jumps {l : List ℕ} {i : ℕ} : i ∈ jumps l ↔ i + 1 < l.length ∧ l.getD (i + 1) 0 ≠ l.getD i 0 + 1 := by
  unfold jumps
  rw [List.mem_filter, List.mem_range, decide_eq_true_eq]
  constructor
  · rintro ⟨h1, h2⟩; exact ⟨by omega, h2⟩
  · rintro ⟨h1, h2⟩; exact ⟨by omega, h2⟩

theorem headD_getD (l : List ℕ) : l.headD 0 = l.getD 0 0 := by cases l <;> rfl

theorem getLastD_getD (l : List ℕ) : l.getLastD 0 = l.getD (l.length - 1) 0 := by
  rw [List.getLastD_eq_getLast?, List.getLast?_eq_getElem?, List.getD_eq_getElem?_getD]

theorem sorted_unique {l m : List ℕ} (hp : l.Perm m) (hm : m.Pairwise (· < ·)) :
    l.insertionSort (· ≤ ·) = m :=
  List.Perm.eq_of_pairwise (fun a b _ _ h1 h2 => le_antisymm h1 h2) (List.pairwise_insertionSort _ l)
    (hm.imp le_of_lt) ((List.perm_insertionSort _ l).trans hp)

/-- Two arcs that cover the circle. -/
theorem arcs_cut (n s e : ℕ) (h1 : s ≤ e) (h2 : e ≤ n) :
    (rangeOf s e ++ (rangeOf e n ++ rangeOf 0 s)) ~r List.range n ∧
      ((rangeOf e n ++ rangeOf 0 s) ++ rangeOf s e) ~r List.range n := by
  have h : (rangeOf s e ++ (rangeOf e n ++ rangeOf 0 s)) ~r List.range n := by
    rw [← List.append_assoc, rangeOf_append h1 h2]
    refine List.isRotated_append.trans ?_
    rw [rangeOf_append (Nat.zero_le s) (by omega), rangeOf_zero]
  exact ⟨h, List.isRotated_append.trans h⟩

/-- The first part of a rotation. -/
theorem cut_cases {n : ℕ} {a b : List ℕ} (h : (a ++ b) ~r List.range n) :
    (∃ s e, s ≤ e ∧ e ≤ n ∧ (0 < n → s < n) ∧ a = rangeOf s e ∧ b = rangeOf e n ++ rangeOf 0 s) ∨
    (∃ s e, 0 < e ∧ e ≤ s ∧ s < n ∧ a = rangeOf s n ++ rangeOf 0 e ∧ b = rangeOf e s) := by
  obtain ⟨s, hs, hs', hab⟩ := isRotated_range.1 h
  have hlen := congrArg List.length hab
  simp only [List.length_append, length_rangeOf] at hlen
  by_cases hm : s + a.length ≤ n
  · left
    refine ⟨s, s + a.length, by omega, hm, hs', ?_, ?_⟩
    all_goals
      rw [← rangeOf_append (show s ≤ s + a.length by omega) hm, List.append_assoc] at hab
    · exact (List.append_inj hab (by simp)).1
    · exact (List.append_inj hab (by simp)).2
  · right
    refine ⟨s, s + a.length - n, by omega, by omega, hs' (by omega), ?_, ?_⟩
    all_goals
      rw [← rangeOf_append (show 0 ≤ s + a.length - n by omega) (show s + a.length - n ≤ s by omega),
        ← List.append_assoc] at hab
    · exact (List.append_inj hab (by simp; omega)).1
    · exact (List.append_inj hab (by simp; omega)).2

/-- A sorted list without jumps. -/
theorem jumps_nil {l : List ℕ} (hl : l ≠ []) (h : jumps l = []) : l = rangeOf (l.headD 0) (l.getLastD 0 + 1) := by
  have hpos := List.length_pos_iff.2 hl
  have hst := steps (f := fun i => l.getD i 0) (a := 0) (k := l.length - 1) (fun i _ hi => by
    by_contra hc
    have := mem_jumps.2 ⟨show i + 1 < l.length by omega, hc⟩
    rw [h] at this
    simp at this)
  simp only [Nat.zero_add] at hst
  rw [headD_getD, getLastD_getD]
  have hlast := hst (l.length - 1) le_rfl
  refine eq_rangeOf (by omega) fun i hi => hst i (by omega)

/-- A sorted list with one jump. -/
theorem jumps_one {l : List ℕ} {j : ℕ} (h : jumps l = [j]) (hs : l.Pairwise (· < ·)) :
    j + 1 < l.length ∧ l.getD j 0 + 1 < l.getD (j + 1) 0 ∧
    l = rangeOf (l.headD 0) (l.getD j 0 + 1) ++ rangeOf (l.getD (j + 1) 0) (l.getLastD 0 + 1) := by
  have hj : j ∈ jumps l := by rw [h]; simp
  obtain ⟨hjl, hne⟩ := mem_jumps.1 hj
  have hother : ∀ i, i + 1 < l.length → i ≠ j → l.getD (i + 1) 0 = l.getD i 0 + 1 := by
    intro i hi hij
    by_contra hc
    have := mem_jumps.2 ⟨hi, hc⟩
    rw [h] at this
    simp at this
    exact hij this
  have hlt : l.getD j 0 < l.getD (j + 1) 0 := by
    have := List.pairwise_iff_getElem.1 hs j (j + 1) (by omega) hjl (by omega)
    simpa [List.getD_eq_getElem?_getD, List.getElem?_eq_getElem hjl, List.getElem?_eq_getElem (show j < l.length by omega)]
      using this
  have h1 := steps (f := fun i => l.getD i 0) (a := 0) (k := j) (fun i _ hi => hother i (by omega) (by omega))
  have h2 := steps (f := fun i => l.getD i 0) (a := j + 1) (k := l.length - 1 - (j + 1))
    (fun i hi hi' => hother i (by omega) (by omega))
  simp only [Nat.zero_add] at h1
  have e1 := h1 j le_rfl
  have e2 := h2 (l.length - 1 - (j + 1)) le_rfl
  rw [show j + 1 + (l.length - 1 - (j + 1)) = l.length - 1 by omega] at e2
  refine ⟨hjl, by omega, ?_⟩
  rw [headD_getD, getLastD_getD]
  have hsplit : l = l.take (j + 1) ++ l.drop (j + 1) := (List.take_append_drop _ _).symm
  have ht : l.take (j + 1) = rangeOf (l.getD 0 0) (l.getD j 0 + 1) := by
    refine eq_rangeOf (by rw [List.length_take]; omega) fun i hi => ?_
    rw [List.length_take] at hi
    rw [List.getD_eq_getElem?_getD, List.getElem?_take_of_lt (by omega), ← List.getD_eq_getElem?_getD]
    exact h1 i (by omega)
  have hd : l.drop (j + 1) = rangeOf (l.getD (j + 1) 0) (l.getD (l.length - 1) 0 + 1) := by
    refine eq_rangeOf (by rw [List.length_drop]; omega) fun i hi => ?_
    rw [List.length_drop] at hi
    rw [List.getD_eq_getElem?_getD, List.getElem?_drop, ← List.getD_eq_getElem?_getD]
    exact h2 i (by omega)
  rw [← ht, ← hd]
  exact hsplit

/-- Both parts determine each other, if the first one is given as a set and none is empty. -/
theorem cut_unique {n : ℕ} {a b a' b' : List ℕ} (h : (a ++ b) ~r List.range n) (h' : (a' ++ b') ~r List.range n)
    (hp : a.Perm a') (ha : a ≠ []) (hb : b ≠ []) : a = a' ∧ b = b' := by
  have hlen := hp.length_eq
  have hm : ∀ x, x ∈ a ↔ x ∈ a' := fun x => hp.mem_iff
  rcases cut_cases h with ⟨s, e, hse, hen, hn, rfl, rfl⟩ | ⟨s, e, he, hes, hsn, rfl, rfl⟩ <;>
    rcases cut_cases h' with ⟨s', e', hse', hen', hn', rfl, rfl⟩ | ⟨s', e', he', hes', hsn', rfl, rfl⟩
  all_goals
    simp only [List.mem_append, mem_rangeOf] at hm
    simp only [List.length_append, length_rangeOf] at hlen
  · have hlt : s < e := by
      by_contra hc
      exact ha (rangeOf_nil (by omega))
    have h1 := hm s
    have h2 := hm s'
    have h3 := hm (e - 1)
    have h4 := hm (e' - 1)
    obtain rfl : s = s' := by omega
    obtain rfl : e = e' := by omega
    exact ⟨rfl, rfl⟩
  · have hlt : s < e := by
      by_contra hc
      exact ha (rangeOf_nil (by omega))
    exfalso
    apply hb
    have h1 := hm 0
    have h2 := hm (n - 1)
    rw [rangeOf_nil (by omega), rangeOf_nil (by omega)]; rfl
  · have hlt : e < s := by
      by_contra hc
      exact hb (rangeOf_nil (by omega))
    exfalso
    have h1 := hm 0
    have h2 := hm (n - 1)
    have h3 := hm e
    omega
  · have hlt : e < s := by
      by_contra hc
      exact hb (rangeOf_nil (by omega))
    have h1 := hm e
    have h2 := hm e'
    have h3 := hm (s - 1)
    have h4 := hm (s' - 1)
    obtain rfl : e = e' := by omega
    obtain rfl : s = s' := by omega
    exact ⟨rfl, rfl⟩

/-- The entries of an arc. -/
theorem arc_step {n : ℕ} {a b : List ℕ} (h : (a ++ b) ~r List.range n) (i : ℕ) (hi : i + 1 < a.length) :
    a.getD (i + 1) 0 = (a.getD i 0 + 1) % n := by
  obtain ⟨s, hs⟩ := h.symm
  have hlen := congrArg List.length hs
  simp only [List.length_rotate, List.length_range, List.length_append] at hlen
  have key : ∀ j, j < a.length → a.getD j 0 = (j + s) % n := by
    intro j hj
    have h1 : (a ++ b)[j]? = some ((j + s) % n) := by
      rw [← hs, List.getElem?_rotate (by simp; omega), List.length_range, List.getElem?_range (Nat.mod_lt _ (by omega))]
    rw [List.getElem?_append_left hj] at h1
    rw [List.getD_eq_getElem?_getD, h1]; rfl
  rw [key _ hi, key _ (by omega), Nat.mod_add_mod]
  congr 1; omega

/-- A list with these steps is an arc. -/
theorem arc_of_steps {n : ℕ} {a : List ℕ} (hl : a.length ≤ n) (hlt : ∀ x ∈ a, x < n)
    (h : ∀ i, i + 1 < a.length → a.getD (i + 1) 0 = (a.getD i 0 + 1) % n) : ∃ b, (a ++ b) ~r List.range n := by
  rcases eq_or_ne a [] with rfl | ha
  · exact ⟨List.range n, List.IsRotated.refl _⟩
  have hpos := List.length_pos_iff.2 ha
  have hmem : ∀ j, j < a.length → a.getD j 0 < n := fun j hj => by
    rw [List.getD_eq_getElem?_getD, List.getElem?_eq_getElem hj]; exact hlt _ (List.getElem_mem hj)
  have key : ∀ j, j < a.length → a.getD j 0 = (j + a.getD 0 0) % n := by
    intro j hj
    induction j with
    | zero => rw [Nat.zero_add, Nat.mod_eq_of_lt (hmem 0 hj)]
    | succ j ih =>
      rw [h j hj, ih (by omega), Nat.mod_add_mod]
      congr 1; omega
  refine ⟨((List.range n).rotate (a.getD 0 0)).drop a.length, ?_⟩
  have : a = ((List.range n).rotate (a.getD 0 0)).take a.length := by
    apply List.ext_getElem?
    intro i
    by_cases hi : i < a.length
    · rw [List.getElem?_take_of_lt hi, List.getElem?_rotate (by simp; omega), List.length_range,
        List.getElem?_range (Nat.mod_lt _ (by omega)), ← key i hi, List.getD_eq_getElem?_getD,
        List.getElem?_eq_getElem hi]; rfl
    · rw [List.getElem?_eq_none (by omega), List.getElem?_eq_none (by simp; omega)]
  rw [show a ++ ((List.range n).rotate (a.getD 0 0)).drop a.length = (List.range n).rotate (a.getD 0 0) from
    (congrArg (· ++ _) this).trans (List.take_append_drop _ _)]
  exact List.IsRotated.symm ⟨_, rfl⟩

end Cyten.Planar
