import Verif.Lemmas.PlanarPermute
import Verif.Props.Planar

/-! # The case analysis of `planar_permute_legs` -/

namespace Cyten.Planar.Spec
open Cyten.Permute

/-- Make the calls of `permute_legs` without levels, one after the other, starting with a tensor with the legs
`s.1` in the codomain and `s.2` in the domain. -/
def runCalls (sym : Bool) : List Call → List ℕ × List ℕ → Option (List ℕ × List ℕ)
  | [], s => some s
  | c :: cs, s =>
    match instructions s.1.length s.2.length c.cod c.dom [] c.bendRight sym with
    | .ok is => (execute is s).bind fun r => runCalls sym cs r.1
    | .error _ => none

end Cyten.Planar.Spec

namespace Cyten.Props
open Cyten.Planar Cyten.Planar.Spec Cyten.Tools Cyten.Permute

/-! ## Lists of legs -/

theorem idxOf_rangeOf {a b x : ℕ} (h1 : a ≤ x) (h2 : x < b) : (rangeOf a b).idxOf x = x - a :=
  idxOf_legs (rangeOf_nodup _ _) (by rw [getElem?_rangeOf (by omega)]; congr 1; omega)

theorem two_nodup {b n a : ℕ} (h : a ≤ b) : (rangeOf b n ++ rangeOf 0 a).Nodup := by
  rw [List.nodup_append]
  refine ⟨rangeOf_nodup _ _, rangeOf_nodup _ _, fun x hx y hy => ?_⟩
  rw [mem_rangeOf] at hx hy
  omega

theorem two_get_high {b n a x : ℕ} (h1 : b ≤ x) (h2 : x < n) : (rangeOf b n ++ rangeOf 0 a)[x - b]? = some x := by
  rw [List.getElem?_append_left (by simp; omega), getElem?_rangeOf (by omega)]
  congr 1; omega

theorem two_get_low {b n a x : ℕ} (h2 : x < a) : (rangeOf b n ++ rangeOf 0 a)[n - b + x]? = some x := by
  rw [List.getElem?_append_right (by simp), length_rangeOf, Nat.add_sub_cancel_left, getElem?_rangeOf (by omega)]
  congr 1; omega

theorem idxOf_reverse {l : List ℕ} (h : l.Nodup) {j x : ℕ} (hj : l[j]? = some x) :
    l.reverse.idxOf x = l.length - 1 - j := by
  have hjl := (List.getElem?_eq_some_iff.1 hj).1
  refine idxOf_legs (List.nodup_reverse.2 h) ?_
  rw [List.getElem?_reverse (by omega), show l.length - 1 - (l.length - 1 - j) = j by omega, hj]

theorem idx_high {b n a x : ℕ} (h : a ≤ b) (h1 : b ≤ x) (h2 : x < n) :
    (rangeOf b n ++ rangeOf 0 a).reverse.idxOf x = n - 1 - x + a := by
  rw [idxOf_reverse (two_nodup h) (two_get_high h1 h2)]
  simp; omega

theorem idx_low {b n a x : ℕ} (h : a ≤ b) (hb : b ≤ n) (h2 : x < a) :
    (rangeOf b n ++ rangeOf 0 a).reverse.idxOf x = a - 1 - x := by
  rw [idxOf_reverse (two_nodup h) (two_get_low h2)]
  simp; omega

theorem mem_two {b n a x : ℕ} : x ∈ rangeOf b n ++ rangeOf 0 a ↔ (b ≤ x ∧ x < n) ∨ x < a := by
  simp [mem_rangeOf]

theorem mem_two_rev {b n a x : ℕ} : x ∈ (rangeOf b n ++ rangeOf 0 a).reverse ↔ (b ≤ x ∧ x < n) ∨ x < a := by
  rw [List.mem_reverse, mem_two]

theorem three_get {a b c i : ℕ} {x y z : Option Bool} : (three a x b y c z)[i]? =
    if i < a then some x else if i < a + b then some y else if i < a + b + c then some z else none := by
  unfold three
  split_ifs with h1 h2 h3
  · rw [List.getElem?_append_left (by simp; omega), List.getElem?_append_left (by simp; omega)]
    simp [h1]
  · rw [List.getElem?_append_left (by simp; omega), List.getElem?_append_right (by simp; omega),
      List.getElem?_replicate, if_pos (by simp; omega)]
  · rw [List.getElem?_append_right (by simp; omega), List.getElem?_replicate, if_pos (by simp; omega)]
  · rw [List.getElem?_eq_none]
    simp; omega

theorem three_length {a b c : ℕ} {x y z : Option Bool} : (three a x b y c z).length = a + b + c := by
  simp [three]; omega

/-! ## The legs that stay -/

theorem codStaying_A {K a b : ℕ} : codStaying K (rangeOf a b) = rangeOf a (min b K) := by
  unfold codStaying rangeOf
  refine filter_range (Nat.min_le_right _ _) fun i hi => ?_
  have := mem_rangeOf (a := a) (b := b) (x := i)
  unfold rangeOf at this
  rw [decide_eq_true_eq, this]
  omega

theorem codStaying_B {K n a b : ℕ} (hK : K ≤ a) : codStaying K (rangeOf a n ++ rangeOf 0 b) = rangeOf 0 (min b K) := by
  unfold codStaying
  conv_rhs => unfold rangeOf
  refine filter_range (Nat.min_le_right _ _) fun i hi => ?_
  rw [decide_eq_true_eq, mem_two]
  omega

theorem domStaying_A1 {K D a b : ℕ} (ha : a ≤ K) : domStaying K D (rangeOf b (K + D) ++ rangeOf 0 a).reverse =
    rangeOf 0 (K + D - max b K) := by
  unfold domStaying
  conv_rhs => unfold rangeOf
  refine filter_range (by omega) fun i hi => ?_
  rw [decide_eq_true_eq, mem_two_rev]
  omega

theorem domStaying_A2 {K D a : ℕ} (ha : K < a) (ha' : a ≤ K + D) :
    domStaying K D (rangeOf (K + D) (K + D) ++ rangeOf 0 a).reverse = rangeOf (K + D - a) D := by
  unfold domStaying
  conv_rhs => unfold rangeOf
  refine filter_range (by omega) fun i hi => ?_
  rw [decide_eq_true_eq, mem_two_rev]
  omega

theorem domStaying_B {K D a b : ℕ} (ha : a ≤ K + D) :
    domStaying K D (rangeOf b a).reverse = rangeOf (K + D - a) (K + D - max b K) := by
  unfold domStaying
  conv_rhs => unfold rangeOf
  refine filter_range (by omega) fun i hi => ?_
  rw [decide_eq_true_eq, List.mem_reverse, mem_rangeOf]
  omega

theorem codStaying_wind {K n a b : ℕ} (hb : b ≤ a) (ha : a < K) (hn : K ≤ n) :
    codStaying K (rangeOf a n ++ rangeOf 0 b) = rangeOf 0 b ++ rangeOf a K := by
  unfold codStaying
  rw [← rangeOf_zero, ← rangeOf_append (show 0 ≤ b by omega) (show b ≤ K by omega),
    ← rangeOf_append hb ha.le, List.filter_append, List.filter_append,
    List.filter_eq_self.2, List.filter_eq_nil_iff.2, List.filter_eq_self.2]
  · rfl
  · intro i hi
    rw [mem_rangeOf] at hi
    rw [decide_eq_true_eq, mem_two]; omega
  · intro i hi
    rw [mem_rangeOf] at hi
    rw [decide_eq_true_eq, mem_two]; omega
  · intro i hi
    rw [mem_rangeOf] at hi
    rw [decide_eq_true_eq, mem_two]; omega

theorem domStaying_wind {K D a b : ℕ} (ha : K < a) (hab : a ≤ b) (hb : b < K + D) :
    domStaying K D (rangeOf b (K + D) ++ rangeOf 0 a).reverse = rangeOf 0 (K + D - b) ++ rangeOf (K + D - a) D := by
  unfold domStaying
  rw [← rangeOf_zero, ← rangeOf_append (show 0 ≤ K + D - b by omega) (show K + D - b ≤ D by omega),
    ← rangeOf_append (show K + D - b ≤ K + D - a by omega) (show K + D - a ≤ D by omega), List.filter_append,
    List.filter_append, List.filter_eq_self.2, List.filter_eq_nil_iff.2, List.filter_eq_self.2]
  · rfl
  · intro i hi
    rw [mem_rangeOf] at hi
    rw [decide_eq_true_eq, mem_two_rev]; omega
  · intro i hi
    rw [mem_rangeOf] at hi
    rw [decide_eq_true_eq, mem_two_rev]; omega
  · intro i hi
    rw [mem_rangeOf] at hi
    rw [decide_eq_true_eq, mem_two_rev]; omega

/-! ## Winding -/

theorem codWinding_A {K a b : ℕ} : codWinding K (rangeOf a b) = false := by
  unfold codWinding
  by_cases h : 0 ∈ rangeOf a b
  · rw [mem_rangeOf] at h
    rw [idxOf_rangeOf (x := 0) h.1 h.2]
    simp
  · simp [h]

theorem codWinding_B {K n a b : ℕ} (h0 : 0 < b) (hb : b ≤ a) (ha : a < n) (hK : K ≤ n) :
    codWinding K (rangeOf a n ++ rangeOf 0 b) = decide (a < K) := by
  unfold codWinding
  have hi0 : (rangeOf a n ++ rangeOf 0 b).idxOf 0 = n - a :=
    idxOf_legs (two_nodup hb) (two_get_low (x := 0) h0)
  rw [hi0]
  by_cases h : a < K
  · have hi1 : (rangeOf a n ++ rangeOf 0 b).idxOf (K - 1) = K - 1 - a :=
      idxOf_legs (two_nodup hb) (two_get_high (by omega) (by omega))
    rw [hi1, codStaying_wind hb h hK]
    have m0 : 0 ∈ rangeOf a n ++ rangeOf 0 b := by rw [mem_two]; omega
    have m1 : K - 1 ∈ rangeOf a n ++ rangeOf 0 b := by rw [mem_two]; omega
    have hne : rangeOf 0 b ++ rangeOf a K ≠ [] := by
      intro hc
      have := congrArg List.length hc
      simp at this
      omega
    simp only [m0, m1, h, hne, ne_eq, not_false_eq_true, decide_true, Bool.true_and, decide_eq_true_eq]
    omega
  · rw [decide_eq_false h]
    by_cases h1 : K - 1 ∈ rangeOf a n ++ rangeOf 0 b
    · rw [mem_two] at h1
      by_cases hK0 : K = 0
      · subst hK0
        rw [codStaying_B (by omega)]
        simp [rangeOf]
      · have h2 : K - 1 < b := by omega
        have hi1 : (rangeOf a n ++ rangeOf 0 b).idxOf (K - 1) = n - a + (K - 1) :=
          idxOf_legs (two_nodup hb) (two_get_low h2)
        rw [hi1]
        simp
    · simp [h1]

theorem domWinding_B {K D a b : ℕ} : domWinding K D (rangeOf b a).reverse = false := by
  unfold domWinding
  by_cases h : K ∈ (rangeOf b a).reverse ∧ K + D - 1 ∈ (rangeOf b a).reverse ∧ domStaying K D (rangeOf b a).reverse ≠ []
  · obtain ⟨h1, h2, h3⟩ := h
    rw [List.mem_reverse, mem_rangeOf] at h1 h2
    have hD : D ≠ 0 := by
      rintro rfl
      simp [domStaying] at h3
    have g : ∀ x, b ≤ x → x < a → (rangeOf b a)[x - b]? = some x := by
      intro x hx hx'
      rw [getElem?_rangeOf (by omega)]; congr 1; omega
    rw [idxOf_reverse (rangeOf_nodup _ _) (g K h1.1 h1.2), idxOf_reverse (rangeOf_nodup _ _) (g (K + D - 1) h2.1 h2.2)]
    simp
    omega
  · by_cases h1 : K ∈ (rangeOf b a).reverse <;> by_cases h2 : K + D - 1 ∈ (rangeOf b a).reverse <;>
      by_cases h3 : domStaying K D (rangeOf b a).reverse = [] <;> simp_all

theorem domWinding_A {K D a b : ℕ} (hab : a ≤ b) (hb : b ≤ K + D) (ha : 0 < K + D → a < K + D) :
    domWinding K D (rangeOf b (K + D) ++ rangeOf 0 a).reverse = decide (K < a ∧ b < K + D) := by
  unfold domWinding
  by_cases h : K < a ∧ b < K + D
  · rw [domStaying_wind h.1 hab h.2, idx_low hab hb (x := K) h.1, idx_high hab (x := K + D - 1) (by omega) (by omega)]
    have m0 : K ∈ (rangeOf b (K + D) ++ rangeOf 0 a).reverse := by rw [mem_two_rev]; omega
    have m1 : K + D - 1 ∈ (rangeOf b (K + D) ++ rangeOf 0 a).reverse := by rw [mem_two_rev]; omega
    have hne : rangeOf 0 (K + D - b) ++ rangeOf (K + D - a) D ≠ [] := by
      intro hc
      have := congrArg List.length hc
      simp at this
      omega
    simp only [m0, m1, h, hne, ne_eq, not_false_eq_true, decide_true, Bool.true_and, decide_eq_true_eq, and_self]
    omega
  · rw [decide_eq_false h]
    by_cases hD : D = 0
    · subst hD
      simp [domStaying]
    by_cases h1 : K ∈ (rangeOf b (K + D) ++ rangeOf 0 a).reverse
    · by_cases h2 : K + D - 1 ∈ (rangeOf b (K + D) ++ rangeOf 0 a).reverse
      · rw [mem_two_rev] at h1 h2
        have hb2 : b < K + D := by omega
        have hK : b ≤ K := by omega
        rw [idx_high hab (x := K) hK (by omega), idx_high hab (x := K + D - 1) (by omega) (by omega)]
        simp
      · rw [decide_eq_false h2]; simp only [Bool.and_false, Bool.false_and]
    · rw [decide_eq_false h1]; simp only [Bool.and_false, Bool.false_and]

/-! ## Running the calls -/

theorem initialLegs_length (K D : ℕ) : (initialLegs K D).1.length = K ∧ (initialLegs K D).2.length = D := by
  simp [initialLegs]

theorem run_one {sym : Bool} {K D : ℕ} {co dom : List ℕ} {br : List (Option Bool)}
    (h : ∃ is tr, instructions K D co dom [] br sym = .ok is ∧ execute is (initialLegs K D) = some ((co, dom), tr)) :
    runCalls sym [⟨co, dom, br⟩] (initialLegs K D) = some (co, dom) := by
  obtain ⟨is, tr, h1, h2⟩ := h
  simp only [runCalls, (initialLegs_length K D).1, (initialLegs_length K D).2, h1, h2, Option.bind_some]

/-- Two calls: the second one refers to the legs of the first result. -/
theorem run_two {sym : Bool} {K D : ℕ} {co dom co' dom' : List ℕ} {br br' : List (Option Bool)} (f : ℕ → ℕ)
    (h : ∃ is tr, instructions K D co dom [] br sym = .ok is ∧ execute is (initialLegs K D) = some ((co, dom), tr))
    (h' : ∃ is tr, instructions co.length dom.length co' dom' [] br' sym = .ok is ∧
      execute is (initialLegs co.length dom.length) = some ((co', dom'), tr))
    (hc : co = (List.range co.length).map f) (hd : dom = (List.range' co.length dom.length).reverse.map f) :
    runCalls sym [⟨co, dom, br⟩, ⟨co', dom', br'⟩] (initialLegs K D) = some (co'.map f, dom'.map f) := by
  obtain ⟨is, tr, h1, h2⟩ := h
  obtain ⟨is', tr', h3, h4⟩ := h'
  obtain ⟨q, h5⟩ := execute_map f h4
  simp only [initialLegs] at h5
  rw [← hc, ← hd] at h5
  simp only [runCalls, (initialLegs_length K D).1, (initialLegs_length K D).2, h1, h2, Option.bind_some, h3, h5]

/-- Closes the goals about the directions. -/
macro "dirs" : tactic => `(tactic| (intro x; intros; rw [three_get]; split_ifs <;> first | rfl | omega))

theorem six_get {a b c a' b' c' i : ℕ} {x y z x' y' z' : Option Bool} :
    (three a x b y c z ++ three a' x' b' y' c' z')[i]? =
      if i < a + b + c then (three a x b y c z)[i]? else (three a' x' b' y' c' z')[i - (a + b + c)]? := by
  split_ifs with h
  · rw [List.getElem?_append_left (by rw [three_length]; exact h)]
  · rw [List.getElem?_append_right (by rw [three_length]; omega), three_length]

/-- Closes the goals about the directions. -/
macro "dirs2" : tactic => `(tactic| (intro x; intros; rw [six_get, three_get, three_get]; split_ifs <;> first | rfl | omega))

theorem bind_ok {α β ε : Type} {a : α} {f : α → β} : (Except.ok (ε := ε) a).map f = .ok (f a) := rfl

theorem emptyCod_bends {n b a : ℕ} (hab : b ≤ a) (ha : a ≤ n) (h0 : 0 < a) (hne : ¬ (b = 0 ∧ a = n)) :
    emptyCodBends n (rangeOf a n ++ rangeOf 0 b) (a - b) =
      .ok (three b (some true) (a - b) none (n - a) (some false)) := by
  have hr : (if 0 ∈ rangeOf a n ++ rangeOf 0 b then
      (rangeOf a n ++ rangeOf 0 b).length - (rangeOf a n ++ rangeOf 0 b).idxOf 0 else 0) = b := by
    by_cases hb : 0 < b
    · rw [if_pos (by rw [mem_two]; omega), idxOf_legs (two_nodup hab) (two_get_low (x := 0) hb)]
      simp
    · rw [if_neg (by rw [mem_two]; omega)]; omega
  obtain ⟨L, hL, hL'⟩ : ∃ L, (if n - 1 ∈ rangeOf a n ++ rangeOf 0 b ∧ n ≠ 1 then
      (rangeOf a n ++ rangeOf 0 b).idxOf (n - 1) + 1 else 0) = L ∧ (L = n - a ∨ (a = n ∧ b = n ∧ L = n)) := by
    by_cases h1 : n = 1
    · exact ⟨_, if_neg (by omega), by omega⟩
    by_cases han : a = n
    · by_cases hbn : b = n
      · refine ⟨_, if_pos ⟨by rw [mem_two]; omega, h1⟩, ?_⟩
        rw [idxOf_legs (two_nodup hab) (two_get_low (x := n - 1) (by omega))]
        omega
      · exact ⟨_, if_neg (by rw [mem_two]; omega), by omega⟩
    · refine ⟨_, if_pos ⟨by rw [mem_two]; omega, h1⟩, ?_⟩
      rw [idxOf_legs (two_nodup hab) (two_get_high (x := n - 1) (by omega) (by omega))]
      omega
  unfold emptyCodBends
  rw [hr, hL]
  simp only
  have h2 : (if a - b = 0 ∧ L = n ∧ b = n then 0 else L) = n - a := by split_ifs <;> omega
  rw [h2, if_neg (by omega)]

theorem emptyDom_bends {n b a : ℕ} (hab : a ≤ b) (hb : b ≤ n) (ha : a < n) :
    emptyDomBends n (rangeOf b n ++ rangeOf 0 a).reverse (b - a) =
      .ok (three a (some false) (b - a) none (n - b) (some true)) := by
  have hr : (if n - 1 ∈ (rangeOf b n ++ rangeOf 0 a).reverse then
      (rangeOf b n ++ rangeOf 0 a).reverse.length - (rangeOf b n ++ rangeOf 0 a).reverse.idxOf (n - 1) else 0) =
        n - b := by
    by_cases hbn : b < n
    · rw [if_pos (by rw [mem_two_rev]; omega), idx_high hab (x := n - 1) (by omega) (by omega)]
      simp
    · rw [if_neg (by rw [mem_two_rev]; omega)]; omega
  obtain ⟨L, hL, hL'⟩ : ∃ L, (if 0 ∈ (rangeOf b n ++ rangeOf 0 a).reverse ∧ n ≠ 1 then
      (rangeOf b n ++ rangeOf 0 a).reverse.idxOf 0 + 1 else 0) = L ∧ (L = a ∨ (a = 0 ∧ b = 0 ∧ L = n)) := by
    by_cases h1 : n = 1
    · exact ⟨_, if_neg (by omega), by omega⟩
    by_cases h0 : 0 < a
    · refine ⟨_, if_pos ⟨by rw [mem_two_rev]; omega, h1⟩, ?_⟩
      rw [idx_low hab hb h0]
      omega
    · by_cases hb0 : b = 0
      · refine ⟨_, if_pos ⟨by rw [mem_two_rev]; omega, h1⟩, ?_⟩
        rw [idx_high hab (x := 0) (by omega) (by omega)]
        omega
      · exact ⟨_, if_neg (by rw [mem_two_rev]; omega), by omega⟩
  unfold emptyDomBends
  rw [hr, hL]
  simp only
  have h2 : (if b - a = 0 ∧ L = n ∧ n - b = n then 0 else L) = a := by split_ifs <;> omega
  rw [h2, if_neg (by omega)]

theorem rangeOf_head {a b : ℕ} (h : a < b) : rangeOf a b = a :: rangeOf (a + 1) b := by
  unfold rangeOf
  rw [show b - a = (b - (a + 1)) + 1 by omega, List.range'_succ]

theorem rangeOf_last {a b : ℕ} (h : a < b) : (rangeOf a b).getLastD 0 = b - 1 := by
  rw [getLastD_getD, List.getD_eq_getElem?_getD, length_rangeOf, getElem?_rangeOf (by omega)]
  simp; omega

theorem rangeOf_eq_nil {a b : ℕ} : rangeOf a b = [] ↔ b ≤ a := by
  rw [← List.length_eq_zero_iff, length_rangeOf]; omega

theorem indexOf_ok {l : List ℕ} {x i : ℕ} (h : l.Nodup) (hi : l[i]? = some x) : indexOf l x = .ok i := by
  unfold indexOf
  rw [if_pos (List.mem_of_getElem? hi), idxOf_legs h hi]

theorem get_rev {l : List ℕ} {j x : ℕ} (h : l[j]? = some x) : l.reverse[l.length - 1 - j]? = some x := by
  have hjl := (List.getElem?_eq_some_iff.1 h).1
  rw [List.getElem?_reverse (by omega), show l.length - 1 - (l.length - 1 - j) = j by omega, h]

@[simp] theorem rangeOf_self (a : ℕ) : rangeOf a a = [] := rangeOf_nil le_rfl

theorem map_interval {f : ℕ → ℕ} {i j i' : ℕ} (h : ∀ x, i ≤ x → x < j → f x = i' + (x - i)) :
    (rangeOf i j).map f = rangeOf i' (i' + (j - i)) := by
  apply List.ext_getElem?
  intro k
  rw [List.getElem?_map]
  by_cases hk : k < j - i
  · rw [getElem?_rangeOf (by omega), getElem?_rangeOf (by omega), Option.map_some, h _ (by omega) (by omega)]
    congr 2; omega
  · rw [List.getElem?_eq_none (by simp; omega), List.getElem?_eq_none (by simp; omega)]; rfl

theorem replicate_get {n x : ℕ} {b : Option Bool} (h : x < n) : (List.replicate n b)[x]? = some b := by
  rw [List.getElem?_replicate, if_pos h]

/-! ## Winding -/

theorem domWindingCalls_ok {K D a b : ℕ} (ha : K < a) (hab : a ≤ b) (hb : b < K + D) :
    domWindingCalls K D (rangeOf b (K + D) ++ rangeOf 0 a).reverse =
      .ok [⟨rangeOf a (K + D) ++ rangeOf 0 K, reversedRange K a, List.replicate (K + D) (some false)⟩,
        ⟨rangeOf 0 (b - a), reversedRange (b - a) (K + D), List.replicate (K + D) (some true)⟩] := by
  unfold domWindingCalls
  rw [domStaying_wind ha hab hb]
  have hlen : (rangeOf b (K + D) ++ rangeOf 0 a).reverse.length = K + D - b + a := by simp; omega
  have hh : (rangeOf b (K + D) ++ rangeOf 0 a).reverse.headD 0 = a - 1 := by
    rw [headD_getD, List.getD_eq_getElem?_getD]
    have := get_rev (two_get_low (b := b) (n := K + D) (a := a) (x := a - 1) (by omega))
    rw [show (rangeOf b (K + D) ++ rangeOf 0 a).length - 1 - (K + D - b + (a - 1)) = 0 by simp; omega] at this
    rw [this]; rfl
  have hi : indexOf (rangeOf b (K + D) ++ rangeOf 0 a).reverse (K + D - 1) = .ok a := by
    have := get_rev (two_get_high (b := b) (n := K + D) (a := a) (x := K + D - 1) (by omega) (by omega))
    rw [show (rangeOf b (K + D) ++ rangeOf 0 a).length - 1 - (K + D - 1 - b) = a by simp; omega] at this
    exact indexOf_ok (List.nodup_reverse.2 (two_nodup hab)) this
  rw [hi, hh, hlen]
  simp only [Except.bind, List.length_append, length_rangeOf]
  rw [if_neg (by omega), show K + (a - 1 + 1 - K) = a by omega,
    show D - (K + D - b - 0 + (D - (K + D - a))) = b - a by omega]

theorem codWindingCalls_ok {K D a b : ℕ} (h0 : 0 < b) (hab : b ≤ a) (ha : a < K) :
    codWindingCalls K D (rangeOf a (K + D) ++ rangeOf 0 b) =
      .ok [⟨rangeOf 0 b, reversedRange b (K + D), List.replicate (K + D) (some true)⟩,
        ⟨rangeOf a (K + D) ++ rangeOf 0 b, reversedRange b a, List.replicate (K + D) (some false)⟩] := by
  unfold codWindingCalls
  rw [codStaying_wind hab ha (by omega)]
  have hl : (rangeOf a (K + D) ++ rangeOf 0 b).getLastD 0 = b - 1 := by
    rw [getLastD_getD, List.getD_eq_getElem?_getD]
    have := two_get_low (b := a) (n := K + D) (a := b) (x := b - 1) (by omega)
    rw [show K + D - a + (b - 1) = (rangeOf a (K + D) ++ rangeOf 0 b).length - 1 by simp; omega] at this
    rw [this]; rfl
  have hi : indexOf (rangeOf a (K + D) ++ rangeOf 0 b) (K - 1) = .ok (K - 1 - a) :=
    indexOf_ok (two_nodup hab) (two_get_high (by omega) (by omega))
  rw [hi, hl]
  simp only [Except.bind, List.length_append, length_rangeOf]
  rw [if_neg (by omega), show b - 1 + 1 = b by omega, show b + (K - (b - 0 + (K - a))) = a by omega,
    show K - (K - 1 - a + 1) = a by omega]

/-- The codomain winds. -/
theorem run_codWinding (sym : Bool) {K D a b : ℕ} (hab : b ≤ a) (ha : a < K) :
    runCalls sym [⟨rangeOf 0 b, reversedRange b (K + D), List.replicate (K + D) (some true)⟩,
        ⟨rangeOf a (K + D) ++ rangeOf 0 b, reversedRange b a, List.replicate (K + D) (some false)⟩] (initialLegs K D) =
      some (rangeOf a (K + D) ++ rangeOf 0 b, (rangeOf b a).reverse) := by
  have hl1 : (rangeOf 0 b).length = b := by simp
  have hl2 : (reversedRange b (K + D)).length = K + D - b := by simp [reversedRange]
  have := run_two (sym := sym) (K := K) (D := D) (co := rangeOf 0 b) (dom := reversedRange b (K + D))
    (co' := rangeOf a (K + D) ++ rangeOf 0 b) (dom' := reversedRange b a)
    (br := List.replicate (K + D) (some true)) (br' := List.replicate (K + D) (some false)) id
    (call_ok (p1 := 0) (p2 := b) (q1 := K) (q2 := K + D) (by omega) (by omega) (by omega) (by omega) (by omega)
      (by omega) (by omega) (by simp) (by
        rw [rangeOf_append (by omega) (by omega)]; simp [reversedRange]) (by omega)
      (fun x h1 h2 => replicate_get (by omega)) (fun x h1 h2 => by omega) (fun x h1 h2 => by omega) [] sym)
    (by
      rw [hl1, hl2]
      exact call_ok (p1 := 0) (p2 := b) (q1 := b) (q2 := a) (by omega) (by omega) (by omega) (by omega) (by omega)
        (by omega) (by omega) (by rw [show b + (K + D - b) = K + D by omega]; simp) (by simp [reversedRange]) (by omega)
        (fun x h1 h2 => by omega) (fun x h1 h2 => by omega) (fun x h1 h2 => replicate_get (by omega)) [] sym)
    (by rw [hl1, List.map_id, rangeOf_zero])
    (by rw [hl1, hl2, List.map_id]; rfl)
  rw [this, List.map_id, List.map_id]
  rfl

/-- The domain winds. -/
theorem run_domWinding (sym : Bool) {K D a b : ℕ} (ha : K < a) (hab : a ≤ b) (hb : b < K + D) :
    runCalls sym [⟨rangeOf a (K + D) ++ rangeOf 0 K, reversedRange K a, List.replicate (K + D) (some false)⟩,
        ⟨rangeOf 0 (b - a), reversedRange (b - a) (K + D), List.replicate (K + D) (some true)⟩] (initialLegs K D) =
      some (rangeOf a b, (rangeOf b (K + D) ++ rangeOf 0 a).reverse) := by
  have hl1 : (rangeOf a (K + D) ++ rangeOf 0 K).length = K + D - a + K := by simp
  have hl2 : (reversedRange K a).length = a - K := by simp [reversedRange]
  set f : ℕ → ℕ := fun x => if x < K + D - a then a + x else x - (K + D - a) with hf
  have f1 : ∀ i j, i ≤ j → j ≤ K + D - a → (rangeOf i j).map f = rangeOf (a + i) (a + j) := by
    intro i j hij hj
    rw [map_interval (i' := a + i)]
    · congr 1; omega
    · intro x h1 h2
      rw [hf]
      simp only
      rw [if_pos (by omega)]; omega
  have f2 : ∀ i j, i ≤ j → K + D - a ≤ i → (rangeOf i j).map f = rangeOf (i - (K + D - a)) (j - (K + D - a)) := by
    intro i j hij hj
    rw [map_interval (i' := i - (K + D - a))]
    · congr 1; omega
    · intro x h1 h2
      rw [hf]
      simp only
      rw [if_neg (by omega)]; omega
  have := run_two (sym := sym) (K := K) (D := D) (co := rangeOf a (K + D) ++ rangeOf 0 K) (dom := reversedRange K a)
    (co' := rangeOf 0 (b - a)) (dom' := reversedRange (b - a) (K + D))
    (br := List.replicate (K + D) (some false)) (br' := List.replicate (K + D) (some true)) f
    (call_ok (p1 := 0) (p2 := K) (q1 := K) (q2 := a) (by omega) (by omega) (by omega) (by omega) (by omega)
      (by omega) (by omega) (by simp) (by simp [reversedRange]) (by omega)
      (fun x h1 h2 => by omega) (fun x h1 h2 => by omega) (fun x h1 h2 => replicate_get (by omega)) [] sym)
    (by
      rw [hl1, hl2]
      exact call_ok (p1 := 0) (p2 := b - a) (q1 := K + D - a + K) (q2 := K + D) (by omega) (by omega) (by omega)
        (by omega) (by omega) (by omega) (by omega) (by
          rw [show K + D - a + K + (a - K) = K + D by omega]; simp) (by
          rw [rangeOf_append (by omega) (by omega)]; simp [reversedRange]) (by omega)
        (fun x h1 h2 => replicate_get (by omega)) (fun x h1 h2 => by omega) (fun x h1 h2 => by omega) [] sym)
    (by
      rw [hl1, ← rangeOf_zero, ← rangeOf_append (show 0 ≤ K + D - a by omega) (show K + D - a ≤ K + D - a + K by omega), List.map_append,
        f1 _ _ (by omega) le_rfl, f2 _ _ (by omega) le_rfl]
      congr 2 <;> omega)
    (by
      rw [hl1, hl2, List.map_reverse]
      have := f2 (K + D - a + K) (K + D) (by omega) (by omega)
      unfold rangeOf at this
      rw [show K + D - (K + D - a + K) = a - K by omega] at this
      rw [this]
      unfold reversedRange rangeOf
      congr 2 <;> omega)
  rw [this, f1 _ _ (by omega) (by omega)]
  unfold reversedRange
  rw [List.map_reverse, ← rangeOf_append (show b - a ≤ K + D - a by omega) (show K + D - a ≤ K + D by omega),
    List.map_append, f1 _ _ (by omega) le_rfl, f2 _ _ (by omega) le_rfl]
  rw [show a + 0 = a by omega, show a + (b - a) = b by omega, show a + (K + D - a) = K + D by omega,
    show K + D - a - (K + D - a) = 0 by omega, show K + D - (K + D - a) = a by omega]

/-! ## One call -/

/-- The codomain is one interval. -/
theorem calls_A (sym : Bool) {K D a b : ℕ} (hab : a ≤ b) (hb : b ≤ K + D) (ha : 0 < K + D → a < K + D) :
    ∃ calls, permuteCalls K D (rangeOf a b) (rangeOf b (K + D) ++ rangeOf 0 a).reverse = .ok calls ∧
      runCalls sym calls (initialLegs K D) = some (rangeOf a b, (rangeOf b (K + D) ++ rangeOf 0 a).reverse) := by
  have hcs := codStaying_A (K := K) (a := a) (b := b)
  have hdw := domWinding_A hab hb ha
  have hdl : (rangeOf b (K + D) ++ rangeOf 0 a).reverse.length = K + D - b + a := by simp; omega
  unfold permuteCalls
  rw [codWinding_A, hdw, hcs]
  simp only [Bool.false_and, Bool.false_eq_true, if_false, rangeOf_eq_nil, length_rangeOf, decide_eq_true_eq, ne_eq]
  by_cases hw : K < a ∧ b < K + D
  · -- the domain winds
    rw [domStaying_wind hw.1 hab hw.2]
    rw [if_neg (by
      rintro ⟨-, h, -⟩
      have := congrArg List.length h
      simp at this; omega), if_pos hw, domWindingCalls_ok hw.1 hab hw.2]
    exact ⟨_, rfl, run_domWinding sym hw.1 hab hw.2⟩
  rw [if_neg hw]
  by_cases hsw : a = K ∧ b = K + D ∧ 0 < K ∧ 0 < D
  · -- all legs change sides
    obtain ⟨rfl, rfl, h1, h2⟩ := hsw
    rw [domStaying_A1 le_rfl, if_pos ⟨by omega, rangeOf_nil (by omega), by omega, by
      rw [← List.length_eq_zero_iff, hdl]; omega⟩]
    by_cases hKD : a < D
    · rw [if_pos hKD]
      refine ⟨_, rfl, run_one (call_ok (p1 := a) (p2 := a) (q1 := a + D) (q2 := a + D) (by omega) (by omega) (by omega)
        (by omega) (by omega) (by omega) (by omega) (by simp) (by simp) ?_ ?_ ?_ ?_ [] sym)⟩ <;> dirs
    · rw [if_neg hKD]
      refine ⟨_, rfl, run_one (call_ok (p1 := 0) (p2 := 0) (q1 := a) (q2 := a) (by omega) (by omega) (by omega)
        (by omega) (by omega) (by omega) (by omega) (by simp) (by simp) ?_ ?_ ?_ ?_ [] sym)⟩ <;> dirs
  -- the legs of the domain that stay
  obtain ⟨u, v, hds, huv⟩ : ∃ u v, domStaying K D (rangeOf b (K + D) ++ rangeOf 0 a).reverse = rangeOf u v ∧
      ((a ≤ K ∧ u = 0 ∧ v = K + D - max b K) ∨ (K < a ∧ b = K + D ∧ u = K + D - a ∧ v = D)) := by
    by_cases h : a ≤ K
    · exact ⟨_, _, domStaying_A1 h, Or.inl ⟨h, rfl, rfl⟩⟩
    · obtain rfl : b = K + D := by omega
      exact ⟨_, _, domStaying_A2 (by omega) hab, Or.inr ⟨by omega, rfl, rfl, rfl⟩⟩
  have hdn : (rangeOf b (K + D) ++ rangeOf 0 a).reverse = [] ↔ b = K + D ∧ a = 0 := by
    rw [← List.length_eq_zero_iff, hdl]; omega
  rw [hds]
  simp only [rangeOf_eq_nil, length_rangeOf, hdn]
  rw [if_neg (by omega)]
  by_cases hid : min b K - a = K ∧ v - u = D
  · rw [if_pos hid]
    have h1 : a = 0 ∧ b = K := by omega
    obtain ⟨rfl, rfl⟩ := h1
    refine ⟨_, rfl, ?_⟩
    simp [runCalls, initialLegs, rangeOf_zero]
    simp [rangeOf]
  rw [if_neg hid]
  by_cases hK : K = 0
  · subst hK
    rw [if_pos rfl]
    rcases (show (a = 0 ∧ 0 < b) ∨ (0 < a ∧ b = 0 + D) by omega) with ⟨rfl, h0⟩ | ⟨h0, rfl⟩
    · have := emptyCod_bends (n := 0 + D) (b := b) (a := 0 + D) (by omega) (by omega) (by omega) (by omega)
      rw [rangeOf_self, List.nil_append, show 0 + D - b = v - u by omega] at this
      rw [this]
      refine ⟨_, rfl, run_one (call_ok (p1 := 0) (p2 := 0) (q1 := b) (q2 := 0 + D) (by omega) (by omega) (by omega)
        (by omega) (by omega) (by omega) (by omega) (by simp) (by simp) ?_ ?_ ?_ ?_ [] sym)⟩ <;> dirs
    · have := emptyCod_bends (n := 0 + D) (b := 0) (a := a) (by omega) (by omega) (by omega) (by omega)
      rw [rangeOf_self, List.append_nil, show a - 0 = v - u by omega] at this
      rw [this]
      refine ⟨_, rfl, run_one (call_ok (p1 := 0) (p2 := 0) (q1 := 0) (q2 := a) (by omega) (by omega) (by omega)
        (by omega) (by omega) (by omega) (by omega) (by simp) (by simp) ?_ ?_ ?_ ?_ [] sym)⟩ <;> dirs
  rw [if_neg hK]
  by_cases hD : D = 0
  · subst hD
    rw [if_pos rfl]
    have := emptyDom_bends (n := K + 0) hab hb (by omega)
    rw [show min b K - a = b - a by omega, this]
    refine ⟨_, rfl, run_one (call_ok (p1 := a) (p2 := b) (q1 := K) (q2 := K) (by omega) (by omega) (by omega)
      (by omega) (by omega) (by omega) (by omega) (by simp) (by simp) ?_ ?_ ?_ ?_ [] sym)⟩ <;> dirs
  rw [if_neg hD]
  by_cases hc0 : min b K ≤ a
  · rw [if_pos hc0]
    unfold codUpBends
    simp only [hds]
    rw [rangeOf_head (show u < v by omega)]
    simp only
    rw [← rangeOf_head (show u < v by omega), rangeOf_last (show u < v by omega), length_rangeOf]
    rw [if_neg (by omega)]
    by_cases hall : v - u = D
    · have h1 : a = b ∧ a ≤ K := by omega
      obtain ⟨rfl, h1⟩ := h1
      rw [if_pos hall]
      have hi : indexOf (rangeOf a (K + D) ++ rangeOf 0 a).reverse (K + D - 1) = .ok a := by
        have := get_rev (two_get_high (b := a) (n := K + D) (a := a) (x := K + D - 1) (by omega) (by omega))
        rw [show (rangeOf a (K + D) ++ rangeOf 0 a).length - 1 - (K + D - 1 - a) = a by simp; omega] at this
        exact indexOf_ok (List.nodup_reverse.2 (two_nodup le_rfl)) this
      rw [hi]
      refine ⟨_, rfl, run_one (call_ok (p1 := a) (p2 := a) (q1 := K) (q2 := K + D) (by omega) (by omega) (by omega)
        (by omega) (by omega) (by omega) (by omega) (by simp) (by
          rw [rangeOf_append (by omega) (by omega)]) ?_ ?_ ?_ ?_ [] sym)⟩ <;> dirs
    · rw [if_neg hall]
      by_cases hu : u = 0
      · rw [if_pos hu]
        have h1 : a = K := by omega
        subst h1
        refine ⟨_, rfl, run_one (call_ok (p1 := a) (p2 := a) (q1 := b) (q2 := a + D) (by omega) (by omega) (by omega)
          (by omega) (by omega) (by omega) (by omega) (by simp) (by simp) ?_ ?_ ?_ ?_ [] sym)⟩ <;> dirs
      · rw [if_neg hu]
        obtain rfl : b = K + D := by omega
        rw [if_pos (by omega)]
        refine ⟨_, rfl, run_one (call_ok (p1 := 0) (p2 := 0) (q1 := K) (q2 := a) (by omega) (by omega) (by omega)
          (by omega) (by omega) (by omega) (by omega) (by simp) (by
            rw [rangeOf_append (by omega) (by omega)]; simp) ?_ ?_ ?_ ?_ [] sym)⟩ <;> dirs
  rw [if_neg hc0]
  by_cases hd0 : v ≤ u
  · rw [if_pos hd0]
    obtain rfl : b = K + D := by omega
    unfold domDownBends
    simp only [hcs]
    rw [rangeOf_head (show a < min (K + D) K by omega)]
    simp only
    rw [← rangeOf_head (show a < min (K + D) K by omega), rangeOf_last (show a < min (K + D) K by omega), length_rangeOf]
    rw [if_neg (by omega)]
    by_cases hall : min (K + D) K - a = K
    · obtain rfl : a = 0 := by omega
      rw [if_pos hall, indexOf_ok (i := 0) (rangeOf_nodup _ _) (by rw [getElem?_rangeOf (by omega)])]
      refine ⟨_, rfl, run_one (call_ok (p1 := 0) (p2 := K) (q1 := K + D) (q2 := K + D) (by omega) (by omega) (by omega)
        (by omega) (by omega) (by omega) (by omega) (by
          simp; rw [rangeOf_append (by omega) (by omega)]) (by simp) ?_ ?_ ?_ ?_ [] sym)⟩ <;> dirs
    · rw [if_neg hall, if_neg (by omega), if_pos (by omega)]
      refine ⟨_, rfl, run_one (call_ok (p1 := a) (p2 := K) (q1 := K + D) (q2 := K + D) (by omega) (by omega) (by omega)
        (by omega) (by omega) (by omega) (by omega) (by
          simp; rw [rangeOf_append (by omega) (by omega)]) (by simp) ?_ ?_ ?_ ?_ [] sym)⟩ <;> dirs
  rw [if_neg hd0]
  unfold generalBends
  simp only [hcs, hds]
  rw [rangeOf_head (show a < min b K by omega), rangeOf_head (show u < v by omega)]
  simp only
  rw [← rangeOf_head (show a < min b K by omega), ← rangeOf_head (show u < v by omega),
    rangeOf_last (show a < min b K by omega), rangeOf_last (show u < v by omega), length_rangeOf, length_rangeOf]
  rw [if_neg (by omega), if_neg (by omega)]
  refine ⟨_, rfl, run_one (call_ok (p1 := a) (p2 := min b K) (q1 := max b K) (q2 := K + D) (by omega) (by omega)
    (by omega) (by omega) (by omega) (by omega) (by omega) (by
      simp only [rangeOf_self, List.nil_append]
      by_cases h : b ≤ K
      · rw [Nat.min_eq_left h, Nat.max_eq_right h]; simp
      · rw [Nat.min_eq_right (by omega), Nat.max_eq_left (by omega), rangeOf_append (by omega) (by omega)]) (by
      congr 2
      by_cases h : b ≤ K
      · rw [Nat.min_eq_left h, Nat.max_eq_right h, rangeOf_append (by omega) (by omega)]
      · rw [Nat.min_eq_right (by omega), Nat.max_eq_left (by omega)]; simp) ?_ ?_ ?_ ?_ [] sym)⟩
  all_goals dirs2

/-- The codomain is two intervals. -/
theorem calls_B (sym : Bool) {K D a b : ℕ} (h0 : 0 < b) (hab : b ≤ a) (ha : a < K + D) :
    ∃ calls, permuteCalls K D (rangeOf a (K + D) ++ rangeOf 0 b) (rangeOf b a).reverse = .ok calls ∧
      runCalls sym calls (initialLegs K D) = some (rangeOf a (K + D) ++ rangeOf 0 b, (rangeOf b a).reverse) := by
  have hds := domStaying_B (K := K) (D := D) (a := a) (b := b) ha.le
  have hcl : (rangeOf a (K + D) ++ rangeOf 0 b).length = K + D - a + b := by simp
  unfold permuteCalls
  rw [codWinding_B h0 hab ha (by omega), domWinding_B, hds]
  simp only [Bool.and_false, Bool.false_eq_true, if_false, rangeOf_eq_nil, length_rangeOf, decide_eq_true_eq, ne_eq,
    List.reverse_eq_nil_iff]
  by_cases hw : a < K
  · rw [codStaying_wind hab hw (by omega)]
    rw [if_neg (by
      rintro ⟨h, -⟩
      have := congrArg List.length h
      simp at this; omega), if_pos hw, codWindingCalls_ok h0 hab hw]
    exact ⟨_, rfl, run_codWinding sym hab hw⟩
  have hcs := codStaying_B (K := K) (n := K + D) (a := a) (b := b) (by omega)
  have hcn : rangeOf a (K + D) ++ rangeOf 0 b = [] ↔ False := by
    rw [← List.length_eq_zero_iff, hcl, iff_false]; omega
  rw [hcs]
  simp only [rangeOf_eq_nil, length_rangeOf, hcn]
  rw [if_neg (by rintro ⟨h1, h2, -, h4⟩; omega), if_neg hw, if_neg (by omega)]
  by_cases hK : K = 0
  · subst hK
    rw [if_pos rfl]
    have := emptyCod_bends (n := 0 + D) (b := b) (a := a) (by omega) (by omega) (by omega) (by omega)
    rw [show 0 + D - max b 0 - (0 + D - a) = a - b by omega, this]
    refine ⟨_, rfl, run_one (call_ok (p1 := 0) (p2 := 0) (q1 := b) (q2 := a) (by omega) (by omega) (by omega)
      (by omega) (by omega) (by omega) (by omega) (by simp) (by simp) ?_ ?_ ?_ ?_ [] sym)⟩ <;> dirs
  rw [if_neg hK, if_neg (by omega), if_neg (by omega)]
  have hh : (rangeOf 0 (min b K)).getLastD 0 = min b K - 1 := rangeOf_last (by omega)
  by_cases hd0 : K + D - max b K ≤ K + D - a
  · rw [if_pos hd0]
    unfold domDownBends
    simp only [hcs]
    rw [rangeOf_head (show 0 < min b K by omega)]
    simp only
    rw [← rangeOf_head (show 0 < min b K by omega), hh, length_rangeOf]
    rw [if_neg (by omega)]
    by_cases hall : min b K - 0 = K
    · obtain rfl : a = b := by omega
      rw [if_pos hall, indexOf_ok (two_nodup hab) (two_get_low (x := 0) h0)]
      refine ⟨_, rfl, run_one (call_ok (p1 := 0) (p2 := K) (q1 := a) (q2 := a) (by omega) (by omega) (by omega)
        (by omega) (by omega) (by omega) (by omega) (by
          rw [List.append_assoc, rangeOf_append (by omega) (by omega)]) (by simp) ?_ ?_ ?_ ?_ [] sym)⟩ <;> dirs
    · obtain rfl : a = K := by omega
      rw [if_neg hall, if_pos trivial]
      refine ⟨_, rfl, run_one (call_ok (p1 := 0) (p2 := b) (q1 := a) (q2 := a) (by omega) (by omega) (by omega)
        (by omega) (by omega) (by omega) (by omega) (by simp) (by simp) ?_ ?_ ?_ ?_ [] sym)⟩ <;> dirs
  rw [if_neg hd0]
  unfold generalBends
  simp only [hcs, hds]
  have hl2 : (rangeOf (K + D - a) (K + D - max b K)).getLastD 0 = K + D - max b K - 1 := rangeOf_last (by omega)
  rw [rangeOf_head (show 0 < min b K by omega), rangeOf_head (show K + D - a < K + D - max b K by omega)]
  simp only
  rw [← rangeOf_head (show 0 < min b K by omega), ← rangeOf_head (show K + D - a < K + D - max b K by omega),
    hh, hl2, length_rangeOf, length_rangeOf]
  rw [if_neg (by simp), if_neg (by omega)]
  refine ⟨_, rfl, run_one (call_ok (p1 := 0) (p2 := min b K) (q1 := max b K) (q2 := a) (by omega) (by omega)
    (by omega) (by omega) (by omega) (by omega) (by omega) (by
      rw [List.append_assoc]
      congr 1
      by_cases h : b ≤ K
      · rw [Nat.min_eq_left h, Nat.max_eq_right h]; simp
      · rw [Nat.min_eq_right (by omega), Nat.max_eq_left (by omega), rangeOf_append (by omega) (by omega)]) (by
      rw [rangeOf_self, List.append_nil]
      congr 1
      by_cases h : b ≤ K
      · rw [Nat.min_eq_left h, Nat.max_eq_right h, rangeOf_append (by omega) (by omega)]
      · rw [Nat.min_eq_right (by omega), Nat.max_eq_left (by omega)]; simp) ?_ ?_ ?_ ?_ [] sym)⟩
  all_goals dirs2

end Cyten.Props
