import Verif.Model.PlanarContract
import Verif.Props.PlanarPermute

/-! # The helper of `planar_contraction` -/

namespace Cyten.Planar
open Cyten.Props Cyten.Planar.Spec Cyten.Permute

theorem foldl_min (l : List ℕ) (a : ℕ) : l.foldl min a ≤ a ∧ (∀ x ∈ l, l.foldl min a ≤ x) ∧
    (l.foldl min a = a ∨ l.foldl min a ∈ l) := by
  induction l generalizing a with
  | nil => simp
  | cons b l ih =>
    simp only [List.foldl_cons]
    obtain ⟨h1, h2, h3⟩ := ih (min a b)
    refine ⟨by omega, ?_, ?_⟩
    · intro x hx
      rcases List.mem_cons.1 hx with rfl | hx
      · omega
      · exact h2 x hx
    · rcases h3 with h3 | h3
      · by_cases hab : a ≤ b
        · left; rw [h3]; omega
        · right; rw [h3, Nat.min_eq_right (by omega)]; simp
      · right; exact List.mem_cons_of_mem _ h3

theorem foldl_max (l : List ℕ) (a : ℕ) : a ≤ l.foldl max a ∧ (∀ x ∈ l, x ≤ l.foldl max a) ∧
    (l.foldl max a = a ∨ l.foldl max a ∈ l) := by
  induction l generalizing a with
  | nil => simp
  | cons b l ih =>
    simp only [List.foldl_cons]
    obtain ⟨h1, h2, h3⟩ := ih (max a b)
    refine ⟨by omega, ?_, ?_⟩
    · intro x hx
      rcases List.mem_cons.1 hx with rfl | hx
      · omega
      · exact h2 x hx
    · rcases h3 with h3 | h3
      · by_cases hab : b ≤ a
        · left; rw [h3]; omega
        · right; rw [h3, Nat.max_eq_right (by omega)]; simp
      · right; exact List.mem_cons_of_mem _ h3

theorem minOf_eq {l : List ℕ} {m : ℕ} (h1 : m ∈ l) (h2 : ∀ x ∈ l, m ≤ x) : minOf l = m := by
  have hh : l.headD 0 ∈ l := by cases l <;> simp_all
  obtain ⟨h3, h4, h5⟩ := foldl_min l (l.headD 0)
  have h6 : minOf l ∈ l := by
    unfold minOf
    rcases h5 with h5 | h5
    · rw [h5]; exact hh
    · exact h5
  have := h2 _ h6
  have := h4 _ h1
  unfold minOf at *
  omega

theorem maxOf_eq {l : List ℕ} {m : ℕ} (h1 : m ∈ l) (h2 : ∀ x ∈ l, x ≤ m) : maxOf l = m := by
  have hh : l.headD 0 ∈ l := by cases l <;> simp_all
  obtain ⟨h3, h4, h5⟩ := foldl_max l (l.headD 0)
  have h6 : maxOf l ∈ l := by
    unfold maxOf
    rcases h5 with h5 | h5
    · rw [h5]; exact hh
    · exact h5
  have := h2 _ h6
  have := h4 _ h1
  unfold maxOf at *
  omega

theorem permuted_ok {K D : ℕ} {co dom : List ℕ} (h : Cut (K + D) co dom.reverse) {c d : Option (List ℕ)}
    (hg : Given c d co dom) : permuted K D c d = .ok ⟨co, dom⟩ := by
  obtain ⟨calls, h1, -⟩ := C75_planar_permute h hg
  unfold permuted
  rw [h1]; rfl

theorem permuted_two {K D : ℕ} {co r : List ℕ} (h : Cut (K + D) co r) :
    permuted K D (some co) (some r.reverse) = .ok ⟨co, r.reverse⟩ :=
  permuted_ok (by rwa [List.reverse_reverse]) (Or.inl ⟨rfl, rfl⟩)

theorem numbered_eq (K D : ℕ) : Diag.numbered K D = ⟨rangeOf 0 K, (rangeOf K (K + D)).reverse⟩ := by
  unfold Diag.numbered
  rw [rangeOf_zero]
  unfold rangeOf
  rw [Nat.add_sub_cancel_left]

theorem cut_split {n s e : ℕ} (h1 : s ≤ e) (h2 : e ≤ n) : Cut n (rangeOf s e) (rangeOf e n ++ rangeOf 0 s) :=
  (arcs_cut n s e h1 h2).1

theorem cut_split' {n s e : ℕ} (h1 : s ≤ e) (h2 : e ≤ n) : Cut n (rangeOf e n ++ rangeOf 0 s) (rangeOf s e) :=
  (arcs_cut n s e h1 h2).2

theorem cut_prefix {n s : ℕ} (h : s ≤ n) : Cut n (rangeOf 0 s) (rangeOf s n) := by
  unfold Cut
  rw [rangeOf_append (by omega) h, rangeOf_zero]

/-- The contracted legs cross the boundary between codomain and domain on both sides. -/
def BothSides (K D : ℕ) (contr : List ℕ) : Prop :=
  0 ∈ contr ∧ K + D - 1 ∈ contr ∧ (K = 0 ∨ D = 0 ∨ (K - 1 ∈ contr ∧ K ∈ contr))

/-- What the helper is supposed to do: the contracted legs `asc` are next to each other in the domain, and the first
one is `leg`. -/
def HelperDom (K D : ℕ) (asc : List ℕ) (r : Except PErr (Diag ℕ × Option ℕ)) : Prop :=
  ∃ C P Q leg, r = .ok (⟨C, (P ++ asc ++ Q).reverse⟩, leg) ∧ Cut (K + D) C (P ++ asc ++ Q) ∧
    (P ++ Q ≠ [] → leg = some (C.length + P.length) ∧ asc ≠ [])

/-- The same for the codomain. -/
def HelperCod (K D : ℕ) (asc : List ℕ) (r : Except PErr (Diag ℕ × Option ℕ)) : Prop :=
  ∃ P Q R leg, r = .ok (⟨P ++ asc ++ Q, R.reverse⟩, leg) ∧ Cut (K + D) (P ++ asc ++ Q) R ∧
    (P ++ Q ≠ [] → leg = some P.length ∧ asc ≠ [])

theorem filter_low {K e s n : ℕ} (h1 : e ≤ K) (h2 : K ≤ s) :
    (rangeOf s n ++ rangeOf 0 e).filter (fun l => decide (l < K)) = rangeOf 0 e := by
  rw [List.filter_append, List.filter_eq_nil_iff.2, List.filter_eq_self.2, List.nil_append]
  · intro x hx; rw [mem_rangeOf] at hx; simp; omega
  · intro x hx; rw [mem_rangeOf] at hx; simp; omega

theorem filter_high {K e s n : ℕ} (h1 : e ≤ K) (h2 : K ≤ s) :
    (rangeOf s n ++ rangeOf 0 e).filter (fun l => decide (K ≤ l)) = rangeOf s n := by
  have a1 : (rangeOf 0 e).filter (fun l => decide (K ≤ l)) = [] :=
    List.filter_eq_nil_iff.2 (by intro x hx; rw [mem_rangeOf] at hx; simp; omega)
  have a2 : (rangeOf s n).filter (fun l => decide (K ≤ l)) = rangeOf s n :=
    List.filter_eq_self.2 (by intro x hx; rw [mem_rangeOf] at hx; simp; omega)
  rw [List.filter_append, a1, a2, List.append_nil]

section
variable {K D : ℕ} {asc op contr : List ℕ}

theorem minOf_perm (hp : contr.Perm asc) {m : ℕ} (h1 : m ∈ asc) (h2 : ∀ x ∈ asc, m ≤ x) : minOf contr = m :=
  minOf_eq (hp.mem_iff.2 h1) fun x hx => h2 x (hp.mem_iff.1 hx)

theorem maxOf_perm (hp : contr.Perm asc) {m : ℕ} (h1 : m ∈ asc) (h2 : ∀ x ∈ asc, x ≤ m) : maxOf contr = m :=
  maxOf_eq (hp.mem_iff.2 h1) fun x hx => h2 x (hp.mem_iff.1 hx)

/-- A part of the legs, as one interval, or as two intervals that meet only one of the two boundaries. -/
theorem arc_shapes (h : Cut (K + D) asc op) (hne : asc ≠ []) (hfull : asc.length < K + D)
    (hb : ¬ BothSides K D asc) :
    (∃ s e, s < e ∧ e ≤ K + D ∧ e - s < K + D ∧ asc = rangeOf s e) ∨
    (∃ s e, 0 < e ∧ e ≤ K ∧ K ≤ s ∧ e < s ∧ s < K + D ∧ asc = rangeOf s (K + D) ++ rangeOf 0 e) := by
  rcases cut_cases h with ⟨s, e, h1, h2, h3, rfl, h4⟩ | ⟨s, e, h0, h1, h2, rfl, h4⟩
  · left
    rw [length_rangeOf] at hfull
    rw [ne_eq, rangeOf_eq_nil] at hne
    exact ⟨s, e, by omega, h2, hfull, rfl⟩
  · right
    simp only [List.length_append, length_rangeOf] at hfull
    unfold BothSides at hb
    simp only [mem_two] at hb
    refine ⟨s, e, h0, by omega, by omega, by omega, h2, rfl⟩

theorem helper_dom (h : Cut (K + D) asc op) (hp : contr.Perm asc) (hn : 0 < K + D)
    (hb : asc.length < K + D → ¬ BothSides K D asc) (hf : asc.length = K + D → contr = asc.reverse) :
    HelperDom K D asc (helper K D contr true) := by
  have hle := hp.length_eq
  have hal : asc.length ≤ K + D := by
    have := (List.IsRotated.perm h).length_eq
    simp at this; omega
  unfold helper
  by_cases h1 : contr = []
  · subst h1
    obtain rfl : asc = [] := by rw [← List.length_eq_zero_iff, ← hle]; rfl
    rw [if_pos rfl]
    simp only [if_true]
    refine ⟨rangeOf 0 (K + D), [], [], none, ?_, ?_, by simp⟩
    · have := permuted_ok (K := K) (D := D) (co := rangeOf 0 (K + D)) (dom := []) (c := some (rangeOf 0 (K + D)))
        (d := none) (by
        show _ ~r _
        rw [List.reverse_nil, List.append_nil, rangeOf_zero]) (Or.inr (Or.inl ⟨rfl, rfl, by
          rw [ne_eq, rangeOf_eq_nil]; omega⟩))
      rw [this]; rfl
    · show _ ~r _
      simp [rangeOf_zero, List.IsRotated.refl]
  rw [if_neg h1]
  by_cases h2 : contr.length = K + D
  · rw [if_pos h2]
    simp only [if_true]
    obtain rfl := hf (by omega)
    have hop : op = [] := by
      have := (List.IsRotated.perm h).length_eq
      simp at this
      rw [← List.length_eq_zero_iff]; simp at h2; omega
    subst hop
    refine ⟨[], [], [], none, ?_, ?_, by simp⟩
    · have := permuted_ok (K := K) (D := D) (co := []) (dom := asc.reverse) (c := none) (d := some asc.reverse) (by
        show _ ~r _
        rw [List.reverse_reverse, List.nil_append]
        have : asc ++ [] ~r _ := h
        rwa [List.append_nil] at this) (Or.inr (Or.inr ⟨rfl, rfl, by simpa using h1⟩))
      rw [this]
      simp [Except.map]
    · show _ ~r _
      have : asc ++ [] ~r _ := h
      simpa using this
  rw [if_neg h2]
  have hane : asc ≠ [] := by
    intro hc; subst hc
    exact h1 (List.perm_nil.1 hp)
  have hm : ∀ x, x ∈ contr ↔ x ∈ asc := fun x => hp.mem_iff
  rcases arc_shapes h hane (by omega) (hb (by omega)) with ⟨s, e, g1, g2, g3, rfl⟩ | ⟨s, e, g0, g1, g2, g3, g4, rfl⟩
  · have hbr : bendRight K (K + D) contr = true := by
      unfold bendRight
      simp only [hm, mem_rangeOf]
      split_ifs <;> first | rfl | omega
    have hmin : minOf contr = s := minOf_perm hp (by rw [mem_rangeOf]; omega) (fun x hx => by
      rw [mem_rangeOf] at hx; omega)
    rw [hbr, hmin]
    simp only
    by_cases hs : s < K
    · rw [if_pos (by omega), show K - (K - s) = s by omega]
      refine ⟨rangeOf 0 s, [], rangeOf e (K + D), some s, ?_, ?_, fun _ => ⟨by simp, hane⟩⟩
      · unfold reversedRange
        rw [permuted_two (cut_prefix (by omega)), List.nil_append, rangeOf_append (by omega) g2]
        rfl
      · rw [List.nil_append, rangeOf_append (by omega) g2]
        exact cut_prefix (by omega)
    · rw [if_neg (by omega), numbered_eq]
      have hQ : rangeOf K s ++ rangeOf s e ++ rangeOf e (K + D) = rangeOf K (K + D) := by
        rw [rangeOf_append (by omega) (by omega), rangeOf_append (by omega) g2]
      refine ⟨rangeOf 0 K, rangeOf K s, rangeOf e (K + D), some s, by rw [hQ], ?_, fun _ => ⟨by simp; omega, hane⟩⟩
      rw [hQ]
      exact cut_prefix (by omega)
  · have hbr : bendRight K (K + D) contr = false := by
      unfold bendRight
      simp only [hm, mem_two]
      rw [if_neg (by omega), if_pos (by omega)]
    rw [hbr]
    simp only
    have hfil : (contr.filter fun l => decide (l < K)).Perm (rangeOf 0 e) := by
      rw [← filter_low (K := K) (s := s) (n := K + D) g1 g2]
      exact hp.filter _
    have hmax : maxOf (contr.filter fun l => decide (l < K)) = e - 1 :=
      maxOf_perm hfil (by rw [mem_rangeOf]; omega) (fun x hx => by rw [mem_rangeOf] at hx; omega)
    rw [if_neg (by
      intro hc
      rw [hc] at hfil
      have := hfil.length_eq
      simp at this; omega), hmax, show e - 1 + 1 = e by omega]
    have hQ : rangeOf K s ++ (rangeOf s (K + D) ++ rangeOf 0 e) ++ [] = rangeOf K (K + D) ++ rangeOf 0 e := by
      rw [List.append_nil, ← List.append_assoc, rangeOf_append (by omega) (by omega)]
    refine ⟨rangeOf e K, rangeOf K s, [], some (K + D - contr.length), ?_, ?_, fun _ => ⟨?_, hane⟩⟩
    · rw [permuted_two (cut_split g1 (by omega)), hQ]
      rfl
    · rw [hQ]
      exact cut_split g1 (by omega)
    · rw [hle]
      simp; omega

theorem helper_cod (h : Cut (K + D) asc op) (hp : contr.Perm asc) (hn : 0 < K + D)
    (hb : asc.length < K + D → ¬ BothSides K D asc) (hf : asc.length = K + D → contr = asc) :
    HelperCod K D asc (helper K D contr false) := by
  have hle := hp.length_eq
  have hal : asc.length ≤ K + D := by
    have := (List.IsRotated.perm h).length_eq
    simp at this; omega
  unfold helper
  by_cases h1 : contr = []
  · subst h1
    obtain rfl : asc = [] := by rw [← List.length_eq_zero_iff, ← hle]; rfl
    rw [if_pos rfl]
    simp only [Bool.false_eq_true, if_false]
    refine ⟨[], [], rangeOf 0 (K + D), none, ?_, ?_, by simp⟩
    · have := permuted_ok (K := K) (D := D) (co := []) (dom := reversedRange 0 (K + D)) (c := none)
        (d := some (reversedRange 0 (K + D))) (by
        show _ ~r _
        rw [reversedRange, List.reverse_reverse, List.nil_append, rangeOf_zero]) (Or.inr (Or.inr ⟨rfl, rfl, by
          rw [ne_eq, reversedRange, List.reverse_eq_nil_iff, rangeOf_eq_nil]; omega⟩))
      rw [this]; rfl
    · show _ ~r _
      simp [rangeOf_zero, List.IsRotated.refl]
  rw [if_neg h1]
  by_cases h2 : contr.length = K + D
  · rw [if_pos h2]
    simp only [Bool.false_eq_true, if_false]
    obtain rfl := hf (by omega)
    have hop : op = [] := by
      have := (List.IsRotated.perm h).length_eq
      simp at this
      rw [← List.length_eq_zero_iff]; omega
    subst hop
    refine ⟨[], [], [], none, ?_, ?_, by simp⟩
    · have := permuted_ok (K := K) (D := D) (co := contr) (dom := []) (c := some contr) (d := none) h
        (Or.inr (Or.inl ⟨rfl, rfl, h1⟩))
      rw [this]
      simp [Except.map]
    · show _ ~r _
      have : contr ++ [] ~r _ := h
      simpa using this
  rw [if_neg h2]
  have hane : asc ≠ [] := by
    intro hc; subst hc
    exact h1 (List.perm_nil.1 hp)
  have hm : ∀ x, x ∈ contr ↔ x ∈ asc := fun x => hp.mem_iff
  rcases arc_shapes h hane (by omega) (hb (by omega)) with ⟨s, e, g1, g2, g3, rfl⟩ | ⟨s, e, g0, g1, g2, g3, g4, rfl⟩
  · have hbr : bendRight K (K + D) contr = true := by
      unfold bendRight
      simp only [hm, mem_rangeOf]
      split_ifs <;> first | rfl | omega
    have hmin : minOf contr = s := minOf_perm hp (by rw [mem_rangeOf]; omega) (fun x hx => by
      rw [mem_rangeOf] at hx; omega)
    have hmax : maxOf contr = e - 1 := maxOf_perm hp (by rw [mem_rangeOf]; omega) (fun x hx => by
      rw [mem_rangeOf] at hx; omega)
    rw [hbr, hmin, hmax]
    simp only
    by_cases hs : K < e
    · rw [if_pos (by omega), show K + (e - 1 + 1 - K) = e by omega]
      have hQ : rangeOf 0 s ++ rangeOf s e ++ [] = rangeOf 0 e := by
        rw [List.append_nil, rangeOf_append (by omega) (by omega)]
      refine ⟨rangeOf 0 s, [], rangeOf e (K + D), some s, ?_, ?_, fun _ => ⟨by simp, hane⟩⟩
      · unfold reversedRange
        rw [permuted_two (cut_prefix (by omega)), hQ]
        rfl
      · rw [hQ]
        exact cut_prefix (by omega)
    · rw [if_neg (by omega), numbered_eq]
      have hQ : rangeOf 0 s ++ rangeOf s e ++ rangeOf e K = rangeOf 0 K := by
        rw [rangeOf_append (by omega) (by omega), rangeOf_append (by omega) (by omega)]
      refine ⟨rangeOf 0 s, rangeOf e K, rangeOf K (K + D), some s, by rw [hQ], ?_, fun _ => ⟨by simp, hane⟩⟩
      rw [hQ]
      exact cut_prefix (by omega)
  · have hbr : bendRight K (K + D) contr = false := by
      unfold bendRight
      simp only [hm, mem_two]
      rw [if_neg (by omega), if_pos (by omega)]
    rw [hbr]
    simp only
    have hfil : (contr.filter fun l => decide (K ≤ l)).Perm (rangeOf s (K + D)) := by
      rw [← filter_high (K := K) (s := s) (n := K + D) g1 g2]
      exact hp.filter _
    have hmin : minOf (contr.filter fun l => decide (K ≤ l)) = s :=
      minOf_perm hfil (by rw [mem_rangeOf]; omega) (fun x hx => by rw [mem_rangeOf] at hx; omega)
    rw [if_neg (by
      intro hc
      rw [hc] at hfil
      have := hfil.length_eq
      simp at this; omega), hmin, if_pos (by omega), show K + D - (K + D - s) = s by omega]
    have hQ : [] ++ (rangeOf s (K + D) ++ rangeOf 0 e) ++ rangeOf e K = rangeOf s (K + D) ++ rangeOf 0 K := by
      rw [List.nil_append, List.append_assoc, rangeOf_append (by omega) (by omega)]
    refine ⟨[], rangeOf e K, rangeOf K s, some 0, ?_, ?_, fun _ => ⟨rfl, hane⟩⟩
    · unfold reversedRange
      rw [permuted_two (cut_split' g2 (by omega)), hQ]
      rfl
    · rw [hQ]
      exact cut_split' g2 (by omega)

end

end Cyten.Planar
