import Verif.Model.CouplingPermute
import Mathlib.Tactic

namespace Cyten.CouplingPermute

namespace Spec

/-- Exchange the entries at the positions `i` and `i + 1`. -/
def swapAdj {α : Type} : ℕ → List α → List α
  | 0, a :: b :: l => b :: a :: l
  | i + 1, a :: l => a :: swapAdj i l
  | _, l => l

/-- Do a list of adjacent exchanges, from left to right. -/
def applySwaps {α : Type} (s : List ℕ) (l : List α) : List α := s.foldl (fun l i => swapAdj i l) l

/-- The number of inversions: pairs of positions whose entries are in the wrong order. -/
def inversions : List ℕ → ℕ
  | [] => 0
  | a :: l => (l.filter fun b => decide (b < a)).length + inversions l

end Spec

open Spec

lemma swapAdj_append {α : Type} (A B : List α) (a b : α) :
    swapAdj A.length (A ++ a :: b :: B) = A ++ b :: a :: B := by
  induction A with
  | nil => rfl
  | cons x A ih => simp [swapAdj, ih]

lemma swapAdj_length {α : Type} (i : ℕ) (l : List α) : (swapAdj i l).length = l.length := by
  induction l generalizing i with
  | nil => cases i <;> rfl
  | cons a l ih =>
    cases i with
    | zero => cases l <;> rfl
    | succ i => simp [swapAdj, ih]

lemma swapAdj_out {α : Type} (i : ℕ) (l : List α) (h : l.length ≤ i + 1) : swapAdj i l = l := by
  induction l generalizing i with
  | nil => cases i <;> rfl
  | cons a l ih =>
    cases i with
    | zero =>
      cases l with
      | nil => rfl
      | cons b l => simp at h
    | succ i =>
      simp only [swapAdj]
      rw [ih i (by simpa using h)]

lemma split_at {α : Type} (l : List α) (i : ℕ) (h : i + 1 < l.length) :
    ∃ A a b B, l = A ++ a :: b :: B ∧ A.length = i := by
  refine ⟨l.take i, l[i], l[i + 1], l.drop (i + 2), ?_, by simp; omega⟩
  rw [← List.drop_eq_getElem_cons h, ← List.drop_eq_getElem_cons (by omega), List.take_append_drop]

lemma swapAt_eq {α : Type} (l : List α) (i : ℕ) : swapAt l i (i + 1) = swapAdj i l := by
  by_cases h : i + 1 < l.length
  · obtain ⟨A, a, b, B, rfl, rfl⟩ := split_at l i h
    rw [swapAdj_append, swapAt]
    have h1 : (A ++ a :: b :: B)[A.length]? = some a := by simp
    have h2 : (A ++ a :: b :: B)[A.length + 1]? = some b := by
      rw [List.getElem?_append_right (by omega)]; simp
    rw [h1, h2]
    simp only
    rw [List.set_append_right _ _ (le_refl _), Nat.sub_self, List.set_cons_zero,
      List.set_append_right _ _ (by omega), Nat.add_sub_cancel_left, List.set_cons_succ, List.set_cons_zero]
  · rw [swapAdj_out i l (by omega), swapAt]
    have : l[i + 1]? = none := by simp; omega
    rw [this]
    cases l[i]? <;> rfl

lemma swapAdj_map {α β : Type} (f : α → β) (i : ℕ) (l : List α) :
    swapAdj i (l.map f) = (swapAdj i l).map f := by
  by_cases h : i + 1 < l.length
  · obtain ⟨A, a, b, B, rfl, rfl⟩ := split_at l i h
    rw [swapAdj_append, List.map_append, List.map_cons, List.map_cons]
    have := swapAdj_append (A.map f) (B.map f) (f a) (f b)
    rw [List.length_map] at this
    rw [this]; simp
  · rw [swapAdj_out i l (by omega), swapAdj_out i _ (by rw [List.length_map]; omega)]

lemma applySwaps_map {α β : Type} (f : α → β) (s : List ℕ) (l : List α) :
    applySwaps s (l.map f) = (applySwaps s l).map f := by
  induction s generalizing l with
  | nil => rfl
  | cons i s ih =>
    rw [applySwaps, List.foldl_cons, swapAdj_map]
    exact ih _

lemma applySwaps_append {α : Type} (s s' : List ℕ) (l : List α) :
    applySwaps (s ++ s') l = applySwaps s' (applySwaps s l) := by
  rw [applySwaps, List.foldl_append]; rfl

/-- The pairs of entries that are exchanged. -/
def crossings : List ℕ → List ℕ → List (ℕ × ℕ)
  | [], _ => []
  | i :: s, l => (l.getD i 0, l.getD (i + 1) 0) :: crossings s (swapAdj i l)

lemma crossings_append (s s' : List ℕ) (l : List ℕ) :
    crossings (s ++ s') l = crossings s l ++ crossings s' (applySwaps s l) := by
  induction s generalizing l with
  | nil => rfl
  | cons i s ih => rw [List.cons_append, crossings, crossings, ih]; rfl

lemma bubble_spec (A B C : List ℕ) (v : ℕ) (s : List ℕ) :
    bubble A.length B.length (A ++ (B ++ v :: C)) s
      = (A ++ v :: (B ++ C), s ++ (List.range' A.length B.length).reverse) ∧
    applySwaps (List.range' A.length B.length).reverse (A ++ (B ++ v :: C)) = A ++ v :: (B ++ C) ∧
    crossings (List.range' A.length B.length).reverse (A ++ (B ++ v :: C))
      = B.reverse.map fun b => (b, v) := by
  generalize hd : B.length = d
  induction d generalizing B C s with
  | zero =>
    rw [List.length_eq_zero_iff] at hd
    subst hd
    simp [bubble, applySwaps, crossings]
  | succ d ih =>
    rcases List.eq_nil_or_concat B with h | ⟨B', b, rfl⟩
    · subst h; simp at hd
    rw [List.concat_eq_append] at hd ⊢
    have hB : B'.length = d := by simpa using hd
    have e1 : A ++ (B' ++ [b] ++ v :: C) = (A ++ B') ++ b :: v :: C := by simp
    have e2 : swapAdj (A.length + d) (A ++ (B' ++ [b] ++ v :: C)) = A ++ (B' ++ v :: (b :: C)) := by
      rw [e1]
      have := swapAdj_append (A ++ B') C b v
      rw [List.length_append, hB] at this
      rw [this]; simp
    have hr : (List.range' A.length (d + 1)).reverse
        = (A.length + d) :: (List.range' A.length d).reverse := by
      rw [List.range'_concat]; simp
    have i1 := ih B' (b :: C) (s ++ [A.length + d]) hB
    refine ⟨?_, ?_, ?_⟩
    · rw [bubble, swapAt_eq, e2, i1.1, hr]
      simp
    · rw [hr, applySwaps, List.foldl_cons, e2]
      refine i1.2.1.trans ?_
      simp
    · rw [hr, crossings, e2, i1.2.2, e1]
      have g1 : ((A ++ B') ++ b :: v :: C).getD (A.length + d) 0 = b := by
        rw [List.getD_eq_getElem?_getD, ← hB, ← List.length_append]; simp
      have g2 : ((A ++ B') ++ b :: v :: C).getD (A.length + d + 1) 0 = v := by
        rw [List.getD_eq_getElem?_getD, ← hB, ← List.length_append,
          List.getElem?_append_right (by omega)]; simp
      rw [g1, g2]; simp

lemma findFrom_spec (A B C : List ℕ) (v : ℕ) (hv : v ∉ B) :
    findFrom (A ++ (B ++ v :: C)) A.length v = A.length + B.length := by
  have h : (List.range' A.length ((A ++ (B ++ v :: C)).length - A.length)).find?
      (fun i => decide ((A ++ (B ++ v :: C))[i]? = some v)) = some (A.length + B.length) := by
    rw [List.find?_eq_some_iff_append]
    refine ⟨by simp, List.range' A.length B.length, List.range' (A.length + B.length + 1) C.length, ?_, ?_⟩
    · have : (A ++ (B ++ v :: C)).length - A.length = B.length + (C.length + 1) := by simp
      rw [this, ← List.range'_append_1, List.range'_succ]
    · intro i hi
      rw [List.mem_range'_1] at hi
      have : (A ++ (B ++ v :: C))[i]? = B[i - A.length]? := by
        rw [List.getElem?_append_right hi.1, List.getElem?_append_left (by omega)]
      rw [this]
      simp only [Bool.not_eq_eq_eq_not, Bool.not_true, decide_eq_false_iff_not]
      intro h
      exact hv (List.mem_of_getElem? h)
  rw [findFrom, h]

/-- The inverted pairs, smaller entry first. -/
def invPairs : List ℕ → List (ℕ × ℕ)
  | [] => []
  | v :: l => ((l.filter fun b => decide (b < v)).map fun b => (b, v)) ++ invPairs l

lemma invPairs_length (l : List ℕ) : (invPairs l).length = inversions l := by
  induction l with
  | nil => rfl
  | cons a l ih => rw [invPairs, inversions, List.length_append, List.length_map, ih]

lemma adjLoop_spec (A r q s : List ℕ) (hr : r.Pairwise (· < ·)) (hq : q.Perm r) :
    ∃ S, adjLoop A.length q (A ++ r) s = (A ++ q, s ++ S) ∧ applySwaps S (A ++ r) = A ++ q ∧
      (crossings S (A ++ r)).Perm (invPairs q) ∧ ∀ i ∈ S, i + 1 < A.length + r.length := by
  induction q generalizing A r s with
  | nil =>
    have : r = [] := by simpa using hq.symm
    subst this
    exact ⟨[], by simp [adjLoop], rfl, .refl _, by simp⟩
  | cons v q ih =>
    have hv : v ∈ r := hq.subset List.mem_cons_self
    obtain ⟨B, C, rfl⟩ := List.append_of_mem hv
    have hp := List.pairwise_append.mp hr
    have hC := (List.pairwise_cons.mp hp.2.1)
    have hvB : v ∉ B := fun h => lt_irrefl v (hp.2.2 v h v List.mem_cons_self)
    have hq' : q.Perm (B ++ C) := (List.perm_cons v).mp (hq.trans List.perm_middle)
    have hr' : (B ++ C).Pairwise (· < ·) :=
      List.pairwise_append.mpr ⟨hp.1, hC.2, fun a ha b hb => hp.2.2 a ha b (List.mem_cons_of_mem _ hb)⟩
    have hb := bubble_spec A B C v s
    obtain ⟨S, i1, i2, i3, i4⟩ := ih (A ++ [v]) (B ++ C) (s ++ (List.range' A.length B.length).reverse) hr' hq'
    have e : A ++ [v] ++ (B ++ C) = A ++ v :: (B ++ C) := by simp
    rw [e] at i1 i2 i3
    refine ⟨(List.range' A.length B.length).reverse ++ S, ?_, ?_, ?_, ?_⟩
    · rw [adjLoop]
      simp only [findFrom_spec A B C v hvB, Nat.add_sub_cancel_left, hb.1]
      have hl : (A ++ [v]).length = A.length + 1 := by simp
      rw [hl] at i1
      rw [i1]; simp
    · rw [applySwaps_append, hb.2.1, i2]; simp
    · rw [crossings_append, hb.2.1, hb.2.2, invPairs]
      refine List.Perm.append ?_ i3
      have hfB : (B ++ C).filter (fun b => decide (b < v)) = B := by
        rw [List.filter_append, List.filter_eq_self.mpr, List.filter_eq_nil_iff.mpr, List.append_nil]
        · intro a ha
          simpa using (hC.1 a ha).le
        · intro a ha
          simpa using hp.2.2 a ha v List.mem_cons_self
      have h2 := (hq'.filter (fun b => decide (b < v)))
      rw [hfB] at h2
      exact ((List.reverse_perm B).map _).trans (h2.symm.map _)
    · intro i hi
      rw [List.mem_append, List.mem_reverse, List.mem_range'_1] at hi
      simp only [List.length_append, List.length_cons, List.length_nil] at i4 ⊢
      rcases hi with h | h
      · omega
      · have := i4 i h; omega

lemma crossings_length (s l : List ℕ) : (crossings s l).length = s.length := by
  induction s generalizing l with
  | nil => rfl
  | cons i s ih => rw [crossings, List.length_cons, ih, List.length_cons]

lemma adjacentTranspositions_spec (p : List ℕ) (h : p.Perm (List.range p.length)) :
    applySwaps (adjacentTranspositions p) (List.range p.length) = p ∧
    (crossings (adjacentTranspositions p) (List.range p.length)).Perm (invPairs p) ∧
    ∀ i ∈ adjacentTranspositions p, i + 1 < p.length := by
  obtain ⟨S, e, a, c, d⟩ := adjLoop_spec [] (List.range p.length) p [] List.pairwise_lt_range h
  have : adjacentTranspositions p = S := by
    rw [adjacentTranspositions]
    have e' : adjLoop 0 p (List.range p.length) [] = (p, S) := by simpa using e
    rw [e']
  rw [this]
  exact ⟨by simpa using a, by simpa using c, by simpa using d⟩

lemma inversions_swap (i : ℕ) (l : List ℕ) : inversions (swapAdj i l) ≤ inversions l + 1 := by
  induction l generalizing i with
  | nil => cases i <;> simp [swapAdj, inversions]
  | cons a l ih =>
    cases i with
    | zero =>
      cases l with
      | nil => simp [swapAdj]
      | cons b l =>
        simp only [swapAdj, inversions, List.filter_cons]
        by_cases h1 : a < b
        · have h2 : ¬ b < a := by omega
          simp only [h1, h2, decide_true, decide_false, if_true, List.length_cons]
          simp
          omega
        · by_cases h2 : b < a
          · simp only [h1, h2, decide_true, decide_false, if_true, List.length_cons]
            simp
            omega
          · simp only [h1, h2, decide_false]
            simp
            omega
    | succ i =>
      simp only [swapAdj, inversions]
      have hp : (swapAdj i l).Perm l := by
        by_cases h : i + 1 < l.length
        · obtain ⟨A, x, y, B, rfl, rfl⟩ := split_at l i h
          rw [swapAdj_append]
          exact (List.Perm.swap x y B).append_left A
        · rw [swapAdj_out i l (by omega)]
      have := (hp.filter (fun b => decide (b < a))).length_eq
      have := ih i
      omega

lemma inversions_apply (s l : List ℕ) : inversions (applySwaps s l) ≤ inversions l + s.length := by
  induction s generalizing l with
  | nil => exact le_refl _
  | cons i s ih =>
    have h1 := ih (swapAdj i l)
    have h2 := inversions_swap i l
    rw [applySwaps, List.foldl_cons, List.length_cons]
    have : List.foldl (fun l i => swapAdj i l) (swapAdj i l) s = applySwaps s (swapAdj i l) := rfl
    rw [this]; omega

lemma inversions_sorted (l : List ℕ) (h : l.Pairwise (· < ·)) : inversions l = 0 := by
  induction l with
  | nil => rfl
  | cons a l ih =>
    rw [List.pairwise_cons] at h
    rw [inversions, ih h.2, List.filter_eq_nil_iff.mpr]
    · rfl
    · intro b hb
      simpa using (h.1 b hb).le

lemma isPermutation_iff (q : List ℤ) :
    isPermutation q = true ↔ q.Perm ((List.range q.length).map Int.ofNat) := by
  have key : ∀ (l : List ℤ) (k : ℕ), (l.zipIdx k).all (fun x => decide (x.1 = (x.2 : ℤ))) = true ↔
      l = (List.range' k l.length).map Int.ofNat := by
    intro l
    induction l with
    | nil => intro k; simp
    | cons a l ih =>
      intro k
      rw [List.zipIdx_cons, List.all_cons, Bool.and_eq_true, ih (k + 1), List.length_cons,
        List.range'_succ, List.map_cons, List.cons.injEq]
      simp
  rw [isPermutation, key _ 0, ← List.range_eq_range']
  have hs := List.mergeSort_perm q (fun a b => decide (a ≤ b))
  rw [hs.length_eq]
  constructor
  · intro h; rw [← h]; exact hs.symm
  · intro h
    have h1 : (q.mergeSort (fun a b => decide (a ≤ b))).Pairwise (· ≤ ·) := by
      have := List.pairwise_mergeSort (le := fun a b : ℤ => decide (a ≤ b))
        (by intro a b c; simp; omega) (by intro a b; simp; omega) q
      exact this.imp (by simp)
    have h2 : ((List.range q.length).map Int.ofNat).Pairwise (· ≤ ·) := by
      rw [List.pairwise_map]
      exact List.pairwise_lt_range.imp (fun {a b} h => by simpa using h.le)
    exact (hs.trans h).eq_of_pairwise (fun a b _ _ h1 h2 => le_antisymm h1 h2) h1 h2

lemma permuteLoop_state {σ : Type} (ob : Option (List (Option Bool))) (step : ℕ) (swaps : List ℕ)
    (st st' : State σ) (log log' : List Crossing)
    (h : permuteLoop ob step swaps st log = some (st', log')) :
    st'.codomain = applySwaps swaps st.codomain ∧ st'.domain = applySwaps swaps st.domain ∧
    st'.sites = applySwaps swaps st.sites ∧
    log'.map (fun c => (c.first, c.second))
      = log.map (fun c => (c.first, c.second)) ++ crossings swaps st.codomain := by
  induction swaps generalizing step st log with
  | nil =>
    rw [permuteLoop, Option.some.injEq, Prod.mk.injEq] at h
    obtain ⟨rfl, rfl⟩ := h
    simp [applySwaps, crossings]
  | cons pos swaps ih =>
    rw [permuteLoop] at h
    cases hc : chirality ob step pos st.levels with
    | none => rw [hc] at h; simp at h
    | some ov =>
      rw [hc] at h
      obtain ⟨h1, h2, h3, h4⟩ := ih _ _ _ h
      simp only [swapAt_eq] at h1 h2 h3 h4
      refine ⟨h1, h2, h3, ?_⟩
      rw [h4, crossings]
      simp

lemma chirality_levels (L : ℕ → Option ℤ) (cod : List ℕ) (step pos : ℕ) (hp : pos + 1 < cod.length) :
    chirality none step pos (cod.map L)
      = match L (cod.getD pos 0), L (cod.getD (pos + 1) 0) with
        | some l1, some l2 => if l1 = l2 then none else some (decide (l1 > l2))
        | _, _ => none := by
  have h1 : ((cod.map L)[pos]?).join = L (cod.getD pos 0) := by
    rw [List.getElem?_map, List.getD_eq_getElem?_getD, List.getElem?_eq_getElem (by omega)]; rfl
  have h2 : ((cod.map L)[pos + 1]?).join = L (cod.getD (pos + 1) 0) := by
    rw [List.getElem?_map, List.getD_eq_getElem?_getD, List.getElem?_eq_getElem (by omega)]; rfl
  rw [chirality, h1, h2]
  rfl

/-- The sites `a`, `b` have different levels. -/
def Braidable (L : ℕ → Option ℤ) (c : ℕ × ℕ) : Prop :=
  ∃ x y, L c.1 = some x ∧ L c.2 = some y ∧ x ≠ y

lemma permuteLoop_levels {σ : Type} (L : ℕ → Option ℤ) (step : ℕ) (swaps : List ℕ) (st : State σ)
    (log : List Crossing) (hl : st.levels = st.codomain.map L)
    (hpos : ∀ i ∈ swaps, i + 1 < st.codomain.length) :
    ((∀ c ∈ crossings swaps st.codomain, Braidable L c) →
      ∃ st' log', permuteLoop none step swaps st log = some (st', log ++ log') ∧
        ∀ c ∈ log', c.isOver = true ↔ ∃ x y, L c.first = some x ∧ L c.second = some y ∧ x > y) ∧
    ((∃ c ∈ crossings swaps st.codomain, ¬ Braidable L c) →
      permuteLoop none step swaps st log = none) := by
  induction swaps generalizing step st log with
  | nil =>
    refine ⟨fun _ => ⟨st, [], by simp [permuteLoop], by simp⟩, ?_⟩
    rintro ⟨c, hc, -⟩
    simp [crossings] at hc
  | cons pos swaps ih =>
    have hp := hpos pos List.mem_cons_self
    have hch := chirality_levels L st.codomain step pos hp
    rw [← hl] at hch
    set st1 : State σ :=
      { codomain := swapAt st.codomain pos (pos + 1)
        domain := swapAt st.domain pos (pos + 1)
        sites := swapAt st.sites pos (pos + 1)
        levels := swapAt st.levels pos (pos + 1) } with hst
    have i1 : st1.levels = st1.codomain.map L := by
      rw [hst]
      simp only [swapAt_eq, hl, swapAdj_map]
    have i2 : ∀ i ∈ swaps, i + 1 < st1.codomain.length := by
      intro i hi
      rw [hst]
      simp only [swapAt_eq, swapAdj_length]
      exact hpos i (List.mem_cons_of_mem _ hi)
    have i3 : st1.codomain = swapAdj pos st.codomain := by rw [hst]; simp only [swapAt_eq]
    set a := st.codomain.getD pos 0 with ha
    set b := st.codomain.getD (pos + 1) 0 with hb
    constructor
    · intro hB
      obtain ⟨x, y, hx, hy, hxy⟩ := hB (a, b) (by rw [crossings]; exact List.mem_cons_self)
      simp only at hx hy
      rw [hx, hy] at hch
      simp only [if_neg hxy] at hch
      obtain ⟨st', log', h1, h2⟩ := (ih (step + 1) st1 (log ++ [⟨a, b, decide (x > y)⟩]) i1 i2).1 (by
        intro c hc
        rw [i3] at hc
        exact hB c (by rw [crossings]; exact List.mem_cons_of_mem _ hc))
      refine ⟨st', ⟨a, b, decide (x > y)⟩ :: log', ?_, ?_⟩
      · rw [permuteLoop, hch]
        simp only
        rw [← hst, h1]
        simp
      · intro c hc
        rcases List.mem_cons.mp hc with rfl | hc
        · simp only [decide_eq_true_eq, hx, hy, Option.some.injEq]
          constructor
          · intro h; exact ⟨x, y, rfl, rfl, h⟩
          · rintro ⟨x', y', rfl, rfl, h⟩; exact h
        · exact h2 c hc
    · rintro ⟨c, hc, hnb⟩
      rw [permuteLoop, hch]
      rw [crossings] at hc
      cases hLa : L a with
      | none => rfl
      | some x =>
        cases hLb : L b with
        | none => rfl
        | some y =>
          by_cases hxy : x = y
          · simp [hxy]
          · simp only [if_neg hxy]
            rcases List.mem_cons.mp hc with rfl | hc
            · exact absurd ⟨x, y, hLa, hLb, hxy⟩ hnb
            · rw [← i3] at hc
              exact (ih (step + 1) st1 _ i1 i2).2 ⟨c, hc, hnb⟩

lemma mem_invPairs (p : List ℕ) (hp : p.Nodup) (a b : ℕ) :
    (a, b) ∈ invPairs p ↔ a ∈ p ∧ b ∈ p ∧ a < b ∧ p.idxOf b < p.idxOf a := by
  induction p with
  | nil => simp [invPairs]
  | cons v l ih =>
    rw [List.nodup_cons] at hp
    rw [invPairs, List.mem_append, ih hp.2]
    simp only [List.mem_map, List.mem_filter, decide_eq_true_eq, Prod.mk.injEq]
    constructor
    · rintro (⟨x, ⟨hx, hxv⟩, rfl, rfl⟩ | ⟨ha, hb, hab, hi⟩)
      · refine ⟨List.mem_cons_of_mem _ hx, List.mem_cons_self, hxv, ?_⟩
        rw [List.idxOf_cons_self, List.idxOf_cons_ne _ (by omega)]
        omega
      · refine ⟨List.mem_cons_of_mem _ ha, List.mem_cons_of_mem _ hb, hab, ?_⟩
        have h1 : v ≠ a := fun h => hp.1 (h ▸ ha)
        have h2 : v ≠ b := fun h => hp.1 (h ▸ hb)
        rw [List.idxOf_cons_ne _ h1, List.idxOf_cons_ne _ h2]
        omega
    · rintro ⟨ha, hb, hab, hi⟩
      by_cases h1 : v = a
      · subst h1
        rw [List.idxOf_cons_self] at hi
        omega
      · have ha' : a ∈ l := (List.mem_cons.mp ha).resolve_left (Ne.symm h1)
        by_cases h2 : v = b
        · exact Or.inl ⟨a, ⟨ha', by omega⟩, rfl, h2⟩
        · have hb' : b ∈ l := (List.mem_cons.mp hb).resolve_left (Ne.symm h2)
          rw [List.idxOf_cons_ne _ h1, List.idxOf_cons_ne _ h2] at hi
          exact Or.inr ⟨ha', hb', hab, by omega⟩

lemma invPairs_nodup (p : List ℕ) (hp : p.Nodup) : (invPairs p).Nodup := by
  induction p with
  | nil => exact List.nodup_nil
  | cons v l ih =>
    rw [List.nodup_cons] at hp
    rw [invPairs, List.nodup_append]
    refine ⟨?_, ih hp.2, ?_⟩
    · exact (hp.2.filter _).map (fun a b h => by simpa using h)
    · rintro x hx y hy rfl
      obtain ⟨b, -, rfl⟩ := List.mem_map.mp hx
      exact hp.1 ((mem_invPairs l hp.2 _ _).mp hy).2.1

lemma relabel_self (p : List ℕ) (hp : p.Nodup) : relabel p p = List.range p.length := by
  refine List.ext_getElem (by simp [relabel]) fun i h1 h2 => ?_
  have hi : i < p.length := by simpa using h2
  simp only [relabel, List.getElem_map, List.getElem_range]
  rw [if_pos (List.getElem_mem hi)]
  exact hp.idxOf_getElem i hi

end Cyten.CouplingPermute
