import Verif.Lemmas.PermutePath
import Mathlib.Data.List.Induction

/-! # Exchanges of neighbours: order of the entries, moves of one entry -/

namespace Cyten.Permute
open Cyten.Tools

theorem swapNext_eq {α : Type} (l : List α) (j : ℕ) : swapNext l j = swapAdj l j := rfl

theorem swapAdj_mid {α : Type} (P Q : List α) (x y : α) :
    swapAdj (P ++ x :: y :: Q) P.length = P ++ y :: x :: Q := by
  unfold swapAdj
  simp

theorem split_two {α : Type} {L : List α} {j : ℕ} {x y : α} (hx : L[j]? = some x) (hy : L[j + 1]? = some y) :
    ∃ P Q, L = P ++ x :: y :: Q ∧ P.length = j := by
  obtain ⟨h1, h2⟩ := List.getElem?_eq_some_iff.1 hx
  obtain ⟨h3, h4⟩ := List.getElem?_eq_some_iff.1 hy
  refine ⟨L.take j, L.drop (j + 2), ?_, by simp; omega⟩
  rw [← h2, ← h4, List.getElem_cons_drop, List.getElem_cons_drop, List.take_append_drop]

theorem split_two' {α : Type} {L : List α} {j : ℕ} (h : j + 1 < L.length) :
    ∃ P Q x y, L = P ++ x :: y :: Q ∧ P.length = j := by
  obtain ⟨P, Q, h1, h2⟩ := split_two (List.getElem?_eq_getElem (show j < L.length by omega))
    (List.getElem?_eq_getElem h)
  exact ⟨P, Q, _, _, h1, h2⟩

theorem swapAdj_perm {α : Type} (L : List α) (j : ℕ) : (swapAdj L j).Perm L := by
  by_cases h : j + 1 < L.length
  · obtain ⟨P, Q, x, y, rfl, rfl⟩ := split_two' h
    rw [swapAdj_mid]
    exact List.Perm.append_left _ (List.Perm.swap _ _ _)
  · have h1 : L[j + 1]? = none := by simp; omega
    unfold swapAdj
    rw [h1]
    cases L[j]? <;> simp

theorem swapAdj_append {α : Type} (L M : List α) (j : ℕ) (h : j + 1 < L.length) :
    swapAdj (L ++ M) j = swapAdj L j ++ M := by
  obtain ⟨P, Q, x, y, rfl, rfl⟩ := split_two' h
  rw [swapAdj_mid, List.append_assoc, List.cons_append, List.cons_append, swapAdj_mid]
  simp

theorem path_append_right {α : Type} (G : α → α → Prop) (js : List ℕ) (L M : List α) (hp : Path G js L) :
    Path G js (L ++ M) ∧ js.foldl swapAdj (L ++ M) = js.foldl swapAdj L ++ M ∧ ∀ j ∈ js, j + 1 < L.length := by
  induction js generalizing L with
  | nil => simp [Path]
  | cons j js ih =>
    obtain ⟨⟨x, y, h1, h2, h3⟩, h4⟩ := hp
    have hl : j + 1 < L.length := (List.getElem?_eq_some_iff.1 h2).1
    obtain ⟨i1, i2, i3⟩ := ih _ h4
    refine ⟨⟨⟨x, y, ?_, ?_, h3⟩, ?_⟩, ?_, ?_⟩
    · rw [List.getElem?_append_left (by omega)]; exact h1
    · rw [List.getElem?_append_left hl]; exact h2
    · rw [swapAdj_append _ _ _ hl]; exact i1
    · rw [List.foldl_cons, swapAdj_append _ _ _ hl, i2, List.foldl_cons]
    · intro i hi
      rcases List.mem_cons.1 hi with rfl | hi
      · exact hl
      · simpa using i3 i hi

/-- One entry moves to the right over `M`. -/
theorem path_right {α : Type} (G : α → α → Prop) (P M Q : List α) (x : α) (h : ∀ m ∈ M, G x m) :
    Path G (List.range' P.length M.length) (P ++ x :: (M ++ Q)) ∧
      (List.range' P.length M.length).foldl swapAdj (P ++ x :: (M ++ Q)) = P ++ M ++ x :: Q := by
  induction M generalizing P with
  | nil => simp [Path]
  | cons m M ih =>
    have h1 := ih (P ++ [m]) fun m' hm => h m' (List.mem_cons_of_mem _ hm)
    rw [List.length_cons, List.range'_succ, List.cons_append]
    simp only [List.length_append, List.length_singleton, List.append_assoc, List.singleton_append] at h1
    refine ⟨⟨⟨x, m, ?_, ?_, h m List.mem_cons_self⟩, ?_⟩, ?_⟩
    · simp
    · rw [List.getElem?_append_right (by omega)]; simp
    · rw [swapAdj_mid]; exact h1.1
    · rw [List.foldl_cons, swapAdj_mid, h1.2]; simp

/-- One entry moves to the left over `M`. -/
theorem path_left {α : Type} (G : α → α → Prop) (P M Q : List α) (x : α) (h : ∀ m ∈ M, G m x) :
    Path G (List.range' P.length M.length).reverse (P ++ M ++ x :: Q) ∧
      (List.range' P.length M.length).reverse.foldl swapAdj (P ++ M ++ x :: Q) = P ++ x :: (M ++ Q) := by
  induction M using List.reverseRecOn generalizing Q with
  | nil => simp [Path]
  | append_singleton M m ih =>
    have h1 := ih (m :: Q) fun m' hm => h m' (by simp [hm])
    rw [List.length_append, List.length_singleton, List.range'_concat, List.reverse_append,
      List.reverse_singleton, List.singleton_append, Nat.one_mul]
    have e : P ++ (M ++ [m]) ++ x :: Q = (P ++ M) ++ m :: x :: Q := by simp
    have e2 : P.length + M.length = (P ++ M).length := by simp
    rw [e, e2]
    refine ⟨⟨⟨m, x, ?_, ?_, h m (by simp)⟩, ?_⟩, ?_⟩
    · simp
    · rw [List.getElem?_append_right (by omega)]; simp
    · rw [swapAdj_mid]; exact h1.1
    · rw [List.foldl_cons, swapAdj_mid, h1.2]; simp

/-- `x` comes before `y`. -/
def Before {α : Type} (L : List α) (x y : α) : Prop := ∃ i j : ℕ, i < j ∧ L[i]? = some x ∧ L[j]? = some y

theorem getElem?_inj {α : Type} {L : List α} (h : L.Nodup) {i j : ℕ} {x : α} (hi : L[i]? = some x)
    (hj : L[j]? = some x) : i = j := by
  obtain ⟨h1, h2⟩ := List.getElem?_eq_some_iff.1 hi
  obtain ⟨h3, h4⟩ := List.getElem?_eq_some_iff.1 hj
  exact (List.Nodup.getElem_inj_iff h).1 (h2.trans h4.symm)

theorem before_asymm {α : Type} {L : List α} (h : L.Nodup) {x y : α} (h1 : Before L x y) : ¬ Before L y x := by
  rintro ⟨i, j, hij, hi, hj⟩
  obtain ⟨i', j', hij', hi', hj'⟩ := h1
  have := getElem?_inj h hi hj'
  have := getElem?_inj h hj hi'
  omega

/-- An exchange of neighbours changes the order of these two entries only. -/
theorem before_swapAdj {α : Type} {L : List α} (h : L.Nodup) {j : ℕ} {a b : α} (ha : L[j]? = some a)
    (hb : L[j + 1]? = some b) (x y : α) :
    Before (swapAdj L j) x y ↔ (Before L x y ∧ ¬ (x = a ∧ y = b)) ∨ (x = b ∧ y = a) := by
  have hl : j + 1 < L.length := (List.getElem?_eq_some_iff.1 hb).1
  have hg := fun x => getElem?_swapAdj L j x hl
  have key : ∀ (L : List α), L.Nodup → ∀ (j : ℕ) (a b : α), L[j]? = some a → L[j + 1]? = some b →
      (∀ x, (swapAdj L j)[x]? = if x = j then L[j + 1]? else if x = j + 1 then L[j]? else L[x]?) →
      ∀ x y, Before L x y → ¬ (x = a ∧ y = b) → Before (swapAdj L j) x y := by
    intro L h j a b ha hb hg x y ⟨p, q, hpq, hp, hq⟩ hne
    let s : ℕ → ℕ := fun p => if p = j then j + 1 else if p = j + 1 then j else p
    have hs : ∀ p : ℕ, (swapAdj L j)[s p]? = L[p]? := by
      intro p
      rw [hg]
      simp only [s]
      by_cases h1 : p = j
      · subst h1; simp
      · by_cases h2 : p = j + 1
        · subst h2; simp
        · simp [h1, h2]
    refine ⟨s p, s q, ?_, (hs p).trans hp, (hs q).trans hq⟩
    have hne' : ¬ (p = j ∧ q = j + 1) := by
      rintro ⟨rfl, rfl⟩
      rw [ha] at hp; rw [hb] at hq
      exact hne ⟨(Option.some.inj hp).symm, (Option.some.inj hq).symm⟩
    simp only [s]
    split_ifs <;> omega
  constructor
  · intro hB
    by_cases h1 : x = b ∧ y = a
    · exact Or.inr h1
    · left
      have hn : (swapAdj L j).Nodup := (swapAdj_perm L j).nodup_iff.2 h
      have e : swapAdj (swapAdj L j) j = L := by
        obtain ⟨P, Q, rfl, rfl⟩ := split_two ha hb
        rw [swapAdj_mid, swapAdj_mid]
      have hg' := fun x => getElem?_swapAdj (swapAdj L j) j x (by simpa using hl)
      have h2 := key _ hn j b a (by rw [hg, if_pos rfl, hb]) (by rw [hg, if_neg (by omega), if_pos rfl, ha]) hg'
        x y hB h1
      rw [e] at h2
      refine ⟨h2, ?_⟩
      rintro ⟨rfl, rfl⟩
      refine before_asymm hn hB ⟨j, j + 1, by omega, ?_, ?_⟩
      · rw [hg, if_pos rfl, hb]
      · rw [hg, if_neg (by omega), if_pos rfl, ha]
  · rintro (⟨h1, h2⟩ | ⟨rfl, rfl⟩)
    · exact key L h j a b ha hb hg x y h1 h2
    · refine ⟨j, j + 1, by omega, ?_, ?_⟩
      · rw [hg, if_pos rfl, hb]
      · rw [hg, if_neg (by omega), if_pos rfl, ha]

/-- If two entries are exchanged at most in one direction, then all exchanged pairs were in this order at the
beginning. -/
theorem path_before {α : Type} {G : α → α → Prop} (hG : ∀ x y, G x y → ¬ G y x) {js : List ℕ} {L : List α}
    (h : L.Nodup) (hp : Path G js L) : Path (fun x y => G x y ∧ Before L x y) js L := by
  induction js generalizing L with
  | nil => trivial
  | cons j js ih =>
    obtain ⟨⟨a, b, ha, hb, hab⟩, hp⟩ := hp
    refine ⟨⟨a, b, ha, hb, hab, j, j + 1, by omega, ha, hb⟩, ?_⟩
    refine path_mono ?_ (ih ((swapAdj_perm L j).nodup_iff.2 h) hp)
    rintro x y ⟨h1, h2⟩
    refine ⟨h1, ?_⟩
    rcases (before_swapAdj h ha hb x y).1 h2 with h3 | ⟨rfl, rfl⟩
    · exact h3.1
    · exact absurd h1 (hG _ _ hab)

theorem foldl_swapAdj_perm {α : Type} (js : List ℕ) (L : List α) : (js.foldl swapAdj L).Perm L := by
  induction js generalizing L with
  | nil => exact List.Perm.refl _
  | cons j js ih => exact (ih _).trans (swapAdj_perm L j)

/-- If entries below `k` are not moved, then the positions below `k` are not touched. -/
theorem path_above {G : ℕ → ℕ → Prop} (k : ℕ) (hG : ∀ x y, G x y → k ≤ x) {js : List ℕ} {L : List ℕ}
    (hL : ∀ i, i < k → L[i]? = some i) (hp : Path G js L) : ∀ j ∈ js, k ≤ j := by
  induction js generalizing L with
  | nil => simp
  | cons j js ih =>
    obtain ⟨⟨a, b, ha, hb, hab⟩, hp⟩ := hp
    have hj : k ≤ j := by
      by_contra hc
      have := hL j (by omega)
      rw [ha] at this
      have := hG a b hab
      simp only [Option.some.injEq] at *
      omega
    have hl : j + 1 < L.length := (List.getElem?_eq_some_iff.1 hb).1
    intro i hi
    rcases List.mem_cons.1 hi with rfl | hi
    · exact hj
    · refine ih ?_ hp i hi
      intro i hi
      rw [getElem?_swapAdj _ _ _ hl, if_neg (by omega), if_neg (by omega)]
      exact hL i hi

end Cyten.Permute
