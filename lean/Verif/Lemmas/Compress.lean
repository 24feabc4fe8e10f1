import Verif.Model.AbelianMask
import Verif.Lemmas.Spaces2

/-! # Lists and boolean masks -/

namespace Cyten.Abelian
open Cyten.Tools Cyten.Spaces

variable {α β : Type}

theorem compress_cons (b : Bool) (m : List Bool) (x : α) (l : List α) :
    compress (b :: m) (x :: l) = if b then x :: compress m l else compress m l := by
  cases b <;> simp [compress]

@[simp] theorem compress_nil (l : List α) : compress [] l = [] := by simp [compress]
@[simp] theorem compress_nil_right (m : List Bool) : compress m ([] : List α) = [] := by
  simp [compress]

/-- Entry `i` of `l[m]`. -/
theorem compress_get (m : List Bool) (l : List α) (i : ℕ) (y : α) :
    (compress m l)[i]? = some y ↔
      ∃ p : ℕ, m[p]? = some true ∧ l[p]? = some y ∧ countTrue (m.take p) = i := by
  induction m generalizing l i with
  | nil => simp
  | cons b m ih =>
    cases l with
    | nil => simp
    | cons x l =>
      rw [compress_cons]
      cases b with
      | false =>
        simp only [Bool.false_eq_true, if_false]
        rw [ih]
        constructor
        · rintro ⟨p, h1, h2, h3⟩
          exact ⟨p + 1, by simpa using h1, by simpa using h2, by simpa [countTrue] using h3⟩
        · rintro ⟨p, h1, h2, h3⟩
          cases p with
          | zero => simp at h1
          | succ p => exact ⟨p, by simpa using h1, by simpa using h2, by simpa [countTrue] using h3⟩
      | true =>
        simp only [if_true]
        cases i with
        | zero =>
          constructor
          · intro h
            exact ⟨0, by simp, by simpa using h, by simp [countTrue]⟩
          · rintro ⟨p, h1, h2, h3⟩
            cases p with
            | zero => simpa using h2
            | succ p => simp [countTrue] at h3
        | succ i =>
          rw [List.getElem?_cons_succ, ih]
          constructor
          · rintro ⟨p, h1, h2, h3⟩
            exact ⟨p + 1, by simpa using h1, by simpa using h2, by simpa [countTrue] using h3⟩
          · rintro ⟨p, h1, h2, h3⟩
            cases p with
            | zero => simp [countTrue] at h3
            | succ p =>
              exact ⟨p, by simpa using h1, by simpa using h2, by simpa [countTrue] using h3⟩

theorem mem_compress (m : List Bool) (l : List α) (y : α) :
    y ∈ compress m l ↔ ∃ p : ℕ, m[p]? = some true ∧ l[p]? = some y := by
  rw [List.mem_iff_getElem?]
  constructor
  · rintro ⟨i, h⟩
    obtain ⟨p, h1, h2, -⟩ := (compress_get m l i y).1 h
    exact ⟨p, h1, h2⟩
  · rintro ⟨p, h1, h2⟩
    exact ⟨_, (compress_get m l _ y).2 ⟨p, h1, h2, rfl⟩⟩

theorem length_compress (m : List Bool) (l : List α) (h : m.length ≤ l.length) :
    (compress m l).length = countTrue m := by
  induction m generalizing l with
  | nil => simp [countTrue]
  | cons b m ih =>
    cases l with
    | nil => simp at h
    | cons x l =>
      rw [compress_cons]
      have := ih l (by simpa using h)
      cases b <;> simp_all [countTrue]

theorem compress_sublist (m : List Bool) (l : List α) : (compress m l).Sublist l := by
  induction m generalizing l with
  | nil => simp
  | cons b m ih =>
    cases l with
    | nil => simp
    | cons x l =>
      rw [compress_cons]
      cases b
      · exact (ih l).cons _
      · exact (ih l).cons₂ _

theorem compress_append (m m' : List Bool) (l l' : List α) (h : m.length = l.length) :
    compress (m ++ m') (l ++ l') = compress m l ++ compress m' l' := by
  unfold compress
  rw [List.zip_append h, List.filter_append, List.map_append]

theorem compress_flatMap (L : List β) (f : β → List Bool) (g : β → List α)
    (h : ∀ b ∈ L, (f b).length = (g b).length) :
    compress (L.flatMap f) (L.flatMap g) = L.flatMap fun b => compress (f b) (g b) := by
  induction L with
  | nil => simp
  | cons b L ih =>
    rw [List.flatMap_cons, List.flatMap_cons, List.flatMap_cons,
      compress_append _ _ _ _ (h b List.mem_cons_self), ih fun c hc => h c (List.mem_cons_of_mem _ hc)]

theorem compress_replicate_false (n : ℕ) (l : List α) : compress (List.replicate n false) l = [] := by
  induction n generalizing l with
  | zero => simp
  | succ n ih =>
    cases l with
    | nil => simp
    | cons x l => rw [List.replicate_succ, compress_cons]; simpa using ih l

theorem compress_replicate_true (l : List α) : compress (List.replicate l.length true) l = l := by
  induction l with
  | nil => simp
  | cons x l ih => rw [List.length_cons, List.replicate_succ, compress_cons]; simpa using ih

theorem nonzero_get (v : List Bool) (i j : ℕ) :
    (nonzero v)[i]? = some j ↔ v[j]? = some true ∧ countTrue (v.take j) = i := by
  unfold nonzero
  rw [compress_get]
  constructor
  · rintro ⟨p, h1, h2, h3⟩
    obtain ⟨hp, rfl⟩ := List.getElem?_eq_some_iff.1 h2
    simp only [List.getElem_range] at *
    exact ⟨h1, h3⟩
  · rintro ⟨h1, h2⟩
    refine ⟨j, h1, ?_, h2⟩
    have := (List.getElem?_eq_some_iff.1 h1).1
    simp [this]

theorem mem_nonzero (v : List Bool) (j : ℕ) : j ∈ nonzero v ↔ v[j]? = some true := by
  rw [List.mem_iff_getElem?]
  constructor
  · rintro ⟨i, h⟩; exact ((nonzero_get v i j).1 h).1
  · intro h; exact ⟨_, (nonzero_get v _ j).2 ⟨h, rfl⟩⟩

theorem nonzero_sorted (v : List Bool) : (nonzero v).Pairwise (· < ·) :=
  List.Pairwise.sublist (compress_sublist _ _) List.pairwise_lt_range

theorem length_nonzero (v : List Bool) : (nonzero v).length = countTrue v :=
  length_compress _ _ (by simp)

/-- Strictly increasing lists with the same members are equal. -/
theorem eq_of_sorted {l l' : List ℕ} (h : l.Pairwise (· < ·)) (h' : l'.Pairwise (· < ·))
    (hm : ∀ x, x ∈ l ↔ x ∈ l') : l = l' := by
  have hp : l.Perm l' := (List.perm_ext_iff_of_nodup (h.imp fun h => Nat.ne_of_lt h)
    (h'.imp fun h => Nat.ne_of_lt h)).2 hm
  exact hp.eq_of_pairwise (fun a b _ _ h1 h2 => absurd (h1.trans h2) (Nat.lt_irrefl _)) h h'

theorem take_append_slice (l : List α) (a b : ℕ) (h : a ≤ b) :
    l.take a ++ slice l a b = l.take b := by
  unfold slice
  obtain ⟨d, rfl⟩ := Nat.exists_eq_add_of_le h
  rw [Nat.add_sub_cancel_left, List.take_add]

/-- A list is the concatenation of its slices. -/
theorem flatMap_slices (mults : List ℕ) (l : List α) (h : l.length = mults.sum) :
    (List.range mults.length).flatMap
      (fun b => slice l (mults.take b).sum ((mults.take b).sum + mults.getD b 0)) = l := by
  have key : ∀ k ≤ mults.length, (List.range k).flatMap
      (fun b => slice l (mults.take b).sum ((mults.take b).sum + mults.getD b 0)) =
      l.take (mults.take k).sum := by
    intro k
    induction k with
    | zero => simp
    | succ k ih =>
      intro hk
      rw [List.range_succ, List.flatMap_append, ih (by omega)]
      have : (mults.take (k + 1)).sum = (mults.take k).sum + mults.getD k 0 := by
        rw [List.take_add_one, List.sum_append, List.getD_eq_getElem?_getD,
          List.getElem?_eq_getElem (show k < mults.length by omega)]
        simp
      rw [this]
      simp only [List.flatMap_cons, List.flatMap_nil, List.append_nil]
      exact take_append_slice _ _ _ (by omega)
  rw [key _ le_rfl, List.take_length, ← h, List.take_length]

/-- Concatenation over all sector numbers, where missing entries contribute nothing. -/
theorem flatMap_lookup (ents : List (ℕ × α)) (g : ℕ → Option α → List β) (hg : ∀ b, g b none = [])
    (hs : (ents.map Prod.fst).Pairwise (· < ·)) (a n : ℕ) (h1 : ∀ p ∈ ents, a ≤ p.1)
    (h2 : ∀ p ∈ ents, p.1 < a + n) :
    (List.range' a n).flatMap (fun b => g b (ents.lookup b)) =
      ents.flatMap fun p => g p.1 (some p.2) := by
  induction n generalizing a ents with
  | zero =>
    cases ents with
    | nil => simp
    | cons p ents =>
      have := h1 p List.mem_cons_self
      have := h2 p List.mem_cons_self
      omega
  | succ n ih =>
    rw [List.range'_succ, List.flatMap_cons]
    cases ents with
    | nil =>
      have : (List.range' (a + 1) n).flatMap (fun b => g b (List.lookup b ([] : List (ℕ × α)))) = [] := by
        rw [List.flatMap_eq_nil_iff]
        intro b _
        simp [hg]
      rw [this]
      simp [hg]
    | cons p ents =>
      have hp1 := h1 p List.mem_cons_self
      obtain ⟨k, x⟩ := p
      rw [List.map_cons, List.pairwise_cons] at hs
      by_cases hk : a = k
      · subst hk
        have hl : List.lookup a ((a, x) :: ents) = some x := by simp
        rw [hl]
        have he : (List.range' (a + 1) n).flatMap (fun b => g b (List.lookup b ((a, x) :: ents))) =
            (List.range' (a + 1) n).flatMap (fun b => g b (List.lookup b ents)) := by
          apply List.flatMap_congr
          intro b hb
          have : b ≠ a := by have := List.mem_range'_1.1 hb; omega
          rw [List.lookup_cons, beq_false_of_ne this]
        rw [he, ih ents hs.2 (a + 1) (fun q hq => hs.1 q.1 (List.mem_map_of_mem hq))
          (fun q hq => by have := h2 q (List.mem_cons_of_mem _ hq); omega)]
        rw [List.flatMap_cons]
      · have hlt : a < k := by simp at hp1; omega
        have hn : List.lookup a ((k, x) :: ents) = none := by
          rw [List.lookup_eq_none_iff]
          intro q hq
          rcases List.mem_cons.1 hq with rfl | hq
          · simp; omega
          · have := hs.1 q.1 (List.mem_map_of_mem hq)
            simp at this ⊢; omega
        rw [hn, hg, List.nil_append]
        refine ih _ (by rw [List.map_cons, List.pairwise_cons]; exact hs) (a + 1) ?_ ?_
        · intro q hq
          rcases List.mem_cons.1 hq with rfl | hq
          · exact hlt
          · have := hs.1 q.1 (List.mem_map_of_mem hq); simp at this; omega
        · intro q hq
          have := h2 q hq; omega

/-- Entry of a concatenation. -/
theorem flatMap_get (E : List β) (c : β → List α) (t x : ℕ) (e : β) (h : E[t]? = some e)
    (hx : x < (c e).length) :
    (E.flatMap c)[((E.map fun e => (c e).length).take t).sum + x]? = (c e)[x]? := by
  rw [← List.getElem?_drop, drop_flatMap]
  obtain ⟨ht, rfl⟩ := List.getElem?_eq_some_iff.1 h
  rw [List.drop_eq_getElem_cons ht, List.flatMap_cons, List.getElem?_append_left hx]

end Cyten.Abelian
