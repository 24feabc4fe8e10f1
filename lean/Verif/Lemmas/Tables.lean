import Verif.Model.Tables
import Mathlib.Data.List.Basic
import Mathlib.Data.List.Nodup
import Mathlib.Order.Basic
import Mathlib.Data.List.Lex
import Mathlib.Tactic.SplitIfs
import Mathlib.Tactic.Common

/-! # Lemmas on lexicographic comparison of rows and the merge loops -/

namespace Cyten.Tables

/-- `cmp x y` decides the order of the keys of `x` and `y`. -/
structure CmpKey {α γ : Type} [LinearOrder γ] (cmp : α → α → Ordering) (key : α → γ)
    (x y : α) : Prop where
  lt : cmp x y = .lt ↔ key x < key y
  eq : cmp x y = .eq ↔ key x = key y
  gt : cmp x y = .gt ↔ key y < key x

section Row
variable {ι : Type} [LinearOrder ι]

theorem cmpRev_spec (a b : List ι) (h : a.length = b.length) : CmpKey cmpRev id a b := by
  induction a generalizing b with
  | nil =>
    cases b with
    | nil => constructor <;> simp [cmpRev]
    | cons y ys => simp at h
  | cons x xs ih =>
    cases b with
    | nil => simp at h
    | cons y ys =>
      have ih := ih ys (by simpa using h)
      obtain ⟨i1, i2, i3⟩ := ih
      simp only [id] at i1 i2 i3
      rcases lt_trichotomy x y with h1 | h1 | h1
      · have e : cmpRev (x :: xs) (y :: ys) = .lt := by simp [cmpRev, h1]
        have hlt : x :: xs < y :: ys := List.Lex.rel h1
        refine ⟨?_, ?_, ?_⟩ <;> simp only [e, id] <;> simp [hlt, hlt.ne, not_lt.2 hlt.le]
      · subst h1
        have e : cmpRev (x :: xs) (x :: ys) = cmpRev xs ys := by simp [cmpRev]
        refine ⟨?_, ?_, ?_⟩ <;> simp only [e, i1, i2, i3, id] <;> simp
      · have e : cmpRev (x :: xs) (y :: ys) = .gt := by simp [cmpRev, h1, not_lt.2 h1.le]
        have hlt : y :: ys < x :: xs := List.Lex.rel h1
        refine ⟨?_, ?_, ?_⟩ <;> simp only [e, id] <;> simp [hlt, hlt.ne', not_lt.2 hlt.le]

/-- On rows of the same length, `cmp_lexsort` is the lexicographic order on the rows read from
the last column to the first. -/
theorem cmpLexsort_spec (a b : List ι) (h : a.length = b.length) :
    CmpKey cmpLexsort List.reverse a b := by
  have e : cmpLexsort a b = cmpRev a.reverse b.reverse := by
    unfold cmpLexsort
    simp only [h, lt_irrefl, if_false]
    have e1 : a.take b.length = a := by rw [← h]; exact List.take_length
    rw [e1, List.take_length]
    cases cmpRev a.reverse b.reverse <;> simp
  obtain ⟨h1, h2, h3⟩ := cmpRev_spec a.reverse b.reverse (by simpa using h)
  exact ⟨by rw [e]; exact h1, by rw [e]; exact h2, by rw [e]; exact h3⟩

end Row

section Merge
variable {α γ : Type} [LinearOrder γ]

/-- The pairs of positions of equal keys, in the suffixes from `i`, `j` on. -/
def Match (key : α → γ) (i : ℕ) (a : List α) (j : ℕ) (b : List α) (p : ℕ × ℕ) : Prop :=
  ∃ k l x y, a[k]? = some x ∧ b[l]? = some y ∧ key x = key y ∧ p = (i + k, j + l)

theorem Match.nil_left {key : α → γ} {i j : ℕ} {b : List α} {p : ℕ × ℕ}
    (h : Match key i [] j b p) : False := by
  obtain ⟨k, l, x, y, h1, -⟩ := h
  simp at h1

theorem Match.nil_right {key : α → γ} {i j : ℕ} {a : List α} {p : ℕ × ℕ}
    (h : Match key i a j [] p) : False := by
  obtain ⟨k, l, x, y, -, h1, -⟩ := h
  simp at h1

/-- dropping a first entry that matches nothing -/
theorem match_cons_left {key : α → γ} {i j : ℕ} {x : α} {a b : List α} {p : ℕ × ℕ}
    (hx : ∀ y ∈ b, key x ≠ key y) :
    Match key i (x :: a) j b p ↔ Match key (i + 1) a j b p := by
  constructor
  · rintro ⟨k, l, x', y, h1, h2, h3, rfl⟩
    cases k with
    | zero =>
      simp at h1; subst h1
      exact absurd h3 (hx y (List.mem_of_getElem? h2))
    | succ k => exact ⟨k, l, x', y, by simpa using h1, h2, h3, by congr 1; omega⟩
  · rintro ⟨k, l, x', y, h1, h2, h3, rfl⟩
    exact ⟨k + 1, l, x', y, by simpa using h1, h2, h3, by congr 1; omega⟩

theorem match_cons_right {key : α → γ} {i j : ℕ} {y : α} {a b : List α} {p : ℕ × ℕ}
    (hy : ∀ x ∈ a, key x ≠ key y) :
    Match key i a j (y :: b) p ↔ Match key i a (j + 1) b p := by
  constructor
  · rintro ⟨k, l, x, y', h1, h2, h3, rfl⟩
    cases l with
    | zero =>
      simp at h2; subst h2
      exact absurd h3 (hy x (List.mem_of_getElem? h1))
    | succ l => exact ⟨k, l, x, y', h1, by simpa using h2, h3, by congr 1; omega⟩
  · rintro ⟨k, l, x, y', h1, h2, h3, rfl⟩
    exact ⟨k, l + 1, x, y', h1, by simpa using h2, h3, by congr 1; omega⟩

theorem match_cons_cons {key : α → γ} {i j : ℕ} {x y : α} {a b : List α} {p : ℕ × ℕ}
    (hxy : key x = key y) (hb : ∀ z ∈ b, key x ≠ key z) :
    Match key i (x :: a) j (y :: b) p ↔ p = (i, j) ∨ Match key (i + 1) a j (y :: b) p := by
  constructor
  · rintro ⟨k, l, x', y', h1, h2, h3, rfl⟩
    cases k with
    | zero =>
      simp at h1; subst h1
      cases l with
      | zero => left; rfl
      | succ l =>
        simp at h2
        exact absurd h3 (hb _ (List.mem_of_getElem? h2))
    | succ k => right; exact ⟨k, l, x', y', by simpa using h1, h2, h3, by congr 1; omega⟩
  · rintro (rfl | ⟨k, l, x', y', h1, h2, h3, rfl⟩)
    · exact ⟨0, 0, x, y, by simp, by simp, hxy, rfl⟩
    · exact ⟨k + 1, l, x', y', by simpa using h1, h2, h3, by congr 1; omega⟩

theorem match_cons_cons' {key : α → γ} {i j : ℕ} {x y : α} {a b : List α} {p : ℕ × ℕ}
    (hxy : key x = key y) (ha : ∀ z ∈ a, key z ≠ key y) :
    Match key i (x :: a) j (y :: b) p ↔ p = (i, j) ∨ Match key i (x :: a) (j + 1) b p := by
  constructor
  · rintro ⟨k, l, x', y', h1, h2, h3, rfl⟩
    cases l with
    | zero =>
      simp at h2; subst h2
      cases k with
      | zero => left; rfl
      | succ k =>
        simp at h1
        exact absurd h3 (ha _ (List.mem_of_getElem? h1))
    | succ l => right; exact ⟨k, l, x', y', h1, by simpa using h2, h3, by congr 1; omega⟩
  · rintro (rfl | ⟨k, l, x', y', h1, h2, h3, rfl⟩)
    · exact ⟨0, 0, x, y, by simp, by simp, hxy, rfl⟩
    · exact ⟨k, l + 1, x', y', h1, by simpa using h2, h3, by congr 1; omega⟩

/-- The main invariant of the merge loop. -/
theorem mem_commonLoop (cmp : α → α → Ordering) (key : α → γ) (aS bS : Bool)
    (hS : aS = true ∨ bS = true) (fuel i : ℕ) (a : List α) (j : ℕ) (b : List α)
    (hf : a.length + b.length ≤ fuel)
    (hc : ∀ x ∈ a, ∀ y ∈ b, CmpKey cmp key x y)
    (ha : a.Pairwise fun x y => key x ≤ key y) (hb : b.Pairwise fun x y => key x ≤ key y)
    (ha' : aS = true → a.Pairwise fun x y => key x < key y)
    (hb' : bS = true → b.Pairwise fun x y => key x < key y) (p : ℕ × ℕ) :
    p ∈ commonLoop cmp aS bS fuel i a j b ↔ Match key i a j b p := by
  induction fuel generalizing i a j b with
  | zero =>
    have : a = [] := List.length_eq_zero_iff.1 (by omega)
    subst this
    simp only [commonLoop, List.not_mem_nil, false_iff]
    exact Match.nil_left
  | succ fuel ih =>
    cases a with
    | nil =>
      simp only [commonLoop, List.not_mem_nil, false_iff]
      exact Match.nil_left
    | cons x xs =>
      cases b with
      | nil =>
        simp only [commonLoop, List.not_mem_nil, false_iff]
        exact Match.nil_right
      | cons y ys =>
        have hcxy := hc x List.mem_cons_self y List.mem_cons_self
        have ha1 := List.pairwise_cons.1 ha
        have hb1 := List.pairwise_cons.1 hb
        simp only [List.length_cons] at hf
        rcases hcmp : cmp x y with _ | _ | _
        · have hlt := hcxy.lt.1 hcmp
          simp only [commonLoop, hcmp]
          rw [ih (i + 1) xs j (y :: ys) (by simp; omega)
            (fun x' hx' => hc x' (List.mem_cons_of_mem _ hx')) ha1.2 hb
            (fun h => (List.pairwise_cons.1 (ha' h)).2) hb']
          refine (match_cons_left fun z hz => ?_).symm
          rcases List.mem_cons.1 hz with rfl | hz
          · exact hlt.ne
          · exact (lt_of_lt_of_le hlt (hb1.1 z hz)).ne
        · have heq := hcxy.eq.1 hcmp
          simp only [commonLoop, hcmp, List.mem_cons]
          cases hbS : bS with
          | true =>
            have hbs := List.pairwise_cons.1 (hb' hbS)
            have h1 := match_cons_cons (i := i) (j := j) (a := xs) (b := ys) (p := p) heq
              (fun z hz => heq ▸ (hbs.1 z hz).ne)
            cases haS : aS with
            | true =>
              have has := List.pairwise_cons.1 (ha' haS)
              subst hbS haS
              simp only [if_true]
              rw [ih (i + 1) xs (j + 1) ys (by omega)
                (fun x' hx' y' hy' => hc x' (List.mem_cons_of_mem _ hx') y'
                  (List.mem_cons_of_mem _ hy')) ha1.2 hb1.2
                (fun h => has.2) (fun h => hbs.2), h1]
              refine or_congr Iff.rfl (match_cons_right fun z hz => ?_).symm
              exact heq ▸ (has.1 z hz).ne'
            | false =>
              subst hbS haS
              simp only [if_true, Bool.false_eq_true, if_false]
              rw [ih (i + 1) xs j (y :: ys) (by simp; omega)
                (fun x' hx' => hc x' (List.mem_cons_of_mem _ hx')) ha1.2 hb
                (fun h => absurd h (by decide)) hb', h1]
          | false =>
            have haS : aS = true := hS.resolve_right (by simp [hbS])
            have has := List.pairwise_cons.1 (ha' haS)
            have h1 := match_cons_cons' (i := i) (j := j) (a := xs) (b := ys) (p := p) heq
              (fun z hz => heq ▸ (has.1 z hz).ne')
            subst hbS haS
            simp only [if_true, Bool.false_eq_true, if_false]
            rw [ih i (x :: xs) (j + 1) ys (by simp; omega)
              (fun x' hx' y' hy' => hc x' hx' y' (List.mem_cons_of_mem _ hy')) ha hb1.2
              ha' (fun h => absurd h (by decide)), h1]
        · have hlt := hcxy.gt.1 hcmp
          simp only [commonLoop, hcmp]
          rw [ih i (x :: xs) (j + 1) ys (by simp; omega)
            (fun x' hx' y' hy' => hc x' hx' y' (List.mem_cons_of_mem _ hy')) ha hb1.2
            ha' (fun h => (List.pairwise_cons.1 (hb' h)).2)]
          refine (match_cons_right fun z hz => ?_).symm
          rcases List.mem_cons.1 hz with rfl | hz
          · exact hlt.ne'
          · exact (lt_of_lt_of_le hlt (ha1.1 z hz)).ne'

/-- Everything still to come is at positions at least `(i, j)`. -/
theorem commonLoop_ge (cmp : α → α → Ordering) (aS bS : Bool) (fuel i : ℕ) (a : List α) (j : ℕ)
    (b : List α) : ∀ p ∈ commonLoop cmp aS bS fuel i a j b, i ≤ p.1 ∧ j ≤ p.2 := by
  induction fuel generalizing i a j b with
  | zero => simp [commonLoop]
  | succ fuel ih =>
    cases a with
    | nil => simp [commonLoop]
    | cons x xs =>
      cases b with
      | nil => simp [commonLoop]
      | cons y ys =>
        intro p hp
        rcases hcmp : cmp x y with _ | _ | _ <;> simp only [commonLoop, hcmp] at hp
        · have := ih _ _ _ _ p hp; omega
        · rcases List.mem_cons.1 hp with rfl | hp
          · simp
          · have := ih _ _ _ _ p hp
            constructor
            · refine Nat.le_trans ?_ this.1; split_ifs <;> omega
            · refine Nat.le_trans ?_ this.2; split_ifs <;> omega
        · have := ih _ _ _ _ p hp; omega

/-- The pairs come in order: componentwise non-decreasing, and strictly increasing in the index
into the table whose partner is strictly sorted. -/
theorem commonLoop_sorted (cmp : α → α → Ordering) (aS bS : Bool) (fuel i : ℕ) (a : List α)
    (j : ℕ) (b : List α) :
    (commonLoop cmp aS bS fuel i a j b).Pairwise fun p q =>
      p.1 ≤ q.1 ∧ p.2 ≤ q.2 ∧ (bS = true → p.1 < q.1) ∧ (aS = true → p.2 < q.2) := by
  induction fuel generalizing i a j b with
  | zero => simp [commonLoop]
  | succ fuel ih =>
    cases a with
    | nil => simp [commonLoop]
    | cons x xs =>
      cases b with
      | nil => simp [commonLoop]
      | cons y ys =>
        rcases hcmp : cmp x y with _ | _ | _ <;> simp only [commonLoop, hcmp]
        · exact ih _ _ _ _
        · refine List.pairwise_cons.2 ⟨?_, ih _ _ _ _⟩
          intro p hp
          have := commonLoop_ge _ _ _ _ _ _ _ _ p hp
          dsimp only
          cases aS <;> cases bS <;> simp at this ⊢ <;> omega
        · exact ih _ _ _ _

theorem mem_tailLoop {i k : ℕ} {xs : List α} :
    k ∈ tailLoop i xs ↔ i ≤ k ∧ k < i + xs.length := by
  induction xs generalizing i with
  | nil => simp [tailLoop]
  | cons x xs ih => simp [tailLoop, ih]; omega

theorem tailLoop_sorted (i : ℕ) (xs : List α) : (tailLoop i xs).Pairwise (· < ·) := by
  induction xs generalizing i with
  | nil => simp [tailLoop]
  | cons x xs ih =>
    refine List.pairwise_cons.2 ⟨fun k hk => ?_, ih _⟩
    have := mem_tailLoop.1 hk; omega

theorem tailLoop_eq_range' (i : ℕ) (xs : List α) : tailLoop i xs = List.range' i xs.length := by
  induction xs generalizing i with
  | nil => simp [tailLoop]
  | cons x xs ih => simp [tailLoop, ih, List.range'_succ]

theorem noncommonLoop_fst (cmp : α → α → Ordering) (fuel i : ℕ) (a : List α) (j : ℕ)
    (b : List α) : (noncommonLoop cmp fuel i a j b).filterMap (·.1) = tailLoop i a := by
  induction fuel generalizing i a j b with
  | zero => simp [noncommonLoop, List.filterMap_map, Function.comp_def]
  | succ fuel ih =>
    cases a with
    | nil => simp [noncommonLoop, tailLoop, List.filterMap_map, Function.comp_def]
    | cons x xs =>
      cases b with
      | nil => simp [noncommonLoop, tailLoop, List.filterMap_map, Function.comp_def]
      | cons y ys =>
        rcases hcmp : cmp x y with _ | _ | _ <;>
          simp [noncommonLoop, hcmp, ih, tailLoop]

theorem noncommonLoop_snd (cmp : α → α → Ordering) (fuel i : ℕ) (a : List α) (j : ℕ)
    (b : List α) : (noncommonLoop cmp fuel i a j b).filterMap (·.2) = tailLoop j b := by
  induction fuel generalizing i a j b with
  | zero => simp [noncommonLoop, List.filterMap_map, Function.comp_def]
  | succ fuel ih =>
    cases a with
    | nil => simp [noncommonLoop, tailLoop, List.filterMap_map, Function.comp_def]
    | cons x xs =>
      cases b with
      | nil => simp [noncommonLoop, tailLoop, List.filterMap_map, Function.comp_def]
      | cons y ys =>
        rcases hcmp : cmp x y with _ | _ | _ <;>
          simp [noncommonLoop, hcmp, ih, tailLoop]

theorem noncommonLoop_not_none (cmp : α → α → Ordering) (fuel i : ℕ) (a : List α) (j : ℕ)
    (b : List α) : (none, none) ∉ noncommonLoop cmp fuel i a j b := by
  induction fuel generalizing i a j b with
  | zero => simp [noncommonLoop]
  | succ fuel ih =>
    cases a with
    | nil => simp [noncommonLoop]
    | cons x xs =>
      cases b with
      | nil => simp [noncommonLoop]
      | cons y ys =>
        rcases hcmp : cmp x y with _ | _ | _ <;> simp [noncommonLoop, hcmp, ih]

theorem mem_noncommonLoop (cmp : α → α → Ordering) (key : α → γ) (fuel i : ℕ) (a : List α)
    (j : ℕ) (b : List α) (hf : a.length + b.length ≤ fuel)
    (hc : ∀ x ∈ a, ∀ y ∈ b, CmpKey cmp key x y)
    (ha : a.Pairwise fun x y => key x < key y)
    (hb : b.Pairwise fun x y => key x < key y) (p : ℕ × ℕ) :
    (some p.1, some p.2) ∈ noncommonLoop cmp fuel i a j b ↔ Match key i a j b p := by
  induction fuel generalizing i a j b with
  | zero =>
    have : a = [] := List.length_eq_zero_iff.1 (by omega)
    subst this
    simp only [noncommonLoop, tailLoop]
    constructor
    · intro h; simp at h
    · intro h; exact h.nil_left.elim
  | succ fuel ih =>
    cases a with
    | nil =>
      simp only [noncommonLoop, tailLoop]
      constructor
      · intro h; simp at h
      · intro h; exact h.nil_left.elim
    | cons x xs =>
      cases b with
      | nil =>
        simp only [noncommonLoop, tailLoop]
        constructor
        · intro h; simp at h
        · intro h; exact h.nil_right.elim
      | cons y ys =>
        have hcxy := hc x List.mem_cons_self y List.mem_cons_self
        have ha1 := List.pairwise_cons.1 ha
        have hb1 := List.pairwise_cons.1 hb
        simp only [List.length_cons] at hf
        rcases hcmp : cmp x y with _ | _ | _
        · have hlt := hcxy.lt.1 hcmp
          simp only [noncommonLoop, hcmp, List.mem_cons, Prod.mk.injEq, reduceCtorEq, and_false,
            false_or]
          rw [ih (i + 1) xs j (y :: ys) (by simp; omega)
            (fun x' hx' => hc x' (List.mem_cons_of_mem _ hx')) ha1.2 hb]
          refine (match_cons_left fun z hz => ?_).symm
          rcases List.mem_cons.1 hz with rfl | hz
          · exact hlt.ne
          · exact (lt_trans hlt (hb1.1 z hz)).ne
        · have heq := hcxy.eq.1 hcmp
          have h1 := match_cons_cons (i := i) (j := j) (a := xs) (b := ys) (p := p) heq
            (fun z hz => heq ▸ (hb1.1 z hz).ne)
          simp only [noncommonLoop, hcmp, List.mem_cons, Prod.mk.injEq, Option.some.injEq]
          rw [ih (i + 1) xs (j + 1) ys (by omega)
            (fun x' hx' y' hy' => hc x' (List.mem_cons_of_mem _ hx') y'
              (List.mem_cons_of_mem _ hy')) ha1.2 hb1.2, h1]
          refine or_congr (by rw [Prod.ext_iff]) (match_cons_right fun z hz => ?_).symm
          exact heq ▸ (ha1.1 z hz).ne'
        · have hlt := hcxy.gt.1 hcmp
          simp only [noncommonLoop, hcmp, List.mem_cons, Prod.mk.injEq, reduceCtorEq, false_and,
            false_or]
          rw [ih i (x :: xs) (j + 1) ys (by simp; omega)
            (fun x' hx' y' hy' => hc x' hx' y' (List.mem_cons_of_mem _ hy')) ha hb1.2]
          refine (match_cons_right fun z hz => ?_).symm
          rcases List.mem_cons.1 hz with rfl | hz
          · exact hlt.ne'
          · exact (lt_trans hlt (ha1.1 z hz)).ne'

end Merge

section Diff
variable {α : Type} [DecidableEq α]

theorem mem_diffLoop {i k : ℕ} {p : α} {xs : List α} :
    k ∈ diffLoop i p xs ↔ ∃ m, k = i + m ∧ m < xs.length ∧ (p :: xs)[m]? ≠ (p :: xs)[m + 1]? := by
  induction xs generalizing i p with
  | nil => simp [diffLoop]
  | cons x xs ih =>
    have hrec : k ∈ diffLoop (i + 1) x xs ↔ ∃ m, k = i + (m + 1) ∧ m < xs.length ∧
        (x :: xs)[m]? ≠ (x :: xs)[m + 1]? := by
      rw [ih]
      exact exists_congr fun m => by rw [show i + 1 + m = i + (m + 1) by omega]
    have split : (∃ m, k = i + m ∧ m < (x :: xs).length ∧ (p :: x :: xs)[m]? ≠ (p :: x :: xs)[m + 1]?)
        ↔ (k = i ∧ p ≠ x) ∨ ∃ m, k = i + (m + 1) ∧ m < xs.length ∧
          (x :: xs)[m]? ≠ (x :: xs)[m + 1]? := by
      constructor
      · rintro ⟨m, h1, h2, h3⟩
        cases m with
        | zero => left; exact ⟨by omega, by simpa using h3⟩
        | succ m => right; exact ⟨m, h1, by simpa using h2, by simpa using h3⟩
      · rintro (⟨h1, h2⟩ | ⟨m, h1, h2, h3⟩)
        · exact ⟨0, by omega, by simp, by simpa using h2⟩
        · exact ⟨m + 1, h1, by simpa using h2, by simpa using h3⟩
    rw [split, ← hrec]
    have e : diffLoop i p (x :: xs)
        = if p ≠ x then i :: diffLoop (i + 1) x xs else diffLoop (i + 1) x xs := rfl
    rw [e]
    by_cases h : p = x <;> simp [h]

theorem diffLoop_sorted (i : ℕ) (p : α) (xs : List α) : (diffLoop i p xs).Pairwise (· < ·) := by
  induction xs generalizing i p with
  | nil => simp [diffLoop]
  | cons x xs ih =>
    unfold diffLoop
    split_ifs with h
    · refine List.pairwise_cons.2 ⟨fun k hk => ?_, ih _ _⟩
      obtain ⟨m, hm, -⟩ := mem_diffLoop.1 hk
      omega
    · exact ih _ _

end Diff

end Cyten.Tables
