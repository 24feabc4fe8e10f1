import Verif.Lemmas.Tables
import Mathlib.Order.Lattice
import Mathlib.Algebra.Order.Ring.Int

/-!
# C20: merge iteration over sorted tables

Specification: a row is a list of `n` entries; row `r` comes before row `s` (`RowLt r s`) if at
the *last* column in which they differ `r` has the smaller entry.  A table is sorted if its rows
are non-decreasing, strictly sorted if they are increasing.
-/

namespace Cyten.Props
open Cyten.Tables

variable {ι : Type} [LinearOrder ι]

/-- `r` is before `s` in the order of `np.lexsort(arr.T)`: the last differing column decides. -/
def RowLt (r s : List ι) : Prop :=
  ∃ (k : ℕ) (x y : ι), r[k]? = some x ∧ s[k]? = some y ∧ x < y ∧ ∀ m : ℕ, k < m → r[m]? = s[m]?

/-- every row has `n` columns -/
def IsTable (n : ℕ) (t : List (List ι)) : Prop := ∀ r ∈ t, r.length = n

def Sorted (t : List (List ι)) : Prop := t.Pairwise fun r s => RowLt r s ∨ r = s
def StrictlySorted (t : List (List ι)) : Prop := t.Pairwise RowLt

private theorem lex_iff (a b : List ι) (h : a.length = b.length) :
    a < b ↔ ∃ (k : ℕ) (x y : ι), a[k]? = some x ∧ b[k]? = some y ∧ x < y ∧ ∀ m < k, a[m]? = b[m]? := by
  induction a generalizing b with
  | nil =>
    cases b with
    | nil => simp
    | cons y ys => simp at h
  | cons x xs ih =>
    cases b with
    | nil => simp at h
    | cons y ys =>
      have ih := ih ys (by simpa using h)
      constructor
      · intro hlt
        rcases List.cons_lt_cons_iff.1 hlt with h1 | ⟨rfl, h1⟩
        · exact ⟨0, x, y, by simp, by simp, h1, by simp⟩
        · obtain ⟨k, u, v, h2, h3, h4, h5⟩ := ih.1 h1
          refine ⟨k + 1, u, v, by simpa using h2, by simpa using h3, h4, ?_⟩
          intro m hm
          cases m with
          | zero => simp
          | succ m => simpa using h5 m (by omega)
      · rintro ⟨k, u, v, h2, h3, h4, h5⟩
        rw [List.cons_lt_cons_iff]
        cases k with
        | zero =>
          simp at h2 h3
          left; rw [h2, h3]; exact h4
        | succ k =>
          right
          have := h5 0 (by omega)
          simp at this
          exact ⟨this, ih.2 ⟨k, u, v, by simpa using h2, by simpa using h3, h4,
            fun m hm => by simpa using h5 (m + 1) (by omega)⟩⟩

theorem rowLt_iff (r s : List ι) (h : r.length = s.length) :
    RowLt r s ↔ r.reverse < s.reverse := by
  rw [lex_iff _ _ (by simpa using h)]
  constructor
  · rintro ⟨k, x, y, h1, h2, h3, h4⟩
    have hk : k < r.length := (List.getElem?_eq_some_iff.1 h1).1
    refine ⟨r.length - 1 - k, x, y, ?_, ?_, h3, ?_⟩
    · rw [List.getElem?_reverse (by omega), show r.length - 1 - (r.length - 1 - k) = k by omega]
      exact h1
    · rw [List.getElem?_reverse (by omega), show s.length - 1 - (r.length - 1 - k) = k by omega]
      exact h2
    · intro m hm
      rw [List.getElem?_reverse (by omega), List.getElem?_reverse (by omega), ← h]
      exact h4 _ (by omega)
  · rintro ⟨k, x, y, h1, h2, h3, h4⟩
    have hk : k < r.length := by simpa using (List.getElem?_eq_some_iff.1 h1).1
    rw [List.getElem?_reverse (by omega)] at h1 h2
    refine ⟨r.length - 1 - k, x, y, h1, by rw [h]; exact h2, h3, ?_⟩
    intro m hm
    rcases Nat.lt_or_ge m r.length with hm' | hm'
    · have := h4 (r.length - 1 - m) (by omega)
      rw [List.getElem?_reverse (by omega), List.getElem?_reverse (by omega)] at this
      rwa [show r.length - 1 - (r.length - 1 - m) = m by omega,
        show s.length - 1 - (r.length - 1 - m) = m by omega] at this
    · rw [List.getElem?_eq_none hm', List.getElem?_eq_none (by omega)]

/-- **C20**: `cmp_lexsort` decides the row order. -/
theorem C20_cmp_lexsort (r s : List ι) (h : r.length = s.length) :
    (cmpLexsort r s = .lt ↔ RowLt r s) ∧ (cmpLexsort r s = .eq ↔ r = s) ∧
      (cmpLexsort r s = .gt ↔ RowLt s r) := by
  obtain ⟨h1, h2, h3⟩ := cmpLexsort_spec r s h
  exact ⟨by rw [h1, rowLt_iff _ _ h], by rw [h2, List.reverse_inj],
    by rw [h3, rowLt_iff _ _ h.symm]⟩

private theorem cmpRev_swap (a b : List ι) : cmpRev b a = (cmpRev a b).swap := by
  induction a generalizing b with
  | nil => cases b <;> simp [cmpRev]
  | cons x xs ih =>
    cases b with
    | nil => simp [cmpRev]
    | cons y ys =>
      unfold cmpRev
      rcases lt_trichotomy x y with h | rfl | h
      · rw [if_neg h.not_gt, if_pos h, if_pos h]; rfl
      · simp [ih]
      · rw [if_pos h, if_neg h.not_gt, if_pos h]; rfl

/-- **C20**: `cmp_lexsort` is antisymmetric, also for rows of different length, and tells two rows
equal only if they are. -/
theorem C20_cmp_lexsort_antisymm (r s : List ι) :
    cmpLexsort s r = (cmpLexsort r s).swap ∧ (cmpLexsort r s = .eq ↔ r = s) := by
  constructor
  · unfold cmpLexsort
    rcases lt_trichotomy r.length s.length with h | h | h
    · simp only [if_pos h, if_neg h.not_gt]
      rw [cmpRev_swap]
      rcases cmpRev (r.take r.length).reverse (s.take r.length).reverse with _ | _ | _ <;> rfl
    · simp only [h, lt_irrefl, if_false]
      rw [cmpRev_swap]
      rcases cmpRev (r.take s.length).reverse (s.take s.length).reverse with _ | _ | _ <;> rfl
    · simp only [if_pos h, if_neg h.not_gt]
      rw [cmpRev_swap]
      rcases cmpRev (r.take s.length).reverse (s.take s.length).reverse with _ | _ | _ <;> rfl
  · by_cases h : r.length = s.length
    · exact (C20_cmp_lexsort r s h).2.1
    · refine ⟨fun he => ?_, fun he => absurd (congrArg List.length he) h⟩
      exfalso
      unfold cmpLexsort at he
      rcases lt_or_gt_of_ne h with h | h
      · simp only [if_pos h] at he
        rcases hc : cmpRev (r.take r.length).reverse (s.take r.length).reverse with _ | _ | _ <;>
          rw [hc] at he <;> simp at he
      · simp only [if_pos h, if_neg h.not_gt] at he
        rcases hc : cmpRev (r.take s.length).reverse (s.take s.length).reverse with _ | _ | _ <;>
          rw [hc] at he <;> simp at he

private theorem sorted_key {n : ℕ} {t : List (List ι)} (ht : IsTable n t) (hs : Sorted t) :
    t.Pairwise fun x y => x.reverse ≤ y.reverse := by
  refine List.Pairwise.imp_of_mem ?_ hs
  intro r s hr hs' h
  rcases h with h | rfl
  · exact le_of_lt ((rowLt_iff r s (by rw [ht r hr, ht s hs'])).1 h)
  · exact le_refl _

private theorem strict_key {n : ℕ} {t : List (List ι)} (ht : IsTable n t)
    (hs : StrictlySorted t) : t.Pairwise fun x y => x.reverse < y.reverse := by
  refine List.Pairwise.imp_of_mem ?_ hs
  intro r s hr hs' h
  exact (rowLt_iff r s (by rw [ht r hr, ht s hs'])).1 h

omit [LinearOrder ι] in
private theorem match_iff {a b : List (List ι)} [LinearOrder ι] {i j : ℕ} :
    Match List.reverse 0 a 0 b (i, j) ↔ ∃ r, a[i]? = some r ∧ b[j]? = some r := by
  constructor
  · rintro ⟨k, l, x, y, h1, h2, h3, h4⟩
    have := List.reverse_inj.1 h3
    subst this
    simp only [Nat.zero_add, Prod.mk.injEq] at h4
    obtain ⟨rfl, rfl⟩ := h4
    exact ⟨x, h1, h2⟩
  · rintro ⟨r, h1, h2⟩
    exact ⟨i, j, r, r, h1, h2, rfl, by simp⟩

/-- **C20**: for two sorted tables, of which at least one is strictly sorted (and each is
strictly sorted if it is declared to be), `iter_common_sorted` yields exactly the pairs of
positions of equal rows, each pair once, in non-decreasing order of both positions; the position
in a table is strictly increasing if the *other* table is declared strictly sorted. -/
theorem C20_iter_common_sorted (n : ℕ) (a b : List (List ι)) (aStrict bStrict : Bool)
    (hS : aStrict = true ∨ bStrict = true) (hta : IsTable n a) (htb : IsTable n b)
    (ha : if aStrict then StrictlySorted a else Sorted a)
    (hb : if bStrict then StrictlySorted b else Sorted b) :
    ∃ res, iterCommonSorted cmpLexsort a b aStrict bStrict = some res ∧
      (∀ i j, (i, j) ∈ res ↔ ∃ r, a[i]? = some r ∧ b[j]? = some r) ∧
      res.Nodup ∧
      res.Pairwise (fun p q => p.1 ≤ q.1 ∧ p.2 ≤ q.2) ∧
      (bStrict = true → res.Pairwise fun p q => p.1 < q.1) ∧
      (aStrict = true → res.Pairwise fun p q => p.2 < q.2) := by
  have hsa : Sorted a := by
    cases aStrict with
    | true => exact List.Pairwise.imp (fun h => Or.inl h) ha
    | false => exact ha
  have hsb : Sorted b := by
    cases bStrict with
    | true => exact List.Pairwise.imp (fun h => Or.inl h) hb
    | false => exact hb
  have hso := commonLoop_sorted (α := List ι) cmpLexsort aStrict bStrict (a.length + b.length) 0 a 0 b
  refine ⟨_, ?_, ?_, ?_, hso.imp fun h => ⟨h.1, h.2.1⟩, fun h => hso.imp fun h' => h'.2.2.1 h,
    fun h => hso.imp fun h' => h'.2.2.2 h⟩
  · unfold iterCommonSorted
    rw [if_neg (by rcases hS with h | h <;> simp [h])]
  · intro i j
    rw [mem_commonLoop cmpLexsort List.reverse aStrict bStrict hS _ 0 a 0 b (Nat.le_refl _)
      (fun x hx y hy => cmpLexsort_spec x y (by rw [hta x hx, htb y hy]))
      (sorted_key hta hsa) (sorted_key htb hsb)
      (fun h => strict_key hta (by rw [h] at ha; exact ha))
      (fun h => strict_key htb (by rw [h] at hb; exact hb))]
    exact match_iff
  · refine hso.imp fun {p q} h hpq => ?_
    subst hpq
    rcases hS with h' | h'
    · exact absurd (h.2.2.2 h') (lt_irrefl _)
    · exact absurd (h.2.2.1 h') (lt_irrefl _)

/-- **C20**: neither table strict: refused with an exception. -/
theorem C20_none_strict (a b : List (List ι)) :
    iterCommonSorted cmpLexsort a b false false = none := rfl

/-- **C20**: for two strictly sorted tables `iter_common_noncommon_sorted` visits every position
of `a` once and in order, every position of `b` once and in order, pairs two positions exactly if
their rows are equal, and leaves a position alone exactly if its row does not occur in the other
table. -/
theorem C20_iter_common_noncommon (n : ℕ) (a b : List (List ι)) (hta : IsTable n a)
    (htb : IsTable n b) (ha : StrictlySorted a) (hb : StrictlySorted b) :
    let res := iterCommonNoncommon cmpLexsort a b
    res.filterMap (·.1) = List.range a.length ∧
    res.filterMap (·.2) = List.range b.length ∧
    (∀ i j, (some i, some j) ∈ res ↔ ∃ r, a[i]? = some r ∧ b[j]? = some r) ∧
    (∀ i, (some i, none) ∈ res ↔ ∃ r, a[i]? = some r ∧ r ∉ b) ∧
    (∀ j, (none, some j) ∈ res ↔ ∃ r, b[j]? = some r ∧ r ∉ a) ∧
    (none, none) ∉ res := by
  intro res
  have h1 : res.filterMap (·.1) = List.range a.length := by
    show (noncommonLoop _ _ _ _ _ _).filterMap _ = _
    rw [noncommonLoop_fst, tailLoop_eq_range', List.range_eq_range']
  have h2 : res.filterMap (·.2) = List.range b.length := by
    show (noncommonLoop _ _ _ _ _ _).filterMap _ = _
    rw [noncommonLoop_snd, tailLoop_eq_range', List.range_eq_range']
  have h3 : ∀ i j, (some i, some j) ∈ res ↔ ∃ r, a[i]? = some r ∧ b[j]? = some r := by
    intro i j
    have := mem_noncommonLoop cmpLexsort List.reverse (a.length + b.length) 0 a 0 b (Nat.le_refl _)
      (fun x hx y hy => cmpLexsort_spec x y (by rw [hta x hx, htb y hy])) (strict_key hta ha)
      (strict_key htb hb) (i, j)
    rw [← match_iff (a := a) (b := b)]
    exact this
  have h0 := noncommonLoop_not_none (cmpLexsort (ι := ι)) (a.length + b.length) 0 a 0 b
  -- two entries with the same first (second) component are equal
  have nodup_of : ∀ (f : Option ℕ × Option ℕ → Option ℕ) (l : List (Option ℕ × Option ℕ))
      (m : ℕ), l.filterMap f = List.range m → ∀ x ∈ l, ∀ y ∈ l, f x ≠ none → f x = f y → x = y := by
    intro f l m hl x hx y hy hxn hxy
    have hnd : (l.filterMap f).Nodup := hl ▸ List.nodup_range
    clear hl
    induction l with
    | nil => simp at hx
    | cons z zs ih =>
      obtain ⟨v, hv⟩ := Option.ne_none_iff_exists'.1 hxn
      have hcons : (z :: zs).filterMap f = (f z).toList ++ zs.filterMap f := by
        cases h : f z <;> simp [h]
      rw [hcons] at hnd
      have hnd' := (List.nodup_append.1 hnd)
      rcases List.mem_cons.1 hx with rfl | hx' <;> rcases List.mem_cons.1 hy with rfl | hy'
      · rfl
      · exact absurd rfl (hnd'.2.2 v (by simp [hv]) v (List.mem_filterMap.2 ⟨y, hy', by rw [← hxy, hv]⟩))
      · exact absurd rfl (hnd'.2.2 v (by simp [← hxy, hv]) v (List.mem_filterMap.2 ⟨x, hx', hv⟩))
      · exact ih hx' hy' hnd'.2.1
  refine ⟨h1, h2, h3, ?_, ?_, h0⟩
  · intro i
    constructor
    · intro hi
      have hia : i < a.length := by
        have : i ∈ res.filterMap (·.1) := List.mem_filterMap.2 ⟨_, hi, rfl⟩
        rw [h1] at this; simpa using this
      refine ⟨a[i], List.getElem?_eq_getElem hia, fun hmem => ?_⟩
      obtain ⟨j, hj, hj'⟩ := List.getElem_of_mem hmem
      have := (h3 i j).2 ⟨a[i], List.getElem?_eq_getElem hia, by rw [List.getElem?_eq_getElem hj, hj']⟩
      have := nodup_of (·.1) res _ h1 _ hi _ this (by simp) rfl
      simp at this
    · rintro ⟨r, hr, hrb⟩
      have hia : i < a.length := (List.getElem?_eq_some_iff.1 hr).1
      have : i ∈ res.filterMap (·.1) := by rw [h1]; simpa using hia
      obtain ⟨⟨e1, e2⟩, he, he1⟩ := List.mem_filterMap.1 this
      simp only at he1
      subst he1
      cases e2 with
      | none => exact he
      | some j =>
        obtain ⟨r', hr', hb'⟩ := (h3 i j).1 he
        rw [hr] at hr'; injection hr' with hr'; subst hr'
        exact absurd (List.mem_of_getElem? hb') hrb
  · intro j
    constructor
    · intro hj
      have hjb : j < b.length := by
        have : j ∈ res.filterMap (·.2) := List.mem_filterMap.2 ⟨_, hj, rfl⟩
        rw [h2] at this; simpa using this
      refine ⟨b[j], List.getElem?_eq_getElem hjb, fun hmem => ?_⟩
      obtain ⟨i, hi, hi'⟩ := List.getElem_of_mem hmem
      have := (h3 i j).2 ⟨b[j], by rw [List.getElem?_eq_getElem hi, hi'], List.getElem?_eq_getElem hjb⟩
      have := nodup_of (·.2) res _ h2 _ hj _ this (by simp) rfl
      simp at this
    · rintro ⟨r, hr, hrb⟩
      have hjb : j < b.length := (List.getElem?_eq_some_iff.1 hr).1
      have : j ∈ res.filterMap (·.2) := by rw [h2]; simpa using hjb
      obtain ⟨⟨e1, e2⟩, he, he1⟩ := List.mem_filterMap.1 this
      simp only at he1
      subst he1
      cases e1 with
      | none => exact he
      | some i =>
        obtain ⟨r', ha', hr'⟩ := (h3 i j).1 he
        rw [hr] at hr'; injection hr' with hr'; subst hr'
        exact absurd (List.mem_of_getElem? ha') hrb

/-- **C20**: `find_row_differences` returns, in increasing order, `0` and exactly the positions
at which the row differs from its predecessor (and the length, if asked for). -/
theorem C20_find_row_differences {α : Type} [DecidableEq α] (rows : List α) (includeLen : Bool) :
    let res := findRowDifferences rows includeLen
    (∀ i, i ∈ res ↔ (i < rows.length ∧ (i = 0 ∨ rows[i - 1]? ≠ rows[i]?)) ∨
      (includeLen = true ∧ i = rows.length)) ∧
    res.Pairwise (· < ·) := by
  cases rows with
  | nil => cases includeLen <;> simp [findRowDifferences]
  | cons x xs =>
    simp only [findRowDifferences]
    constructor
    · intro i
      have key : i ∈ diffLoop 1 x xs ↔ i ≠ 0 ∧ i < xs.length + 1 ∧
          (x :: xs)[i - 1]? ≠ (x :: xs)[i]? := by
        rw [mem_diffLoop]
        constructor
        · rintro ⟨m, rfl, h1, h2⟩
          refine ⟨by omega, by omega, ?_⟩
          rw [show 1 + m - 1 = m by omega, show 1 + m = m + 1 by omega]; exact h2
        · rintro ⟨h0, h1, h2⟩
          refine ⟨i - 1, by omega, by omega, ?_⟩
          rw [show i - 1 + 1 = i by omega]; exact h2
      rw [List.cons_append, List.mem_cons, List.mem_append, key]
      cases includeLen
      · simp
        by_cases h : i = 0 <;> simp [h]
      · simp
        by_cases h : i = 0 <;> simp [h]
    · rw [List.cons_append]
      refine List.pairwise_cons.2 ⟨?_, ?_⟩
      · intro k hk
        rcases List.mem_append.1 hk with hk | hk
        · obtain ⟨m, hm, -⟩ := mem_diffLoop.1 hk; omega
        · cases includeLen <;> simp at hk; omega
      · rw [List.pairwise_append]
        refine ⟨diffLoop_sorted _ _ _, by cases includeLen <;> simp, ?_⟩
        intro k hk l hl
        obtain ⟨m, hm, hm', -⟩ := mem_diffLoop.1 hk
        cases includeLen <;> simp at hl
        omega

-- the hypotheses are met by non-trivial tables (the last column is the primary key)
example : StrictlySorted ([[5, 0], [0, 1], [3, 1]] : List (List ℤ)) := by
  unfold StrictlySorted
  have h : ∀ r ∈ ([[5, 0], [0, 1], [3, 1]] : List (List ℤ)), r.length = 2 := by simp
  have := (List.Pairwise.imp_of_mem (R := fun r s : List ℤ => cmpLexsort r s = .lt) (S := RowLt)
    (l := [[5, 0], [0, 1], [3, 1]])
    (fun {r s} hr hs hlt => (C20_cmp_lexsort r s (by rw [h r hr, h s hs])).1.1 hlt) (by decide))
  exact this
example : iterCommonSorted cmpLexsort ([[5, 0], [0, 1], [3, 1]] : List (List ℤ))
    [[0, 0], [5, 0], [3, 1]] true true = some [(0, 1), (2, 2)] := by decide
example : iterCommonSorted cmpLexsort ([[5], [5], [7]] : List (List ℤ))
    [[4], [5], [7]] false true = some [(0, 1), (1, 1), (2, 2)] := by decide
example : iterCommonNoncommon cmpLexsort ([[5, 0], [0, 1], [3, 1]] : List (List ℤ))
    [[0, 0], [5, 0], [3, 1]] =
    [(none, some 0), (some 0, some 1), (some 1, none), (some 2, some 2)] := by decide

end Cyten.Props
