import Verif.Model.Spaces
import Mathlib.Data.List.Sort
import Mathlib.Data.List.Perm.Basic

/-! Auxiliary lemmas on sorting, run detection and slices for the space model. -/

namespace Cyten.Spaces
open Cyten.Tables Cyten.Tools

/-! ## Stable sorting -/

section Sorting
variable {S : Type} [LinearOrder S] {β : Type}

/-- strict lexicographic order on (key, position) -/
def keyLt (p q : S × ℕ) : Prop := p.1 < q.1 ∨ (p.1 = q.1 ∧ p.2 < q.2)

theorem pairwise_orderedInsert_key (a : S × ℕ) (t : List (S × ℕ)) (ht : t.Pairwise keyLt)
    (ha : ∀ x ∈ t, a.2 < x.2) :
    (t.orderedInsert (fun p q => p.1 ≤ q.1) a).Pairwise keyLt := by
  induction t with
  | nil => simp
  | cons b t ih =>
    rw [List.orderedInsert]
    have htb := List.pairwise_cons.1 ht
    split_ifs with hab
    · refine List.pairwise_cons.2 ⟨?_, ht⟩
      intro x hx
      rcases List.mem_cons.1 hx with rfl | hx'
      · rcases hab.lt_or_eq with h | h
        · exact Or.inl h
        · exact Or.inr ⟨h, ha _ List.mem_cons_self⟩
      · have h1 := htb.1 x hx'
        have h2 := ha x hx
        rcases h1 with h1 | ⟨h1, -⟩
        · exact Or.inl (lt_of_le_of_lt hab h1)
        · rcases hab.lt_or_eq with h | h
          · exact Or.inl (h1 ▸ h)
          · exact Or.inr ⟨h.trans h1, h2⟩
    · refine List.pairwise_cons.2 ⟨?_, ih htb.2 (fun x hx => ha x (List.mem_cons_of_mem _ hx))⟩
      intro x hx
      rcases List.mem_cons.1 ((List.perm_orderedInsert _ a t).mem_iff.1 hx) with rfl | hx'
      · exact Or.inl (not_le.1 hab)
      · exact htb.1 x hx'

theorem pairwise_insertionSort_key (l : List (S × ℕ)) (h : l.Pairwise fun p q => p.2 < q.2) :
    (l.insertionSort fun p q => p.1 ≤ q.1).Pairwise keyLt := by
  induction l with
  | nil => simp
  | cons a l ih =>
    have hc := List.pairwise_cons.1 h
    rw [List.insertionSort_cons]
    exact pairwise_orderedInsert_key a _ (ih hc.2)
      (fun x hx => hc.1 x ((List.perm_insertionSort _ l).mem_iff.1 hx))

theorem mem_zipIdx' {α : Type} {l : List α} {p : α × ℕ} (h : p ∈ l.zipIdx) : l[p.2]? = some p.1 := by
  have := List.mem_zipIdx_iff_getElem?.1 (show (p.1, p.2) ∈ l.zipIdx from h)
  exact this

theorem zipIdx_pairwise_snd {α : Type} (l : List α) (n : ℕ) :
    (l.zipIdx n).Pairwise fun p q => p.2 < q.2 := by
  induction l generalizing n with
  | nil => simp
  | cons a l ih =>
    rw [List.zipIdx_cons]
    refine List.pairwise_cons.2 ⟨?_, ih (n + 1)⟩
    intro x hx
    have := List.le_snd_of_mem_zipIdx hx
    simp only
    omega

theorem lexsortIndices_perm (l : List S) : (lexsortIndices l).Perm (List.range l.length) := by
  unfold lexsortIndices
  have h := (List.perm_insertionSort (fun p q : S × ℕ => p.1 ≤ q.1) l.zipIdx).map Prod.snd
  rwa [List.zipIdx_map_snd, ← List.range_eq_range'] at h

/-- `lexsort_indices` is a stable argsort. -/
theorem lexsortIndices_stable (l : List S) :
    (lexsortIndices l).Pairwise fun i j => ∀ x y, l[i]? = some x → l[j]? = some y →
      x < y ∨ (x = y ∧ i < j) := by
  unfold lexsortIndices
  rw [List.pairwise_map]
  have h := pairwise_insertionSort_key l.zipIdx (zipIdx_pairwise_snd l 0)
  have hm : ∀ p ∈ (l.zipIdx.insertionSort fun p q => p.1 ≤ q.1), l[p.2]? = some p.1 :=
    fun p hp => mem_zipIdx' ((List.perm_insertionSort _ _).mem_iff.1 hp)
  refine List.Pairwise.imp_of_mem ?_ h
  intro p q hp hq hpq x y hx hy
  rw [hm p hp] at hx
  rw [hm q hq] at hy
  cases hx; cases hy
  exact hpq

theorem gather_map_snd (es : List β) (L : List (β × ℕ)) (h : ∀ p ∈ L, es[p.2]? = some p.1) :
    gather es (L.map Prod.snd) = L.map Prod.fst := by
  induction L with
  | nil => rfl
  | cons p L ih =>
    simp only [gather, List.map_cons, List.filterMap_cons, h p List.mem_cons_self]
    exact congrArg _ (ih fun q hq => h q (List.mem_cons_of_mem _ hq))

/-- Gathering by the sorting permutation of the keys is a stable sort by the key. -/
theorem gather_lexsort (key : β → S) (es : List β) :
    gather es (lexsortIndices (es.map key)) = es.insertionSort fun a b => key a ≤ key b := by
  have h1 : lexsortIndices (es.map key) =
      (es.zipIdx.insertionSort fun p q => key p.1 ≤ key q.1).map Prod.snd := by
    unfold lexsortIndices
    rw [List.zipIdx_map, ← List.map_insertionSort (r := fun p q : β × ℕ => key p.1 ≤ key q.1)
      (s := fun p q : S × ℕ => p.1 ≤ q.1) (Prod.map key id) es.zipIdx (by
        intro a _ b _; simp [Prod.map]), List.map_map]
    rfl
  rw [h1, gather_map_snd]
  · rw [List.map_insertionSort (r := fun p q : β × ℕ => key p.1 ≤ key q.1)
      (s := fun a b : β => key a ≤ key b) Prod.fst es.zipIdx (by intro a _ b _; simp),
      List.zipIdx_map_fst]
  · intro p hp
    exact mem_zipIdx' ((List.perm_insertionSort _ _).mem_iff.1 hp)

theorem gather_map {γ : Type} (f : β → γ) (l : List β) (idx : List ℕ) :
    gather (l.map f) idx = (gather l idx).map f := by
  unfold gather
  rw [List.map_filterMap]
  congr 1
  funext i
  simp

/-- entries sorted by key -/
def sortBy (key : β → S) (es : List β) : List β := es.insertionSort fun a b => key a ≤ key b

theorem sortBy_perm (key : β → S) (es : List β) : (sortBy key es).Perm es :=
  List.perm_insertionSort _ es

theorem sortBy_sorted (key : β → S) (es : List β) :
    (sortBy key es).Pairwise fun a b => key a ≤ key b := by
  have : Std.Total (fun a b : β => key a ≤ key b) := ⟨fun a b => le_total _ _⟩
  have : IsTrans β (fun a b : β => key a ≤ key b) := ⟨fun a b c => le_trans⟩
  exact List.pairwise_insertionSort _ es

theorem sortSectors_map (es : List β) (key : β → S) (m : β → ℕ) :
    sortSectors (es.map key) (es.map m) =
      ((sortBy key es).map key, (sortBy key es).map m, lexsortIndices (es.map key)) := by
  unfold sortSectors
  simp only [gather_map, gather_lexsort]
  rfl

theorem gather_idx_flatMap {γ : Type} (es : List β) (f : β → List γ) (idx : List ℕ)
    (g : ℕ → List γ) (hg : ∀ i e, es[i]? = some e → g i = f e) (hi : ∀ i ∈ idx, i < es.length) :
    idx.flatMap g = (gather es idx).flatMap f := by
  induction idx with
  | nil => rfl
  | cons i idx ih =>
    have h1 := hi i List.mem_cons_self
    have h2 : es[i]? = some es[i] := List.getElem?_eq_getElem h1
    simp only [gather, List.filterMap_cons, h2, List.flatMap_cons, hg i _ h2]
    exact congrArg _ (ih fun j hj => hi j (List.mem_cons_of_mem _ hj))

end Sorting

/-! ## Runs of equal keys -/

section Runs
variable {S : Type} [DecidableEq S] {β : Type}

/-- maximal runs of consecutive items of equal key -/
def runsOf (key : β → S) : List β → List (List β)
  | [] => []
  | x :: l =>
    match runsOf key l with
    | (y :: g) :: r => if key x = key y then (x :: y :: g) :: r else [x] :: (y :: g) :: r
    | r => [x] :: r

theorem runsOf_ne_nil (key : β → S) (l : List β) : ∀ g ∈ runsOf key l, g ≠ [] := by
  induction l with
  | nil => simp [runsOf]
  | cons x l ih =>
    intro g hg
    rw [runsOf] at hg
    split at hg
    · rename_i y g' r heq
      rw [heq] at ih
      split_ifs at hg
      · rcases List.mem_cons.1 hg with rfl | hg
        · simp
        · exact ih g (List.mem_cons_of_mem _ hg)
      · rcases List.mem_cons.1 hg with rfl | hg
        · simp
        · exact ih g hg
    · rcases List.mem_cons.1 hg with rfl | hg
      · simp
      · exact ih g hg

theorem runsOf_flatten (key : β → S) (l : List β) : (runsOf key l).flatten = l := by
  induction l with
  | nil => rfl
  | cons x l ih =>
    rw [runsOf]
    split
    · rename_i y g r heq
      rw [heq] at ih
      split_ifs <;> simpa using ih
    · simpa using ih

theorem runsOf_key (key : β → S) (l : List β) :
    ∀ g ∈ runsOf key l, ∀ a ∈ g, ∀ b ∈ g, key a = key b := by
  induction l with
  | nil => simp [runsOf]
  | cons x l ih =>
    intro g hg
    rw [runsOf] at hg
    split at hg
    · rename_i y g' r heq
      rw [heq] at ih
      split_ifs at hg with hxy
      · rcases List.mem_cons.1 hg with rfl | hg
        · have h0 := ih (y :: g') List.mem_cons_self
          intro a ha b hb
          have e : ∀ c ∈ x :: y :: g', key c = key y := by
            intro c hc
            rcases List.mem_cons.1 hc with rfl | hc
            · exact hxy
            · exact h0 c hc y List.mem_cons_self
          rw [e a ha, e b hb]
        · exact ih g (List.mem_cons_of_mem _ hg)
      · rcases List.mem_cons.1 hg with rfl | hg
        · intro a ha b hb
          simp at ha hb; rw [ha, hb]
        · exact ih g hg
    · rcases List.mem_cons.1 hg with rfl | hg
      · intro a ha b hb
        simp at ha hb; rw [ha, hb]
      · exact ih g hg

/-- the boundaries behind the first one -/
def restDiffs (x : S) (l : List S) : List ℕ := diffLoop 1 x l ++ [l.length + 1]

theorem diffLoop_succ (i : ℕ) (x : S) (l : List S) :
    diffLoop (i + 1) x l = (diffLoop i x l).map (· + 1) := by
  induction l generalizing i x with
  | nil => rfl
  | cons y l ih =>
    simp only [diffLoop]
    split_ifs <;> simp [ih]

theorem findRowDifferences_cons (x : S) (l : List S) :
    findRowDifferences (x :: l) true = 0 :: restDiffs x l := by
  simp [findRowDifferences, restDiffs]

theorem restDiffs_cons (x y : S) (l : List S) :
    restDiffs x (y :: l) = if x = y then (restDiffs y l).map (· + 1)
      else 1 :: (restDiffs y l).map (· + 1) := by
  unfold restDiffs
  simp only [diffLoop, diffLoop_succ 1]
  by_cases h : x = y
  · simp [h]
  · simp [h]

theorem consecutive_map_succ (l : List ℕ) :
    consecutive (l.map (· + 1)) = (consecutive l).map fun r => (r.1 + 1, r.2 + 1) := by
  unfold consecutive
  rw [← List.map_tail, List.zip_map]
  rfl

theorem consecutive_cons_cons (a b : ℕ) (l : List ℕ) :
    consecutive (a :: b :: l) = (a, b) :: consecutive (b :: l) := by
  simp [consecutive]

theorem slice_succ {α : Type} (x : α) (l : List α) (a b : ℕ) :
    slice (x :: l) (a + 1) (b + 1) = slice l a b := by
  simp [slice]

theorem slice_zero_succ {α : Type} (x : α) (l : List α) (b : ℕ) :
    slice (x :: l) 0 (b + 1) = x :: slice l 0 b := by
  simp [slice]

theorem restDiffs_exists (x : S) (l : List S) : ∃ d ds, restDiffs x l = (d + 1) :: ds := by
  induction l generalizing x with
  | nil => exact ⟨0, [], rfl⟩
  | cons y l ih =>
    obtain ⟨d, ds, h⟩ := ih y
    rw [restDiffs_cons, h]
    split_ifs
    · exact ⟨d + 1, _, rfl⟩
    · exact ⟨0, _, rfl⟩

/-- The slices between the row differences are the runs. -/
theorem slices_eq_runs (key : β → S) (l : List β) :
    (consecutive (findRowDifferences (l.map key) true)).map (fun r => slice l r.1 r.2) =
      runsOf key l := by
  induction l with
  | nil => rfl
  | cons x l ih =>
    cases l with
    | nil => simp [findRowDifferences_cons, restDiffs, diffLoop, consecutive, slice, runsOf]
    | cons y l =>
      rw [List.map_cons, findRowDifferences_cons] at ih ⊢
      rw [List.map_cons, restDiffs_cons]
      obtain ⟨d, ds, hd⟩ := restDiffs_exists (key y) (l.map key)
      rw [hd] at ih ⊢
      rw [consecutive_cons_cons, List.map_cons, slice_zero_succ] at ih
      rw [runsOf, ← ih]
      have hs : ∀ rs : List (ℕ × ℕ), (rs.map fun r => (r.1 + 1, r.2 + 1)).map
          (fun r => slice (x :: y :: l) r.1 r.2) = rs.map fun r => slice (y :: l) r.1 r.2 := by
        intro rs
        rw [List.map_map]
        apply List.map_congr_left
        intro r _
        exact slice_succ _ _ _ _
      split_ifs with h
      · simp only [List.map_cons]
        rw [consecutive_cons_cons, List.map_cons, slice_zero_succ, slice_zero_succ,
          ← List.map_cons (f := (· + 1)), consecutive_map_succ, hs]
        simp only [if_pos h]
      · rw [show (1 :: ((d + 1) :: ds).map (· + 1)) = (0 :: (d + 1) :: ds).map (· + 1) from rfl,
          List.map_cons (a := 0), consecutive_cons_cons, List.map_cons, slice_zero_succ,
          ← List.map_cons (f := (· + 1)),
          consecutive_map_succ, hs, consecutive_cons_cons, List.map_cons, slice_zero_succ]
        simp only [if_neg h]
        rfl

theorem consecutive_range (l : List β) (key : β → S) :
    ∀ r ∈ consecutive (findRowDifferences (l.map key) true), r.1 < r.2 ∧ r.2 ≤ l.length := by
  induction l with
  | nil => intro r hr; simp [findRowDifferences, consecutive] at hr
  | cons x l ih =>
    cases l with
    | nil =>
      intro r hr
      simp [findRowDifferences_cons, restDiffs, diffLoop, consecutive] at hr
      subst hr; simp
    | cons y l =>
      intro r hr
      rw [List.map_cons, findRowDifferences_cons] at ih hr
      rw [List.map_cons, restDiffs_cons] at hr
      obtain ⟨d, ds, hd⟩ := restDiffs_exists (key y) (l.map key)
      rw [hd] at ih hr
      rw [consecutive_cons_cons] at ih
      have h0 := ih (0, d + 1) List.mem_cons_self
      simp only [List.length_cons] at h0 ⊢
      split_ifs at hr with h
      · simp only [List.map_cons] at hr
        rw [consecutive_cons_cons] at hr
        rcases List.mem_cons.1 hr with rfl | hr
        · simp only; omega
        · rw [← List.map_cons (f := (· + 1)), consecutive_map_succ] at hr
          obtain ⟨q, hq, rfl⟩ := List.mem_map.1 hr
          have := ih q (List.mem_cons_of_mem _ hq)
          simp only [List.length_cons] at this ⊢
          omega
      · rw [consecutive_cons_cons] at hr
        rcases List.mem_cons.1 hr with rfl | hr
        · simp
        · rw [show (1 :: ((d + 1) :: ds).map (· + 1)) = (0 :: (d + 1) :: ds).map (· + 1) from rfl,
            consecutive_map_succ, consecutive_cons_cons] at hr
          obtain ⟨q, hq, rfl⟩ := List.mem_map.1 hr
          have := ih q hq
          simp only [List.length_cons] at this ⊢
          omega

theorem head_slice (l : List β) (r : ℕ × ℕ) (h : r.1 < r.2) (_h2 : r.2 ≤ l.length) :
    (slice l r.1 r.2).head? = l[r.1]? := by
  unfold slice
  rw [List.head?_take, if_neg (by omega), List.head?_drop]

theorem length_slice {α : Type} (l : List α) (a b : ℕ) (h : b ≤ l.length) :
    (slice l a b).length = b - a := by
  unfold slice; simp; omega

theorem slice_map {α γ : Type} (f : α → γ) (l : List α) (a b : ℕ) :
    slice (l.map f) a b = (slice l a b).map f := by
  simp [slice, List.map_take, List.map_drop]

theorem runsOf_heads (key : β → S) (l : List β) :
    (consecutive (findRowDifferences (l.map key) true)).filterMap (fun r => (l.map key)[r.1]?) =
      (runsOf key l).filterMap fun g => g.head?.map key := by
  rw [← slices_eq_runs key l, List.filterMap_map]
  apply List.filterMap_congr
  intro r hr
  have := consecutive_range l key r hr
  simp only [Function.comp_apply, head_slice l r this.1 this.2, List.getElem?_map]

theorem mergeRuns_eq {S : Type} [LinearOrder S] (key : β → S) (m : β → ℕ) (l : List β) :
    mergeRuns (l.map key) (l.map m) =
      ((runsOf key l).filterMap (fun g => g.head?.map key),
        (runsOf key l).map fun g => (g.map m).sum) := by
  unfold mergeRuns
  simp only
  rw [runsOf_heads]
  congr 1
  rw [← slices_eq_runs key l, List.map_map]
  apply List.map_congr_left
  intro r _
  simp only [Function.comp_apply, slice_map]

/-- A sorted list has strictly increasing run keys. -/
theorem runsOf_sorted {S : Type} [LinearOrder S] (key : β → S) (l : List β)
    (h : l.Pairwise fun a b => key a ≤ key b) :
    (runsOf key l).Pairwise fun g g' => ∀ a ∈ g, ∀ b ∈ g', key a < key b := by
  induction l with
  | nil => exact List.Pairwise.nil
  | cons x l ih =>
    have hc := List.pairwise_cons.1 h
    have hi := ih hc.2
    have hfl := runsOf_flatten key l
    have hk := runsOf_key key l
    rw [runsOf]
    split
    · rename_i y g r heq
      rw [heq] at hi hfl hk
      have hic := List.pairwise_cons.1 hi
      split_ifs with hxy
      · refine List.pairwise_cons.2 ⟨?_, hic.2⟩
        intro g' hg' a ha b hb
        rcases List.mem_cons.1 ha with rfl | ha
        · rw [hxy]; exact hic.1 g' hg' y List.mem_cons_self b hb
        · exact hic.1 g' hg' a ha b hb
      · refine List.pairwise_cons.2 ⟨?_, hi⟩
        intro g' hg' a ha b hb
        rw [List.mem_singleton.1 ha]
        have hy : key x < key y := lt_of_le_of_ne (hc.1 y (by rw [← hfl]; simp)) hxy
        rcases List.mem_cons.1 hg' with rfl | hg'
        · rw [hk _ List.mem_cons_self b hb y List.mem_cons_self]; exact hy
        · exact hy.trans (hic.1 g' hg' y List.mem_cons_self b hb)
    · rename_i r hno
      have : runsOf key l = [] := by
        cases hr : runsOf key l with
        | nil => rfl
        | cons g r =>
          cases g with
          | nil => exact absurd rfl (runsOf_ne_nil key l [] (by rw [hr]; exact List.mem_cons_self))
          | cons y g => exact absurd hr (hno y g r)
      rw [this]
      simp

end Runs

end Cyten.Spaces
