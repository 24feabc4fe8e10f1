import Verif.Lemmas.Tables
import Mathlib.Algebra.BigOperators.Group.List.Lemmas
import Mathlib.Data.List.Sort
import Mathlib.Tactic.Abel

/-! # The merge iterations as joins of sorted lists -/

namespace Cyten.Tables

variable {α β δ κ : Type}

/-- Structural version of `iter_common_noncommon_sorted` with lookups. -/
def join (cmp : κ → κ → Ordering) (ka : α → κ) (kb : β → κ) (fa : α → δ) (fb : β → δ)
    (fab : α → β → δ) : ℕ → List α → List β → List δ
  | fuel + 1, x :: xs, y :: ys =>
    match cmp (ka x) (kb y) with
    | .lt => fa x :: join cmp ka kb fa fb fab fuel xs (y :: ys)
    | .gt => fb y :: join cmp ka kb fa fb fab fuel (x :: xs) ys
    | .eq => fab x y :: join cmp ka kb fa fb fab fuel xs ys
  | _, xs, ys => xs.map fa ++ ys.map fb

theorem filterMap_range'_drop (A : List α) (G : ℕ → Option δ) (f : α → δ)
    (h : ∀ (i : ℕ) x, A[i]? = some x → G i = some (f x)) (i : ℕ) :
    (List.range' i (A.drop i).length).filterMap G = (A.drop i).map f := by
  induction hn : (A.drop i).length generalizing i with
  | zero => simp [List.length_eq_zero_iff.1 hn]
  | succ n ih =>
    have hi : i < A.length := by
      rw [List.length_drop] at hn; omega
    have hd := List.drop_eq_getElem_cons hi
    rw [hd] at hn ⊢
    rw [List.range'_succ, List.filterMap_cons, h i _ (List.getElem?_eq_getElem hi), List.map_cons]
    have := ih (i + 1) (by
      rw [List.length_cons, List.length_drop] at hn; rw [List.length_drop]; omega)
    simp only
    rw [← this]

theorem filterMap_noncommonLoop (cmp : κ → κ → Ordering) (ka : α → κ) (kb : β → κ) (fa : α → δ)
    (fb : β → δ) (fab : α → β → δ) (A : List α) (B : List β)
    (F : Option ℕ × Option ℕ → Option δ)
    (h1 : ∀ (i : ℕ) x, A[i]? = some x → F (some i, none) = some (fa x))
    (h2 : ∀ (j : ℕ) y, B[j]? = some y → F (none, some j) = some (fb y))
    (h3 : ∀ (i j : ℕ) x y, A[i]? = some x → B[j]? = some y → F (some i, some j) = some (fab x y))
    (fuel i j : ℕ) :
    (noncommonLoop cmp fuel i ((A.drop i).map ka) j ((B.drop j).map kb)).filterMap F =
      join cmp ka kb fa fb fab fuel (A.drop i) (B.drop j) := by
  have htail : ∀ i j : ℕ, List.filterMap F
      (((tailLoop i ((A.drop i).map ka)).map fun i => (some i, none)) ++
        (tailLoop j ((B.drop j).map kb)).map fun j => (none, some j)) =
      (A.drop i).map fa ++ (B.drop j).map fb := by
    intro i j
    rw [List.filterMap_append, List.filterMap_map, List.filterMap_map, tailLoop_eq_range',
      tailLoop_eq_range', List.length_map, List.length_map]
    congr 1
    · exact filterMap_range'_drop A _ fa (fun i x hx => h1 i x hx) i
    · exact filterMap_range'_drop B _ fb (fun i x hx => h2 i x hx) j
  induction fuel generalizing i j with
  | zero => exact htail i j
  | succ fuel ih =>
    have hT := htail i j
    cases hA : A.drop i with
    | nil =>
      rw [hA] at hT
      exact hT
    | cons x xs =>
      cases hB : B.drop j with
      | nil =>
        rw [hA, hB] at hT
        exact hT
      | cons y ys =>
        have hx : A[i]? = some x := by
          have := congrArg (·[0]?) hA; simpa using this
        have hy : B[j]? = some y := by
          have := congrArg (·[0]?) hB; simpa using this
        have hA' : A.drop (i + 1) = xs := by
          have := congrArg List.tail hA; simpa [List.tail_drop] using this
        have hB' : B.drop (j + 1) = ys := by
          have := congrArg List.tail hB; simpa [List.tail_drop] using this
        simp only [List.map_cons, noncommonLoop, join]
        rcases hc : cmp (ka x) (kb y) with _ | _ | _
        · simp only [List.filterMap_cons, h1 i x hx]
          have := ih (i + 1) j
          rw [hA', hB, List.map_cons] at this
          rw [this]
        · simp only [List.filterMap_cons, h3 i j x y hx hy]
          have := ih (i + 1) (j + 1)
          rw [hA', hB'] at this
          rw [this]
        · simp only [List.filterMap_cons, h2 j y hy]
          have := ih i (j + 1)
          rw [hA, hB', List.map_cons] at this
          rw [this]

/-- Structural version of `iter_common_sorted` (both strict) with lookups. -/
def joinCommon (cmp : κ → κ → Ordering) (ka : α → κ) (kb : β → κ) (fab : α → β → δ) :
    ℕ → List α → List β → List δ
  | fuel + 1, x :: xs, y :: ys =>
    match cmp (ka x) (kb y) with
    | .lt => joinCommon cmp ka kb fab fuel xs (y :: ys)
    | .gt => joinCommon cmp ka kb fab fuel (x :: xs) ys
    | .eq => fab x y :: joinCommon cmp ka kb fab fuel xs ys
  | _, _, _ => []

theorem filterMap_commonLoop (cmp : κ → κ → Ordering) (ka : α → κ) (kb : β → κ)
    (fab : α → β → δ) (A : List α) (B : List β) (F : ℕ × ℕ → Option δ)
    (h3 : ∀ (i j : ℕ) x y, A[i]? = some x → B[j]? = some y → F (i, j) = some (fab x y))
    (fuel i j : ℕ) :
    (commonLoop cmp true true fuel i ((A.drop i).map ka) j ((B.drop j).map kb)).filterMap F =
      joinCommon cmp ka kb fab fuel (A.drop i) (B.drop j) := by
  induction fuel generalizing i j with
  | zero => rfl
  | succ fuel ih =>
    cases hA : A.drop i with
    | nil => simp [commonLoop, joinCommon]
    | cons x xs =>
      cases hB : B.drop j with
      | nil => simp [commonLoop, joinCommon]
      | cons y ys =>
        have hx : A[i]? = some x := by
          have := congrArg (·[0]?) hA; simpa using this
        have hy : B[j]? = some y := by
          have := congrArg (·[0]?) hB; simpa using this
        have hA' : A.drop (i + 1) = xs := by
          have := congrArg List.tail hA; simpa [List.tail_drop] using this
        have hB' : B.drop (j + 1) = ys := by
          have := congrArg List.tail hB; simpa [List.tail_drop] using this
        simp only [List.map_cons, commonLoop, joinCommon]
        rcases hc : cmp (ka x) (kb y) with _ | _ | _
        · have := ih (i + 1) j
          rw [hA', hB, List.map_cons] at this
          simp only
          rw [this]
        · simp only [if_true, List.filterMap_cons, h3 i j x y hx hy]
          have := ih (i + 1) (j + 1)
          rw [hA', hB'] at this
          rw [this]
        · have := ih i (j + 1)
          rw [hA, hB', List.map_cons] at this
          simp only
          rw [this]

section Props
variable {γ : Type} [LinearOrder γ]

/-- `fa`, `fb`, `fab` keep the key -/
theorem mem_join {cmp : κ → κ → Ordering} {ka : α → κ} {kb : β → κ} {fa : α → δ} {fb : β → δ}
    {fab : α → β → δ} {fuel : ℕ} {xs : List α} {ys : List β} {d : δ}
    (h : d ∈ join cmp ka kb fa fb fab fuel xs ys) :
    (∃ x ∈ xs, d = fa x) ∨ (∃ y ∈ ys, d = fb y) ∨
      ∃ x ∈ xs, ∃ y ∈ ys, cmp (ka x) (kb y) = .eq ∧ d = fab x y := by
  induction fuel generalizing xs ys with
  | zero =>
    simp only [join, List.mem_append, List.mem_map] at h
    rcases h with ⟨x, hx, rfl⟩ | ⟨y, hy, rfl⟩
    · exact Or.inl ⟨x, hx, rfl⟩
    · exact Or.inr (Or.inl ⟨y, hy, rfl⟩)
  | succ fuel ih =>
    cases xs with
    | nil =>
      simp only [join, List.map_nil, List.nil_append, List.mem_map] at h
      obtain ⟨y, hy, rfl⟩ := h
      exact Or.inr (Or.inl ⟨y, hy, rfl⟩)
    | cons x xs =>
      cases ys with
      | nil =>
        simp only [join, List.map_nil, List.append_nil, List.mem_map] at h
        obtain ⟨y, hy, rfl⟩ := h
        exact Or.inl ⟨y, hy, rfl⟩
      | cons y ys =>
        simp only [join] at h
        rcases hc : cmp (ka x) (kb y) with _ | _ | _ <;> rw [hc] at h <;>
          rcases List.mem_cons.1 h with rfl | h
        · exact Or.inl ⟨x, List.mem_cons_self, rfl⟩
        · rcases ih h with ⟨x', hx, rfl⟩ | ⟨y', hy, rfl⟩ | ⟨x', hx, y', hy, he, rfl⟩
          · exact Or.inl ⟨x', List.mem_cons_of_mem _ hx, rfl⟩
          · exact Or.inr (Or.inl ⟨y', hy, rfl⟩)
          · exact Or.inr (Or.inr ⟨x', List.mem_cons_of_mem _ hx, y', hy, he, rfl⟩)
        · exact Or.inr (Or.inr ⟨x, List.mem_cons_self, y, List.mem_cons_self, hc, rfl⟩)
        · rcases ih h with ⟨x', hx, rfl⟩ | ⟨y', hy, rfl⟩ | ⟨x', hx, y', hy, he, rfl⟩
          · exact Or.inl ⟨x', List.mem_cons_of_mem _ hx, rfl⟩
          · exact Or.inr (Or.inl ⟨y', List.mem_cons_of_mem _ hy, rfl⟩)
          · exact Or.inr (Or.inr ⟨x', List.mem_cons_of_mem _ hx, y', List.mem_cons_of_mem _ hy,
              he, rfl⟩)
        · exact Or.inr (Or.inl ⟨y, List.mem_cons_self, rfl⟩)
        · rcases ih h with ⟨x', hx, rfl⟩ | ⟨y', hy, rfl⟩ | ⟨x', hx, y', hy, he, rfl⟩
          · exact Or.inl ⟨x', hx, rfl⟩
          · exact Or.inr (Or.inl ⟨y', List.mem_cons_of_mem _ hy, rfl⟩)
          · exact Or.inr (Or.inr ⟨x', hx, y', List.mem_cons_of_mem _ hy, he, rfl⟩)

theorem join_sorted (cmp : κ → κ → Ordering) (key : κ → γ) (ka : α → κ) (kb : β → κ)
    (fa : α → δ) (fb : β → δ) (fab : α → β → δ) (kd : δ → κ) (ha : ∀ x, kd (fa x) = ka x)
    (hb : ∀ y, kd (fb y) = kb y) (hab : ∀ x y, kd (fab x y) = ka x) (fuel : ℕ) (xs : List α)
    (ys : List β) (hf : xs.length + ys.length ≤ fuel)
    (hc : ∀ x ∈ xs, ∀ y ∈ ys, CmpKey cmp key (ka x) (kb y))
    (hx : xs.Pairwise fun x y => key (ka x) < key (ka y))
    (hy : ys.Pairwise fun x y => key (kb x) < key (kb y)) :
    (join cmp ka kb fa fb fab fuel xs ys).Pairwise fun d e => key (kd d) < key (kd e) := by
  induction fuel generalizing xs ys with
  | zero =>
    have h1 : xs = [] := List.length_eq_zero_iff.1 (by omega)
    have h2 : ys = [] := List.length_eq_zero_iff.1 (by omega)
    subst h1; subst h2; simp [join]
  | succ fuel ih =>
    cases xs with
    | nil =>
      simp only [join, List.map_nil, List.nil_append, List.pairwise_map, hb]
      exact hy
    | cons x xs =>
      cases ys with
      | nil =>
        simp only [join, List.map_nil, List.append_nil, List.pairwise_map, ha]
        exact hx
      | cons y ys =>
        have hcxy := hc x List.mem_cons_self y List.mem_cons_self
        have hx1 := List.pairwise_cons.1 hx
        have hy1 := List.pairwise_cons.1 hy
        simp only [List.length_cons] at hf
        simp only [join]
        rcases hcmp : cmp (ka x) (kb y) with _ | _ | _
        · have hlt := hcxy.lt.1 hcmp
          refine List.pairwise_cons.2 ⟨fun d hd => ?_, ih xs (y :: ys) (by simp; omega)
            (fun x' hx' => hc x' (List.mem_cons_of_mem _ hx')) hx1.2 hy⟩
          rw [ha]
          have hy' : ∀ z ∈ y :: ys, key (ka x) < key (kb z) := by
            intro z hz
            rcases List.mem_cons.1 hz with rfl | hz
            · exact hlt
            · exact lt_trans hlt (hy1.1 z hz)
          rcases mem_join hd with ⟨x', hx', rfl⟩ | ⟨z, hz, rfl⟩ | ⟨x', hx', z, hz, -, rfl⟩
          · rw [ha]; exact hx1.1 x' hx'
          · rw [hb]; exact hy' z hz
          · rw [hab]; exact hx1.1 x' hx'
        · have heq := hcxy.eq.1 hcmp
          refine List.pairwise_cons.2 ⟨fun d hd => ?_, ih xs ys (by omega)
            (fun x' hx' y' hy' => hc x' (List.mem_cons_of_mem _ hx') y'
              (List.mem_cons_of_mem _ hy')) hx1.2 hy1.2⟩
          rw [hab]
          rcases mem_join hd with ⟨x', hx', rfl⟩ | ⟨z, hz, rfl⟩ | ⟨x', hx', z, hz, -, rfl⟩
          · rw [ha]; exact hx1.1 x' hx'
          · rw [hb, heq]; exact hy1.1 z hz
          · rw [hab]; exact hx1.1 x' hx'
        · have hlt := hcxy.gt.1 hcmp
          refine List.pairwise_cons.2 ⟨fun d hd => ?_, ih (x :: xs) ys (by simp; omega)
            (fun x' hx' y' hy' => hc x' hx' y' (List.mem_cons_of_mem _ hy')) hx hy1.2⟩
          rw [hb]
          have hx' : ∀ z ∈ x :: xs, key (kb y) < key (ka z) := by
            intro z hz
            rcases List.mem_cons.1 hz with rfl | hz
            · exact hlt
            · exact lt_trans hlt (hx1.1 z hz)
          rcases mem_join hd with ⟨x', hx'', rfl⟩ | ⟨z, hz, rfl⟩ | ⟨x', hx'', z, hz, -, rfl⟩
          · rw [ha]; exact hx' x' hx''
          · rw [hb]; exact hy1.1 z hz
          · rw [hab]; exact hx' x' hx''

theorem join_sum {M : Type} [AddCommMonoid M] (cmp : κ → κ → Ordering) (ka : α → κ) (kb : β → κ)
    (fa : α → δ) (fb : β → δ) (fab : α → β → δ) (m : δ → M) (ma : α → M) (mb : β → M)
    (ha : ∀ x, m (fa x) = ma x) (hb : ∀ y, m (fb y) = mb y) (fuel : ℕ) (xs : List α) (ys : List β)
    (hab : ∀ x ∈ xs, ∀ y ∈ ys, cmp (ka x) (kb y) = .eq → m (fab x y) = ma x + mb y) :
    ((join cmp ka kb fa fb fab fuel xs ys).map m).sum = (xs.map ma).sum + (ys.map mb).sum := by
  induction fuel generalizing xs ys with
  | zero => simp [join, Function.comp_def, ha, hb]
  | succ fuel ih =>
    cases xs with
    | nil => simp [join, Function.comp_def, hb]
    | cons x xs =>
      cases ys with
      | nil => simp [join, Function.comp_def, ha]
      | cons y ys =>
        simp only [join]
        rcases hcmp : cmp (ka x) (kb y) with _ | _ | _
        · simp only [List.map_cons, List.sum_cons, ha]
          rw [ih xs (y :: ys) fun x' hx' => hab x' (List.mem_cons_of_mem _ hx')]
          simp only [List.map_cons, List.sum_cons]
          abel_nf
        · simp only [List.map_cons, List.sum_cons,
            hab x List.mem_cons_self y List.mem_cons_self hcmp]
          rw [ih xs ys fun x' hx' y' hy' => hab x' (List.mem_cons_of_mem _ hx') y'
            (List.mem_cons_of_mem _ hy')]
          abel_nf
        · simp only [List.map_cons, List.sum_cons, hb]
          rw [ih (x :: xs) ys fun x' hx' y' hy' => hab x' hx' y' (List.mem_cons_of_mem _ hy')]
          simp only [List.map_cons, List.sum_cons]
          abel_nf

/-- Sum over the join of common keys: the double sum over all pairs with equal keys. -/
theorem joinCommon_sum {M : Type} [AddCommMonoid M] (cmp : κ → κ → Ordering) (key : κ → γ)
    (ka : α → κ) (kb : β → κ) (fab : α → β → δ) (m : δ → M) (fuel : ℕ) (xs : List α) (ys : List β)
    (hf : xs.length + ys.length ≤ fuel)
    (hc : ∀ x ∈ xs, ∀ y ∈ ys, CmpKey cmp key (ka x) (kb y))
    (hx : xs.Pairwise fun x y => key (ka x) < key (ka y))
    (hy : ys.Pairwise fun x y => key (kb x) < key (kb y)) :
    ((joinCommon cmp ka kb fab fuel xs ys).map m).sum =
      (xs.map fun x => (ys.map fun y => if key (ka x) = key (kb y) then m (fab x y) else 0).sum).sum
      := by
  have hzero : ∀ (l : List β) (f : β → M), (∀ y ∈ l, f y = 0) → (l.map f).sum = 0 := by
    intro l f h
    rw [List.map_congr_left h]; simp
  have hzero' : ∀ (l : List α) (f : α → M), (∀ y ∈ l, f y = 0) → (l.map f).sum = 0 := by
    intro l f h
    rw [List.map_congr_left h]; simp
  induction fuel generalizing xs ys with
  | zero =>
    have h1 : xs = [] := List.length_eq_zero_iff.1 (by omega)
    subst h1; simp [joinCommon]
  | succ fuel ih =>
    cases xs with
    | nil => simp [joinCommon]
    | cons x xs =>
      cases ys with
      | nil => simp [joinCommon]
      | cons y ys =>
        have hcxy := hc x List.mem_cons_self y List.mem_cons_self
        have hx1 := List.pairwise_cons.1 hx
        have hy1 := List.pairwise_cons.1 hy
        simp only [List.length_cons] at hf
        simp only [joinCommon]
        rcases hcmp : cmp (ka x) (kb y) with _ | _ | _
        · have hlt := hcxy.lt.1 hcmp
          simp only
          rw [ih xs (y :: ys) (by simp; omega)
            (fun x' hx' => hc x' (List.mem_cons_of_mem _ hx')) hx1.2 hy, List.map_cons,
            List.sum_cons, hzero (y :: ys), zero_add]
          intro z hz
          rcases List.mem_cons.1 hz with rfl | hz
          · rw [if_neg hlt.ne]
          · rw [if_neg (lt_trans hlt (hy1.1 z hz)).ne]
        · have heq := hcxy.eq.1 hcmp
          simp only
          rw [List.map_cons, List.sum_cons, ih xs ys (by omega)
            (fun x' hx' y' hy' => hc x' (List.mem_cons_of_mem _ hx') y'
              (List.mem_cons_of_mem _ hy')) hx1.2 hy1.2, List.map_cons, List.sum_cons,
            List.map_cons, List.sum_cons, if_pos heq, hzero ys, add_zero]
          · congr 1
            refine congrArg List.sum (List.map_congr_left fun x' hx' => ?_)
            rw [List.map_cons, List.sum_cons, if_neg, zero_add]
            rw [← heq]; exact (hx1.1 x' hx').ne'
          · intro z hz
            rw [if_neg]; rw [heq]; exact (hy1.1 z hz).ne
        · have hlt := hcxy.gt.1 hcmp
          simp only
          rw [ih (x :: xs) ys (by simp; omega)
            (fun x' hx' y' hy' => hc x' hx' y' (List.mem_cons_of_mem _ hy')) hx hy1.2]
          refine congrArg List.sum (List.map_congr_left fun x' hx' => ?_)
          rw [List.map_cons, List.sum_cons, if_neg, zero_add]
          rcases List.mem_cons.1 hx' with rfl | hx'
          · exact hlt.ne'
          · exact (lt_trans hlt (hx1.1 x' hx')).ne'

theorem mem_joinCommon {cmp : κ → κ → Ordering} {ka : α → κ} {kb : β → κ}
    {fab : α → β → δ} {fuel : ℕ} {xs : List α} {ys : List β} {d : δ}
    (h : d ∈ joinCommon cmp ka kb fab fuel xs ys) :
    ∃ x ∈ xs, ∃ y ∈ ys, cmp (ka x) (kb y) = .eq ∧ d = fab x y := by
  induction fuel generalizing xs ys with
  | zero => simp [joinCommon] at h
  | succ fuel ih =>
    cases xs with
    | nil => simp [joinCommon] at h
    | cons x xs =>
      cases ys with
      | nil => simp [joinCommon] at h
      | cons y ys =>
        simp only [joinCommon] at h
        rcases hc : cmp (ka x) (kb y) with _ | _ | _ <;> rw [hc] at h
        · obtain ⟨x', hx, y', hy, he, rfl⟩ := ih h
          exact ⟨x', List.mem_cons_of_mem _ hx, y', hy, he, rfl⟩
        · rcases List.mem_cons.1 h with rfl | h
          · exact ⟨x, List.mem_cons_self, y, List.mem_cons_self, hc, rfl⟩
          · obtain ⟨x', hx, y', hy, he, rfl⟩ := ih h
            exact ⟨x', List.mem_cons_of_mem _ hx, y', List.mem_cons_of_mem _ hy, he, rfl⟩
        · obtain ⟨x', hx, y', hy, he, rfl⟩ := ih h
          exact ⟨x', hx, y', List.mem_cons_of_mem _ hy, he, rfl⟩

end Props
end Cyten.Tables

namespace Cyten.Tables
section Left
variable {α β κ γ δ : Type} [LinearOrder γ]

/-- `iter_common_sorted` with duplicates allowed in the first table: every row of the first table is
paired with the row of the second table that has the same key, if there is one. -/
theorem filterMap_commonLoop_left (cmp : κ → κ → Ordering) (key : κ → γ) (ka : α → κ) (kb : β → κ)
    (fab : α → β → δ) (A : List α) (B : List β) (F : ℕ × ℕ → Option δ)
    (h3 : ∀ (i j : ℕ) x y, A[i]? = some x → B[j]? = some y → F (i, j) = some (fab x y))
    (hc : ∀ x ∈ A, ∀ y ∈ B, CmpKey cmp key (ka x) (kb y))
    (hx : A.Pairwise fun x y => key (ka x) ≤ key (ka y))
    (hy : B.Pairwise fun x y => key (kb x) < key (kb y))
    (fuel i j : ℕ) (hf : (A.drop i).length + (B.drop j).length ≤ fuel) :
    (commonLoop cmp false true fuel i ((A.drop i).map ka) j ((B.drop j).map kb)).filterMap F =
      (A.drop i).filterMap fun x =>
        ((B.drop j).find? fun y => decide (key (ka x) = key (kb y))).map (fab x) := by
  induction fuel generalizing i j with
  | zero =>
    have h1 : A.drop i = [] := List.length_eq_zero_iff.1 (by omega)
    rw [h1]; rfl
  | succ fuel ih =>
    cases hA : A.drop i with
    | nil => simp [commonLoop]
    | cons x xs =>
      cases hB : B.drop j with
      | nil => simp [commonLoop]
      | cons y ys =>
        have hx' : A[i]? = some x := by
          have := congrArg (·[0]?) hA; simpa using this
        have hy' : B[j]? = some y := by
          have := congrArg (·[0]?) hB; simpa using this
        have hA' : A.drop (i + 1) = xs := by
          have := congrArg List.tail hA; simpa [List.tail_drop] using this
        have hB' : B.drop (j + 1) = ys := by
          have := congrArg List.tail hB; simpa [List.tail_drop] using this
        have hcxy := hc x (List.mem_of_getElem? hx') y (List.mem_of_getElem? hy')
        have hsx := (List.pairwise_cons.1 (hA ▸ hx.sublist (List.drop_sublist i A)))
        have hsy := (List.pairwise_cons.1 (hB ▸ hy.sublist (List.drop_sublist j B)))
        simp only [hA, hB, List.length_cons] at hf
        simp only [List.map_cons, commonLoop]
        rcases hcmp : cmp (ka x) (kb y) with _ | _ | _
        · have hlt := hcxy.lt.1 hcmp
          have := ih (i + 1) j (by rw [hA', hB]; simp only [List.length_cons]; omega)
          rw [hA', hB, List.map_cons] at this
          simp only
          rw [this, List.filterMap_cons]
          have hn : ((y :: ys).find? fun y => decide (key (ka x) = key (kb y))) = none := by
            rw [List.find?_eq_none]
            intro z hz
            rcases List.mem_cons.1 hz with rfl | hz
            · simpa using hlt.ne
            · simpa using (lt_trans hlt (hsy.1 z hz)).ne
          rw [hn]; rfl
        · have heq := hcxy.eq.1 hcmp
          have := ih (i + 1) j (by rw [hA', hB]; simp only [List.length_cons]; omega)
          rw [hA', hB, List.map_cons] at this
          simp only [Bool.false_eq_true, if_true, if_false, List.filterMap_cons, h3 i j x y hx' hy']
          rw [this]
          simp [heq]
        · have hlt := hcxy.gt.1 hcmp
          have := ih i (j + 1) (by rw [hA, hB']; simp only [List.length_cons]; omega)
          rw [hA, hB', List.map_cons] at this
          simp only
          rw [this]
          refine List.filterMap_congr fun z hz => ?_
          rw [List.find?_cons_of_neg]
          rcases List.mem_cons.1 hz with rfl | hz
          · simpa using hlt.ne'
          · simpa using (lt_of_lt_of_le hlt (hsx.1 z hz)).ne'

end Left
end Cyten.Tables
