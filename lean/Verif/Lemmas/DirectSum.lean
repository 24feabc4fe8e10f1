import Verif.Props.Spaces2

/-! Positions in the permuted basis of a direct sum of spaces. -/

namespace Cyten.Spaces
open Cyten.Tools Cyten.Tables Cyten.Spaces.Spec Cyten.Props

variable {S : Type} [LinearOrder S]

/-- Stability: sorting keeps the order of the elements of equal key. -/
theorem filter_sortBy {β : Type} (key : β → S) (E : List β) (s : S) :
    (sortBy key E).filter (fun x => decide (key x = s)) = E.filter fun x => decide (key x = s) := by
  unfold sortBy
  induction E with
  | nil => rfl
  | cons a E ih =>
    rw [List.insertionSort_cons]
    have key' : ∀ t : List β, (t.orderedInsert (fun a b => key a ≤ key b) a).filter
        (fun x => decide (key x = s)) = (a :: t).filter fun x => decide (key x = s) := by
      intro t
      induction t with
      | nil => rfl
      | cons b t iht =>
        rw [List.orderedInsert_cons]
        by_cases h : key a ≤ key b
        · rw [if_pos h]
        · rw [if_neg h]
          by_cases hb : key b = s
          · have ha : key a ≠ s := by
              intro e; exact h (by rw [e, hb])
            rw [List.filter_cons_of_pos (by simpa using hb), iht,
              List.filter_cons_of_neg (by simpa using ha),
              List.filter_cons_of_neg (by simpa using ha), List.filter_cons_of_pos (by simpa using hb)]
          · rw [List.filter_cons_of_neg (by simpa using hb), iht]
            by_cases ha : key a = s
            · rw [List.filter_cons_of_pos (by simpa using ha),
                List.filter_cons_of_pos (by simpa using ha), List.filter_cons_of_neg (by simpa using hb)]
            · rw [List.filter_cons_of_neg (by simpa using ha),
                List.filter_cons_of_neg (by simpa using ha), List.filter_cons_of_neg (by simpa using hb)]
    rw [key']
    by_cases ha : key a = s
    · rw [List.filter_cons_of_pos (by simpa using ha), ih, List.filter_cons_of_pos (by simpa using ha)]
    · rw [List.filter_cons_of_neg (by simpa using ha), ih, List.filter_cons_of_neg (by simpa using ha)]

theorem sorted_split {β : Type} (key : β → S) (L : List β)
    (h : L.Pairwise fun a b => key a ≤ key b) (s : S) :
    L = L.filter (fun x => decide (key x < s)) ++ (L.filter (fun x => decide (key x = s)) ++
      L.filter fun x => decide (s < key x)) := by
  induction L with
  | nil => rfl
  | cons a L ih =>
    obtain ⟨h1, h2⟩ := List.pairwise_cons.1 h
    have hi := ih h2
    rcases lt_trichotomy (key a) s with ha | ha | ha
    · rw [List.filter_cons_of_pos (by simpa using ha), List.filter_cons_of_neg (by simpa using ha.ne),
        List.filter_cons_of_neg (by simpa using ha.le)]
      rw [List.cons_append, ← hi]
    · have e1 : L.filter (fun x => decide (key x < s)) = [] := by
        rw [List.filter_eq_nil_iff]
        intro b hb
        have := h1 b hb
        rw [ha] at this
        simpa using this
      rw [List.filter_cons_of_neg (by simp [ha]), List.filter_cons_of_pos (by simpa using ha),
        List.filter_cons_of_neg (by simp [ha]), e1]
      rw [e1] at hi
      rw [List.nil_append, List.cons_append]
      rw [List.nil_append] at hi
      rw [← hi]
    · have e1 : L.filter (fun x => decide (key x < s)) = [] := by
        rw [List.filter_eq_nil_iff]
        intro b hb
        have := lt_of_lt_of_le ha (h1 b hb)
        simpa using this.le
      have e2 : L.filter (fun x => decide (key x = s)) = [] := by
        rw [List.filter_eq_nil_iff]
        intro b hb
        have := lt_of_lt_of_le ha (h1 b hb)
        simpa using this.ne'
      rw [List.filter_cons_of_neg (by simpa using ha.le), List.filter_cons_of_neg (by simpa using ha.ne'),
        List.filter_cons_of_pos (by simpa using ha), e1, e2]
      rw [e1, e2] at hi
      simp only [List.nil_append] at hi ⊢
      rw [← hi]

theorem length_flatMap_filter {β : Type} (p : β → Bool) (c : β → List ℕ) (L : List β) :
    ((L.filter p).flatMap c).length = (L.map fun x => if p x then (c x).length else 0).sum := by
  induction L with
  | nil => rfl
  | cons a L ih =>
    by_cases h : p a = true
    · rw [List.filter_cons_of_pos h]; simp [ih, h]
    · rw [List.filter_cons_of_neg h]; simp [ih, h]

/-- An entry of the sorted concatenation. -/
theorem sorted_get (E : List (Entry S)) (s : S) (i v : ℕ)
    (h : ((E.filter fun x => decide (x.s = s)).flatMap (·.c))[i]? = some v) :
    ((sortBy (·.s) E).flatMap (·.c))[(E.map fun x => if x.s < s then x.c.length else 0).sum + i]? =
      some v := by
  have hs := sorted_split (fun x : Entry S => x.s) (sortBy (·.s) E) (sortBy_sorted _ E) s
  have hlen : (((sortBy (·.s) E).filter fun x => decide (x.s < s)).flatMap (·.c)).length =
      (E.map fun x => if x.s < s then x.c.length else 0).sum := by
    rw [length_flatMap_filter, ((sortBy_perm (fun x : Entry S => x.s) E).map _).sum_eq]
    congr 1
    apply List.map_congr_left
    intro x _
    simp
  rw [hs, List.flatMap_append, List.flatMap_append, List.getElem?_append_right (by omega), hlen,
    Nat.add_sub_cancel_left, filter_sortBy]
  rw [List.getElem?_append_left (List.getElem?_eq_some_iff.1 h).1]
  exact h

/-- An entry of a concatenation. -/
theorem flatMap_get {β : Type} (E : List β) (c : β → List ℕ) (b off : ℕ) (e : β) (he : E[b]? = some e)
    (ho : off < (c e).length) :
    (E.flatMap c)[((E.take b).map fun x => (c x).length).sum + off]? = (c e)[off]? := by
  obtain ⟨hb, rfl⟩ := List.getElem?_eq_some_iff.1 he
  have hE : E.flatMap c = (E.take b).flatMap c ++ (E.drop b).flatMap c := by
    rw [← List.flatMap_append, List.take_append_drop]
  rw [hE]
  have hl : ((E.take b).flatMap c).length = ((E.take b).map fun x => (c x).length).sum := by
    rw [List.length_flatMap]
  rw [List.getElem?_append_right (by omega), hl, Nat.add_sub_cancel_left,
    List.drop_eq_getElem_cons hb, List.flatMap_cons, List.getElem?_append_left ho]

/-- the permutation that `direct_sum` builds -/
def shiftedPerms (sym : Sym S) : ℕ → List (ESpace S) → List ℕ
  | _, [] => []
  | off, x :: xs => (x.basisPerm sym).map (· + off) ++ shiftedPerms sym (off + x.dim sym) xs

theorem foldl_shiftedPerms (sym : Sym S) (xs : List (ESpace S)) (acc : List ℕ) (off : ℕ) :
    (xs.foldl (fun (acc : List ℕ × ℕ) o =>
      (acc.1 ++ (o.basisPerm sym).map (· + acc.2), acc.2 + o.dim sym)) (acc, off)).1 =
      acc ++ shiftedPerms sym off xs := by
  induction xs generalizing acc off with
  | nil => simp [shiftedPerms]
  | cons x xs ih =>
    rw [List.foldl_cons, ih]
    simp [shiftedPerms]

theorem shiftedPerms_append (sym : Sym S) (xs ys : List (ESpace S)) (off : ℕ) :
    shiftedPerms sym off (xs ++ ys) = shiftedPerms sym off xs ++
      shiftedPerms sym (off + (xs.map (ESpace.dim sym)).sum) ys := by
  induction xs generalizing off with
  | nil => simp [shiftedPerms]
  | cons x xs ih =>
    rw [List.cons_append, shiftedPerms, shiftedPerms, ih, List.append_assoc, List.map_cons,
      List.sum_cons, Nat.add_assoc]

theorem length_shiftedPerms (sym : Sym S) (hd : DimOK sym) (xs : List (ESpace S))
    (hv : ∀ x ∈ xs, ValidSpace sym x) (off : ℕ) :
    (shiftedPerms sym off xs).length = (xs.map (ESpace.dim sym)).sum := by
  induction xs generalizing off with
  | nil => rfl
  | cons x xs ih =>
    rw [shiftedPerms, List.length_append, List.length_map,
      ih (fun y hy => hv y (List.mem_cons_of_mem _ hy))]
    have : (x.basisPerm sym).length = x.dim sym := by
      have h := (basisPerm_isPerm sym hd x (hv x List.mem_cons_self))
      rw [C25_dim sym hd]
      simpa using h.2
    rw [this, List.map_cons, List.sum_cons]

theorem length_concat_mults (sym : Sym S) (xs : List (ESpace S)) (hv : ∀ x ∈ xs, ValidSpace sym x) :
    (xs.flatMap (·.mults)).length = (xs.flatMap (·.defining)).length := by
  rw [List.length_flatMap, List.length_flatMap]
  congr 1
  exact List.map_congr_left fun x hx => (hv x hx).lengths

theorem numStates_one (sym : Sym S) (h1 : ∀ s, sym.dim s = 1) (sectors : List S) (mults : List ℕ)
    (hl : mults.length = sectors.length) : numStates sym sectors mults = mults := by
  unfold numStates
  induction sectors generalizing mults with
  | nil => cases mults with
    | nil => rfl
    | cons => simp at hl
  | cons s sectors ih =>
    cases mults with
    | nil => simp at hl
    | cons m mults =>
      rw [List.zipWith_cons_cons, ih mults (by simpa using hl), h1, Nat.one_mul]

theorem dim_one (sym : Sym S) (h1 : ∀ s, sym.dim s = 1) (x : ESpace S) (hv : ValidSpace sym x) :
    x.dim sym = x.mults.sum := by
  unfold ESpace.dim
  rw [numStates_one sym h1]
  rw [hv.lengths]
  unfold ESpace.sectors
  split <;> simp

/-- The entries of a list of spaces. -/
theorem exists_space_entries (sym : Sym S) (hd : DimOK sym) (h1 : ∀ s, sym.dim s = 1)
    (xs : List (ESpace S)) (hv : ∀ x ∈ xs, ValidSpace sym x) (off : ℕ) :
    ∃ E : List (Entry S), E.map (·.s) = xs.flatMap (·.defining) ∧
      E.map (·.m) = xs.flatMap (·.mults) ∧ E.flatMap (·.c) = shiftedPerms sym off xs ∧
      ∀ e ∈ E, e.ok sym.dim := by
  refine exists_entries sym _ _ _ (length_concat_mults sym xs hv) ?_
  rw [numStates_one sym h1 _ _ (length_concat_mults sym xs hv), length_shiftedPerms sym hd xs hv,
    List.map_congr_left fun x hx => dim_one sym h1 x (hv x hx)]
  clear hv
  induction xs with
  | nil => rfl
  | cons x xs ih => simp [ih]

/-- `from_defining_sectors` with repeated sectors of dimension one. -/
theorem fromDefiningSectors_entries (sym : Sym S) (h1 : ∀ s, sym.dim s = 1) (hcd : sym.canDrop = true)
    (E : List (Entry S)) (hok : ∀ e ∈ E, e.ok sym.dim) (isDual : Bool) :
    ESpace.fromDefiningSectors sym (E.map (·.s)) (some (E.map (·.m))) isDual
      (some (E.flatMap (·.c))) false =
    some ⟨(merged (·.s) (·.m) (runsOf (·.s) (sortBy (·.s) E))).map Prod.fst,
      (merged (·.s) (·.m) (runsOf (·.s) (sortBy (·.s) E))).map Prod.snd, isDual,
      some ((sortBy (·.s) E).flatMap (·.c))⟩ := by
  have hok' : ∀ x ∈ sortBy (·.s) E, x.ok sym.dim :=
    fun x hx => hok x ((sortBy_perm _ E).mem_iff.1 hx)
  have hreg := regroupRuns_entries sym (sortBy (·.s) E) hok'
  rw [regroup_one sym _ hok' h1] at hreg
  unfold ESpace.fromDefiningSectors
  simp only [Option.getD_some, List.length_map, ne_eq, not_true, if_false, hcd, Bool.not_true,
    Bool.false_and, Bool.false_eq_true, if_true]
  have hss := sortSectors_map E (·.s) (·.m)
  rw [hss]
  simp only [sortedPerm_entries sym E hok, mergeRuns_merged, Option.map_some, hreg, ite_self]

/-- Sums over a list with strictly increasing keys. -/
theorem sum_sorted_keys (M : List (S × ℕ)) (hs : (M.map Prod.fst).Pairwise (· < ·)) (b : ℕ) (s : S)
    (m : ℕ) (hb : M[b]? = some (s, m)) :
    (M.map fun p => (if p.1 = s then 1 else 0) * p.2).sum = m ∧
    (M.map fun p => (if p.1 < s then 1 else 0) * p.2).sum = ((M.map Prod.snd).take b).sum := by
  induction M generalizing b with
  | nil => simp at hb
  | cons p M ih =>
    rw [List.map_cons] at hs
    obtain ⟨h1, h2⟩ := List.pairwise_cons.1 hs
    cases b with
    | zero =>
      simp only [List.getElem?_cons_zero, Option.some.injEq] at hb
      subst hb
      have e1 : (M.map fun p => (if p.1 = s then 1 else 0) * p.2).sum = 0 := by
        apply List.sum_eq_zero
        intro x hx
        obtain ⟨q, hq, rfl⟩ := List.mem_map.1 hx
        have := h1 q.1 (List.mem_map.2 ⟨q, hq, rfl⟩)
        rw [if_neg this.ne', Nat.zero_mul]
      have e2 : (M.map fun p => (if p.1 < s then 1 else 0) * p.2).sum = 0 := by
        apply List.sum_eq_zero
        intro x hx
        obtain ⟨q, hq, rfl⟩ := List.mem_map.1 hx
        have := h1 q.1 (List.mem_map.2 ⟨q, hq, rfl⟩)
        rw [if_neg this.not_gt, Nat.zero_mul]
      rw [List.map_cons, List.sum_cons, e1, List.map_cons, List.sum_cons, e2]
      simp
    | succ b =>
      rw [List.getElem?_cons_succ] at hb
      obtain ⟨i1, i2⟩ := ih h2 b hb
      have hlt : p.1 < s := h1 s (List.mem_map.2 ⟨(s, m), List.mem_of_getElem? hb, rfl⟩)
      rw [List.map_cons, List.sum_cons, i1, List.map_cons, List.sum_cons, i2, if_neg hlt.ne, if_pos hlt]
      simp

theorem totalDim_take_one (sym : Sym S) (h1 : ∀ s, sym.dim s = 1) (sectors : List S) (mults : List ℕ)
    (hl : mults.length = sectors.length) (b : ℕ) :
    totalDim sym.dim (sectors.take b) (mults.take b) = (mults.take b).sum := by
  rw [← numStates_sum, numStates_one sym h1 _ _ (by rw [List.length_take, List.length_take, hl])]

end Cyten.Spaces
