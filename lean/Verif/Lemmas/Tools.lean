import Verif.Model.Tools
import Mathlib.Data.List.Basic
import Mathlib.Data.List.Nodup
import Mathlib.Data.List.GetD
import Mathlib.Data.List.Perm.Subperm
import Mathlib.Data.List.Forall2
import Mathlib.Data.List.Lex
import Mathlib.Algebra.BigOperators.Group.List.Basic
import Mathlib.Tactic.SplitIfs
import Mathlib.Tactic.Ring
import Mathlib.Tactic.Common

/-! # Lemmas on permutations, strides and grids -/

namespace Cyten.Tools

/-! ## Permutations -/

@[simp] theorem length_scatter (inv : List ℕ) (i : ℕ) (ps : List ℕ) :
    (scatter inv i ps).length = inv.length := by
  induction ps generalizing inv i with
  | nil => rfl
  | cons p ps ih => simp [scatter, ih]

theorem scatter_not_mem (inv : List ℕ) (i : ℕ) (ps : List ℕ) (x : ℕ) (hx : x ∉ ps) :
    (scatter inv i ps)[x]? = inv[x]? := by
  induction ps generalizing inv i with
  | nil => rfl
  | cons p ps ih =>
    simp only [List.mem_cons, not_or] at hx
    rw [scatter, ih _ _ hx.2, List.getElem?_set_ne (Ne.symm hx.1)]

theorem scatter_mem (inv : List ℕ) (i : ℕ) (ps : List ℕ) (hnd : ps.Nodup) (k : ℕ) (x : ℕ)
    (hk : ps[k]? = some x) (hx : x < inv.length) : (scatter inv i ps)[x]? = some (i + k) := by
  induction ps generalizing inv i k with
  | nil => simp at hk
  | cons p ps ih =>
    rw [List.nodup_cons] at hnd
    cases k with
    | zero =>
      simp at hk; subst hk
      rw [scatter, scatter_not_mem _ _ _ _ hnd.1]
      simp [List.getElem?_set_self hx]
    | succ k =>
      rw [scatter, ih _ _ hnd.2 k (by simpa using hk) (by simpa using hx)]
      congr 1; omega

theorem length_inversePermutation (perm : List ℕ) :
    (inversePermutation perm).length = perm.length := by
  simp [inversePermutation]

theorem inversePermutation_apply {perm : List ℕ} (h : perm.Perm (List.range perm.length))
    {k x : ℕ} (hk : perm[k]? = some x) : (inversePermutation perm)[x]? = some k := by
  have hx : x < perm.length := by
    have := h.mem_iff.1 (List.mem_of_getElem? hk); simpa using this
  have := scatter_mem (List.replicate perm.length 0) 0 perm
    (h.nodup_iff.2 List.nodup_range) k x hk (by simpa using hx)
  simpa [inversePermutation] using this

theorem perm_range_of_nodup {l : List ℕ} (hnd : l.Nodup) (hlt : ∀ x ∈ l, x < l.length) :
    l.Perm (List.range l.length) := by
  have hs : l ⊆ List.range l.length := fun x hx => by simpa using hlt x hx
  exact (List.subperm_of_subset hnd hs).perm_of_length_le (by simp)

theorem inversePermutation_apply' {perm : List ℕ} (h : perm.Perm (List.range perm.length))
    {k x : ℕ} (hk : (inversePermutation perm)[x]? = some k) : perm[k]? = some x := by
  have hx : x < perm.length := by
    have := (List.getElem?_eq_some_iff.1 hk).1
    rwa [length_inversePermutation] at this
  have hmem : x ∈ perm := h.mem_iff.2 (by simpa using hx)
  obtain ⟨k', hk', hk''⟩ := List.getElem_of_mem hmem
  have h1 : perm[k']? = some x := by rw [List.getElem?_eq_getElem hk', hk'']
  have h2 := inversePermutation_apply h h1
  rw [hk] at h2
  injection h2 with h2
  rw [h2]; exact h1

theorem inversePermutation_perm {perm : List ℕ} (h : perm.Perm (List.range perm.length)) :
    (inversePermutation perm).Perm (List.range perm.length) := by
  have hl := length_inversePermutation perm
  rw [← hl]
  refine perm_range_of_nodup ?_ ?_
  · rw [List.nodup_iff_injective_get]
    intro i j hij
    have h1 := inversePermutation_apply' h (x := i) (k := (inversePermutation perm).get i)
      (by simp)
    have h2 := inversePermutation_apply' h (x := j) (k := (inversePermutation perm).get j)
      (by simp)
    rw [hij] at h1
    rw [h1] at h2
    injection h2 with h2
    exact Fin.ext h2
  · intro x hx
    obtain ⟨k, hk, hk'⟩ := List.getElem_of_mem hx
    have := inversePermutation_apply' h (x := k) (k := x) (by rw [List.getElem?_eq_getElem hk, hk'])
    rw [hl]
    exact (List.getElem?_eq_some_iff.1 this).1

theorem isPermutation_iff (perm : List ℕ) :
    isPermutation perm = true ↔ perm.Perm (List.range perm.length) := by
  unfold isPermutation
  rw [beq_iff_eq]
  constructor
  · intro h
    have := List.perm_insertionSort (· ≤ ·) perm
    rw [h] at this
    exact this.symm
  · intro h
    refine List.Perm.eq_of_pairwise (fun a b _ _ => Nat.le_antisymm) (le := (· ≤ ·))
      (List.pairwise_insertionSort _ _) ?_ ((List.perm_insertionSort _ _).trans h)
    exact List.pairwise_lt_range.imp Nat.le_of_lt

/-! ## Swaps -/

/-- exchange the entries at `j` and `j + 1` -/
def swapAdj {α : Type} (l : List α) (j : ℕ) : List α :=
  match l[j]?, l[j + 1]? with
  | some x, some y => (l.set j y).set (j + 1) x
  | _, _ => l

@[simp] theorem length_swapAdj {α : Type} (l : List α) (j : ℕ) :
    (swapAdj l j).length = l.length := by
  unfold swapAdj
  split <;> simp

theorem getElem?_swapAdj {α : Type} (l : List α) (j x : ℕ) (h : j + 1 < l.length) :
    (swapAdj l j)[x]? = if x = j then l[j + 1]? else if x = j + 1 then l[j]? else l[x]? := by
  have h1 : l[j]? = some l[j] := List.getElem?_eq_getElem (by omega)
  have h2 : l[j + 1]? = some l[j + 1] := List.getElem?_eq_getElem h
  unfold swapAdj
  rw [h1, h2]
  simp only
  by_cases a : x = j
  · subst a
    rw [if_pos rfl, List.getElem?_set_ne (by omega), List.getElem?_set_self (by omega)]
  · rw [if_neg a]
    by_cases b : x = j + 1
    · subst b
      rw [if_pos rfl, List.getElem?_set_self (by simpa using h)]
    · rw [if_neg b, List.getElem?_set_ne (Ne.symm b), List.getElem?_set_ne (Ne.symm a)]

/-- Moving the entry at `cur` down to `t` by adjacent swaps. -/
theorem getElem?_foldl_swap {α : Type} (l : List α) (t d x : ℕ) (h : t + d < l.length) :
    ((List.range' t d).reverse.foldl swapAdj l)[x]? =
      if x = t then l[t + d]? else if t < x ∧ x ≤ t + d then l[x - 1]? else l[x]? := by
  induction d generalizing l with
  | zero =>
    simp only [List.range'_zero, List.reverse_nil, List.foldl_nil, Nat.add_zero]
    split_ifs with a b <;> [rw [a]; omega; rfl]
  | succ d ih =>
    rw [List.range'_concat, List.reverse_append, List.reverse_singleton, List.singleton_append,
      List.foldl_cons, Nat.one_mul, ih (swapAdj l (t + d)) (by simp; omega)]
    simp only [getElem?_swapAdj l (t + d) _ (by omega)]
    split_ifs <;> first | rfl | omega | (congr 1; omega)

@[simp] theorem length_foldl_swap {α : Type} (l : List α) (js : List ℕ) :
    (js.foldl swapAdj l).length = l.length := by
  induction js generalizing l with
  | nil => rfl
  | cons j js ih => simp [ih]

/-- The invariant of `permutation_as_swaps`: `cur` are the positions of the items in `L`, and the
first `t` positions of `L` are final. -/
theorem swapLoop_spec (perm : List ℕ) (hp : perm.Perm (List.range perm.length)) (t : ℕ)
    (rest : List ℕ) (hrest : rest = perm.dropLast.drop t) (cur L : List ℕ)
    (hL : L.Perm (List.range perm.length)) (hcl : cur.length = perm.length)
    (hcur : ∀ i x : ℕ, cur[i]? = some x → L[x]? = some i) (ht : t ≤ perm.length - 1)
    (hpre : ∀ k : ℕ, k < t → L[k]? = perm[k]?) :
    (swapLoop t cur rest).foldl swapAdj L = perm := by
  have hLl : L.length = perm.length := by simpa using hL.length_eq
  have hLnd : L.Nodup := hL.nodup_iff.2 List.nodup_range
  have hpnd : perm.Nodup := hp.nodup_iff.2 List.nodup_range
  induction rest generalizing t cur L with
  | nil =>
    have hlen : perm.dropLast.length ≤ t := by
      have := congrArg List.length hrest
      simp at this
      simp; omega
    simp at hlen
    simp only [swapLoop, List.foldl_nil]
    -- all but the last agree, and both are permutations
    apply List.ext_getElem? 
    intro k
    rcases Nat.lt_or_ge k t with hk | hk
    · exact hpre k hk
    · rcases Nat.lt_or_ge k perm.length with hk' | hk'
      · have hkt : k = t := by omega
        -- the last entry is the missing one
        have hLk : L[k]? = some L[k] := List.getElem?_eq_getElem (by omega)
        have hPk : perm[k]? = some perm[k] := List.getElem?_eq_getElem (by omega)
        have hmem : L[k] ∈ perm := hp.mem_iff.2 (hL.mem_iff.1 (List.getElem_mem _))
        obtain ⟨m, hm, hm'⟩ := List.getElem_of_mem hmem
        rcases Nat.lt_or_ge m t with hmt | hmt
        · exfalso
          have h1 := hpre m hmt
          rw [List.getElem?_eq_getElem hm, hm', List.getElem?_eq_getElem (by omega)] at h1
          injection h1 with h1
          have := (List.Nodup.getElem_inj_iff hLnd).1 h1
          omega
        · have hmk : m = k := by omega
          subst hmk
          rw [hLk, hPk, hm']
      · rw [List.getElem?_eq_none (by omega), List.getElem?_eq_none (by omega)]
  | cons o rest ih =>
    have htl : t < perm.dropLast.length := by
      by_contra hc
      rw [List.drop_eq_nil_of_le (by omega)] at hrest
      cases hrest
    have ho : perm[t]? = some o := by
      have := congrArg (fun l => l[0]?) hrest
      simp only [List.getElem?_cons_zero, List.getElem?_drop, Nat.add_zero] at this
      rw [List.getElem?_dropLast, if_pos (by simpa using htl)] at this
      exact this.symm
    have hrest' : rest = perm.dropLast.drop (t + 1) := by
      have := congrArg List.tail hrest
      simpa [List.tail_drop] using this
    simp at htl
    have hon : o < perm.length := by
      simpa using hp.mem_iff.1 (List.mem_of_getElem? ho)
    -- the current position of `o`
    have hc1 : cur[o]? = some cur[o] := List.getElem?_eq_getElem (by omega)
    have hcd : cur.getD o 0 = cur[o] := List.getD_eq_getElem _ _ (by omega)
    generalize hcval : cur[o] = c at hc1 hcd
    have hLc : L[c]? = some o := hcur o c hc1
    have hcn : c < L.length := (List.getElem?_eq_some_iff.1 hLc).1
    have htc : t ≤ c := by
      by_contra hlt
      have h1 := hpre c (by omega)
      rw [hLc] at h1
      have h2 : perm[c]? = perm[t]? := by rw [← h1, ho]
      rw [List.getElem?_eq_getElem (by omega), List.getElem?_eq_getElem (by omega)] at h2
      injection h2 with h2
      have := (List.Nodup.getElem_inj_iff hpnd).1 h2
      omega
    simp only [swapLoop, hcd, List.foldl_append]
    have hL'get : ∀ x : ℕ, ((List.range' t (c - t)).reverse.foldl swapAdj L)[x]? =
        if x = t then L[c]? else if t < x ∧ x ≤ c then L[x - 1]? else L[x]? := by
      intro x
      rw [getElem?_foldl_swap L t (c - t) x (by omega), show t + (c - t) = c by omega]
    generalize hL' : (List.range' t (c - t)).reverse.foldl swapAdj L = L' at hL'get
    have hL'l : L'.length = perm.length := by rw [← hL', length_foldl_swap, hLl]
    have hcur' : ∀ i x : ℕ, (cur.map (rolled t c))[i]? = some x → L'[x]? = some i := by
      intro i x hix
      rw [List.getElem?_map] at hix
      cases hci : cur[i]? with
      | none => rw [hci] at hix; simp at hix
      | some y =>
        rw [hci] at hix
        simp only [Option.map_some, Option.some.injEq] at hix
        have hLy := hcur i y hci
        rw [hL'get, ← hix]
        unfold rolled
        by_cases h1 : t ≤ y ∧ y < c
        · rw [if_pos h1, if_neg (by omega), if_pos (by omega)]
          simpa using hLy
        · rw [if_neg h1]
          by_cases h2 : y = c ∧ t ≤ c
          · rw [if_pos h2, if_pos rfl, ← h2.1]; exact hLy
          · rw [if_neg h2, if_neg (by omega), if_neg (by omega)]; exact hLy
    have hLnd' : L'.Nodup := by
      -- positions are injective: `L'` has all items `i < n`
      have hsub : List.range perm.length ⊆ L' := by
        intro i hi
        have hi : i < perm.length := by simpa using hi
        have h1 : (cur.map (rolled t c))[i]? = some (rolled t c cur[i]) := by
          rw [List.getElem?_map, List.getElem?_eq_getElem (by omega)]; rfl
        exact List.mem_of_getElem? (hcur' i _ h1)
      have := (List.subperm_of_subset List.nodup_range hsub).perm_of_length_le (by simp [hL'l])
      exact this.nodup_iff.1 List.nodup_range
    have hLp' : L'.Perm (List.range perm.length) := by
      have hsub : List.range perm.length ⊆ L' := by
        intro i hi
        have hi : i < perm.length := by simpa using hi
        have h1 : (cur.map (rolled t c))[i]? = some (rolled t c cur[i]) := by
          rw [List.getElem?_map, List.getElem?_eq_getElem (by omega)]; rfl
        exact List.mem_of_getElem? (hcur' i _ h1)
      exact ((List.subperm_of_subset List.nodup_range hsub).perm_of_length_le (by simp [hL'l])).symm
    refine ih (t + 1) hrest' _ L' hLp' (by simp [hcl]) hcur' (by omega) ?_ hL'l hLnd'
    intro k hk
    rw [hL'get]
    by_cases h1 : k = t
    · rw [if_pos h1, hLc, h1, ho]
    · rw [if_neg h1, if_neg (by omega)]
      exact hpre k (by omega)

/-! ## Strides and grids -/

theorem strideLoop_append (c : ℕ) (l : List ℕ) (s : ℕ) :
    strideLoop c (l ++ [s]) = strideLoop c l ++ [c * l.prod] := by
  induction l generalizing c with
  | nil => simp [strideLoop]
  | cons x xs ih => simp [strideLoop, ih, Nat.mul_assoc]

theorem makeStride_cons (s : ℕ) (ss : List ℕ) :
    makeStride (s :: ss) true = ss.prod :: makeStride ss true := by
  simp [makeStride, strideLoop_append, List.prod_reverse]

theorem makeStride_false (shape : List ℕ) :
    makeStride shape false = (makeStride shape.reverse true).reverse := by
  simp [makeStride]

@[simp] theorem length_makeStride (shape : List ℕ) (cs : Bool) :
    (makeStride shape cs).length = shape.length := by
  have key : ∀ (l : List ℕ), (makeStride l true).length = l.length := by
    intro l
    induction l with
    | nil => rfl
    | cons s ss ih => simp [makeStride_cons, ih]
  cases cs with
  | true => exact key shape
  | false => rw [makeStride_false, List.length_reverse, key, List.length_reverse]

theorem length_gridC (shape : List ℕ) : (gridC shape).length = shape.prod := by
  induction shape with
  | nil => rfl
  | cons s ss ih =>
    simp [gridC, List.length_flatMap, ih]

/-- `row` is a multi-index of `shape` -/
def InShape (row shape : List ℕ) : Prop := List.Forall₂ (· < ·) row shape

theorem mem_gridC (shape row : List ℕ) : row ∈ gridC shape ↔ InShape row shape := by
  induction shape generalizing row with
  | nil => simp [gridC, InShape]
  | cons s ss ih =>
    unfold InShape at ih ⊢
    simp only [gridC, List.mem_flatMap, List.mem_range, List.mem_map]
    constructor
    · rintro ⟨i, hi, r, hr, rfl⟩
      exact List.Forall₂.cons hi ((ih r).1 hr)
    · intro h
      cases h with
      | cons h1 h2 => exact ⟨_, h1, _, (ih _).2 h2, rfl⟩

theorem InShape.length {row shape : List ℕ} (h : InShape row shape) :
    row.length = shape.length := List.Forall₂.length_eq h

theorem packRow_cons (s i : ℕ) (ss r : List ℕ) :
    packRow (makeStride (s :: ss) true) (i :: r) = i * ss.prod + packRow (makeStride ss true) r := by
  simp [packRow, makeStride_cons]

theorem packRow_lt {row shape : List ℕ} (h : InShape row shape) :
    packRow (makeStride shape true) row < shape.prod := by
  induction h with
  | nil => simp [packRow]
  | @cons i s r ss h1 h2 ih =>
    rw [packRow_cons, List.prod_cons]
    calc i * ss.prod + packRow (makeStride ss true) r < i * ss.prod + ss.prod := by omega
      _ = (i + 1) * ss.prod := by ring
      _ ≤ s * ss.prod := Nat.mul_le_mul_right _ h1

theorem getElem?_flatMap_uniform {α β : Type} (l : List α) (f : α → List β) (P : ℕ)
    (hP : ∀ x ∈ l, (f x).length = P) (i x : ℕ) (hx : x < P) (a : α) (ha : l[i]? = some a) :
    (l.flatMap f)[i * P + x]? = (f a)[x]? := by
  induction l generalizing i with
  | nil => simp at ha
  | cons b l ih =>
    have hb := hP b List.mem_cons_self
    rw [List.flatMap_cons]
    cases i with
    | zero =>
      simp at ha; subst ha
      rw [List.getElem?_append_left (by omega)]
      simp
    | succ i =>
      rw [List.getElem?_append_right (by rw [hb, Nat.succ_mul]; omega), hb,
        show (i + 1) * P + x - P = i * P + x by rw [Nat.succ_mul]; omega]
      exact ih (fun y hy => hP y (List.mem_cons_of_mem _ hy)) i (by simpa using ha)

/-- The row of the grid at the packed index is the row. -/
theorem gridC_pack {row shape : List ℕ} (h : InShape row shape) :
    (gridC shape)[packRow (makeStride shape true) row]? = some row := by
  induction h with
  | nil => simp [gridC, packRow]
  | @cons i s r ss h1 h2 ih =>
    rw [packRow_cons, gridC]
    have := getElem?_flatMap_uniform (List.range s) (fun i => (gridC ss).map (i :: ·)) ss.prod
      (by intro x _; simp [length_gridC]) i (packRow (makeStride ss true) r) (packRow_lt h2) i
      (by rw [List.getElem?_range h1])
    rw [this, List.getElem?_map, ih]
    rfl

theorem pack_injective {row row' shape : List ℕ} (h : InShape row shape) (h' : InShape row' shape)
    (he : packRow (makeStride shape true) row = packRow (makeStride shape true) row') :
    row = row' := by
  have h1 := gridC_pack h
  rw [he, gridC_pack h'] at h1
  injection h1 with h1
  exact h1.symm

theorem nodup_gridC (shape : List ℕ) : (gridC shape).Nodup := by
  induction shape with
  | nil => simp [gridC]
  | cons s ss ih =>
    rw [gridC, List.nodup_flatMap]
    refine ⟨fun i _ => ih.map (fun a b h => by simpa using h), ?_⟩
    refine List.nodup_range.imp ?_
    intro i j hij
    rw [Function.onFun, List.disjoint_left]
    intro x hx hx'
    obtain ⟨r, -, rfl⟩ := List.mem_map.1 hx
    obtain ⟨r', -, h⟩ := List.mem_map.1 hx'
    injection h with h1 _
    exact hij h1.symm

/-- The packed index of the `m`-th row is `m`. -/
theorem pack_gridC {shape row : List ℕ} {m : ℕ} (h : (gridC shape)[m]? = some row) :
    packRow (makeStride shape true) row = m := by
  have hin : InShape row shape := (mem_gridC shape row).1 (List.mem_of_getElem? h)
  have h1 := gridC_pack hin
  obtain ⟨hm, hm'⟩ := List.getElem?_eq_some_iff.1 h
  obtain ⟨hp, hp'⟩ := List.getElem?_eq_some_iff.1 h1
  exact (List.Nodup.getElem_inj_iff (nodup_gridC shape)).1 (hp'.trans hm'.symm)

/-- Packing is monotone: lexicographic order, first column first. -/
theorem packRow_lt_iff {row row' shape : List ℕ} (h : InShape row shape)
    (h' : InShape row' shape) :
    packRow (makeStride shape true) row < packRow (makeStride shape true) row' ↔ row < row' := by
  induction h generalizing row' with
  | nil => cases h'; simp
  | @cons i s r ss h1 h2 ih =>
    cases h' with
    | @cons j _ r' _ h3 h4 =>
      rw [packRow_cons, packRow_cons, List.cons_lt_cons_iff, ← ih h4]
      have b1 := packRow_lt h2
      have b2 := packRow_lt h4
      generalize packRow (makeStride ss true) r = x at b1 ⊢
      generalize packRow (makeStride ss true) r' = y at b2 ⊢
      generalize ss.prod = P at b1 b2 ⊢
      constructor
      · intro h
        rcases lt_trichotomy i j with hij | hij | hij
        · exact Or.inl hij
        · subst hij; exact Or.inr ⟨rfl, by omega⟩
        · exfalso
          have : (j + 1) * P ≤ i * P := Nat.mul_le_mul_right _ hij
          rw [Nat.succ_mul] at this
          omega
      · rintro (hij | ⟨rfl, hxy⟩)
        · have : (i + 1) * P ≤ j * P := Nat.mul_le_mul_right _ hij
          rw [Nat.succ_mul] at this
          omega
        · omega

/-- The digits of the row number are the entries of the row. -/
theorem gridEntry_spec {row shape : List ℕ} (h : InShape row shape) (n x : ℕ)
    (hn : row[n]? = some x) :
    gridEntry (packRow (makeStride shape true) row) (makeStride shape true) shape n = x := by
  induction h generalizing n with
  | nil => simp at hn
  | @cons i s r ss h1 h2 ih =>
    have b := packRow_lt h2
    have hpos : 0 < ss.prod := Nat.lt_of_le_of_lt (Nat.zero_le _) b
    rw [packRow_cons]
    cases n with
    | zero =>
      simp at hn; subst hn
      simp only [gridEntry, makeStride_cons, List.getD_cons_zero]
      rw [Nat.add_comm, Nat.add_mul_div_right _ _ hpos, Nat.div_eq_of_lt b, Nat.zero_add,
        Nat.mod_eq_of_lt h1]
    | succ n =>
      have := ih n (by simpa using hn)
      simp only [gridEntry, makeStride_cons, List.getD_cons_succ] at this ⊢
      -- the higher digit does not contribute modulo the shape
      have hnlt : n < ss.length := by
        have := (List.getElem?_eq_some_iff.1 hn).1
        have hl := InShape.length h2
        simp at this; omega
      have hdiv : ∃ q, ss.prod = (makeStride ss true).getD n 1 * ss.getD n 1 * q := by
        clear ih this b hpos hn h2
        induction ss generalizing n with
        | nil => simp at hnlt
        | cons t ts iht =>
          cases n with
          | zero => exact ⟨1, by simp [makeStride_cons, Nat.mul_comm]⟩
          | succ n =>
            obtain ⟨q, hq⟩ := iht n (by simpa using hnlt)
            refine ⟨q * t, ?_⟩
            simp only [makeStride_cons, List.getD_cons_succ, List.prod_cons]
            rw [hq]; ring
      obtain ⟨q, hq⟩ := hdiv
      have hs : 0 < (makeStride ss true).getD n 1 := by
        rcases Nat.eq_zero_or_pos ((makeStride ss true).getD n 1) with h0 | h0
        · rw [hq, h0] at hpos; simp at hpos
        · exact h0
      rw [hq]
      rw [show i * ((makeStride ss true).getD n 1 * ss.getD n 1 * q) + packRow (makeStride ss true) r
        = packRow (makeStride ss true) r + (makeStride ss true).getD n 1 * (ss.getD n 1 * (i * q))
        by ring, Nat.add_mul_div_left _ _ hs, Nat.add_mul_mod_self_left]
      exact this

theorem inShape_reverse {row shape : List ℕ} :
    InShape row.reverse shape.reverse ↔ InShape row shape := by
  unfold InShape
  exact List.forall₂_reverse_iff

theorem packRow_reverse (st row : List ℕ) (h : st.length = row.length) :
    packRow st.reverse row.reverse = packRow st row := by
  unfold packRow
  rw [← List.reverse_zipWith h.symm, List.sum_reverse]

end Cyten.Tools
