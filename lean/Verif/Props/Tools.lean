import Verif.Lemmas.Tools
import Verif.Props.Tables
import Mathlib.Tactic.NormNum

/-!
# C21 (permutation helpers), C22 (strides and grids), C44 (overflow guard of the strides)

Specification: a permutation of `n` is a list that is a rearrangement of `0, ..., n-1`.
-/

namespace Cyten.Props
open Cyten.Tools Cyten.Tables

/-- `perm` is a rearrangement of `0, ..., len(perm) - 1`. -/
def IsPerm (perm : List ℕ) : Prop := perm.Perm (List.range perm.length)

/-- **C21**: `is_permutation` decides exactly that. -/
theorem C21_is_permutation (perm : List ℕ) : isPermutation perm = true ↔ IsPerm perm :=
  isPermutation_iff perm

/-- **C21**: `inverse_permutation` returns a permutation of the same length that is a two-sided
inverse: `inv[perm[j]] = j = perm[inv[j]]`; inverting twice gives the permutation back. -/
theorem C21_inverse_permutation (perm : List ℕ) (h : IsPerm perm) :
    IsPerm (inversePermutation perm) ∧ (inversePermutation perm).length = perm.length ∧
    (∀ j x : ℕ, perm[j]? = some x → (inversePermutation perm)[x]? = some j) ∧
    (∀ j x : ℕ, (inversePermutation perm)[j]? = some x → perm[x]? = some j) ∧
    inversePermutation (inversePermutation perm) = perm := by
  have hl := length_inversePermutation perm
  have hi : IsPerm (inversePermutation perm) := by
    unfold IsPerm; rw [hl]; exact inversePermutation_perm h
  refine ⟨hi, hl, fun j x => inversePermutation_apply h, fun j x => inversePermutation_apply' h, ?_⟩
  apply List.ext_getElem?
  intro k
  rcases Nat.lt_or_ge k perm.length with hk | hk
  · rw [List.getElem?_eq_getElem hk]
    refine inversePermutation_apply hi (inversePermutation_apply h ?_)
    exact List.getElem?_eq_getElem hk
  · rw [List.getElem?_eq_none hk, List.getElem?_eq_none (by
      rw [length_inversePermutation, hl]; exact hk)]

/-- What is documented of a stable `argsort`. -/
def IsStableArgsort {α : Type} [LinearOrder α] (argsort : List α → List ℕ) : Prop :=
  ∀ a : List α, (argsort a).Perm (List.range a.length) ∧
    (argsort a).Pairwise fun i j => ∀ x y, a[i]? = some x → a[j]? = some y → x < y ∨ (x = y ∧ i < j)

/-- **C21**: `rank_data` returns a permutation that orders like the data: smaller data have
smaller rank, and equal data are ranked by position. -/
theorem C21_rank_data {α : Type} [LinearOrder α] (argsort : List α → List ℕ)
    (ha : IsStableArgsort argsort) (a : List α) :
    let ranks := rankData argsort a
    IsPerm ranks ∧ ranks.length = a.length ∧
    ∀ (i j : ℕ) (x y : α) (ri rj : ℕ), a[i]? = some x → a[j]? = some y → ranks[i]? = some ri → ranks[j]? = some rj →
      (x < y ∨ (x = y ∧ i < j)) → ri < rj := by
  intro ranks
  obtain ⟨hp, hs⟩ := ha a
  have hlen : (argsort a).length = a.length := by simpa using hp.length_eq
  have hperm : IsPerm (argsort a) := by unfold IsPerm; rw [hlen]; exact hp
  obtain ⟨h1, h2, -, h4, -⟩ := C21_inverse_permutation _ hperm
  refine ⟨h1, h2.trans hlen, ?_⟩
  intro i j x y ri rj hx hy hri hrj hxy
  have hoi := h4 i ri hri
  have hoj := h4 j rj hrj
  by_contra hc
  rcases Nat.lt_or_ge rj ri with hlt | hge
  · obtain ⟨hr1, e1⟩ := List.getElem?_eq_some_iff.1 hoi
    obtain ⟨hr2, e2⟩ := List.getElem?_eq_some_iff.1 hoj
    have := List.pairwise_iff_getElem.1 hs rj ri hr2 hr1 hlt y x (by rw [e2]; exact hy)
      (by rw [e1]; exact hx)
    rcases hxy with hxy | ⟨rfl, hij⟩ <;> rcases this with h | ⟨h, h'⟩
    · exact absurd hxy (not_lt.2 (le_of_lt h))
    · exact absurd hxy (by rw [h]; exact lt_irrefl _)
    · exact absurd h (lt_irrefl _)
    · rw [e2, e1] at h'; omega
  · have : ri = rj := by omega
    subst this
    rw [hoi] at hoj
    injection hoj with hoj
    subst hoj
    rw [hx] at hy
    injection hy with hy
    subst hy
    rcases hxy with h | ⟨-, h⟩ <;> exact absurd h (lt_irrefl _)

/-- **C21**: performing the swaps of `permutation_as_swaps` one after the other on a sequence
moves item `permutation[j]` to position `j`, for every `j`.  The function fails exactly on lists
that are no permutation. -/
theorem C21_permutation_as_swaps (perm : List ℕ) :
    (¬ IsPerm perm ∧ permutationAsSwaps perm = none) ∨
    (IsPerm perm ∧ ∃ swaps, permutationAsSwaps perm = some swaps ∧
      swaps.foldl swapAdj (List.range perm.length) = perm ∧
      ∀ j ∈ swaps, j + 1 < perm.length) := by
  by_cases h : (∀ x ∈ perm, x ∈ List.range perm.length) ∧ (∀ x ∈ List.range perm.length, x ∈ perm)
  · right
    have hp : IsPerm perm := by
      have hs := (List.subperm_of_subset (List.nodup_range (n := perm.length))
        (fun x hx => h.2 x hx)).perm_of_length_le (by simp)
      exact hs.symm
    refine ⟨hp, _, if_pos h, ?_, ?_⟩
    · refine swapLoop_spec perm hp 0 perm.dropLast (by simp) _ _ (List.Perm.refl _) (by simp) ?_
        (by omega) (by intro k hk; omega)
      intro i x hi
      obtain ⟨hi1, hi2⟩ := List.getElem?_eq_some_iff.1 hi
      simp at hi2 hi1
      subst hi2
      exact List.getElem?_range hi1
    · -- every swap is in range
      have key : ∀ (t : ℕ) (cur rest : List ℕ) (n : ℕ), (∀ x ∈ cur, x < n) →
          (∀ o ∈ rest, o < cur.length) → ∀ j ∈ swapLoop t cur rest, j + 1 < n := by
        intro t cur rest n
        induction rest generalizing t cur with
        | nil => intro _ _ j hj; simp [swapLoop] at hj
        | cons o rest ih =>
          intro hc ho j hj
          simp only [swapLoop, List.mem_append, List.mem_reverse, List.mem_range'_1] at hj
          have ho1 := ho o List.mem_cons_self
          have hcv : cur.getD o 0 < n := by
            rw [List.getD_eq_getElem _ _ ho1]; exact hc _ (List.getElem_mem _)
          rcases hj with hj | hj
          · omega
          · refine ih (t + 1) (cur.map (rolled t (cur.getD o 0))) ?_ ?_ j hj
            · intro x hx
              obtain ⟨y, hy, rfl⟩ := List.mem_map.1 hx
              have := hc y hy
              unfold rolled
              split_ifs <;> omega
            · intro o' ho'
              rw [List.length_map]
              exact ho o' (List.mem_cons_of_mem _ ho')
      refine key 0 _ _ _ (by simp) ?_
      intro o ho
      have := h.1 o ((List.dropLast_sublist perm).subset ho)
      simpa using this
  · left
    refine ⟨fun hp => h ⟨fun x hx => hp.mem_iff.1 hx, fun x hx => hp.mem_iff.2 hx⟩, if_neg h⟩

/-- The swap of neighbours, spelled out: positions `j` and `j + 1` are exchanged, all others
stay. -/
theorem C21_swap_meaning (l : List ℕ) (j : ℕ) (h : j + 1 < l.length) :
    (swapAdj l j).length = l.length ∧
    ∀ x : ℕ, (swapAdj l j)[x]? = if x = j then l[j + 1]? else if x = j + 1 then l[j]? else l[x]? :=
  ⟨length_swapAdj l j, fun x => getElem?_swapAdj l j x h⟩

/-! ## C22 -/

private theorem makeGrid_false (shape : List ℕ) : makeGrid shape false = gridF shape := rfl

/-- **C22**: the grid lists every multi-index of the shape exactly once. -/
theorem C22_grid_complete (shape : List ℕ) (cstyle : Bool) :
    (∀ row, row ∈ makeGrid shape cstyle ↔ List.Forall₂ (· < ·) row shape) ∧
    (makeGrid shape cstyle).Nodup ∧ (makeGrid shape cstyle).length = shape.prod := by
  cases cstyle with
  | true => exact ⟨mem_gridC shape, nodup_gridC shape, length_gridC shape⟩
  | false =>
    refine ⟨fun row => ?_, ?_, ?_⟩
    · rw [makeGrid_false, gridF, List.mem_map]
      constructor
      · rintro ⟨r, hr, rfl⟩
        have := (mem_gridC _ _).1 hr
        rw [← List.reverse_reverse r] at this
        exact inShape_reverse.1 this
      · intro h
        exact ⟨row.reverse, (mem_gridC _ _).2 (inShape_reverse.2 h), by simp⟩
    · exact (nodup_gridC _).map (fun a b h => List.reverse_inj.1 h)
    · rw [makeGrid_false, gridF, List.length_map, length_gridC, List.prod_reverse]

private theorem pack_false {shape row : List ℕ} (h : row.length = shape.length) :
    packRow (makeStride shape false) row = packRow (makeStride shape.reverse true) row.reverse := by
  rw [makeStride_false, ← packRow_reverse (makeStride shape.reverse true).reverse row (by simp [h]),
    List.reverse_reverse]

/-- **C22**: packing with the strides numbers the multi-indices: the `m`-th row of the grid packs
to `m`, and the row at the packed index is the row.  Hence packing is injective on multi-indices
and its values are exactly `0, ..., prod(shape) - 1`. -/
theorem C22_stride_grid (shape : List ℕ) (cstyle : Bool) :
    (∀ (m : ℕ) row, (makeGrid shape cstyle)[m]? = some row →
      packRow (makeStride shape cstyle) row = m) ∧
    (∀ row, List.Forall₂ (· < ·) row shape →
      (makeGrid shape cstyle)[packRow (makeStride shape cstyle) row]? = some row ∧
      packRow (makeStride shape cstyle) row < shape.prod) := by
  cases cstyle with
  | true => exact ⟨fun m row h => pack_gridC h, fun row h => ⟨gridC_pack h, packRow_lt h⟩⟩
  | false =>
    constructor
    · intro m row h
      rw [makeGrid_false, gridF, List.getElem?_map, Option.map_eq_some_iff] at h
      obtain ⟨r, hr, rfl⟩ := h
      have hin : InShape r shape.reverse := (mem_gridC _ _).1 (List.mem_of_getElem? hr)
      rw [pack_false (by have := hin.length; simpa using this), List.reverse_reverse]
      exact pack_gridC hr
    · intro row h
      have h' : InShape row.reverse shape.reverse := inShape_reverse.2 h
      have hl : row.length = shape.length := InShape.length h
      rw [pack_false hl]
      refine ⟨?_, ?_⟩
      · rw [makeGrid_false, gridF, List.getElem?_map, gridC_pack h']
        simp
      · have := packRow_lt h'
        rwa [List.prod_reverse] at this

/-- **C22**: the digit formula `(m / stride[n]) % shape[n]` used in C++ gives the entries of the
grid built in python. -/
theorem C22_grid_entry (shape : List ℕ) (cstyle : Bool) (m n x : ℕ) (row : List ℕ)
    (hm : (makeGrid shape cstyle)[m]? = some row) (hn : row[n]? = some x) :
    gridEntry m (makeStride shape cstyle) shape n = x := by
  have hin : InShape row shape := ((C22_grid_complete shape cstyle).1 row).1 (List.mem_of_getElem? hm)
  have hpk := (C22_stride_grid shape cstyle).1 m row hm
  cases cstyle with
  | true => rw [← hpk]; exact gridEntry_spec hin n x hn
  | false =>
    have hl : row.length = shape.length := hin.length
    have hnl : n < row.length := (List.getElem?_eq_some_iff.1 hn).1
    rw [← hpk, pack_false hl]
    have h' : InShape row.reverse shape.reverse := inShape_reverse.2 hin
    have := gridEntry_spec h' (row.length - 1 - n) x (by
      rw [List.getElem?_reverse (by omega), show row.length - 1 - (row.length - 1 - n) = n by omega]
      exact hn)
    rw [← this]
    unfold gridEntry
    rw [makeStride_false]
    have e1 : (makeStride shape.reverse true).reverse.getD n 1
        = (makeStride shape.reverse true).getD (row.length - 1 - n) 1 := by
      rw [List.getD_eq_getElem?_getD, List.getD_eq_getElem?_getD, List.getElem?_reverse (by
        simp; omega)]
      simp [hl]
    have e2 : shape.getD n 1 = shape.reverse.getD (row.length - 1 - n) 1 := by
      rw [List.getD_eq_getElem?_getD, List.getD_eq_getElem?_getD, List.getElem?_reverse (by omega),
        show shape.length - 1 - (row.length - 1 - n) = n by omega]
    rw [e1, e2]

/-- **C22**: F-style packing preserves and reflects the row order of sorted block tables (the last
differing column decides), so a sorted table has sorted keys; C-style packing does so for the
order in which the first differing column decides. -/
theorem C22_pack_order (shape r s : List ℕ) (hr : List.Forall₂ (· < ·) r shape)
    (hs : List.Forall₂ (· < ·) s shape) :
    (packRow (makeStride shape false) r < packRow (makeStride shape false) s ↔ RowLt r s) ∧
    (packRow (makeStride shape true) r < packRow (makeStride shape true) s ↔
      RowLt r.reverse s.reverse) := by
  have hrl : r.length = shape.length := InShape.length hr
  have hsl : s.length = shape.length := InShape.length hs
  constructor
  · rw [pack_false hrl, pack_false hsl, rowLt_iff _ _ (hrl.trans hsl.symm)]
    exact packRow_lt_iff (inShape_reverse.2 hr) (inShape_reverse.2 hs)
  · rw [rowLt_iff _ _ (by simp [hrl, hsl]), List.reverse_reverse, List.reverse_reverse]
    exact packRow_lt_iff hr hs

/-- Apply one permutation per axis to a multi-index. -/
def permRow (perms : List (List ℕ)) (row : List ℕ) : List ℕ :=
  List.zipWith (fun p i => p.getD i 0) perms row

private theorem permRow_inShape (perms : List (List ℕ)) (hp : ∀ p ∈ perms, IsPerm p)
    (row : List ℕ) (h : List.Forall₂ (· < ·) row (perms.map List.length)) :
    List.Forall₂ (· < ·) (permRow perms row) (perms.map List.length) := by
  induction perms generalizing row with
  | nil => cases h; exact List.Forall₂.nil
  | cons p ps ih =>
    cases h with
    | @cons i _ r _ h1 h2 =>
      refine List.Forall₂.cons ?_ (ih (fun q hq => hp q (List.mem_cons_of_mem _ hq)) r h2)
      show p.getD i 0 < p.length
      rw [List.getD_eq_getElem _ _ h1]
      have := (hp p List.mem_cons_self).mem_iff.1 (List.getElem_mem h1)
      simpa using this

private theorem permRow_inj (perms : List (List ℕ)) (hp : ∀ p ∈ perms, IsPerm p)
    (row row' : List ℕ) (h : List.Forall₂ (· < ·) row (perms.map List.length))
    (h' : List.Forall₂ (· < ·) row' (perms.map List.length))
    (he : permRow perms row = permRow perms row') : row = row' := by
  induction perms generalizing row row' with
  | nil => cases h; cases h'; rfl
  | cons p ps ih =>
    cases h with
    | @cons i _ r _ h1 h2 =>
      cases h' with
      | @cons j _ r' _ h3 h4 =>
        simp only [permRow, List.zipWith_cons_cons, List.cons.injEq] at he
        have hij : i = j := by
          rw [List.getD_eq_getElem _ _ h1, List.getD_eq_getElem _ _ h3] at he
          exact (List.Nodup.getElem_inj_iff
            ((hp p List.mem_cons_self).nodup_iff.2 List.nodup_range)).1 he.1
        rw [hij, ih (fun q hq => hp q (List.mem_cons_of_mem _ hq)) r r' h2 h4 he.2]

private theorem makeStridePy_some (shape : List ℕ) (cstyle : Bool) (st : List ℕ)
    (h : makeStridePy shape cstyle = some st) : st = makeStride shape cstyle := by
  cases shape with
  | nil => cases h
  | cons a l =>
    simp only [makeStridePy] at h
    by_cases hc : (if cstyle = true then l.prod else (a :: l).dropLast.prod) * a < maxInt
    · rw [if_pos hc] at h
      injection h with h
      exact h.symm
    · rw [if_neg hc] at h
      cases h

/-- **C21**: `combine_permutations`: a permutation of the flat index, and for every array `T`
(a function of the multi-index) `T[np.ix_(*perms)].reshape(-1) == T.reshape(-1)[result]`, with
the reshapes in C- or F-order. -/
theorem C21_combine_permutations (perms : List (List ℕ)) (cstyle : Bool) (res : List ℕ)
    (h : combinePermutations perms cstyle = some res) (β : Type) (T : List ℕ → β) :
    IsPerm res ∧
    (makeGrid (perms.map List.length) cstyle).map (fun row => some (T (permRow perms row))) =
      res.map fun m => ((makeGrid (perms.map List.length) cstyle).map T)[m]? := by
  unfold combinePermutations at h
  split_ifs at h with hall
  have hp : ∀ p ∈ perms, IsPerm p := fun p hp =>
    (isPermutation_iff p).1 (List.all_eq_true.1 hall p hp)
  set shape := perms.map List.length with hshape
  have hst := fun st => makeStridePy_some shape cstyle st
  cases hmk : makeStridePy shape cstyle with
  | none => rw [hmk] at h; cases h
  | some st =>
    rw [hmk] at h
    obtain rfl := hst st hmk
    simp only [Option.some.injEq] at h
    have hin : ∀ row ∈ makeGrid shape cstyle, List.Forall₂ (· < ·) (permRow perms row) shape :=
      fun row hrow => permRow_inShape perms hp row (((C22_grid_complete shape cstyle).1 row).1 hrow)
    obtain ⟨hg1, hg2, hg3⟩ := C22_grid_complete shape cstyle
    have hpk := (C22_stride_grid shape cstyle).2
    have hres : res = (makeGrid shape cstyle).map
        fun row => packRow (makeStride shape cstyle) (permRow perms row) := h.symm
    have hlen : res.length = shape.prod := by rw [hres, List.length_map, hg3]
    constructor
    · unfold IsPerm
      refine perm_range_of_nodup ?_ ?_
      · rw [hres]
        refine List.Nodup.map_on ?_ hg2
        intro r hr r' hr' he
        have e1 := (hpk _ (hin r hr)).1
        have e2 := (hpk _ (hin r' hr')).1
        rw [he, e2] at e1
        injection e1 with e1
        exact permRow_inj perms hp r r' ((hg1 r).1 hr) ((hg1 r').1 hr') e1.symm
      · intro x hx
        rw [hres] at hx
        obtain ⟨r, hr, rfl⟩ := List.mem_map.1 hx
        rw [hlen]
        exact (hpk _ (hin r hr)).2
    · rw [hres, List.map_map]
      apply List.map_congr_left
      intro row hrow
      simp only [Function.comp_apply, List.getElem?_map, (hpk _ (hin row hrow)).1, Option.map_some]

/-! ## C44 -/

/-- **C44**: with `cstyle=True` the guard of `make_stride` works: if strides are returned, every
packed multi-index is below the largest machine integer. -/
theorem C44_cstyle_guard (shape st row : List ℕ) (h : makeStridePy shape true = some st)
    (hr : List.Forall₂ (· < ·) row shape) : packRow st row < maxInt := by
  unfold makeStridePy at h
  split at h
  · cases h
  · rename_i s0 ss
    simp only [if_true] at h
    split_ifs at h with hlt
    injection h with h
    subst h
    have := packRow_lt hr
    rw [List.prod_cons, Nat.mul_comm] at this
    omega

/-- **C44**, the defect: with `cstyle=False` the guard multiplies the last stride with the *first*
dimension instead of the last: strides are returned although packing the largest multi-index
exceeds the largest machine integer. -/
theorem C44_fstyle_guard_fails :
    ∃ shape st row, makeStridePy shape false = some st ∧ List.Forall₂ (· < ·) row shape ∧
      maxInt < packRow st row := by
  refine ⟨[1, 2 ^ 62, 4], [1, 1, 2 ^ 62], [0, 2 ^ 62 - 1, 3], ?_, ?_, ?_⟩
  · norm_num [makeStridePy, makeStride, strideLoop, maxInt]
  · refine .cons (by norm_num) (.cons (by norm_num) (.cons (by norm_num) .nil))
  · norm_num [packRow, maxInt]

/-- **C44**: the `cstyle=False` guard is sufficient if the last dimension is at most the first. -/
theorem C44_fstyle_guard_partial (s0 sl : ℕ) (ss st row : List ℕ) (hle : sl ≤ s0)
    (h : makeStridePy (s0 :: ss ++ [sl]) false = some st)
    (hr : List.Forall₂ (· < ·) row (s0 :: ss ++ [sl])) : packRow st row < maxInt := by
  have hb := ((C22_stride_grid (s0 :: ss ++ [sl]) false).2 row hr).2
  unfold makeStridePy at h
  simp only [List.cons_append, Bool.false_eq_true, if_false] at h
  split_ifs at h with hlt
  injection h with h
  subst h
  refine Nat.lt_of_lt_of_le hb (Nat.le_trans ?_ (Nat.le_of_lt hlt))
  rw [show (s0 :: (ss ++ [sl])).dropLast = s0 :: ss by
    rw [← List.cons_append, List.dropLast_concat]]
  rw [List.cons_append, ← List.cons_append, List.prod_append, List.prod_singleton]
  exact Nat.mul_le_mul_left _ hle

-- non-trivial instances
example : IsPerm [2, 0, 3, 1] := (C21_is_permutation _).1 (by decide)
example : inversePermutation [2, 0, 3, 1] = [1, 3, 0, 2] := by decide
example : permutationAsSwaps [2, 0, 3, 1] = some [1, 0, 2] := by decide
example : makeStride [4, 5, 2, 3] true = [30, 6, 3, 1] := by decide
example : makeStride [4, 5, 2, 3] false = [1, 4, 20, 40] := by decide
example : makeGrid [2, 3] false = [[0, 0], [1, 0], [0, 1], [1, 1], [0, 2], [1, 2]] := by decide
example : combinePermutations [[1, 0], [2, 0, 1]] true = some [5, 3, 4, 2, 0, 1] := by decide

end Cyten.Props
