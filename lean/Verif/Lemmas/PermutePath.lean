import Verif.Model.PermuteEngine
import Verif.Lemmas.Tools
import Verif.Props.Tools

/-! # Sequences of exchanges of neighbours -/

namespace Cyten.Permute
open Cyten.Tools

/-- Every exchange of a sequence concerns a pair of entries, the left one first, that satisfies `G`. -/
def Path {α : Type} (G : α → α → Prop) : List ℕ → List α → Prop
  | [], _ => True
  | j :: js, L => (∃ x y, L[j]? = some x ∧ L[j + 1]? = some y ∧ G x y) ∧ Path G js (swapAdj L j)

theorem path_append {α : Type} (G : α → α → Prop) (js ks : List ℕ) (L : List α) :
    Path G (js ++ ks) L ↔ Path G js L ∧ Path G ks (js.foldl swapAdj L) := by
  induction js generalizing L with
  | nil => simp [Path]
  | cons j js ih => simp [Path, ih, and_assoc]

theorem path_mono {α : Type} {G H : α → α → Prop} (h : ∀ x y, G x y → H x y) {js : List ℕ} {L : List α}
    (hp : Path G js L) : Path H js L := by
  induction js generalizing L with
  | nil => trivial
  | cons j js ih =>
    obtain ⟨⟨x, y, h1, h2, h3⟩, h4⟩ := hp
    exact ⟨⟨x, y, h1, h2, h _ _ h3⟩, ih h4⟩

theorem swapAdj_map {α β : Type} (f : α → β) (L : List α) (j : ℕ) : swapAdj (L.map f) j = (swapAdj L j).map f := by
  unfold swapAdj
  simp only [List.getElem?_map]
  cases L[j]? <;> cases L[j + 1]? <;> simp [List.map_set]

theorem foldl_swapAdj_map {α β : Type} (f : α → β) (js : List ℕ) (L : List α) :
    js.foldl swapAdj (L.map f) = (js.foldl swapAdj L).map f := by
  induction js generalizing L with
  | nil => rfl
  | cons j js ih => simp [swapAdj_map, ih]

theorem path_map {α β : Type} (G : β → β → Prop) (f : α → β) (js : List ℕ) (L : List α) :
    Path G js (L.map f) ↔ Path (fun x y => G (f x) (f y)) js L := by
  induction js generalizing L with
  | nil => simp [Path]
  | cons j js ih =>
    simp only [Path, swapAdj_map, ih, List.getElem?_map, Option.map_eq_some_iff]
    constructor
    · rintro ⟨⟨x, y, ⟨a, ha, rfl⟩, ⟨b, hb, rfl⟩, h⟩, h'⟩
      exact ⟨⟨a, b, ha, hb, h⟩, h'⟩
    · rintro ⟨⟨a, b, ha, hb, h⟩, h'⟩
      exact ⟨⟨_, _, ⟨a, ha, rfl⟩, ⟨b, hb, rfl⟩, h⟩, h'⟩

theorem path_block {α : Type} (G : α → α → Prop) (t d : ℕ) (o : α) (L : List α) (ho : L[t + d]? = some o)
    (h : ∀ i, i < d → ∃ x, L[t + i]? = some x ∧ G x o) : Path G (List.range' t d).reverse L := by
  induction d generalizing L with
  | zero => trivial
  | succ d ih =>
    rw [List.range'_concat, List.reverse_append, List.reverse_singleton, List.singleton_append, Nat.one_mul]
    have hlt : t + (d + 1) < L.length := (List.getElem?_eq_some_iff.1 ho).1
    obtain ⟨x, hx, hg⟩ := h d (by omega)
    refine ⟨⟨x, o, hx, ho, hg⟩, ih _ ?_ fun i hi => ?_⟩
    · rw [getElem?_swapAdj _ _ _ (by omega), if_pos rfl]; exact ho
    · obtain ⟨x, hx, hg⟩ := h i (by omega)
      refine ⟨x, ?_, hg⟩
      rw [getElem?_swapAdj _ _ _ (by omega), if_neg (by omega), if_neg (by omega)]; exact hx

/-- `y` comes before `x` in `perm`. -/
def Inv (perm : List ℕ) (x y : ℕ) : Prop := ∃ a b : ℕ, a < b ∧ perm[a]? = some y ∧ perm[b]? = some x

theorem swapLoop_path (perm : List ℕ) (hp : perm.Perm (List.range perm.length)) (t : ℕ)
    (rest : List ℕ) (hrest : rest = perm.dropLast.drop t) (cur L : List ℕ)
    (hL : L.Perm (List.range perm.length)) (hcl : cur.length = perm.length)
    (hcur : ∀ i x : ℕ, cur[i]? = some x → L[x]? = some i) (ht : t ≤ perm.length - 1)
    (hpre : ∀ k : ℕ, k < t → L[k]? = perm[k]?) :
    Path (Inv perm) (swapLoop t cur rest) L := by
  have hLl : L.length = perm.length := by simpa using hL.length_eq
  have hLnd : L.Nodup := hL.nodup_iff.2 List.nodup_range
  have hpnd : perm.Nodup := hp.nodup_iff.2 List.nodup_range
  induction rest generalizing t cur L with
  | nil =>
    trivial
  | cons o rest ih =>
    have htl : t < perm.dropLast.length := by
      by_contra hc
      rw [List.drop_eq_nil_of_le (by omega)] at hrest
      cases hrest
    have ho : perm[t]? = some o := by
      have := congrArg (fun l => l[0]?) hrest
      simp only [List.getElem?_cons_zero, List.getElem?_drop, Nat.add_zero] at this
      rw [List.getElem?_dropLast, if_pos (by simpa using htl)] at this
      exact this.symm
    have hrest' : rest = perm.dropLast.drop (t + 1) := by
      have := congrArg List.tail hrest
      simpa [List.tail_drop] using this
    simp at htl
    have hon : o < perm.length := by
      simpa using hp.mem_iff.1 (List.mem_of_getElem? ho)
    -- the current position of `o`
    have hc1 : cur[o]? = some cur[o] := List.getElem?_eq_getElem (by omega)
    have hcd : cur.getD o 0 = cur[o] := List.getD_eq_getElem _ _ (by omega)
    generalize hcval : cur[o] = c at hc1 hcd
    have hLc : L[c]? = some o := hcur o c hc1
    have hcn : c < L.length := (List.getElem?_eq_some_iff.1 hLc).1
    have htc : t ≤ c := by
      by_contra hlt
      have h1 := hpre c (by omega)
      rw [hLc] at h1
      have h2 : perm[c]? = perm[t]? := by rw [← h1, ho]
      rw [List.getElem?_eq_getElem (by omega), List.getElem?_eq_getElem (by omega)] at h2
      injection h2 with h2
      have := (List.Nodup.getElem_inj_iff hpnd).1 h2
      omega
    simp only [swapLoop, hcd]
    rw [path_append]
    refine ⟨path_block _ t (c - t) o L (by rwa [show t + (c - t) = c by omega]) ?_, ?_⟩
    · intro i hi
      have hx : L[t + i]? = some L[t + i] := List.getElem?_eq_getElem (by omega)
      refine ⟨_, hx, ?_⟩
      obtain ⟨b, hb, hb'⟩ := List.getElem_of_mem (hp.mem_iff.2 (hL.mem_iff.1 (List.mem_of_getElem? hx)))
      have hpb : perm[b]? = some L[t + i] := by rw [List.getElem?_eq_getElem hb, hb']
      refine ⟨t, b, ?_, ho, hpb⟩
      rcases Nat.lt_trichotomy b t with h | h | h
      · have h1 := hpre b h
        rw [hpb, List.getElem?_eq_getElem (by omega), Option.some.injEq, List.Nodup.getElem_inj_iff hLnd] at h1
        omega
      · subst h
        have h1 : L[b + i] = o := by rw [hpb] at ho; exact Option.some.inj ho
        have h2 : L[c]? = L[b + i]? := by rw [hLc, hx, h1]
        rw [List.getElem?_eq_getElem hcn, hx, Option.some.injEq, List.Nodup.getElem_inj_iff hLnd] at h2
        omega
      · exact h
    have hL'get : ∀ x : ℕ, ((List.range' t (c - t)).reverse.foldl swapAdj L)[x]? =
        if x = t then L[c]? else if t < x ∧ x ≤ c then L[x - 1]? else L[x]? := by
      intro x
      rw [getElem?_foldl_swap L t (c - t) x (by omega), show t + (c - t) = c by omega]
    generalize hL' : (List.range' t (c - t)).reverse.foldl swapAdj L = L' at hL'get
    have hL'l : L'.length = perm.length := by rw [← hL', length_foldl_swap, hLl]
    have hcur' : ∀ i x : ℕ, (cur.map (rolled t c))[i]? = some x → L'[x]? = some i := by
      intro i x hix
      rw [List.getElem?_map] at hix
      cases hci : cur[i]? with
      | none => rw [hci] at hix; simp at hix
      | some y =>
        rw [hci] at hix
        simp only [Option.map_some, Option.some.injEq] at hix
        have hLy := hcur i y hci
        rw [hL'get, ← hix]
        unfold rolled
        by_cases h1 : t ≤ y ∧ y < c
        · rw [if_pos h1, if_neg (by omega), if_pos (by omega)]
          simpa using hLy
        · rw [if_neg h1]
          by_cases h2 : y = c ∧ t ≤ c
          · rw [if_pos h2, if_pos rfl, ← h2.1]; exact hLy
          · rw [if_neg h2, if_neg (by omega), if_neg (by omega)]; exact hLy
    have hLnd' : L'.Nodup := by
      -- positions are injective: `L'` has all items `i < n`
      have hsub : List.range perm.length ⊆ L' := by
        intro i hi
        have hi : i < perm.length := by simpa using hi
        have h1 : (cur.map (rolled t c))[i]? = some (rolled t c cur[i]) := by
          rw [List.getElem?_map, List.getElem?_eq_getElem (by omega)]; rfl
        exact List.mem_of_getElem? (hcur' i _ h1)
      have := (List.subperm_of_subset List.nodup_range hsub).perm_of_length_le (by simp [hL'l])
      exact this.nodup_iff.1 List.nodup_range
    have hLp' : L'.Perm (List.range perm.length) := by
      have hsub : List.range perm.length ⊆ L' := by
        intro i hi
        have hi : i < perm.length := by simpa using hi
        have h1 : (cur.map (rolled t c))[i]? = some (rolled t c cur[i]) := by
          rw [List.getElem?_map, List.getElem?_eq_getElem (by omega)]; rfl
        exact List.mem_of_getElem? (hcur' i _ h1)
      exact ((List.subperm_of_subset List.nodup_range hsub).perm_of_length_le (by simp [hL'l])).symm
    refine ih (t + 1) hrest' _ L' hLp' (by simp [hcl]) hcur' (by omega) ?_ hL'l hLnd'
    intro k hk
    rw [hL'get]
    by_cases h1 : k = t
    · rw [if_pos h1, hLc, h1, ho]
    · rw [if_neg h1, if_neg (by omega)]
      exact hpre k (by omega)

/-- `permutation_as_swaps` exchanges only entries that are not yet in the right order. -/
theorem permutationAsSwaps_path (perm : List ℕ) (hp : perm.Perm (List.range perm.length)) :
    ∃ js, permutationAsSwaps perm = some js ∧ js.foldl swapAdj (List.range perm.length) = perm ∧
      Path (Inv perm) js (List.range perm.length) := by
  rcases Props.C21_permutation_as_swaps perm with ⟨h, -⟩ | ⟨-, js, h1, h2, -⟩
  · exact absurd hp h
  · refine ⟨js, h1, h2, ?_⟩
    have h3 : js = swapLoop 0 (List.range perm.length) perm.dropLast := by
      unfold permutationAsSwaps at h1
      split_ifs at h1
      exact (Option.some.inj h1).symm
    rw [h3]
    refine swapLoop_path perm hp 0 perm.dropLast (by simp) _ _ (List.Perm.refl _) (by simp) ?_ (by omega)
      (by intro k hk; omega)
    intro i x hi
    obtain ⟨hi1, hi2⟩ := List.getElem?_eq_some_iff.1 hi
    simp at hi2 hi1
    subst hi2
    exact List.getElem?_range hi1

end Cyten.Permute
