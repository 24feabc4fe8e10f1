import Verif.Lemmas.Fusion2

/-!
# The abelian case, and grids of sector indices
-/

set_option linter.unusedSectionVars false

namespace Cyten.Spaces
open Cyten.Spaces.Spec Cyten.FusionTrees Cyten.Tools Cyten.Props

variable {S : Type} [LinearOrder S]

/-- Mapping over all flat indices is mapping over the grid. -/
theorem map_range_grid {β : Type} (shape : List ℕ) (cstyle : Bool) (f : List ℕ → β) :
    (List.range shape.prod).map (fun m => f ((List.range shape.length).map
      (gridEntry m (makeStride shape cstyle) shape))) = (makeGrid shape cstyle).map f := by
  have hg := C22_grid_complete shape cstyle
  apply List.ext_getElem?
  intro m
  rw [List.getElem?_map, List.getElem?_map]
  by_cases hm : m < shape.prod
  · have hm' : m < (makeGrid shape cstyle).length := by rw [hg.2.2]; exact hm
    rw [List.getElem?_eq_getElem (by simpa using hm), List.getElem?_eq_getElem hm']
    simp only [List.getElem_range, Option.map_some, Option.some.injEq]
    congr 1
    set row := (makeGrid shape cstyle)[m] with hrow
    have hl : row.length = shape.length := ((hg.1 row).1 (List.getElem_mem hm')).length_eq
    apply List.ext_getElem?
    intro n
    by_cases hn : n < shape.length
    · rw [List.getElem?_map, List.getElem?_eq_getElem (by simpa using hn),
        List.getElem?_eq_getElem (by omega)]
      simp only [List.getElem_range, Option.map_some, Option.some.injEq]
      exact C22_grid_entry shape cstyle m n _ row (by rw [hrow, List.getElem?_eq_getElem hm'])
        (List.getElem?_eq_getElem (by omega))
    · rw [List.getElem?_eq_none (by simpa using hn), List.getElem?_eq_none (by omega)]
  · rw [List.getElem?_eq_none (by simpa using hm), List.getElem?_eq_none (by rw [hg.2.2]; omega)]
    rfl

/-- The choice at a row of indices. -/
def rowChoice {α : Type} (xs : List (List α)) (row : List ℕ) : List α :=
  (List.zipWith (fun x (i : ℕ) => x[i]?) xs row).reduceOption

theorem flatMap_eq_range {α β : Type} (x : List α) (f : α → List β) :
    x.flatMap f = (List.range x.length).flatMap fun i => (x[i]?.map f).getD [] := by
  induction x with
  | nil => rfl
  | cons a x ih =>
    rw [List.flatMap_cons, List.length_cons, List.range_succ_eq_map, List.flatMap_cons,
      List.flatMap_map, ih]
    rfl

theorem choices_eq_grid (xs : List (List (S × ℕ))) :
    choices xs = (gridC (xs.map List.length)).map (rowChoice xs) := by
  induction xs with
  | nil => rfl
  | cons x xs ih =>
    simp only [choices, List.map_cons, gridC, List.map_flatMap, List.map_map]
    rw [flatMap_eq_range, ih]
    apply List.flatMap_congr
    intro i hi
    have hi' : i < x.length := by simpa using hi
    rw [List.getElem?_eq_getElem hi']
    simp only [Option.map_some, Option.getD_some, List.map_map]
    apply List.map_congr_left
    intro row _
    simp [rowChoice, List.getElem?_eq_getElem hi', List.reduceOption]

theorem reduceOption_some {α : Type} (a : α) (l : List (Option α)) :
    (some a :: l).reduceOption = a :: l.reduceOption := rfl

theorem pairs_length (spaces : List (SpaceData S)) (h : ∀ x ∈ spaces, GoodSpace x) :
    (pairs spaces).map List.length = spaces.map fun x => x.sectors.length := by
  unfold pairs
  rw [List.map_map]
  apply List.map_congr_left
  intro x hx
  simp [(h x hx).len]

theorem row_sectors (spaces : List (SpaceData S)) (h : ∀ x ∈ spaces, GoodSpace x) (row : List ℕ)
    (hr : List.Forall₂ (· < ·) row (spaces.map fun x => x.sectors.length)) :
    (List.zipWith (fun (x : SpaceData S) (i : ℕ) => x.sectors[i]?) spaces row).reduceOption =
        (rowChoice (pairs spaces) row).map Prod.fst ∧
      List.zipWith (fun (x : SpaceData S) (i : ℕ) => x.mults.getD i 0) spaces row =
        (rowChoice (pairs spaces) row).map Prod.snd := by
  induction spaces generalizing row with
  | nil => cases hr; exact ⟨rfl, rfl⟩
  | cons x spaces ih =>
    rw [List.map_cons] at hr
    cases hr with
    | @cons i _ r _ h1 h2 =>
      obtain ⟨e1, e2⟩ := ih (fun y hy => h y (List.mem_cons_of_mem _ hy)) r h2
      have hl := (h x List.mem_cons_self).len
      have hz : (x.sectors.zip x.mults)[i]? = some (x.sectors[i], x.mults[i]'(by omega)) := by
        rw [List.getElem?_eq_getElem (by simp; omega), List.getElem_zip]
      constructor
      · simp only [List.zipWith_cons_cons, pairs, List.map_cons, rowChoice, hz,
          List.getElem?_eq_getElem h1, reduceOption_some]
        rw [e1]; rfl
      · simp only [List.zipWith_cons_cons, pairs, List.map_cons, rowChoice, hz,
          reduceOption_some]
        rw [e2, List.getD_eq_getElem _ _ (by omega)]; rfl

/-- An abelian fusion rule: exactly one outcome. -/
def SingleOutcome (R : FusionRule S) : Prop := ∀ a b, ∃ c, R.outcomes a b = [c]

theorem outV_single (R : FusionRule S) (hR : R.Lawful) (ha : R.isAbelian = true)
    (hs : SingleOutcome R) (a b : S) : outV R a b = Finsupp.single (fuse2 R a b) 1 := by
  obtain ⟨c, hc⟩ := hs a b
  unfold outV fuse2
  rw [hc]
  simp [hR.abelian_one ha a b c (by rw [hc]; simp)]

theorem foldl_singles (R : FusionRule S) (hR : R.Lawful) (ha : R.isAbelian = true)
    (hs : SingleOutcome R) (rest : List S) (a : S) :
    (rest.map fun b => Finsupp.single b 1).foldl (fun x y => mulL R x y) (Finsupp.single a 1) =
      Finsupp.single (rest.foldl (fuse2 R) a) 1 := by
  induction rest generalizing a with
  | nil => rfl
  | cons b rest ih =>
    simp only [List.map_cons, List.foldl_cons, mulL_single, Nat.mul_one, one_smul,
      outV_single R hR ha hs]
    exact ih _

theorem choiceV_abelian (R : FusionRule S) (hR : R.Lawful) (ha : R.isAbelian = true)
    (hs : SingleOutcome R) (ch : List (S × ℕ)) :
    choiceV R ch = Finsupp.single (multipleFusion R (ch.map Prod.fst)) (ch.map Prod.snd).prod := by
  unfold choiceV
  cases ch with
  | nil => simp [prodV, multipleFusion]
  | cons p ch =>
    have := foldl_singles R hR ha hs (ch.map Prod.fst) p.1
    rw [List.map_map] at this
    simp only [List.map_cons, prodV, multipleFusion]
    have e : ((ch.map fun p => Finsupp.single p.1 1).foldl (fun x y => mulL R x y)
        (Finsupp.single p.1 1) : S →₀ ℕ) = _ := this
    rw [e]
    simp

theorem grid_perm (shape : List ℕ) (c c' : Bool) : (makeGrid shape c).Perm (makeGrid shape c') := by
  rw [List.perm_ext_iff_of_nodup (C22_grid_complete shape c).2.1 (C22_grid_complete shape c').2.1]
  intro r
  rw [(C22_grid_complete shape c).1, (C22_grid_complete shape c').1]

theorem combs_eq (spaces : List (SpaceData S)) (h : ∀ x ∈ spaces, GoodSpace x) :
    (List.range (spaces.map fun x => x.sectors.length).prod).map (abelianCombination spaces) =
      (makeGrid (spaces.map fun x => x.sectors.length) false).map fun row =>
        ((rowChoice (pairs spaces) row).map Prod.fst,
          ((rowChoice (pairs spaces) row).map Prod.snd).prod) := by
  have := map_range_grid (spaces.map fun x => x.sectors.length) false fun idcs =>
    ((List.zipWith (fun (x : SpaceData S) (i : ℕ) => x.sectors[i]?) spaces idcs).reduceOption,
      (List.zipWith (fun (x : SpaceData S) (i : ℕ) => x.mults.getD i 0) spaces idcs).prod)
  rw [List.length_map] at this
  refine Eq.trans this ?_
  apply List.map_congr_left
  intro row hrow
  obtain ⟨e1, e2⟩ := row_sectors spaces h row
    (((C22_grid_complete _ false).1 row).1 hrow)
  rw [e1, e2]

theorem combs_perm (spaces : List (SpaceData S)) (h : ∀ x ∈ spaces, GoodSpace x) :
    ((List.range (spaces.map fun x => x.sectors.length).prod).map
      (abelianCombination spaces)).Perm ((choices (pairs spaces)).map fun ch =>
        (ch.map Prod.fst, (ch.map Prod.snd).prod)) := by
  rw [combs_eq spaces h, choices_eq_grid, List.map_map, pairs_length spaces h]
  exact (grid_perm _ false true).map _

theorem calcAbelian_norm (R : FusionRule S) (hR : R.Lawful) (ha : R.isAbelian = true)
    (hs : SingleOutcome R) (spaces : List (SpaceData S)) (h : ∀ x ∈ spaces, GoodSpace x) :
    Norm (calcAbelian R spaces) (prodV R (spaces.map spaceV)) := by
  unfold calcAbelian
  set combs := (List.range (spaces.map fun x => x.sectors.length).prod).map
    (abelianCombination spaces) with hc
  have hn := uniqueSorted_norm (combs.map fun c => (multipleFusion R c.1, c.2))
  have f1 : (combs.map fun c => (multipleFusion R c.1, c.2)).map Prod.fst =
      combs.map fun c => multipleFusion R c.1 := by rw [List.map_map (l := combs)]; rfl
  have f2 : (combs.map fun c => (multipleFusion R c.1, c.2)).map Prod.snd =
      combs.map Prod.snd := by rw [List.map_map (l := combs)]; rfl
  rw [f1, f2] at hn
  have e : vec (combs.map fun c => (multipleFusion R c.1, c.2)) = prodV R (spaces.map spaceV) := by
    rw [vec_perm ((combs_perm spaces h).map fun c => (multipleFusion R c.1, c.2))]
    have e1 : spaces.map spaceV = (pairs spaces).map vec := by
      unfold pairs; rw [List.map_map]; rfl
    rw [e1, prodV_choices, List.map_map]
    generalize choices (pairs spaces) = l
    induction l with
    | nil => rfl
    | cons ch l ih =>
      simp only [List.map_cons, vec_cons, List.sum_cons, Function.comp_apply]
      rw [ih, choiceV_abelian R hR ha hs]
  rw [e] at hn
  exact hn

theorem calcAbelian_pos (R : FusionRule S) (spaces : List (SpaceData S))
    (h : ∀ x ∈ spaces, GoodSpace x) (hp : ∀ x ∈ spaces, ∀ m ∈ x.mults, 0 < m) :
    Pos (calcAbelian R spaces) := by
  unfold calcAbelian
  set combs := (List.range (spaces.map fun x => x.sectors.length).prod).map
    (abelianCombination spaces) with hc
  have hn := uniqueSorted_pos (combs.map fun c => (multipleFusion R c.1, c.2)) (by
    intro p hpm
    obtain ⟨c, hcm, rfl⟩ := List.mem_map.1 hpm
    have := (combs_perm spaces h).mem_iff.1 hcm
    obtain ⟨ch, hch, rfl⟩ := List.mem_map.1 this
    simp only
    apply List.prod_pos
    intro m hm
    obtain ⟨q, hq, rfl⟩ := List.mem_map.1 hm
    -- every entry of a choice is an entry of one of the spaces
    have key : ∀ (xs : List (List (S × ℕ))) (ch : List (S × ℕ)), ch ∈ choices xs →
        ∀ q ∈ ch, ∃ x ∈ xs, q ∈ x := by
      intro xs
      induction xs with
      | nil =>
        intro ch hch q hq
        simp only [choices, List.mem_singleton] at hch
        subst hch; cases hq
      | cons x xs ih =>
        intro ch hch q hq
        simp only [choices, List.mem_flatMap, List.mem_map] at hch
        obtain ⟨p, hp, c', hc', rfl⟩ := hch
        rcases List.mem_cons.1 hq with rfl | hq
        · exact ⟨x, List.mem_cons_self, hp⟩
        · obtain ⟨y, hy, hqy⟩ := ih c' hc' q hq
          exact ⟨y, List.mem_cons_of_mem _ hy, hqy⟩
    obtain ⟨x, hx, hqx⟩ := key _ ch hch q hq
    obtain ⟨y, hy, rfl⟩ := List.mem_map.1 hx
    exact hp y hy _ (List.of_mem_zip hqx).2)
  have f1 : (combs.map fun c => (multipleFusion R c.1, c.2)).map Prod.fst =
      combs.map fun c => multipleFusion R c.1 := by rw [List.map_map (l := combs)]; rfl
  have f2 : (combs.map fun c => (multipleFusion R c.1, c.2)).map Prod.snd =
      combs.map Prod.snd := by rw [List.map_map (l := combs)]; rfl
  rw [f1, f2] at hn
  exact hn

/-- What the symmetry must satisfy for the sectors of products. -/
structure FusionOK (R : FusionRule S) (unique : Bool) : Prop where
  lawful : R.Lawful
  unique_one : unique = true → ∀ a b c, c ∈ R.outcomes a b → R.rawN a b c = 1
  abelian_single : R.isAbelian = true → SingleOutcome R

theorem calcSectors_norm (R : FusionRule S) (unique : Bool) (hR : FusionOK R unique)
    (spaces : List (SpaceData S)) (h : ∀ x ∈ spaces, GoodSpace x) :
    Norm (calcSectors R unique spaces) (prodV R (spaces.map spaceV)) := by
  unfold calcSectors
  by_cases hc : (R.isAbelian && decide (2 ≤ spaces.length)) = true
  · rw [if_pos hc]
    have ha : R.isAbelian = true := (Bool.and_eq_true _ _ ▸ hc).1
    exact calcAbelian_norm R hR.lawful ha (hR.abelian_single ha) spaces h
  · rw [if_neg hc]
    have := calcRev_norm R unique hR.unique_one spaces.reverse
      (fun x hx => h x (List.mem_reverse.1 hx))
    rwa [List.reverse_reverse] at this

theorem calcSectors_pos (R : FusionRule S) (unique : Bool) (hR : FusionOK R unique)
    (spaces : List (SpaceData S)) (h : ∀ x ∈ spaces, GoodSpace x)
    (hp : ∀ x ∈ spaces, ∀ m ∈ x.mults, 0 < m) : Pos (calcSectors R unique spaces) := by
  unfold calcSectors
  by_cases hc : (R.isAbelian && decide (2 ≤ spaces.length)) = true
  · rw [if_pos hc]; exact calcAbelian_pos R spaces h hp
  · rw [if_neg hc]
    exact calcRev_pos R hR.lawful unique _ fun x hx => hp x (List.mem_reverse.1 hx)

end Cyten.Spaces
