import Verif.Lemmas.TreeTensor
import Verif.Props.TreeBlocks
import Verif.Lemmas.Spaces2

/-! # Multi-indices of the flat legs: sectors, states of the sectors and degeneracies -/

namespace Cyten.FT
open Cyten.FT.Spec Cyten.Tools Cyten.ListSum Cyten.Props Cyten.Spaces Cyten.Abelian

variable {S K : Type}

/-- All choices of one entry per list. -/
def gchoices {A : Type} : List (List A) → List (List A)
  | [] => [[]]
  | x :: xs => x.flatMap fun p => (gchoices xs).map (p :: ·)

theorem gchoices_eq_grid {A : Type} (xs : List (List A)) :
    gchoices xs = (gridC (xs.map List.length)).map (rowChoice xs) := by
  induction xs with
  | nil => rfl
  | cons x xs ih =>
    simp only [gchoices, List.map_cons, gridC, List.map_flatMap, List.map_map]
    rw [flatMap_eq_range, ih]
    apply List.flatMap_congr
    intro i hi
    have hi' : i < x.length := by simpa using hi
    rw [List.getElem?_eq_getElem hi']
    simp only [Option.map_some, Option.getD_some, List.map_map]
    apply List.map_congr_left
    intro row _
    simp [rowChoice, List.getElem?_eq_getElem hi', List.reduceOption]

theorem mem_gchoices {A : Type} {xs : List (List A)} {ch : List A} :
    ch ∈ gchoices xs ↔ List.Forall₂ (· ∈ ·) ch xs := by
  induction xs generalizing ch with
  | nil => simp [gchoices]
  | cons x xs ih =>
    rw [gchoices, List.mem_flatMap]
    constructor
    · rintro ⟨p, hp, hc⟩
      obtain ⟨c', hc', rfl⟩ := List.mem_map.1 hc
      exact List.Forall₂.cons hp (ih.1 hc')
    · intro h
      cases h with
      | cons hp ht => exact ⟨_, hp, List.mem_map.2 ⟨_, ih.2 ht, rfl⟩⟩

theorem nodup_gchoices {A : Type} {xs : List (List A)} (h : ∀ x ∈ xs, x.Nodup) : (gchoices xs).Nodup := by
  induction xs with
  | nil => simp [gchoices]
  | cons x xs ih =>
    have ih' := ih fun y hy => h y (List.mem_cons_of_mem _ hy)
    rw [gchoices, List.nodup_flatMap]
    refine ⟨fun p _ => List.Nodup.map (fun a b hab => by simpa using hab) ih', ?_⟩
    refine (h x List.mem_cons_self).imp ?_
    intro p q hpq
    change List.Disjoint _ _
    rw [List.disjoint_left]
    intro u hu hv
    obtain ⟨c, _, rfl⟩ := List.mem_map.1 hu
    obtain ⟨d, _, he⟩ := List.mem_map.1 hv
    simp at he
    exact hpq he.1.symm

/-- A sector of a leg: multiplicity and start of its slice. -/
structure Cell (S : Type) where
  sec : S
  mult : ℕ
  start : ℕ
deriving DecidableEq

/-- The cells of the sectors from a start on. -/
def cellsFrom (dim : S → ℕ) : ℕ → List (S × ℕ) → List (Cell S)
  | _, [] => []
  | st, p :: ps => ⟨p.1, p.2, st⟩ :: cellsFrom dim (st + dim p.1 * p.2) ps

/-- The cells of a leg -/
def cells (dim : S → ℕ) (x : SpaceData S) : List (Cell S) := cellsFrom dim 0 (x.sectors.zip x.mults)

/-- The end of the slice -/
def Cell.stop (dim : S → ℕ) (q : Cell S) : ℕ := q.start + dim q.sec * q.mult

/-- The item for a choice of cells -/
def itemOf (dim : S → ℕ) (ch : List (Cell S)) : UItem S :=
  ⟨ch.map Cell.sec, ch.map Cell.mult, ch.map fun q => (q.start, q.stop dim)⟩

theorem cellsFrom_length (dim : S → ℕ) (st : ℕ) (ps : List (S × ℕ)) : (cellsFrom dim st ps).length = ps.length := by
  induction ps generalizing st with
  | nil => rfl
  | cons p ps ih => simp [cellsFrom, ih]

theorem cellsFrom_sec (dim : S → ℕ) (st : ℕ) (ps : List (S × ℕ)) :
    (cellsFrom dim st ps).map (fun q => (q.sec, q.mult)) = ps := by
  induction ps generalizing st with
  | nil => rfl
  | cons p ps ih => simp [cellsFrom, ih]

theorem cellsFrom_get (dim : S → ℕ) (st : ℕ) (ps : List (S × ℕ)) (i : ℕ) (hi : i < ps.length) :
    (cellsFrom dim st ps)[i]? = some ⟨ps[i].1, ps[i].2, st + ((ps.map fun p => dim p.1 * p.2).take i).sum⟩ := by
  induction ps generalizing st i with
  | nil => simp at hi
  | cons p ps ih =>
    cases i with
    | zero => simp [cellsFrom]
    | succ i =>
      simp only [cellsFrom, List.getElem?_cons_succ, List.getElem_cons_succ, List.map_cons, List.take_succ_cons,
        List.sum_cons]
      rw [ih _ i (by simpa using hi)]
      simp [Nat.add_assoc]

theorem zipWith_zip (dim : S → ℕ) (s : List S) (m : List ℕ) :
    List.zipWith (fun s m => dim s * m) s m = (s.zip m).map fun p => dim p.1 * p.2 := by
  induction s generalizing m with
  | nil => rfl
  | cons a s ih => cases m with
    | nil => rfl
    | cons b m => simp [ih]

theorem cells_get (dim : S → ℕ) (x : SpaceData S) (i : ℕ) (hi : i < x.sectors.length) (hm : i < x.mults.length) :
    (cells dim x)[i]? = some ⟨x.sectors[i], x.mults[i], (spaceSlice dim x i).1⟩ ∧
      (spaceSlice dim x i).2 = (spaceSlice dim x i).1 + dim x.sectors[i] * x.mults[i] := by
  have hl : i < (List.zipWith (fun s m => dim s * m) x.sectors x.mults).length := by simp; omega
  have h1 : (spaceSlice dim x i).1 = ((List.zipWith (fun s m => dim s * m) x.sectors x.mults).take i).sum :=
    sliceBoundaries_getD _ i hl.le
  have h2 : (spaceSlice dim x i).2 = ((List.zipWith (fun s m => dim s * m) x.sectors x.mults).take (i + 1)).sum :=
    sliceBoundaries_getD _ (i + 1) hl
  constructor
  · rw [cells, cellsFrom_get dim 0 _ i (by simp; omega), h1, zipWith_zip]
    simp
  · rw [h2, h1, List.take_succ_eq_append_getElem hl, List.sum_append]
    simp

theorem row_items [LinearOrder S] (dim : S → ℕ) (spaces : List (SpaceData S)) (h : ∀ x ∈ spaces, GoodSpace x)
    (row : List ℕ) (hr : List.Forall₂ (· < ·) row (spaces.map fun x => x.sectors.length)) :
    (⟨(List.zipWith (fun (x : SpaceData S) (i : ℕ) => x.sectors[i]?) spaces row).reduceOption,
      List.zipWith (fun (x : SpaceData S) (i : ℕ) => x.mults.getD i 0) spaces row,
      List.zipWith (spaceSlice dim) spaces row⟩ : UItem S) =
      itemOf dim (rowChoice (spaces.map (cells dim)) row) := by
  induction spaces generalizing row with
  | nil => cases hr; rfl
  | cons x spaces ih =>
    rw [List.map_cons] at hr
    cases hr with
    | @cons i _ r _ h1 h2 =>
      have hl := (h x List.mem_cons_self).len
      obtain ⟨c1, c2⟩ := cells_get dim x i h1 (by omega)
      have := ih (fun y hy => h y (List.mem_cons_of_mem _ hy)) r h2
      simp only [itemOf, UItem.mk.injEq] at this
      obtain ⟨e1, e2, e3⟩ := this
      simp only [List.zipWith_cons_cons, List.map_cons, rowChoice, c1, reduceOption_some, itemOf,
        List.getElem?_eq_getElem h1, UItem.mk.injEq]
      refine ⟨?_, ?_, ?_⟩
      · rw [e1]; rfl
      · rw [e2, List.getD_eq_getElem _ _ (by omega)]; rfl
      · rw [e3]
        congr 1
        exact Prod.ext rfl c2

theorem iterUncoupledSlices_eq [LinearOrder S] (dim : S → ℕ) (spaces : List (SpaceData S))
    (h : ∀ x ∈ spaces, GoodSpace x) :
    iterUncoupledSlices dim spaces = (gchoices (spaces.map (cells dim))).map (itemOf dim) := by
  unfold iterUncoupledSlices
  cases hs : spaces with
  | nil => simp [gchoices, itemOf]
  | cons y ys =>
    rw [← hs, if_neg (by simp [hs])]
    have hg := map_range_grid (spaces.map fun x => x.sectors.length) true fun idcs =>
      (⟨(List.zipWith (fun (x : SpaceData S) (i : ℕ) => x.sectors[i]?) spaces idcs).reduceOption,
        List.zipWith (fun (x : SpaceData S) (i : ℕ) => x.mults.getD i 0) spaces idcs,
        List.zipWith (spaceSlice dim) spaces idcs⟩ : UItem S)
    have hlen : (spaces.map (cells dim)).map List.length = spaces.map fun x => x.sectors.length := by
      rw [List.map_map]
      apply List.map_congr_left
      intro x hx
      simp [cells, cellsFrom_length, (h x hx).len]
    rw [gchoices_eq_grid, List.map_map, hlen]
    have e : gridC (spaces.map fun x => x.sectors.length) =
        makeGrid (spaces.map fun x => x.sectors.length) true := rfl
    rw [e]
    rw [List.length_map] at hg
    refine Eq.trans ?_ (hg.trans ?_)
    · rfl
    · apply List.map_congr_left
      intro row hrow
      exact row_items dim spaces h row (((C22_grid_complete _ true).1 row).1 hrow)

theorem iterUncoupled_of_slices [LinearOrder S] (dim : S → ℕ) (spaces : List (SpaceData S)) :
    (iterUncoupledSlices dim spaces).map (fun u => (u.unc, u.mults)) = TProd.iterUncoupled spaces := by
  unfold iterUncoupledSlices TProd.iterUncoupled
  by_cases h : spaces.isEmpty
  · rw [if_pos h, if_pos h]; rfl
  · rw [if_neg h, if_neg h, List.map_map]; rfl

/-! ## Sums over multi-indices -/

theorem sum_range_add [AddCommMonoid K] (n m : ℕ) (f : ℕ → K) :
    ((List.range (n + m)).map f).sum = ((List.range n).map f).sum + ((List.range m).map fun i => f (n + i)).sum := by
  rw [List.range_add, List.map_append, List.sum_append, List.map_map]; rfl

theorem sum_range_mul [AddCommMonoid K] (n m : ℕ) (f : ℕ → K) :
    ((List.range (n * m)).map f).sum =
      ((List.range n).map fun a => ((List.range m).map fun b => f (a * m + b)).sum).sum := by
  induction n with
  | zero => simp
  | succ n ih =>
    rw [Nat.succ_mul, sum_range_add, ih, List.range_succ, List.map_append, List.sum_append]
    simp

theorem sum_cells [AddCommMonoid K] (dim : S → ℕ) (st : ℕ) (ps : List (S × ℕ)) (f : ℕ → K) :
    ((List.range (ps.map fun p => dim p.1 * p.2).sum).map fun x => f (st + x)).sum =
      ((cellsFrom dim st ps).map fun q => ((List.range (dim q.sec)).map fun a =>
        ((List.range q.mult).map fun m => f (q.start + (a * q.mult + m))).sum).sum).sum := by
  induction ps generalizing st with
  | nil => simp [cellsFrom]
  | cons p ps ih =>
    simp only [List.map_cons, List.sum_cons, cellsFrom]
    rw [sum_range_add, sum_range_mul, ← ih]
    simp only [Nat.add_assoc]

/-- The dense index of a state -/
def placeOf (ch : List (Cell S)) (as ms : List ℕ) : List ℕ :=
  List.zipWith (fun (q : Cell S) (x : ℕ × ℕ) => q.start + (x.1 * q.mult + x.2)) ch (as.zip ms)

theorem placeOf_eq (dim : S → ℕ) (ch : List (Cell S)) (as ms : List ℕ) :
    (itemOf dim ch).place as ms = placeOf ch as ms := by
  unfold UItem.place placeOf itemOf
  induction ch generalizing as ms with
  | nil => simp
  | cons q ch ih =>
    cases as with
    | nil => simp
    | cons a as => cases ms with
      | nil => simp
      | cons m ms => simp only [List.map_cons, List.zip_cons_cons, List.zipWith_cons_cons, ih]

theorem sum_states [AddCommMonoid K] (dim : S → ℕ) (spaces : List (SpaceData S)) (F : List ℕ → K) :
    ((gridC (spaces.map (spaceDim dim))).map F).sum =
      ((gchoices (spaces.map (cells dim))).map fun ch => ((gridC (ch.map fun q => dim q.sec)).map fun as =>
        ((gridC (ch.map Cell.mult)).map fun ms => F (placeOf ch as ms)).sum).sum).sum := by
  induction spaces generalizing F with
  | nil => simp [gchoices, gridC, placeOf]
  | cons x spaces ih =>
    simp only [List.map_cons, gridC, gchoices, sum_flatMap]
    have h1 : spaceDim dim x = ((x.sectors.zip x.mults).map fun p => dim p.1 * p.2).sum := by
      rw [spaceDim, zipWith_zip]
    rw [h1]
    have := sum_cells dim 0 (x.sectors.zip x.mults)
      fun i => ((gridC (spaces.map (spaceDim dim))).map fun is => F (i :: is)).sum
    simp only [Nat.zero_add] at this
    simp only [List.map_map, Function.comp_def]
    rw [this]
    refine sum_congr _ fun q _ => ?_
    simp only [List.map_cons, gridC, sum_flatMap, List.map_map, Function.comp_def]
    have e : ∀ a m : ℕ, ((gridC (spaces.map (spaceDim dim))).map fun is => F ((q.start + (a * q.mult + m)) :: is)).sum =
        ((gchoices (spaces.map (cells dim))).map fun ch => ((gridC (ch.map fun q => dim q.sec)).map fun as =>
          ((gridC (ch.map Cell.mult)).map fun ms => F (placeOf (q :: ch) (a :: as) (m :: ms))).sum).sum).sum := by
      intro a m
      rw [ih]; rfl
    simp only [e]
    have e2 : ∀ a : ℕ, ((List.range q.mult).map fun m => ((gchoices (spaces.map (cells dim))).map fun ch =>
        ((gridC (ch.map fun q => dim q.sec)).map fun as => ((gridC (ch.map Cell.mult)).map fun ms =>
          F (placeOf (q :: ch) (a :: as) (m :: ms))).sum).sum).sum).sum =
        ((gchoices (spaces.map (cells dim))).map fun ch => ((gridC (ch.map fun q => dim q.sec)).map fun as =>
          ((List.range q.mult).map fun m => ((gridC (ch.map Cell.mult)).map fun ms =>
            F (placeOf (q :: ch) (a :: as) (m :: ms))).sum).sum).sum).sum := by
      intro a
      rw [sum_comm]
      refine sum_congr _ fun ch _ => ?_
      rw [sum_comm]
    simp only [e2]
    rw [sum_comm]

/-! ## Where an index is -/

theorem cellsFrom_start (dim : S → ℕ) (st : ℕ) (ps : List (S × ℕ)) :
    ∀ q ∈ cellsFrom dim st ps, st ≤ q.start := by
  induction ps generalizing st with
  | nil => simp [cellsFrom]
  | cons p ps ih =>
    intro q hq
    rcases List.mem_cons.1 hq with rfl | hq
    · exact le_rfl
    · have := ih _ q hq; omega

theorem cellsFrom_disjoint (dim : S → ℕ) (st : ℕ) (ps : List (S × ℕ)) (q q' : Cell S)
    (hq : q ∈ cellsFrom dim st ps) (hq' : q' ∈ cellsFrom dim st ps) (x : ℕ) (h1 : q.start ≤ x)
    (h2 : x < q.stop dim) (h3 : q'.start ≤ x) (h4 : x < q'.stop dim) : q = q' := by
  induction ps generalizing st with
  | nil => simp [cellsFrom] at hq
  | cons p ps ih =>
    rcases List.mem_cons.1 hq with rfl | hq <;> rcases List.mem_cons.1 hq' with rfl | hq'
    · rfl
    · have := cellsFrom_start dim _ _ q' hq'
      simp only [Cell.stop] at h2; omega
    · have := cellsFrom_start dim _ _ q hq
      simp only [Cell.stop] at h4; omega
    · exact ih _ hq hq'

theorem cellsFrom_nodup (dim : S → ℕ) (st : ℕ) (ps : List (S × ℕ)) (h : (ps.map Prod.fst).Nodup) :
    (cellsFrom dim st ps).Nodup := by
  have h1 : ((cellsFrom dim st ps).map fun q => q.sec) = ps.map Prod.fst := by
    have := congrArg (List.map Prod.fst) (cellsFrom_sec dim st ps)
    rwa [List.map_map] at this
  rw [← h1] at h
  exact List.Nodup.of_map _ h

theorem idx_mem (dim : S → ℕ) (q : Cell S) (a m : ℕ) (ha : a < dim q.sec) (hm : m < q.mult) :
    q.start ≤ q.start + (a * q.mult + m) ∧ q.start + (a * q.mult + m) < q.stop dim := by
  refine ⟨by omega, ?_⟩
  have : (a + 1) * q.mult ≤ dim q.sec * q.mult := Nat.mul_le_mul_right _ ha
  rw [Nat.succ_mul] at this
  simp only [Cell.stop]
  omega

/-- The place of a state is inside the slices of its own choice only. -/
theorem inSlices_place (dim : S → ℕ) (spaces : List (SpaceData S)) (ch ch' : List (Cell S))
    (h : List.Forall₂ (· ∈ ·) ch (spaces.map (cells dim))) (h' : List.Forall₂ (· ∈ ·) ch' (spaces.map (cells dim)))
    (as ms : List ℕ) (ha : InShape as (ch.map fun q => dim q.sec)) (hm : InShape ms (ch.map Cell.mult)) :
    inSlices (placeOf ch as ms) (itemOf dim ch').slices = true ↔ ch = ch' := by
  induction spaces generalizing ch ch' as ms with
  | nil => cases h; cases h'; simp [placeOf, itemOf, inSlices]
  | cons x spaces ih =>
    cases h with
    | @cons q _ ch _ hq hch =>
      cases h' with
      | @cons q' _ ch' _ hq' hch' =>
        cases ha with
        | @cons a _ as _ ha has =>
          cases hm with
          | @cons m _ ms _ hm hms =>
            have e := ih ch ch' hch hch' as ms has hms
            have hi := idx_mem dim q a m ha hm
            simp only [placeOf, List.zip_cons_cons, List.zipWith_cons_cons, itemOf, List.map_cons, inSlices,
              Bool.and_eq_true, decide_eq_true_eq, List.cons.injEq]
            simp only [placeOf, itemOf] at e
            rw [e]
            constructor
            · rintro ⟨⟨h1, h2⟩, rfl⟩
              exact ⟨cellsFrom_disjoint dim 0 _ q q' hq hq' _ hi.1 hi.2 h1 h2, rfl⟩
            · rintro ⟨rfl, rfl⟩
              exact ⟨hi, rfl⟩

/-- Inside the slices, the indices of the sectors and of the degeneracies are recovered. -/
theorem idx_place (dim : S → ℕ) (ch : List (Cell S)) (as ms : List ℕ)
    (ha : InShape as (ch.map fun q => dim q.sec)) (hm : InShape ms (ch.map Cell.mult)) :
    (itemOf dim ch).symIdx (placeOf ch as ms) = as ∧ (itemOf dim ch).degIdx (placeOf ch as ms) = ms := by
  induction ch generalizing as ms with
  | nil => cases ha; cases hm; simp [itemOf, UItem.symIdx, UItem.degIdx]
  | cons q ch ih =>
    cases ha with
    | @cons a _ as _ ha has =>
      cases hm with
      | @cons m _ ms _ hm hms =>
        obtain ⟨e1, e2⟩ := ih as ms has hms
        simp only [UItem.symIdx, UItem.degIdx, itemOf, placeOf] at e1 e2
        simp only [UItem.symIdx, UItem.degIdx, itemOf, placeOf, List.map_cons, List.zip_cons_cons,
          List.zipWith_cons_cons, e1, e2, List.cons.injEq, and_true]
        have : q.start + (a * q.mult + m) - q.start = m + q.mult * a := by rw [Nat.mul_comm]; omega
        rw [this]
        constructor
        · rw [Nat.add_mul_div_left _ _ (by omega), Nat.div_eq_of_lt hm, Nat.zero_add]
        · rw [Nat.add_mul_mod_self_left, Nat.mod_eq_of_lt hm]

/-- The degeneracies of an index inside the slices are in range. -/
theorem degIdx_inShape (dim : S → ℕ) (ch : List (Cell S)) (hpos : ∀ q ∈ ch, 0 < q.mult) (is : List ℕ)
    (hl : is.length = ch.length) : InShape ((itemOf dim ch).degIdx is) (ch.map Cell.mult) := by
  induction ch generalizing is with
  | nil =>
    have : is = [] := List.length_eq_zero_iff.1 (by simpa using hl)
    subst this
    exact List.Forall₂.nil
  | cons q ch ih =>
    cases is with
    | nil => simp at hl
    | cons i is =>
      have e := ih (fun q' h' => hpos q' (List.mem_cons_of_mem _ h')) is (by simpa using hl)
      simp only [UItem.degIdx, itemOf] at e
      simp only [UItem.degIdx, itemOf, List.map_cons, List.zip_cons_cons, List.zipWith_cons_cons]
      exact List.Forall₂.cons (Nat.mod_lt _ (hpos q List.mem_cons_self)) e

end Cyten.FT
