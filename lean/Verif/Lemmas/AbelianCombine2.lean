import Verif.Lemmas.AbelianCombine

/-! # The basis vectors before and after `combine_legs` -/

namespace Cyten.Abelian
open Cyten.Tables Cyten.Tools Cyten.Spaces Cyten.Spaces.Spec Cyten.Props Cyten.Abelian.Spec
open Cyten.Spaces.APipe

variable {S K : Type} [LinearOrder S]

/-- The place of the basis vector `(c, q)` of the legs of a segment in the block of the new leg. -/
def segPos (s : Seg S) (c q : List ℕ) : ℕ :=
  packRow (makeStride (rv s.rev (shapeOf (legMults s.legs) c)) true) (rv s.rev q) + (s.slice c).1

/-- `(row', pos')` is the basis vector of the combined legs for the basis vector `(row, pos)`. -/
inductive Fuses : List (Seg S) → List ℕ → List ℕ → List ℕ → List ℕ → Prop
  | nil : Fuses [] [] [] [] []
  | cons {s : Seg S} {ss : List (Seg S)} {c q row pos row' pos' : List ℕ} :
      IsIndex (legMults s.legs) c q → Fuses ss row pos row' pos' →
      Fuses (s :: ss) (c ++ row) (q ++ pos) (s.newIdx c :: row') (segPos s c q :: pos')

/-- The multiplicities of the legs before combining. -/
abbrev oldM (segs : List (Seg S)) : List (List ℕ) := legMults (segs.flatMap Seg.legs)

/-- The multiplicities of the legs after combining. -/
abbrev newM (segs : List (Seg S)) : List (List ℕ) := legMults (segs.map Seg.leg)

theorem oldM_cons (s : Seg S) (ss : List (Seg S)) : oldM (s :: ss) = legMults s.legs ++ oldM ss := by
  simp [oldM, legMults]

theorem newM_cons (s : Seg S) (ss : List (Seg S)) : newM (s :: ss) = s.leg.mults :: newM ss := rfl

theorem length_legMults (l : List (ESpace S)) : (legMults l).length = l.length := by simp [legMults]

theorem shapeOf_append {M M' : List (List ℕ)} {r r' : List ℕ} (h : M.length = r.length) :
    shapeOf (M ++ M') (r ++ r') = shapeOf M r ++ shapeOf M' r' := by
  unfold shapeOf
  exact List.zipWith_append h

theorem isIndex_append {M M' : List (List ℕ)} {r r' p p' : List ℕ} (h : IsIndex M r p)
    (h' : IsIndex M' r' p') : IsIndex (M ++ M') (r ++ r') (p ++ p') := by
  refine ⟨?_, ?_⟩
  · rw [List.map_append]; exact inShape_append h.1 h'.1
  · rw [shapeOf_append (by simpa using h.1.length.symm)]; exact inShape_append h.2 h'.2

theorem isIndex_split {M M' : List (List ℕ)} {r p : List ℕ} (h : IsIndex (M ++ M') r p) :
    ∃ c q r' p', r = c ++ r' ∧ p = q ++ p' ∧ IsIndex M c q ∧ IsIndex M' r' p' := by
  obtain ⟨h1, h2⟩ := h
  have hl : r.length = M.length + M'.length := by simpa using h1.length
  have hc : (r.take M.length).length = M.length := by rw [List.length_take]; omega
  rw [← List.take_append_drop M.length r, List.map_append] at h1
  obtain ⟨a1, a2⟩ := (inShape_append_iff (by rw [hc, List.length_map])).1 h1
  rw [← List.take_append_drop M.length r, shapeOf_append hc.symm] at h2
  have hs : (shapeOf M (r.take M.length)).length = M.length := length_shapeOf _ _ hc
  have hpl := h2.length
  rw [List.length_append, hs] at hpl
  rw [← List.take_append_drop M.length p] at h2
  obtain ⟨b1, b2⟩ := (inShape_append_iff (by rw [hs, List.length_take]; omega)).1 h2
  exact ⟨_, _, _, _, (List.take_append_drop M.length r).symm, (List.take_append_drop M.length p).symm,
    ⟨a1, b1⟩, ⟨a2, b2⟩⟩

theorem isIndex_length {M : List (List ℕ)} {r p : List ℕ} (h : IsIndex M r p) :
    r.length = M.length ∧ p.length = M.length := by
  have h1 : r.length = M.length := by simpa using h.1.length
  exact ⟨h1, by rw [h.2.length, length_shapeOf _ _ h1]⟩

theorem exists_pack (shape : List ℕ) (n : ℕ) (h : n < shape.prod) :
    ∃ r, InShape r shape ∧ packRow (makeStride shape true) r = n := by
  have hl := (C22_grid_complete shape true).2.2
  have hn : n < (makeGrid shape true).length := by rw [hl]; exact h
  exact ⟨_, ((C22_grid_complete shape true).1 _).1 (List.getElem_mem hn),
    (C22_stride_grid shape true).1 n _ (List.getElem?_eq_getElem hn)⟩

section One
variable {s : Seg S}

theorem segPos_mem (hs : SegOK s) {c q : List ℕ} (h : IsIndex (legMults s.legs) c q) :
    s.newIdx c < s.leg.mults.length ∧ (s.slice c).1 ≤ segPos s c q ∧ segPos s c q < (s.slice c).2 ∧
    segPos s c q < s.leg.mults.getD (s.newIdx c) 0 := by
  have h1 := packRow_lt (inShape_rv (b := s.rev).2 h.2)
  rw [prod_rv] at h1
  have h2 := hs.size c h.1
  have h3 := hs.stop_le c h.1
  unfold segPos
  exact ⟨hs.new_lt c h.1, by omega, by omega, by omega⟩

theorem segPos_surj (hs : SegOK s) {J o : ℕ} (h : o < s.leg.mults.getD J 0) :
    ∃ c q, IsIndex (legMults s.legs) c q ∧ s.newIdx c = J ∧ segPos s c q = o := by
  obtain ⟨c, hc, hJ, h1, h2⟩ := hs.exh J o h
  have h3 := hs.size c hc
  obtain ⟨r, hr, hp⟩ := exists_pack (rv s.rev (shapeOf (legMults s.legs) c)) (o - (s.slice c).1) (by
    rw [prod_rv]; omega)
  refine ⟨c, rv s.rev r, ⟨hc, ?_⟩, hJ, ?_⟩
  · rw [← rv_rv s.rev (shapeOf (legMults s.legs) c)]
    exact inShape_rv.2 hr
  · unfold segPos
    rw [rv_rv, hp]
    omega

theorem segPos_inj (hs : SegOK s) {c q c' q' : List ℕ} (h : IsIndex (legMults s.legs) c q)
    (h' : IsIndex (legMults s.legs) c' q') (hJ : s.newIdx c = s.newIdx c')
    (ho : segPos s c q = segPos s c' q') : c = c' ∧ q = q' := by
  obtain ⟨-, a1, a2, -⟩ := segPos_mem hs h
  obtain ⟨-, b1, b2, -⟩ := segPos_mem hs h'
  have hc : c = c' := hs.uniq c c' h.1 h'.1 hJ _ a1 a2 (by rw [ho]; exact b1) (by rw [ho]; exact b2)
  subst hc
  refine ⟨rfl, ?_⟩
  unfold segPos at ho
  have := pack_injective (inShape_rv (b := s.rev).2 h.2) (inShape_rv (b := s.rev).2 h'.2) (by omega)
  rw [← rv_rv s.rev q, this, rv_rv]

end One

section Many
variable {segs : List (Seg S)} {row pos row' pos' : List ℕ}

theorem Fuses.old (h : Fuses segs row pos row' pos') : IsIndex (oldM segs) row pos := by
  induction h with
  | nil => exact ⟨.nil, .nil⟩
  | cons h1 _ ih => rw [oldM_cons]; exact isIndex_append h1 ih

theorem Fuses.new (hs : ∀ s ∈ segs, SegOK s) (h : Fuses segs row pos row' pos') :
    IsIndex (newM segs) row' pos' := by
  induction h with
  | nil => exact ⟨.nil, .nil⟩
  | @cons s ss c q row pos row' pos' h1 _ ih =>
    obtain ⟨a1, -, -, a4⟩ := segPos_mem (hs s List.mem_cons_self) h1
    have ih := ih fun x hx => hs x (List.mem_cons_of_mem _ hx)
    exact ⟨.cons a1 ih.1, .cons a4 ih.2⟩

theorem fuses_of_old (h : IsIndex (oldM segs) row pos) : ∃ row' pos', Fuses segs row pos row' pos' := by
  induction segs generalizing row pos with
  | nil =>
    obtain ⟨h1, h2⟩ := h
    cases h1
    cases h2
    exact ⟨[], [], .nil⟩
  | cons s ss ih =>
    rw [oldM_cons] at h
    obtain ⟨c, q, r', p', rfl, rfl, h1, h2⟩ := isIndex_split h
    obtain ⟨row', pos', h3⟩ := ih h2
    exact ⟨_, _, .cons h1 h3⟩

theorem fuses_of_new (hs : ∀ s ∈ segs, SegOK s) (h : IsIndex (newM segs) row' pos') :
    ∃ row pos, Fuses segs row pos row' pos' := by
  induction segs generalizing row' pos' with
  | nil =>
    obtain ⟨h1, h2⟩ := h
    cases h1
    cases h2
    exact ⟨[], [], .nil⟩
  | cons s ss ih =>
    obtain ⟨h1, h2⟩ := h
    rw [newM_cons] at h1 h2
    obtain ⟨b, bs, hb, hbs, rfl⟩ := List.forall₂_cons_right_iff.1 h1
    obtain ⟨o, os, ho, hos, rfl⟩ := List.forall₂_cons_right_iff.1 h2
    obtain ⟨row, pos, h3⟩ := ih (fun x hx => hs x (List.mem_cons_of_mem _ hx)) ⟨hbs, hos⟩
    obtain ⟨c, q, hcq, rfl, rfl⟩ := segPos_surj (hs s List.mem_cons_self) ho
    exact ⟨_, _, .cons hcq h3⟩

theorem Fuses.inj (hs : ∀ s ∈ segs, SegOK s) (h : Fuses segs row pos row' pos')
    {row₂ pos₂ : List ℕ} (h' : Fuses segs row₂ pos₂ row' pos') : row₂ = row ∧ pos₂ = pos := by
  induction h generalizing row₂ pos₂ with
  | nil => cases h'; exact ⟨rfl, rfl⟩
  | @cons s ss c q row pos row' pos' h1 _ ih =>
    generalize hJ : s.newIdx c = J at h'
    generalize ho : segPos s c q = o at h'
    cases h' with
    | @cons _ _ c' q' r' p' _ _ h1' h2' =>
      obtain ⟨rfl, rfl⟩ := segPos_inj (hs s List.mem_cons_self) h1 h1' hJ ho
      obtain ⟨rfl, rfl⟩ := ih (fun x hx => hs x (List.mem_cons_of_mem _ hx)) h2'
      exact ⟨rfl, rfl⟩

theorem combineRow_cons {s : Seg S} {ss : List (Seg S)} {c row : List ℕ} (h : c.length = s.legs.length) :
    combineRow (s :: ss) (c ++ row) = s.newIdx c :: combineRow ss row ∧
    combineSlices (s :: ss) (c ++ row) = s.slice c :: combineSlices ss row := by
  unfold combineRow combineSlices widths
  rw [List.map_cons, chunks, ← h, List.take_left, List.drop_left]
  exact ⟨rfl, rfl⟩

theorem total_pieces (segs : List (Seg S)) : total (pieces segs) = (oldM segs).length := by
  induction segs with
  | nil => rfl
  | cons s ss ih =>
    rw [oldM_cons, List.length_append, ← ih, length_legMults]
    rfl

theorem Fuses.fun_ (h : Fuses segs row pos row' pos') :
    row' = combineRow segs row ∧
    pos' = List.zipWith (fun x (s : ℕ × ℕ) => x + s.1) (packsW (pieces segs) (shapeOf (oldM segs) row) pos)
      (combineSlices segs row) ∧
    List.zipWith (fun x (s : ℕ × ℕ) => x - s.1) pos' (combineSlices segs row) =
      packsW (pieces segs) (shapeOf (oldM segs) row) pos := by
  induction h with
  | nil => exact ⟨rfl, rfl, rfl⟩
  | @cons s ss c q row pos row' pos' h1 _ ih =>
    obtain ⟨i1, i2, i3⟩ := ih
    obtain ⟨l1, l2⟩ := isIndex_length h1
    have l3 := length_legMults s.legs
    obtain ⟨e1, e2⟩ := combineRow_cons (ss := ss) (row := row) (l1.trans l3)
    have e3 : packsW (pieces (s :: ss)) (shapeOf (oldM (s :: ss)) (c ++ row)) (q ++ pos) =
        packRow (makeStride (rv s.rev (shapeOf (legMults s.legs) c)) true) (rv s.rev q) ::
          packsW (pieces ss) (shapeOf (oldM ss) row) pos := by
      rw [oldM_cons, shapeOf_append l1.symm]
      show packRow (makeStride (rv s.rev (List.take s.legs.length _)) true) (rv s.rev (List.take s.legs.length _)) ::
        packsW (pieces ss) (List.drop s.legs.length _) (List.drop s.legs.length _) = _
      have l4 : (shapeOf (legMults s.legs) c).length = s.legs.length := by
        rw [length_shapeOf _ _ l1, l3]
      rw [List.take_left' l4, List.drop_left' l4, List.take_left' (l2.trans l3),
        List.drop_left' (l2.trans l3)]
    rw [e1, e2, e3, ← i1]
    refine ⟨rfl, ?_, ?_⟩
    · rw [List.zipWith_cons_cons, ← i2]; rfl
    · rw [List.zipWith_cons_cons, i3]
      unfold segPos
      rw [Nat.add_sub_cancel]

theorem Fuses.inSlices (hs : ∀ s ∈ segs, SegOK s) (h : Fuses segs row pos row' pos') :
    inSlices pos' (combineSlices segs row) = true := by
  induction h with
  | nil => rfl
  | @cons s ss c q row pos row' pos' h1 _ ih =>
    obtain ⟨-, a2, a3, -⟩ := segPos_mem (hs s List.mem_cons_self) h1
    have ih := ih fun x hx => hs x (List.mem_cons_of_mem _ hx)
    rw [(combineRow_cons ((isIndex_length h1).1.trans (length_legMults _))).2]
    show (decide _ && decide _ && Abelian.inSlices _ _) = true
    rw [ih, decide_eq_true a2, decide_eq_true a3]
    rfl

/-- Only one row puts a block at a place of the new block. -/
theorem Fuses.row_uniq (hs : ∀ s ∈ segs, SegOK s) (h : Fuses segs row pos row' pos')
    {row₂ : List ℕ} (h₂ : InShape row₂ ((oldM segs).map List.length)) (hr : combineRow segs row₂ = row')
    (hin : Abelian.inSlices pos' (combineSlices segs row₂) = true) : row₂ = row := by
  induction h generalizing row₂ with
  | nil => cases h₂; rfl
  | @cons s ss c q row pos row' pos' h1 _ ih =>
    rw [oldM_cons, List.map_append] at h₂
    obtain ⟨c₂, r₂, rfl, hl, hc₂, hr₂⟩ : ∃ c₂ r₂, row₂ = c₂ ++ r₂ ∧ c₂.length = s.legs.length ∧
        InShape c₂ ((legMults s.legs).map List.length) ∧
        InShape r₂ ((oldM ss).map List.length) := by
      have hl := h₂.length
      rw [List.length_append, List.length_map, List.length_map, length_legMults] at hl
      have ht : (row₂.take s.legs.length).length = s.legs.length := by rw [List.length_take]; omega
      rw [← List.take_append_drop s.legs.length row₂] at h₂
      obtain ⟨a, b⟩ := (inShape_append_iff (by rw [ht, List.length_map, length_legMults])).1 h₂
      exact ⟨_, _, (List.take_append_drop _ _).symm, ht, a, b⟩
    obtain ⟨e1, e2⟩ := combineRow_cons (ss := ss) (row := r₂) hl
    rw [e1] at hr
    rw [e2] at hin
    have hs0 := hs s List.mem_cons_self
    obtain ⟨hJ, hrr⟩ := List.cons.inj hr
    have hin' : (decide ((s.slice c₂).1 ≤ segPos s c q) && decide (segPos s c q < (s.slice c₂).2) &&
      Abelian.inSlices pos' (combineSlices ss r₂)) = true := hin
    rw [Bool.and_eq_true, Bool.and_eq_true, decide_eq_true_eq, decide_eq_true_eq] at hin'
    obtain ⟨⟨b1, b2⟩, b3⟩ := hin'
    obtain ⟨-, a1, a2, -⟩ := segPos_mem hs0 h1
    have := hs0.uniq c₂ c hc₂ h1.1 hJ _ b1 b2 a1 a2
    rw [this, ih (fun x hx => hs x (List.mem_cons_of_mem _ hx)) hr₂ hrr b3]

theorem combineRow_inShape (hs : ∀ s ∈ segs, SegOK s) (h : InShape row ((oldM segs).map List.length)) :
    InShape (combineRow segs row) ((newM segs).map List.length) := by
  induction segs generalizing row with
  | nil => exact .nil
  | cons s ss ih =>
    rw [oldM_cons, List.map_append] at h
    have hl := h.length
    rw [List.length_append, List.length_map, List.length_map, length_legMults] at hl
    have ht : (row.take s.legs.length).length = s.legs.length := by rw [List.length_take]; omega
    rw [← List.take_append_drop s.legs.length row] at h ⊢
    obtain ⟨a, b⟩ := (inShape_append_iff (by rw [ht, List.length_map, length_legMults])).1 h
    rw [(combineRow_cons ht).1]
    exact .cons ((hs s List.mem_cons_self).new_lt _ a) (ih (fun x hx => hs x (List.mem_cons_of_mem _ hx)) b)

/-- The rows of the grid of `split_legs`. -/
theorem mem_splitChoices (hs : ∀ s ∈ segs, SegOK s) (h : InShape row' ((newM segs).map List.length))
    (ch : List (List ℕ × ℕ × ℕ)) :
    ch ∈ splitChoices segs row' ↔ ∃ row, InShape row ((oldM segs).map List.length) ∧
      combineRow segs row = row' ∧ ch.flatMap Prod.fst = row ∧ ch.map Prod.snd = combineSlices segs row ∧
      ch.map (fun x => x.1.length) = widths segs := by
  induction segs generalizing row' ch with
  | nil =>
    cases h
    constructor
    · intro h
      rw [List.mem_singleton.1 h]
      exact ⟨[], .nil, rfl, rfl, rfl, rfl⟩
    · rintro ⟨row, h1, -, -, h2, -⟩
      cases h1
      rw [List.map_eq_nil_iff.1 h2]
      exact List.mem_singleton.2 rfl
  | cons s ss ih =>
    rw [newM_cons] at h
    obtain ⟨b, bs, hb, hbs, rfl⟩ := List.forall₂_cons_right_iff.1 h
    have hs0 := hs s List.mem_cons_self
    have ih := fun ch => ih (fun x hx => hs x (List.mem_cons_of_mem _ hx)) hbs ch
    rw [splitChoices, List.mem_flatMap]
    constructor
    · rintro ⟨c0, hc0, hch⟩
      obtain ⟨ch', hch', rfl⟩ := List.mem_map.1 hch
      obtain ⟨r, r1, r2, r3, r4, r5⟩ := (ih ch').1 hch'
      obtain ⟨c, hc, hJ, rfl⟩ := (hs0.choices b hb c0).1 hc0
      have hl : c.length = s.legs.length := by rw [hc.length, List.length_map, length_legMults]
      obtain ⟨e1, e2⟩ := combineRow_cons (ss := ss) (row := r) hl
      refine ⟨c ++ r, ?_, ?_, ?_, ?_, ?_⟩
      · rw [oldM_cons, List.map_append]; exact inShape_append hc r1
      · rw [e1, hJ, r2]
      · rw [List.flatMap_cons, r3]
      · rw [e2, List.map_cons, r4]
      · rw [List.map_cons, r5, hl]; rfl
    · rintro ⟨row, r1, r2, r3, r4, r5⟩
      cases ch with
      | nil => cases r5
      | cons c0 ch' =>
        rw [List.map_cons] at r4 r5
        have hl : c0.1.length = s.legs.length := (List.cons.inj r5).1
        rw [List.flatMap_cons] at r3
        subst r3
        obtain ⟨e1, e2⟩ := combineRow_cons (ss := ss) (row := ch'.flatMap Prod.fst) hl
        rw [e1] at r2
        rw [e2] at r4
        rw [oldM_cons, List.map_append] at r1
        obtain ⟨a1, a2⟩ := (inShape_append_iff (by rw [hl, List.length_map, length_legMults])).1 r1
        refine ⟨c0, (hs0.choices b hb c0).2 ⟨c0.1, a1, (List.cons.inj r2).1, ?_⟩,
          List.mem_map_of_mem ((ih ch').2 ⟨_, a2, (List.cons.inj r2).2, rfl, (List.cons.inj r4).2,
            (List.cons.inj r5).2⟩)⟩
        rw [← (List.cons.inj r4).1]

theorem nodup_splitChoices (hs : ∀ s ∈ segs, SegOK s) (h : InShape row' ((newM segs).map List.length)) :
    ((splitChoices segs row').map fun ch => ch.flatMap Prod.fst).Nodup := by
  induction segs generalizing row' with
  | nil =>
    cases h
    simp [splitChoices]
  | cons s ss ih =>
    rw [newM_cons] at h
    obtain ⟨b, bs, hb, hbs, rfl⟩ := List.forall₂_cons_right_iff.1 h
    have hs0 := hs s List.mem_cons_self
    have ih := ih (fun x hx => hs x (List.mem_cons_of_mem _ hx)) hbs
    have hnd := hs0.nodup b
    have hlen : ∀ c ∈ s.choices b, c.1.length = s.legs.length := by
      intro c hc
      obtain ⟨c', hc', -, rfl⟩ := (hs0.choices b hb c).1 hc
      rw [hc'.length, List.length_map, length_legMults]
    rw [splitChoices, List.map_flatMap]
    rw [List.nodup_flatMap]
    constructor
    · intro c hc
      rw [List.map_map]
      have : (fun ch : List (List ℕ × ℕ × ℕ) => ch.flatMap Prod.fst) ∘ (c :: ·) =
          (c.1 ++ ·) ∘ fun ch => ch.flatMap Prod.fst := by
        funext ch; simp
      rw [this, ← List.map_map]
      exact ih.map fun x y hxy => List.append_cancel_left hxy
    · unfold List.Nodup at hnd
      rw [List.pairwise_map] at hnd
      refine hnd.imp_of_mem fun {c c'} hc hc' hne => ?_
      intro x hx hx'
      simp only [List.map_map] at hx hx'
      obtain ⟨y, -, rfl⟩ := List.mem_map.1 hx
      obtain ⟨y', -, he⟩ := List.mem_map.1 hx'
      have he' : c'.1 ++ y'.flatMap Prod.fst = c.1 ++ y.flatMap Prod.fst := he
      exact hne (List.append_inj_left he' (by rw [hlen c hc, hlen c' hc'])).symm

end Many

end Cyten.Abelian
