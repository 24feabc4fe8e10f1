import Verif.Props.AbelianCombine
import Mathlib.Data.List.ReduceOption

/-! # C49: `combine_legs` and `split_legs` respect the charge rule; an example -/

namespace Cyten.Props
open Cyten.Abelian Cyten.Abelian.Spec Cyten.Tables Cyten.Tools Cyten.ListSum Cyten.Spaces
open Cyten.Spaces.Spec Cyten.Spaces.APipe

variable {S K : Type} [LinearOrder S]

section Charge
variable {sym : Sym S} {R : Cyten.FusionRule S}

theorem multipleFusion_append (h : AbelianLaws sym R) (l m : List S) (hl : l ≠ []) (hm : m ≠ []) :
    multipleFusion R (l ++ m) = fuse2 R (multipleFusion R l) (multipleFusion R m) := by
  induction l with
  | nil => exact absurd rfl hl
  | cons a l ih =>
    by_cases hl' : l = []
    · subst hl'
      rw [List.singleton_append, multipleFusion_cons h a m hm]
      rfl
    · rw [List.cons_append, multipleFusion_cons h a _ (by simp [hl']), ih hl',
        multipleFusion_cons h a l hl', h.assoc]

/-- The sectors selected by a row. -/
def selected (sym : Sym S) (legs : List (ESpace S)) (row : List ℕ) : List S :=
  (List.zipWith (fun (e : ESpace S) i => (e.sectors sym)[i]?) legs row).reduceOption

theorem fusedCharge_eq (legs : List (ESpace S)) (row : List ℕ) :
    fusedCharge R (legs.map (toBLeg sym)) row = multipleFusion R (selected sym legs row) := by
  unfold fusedCharge selected
  rw [List.zipWith_map_left]
  rfl

theorem selected_append {l m : List (ESpace S)} {r t : List ℕ} (h : l.length = r.length) :
    selected sym (l ++ m) (r ++ t) = selected sym l r ++ selected sym m t := by
  unfold selected
  rw [List.zipWith_append h, List.reduceOption_append]

theorem selected_of_picks {legs : List (ESpace S)} {idcs : List ℕ} {cs : List S} {ms : List ℕ}
    (h : Picks sym legs idcs cs ms) : selected sym legs idcs = cs := by
  induction h with
  | nil => rfl
  | @cons e legs i idcs s cs m ms hs hm _ ih =>
    unfold selected at ih ⊢
    rw [List.zipWith_cons_cons, hs, List.reduceOption_cons_of_some, ih]

theorem length_selected {legs : List (ESpace S)} (hv : ∀ e ∈ legs, ValidSpace sym e) {row : List ℕ}
    (h : InShape row ((legMults legs).map List.length)) :
    (selected sym legs row).length = legs.length := by
  induction legs generalizing row with
  | nil => cases h; rfl
  | cons e es ih =>
    obtain ⟨b, bs, hb, hbs, rfl⟩ := List.forall₂_cons_right_iff.1 h
    have hve := hv e List.mem_cons_self
    have ih := ih (fun x hx => hv x (List.mem_cons_of_mem _ hx)) hbs
    have hs : (e.sectors sym)[b]? = some ((e.sectors sym)[b]'(by
        rw [sectors_length hve]; exact hb)) := List.getElem?_eq_getElem _
    unfold selected at ih ⊢
    rw [List.zipWith_cons_cons, hs, List.reduceOption_cons_of_some, List.length_cons, ih,
      List.length_cons]

/-- A leg, or a pipe that is not in the domain. -/
def notInDomain : Seg S → Prop
  | .keep _ => True
  | .pipe _ d => d = false

theorem segSectors_eq {legs : List (ESpace S)} (hv : ∀ e ∈ legs, ValidSpace sym e) :
    (legMults legs).map List.length = numSectors legs := by
  unfold legMults numSectors
  rw [List.map_map]
  exact List.map_congr_left fun e he => (hv e he).lengths

theorem seg_valid_legs {s : Seg S} (hs : SegValid sym R s) : ∀ e ∈ s.legs, ValidSpace sym e := by
  cases s with
  | keep e => intro x hx; rw [List.mem_singleton.1 hx]; exact hs
  | pipe p d =>
    intro x hx
    refine (hs.2 x ?_).1
    cases d
    · exact hx
    · exact List.mem_reverse.1 hx

theorem seg_legs_ne {s : Seg S} (hs : SegValid sym R s) : s.legs ≠ [] := by
  cases s with
  | keep e => simp [Seg.legs]
  | pipe p d =>
    have := (make_spec hs.1).1
    cases d
    · exact this
    · show p.legs.reverse ≠ []
      simpa using this

theorem seg_charge (hl : AbelianLaws sym R) {s : Seg S} (hs : SegValid sym R s) (hn : notInDomain s)
    {c : List ℕ} (hc : InShape c ((legMults s.legs).map List.length)) :
    (s.leg.sectors sym)[s.newIdx c]? = some (multipleFusion R (selected sym s.legs c)) := by
  cases s with
  | keep e =>
    obtain ⟨b, t, hb, ht, rfl⟩ := List.forall₂_cons_right_iff.1 hc
    cases ht
    have hve : ValidSpace sym e := hs
    have h1 : (e.sectors sym)[b]? = some ((e.sectors sym)[b]'(by
        rw [sectors_length hve]; exact hb)) := List.getElem?_eq_getElem _
    show (e.sectors sym)[b]? = some (multipleFusion R (selected sym [e] [b]))
    unfold selected
    rw [List.zipWith_cons_cons, h1, List.reduceOption_cons_of_some]
    rfl
  | pipe p d =>
    have hd : d = false := hn
    subst hd
    have hv := seg_valid_legs hs
    rw [segSectors_eq hv] at hc
    obtain ⟨hrow, hidcs⟩ := pipeRow_mem (d := false) (c := c) hs.1 hc
    obtain ⟨cs, ms, hp, hsec, -⟩ := C31_row_charge sym R hl.dual_dual p.legs hv p.isDual p.cstyle p hs.1 _ hrow
    rw [hidcs] at hp
    show (p.toESpace.sectors sym)[(Seg.pipeRow p false c).J]? = _
    rw [hsec, show selected sym (Seg.pipe p false).legs c = cs from selected_of_picks hp]

/-- The charge of the legs is the charge of the combined legs. -/
theorem charge_combine (hl : AbelianLaws sym R) {segs : List (Seg S)}
    (hs : ∀ s ∈ segs, SegValid sym R s) (hn : ∀ s ∈ segs, notInDomain s) {row : List ℕ}
    (h : InShape row ((oldM segs).map List.length)) :
    multipleFusion R (selected sym (segs.map Seg.leg) (combineRow segs row)) =
      multipleFusion R (selected sym (segs.flatMap Seg.legs) row) := by
  induction segs generalizing row with
  | nil => cases h; rfl
  | cons s ss ih =>
    have hss : ∀ x ∈ ss, SegValid sym R x := fun x hx => hs x (List.mem_cons_of_mem _ hx)
    have ih := fun row h => ih (row := row) hss (fun x hx => hn x (List.mem_cons_of_mem _ hx)) h
    have hs0 := hs s List.mem_cons_self
    rw [oldM_cons, List.map_append] at h
    have hlen := h.length
    rw [List.length_append, List.length_map, List.length_map, length_legMults] at hlen
    have ht : (row.take s.legs.length).length = s.legs.length := by rw [List.length_take]; omega
    rw [← List.take_append_drop s.legs.length row] at h ⊢
    obtain ⟨a, b⟩ := (inShape_append_iff (by rw [ht, List.length_map, length_legMults])).1 h
    generalize row.take s.legs.length = c at *
    generalize row.drop s.legs.length = r at *
    have hsel : selected sym ((s :: ss).flatMap Seg.legs) (c ++ r) =
        selected sym s.legs c ++ selected sym (ss.flatMap Seg.legs) r := by
      rw [List.flatMap_cons, selected_append ht.symm]
    have hsel' : selected sym ((s :: ss).map Seg.leg) (combineRow (s :: ss) (c ++ r)) =
        multipleFusion R (selected sym s.legs c) :: selected sym (ss.map Seg.leg) (combineRow ss r) := by
      rw [(combineRow_cons ht).1]
      unfold selected
      rw [List.map_cons, List.zipWith_cons_cons, seg_charge hl hs0 (hn s List.mem_cons_self) a,
        List.reduceOption_cons_of_some]
      rfl
    have hne : selected sym s.legs c ≠ [] := by
      intro he
      have := length_selected (seg_valid_legs hs0) a
      rw [he] at this
      exact seg_legs_ne hs0 (List.length_eq_zero_iff.1 this.symm)
    rw [hsel, hsel']
    cases ss with
    | nil =>
      cases b
      show multipleFusion R [multipleFusion R (selected sym s.legs c)] =
        multipleFusion R (selected sym s.legs c ++ [])
      rw [List.append_nil]
      rfl
    | cons s' ss' =>
      have hv : ∀ e ∈ (s' :: ss').flatMap Seg.legs, ValidSpace sym e := by
        intro e he
        obtain ⟨x, hx, he⟩ := List.mem_flatMap.1 he
        exact seg_valid_legs (hss x hx) e he
      have hne2 : selected sym ((s' :: ss').flatMap Seg.legs) r ≠ [] := by
        intro he
        have := length_selected hv b
        rw [he] at this
        have h0 := List.length_eq_zero_iff.1 this.symm
        rw [List.flatMap_cons, List.append_eq_nil_iff] at h0
        exact seg_legs_ne (hss s' List.mem_cons_self) h0.1
      have hne3 : selected sym ((s' :: ss').map Seg.leg) (combineRow (s' :: ss') r) ≠ [] := by
        have hok : ∀ x ∈ s' :: ss', SegOK x := fun x hx => segOK_of_valid hl.dual_dual (hss x hx)
        obtain ⟨b', bs', hb', -, he'⟩ := List.forall₂_cons_right_iff.1 (combineRow_inShape hok b)
        rw [he']
        have hsec : b' < ((s'.leg).sectors sym).length := by
          have hsv := hss s' List.mem_cons_self
          unfold ESpace.sectors
          have : s'.leg.defining.length = s'.leg.mults.length := by
            cases s' with
            | keep e => exact hsv.lengths.symm
            | pipe p d =>
              obtain ⟨-, -, -, -, -, -, hdef, hm, -⟩ := make_spec hsv.1
              obtain ⟨gs, hfl, hne, -, -, -, b1, b2, -, -⟩ := runs_facts sym R p.legs p.isDual p.cstyle
              show p.defining.length = p.mults.length
              rw [hm, hdef, b1, b2, List.length_map]
              cases hgs : gs with
              | nil => rfl
              | cons g gs' => rw [← hgs]; exact ((heads_eq gs hne 0 g (by rw [hgs]; rfl)).2)
          split <;> simp [this] <;> exact hb'
        unfold selected
        rw [List.map_cons, List.zipWith_cons_cons, List.getElem?_eq_getElem hsec,
          List.reduceOption_cons_of_some]
        exact List.cons_ne_nil _ _
      rw [multipleFusion_cons hl _ _ hne3, multipleFusion_append hl _ _ hne hne2, ih r b]

/-- The same pipe, not in the domain. -/
def flipSeg : Seg S → Seg S
  | .keep e => .keep e
  | .pipe p d => .pipe p (!d)

theorem flip_newIdx (s : Seg S) (c : List ℕ) (h : c.length = s.legs.length) :
    (flipSeg s).newIdx c.reverse = s.newIdx c := by
  cases s with
  | keep e =>
    obtain ⟨x, rfl⟩ := List.length_eq_one_iff.1 h
    rfl
  | pipe p d =>
    show (Seg.pipeRow p (!d) c.reverse).J = (Seg.pipeRow p d c).J
    unfold Seg.pipeRow
    cases d <;> simp

theorem flip_legs (s : Seg S) : (flipSeg s).legs = s.legs.reverse := by
  cases s with
  | keep e => rfl
  | pipe p d => cases d <;> simp [flipSeg, Seg.legs]

theorem flip_leg (s : Seg S) : (flipSeg s).leg = s.leg := by
  cases s <;> rfl

theorem flip_valid {s : Seg S} (hs : SegValid sym R s) : SegValid sym R (flipSeg s) := by
  cases s <;> exact hs

theorem combineRow_append {A B : List (Seg S)} {r t : List ℕ} (h : r.length = (A.flatMap Seg.legs).length) :
    combineRow (A ++ B) (r ++ t) = combineRow A r ++ combineRow B t := by
  induction A generalizing r with
  | nil =>
    rw [List.length_eq_zero_iff.1 h]
    rfl
  | cons s ss ih =>
    rw [List.flatMap_cons, List.length_append] at h
    have ht : (r.take s.legs.length).length = s.legs.length := by rw [List.length_take]; omega
    rw [← List.take_append_drop s.legs.length r, List.append_assoc, List.cons_append,
      (combineRow_cons ht).1, (combineRow_cons ht).1, ih (by rw [List.length_drop]; omega)]
    rfl

theorem combineRow_flip (D : List (Seg S)) {t : List ℕ} (h : t.length = (D.flatMap Seg.legs).length) :
    (combineRow D t).reverse = combineRow (D.map flipSeg).reverse t.reverse := by
  induction D generalizing t with
  | nil => rw [List.length_eq_zero_iff.1 h]; rfl
  | cons s ss ih =>
    rw [List.flatMap_cons, List.length_append] at h
    have ht : (t.take s.legs.length).length = s.legs.length := by rw [List.length_take]; omega
    have hlen : ∀ l : List (Seg S), ((l.map flipSeg).reverse.flatMap Seg.legs).length =
        (l.flatMap Seg.legs).length := by
      intro l
      induction l with
      | nil => rfl
      | cons x l ih =>
        rw [List.map_cons, List.reverse_cons, List.flatMap_append, List.length_append, ih,
          List.flatMap_cons, List.length_append]
        simp [flip_legs]
        omega
    rw [← List.take_append_drop s.legs.length t, (combineRow_cons ht).1, List.reverse_cons,
      ih (by rw [List.length_drop]; omega), List.reverse_append, List.map_cons, List.reverse_cons,
      combineRow_append (by rw [hlen, List.length_reverse, List.length_drop]; omega)]
    congr 1
    have h2 : ((t.take s.legs.length).reverse).length = (flipSeg s).legs.length := by
      rw [List.length_reverse, ht, flip_legs, List.length_reverse]
    have := (combineRow_cons (s := flipSeg s) (ss := []) (row := []) h2).1
    rw [List.append_nil] at this
    rw [this, flip_newIdx _ _ ht]
    rfl

end Charge

theorem multsOf_pair (sym : Sym S) (A B : List (ESpace S)) :
    multsOf (A.map (toBLeg sym)) ++ (multsOf (B.reverse.map (toBLeg sym))).reverse = legMults (A ++ B) := by
  simp [multsOf, legMults, toBLeg, Function.comp_def]

section Hom
variable (sym : Sym S) (R : Cyten.FusionRule S) (hl : AbelianLaws sym R)

include hl in
theorem conserve_iff (csegs dsegs : List (Seg S)) (hc : ∀ s ∈ csegs, SegValid sym R s ∧ notInDomain s)
    (hdm : ∀ s ∈ dsegs, SegValid sym R s ∧ notInDomain (flipSeg s)) (row : List ℕ)
    (h : InShape row ((oldM (csegs ++ dsegs)).map List.length)) :
    (fusedCharge R ((csegs.map Seg.leg).map (toBLeg sym))
        ((combineRow (csegs ++ dsegs) row).take csegs.length) =
      fusedCharge R ((dsegs.map Seg.leg).reverse.map (toBLeg sym))
        ((combineRow (csegs ++ dsegs) row).drop csegs.length).reverse) ↔
    (fusedCharge R ((csegs.flatMap Seg.legs).map (toBLeg sym))
        (row.take (csegs.flatMap Seg.legs).length) =
      fusedCharge R ((dsegs.flatMap Seg.legs).reverse.map (toBLeg sym))
        (row.drop (csegs.flatMap Seg.legs).length).reverse) := by
  have hM : oldM (csegs ++ dsegs) = oldM csegs ++ oldM dsegs := by
    simp [oldM, legMults]
  have hlc : (oldM csegs).length = (csegs.flatMap Seg.legs).length := length_legMults _
  rw [hM, List.map_append] at h
  have hlen := h.length
  rw [List.length_append, List.length_map, List.length_map, length_legMults, length_legMults] at hlen
  have ht : (row.take (csegs.flatMap Seg.legs).length).length = (csegs.flatMap Seg.legs).length := by
    rw [List.length_take]; omega
  have htd : (row.drop (csegs.flatMap Seg.legs).length).length = (dsegs.flatMap Seg.legs).length := by
    rw [List.length_drop]; omega
  have hrow := List.take_append_drop (csegs.flatMap Seg.legs).length row
  rw [← hrow] at h
  obtain ⟨a, b⟩ := (inShape_append_iff (by rw [ht, List.length_map, hlc])).1 h
  have hcr : combineRow (csegs ++ dsegs) row =
      combineRow csegs (row.take (csegs.flatMap Seg.legs).length) ++
        combineRow dsegs (row.drop (csegs.flatMap Seg.legs).length) := by
    conv_lhs => rw [← hrow]
    rw [combineRow_append ht]
  have hokc : ∀ s ∈ csegs, SegOK s := fun s hs => segOK_of_valid hl.dual_dual (hc s hs).1
  have hl1 : (combineRow csegs (row.take (csegs.flatMap Seg.legs).length)).length = csegs.length := by
    rw [(combineRow_inShape hokc a).length, List.length_map, length_legMults, List.length_map]
  rw [hcr, List.take_left' hl1, List.drop_left' hl1, fusedCharge_eq, fusedCharge_eq, fusedCharge_eq,
    fusedCharge_eq, charge_combine hl (fun s hs => (hc s hs).1) (fun s hs => (hc s hs).2) a,
    combineRow_flip dsegs htd]
  have hf1 : (dsegs.map Seg.leg).reverse = (dsegs.map flipSeg).reverse.map Seg.leg := by
    rw [List.map_reverse, List.map_map]
    congr 1
    exact List.map_congr_left fun s _ => (flip_leg s).symm
  have hf2 : (dsegs.flatMap Seg.legs).reverse = (dsegs.map flipSeg).reverse.flatMap Seg.legs := by
    rw [List.reverse_flatMap, ← List.map_reverse, List.flatMap_map]
    congr 1
    funext s
    exact (flip_legs s).symm
  have hfo : oldM (dsegs.map flipSeg).reverse = (oldM dsegs).reverse := by
    unfold oldM legMults
    rw [← hf2, List.map_reverse]
  have hfin : InShape (row.drop (csegs.flatMap Seg.legs).length).reverse
      ((oldM (dsegs.map flipSeg).reverse).map List.length) := by
    rw [hfo, List.map_reverse]
    exact inShape_reverse.2 b
  have hfv : ∀ s ∈ (dsegs.map flipSeg).reverse, SegValid sym R s ∧ notInDomain s := by
    intro s hs
    rw [List.mem_reverse] at hs
    obtain ⟨x, hx, rfl⟩ := List.mem_map.1 hs
    exact ⟨flip_valid (hdm x hx).1, (hdm x hx).2⟩
  rw [hf1, charge_combine hl (fun s hs => (hfv s hs).1) (fun s hs => (hfv s hs).2) hfin, ← hf2]

include hl in
/-- **C49**: combining legs of a symmetric tensor gives a symmetric tensor.  `csegs` are the segments
of the codomain, `dsegs` those of the domain in the order of the tensor legs (so reversed). -/
theorem C49_combine_hom [AddCommMonoid K] (csegs dsegs : List (Seg S))
    (hc : ∀ s ∈ csegs, SegValid sym R s ∧ notInDomain s)
    (hdm : ∀ s ∈ dsegs, SegValid sym R s ∧ notInDomain (flipSeg s)) (T : Ents K)
    (hT : IsHom R ((csegs.flatMap Seg.legs).map (toBLeg sym))
      ((dsegs.flatMap Seg.legs).reverse.map (toBLeg sym)) T) :
    IsHom R ((csegs.map Seg.leg).map (toBLeg sym)) ((dsegs.map Seg.leg).reverse.map (toBLeg sym))
      (combineSegs (csegs ++ dsegs) T) := by
  have e1 : multsOf ((csegs.flatMap Seg.legs).map (toBLeg sym)) ++
      (multsOf ((dsegs.flatMap Seg.legs).reverse.map (toBLeg sym))).reverse = oldM (csegs ++ dsegs) := by
    rw [multsOf_pair, ← List.flatMap_append]
  have e2 : multsOf ((csegs.map Seg.leg).map (toBLeg sym)) ++
      (multsOf ((dsegs.map Seg.leg).reverse.map (toBLeg sym))).reverse = newM (csegs ++ dsegs) := by
    rw [multsOf_pair, ← List.map_append]
  obtain ⟨hsane, hch⟩ := hT
  rw [e1] at hsane
  have hok : ∀ s ∈ csegs ++ dsegs, SegOK s := by
    intro s hs
    rcases List.mem_append.1 hs with h | h
    · exact segOK_of_valid hl.dual_dual (hc s h).1
    · exact segOK_of_valid hl.dual_dual (hdm s h).1
  refine ⟨by rw [e2]; exact sane_combineSegs hok hsane, ?_⟩
  intro q hq
  rw [combineSegs_eq] at hq
  obtain ⟨g, hg, hq⟩ := List.mem_filterMap.1 hq
  obtain ⟨e0, he0, rfl⟩ := Option.map_eq_some_iff.1 hq
  have hm := List.mem_flatten.2 ⟨g, hg, List.mem_of_mem_head? he0⟩
  rw [runsOf_flatten] at hm
  obtain ⟨p, hp, rfl⟩ := mem_combEnts.1 hm
  have := (conserve_iff sym R hl csegs dsegs hc hdm p.1 (hsane.inRange p hp)).2 (by
    have := hch p hp
    rwa [List.length_map] at this)
  rw [List.length_map, List.length_map]
  exact this

include hl in
/-- **C49**: splitting legs of a symmetric tensor gives a symmetric tensor. -/
theorem C49_split_hom [AddCommMonoid K] (csegs dsegs : List (Seg S))
    (hc : ∀ s ∈ csegs, SegValid sym R s ∧ notInDomain s)
    (hdm : ∀ s ∈ dsegs, SegValid sym R s ∧ notInDomain (flipSeg s)) (T : Ents K)
    (hT : IsHom R ((csegs.map Seg.leg).map (toBLeg sym))
      ((dsegs.map Seg.leg).reverse.map (toBLeg sym)) T) :
    IsHom R ((csegs.flatMap Seg.legs).map (toBLeg sym))
      ((dsegs.flatMap Seg.legs).reverse.map (toBLeg sym)) (splitSegs (csegs ++ dsegs) T) := by
  have e1 : multsOf ((csegs.flatMap Seg.legs).map (toBLeg sym)) ++
      (multsOf ((dsegs.flatMap Seg.legs).reverse.map (toBLeg sym))).reverse = oldM (csegs ++ dsegs) := by
    rw [multsOf_pair, ← List.flatMap_append]
  have e2 : multsOf ((csegs.map Seg.leg).map (toBLeg sym)) ++
      (multsOf ((dsegs.map Seg.leg).reverse.map (toBLeg sym))).reverse = newM (csegs ++ dsegs) := by
    rw [multsOf_pair, ← List.map_append]
  obtain ⟨hsane, hch⟩ := hT
  rw [e2] at hsane
  have hok : ∀ s ∈ csegs ++ dsegs, SegOK s := by
    intro s hs
    rcases List.mem_append.1 hs with h | h
    · exact segOK_of_valid hl.dual_dual (hc s h).1
    · exact segOK_of_valid hl.dual_dual (hdm s h).1
  refine ⟨by rw [e1]; exact sane_splitSegs hok hsane, ?_⟩
  intro q hq
  obtain ⟨hin, p, hp, hrow, -⟩ := mem_splitEnts hok hsane (mem_mkData.1 hq)
  have := hch p hp
  rw [List.length_map, List.length_map, ← hrow] at this
  rw [List.length_map]
  exact (conserve_iff sym R hl csegs dsegs hc hdm q.1 hin).1 this

end Hom

/-! ### Non-vacuity: `Z3`, a pipe of two legs in the codomain and a pipe of two legs in the domain -/

/-- The pipe of `z3LegA` and `z3LegB`, in C style. -/
def exPipe : APipe ℕ := (make z3Sym z3Rule [z3LegA, z3LegB] false true).getD ⟨[], false, true, [], [], [], [], [], []⟩

/-- The pipe of the same legs, dual and in F style. -/
def exPipeF : APipe ℕ := (make z3Sym z3Rule [z3LegB, z3LegA] true false).getD ⟨[], false, true, [], [], [], [], [], []⟩

/-- A leg that stays, a pipe in the codomain; a pipe in the domain. -/
def exC : List (Seg ℕ) := [.keep z3LegB, .pipe exPipe false]
/-- A pipe in the domain. -/
def exD : List (Seg ℕ) := [.pipe exPipeF true]

/-- A tensor with the five legs `B, A, B` in the codomain and `B, A` in the domain (so `A, B` in the
order of the tensor legs): two blocks that go into the same block of the combined tensor. -/
def exT : Ents ℤ :=
  [([0, 0, 0, 0, 0], ⟨[2, 1, 2, 1, 2], fun i => 1 + packRow [1, 2, 4, 8, 16] i⟩),
   ([0, 2, 1, 0, 0], ⟨[2, 1, 1, 1, 2], fun i => 100 + packRow [1, 2, 4, 8, 16] i⟩)]

theorem exC_valid : ∀ s ∈ exC, SegValid z3Sym z3Rule s ∧ notInDomain s := by
  intro s hs
  simp only [exC, List.mem_cons, List.not_mem_nil, or_false] at hs
  rcases hs with rfl | rfl
  · exact ⟨z3_valid z3LegB (by simp), trivial⟩
  · refine ⟨⟨by rfl, ?_⟩, rfl⟩
    intro e he
    have he' : e ∈ [z3LegA, z3LegB] := he
    refine ⟨z3_valid e he', ?_⟩
    revert e
    decide

theorem exD_valid : ∀ s ∈ exD, SegValid z3Sym z3Rule s ∧ notInDomain (flipSeg s) := by
  intro s hs
  rw [List.mem_singleton.1 hs]
  refine ⟨⟨by rfl, ?_⟩, rfl⟩
  intro e he
  have he' : e ∈ [z3LegB, z3LegA] := he
  have he2 : e ∈ [z3LegA, z3LegB] := by
    simp only [List.mem_cons, List.not_mem_nil, or_false] at he' ⊢
    exact he'.symm
  refine ⟨z3_valid e he2, ?_⟩
  clear he he'
  revert e
  decide

theorem exT_hom : IsHom z3Rule ((exC.flatMap Seg.legs).map (toBLeg z3Sym))
    ((exD.flatMap Seg.legs).reverse.map (toBLeg z3Sym)) exT :=
  ⟨Example.sane_of_saneB (by decide +kernel), by
    intro p hp
    simp only [exT, List.mem_cons, List.not_mem_nil, or_false] at hp
    rcases hp with rfl | rfl <;> decide +kernel⟩

/-- The arguments of `combine_legs` for this example. -/
theorem exGroups : GroupsOK ((exC ++ exD).flatMap Seg.legs) 3 0 [(1, exPipe), (3, exPipeF)] ∧
    segments ((exC ++ exD).flatMap Seg.legs) 3 0 [(1, exPipe), (3, exPipeF)] = exC ++ exD :=
  ⟨⟨by decide, rfl, by decide, rfl, trivial⟩, rfl⟩

/-- The hypotheses of the theorems of C49 are met by a concrete tensor; combining it gives a single
block that holds both blocks, and splitting it gives back the entries. -/
theorem C49_nonvacuous : DimOK z3Sym ∧ AbelianLaws z3Sym z3Rule ∧
    (∀ s ∈ exC ++ exD, SegValid z3Sym z3Rule s) ∧
    Sane (legMults ((exC ++ exD).flatMap Seg.legs)) exT ∧
    ((combineSegs (exC ++ exD) exT).map fun p => (p.1, p.2.shape)) = [([0, 0, 0], [2, 3, 3])] ∧
    (toDense z3Sym ((exC ++ exD).map Seg.leg) (combineSegs (exC ++ exD) exT)).val
      (fuseIndex z3Sym (exC ++ exD) [1, 2, 1, 2, 0]) = 1 + 1 + 4 ∧
    (toDense z3Sym ((exC ++ exD).flatMap Seg.legs) (splitSegs (exC ++ exD)
      (combineSegs (exC ++ exD) exT))).val [1, 2, 1, 2, 0] = 1 + 1 + 4 := by
  refine ⟨z3_dimOK, z3_laws, ?_, ?_, by decide +kernel, by decide +kernel, by decide +kernel⟩
  · intro s hs
    rcases List.mem_append.1 hs with h | h
    · exact (exC_valid s h).1
    · exact (exD_valid s h).1
  · have := exT_hom.sane
    rwa [multsOf_pair, ← List.flatMap_append] at this

end Cyten.Props
