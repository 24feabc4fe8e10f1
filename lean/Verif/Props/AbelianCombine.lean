import Verif.Lemmas.AbelianCombine3
import Verif.Props.AbelianPipe2
import Verif.Props.AbelianAlgebra

/-!
# C49: combining legs of abelian tensors to pipes, and splitting them

The legs are given as a list of segments: legs that stay, and groups of neighbouring legs with the
pipe to which they are combined.
-/

namespace Cyten.Abelian.Spec
open Cyten.Abelian Cyten.Spaces Cyten.Props Cyten.Tools

variable {S : Type} [LinearOrder S]

/-- The legs are valid, and the pipes are built from valid legs by the constructor. -/
def SegValid (sym : Sym S) (R : Cyten.FusionRule S) : Seg S → Prop
  | .keep e => ValidSpace sym e
  | .pipe p _ => APipe.make sym R p.legs p.isDual p.cstyle = some p ∧
      ∀ e ∈ p.legs, ValidSpace sym e ∧ ∀ m ∈ e.mults, 0 < m

/-- The basis index of the new leg for the basis indices of the legs of a segment: for a pipe these
are combined in C style or F style, as the pipe says, after reversing the order of the legs for a
pipe in the domain. -/
def fuseOne (sym : Sym S) : Seg S → List ℕ → ℕ
  | .keep _, idx => idx.getD 0 0
  | .pipe p inDomain, idx => packRow (makeStride (p.legs.map (ESpace.dim sym)) p.cstyle)
      (if inDomain then idx.reverse else idx)

/-- The multi-index of the combined tensor for a multi-index of the tensor. -/
def fuseIndex (sym : Sym S) : List (Seg S) → List ℕ → List ℕ
  | [], _ => []
  | s :: ss, idx => fuseOne sym s (idx.take s.legs.length) :: fuseIndex sym ss (idx.drop s.legs.length)

/-- The arguments of `combine_legs`: the groups are disjoint and ascending, start at leg `j` or
later, and the pipe of a group consists of its legs (in reversed order in the domain). -/
def GroupsOK (legs : List (ESpace S)) (numCodomain : ℕ) : ℕ → List (ℕ × APipe S) → Prop
  | _, [] => True
  | j, (g, p) :: rest => j ≤ g ∧
      (legs.drop g).take p.legs.length = (if numCodomain ≤ g then p.legs.reverse else p.legs) ∧
      GroupsOK legs numCodomain (g + p.legs.length) rest

end Cyten.Abelian.Spec

namespace Cyten.Props
open Cyten.Abelian Cyten.Abelian.Spec Cyten.Tables Cyten.Tools Cyten.ListSum Cyten.Spaces
open Cyten.Spaces.Spec Cyten.Spaces.APipe

variable {S K : Type} [LinearOrder S]

theorem segOK_of_valid {sym : Sym S} {R : Cyten.FusionRule S} (hinv : ∀ s, sym.dual (sym.dual s) = s)
    {s : Seg S} (h : SegValid sym R s) : SegOK s := by
  cases s with
  | keep e => exact segOK_keep e
  | pipe p d => exact segOK_pipe hinv (fun e he => (h.2 e he).1) h.1 d

theorem pipeRow_mem {sym : Sym S} {R : Cyten.FusionRule S} {p : APipe S} {d : Bool} {c : List ℕ}
    (h : make sym R p.legs p.isDual p.cstyle = some p)
    (hc : InShape (rv d c) (numSectors p.legs)) :
    Seg.pipeRow p d c ∈ p.rows ∧ (Seg.pipeRow p d c).idcs = rv d c := by
  obtain ⟨r, h1, h2⟩ := pipe_lookup h _ hc
  have : Seg.pipeRow p d c = r := by
    unfold Seg.pipeRow
    show (p.rows[(inversePermutation p.sort).getD
      (packRow (makeStride (numSectors p.legs) p.cstyle) (rv d c)) 0]?).getD _ = _
    rw [h1, Option.getD_some]
  rw [this]
  exact ⟨List.mem_of_getElem? h1, h2⟩

/-- `Located` for reversed lists. -/
theorem located_append {sym : Sym S} {l1 l2 : List (ESpace S)} {i1 i2 r1 r2 p1 p2 : List ℕ}
    (h1 : Located sym l1 i1 r1 p1) (h2 : Located sym l2 i2 r2 p2) :
    Located sym (l1 ++ l2) (i1 ++ i2) (r1 ++ r2) (p1 ++ p2) := by
  induction l1 generalizing i1 r1 p1 with
  | nil => cases i1 <;> cases r1 <;> cases p1 <;> simp_all [Located]
  | cons e es ih =>
    match i1, r1, p1, h1 with
    | j :: js, b :: bs, o :: os, ⟨ha, hb⟩ => exact ⟨ha, ih hb⟩

theorem located_reverse {sym : Sym S} {l : List (ESpace S)} {i r p : List ℕ}
    (h : Located sym l i r p) : Located sym l.reverse i.reverse r.reverse p.reverse := by
  induction l generalizing i r p with
  | nil => cases i <;> cases r <;> cases p <;> simp_all [Located]
  | cons e es ih =>
    match i, r, p, h with
    | j :: js, b :: bs, o :: os, ⟨ha, hb⟩ =>
      simp only [List.reverse_cons]
      exact located_append (ih hb) ⟨ha, trivial⟩

theorem located_split {sym : Sym S} {l1 l2 : List (ESpace S)} {i r p : List ℕ}
    (h : Located sym (l1 ++ l2) i r p) : ∃ i1 i2 r1 r2 p1 p2, i = i1 ++ i2 ∧ r = r1 ++ r2 ∧
      p = p1 ++ p2 ∧ Located sym l1 i1 r1 p1 ∧ Located sym l2 i2 r2 p2 := by
  induction l1 generalizing i r p with
  | nil => exact ⟨[], i, [], r, [], p, rfl, rfl, rfl, trivial, h⟩
  | cons e es ih =>
    match i, r, p, h with
    | j :: js, b :: bs, o :: os, ⟨ha, hb⟩ =>
      obtain ⟨i1, i2, r1, r2, p1, p2, rfl, rfl, rfl, h1, h2⟩ := ih hb
      exact ⟨j :: i1, i2, b :: r1, r2, o :: p1, p2, rfl, rfl, rfl, ⟨ha, h1⟩, h2⟩

theorem located_length {sym : Sym S} {l : List (ESpace S)} {i r p : List ℕ}
    (h : Located sym l i r p) : i.length = l.length ∧ r.length = l.length ∧ p.length = l.length := by
  induction l generalizing i r p with
  | nil => cases i <;> cases r <;> cases p <;> simp_all [Located]
  | cons e es ih =>
    match i, r, p, h with
    | j :: js, b :: bs, o :: os, ⟨ha, hb⟩ =>
      obtain ⟨a, b, c⟩ := ih hb
      simp [a, b, c]

/-- The state found by the pipe is the one of `Located`. -/
theorem locates_eq {sym : Sym S} (hd : DimOK sym) (h1 : ∀ s, sym.dim s = 1) {l : List (ESpace S)}
    (hv : ∀ e ∈ l, ValidSpace sym e) {i r p q : List ℕ} (h : Located sym l i r p)
    (hq : Locates sym l r p q) : q = i := by
  induction l generalizing i r p q with
  | nil => cases i <;> cases r <;> cases p <;> cases hq <;> simp_all [Located]
  | cons e es ih =>
    match i, r, p, h with
    | j :: js, b :: bs, o :: os, ⟨ha, hb⟩ =>
      cases hq with
      | @cons _ _ _ _ j' bd _ _ q' hbd hj' hrest =>
        have hve := hv e List.mem_cons_self
        have hp := (isPosition_iff h1 hve j b o).1 ha
        have hb1 := bounds_getD hd h1 hve b hp.1.le
        rw [List.getD_eq_getElem?_getD, hbd, Option.getD_some] at hb1
        rw [hb1, hp.2.2] at hj'
        rw [ih (fun x hx => hv x (List.mem_cons_of_mem _ hx)) hb hrest, Option.some.inj hj']

theorem picks_of_located {sym : Sym S} (h1 : ∀ s, sym.dim s = 1) {l : List (ESpace S)}
    (hv : ∀ e ∈ l, ValidSpace sym e) {i r p : List ℕ} (h : Located sym l i r p) :
    ∃ cs, Picks sym l r cs (shapeOf (legMults l) r) ∧ InShape p (shapeOf (legMults l) r) ∧
      InShape r (numSectors l) := by
  induction l generalizing i r p with
  | nil =>
    cases i <;> cases r <;> cases p <;> simp_all [Located]
    exact ⟨⟨[], .nil⟩, .nil, .nil⟩
  | cons e es ih =>
    match i, r, p, h with
    | j :: js, b :: bs, o :: os, ⟨ha, hb⟩ =>
      have hve := hv e List.mem_cons_self
      obtain ⟨cs, a1, a2, a3⟩ := ih (fun x hx => hv x (List.mem_cons_of_mem _ hx)) hb
      have hp := (isPosition_iff h1 hve j b o).1 ha
      have hm : e.mults[b]? = some (e.mults.getD b 0) := getElem?_getD_of_lt hp.1
      have hs : (e.sectors sym)[b]? = some ((e.sectors sym)[b]'(by
          rw [sectors_length hve]; exact hp.1)) := List.getElem?_eq_getElem _
      exact ⟨_ :: cs, .cons hs hm a1, .cons hp.2.1 a2, .cons (lt_of_lt_of_eq hp.1 hve.lengths) a3⟩

/-- The packed index within the block: the order of the axes chosen by the code is the one of the
pipe. -/
theorem pack_orders (cs d : Bool) (shape pos : List ℕ) (h : pos.length = shape.length) :
    packRow (makeStride (rv (!(cs != d)) shape) true) (rv (!(cs != d)) pos) =
      packRow (makeStride (rv d shape) cs) (rv d pos) := by
  cases cs <;> cases d
  · show packRow (makeStride shape.reverse true) pos.reverse = packRow (makeStride shape false) pos
    rw [packRow_false _ _ h]
  · show packRow (makeStride shape true) pos = packRow (makeStride shape.reverse false) pos.reverse
    rw [packRow_false _ _ (by simpa using h), List.reverse_reverse, List.reverse_reverse]
  · rfl
  · rfl

theorem fuseOne_isPosition {sym : Sym S} {R : Cyten.FusionRule S} (hd : DimOK sym)
    (hinv : ∀ s, sym.dual (sym.dual s) = s)
    (h1 : ∀ s, sym.dim s = 1) {s : Seg S} (hs : SegValid sym R s) {i c q : List ℕ}
    (h : Located sym s.legs i c q) :
    IsPosition sym s.leg (fuseOne sym s i) (s.newIdx c) (segPos s c q) := by
  cases s with
  | keep e =>
    match i, c, q, h with
    | j :: js, b :: bs, o :: os, ⟨ha, hb⟩ =>
      have hve : ValidSpace sym e := hs
      have hp := (isPosition_iff h1 hve j b o).1 ha
      obtain ⟨l1, l2, l3⟩ := located_length hb
      have hb0 : bs = [] := List.length_eq_zero_iff.1 l2
      have ho0 : os = [] := List.length_eq_zero_iff.1 l3
      subst hb0 ho0
      have : segPos (Seg.keep e) [b] [o] = o := by
        show packRow (makeStride [e.mults.getD b 0] true) [o] + 0 = o
        rw [packC_one]
        rfl
      rw [this]
      exact ha
  | pipe p d =>
    obtain ⟨hmake, hlegs⟩ := hs
    have hv : ∀ e ∈ p.legs, ValidSpace sym e := fun e he => (hlegs e he).1
    have hloc : Located sym p.legs (rv d i) (rv d c) (rv d q) := by
      cases d
      · exact h
      · have := located_reverse h
        rwa [show (Seg.pipe p true).legs = p.legs.reverse from rfl, List.reverse_reverse] at this
    obtain ⟨cs, hpk, hpos, hns⟩ := picks_of_located h1 hv hloc
    obtain ⟨hrow, hidcs⟩ := pipeRow_mem (d := d) (c := c) hmake hns
    rw [← hidcs] at hpk
    have hk : (makeGrid (shapeOf (legMults p.legs) (rv d c)) p.cstyle)[
        packRow (makeStride (shapeOf (legMults p.legs) (rv d c)) p.cstyle) (rv d q)]? = some (rv d q) :=
      ((C22_stride_grid _ p.cstyle).2 _ hpos).1
    rw [← hidcs] at hk
    obtain ⟨qq, bd, hl, hbd, hperm⟩ := C31_fused_basis sym R hd p.legs hv p.isDual p.cstyle p hmake _ hrow
      cs _ hpk _ _ hk
    rw [hidcs] at hl hperm
    have hqq := locates_eq hd h1 hv hloc hl
    have hval := (C31_pipe_space sym R hd p.legs hv (fun e he => (hlegs e he).2) p.isDual p.cstyle p
      hmake).1
    have hlen : q.length = (shapeOf (legMults (Seg.pipe p d).legs) c).length := by
      obtain ⟨-, l2, l3⟩ := located_length h
      rw [l3, length_shapeOf _ _ (by rw [l2, length_legMults]), length_legMults]
    have hsh : rv d (shapeOf (legMults (Seg.pipe p d).legs) c) = shapeOf (legMults p.legs) (rv d c) := by
      cases d
      · rfl
      · obtain ⟨-, l2, -⟩ := located_length h
        show (shapeOf (legMults p.legs.reverse) c).reverse = shapeOf (legMults p.legs) c.reverse
        rw [← shapeOf_reverse _ _ (by rw [l2, length_legMults]; rfl)]
        unfold legMults
        rw [← List.map_reverse, List.reverse_reverse]
    have hseg : segPos (Seg.pipe p d) c q = (Seg.pipeRow p d c).start +
        packRow (makeStride (shapeOf (legMults p.legs) (rv d c)) p.cstyle) (rv d q) := by
      unfold segPos
      have := pack_orders p.cstyle d _ q hlen
      rw [hsh] at this
      rw [Nat.add_comm]
      show (Seg.pipeRow p d c).start + packRow (makeStride (rv (!(p.cstyle != d)) _) true)
        (rv (!(p.cstyle != d)) q) = _
      rw [this]
    have hI : IsIndex (legMults (Seg.pipe p d).legs) c q := by
      have hI0 : IsIndex (legMults p.legs) (rv d c) (rv d q) := by
        refine ⟨?_, hpos⟩
        have e1 : (legMults p.legs).map List.length = numSectors p.legs := by
          unfold legMults numSectors
          rw [List.map_map]
          exact List.map_congr_left fun e he => (hv e he).lengths
        rw [e1]; exact hns
      cases d
      · exact hI0
      · have := isIndex_reverse hI0
        rw [show legMults (Seg.pipe p true).legs = (legMults p.legs).reverse from List.map_reverse]
        simpa [rv] using this
    obtain ⟨m1, -, -, m4⟩ := segPos_mem (segOK_of_valid (R := R) (s := Seg.pipe p d)
      hinv ⟨hmake, hlegs⟩) hI
    · refine (isPosition_iff h1 hval _ _ _).2 ⟨m1, m4, ?_⟩
      have hb1 := bounds_getD hd h1 hval (Seg.pipeRow p d c).J (Nat.le_of_lt m1)
      rw [List.getD_eq_getElem?_getD, hbd, Option.getD_some] at hb1
      show p.perm[_ + _]? = _
      rw [show (Seg.pipe p d).newIdx c = (Seg.pipeRow p d c).J from rfl]
      show p.perm[(p.toESpace.mults.take (Seg.pipeRow p d c).J).sum + segPos (Seg.pipe p d) c q]? = _
      rw [← hb1, hseg, ← Nat.add_assoc, hperm, hqq]
      rfl

section Many
variable {sym : Sym S} {R : Cyten.FusionRule S} {segs : List (Seg S)}

theorem located_fuses (hd : DimOK sym) (hinv : ∀ s, sym.dual (sym.dual s) = s)
    (h1 : ∀ s, sym.dim s = 1) (hs : ∀ s ∈ segs, SegValid sym R s)
    {idx row pos : List ℕ} (h : Located sym (segs.flatMap Seg.legs) idx row pos) :
    ∃ row' pos', Fuses segs row pos row' pos' ∧
      Located sym (segs.map Seg.leg) (fuseIndex sym segs idx) row' pos' := by
  induction segs generalizing idx row pos with
  | nil =>
    cases idx <;> cases row <;> cases pos <;> simp_all [Located]
    exact ⟨[], [], .nil, trivial⟩
  | cons s ss ih =>
    rw [List.flatMap_cons] at h
    obtain ⟨i1, i2, r1, r2, p1, p2, rfl, rfl, rfl, ha, hb⟩ := located_split h
    obtain ⟨row', pos', f1, f2⟩ := ih (fun x hx => hs x (List.mem_cons_of_mem _ hx)) hb
    have hp := fuseOne_isPosition hd hinv h1 (hs s List.mem_cons_self) ha
    have hI : IsIndex (legMults s.legs) r1 p1 := by
      have hv : ∀ e ∈ s.legs, ValidSpace sym e := by
        have hsv := hs s List.mem_cons_self
        cases s with
        | keep e => intro x hx; rw [List.mem_singleton.1 hx]; exact hsv
        | pipe p d =>
          intro x hx
          refine (hsv.2 x ?_).1
          cases d
          · exact hx
          · exact List.mem_reverse.1 hx
      obtain ⟨-, -, a, b⟩ := picks_of_located h1 hv ha
      refine ⟨?_, a⟩
      have e1 : (legMults s.legs).map List.length = numSectors s.legs := by
        unfold legMults numSectors
        rw [List.map_map]
        exact List.map_congr_left fun e he => (hv e he).lengths
      rw [e1]; exact b
    refine ⟨_, _, .cons hI f1, ?_⟩
    have hl : i1.length = s.legs.length := (located_length ha).1
    unfold fuseIndex
    rw [List.take_left' hl, List.drop_left' hl]
    exact ⟨hp, f2⟩

/-- The legs before and after are valid. -/
theorem segs_denseOK (hd : DimOK sym) (h1 : ∀ s, sym.dim s = 1) (hcd : sym.canDrop = true)
    (hs : ∀ s ∈ segs, SegValid sym R s) :
    DenseOK sym (segs.flatMap Seg.legs) ∧ DenseOK sym (segs.map Seg.leg) := by
  refine ⟨⟨hd, h1, hcd, ?_⟩, ⟨hd, h1, hcd, ?_⟩⟩
  · intro e he
    obtain ⟨s, hsm, he⟩ := List.mem_flatMap.1 he
    have hsv := hs s hsm
    cases s with
    | keep e' => rw [List.mem_singleton.1 he]; exact hsv
    | pipe p d =>
      refine (hsv.2 e ?_).1
      cases d
      · exact he
      · exact List.mem_reverse.1 he
  · intro e he
    obtain ⟨s, hsm, rfl⟩ := List.mem_map.1 he
    have hsv := hs s hsm
    cases s with
    | keep e' => exact hsv
    | pipe p d =>
      exact (C31_pipe_space sym R hd p.legs (fun e he => (hsv.2 e he).1) (fun e he => (hsv.2 e he).2)
        p.isDual p.cstyle p hsv.1).1

end Many

/-! ## The statements -/

/-- **C49**: the segments computed by `combine_legs` from its arguments consist of the legs of the
tensor, in the same order. -/
theorem C49_segments (legs : List (ESpace S)) (numCodomain : ℕ) (groups : List (ℕ × APipe S))
    (h : GroupsOK legs numCodomain 0 groups) :
    (segments legs numCodomain 0 groups).flatMap Seg.legs = legs := by
  have key : ∀ j, GroupsOK legs numCodomain j groups →
      (segments legs numCodomain j groups).flatMap Seg.legs = legs.drop j := by
    clear h
    induction groups with
    | nil =>
      intro j _
      rw [segments, List.flatMap_map]
      show (legs.drop j).flatMap (fun e => [e]) = _
      simp
    | cons gp rest ih =>
      obtain ⟨g, p⟩ := gp
      rintro j ⟨hj, hp, hrest⟩
      rw [segments, List.flatMap_append, List.flatMap_map, List.flatMap_cons, ih _ hrest]
      have e1 : (Seg.pipe p (decide (numCodomain ≤ g))).legs = (legs.drop g).take p.legs.length := by
        rw [hp]
        show (if decide (numCodomain ≤ g) = true then _ else _) = _
        simp only [decide_eq_true_eq]
      rw [e1]
      show ((legs.drop j).take (g - j)).flatMap (fun e => [e]) ++ _ = _
      have e2 : legs.drop (g + p.legs.length) = (legs.drop g).drop p.legs.length := by
        rw [List.drop_drop]
      rw [List.flatMap_singleton', e2, List.take_append_drop]
      have e3 : legs.drop g = (legs.drop j).drop (g - j) := by
        rw [List.drop_drop, Nat.add_sub_cancel' hj]
      rw [e3, List.take_append_drop]
  exact key 0 h

theorem segments_valid {sym : Sym S} {R : Cyten.FusionRule S} {legs : List (ESpace S)} {numCodomain : ℕ}
    {groups : List (ℕ × APipe S)} (h : GroupsOK legs numCodomain 0 groups)
    (hv : ∀ e ∈ legs, ValidSpace sym e ∧ ∀ m ∈ e.mults, 0 < m)
    (hp : ∀ gp ∈ groups, make sym R gp.2.legs gp.2.isDual gp.2.cstyle = some gp.2) :
    ∀ s ∈ segments legs numCodomain 0 groups, SegValid sym R s := by
  have hl := C49_segments legs numCodomain groups h
  have hm : ∀ s ∈ segments legs numCodomain 0 groups, ∀ e ∈ s.legs,
      ValidSpace sym e ∧ ∀ m ∈ e.mults, 0 < m := by
    intro s hs e he
    refine hv e ?_
    rw [← hl]
    exact List.mem_flatMap.2 ⟨s, hs, he⟩
  have hpp : ∀ j, ∀ s ∈ segments legs numCodomain j groups, ∀ p d, s = Seg.pipe p d →
      ∃ gp ∈ groups, gp.2 = p := by
    clear hl hm h hp
    induction groups with
    | nil =>
      intro j s hs p d he
      rw [segments] at hs
      obtain ⟨e, -, rfl⟩ := List.mem_map.1 hs
      cases he
    | cons gp rest ih =>
      obtain ⟨g, q⟩ := gp
      intro j s hs p d he
      rw [segments] at hs
      rcases List.mem_append.1 hs with hs | hs
      · obtain ⟨e, -, rfl⟩ := List.mem_map.1 hs
        cases he
      · rcases List.mem_cons.1 hs with rfl | hs
        · cases he
          exact ⟨_, List.mem_cons_self, rfl⟩
        · obtain ⟨gp, hgp, he'⟩ := ih _ s hs p d he
          exact ⟨gp, List.mem_cons_of_mem _ hgp, he'⟩
  intro s hs
  have hms := hm s hs
  cases s with
  | keep e => exact (hms e List.mem_cons_self).1
  | pipe p d =>
    obtain ⟨gp, hgp, rfl⟩ := hpp 0 _ hs p d rfl
    refine ⟨hp gp hgp, fun e he => hms e ?_⟩
    cases d
    · exact he
    · exact List.mem_reverse.2 he

section Statements
variable (sym : Sym S) (R : Cyten.FusionRule S) (hd : DimOK sym)
  (hinv : ∀ s, sym.dual (sym.dual s) = s) (h1 : ∀ s, sym.dim s = 1) (hcd : sym.canDrop = true)
include hd hinv h1 hcd

/-- **C49**: `fuseIndex` is a bijection between the multi-indices of the tensor and the multi-indices
of the combined tensor. -/
theorem C49_index_bijection (segs : List (Seg S)) (hs : ∀ s ∈ segs, SegValid sym R s) :
    (∀ idx, InShape idx ((segs.flatMap Seg.legs).map (ESpace.dim sym)) →
      InShape (fuseIndex sym segs idx) ((segs.map Seg.leg).map (ESpace.dim sym))) ∧
    (∀ idx idx', InShape idx ((segs.flatMap Seg.legs).map (ESpace.dim sym)) →
      InShape idx' ((segs.flatMap Seg.legs).map (ESpace.dim sym)) →
      fuseIndex sym segs idx = fuseIndex sym segs idx' → idx = idx') ∧
    (∀ jdx, InShape jdx ((segs.map Seg.leg).map (ESpace.dim sym)) →
      ∃ idx, InShape idx ((segs.flatMap Seg.legs).map (ESpace.dim sym)) ∧
        fuseIndex sym segs idx = jdx) := by
  obtain ⟨o1, o2⟩ := segs_denseOK hd h1 hcd hs
  obtain ⟨a1, a2, a3, a4⟩ := C35_index_bijection sym _ o1
  obtain ⟨b1, b2, b3, b4⟩ := C35_index_bijection sym _ o2
  have hok : ∀ s ∈ segs, SegOK s := fun s hm => segOK_of_valid hinv (hs s hm)
  refine ⟨?_, ?_, ?_⟩
  · intro idx hi
    obtain ⟨row, pos, hl, -⟩ := a1 idx hi
    obtain ⟨row', pos', -, hl'⟩ := located_fuses hd hinv h1 hs hl
    exact (located_perm o2 hl').2.2.2.2.1
  · intro idx idx' hi hi' he
    obtain ⟨row, pos, hl, -⟩ := a1 idx hi
    obtain ⟨row', pos', f, hl'⟩ := located_fuses hd hinv h1 hs hl
    obtain ⟨row2, pos2, hl2, -⟩ := a1 idx' hi'
    obtain ⟨row2', pos2', f2, hl2'⟩ := located_fuses hd hinv h1 hs hl2
    rw [← he] at hl2'
    obtain ⟨rfl, rfl⟩ := b3 _ _ _ _ _ hl' hl2'
    obtain ⟨rfl, rfl⟩ := f.inj hok f2
    exact (a4 _ _ _ _ hl hl2).symm
  · intro jdx hj
    obtain ⟨row', pos', hl', hI'⟩ := b1 jdx hj
    obtain ⟨row, pos, f⟩ := fuses_of_new hok hI'
    obtain ⟨idx, hl, hi⟩ := a2 row pos f.old
    refine ⟨idx, hi, ?_⟩
    obtain ⟨row2', pos2', f2, hl2'⟩ := located_fuses hd hinv h1 hs hl
    obtain ⟨e1, e2, -⟩ := f.fun_
    obtain ⟨e3, e4, -⟩ := f2.fun_
    rw [e3, e4, ← e1, ← e2] at hl2'
    exact b4 _ _ _ _ hl' hl2'

/-- **C49** for segments: see `C49_combine_legs`. -/
theorem C49_combine [AddCommMonoid K] (segs : List (Seg S)) (hs : ∀ s ∈ segs, SegValid sym R s)
    (T : Ents K) (hT : Sane (legMults (segs.flatMap Seg.legs)) T) :
    Sane (legMults (segs.map Seg.leg)) (combineSegs segs T) ∧
    (toDense sym (segs.map Seg.leg) (combineSegs segs T)).shape =
      (segs.map Seg.leg).map (ESpace.dim sym) ∧
    ∀ idx, InShape idx ((segs.flatMap Seg.legs).map (ESpace.dim sym)) →
      (toDense sym (segs.map Seg.leg) (combineSegs segs T)).val (fuseIndex sym segs idx) =
        (toDense sym (segs.flatMap Seg.legs) T).val idx := by
  obtain ⟨o1, o2⟩ := segs_denseOK hd h1 hcd hs
  have hok : ∀ s ∈ segs, SegOK s := fun s hm => segOK_of_valid hinv (hs s hm)
  have hsane := sane_combineSegs hok hT
  refine ⟨hsane, (C35_to_dense sym _ o2 _ hsane).1, ?_⟩
  intro idx hi
  obtain ⟨row, pos, hl, -⟩ := (C35_index_bijection sym _ o1).1 idx hi
  obtain ⟨row', pos', f, hl'⟩ := located_fuses hd hinv h1 hs hl
  rw [(C35_to_dense sym _ o2 _ hsane).2 _ _ _ hl', (C35_to_dense sym _ o1 _ hT).2 _ _ _ hl]
  exact dense_combineSegs hok hT f

/-- **C49**: `combine_legs` keeps every entry of the tensor: the entry of the dense array of the
result at the multi-index where the indices of each group are fused (in the style of its pipe) is the
entry of the dense array of the tensor. -/
theorem C49_combine_legs [AddCommMonoid K] (legs : List (ESpace S)) (numCodomain : ℕ)
    (groups : List (ℕ × APipe S)) (hg : GroupsOK legs numCodomain 0 groups)
    (hv : ∀ e ∈ legs, ValidSpace sym e ∧ ∀ m ∈ e.mults, 0 < m)
    (hp : ∀ gp ∈ groups, make sym R gp.2.legs gp.2.isDual gp.2.cstyle = some gp.2)
    (T : Ents K) (hT : Sane (legMults legs) T) :
    let segs := segments legs numCodomain 0 groups
    Sane (legMults (segs.map Seg.leg)) (combineLegs legs numCodomain groups T) ∧
    ∀ idx, InShape idx (legs.map (ESpace.dim sym)) →
      (toDense sym (segs.map Seg.leg) (combineLegs legs numCodomain groups T)).val
          (fuseIndex sym segs idx) = (toDense sym legs T).val idx := by
  intro segs
  have hl : segs.flatMap Seg.legs = legs := C49_segments legs numCodomain groups hg
  have hs := segments_valid (R := R) hg hv hp
  rw [← hl] at hT
  obtain ⟨c1, -, c3⟩ := C49_combine sym R hd hinv h1 hcd segs hs T hT
  rw [hl] at c3
  exact ⟨c1, c3⟩

/-- **C49**: `split_legs` is the reverse: the entry of the result at a multi-index is the entry of the
tensor at the fused multi-index. -/
theorem C49_split_legs [AddCommMonoid K] (segs : List (Seg S)) (hs : ∀ s ∈ segs, SegValid sym R s)
    (T : Ents K) (hT : Sane (legMults (segs.map Seg.leg)) T) :
    Sane (legMults (segs.flatMap Seg.legs)) (splitSegs segs T) ∧
    ∀ idx, InShape idx ((segs.flatMap Seg.legs).map (ESpace.dim sym)) →
      (toDense sym (segs.flatMap Seg.legs) (splitSegs segs T)).val idx =
        (toDense sym (segs.map Seg.leg) T).val (fuseIndex sym segs idx) := by
  obtain ⟨o1, o2⟩ := segs_denseOK hd h1 hcd hs
  have hok : ∀ s ∈ segs, SegOK s := fun s hm => segOK_of_valid hinv (hs s hm)
  have hsane := sane_splitSegs hok hT
  refine ⟨hsane, ?_⟩
  intro idx hi
  obtain ⟨row, pos, hl, -⟩ := (C35_index_bijection sym _ o1).1 idx hi
  obtain ⟨row', pos', f, hl'⟩ := located_fuses hd hinv h1 hs hl
  rw [(C35_to_dense sym _ o1 _ hsane).2 _ _ _ hl, (C35_to_dense sym _ o2 _ hT).2 _ _ _ hl']
  exact dense_splitSegs hok hT f

/-- **C49**: splitting the combined legs gives back the tensor, and combining split legs as well. -/
theorem C49_roundtrip [AddCommMonoid K] (segs : List (Seg S)) (hs : ∀ s ∈ segs, SegValid sym R s) :
    (∀ T : Ents K, Sane (legMults (segs.flatMap Seg.legs)) T →
      ∀ idx, InShape idx ((segs.flatMap Seg.legs).map (ESpace.dim sym)) →
        (toDense sym (segs.flatMap Seg.legs) (splitSegs segs (combineSegs segs T))).val idx =
          (toDense sym (segs.flatMap Seg.legs) T).val idx) ∧
    (∀ T : Ents K, Sane (legMults (segs.map Seg.leg)) T →
      ∀ idx, InShape idx ((segs.map Seg.leg).map (ESpace.dim sym)) →
        (toDense sym (segs.map Seg.leg) (combineSegs segs (splitSegs segs T))).val idx =
          (toDense sym (segs.map Seg.leg) T).val idx) := by
  constructor
  · intro T hT idx hi
    obtain ⟨c1, -, c3⟩ := C49_combine sym R hd hinv h1 hcd segs hs T hT
    rw [(C49_split_legs sym R hd hinv h1 hcd segs hs _ c1).2 idx hi, c3 idx hi]
  · intro T hT jdx hj
    obtain ⟨c1, c2⟩ := C49_split_legs sym R hd hinv h1 hcd segs hs T hT
    obtain ⟨idx, hi, rfl⟩ := (C49_index_bijection sym R hd hinv h1 hcd segs hs).2.2 jdx hj
    rw [(C49_combine sym R hd hinv h1 hcd segs hs _ c1).2.2 idx hi, c2 idx hi]

end Statements

end Cyten.Props
