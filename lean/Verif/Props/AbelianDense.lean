import Verif.Model.AbelianDense
import Verif.Lemmas.AbelianPipe3
import Verif.Lemmas.AbelianReshape
import Verif.Props.Spaces
import Verif.Props.AbelianCompose
import Verif.Lemmas.AbelianExample

/-!
# C35: conversion of abelian tensors to and from dense arrays

The legs are `ElementarySpace`s of an abelian symmetry.  A public basis index `j` of a leg is at
offset `off` of the block of sector number `b` (`IsPosition`, as in C26).
-/

namespace Cyten.Abelian.Spec
open Cyten.Abelian Cyten.Spaces Cyten.Props

variable {S : Type} [LinearOrder S]

/-- The multi-index `idx` of public basis indices is the basis vector with sector numbers `row` and
numbers within the sectors `pos`. -/
def Located (sym : Sym S) : List (ESpace S) → List ℕ → List ℕ → List ℕ → Prop
  | [], [], [], [] => True
  | e :: es, j :: js, b :: bs, o :: os => IsPosition sym e j b o ∧ Located sym es js bs os
  | _, _, _, _ => False

/-- Valid legs of an abelian symmetry whose sectors are one-dimensional. -/
structure DenseOK (sym : Sym S) (legs : List (ESpace S)) : Prop where
  dims : DimOK sym
  one : ∀ s, sym.dim s = 1
  drop : sym.canDrop = true
  valid : ∀ e ∈ legs, ValidSpace sym e

/-- The multiplicities of the legs. -/
def legMults (legs : List (ESpace S)) : List (List ℕ) := legs.map ESpace.mults

/-- The charge rule for the entry at a multi-index of a dense array. -/
def Allowed (sym : Sym S) (R : Cyten.FusionRule S) (codom dom : List (ESpace S)) (idx : List ℕ) :
    Prop :=
  ∃ row pos, Located sym (codom ++ dom.reverse) idx row pos ∧
    fusedCharge R (codom.map (toBLeg sym)) (row.take codom.length) =
      fusedCharge R (dom.map (toBLeg sym)) (row.drop codom.length).reverse

end Cyten.Abelian.Spec

namespace Cyten.Props
open Cyten.Abelian Cyten.Abelian.Spec Cyten.Tables Cyten.Tools Cyten.ListSum Cyten.Spaces

variable {S K : Type} [LinearOrder S]

/-! ## One leg -/

section Leg
variable {sym : Sym S} {e : ESpace S}

private theorem totalDim_one (h1 : ∀ s, sym.dim s = 1) (sectors : List S) (mults : List ℕ)
    (h : mults.length = sectors.length) : Spec.totalDim sym.dim sectors mults = mults.sum := by
  rw [← numStates_sum, APipe.numStates_one sym h1 _ _ h]

theorem legOK_of (hd : DimOK sym) (h1 : ∀ s, sym.dim s = 1) (hv : ValidSpace sym e) :
    APipe.LegOK sym e := ⟨hv.lengths, h1⟩

theorem sectors_length (hv : ValidSpace sym e) : (e.sectors sym).length = e.mults.length := by
  unfold ESpace.sectors
  split <;> simp [hv.lengths]

theorem isPosition_iff (h1 : ∀ s, sym.dim s = 1) (hv : ValidSpace sym e) (j b off : ℕ) :
    IsPosition sym e j b off ↔ b < e.mults.length ∧ off < e.mults.getD b 0 ∧
      (e.basisPerm sym)[(e.mults.take b).sum + off]? = some j := by
  have hl := sectors_length hv
  have ht : Spec.totalDim sym.dim ((e.sectors sym).take b) (e.mults.take b) =
      (e.mults.take b).sum := totalDim_one h1 _ _ (by simp [hl])
  unfold IsPosition
  rw [ht]
  constructor
  · rintro ⟨s, m, hs, hm, ho, hj⟩
    rw [h1, Nat.one_mul] at ho
    refine ⟨(List.getElem?_eq_some_iff.1 hm).1, ?_, hj⟩
    rw [List.getD_eq_getElem?_getD, hm]; exact ho
  · rintro ⟨hb, ho, hj⟩
    refine ⟨(e.sectors sym)[b]'(by omega), e.mults[b], List.getElem?_eq_getElem _,
      List.getElem?_eq_getElem _, ?_, hj⟩
    rw [h1, Nat.one_mul]
    rwa [List.getD_eq_getElem?_getD, List.getElem?_eq_getElem hb] at ho

theorem bounds_getD (hd : DimOK sym) (h1 : ∀ s, sym.dim s = 1) (hv : ValidSpace sym e) (b : ℕ)
    (hb : b ≤ e.mults.length) : (e.bounds sym).getD b 0 = (e.mults.take b).sum := by
  rw [(legOK_of hd h1 hv).bounds, sliceBoundaries_getD _ _ hb]

theorem dim_eq (hd : DimOK sym) (h1 : ∀ s, sym.dim s = 1) (hv : ValidSpace sym e) :
    e.dim sym = e.mults.sum := (legOK_of hd h1 hv).dim

theorem basisPerm_length (hd : DimOK sym) (hv : ValidSpace sym e) :
    (e.basisPerm sym).length = e.dim sym := by
  rw [(basisPerm_isPerm sym hd e hv).2, C25_dim sym hd]

theorem take_sum_lt {l : List ℕ} {b b' off : ℕ} (hb : b < l.length) (hb' : b' < l.length)
    (ho : off < l.getD b 0) :
    ((l.take b').sum ≤ (l.take b).sum + off ∧ (l.take b).sum + off < (l.take (b' + 1)).sum) ↔
      b' = b := by
  have e1 := take_sum_succ l b _ (List.getElem?_eq_getElem hb)
  have e2 := take_sum_succ l b' _ (List.getElem?_eq_getElem hb')
  rw [List.getD_eq_getElem?_getD, List.getElem?_eq_getElem hb] at ho
  simp only [Option.getD_some] at ho
  constructor
  · rintro ⟨h1, h2⟩
    rcases Nat.lt_trichotomy b' b with h | h | h
    · have := take_sum_mono l (b' + 1) b h
      omega
    · exact h
    · have := take_sum_mono l (b + 1) b' h
      omega
  · rintro rfl
    omega

theorem place_lt {l : List ℕ} {b off : ℕ} (hb : b < l.length) (ho : off < l.getD b 0) :
    (l.take b).sum + off < l.sum := by
  have h := ((take_sum_lt hb hb ho).2 rfl).2
  have := take_sum_mono l (b + 1) l.length hb
  rw [List.take_length] at this
  omega

theorem inverseBasisPerm_getD (hd : DimOK sym) (h1 : ∀ s, sym.dim s = 1) (hv : ValidSpace sym e)
    {j b off : ℕ} (h : IsPosition sym e j b off) :
    (inverseBasisPerm sym e).getD j 0 = (e.mults.take b).sum + off := by
  rw [isPosition_iff h1 hv] at h
  have hi := inverse_lookup sym hd e hv _ _ h.2.2
  rw [← hi]
  have hj : j < e.dim sym := by
    have hm : j ∈ e.basisPerm sym := List.mem_of_getElem? h.2.2
    have := (basisPerm_isPerm sym hd e hv).1.mem_iff.1 hm
    rw [basisPerm_length hd hv] at this
    simpa using this
  unfold inverseBasisPerm ESpace.internalIndex
  cases e.inversePerm with
  | none => simp [List.getD_eq_getElem?_getD, hj]
  | some p => rfl

theorem inverseBasisPerm_length (hd : DimOK sym) (hv : ValidSpace sym e) :
    (inverseBasisPerm sym e).length = e.dim sym := by
  have hb := basisPerm_length hd hv
  unfold inverseBasisPerm ESpace.inversePerm
  unfold ESpace.basisPerm at hb
  cases hp : e.perm with
  | none => simp
  | some p =>
    rw [hp] at hb
    simpa [length_inversePermutation] using hb

theorem isPosition_lt (hd : DimOK sym) (hv : ValidSpace sym e)
    {j b off : ℕ} (h : IsPosition sym e j b off) : j < e.dim sym := by
  obtain ⟨s, m, -, -, -, hj⟩ := h
  have hm : j ∈ e.basisPerm sym := List.mem_of_getElem? hj
  have := (basisPerm_isPerm sym hd e hv).1.mem_iff.1 hm
  rw [basisPerm_length hd hv] at this
  simpa using this

end Leg

/-! ## Multi-indices -/

/-- **C35**: `Located` is a bijection between the multi-indices of the dense array and the basis
vectors of the block-sparse tensor. -/
theorem C35_index_bijection (sym : Sym S) (legs : List (ESpace S)) (h : DenseOK sym legs) :
    (∀ idx, InShape idx (legs.map (ESpace.dim sym)) →
      ∃ row pos, Located sym legs idx row pos ∧ IsIndex (legMults legs) row pos) ∧
    (∀ row pos, IsIndex (legMults legs) row pos →
      ∃ idx, Located sym legs idx row pos ∧ InShape idx (legs.map (ESpace.dim sym))) ∧
    (∀ idx row pos row' pos', Located sym legs idx row pos → Located sym legs idx row' pos' →
      row' = row ∧ pos' = pos) ∧
    (∀ idx idx' row pos, Located sym legs idx row pos → Located sym legs idx' row pos →
      idx' = idx) := by
  obtain ⟨hd, h1, hcd, hv⟩ := h
  induction legs with
  | nil =>
    refine ⟨fun idx hi => ?_, fun row pos hi => ?_, ?_, ?_⟩
    · cases hi
      exact ⟨[], [], trivial, List.Forall₂.nil, List.Forall₂.nil⟩
    · obtain ⟨hr, hp⟩ := hi
      cases hr
      simp only [shapeOf, legMults, List.map_nil, List.zipWith_nil_left] at hp
      cases hp
      exact ⟨[], trivial, List.Forall₂.nil⟩
    · intro idx row pos row' pos' ha hb
      cases idx <;> cases row <;> cases pos <;> cases row' <;> cases pos' <;>
        simp_all [Located]
    · intro idx idx' row pos ha hb
      cases idx <;> cases row <;> cases pos <;> cases idx' <;> simp_all [Located]
  | cons e es ih =>
    obtain ⟨i1, i2, i3, i4⟩ := ih fun x hx => hv x (List.mem_cons_of_mem _ hx)
    have hve := hv e List.mem_cons_self
    refine ⟨fun idx hi => ?_, fun row pos hi => ?_, ?_, ?_⟩
    · obtain ⟨j, js, hj, hjs, rfl⟩ := List.forall₂_cons_right_iff.1 hi
      obtain ⟨row, pos, hloc, hrow, hpos⟩ := i1 js hjs
      obtain ⟨b, off, -, hp, -⟩ := (C26_parse_index sym hd hcd e hve j).2 j hj (Or.inl rfl)
      have hp' := (isPosition_iff h1 hve j b off).1 hp
      exact ⟨b :: row, off :: pos, ⟨hp, hloc⟩, List.Forall₂.cons hp'.1 hrow,
        List.Forall₂.cons hp'.2.1 hpos⟩
    · obtain ⟨hr, hp⟩ := hi
      obtain ⟨b, bs, hb, hbs, rfl⟩ := List.forall₂_cons_right_iff.1 hr
      obtain ⟨o, os, ho, hos, rfl⟩ := List.forall₂_cons_right_iff.1 hp
      obtain ⟨js, hloc, hjs⟩ := i2 bs os ⟨hbs, hos⟩
      have hlt : (e.mults.take b).sum + o < (e.basisPerm sym).length := by
        rw [basisPerm_length hd hve, dim_eq hd h1 hve]
        exact place_lt hb ho
      have hpos : IsPosition sym e ((e.basisPerm sym)[(e.mults.take b).sum + o]) b o :=
        (isPosition_iff h1 hve _ b o).2 ⟨hb, ho, List.getElem?_eq_getElem hlt⟩
      exact ⟨_ :: js, ⟨hpos, hloc⟩, List.Forall₂.cons (isPosition_lt hd hve hpos) hjs⟩
    · intro idx row pos row' pos' ha hb
      match idx, row, pos, row', pos', ha, hb with
      | j :: js, b :: bs, o :: os, b' :: bs', o' :: os', ⟨ha, has⟩, ⟨hb, hbs⟩ =>
        obtain ⟨b0, off0, -, -, hu⟩ := (C26_parse_index sym hd hcd e hve j).2 j
          (isPosition_lt hd hve ha) (Or.inl rfl)
        obtain ⟨rfl, rfl⟩ := hu _ _ ha
        obtain ⟨rfl, rfl⟩ := hu _ _ hb
        obtain ⟨rfl, rfl⟩ := i3 _ _ _ _ _ has hbs
        exact ⟨rfl, rfl⟩
    · intro idx idx' row pos ha hb
      match idx, idx', row, pos, ha, hb with
      | j :: js, j' :: js', b :: bs, o :: os, ⟨ha, has⟩, ⟨hb, hbs⟩ =>
        have e1 := ((isPosition_iff h1 hve j b o).1 ha).2.2
        have e2 := ((isPosition_iff h1 hve j' b o).1 hb).2.2
        rw [e1] at e2
        injection e2 with e2
        rw [e2, i4 _ _ _ _ has hbs]

/-- The place of a basis vector in the internal order. -/
def place (sym : Sym S) (legs : List (ESpace S)) (row pos : List ℕ) : List ℕ :=
  List.zipWith (fun x (s : ℕ × ℕ) => x + s.1) pos (rowSlices sym legs row)

theorem located_perm {sym : Sym S} {legs : List (ESpace S)} (h : DenseOK sym legs)
    {idx row pos : List ℕ} (hl : Located sym legs idx row pos) :
    List.zipWith (fun (p : List ℕ) x => p.getD x 0) (legs.map (inverseBasisPerm sym)) idx =
      place sym legs row pos ∧
    List.zipWith (fun (p : List ℕ) x => p.getD x 0) (legs.map (ESpace.basisPerm sym))
      (place sym legs row pos) = idx ∧
    List.zipWith (fun x (s : ℕ × ℕ) => x - s.1) (place sym legs row pos)
      (rowSlices sym legs row) = pos ∧
    IsIndex (legMults legs) row pos ∧ InShape idx (legs.map (ESpace.dim sym)) ∧
    InShape (place sym legs row pos) (legs.map (ESpace.dim sym)) := by
  obtain ⟨hd, h1, hcd, hv⟩ := h
  induction legs generalizing idx row pos with
  | nil =>
    cases idx <;> cases row <;> cases pos <;> simp_all [Located, place, rowSlices, IsIndex,
      legMults, shapeOf, InShape]
  | cons e es ih =>
    have hve := hv e List.mem_cons_self
    match idx, row, pos, hl with
    | j :: js, b :: bs, o :: os, ⟨hj, hl⟩ =>
      obtain ⟨i1, i2, i3, i4, i5, i6⟩ := ih hl fun x hx => hv x (List.mem_cons_of_mem _ hx)
      have hp := (isPosition_iff h1 hve j b o).1 hj
      have hs : (legSlice sym e b).1 = (e.mults.take b).sum := bounds_getD hd h1 hve b hp.1.le
      have hpl : place sym (e :: es) (b :: bs) (o :: os) =
          ((e.mults.take b).sum + o) :: place sym es bs os := by
        show (o + (legSlice sym e b).1) :: _ = _
        rw [hs, Nat.add_comm]
        rfl
      rw [hpl]
      refine ⟨?_, ?_, ?_, ⟨List.Forall₂.cons hp.1 i4.1, List.Forall₂.cons hp.2.1 i4.2⟩,
        List.Forall₂.cons (isPosition_lt hd hve hj) i5, List.Forall₂.cons ?_ i6⟩
      · rw [List.map_cons, List.zipWith_cons_cons, i1, inverseBasisPerm_getD hd h1 hve hj]
      · rw [List.map_cons, List.zipWith_cons_cons, i2, List.getD_eq_getElem?_getD, hp.2.2]
        rfl
      · show ((e.mults.take b).sum + o - (legSlice sym e b).1) :: _ = _
        rw [hs]
        congr 1
        omega
      · rw [dim_eq hd h1 hve]
        exact place_lt hp.1 hp.2.1

theorem inSlices_place {sym : Sym S} {legs : List (ESpace S)} (h : DenseOK sym legs)
    {row pos row' : List ℕ} (hi : IsIndex (legMults legs) row pos)
    (hr : InShape row' ((legMults legs).map List.length)) :
    inSlices (place sym legs row pos) (rowSlices sym legs row') = true ↔ row' = row := by
  obtain ⟨hd, h1, hcd, hv⟩ := h
  obtain ⟨hrow, hpos⟩ := hi
  induction legs generalizing row pos row' with
  | nil =>
    cases hrow; cases hr
    simp [rowSlices, place, inSlices]
  | cons e es ih =>
    have hve := hv e List.mem_cons_self
    obtain ⟨b, bs, hb, hbs, rfl⟩ := List.forall₂_cons_right_iff.1 hrow
    obtain ⟨o, os, ho, hos, rfl⟩ := List.forall₂_cons_right_iff.1 hpos
    obtain ⟨b', bs', hb', hbs', rfl⟩ := List.forall₂_cons_right_iff.1 hr
    have hs : (legSlice sym e b).1 = (e.mults.take b).sum := bounds_getD hd h1 hve b hb.le
    have hs1 : (legSlice sym e b').1 = (e.mults.take b').sum := bounds_getD hd h1 hve b' hb'.le
    have hs2 : (legSlice sym e b').2 = (e.mults.take (b' + 1)).sum :=
      bounds_getD hd h1 hve (b' + 1) hb'
    have := ih hbs' (fun x hx => hv x (List.mem_cons_of_mem _ hx)) hbs hos
    show ((decide ((legSlice sym e b').1 ≤ o + (legSlice sym e b).1) &&
      decide (o + (legSlice sym e b).1 < (legSlice sym e b').2) &&
        inSlices (place sym es bs os) (rowSlices sym es bs')) = true) ↔ _
    rw [Bool.and_eq_true, Bool.and_eq_true, this, hs, hs1, hs2, decide_eq_true_eq,
      decide_eq_true_eq, Nat.add_comm o, take_sum_lt hb hb' ho, List.cons.injEq]

/-! ## To dense -/

theorem foldl_setSlice {sym : Sym S} {legs : List (ESpace S)} (res : Blk K) (T : Ents K)
    (i : List ℕ) :
    (T.foldl (fun res p => res.setSlice (rowSlices sym legs p.1) p.2) res).shape = res.shape ∧
    ((∀ p ∈ T, inSlices i (rowSlices sym legs p.1) = false) →
      (T.foldl (fun res p => res.setSlice (rowSlices sym legs p.1) p.2) res).val i = res.val i) ∧
    (∀ p ∈ T, inSlices i (rowSlices sym legs p.1) = true →
      (∀ q ∈ T, inSlices i (rowSlices sym legs q.1) = true → q = p) →
      (T.foldl (fun res p => res.setSlice (rowSlices sym legs p.1) p.2) res).val i =
        p.2.val (List.zipWith (fun x (s : ℕ × ℕ) => x - s.1) i (rowSlices sym legs p.1))) := by
  induction T generalizing res with
  | nil => exact ⟨rfl, fun _ => rfl, by simp⟩
  | cons q T ih =>
    obtain ⟨i1, i2, i3⟩ := ih (res.setSlice (rowSlices sym legs q.1) q.2)
    refine ⟨i1, fun hn => ?_, fun p hp hin hu => ?_⟩
    · rw [List.foldl_cons, i2 fun p hp => hn p (List.mem_cons_of_mem _ hp)]
      show (if _ then _ else _) = _
      rw [hn q List.mem_cons_self]
      rfl
    · rw [List.foldl_cons]
      by_cases hpT : p ∈ T
      · exact i3 p hpT hin fun r hr => hu r (List.mem_cons_of_mem _ hr)
      · have hpq : q = p := by
          rcases List.mem_cons.1 hp with h | h
          · exact h.symm
          · exact absurd h hpT
        subst hpq
        rw [i2]
        · show (if _ then _ else _) = _
          rw [if_pos hin]
        · intro r hr
          by_contra hne
          have := hu r (List.mem_cons_of_mem _ hr) (by simpa using hne)
          exact hpT (this ▸ hr)

theorem toDenseBlock_val [AddCommMonoid K] {sym : Sym S} {legs : List (ESpace S)}
    (h : DenseOK sym legs) {T : Ents K} (hT : Sane (legMults legs) T) {row pos : List ℕ}
    (hi : IsIndex (legMults legs) row pos) (hpos : List.zipWith (fun x (s : ℕ × ℕ) => x - s.1)
      (place sym legs row pos) (rowSlices sym legs row) = pos) :
    (toDenseBlock sym legs T).val (place sym legs row pos) = dense T row pos := by
  obtain ⟨-, f2, f3⟩ := foldl_setSlice (sym := sym) (legs := legs)
    (Blk.zeros (legs.map (ESpace.dim sym))) T (place sym legs row pos)
  unfold toDenseBlock
  by_cases hm : ∃ p ∈ T, p.1 = row
  · obtain ⟨p, hp, rfl⟩ := hm
    rw [hT.dense_of_mem hp, f3 p hp ((inSlices_place h hi (hT.inRange p hp)).2 rfl), hpos]
    intro q hq hin
    exact hT.eq_of_fst hq hp ((inSlices_place h hi (hT.inRange q hq)).1 hin)
  · rw [dense_of_not_mem fun p hp he => hm ⟨p, hp, he⟩, f2]
    · rfl
    · intro p hp
      rw [Bool.eq_false_iff]
      intro hin
      exact hm ⟨p, hp, (inSlices_place h hi (hT.inRange p hp)).1 hin⟩

/-- **C35**: `to_dense_block` has the dimensions of the legs as shape, and its entry at a
multi-index of public basis indices is the entry of the block-sparse tensor at the corresponding
basis vector. -/
theorem C35_to_dense [AddCommMonoid K] (sym : Sym S) (legs : List (ESpace S))
    (h : DenseOK sym legs) (T : Ents K) (hT : Sane (legMults legs) T) :
    (toDense sym legs T).shape = legs.map (ESpace.dim sym) ∧
    ∀ idx row pos, Located sym legs idx row pos →
      (toDense sym legs T).val idx = dense T row pos := by
  constructor
  · show (legs.map (inverseBasisPerm sym)).map List.length = _
    rw [List.map_map]
    exact List.map_congr_left fun e he => inverseBasisPerm_length h.dims (h.valid e he)
  · intro idx row pos hl
    obtain ⟨p1, -, p3, p4, -, -⟩ := located_perm h hl
    show (toDenseBlock sym legs T).val _ = _
    rw [p1]
    exact toDenseBlock_val h hT p4 p3

/-! ## Elements -/

omit [LinearOrder S] in
private theorem dense_getBlock [AddCommMonoid K] {M : List (List ℕ)} {T : Ents K} (hT : Sane M T)
    (row pos : List ℕ) : blockEntry (getBlock T row) pos = dense T row pos := by
  by_cases hm : ∃ p ∈ T, p.1 = row
  · obtain ⟨p, hp, rfl⟩ := hm
    rw [hT.getBlock_of_mem hp, hT.dense_of_mem hp]
    rfl
  · rw [getBlock_none fun p hp he => hm ⟨p, hp, he⟩,
      dense_of_not_mem fun p hp he => hm ⟨p, hp, he⟩]
    rfl

private theorem parseAll_some {sym : Sym S} {legs : List (ESpace S)} (h : DenseOK sym legs)
    {idx : List ℕ} {ints : List ℤ} (hi : InShape idx (legs.map (ESpace.dim sym)))
    (hw : List.Forall₂ (fun (p : ℤ × ℕ) (d : ℕ) => p.1 = p.2 ∨ p.1 = (p.2 : ℤ) - d)
      (ints.zip idx) (legs.map (ESpace.dim sym))) :
    ∃ ps, parseAll sym legs ints = some ps ∧
      Located sym legs idx (ps.map Prod.fst) (ps.map Prod.snd) := by
  obtain ⟨hd, h1, hcd, hv⟩ := h
  induction legs generalizing idx ints with
  | nil =>
    cases hi
    exact ⟨[], by cases ints <;> rfl, trivial⟩
  | cons e es ih =>
    obtain ⟨j, js, hj, hjs, rfl⟩ := List.forall₂_cons_right_iff.1 hi
    cases ints with
    | nil => cases hw
    | cons i is =>
      rw [List.zip_cons_cons, List.map_cons, List.forall₂_cons] at hw
      obtain ⟨ps, hps, hloc⟩ := ih hjs hw.2 fun x hx => hv x (List.mem_cons_of_mem _ hx)
      obtain ⟨b, off, hpar, hpos, -⟩ :=
        (C26_parse_index sym hd hcd e (hv e List.mem_cons_self) i).2 j hj hw.1
      refine ⟨(b, off) :: ps, ?_, hpos, hloc⟩
      unfold parseAll
      rw [hpar, hps]

/-- **C35**: an element `T[idcs]` is the entry of the dense array; a negative index counts from the
end. -/
theorem C35_get_element [AddCommMonoid K] (sym : Sym S) (legs : List (ESpace S))
    (h : DenseOK sym legs) (T : Ents K) (hT : Sane (legMults legs) T) (idx : List ℕ)
    (ints : List ℤ) (hi : InShape idx (legs.map (ESpace.dim sym)))
    (hw : List.Forall₂ (fun (p : ℤ × ℕ) (d : ℕ) => p.1 = p.2 ∨ p.1 = (p.2 : ℤ) - d)
      (ints.zip idx) (legs.map (ESpace.dim sym))) :
    getElement sym legs T ints = some ((toDense sym legs T).val idx) := by
  obtain ⟨ps, hps, hloc⟩ := parseAll_some h hi hw
  unfold getElement
  rw [hps, Option.map_some, (C35_to_dense sym legs h T hT).2 idx _ _ hloc, dense_getBlock hT]

/-- **C35**: `T[idcs]` raises if one of the indices is out of range. -/
theorem C35_get_element_raises [AddCommMonoid K] (sym : Sym S) (legs : List (ESpace S))
    (h : DenseOK sym legs) (T : Ents K) (ints : List ℤ) (k : ℕ) (i : ℤ) (e : ESpace S)
    (hk : ints[k]? = some i) (he : legs[k]? = some e)
    (hout : i < -(e.dim sym : ℤ) ∨ (e.dim sym : ℤ) ≤ i) : getElement sym legs T ints = none := by
  have key : parseAll sym legs ints = none := by
    obtain ⟨hd, h1, hcd, hv⟩ := h
    induction legs generalizing ints k with
    | nil => simp at he
    | cons e' es ih =>
      cases ints with
      | nil => rfl
      | cons i' is =>
        unfold parseAll
        cases k with
        | zero =>
          simp only [List.getElem?_cons_zero, Option.some.injEq] at hk he
          subst hk; subst he
          rw [(C26_parse_index sym hd hcd e' (hv e' List.mem_cons_self) i').1 hout]
        | succ k =>
          rw [ih is k (by simpa using hk) (by simpa using he)
            fun x hx => hv x (List.mem_cons_of_mem _ hx)]
          cases e'.parseIndex sym i' <;> rfl
  unfold getElement
  rw [key]
  rfl

/-! ## From dense -/

theorem validBlockInds_some [DecidableEq S] {R : FusionRule S} {codom dom : List (BLeg S)}
    {rows : List (List ℕ)} (h : validBlockInds R codom dom = some rows) :
    (∀ r, r ∈ rows ↔ InShape r ((legOrder codom dom).map fun l => l.sectors.length) ∧
      fusedCharge R codom (r.take codom.length) =
        fusedCharge R dom (r.drop codom.length).reverse) ∧ StrictlySorted rows := by
  unfold validBlockInds makeGridPy at h
  by_cases he : ((legOrder codom dom).map fun l => l.sectors.length).isEmpty = true
  · rw [if_pos he] at h; cases h
  rw [if_neg he, Option.map_some] at h
  injection h with h
  set sh := (legOrder codom dom).map fun l => l.sectors.length with hsh
  have hgrid := C22_grid_complete sh false
  set l := (makeGrid sh false).filter (chargesAgree R codom dom) with hl
  have hmem : ∀ r, r ∈ l ↔ InShape r sh ∧ fusedCharge R codom (r.take codom.length) =
        fusedCharge R dom (r.drop codom.length).reverse := by
    intro r
    rw [hl, List.mem_filter, hgrid.1 r]
    unfold chargesAgree InShape
    rw [decide_eq_true_eq]
  have hperm : rows.Perm l := by rw [← h]; exact List.perm_insertionSort _ l
  refine ⟨fun r => by rw [hperm.mem_iff]; exact hmem r, ?_⟩
  have hlen : ∀ r ∈ l, r.length = sh.length := fun r hr => ((hmem r).1 hr).1.length
  have hs : rows.Pairwise fun r s => r.reverse ≤ s.reverse := by
    rw [← h]
    refine insertionSort_key_sorted _ List.reverse l fun x hx y hy => ?_
    exact cmp_le_iff ((hlen x hx).trans (hlen y hy).symm)
  have hnd : rows.Nodup := hperm.nodup_iff.2 (hgrid.2.1.filter _)
  unfold StrictlySorted
  refine (hs.and hnd).imp_of_mem fun {r s} hr hs' hrs => ?_
  refine (rowLt_key (hlen r (hperm.mem_iff.1 hr)) (hlen s (hperm.mem_iff.1 hs'))).2 ?_
  exact lt_of_le_of_ne hrs.1 fun he => hrs.2 (List.reverse_injective he)

theorem numSectors_eq {sym : Sym S} {legs : List (ESpace S)} (h : DenseOK sym legs) :
    ((legs.map (toBLeg sym)).map fun l => l.sectors.length) = (legMults legs).map List.length := by
  unfold legMults
  rw [List.map_map, List.map_map]
  exact List.map_congr_left fun e he => sectors_length (h.valid e he)

theorem legSlice_size {sym : Sym S} {legs : List (ESpace S)} (h : DenseOK sym legs) {row : List ℕ}
    (hr : InShape row ((legMults legs).map List.length)) :
    ((rowSlices sym legs row).map fun s => s.2 - s.1) = shapeOf (legMults legs) row := by
  obtain ⟨hd, h1, hcd, hv⟩ := h
  induction legs generalizing row with
  | nil => rfl
  | cons e es ih =>
    obtain ⟨b, bs, hb, hbs, rfl⟩ := List.forall₂_cons_right_iff.1 hr
    have hve := hv e List.mem_cons_self
    show ((legSlice sym e b).2 - (legSlice sym e b).1) :: _ = e.mults.getD b 0 :: _
    congr 1
    · show (e.bounds sym).getD (b + 1) 0 - (e.bounds sym).getD b 0 = _
      rw [bounds_getD hd h1 hve b (by omega), bounds_getD hd h1 hve (b + 1) hb,
        take_sum_succ e.mults b _ (List.getElem?_eq_getElem hb), List.getD_eq_getElem?_getD,
        List.getElem?_eq_getElem hb]
      simp
    · exact ih hbs fun x hx => hv x (List.mem_cons_of_mem _ hx)

theorem sane_cutBlocks {sym : Sym S} {legs : List (ESpace S)} (h : DenseOK sym legs)
    (a : Blk K) {rows : List (List ℕ)}
    (hr : ∀ r ∈ rows, InShape r ((legMults legs).map List.length)) (hs : StrictlySorted rows) :
    Sane (legMults legs) (cutBlocks sym legs a rows) := by
  refine ⟨fun p hp => ?_, fun p hp => ?_, ?_⟩
  · obtain ⟨r, hr', rfl⟩ := List.mem_map.1 hp
    exact hr r hr'
  · obtain ⟨r, hr', rfl⟩ := List.mem_map.1 hp
    exact legSlice_size h (hr r hr')
  · unfold cutBlocks
    rw [List.map_map]
    simpa [Function.comp_def] using hs

theorem dense_cutBlocks [AddCommMonoid K] {sym : Sym S} {legs : List (ESpace S)}
    (h : DenseOK sym legs) (a : Blk K) {rows : List (List ℕ)}
    (hr : ∀ r ∈ rows, InShape r ((legMults legs).map List.length)) (hs : StrictlySorted rows)
    (row pos : List ℕ) [Decidable (row ∈ rows)] :
    dense (cutBlocks sym legs a rows) row pos =
      if row ∈ rows then a.val (place sym legs row pos) else 0 := by
  by_cases hm : row ∈ rows
  · rw [if_pos hm]
    have hmem : (row, a.getSlice (rowSlices sym legs row)) ∈ cutBlocks sym legs a rows :=
      List.mem_map.2 ⟨row, hm, rfl⟩
    rw [(sane_cutBlocks h a hr hs).dense_of_mem hmem]
    rfl
  · rw [if_neg hm, dense_of_not_mem]
    intro p hp he
    obtain ⟨r, hr', rfl⟩ := List.mem_map.1 hp
    exact hm (he ▸ hr')

/-- permuting the entries of every axis permutes the multi-indices -/
theorem gridC_axis_perm (perms : List (List ℕ)) (dims : List ℕ)
    (h : List.Forall₂ (fun (p : List ℕ) d => p.Perm (List.range d)) perms dims) :
    ((gridC dims).map fun i => List.zipWith (fun (p : List ℕ) x => p.getD x 0) perms i).Perm
      (gridC dims) := by
  induction h with
  | nil => exact List.Perm.refl _
  | @cons p d ps ds hp _ ih =>
    have hl : p.length = d := by simpa using hp.length_eq
    have e1 : (List.range d).map (fun x => p.getD x 0) = p := by
      rw [← hl]
      refine List.ext_getElem (by simp) fun i h1 h2 => ?_
      simp [List.getD_eq_getElem?_getD, List.getElem?_eq_getElem h2]
    show (((List.range d).flatMap fun i => (gridC ds).map (i :: ·)).map _).Perm
      ((List.range d).flatMap fun i => (gridC ds).map (i :: ·))
    rw [List.map_flatMap]
    have e2 : ((List.range d).flatMap fun a => List.map
        (fun i => List.zipWith (fun (p : List ℕ) x => p.getD x 0) (p :: ps) i)
        ((gridC ds).map (a :: ·))) = p.flatMap fun x => ((gridC ds).map fun i =>
          List.zipWith (fun (p : List ℕ) x => p.getD x 0) ps i).map (x :: ·) := by
      conv_rhs => rw [← e1]
      rw [List.flatMap_map]
      congr 1
      funext a
      rw [List.map_map, List.map_map]
      rfl
    rw [e2]
    refine (List.Perm.flatMap_left _ fun x _ => ih.map _).trans ?_
    exact hp.flatMap_right _

theorem sum_places {sym : Sym S} {legs : List (ESpace S)} (h : DenseOK sym legs)
    (F : List ℕ → ℝ) : ((gridC (legs.map (ESpace.dim sym))).map F).sum =
      ((gridC (legs.map (ESpace.dim sym))).map fun idx => F (List.zipWith
        (fun (p : List ℕ) x => p.getD x 0) (legs.map (inverseBasisPerm sym)) idx)).sum := by
  have hp := gridC_axis_perm (legs.map (inverseBasisPerm sym)) (legs.map (ESpace.dim sym)) (by
    rw [List.forall₂_map_left_iff, List.forall₂_map_right_iff, List.forall₂_same]
    intro e he
    have hv := h.valid e he
    have hbl := basisPerm_length h.dims hv
    have hb := (basisPerm_isPerm sym h.dims e hv).1
    unfold IsPerm at hb
    unfold ESpace.basisPerm at hb hbl
    unfold inverseBasisPerm ESpace.inversePerm
    cases hpp : e.perm with
    | none => exact List.Perm.refl _
    | some p =>
      rw [hpp] at hb hbl
      simp only [Option.map_some] at hb hbl ⊢
      have := inversePermutation_perm hb
      rw [hbl] at this
      exact this)
  rw [← (hp.map F).sum_eq, List.map_map]
  rfl

section From
variable {sym : Sym S} {R : FusionRule S} {codom dom : List (ESpace S)}

private theorem shape_perm (h : DenseOK sym (legOrder codom dom)) (a : Blk K) :
    (a.applyLegPermutations ((legOrder codom dom).map (ESpace.basisPerm sym))).shape =
      (legOrder codom dom).map (ESpace.dim sym) := by
  show ((legOrder codom dom).map _).map List.length = _
  rw [List.map_map]
  exact List.map_congr_left fun e he => basisPerm_length h.dims (h.valid e he)

private theorem map_legOrder {α β : Type} (f : α → β) (l m : List α) :
    legOrder (l.map f) (m.map f) = (legOrder l m).map f := by
  simp [legOrder]

/-- the rows, and what the cut blocks contain -/
private theorem cut_spec (h : DenseOK sym (legOrder codom dom)) (a : Blk ℂ)
    {rows : List (List ℕ)}
    (hr : validBlockInds R (codom.map (toBLeg sym)) (dom.map (toBLeg sym)) = some rows) :
    Sane (legMults (legOrder codom dom)) (cutBlocks sym (legOrder codom dom)
      (a.applyLegPermutations ((legOrder codom dom).map (ESpace.basisPerm sym))) rows) ∧
    (∀ r, r ∈ rows ↔ InShape r ((legMults (legOrder codom dom)).map List.length) ∧
      fusedCharge R (codom.map (toBLeg sym)) (r.take codom.length) =
        fusedCharge R (dom.map (toBLeg sym)) (r.drop codom.length).reverse) ∧
    (∀ idx row pos, Located sym (legOrder codom dom) idx row pos →
      (Allowed sym R codom dom idx → dense (cutBlocks sym (legOrder codom dom)
        (a.applyLegPermutations ((legOrder codom dom).map (ESpace.basisPerm sym))) rows) row pos =
          a.val idx) ∧
      (¬ Allowed sym R codom dom idx → dense (cutBlocks sym (legOrder codom dom)
        (a.applyLegPermutations ((legOrder codom dom).map (ESpace.basisPerm sym))) rows) row pos =
          0)) := by
  classical
  obtain ⟨h1, h2⟩ := validBlockInds_some hr
  rw [map_legOrder, numSectors_eq h] at h1
  simp only [List.length_map] at h1
  refine ⟨sane_cutBlocks h _ (fun r hr' => ((h1 r).1 hr').1) h2, h1, fun idx row pos hl => ?_⟩
  rw [dense_cutBlocks h _ (fun r hr' => ((h1 r).1 hr').1) h2]
  obtain ⟨p1, p2, p3, p4, p5, p6⟩ := located_perm h hl
  have hiff : Allowed sym R codom dom idx ↔ row ∈ rows := by
    rw [h1 row]
    constructor
    · rintro ⟨row', pos', hl', hc⟩
      obtain ⟨rfl, rfl⟩ := (C35_index_bijection sym _ h).2.2.1 _ _ _ _ _ hl hl'
      exact ⟨p4.1, hc⟩
    · rintro ⟨-, hc⟩
      exact ⟨row, pos, hl, hc⟩
  rw [hiff]
  constructor
  · intro hm
    rw [if_pos hm]
    show a.val _ = _
    rw [p2]
  · intro hm
    rw [if_neg hm]

private theorem projected_val (h : DenseOK sym (legOrder codom dom)) (a : Blk ℂ)
    {rows : List (List ℕ)}
    (hr : validBlockInds R (codom.map (toBLeg sym)) (dom.map (toBLeg sym)) = some rows)
    (idx : List ℕ) (hi : InShape idx ((legOrder codom dom).map (ESpace.dim sym))) :
    (Allowed sym R codom dom idx → (toDenseBlock sym (legOrder codom dom) (cutBlocks sym
      (legOrder codom dom) (a.applyLegPermutations ((legOrder codom dom).map
        (ESpace.basisPerm sym))) rows)).val (List.zipWith (fun (p : List ℕ) x => p.getD x 0)
          ((legOrder codom dom).map (inverseBasisPerm sym)) idx) = a.val idx) ∧
    (¬ Allowed sym R codom dom idx → (toDenseBlock sym (legOrder codom dom) (cutBlocks sym
      (legOrder codom dom) (a.applyLegPermutations ((legOrder codom dom).map
        (ESpace.basisPerm sym))) rows)).val (List.zipWith (fun (p : List ℕ) x => p.getD x 0)
          ((legOrder codom dom).map (inverseBasisPerm sym)) idx) = 0) ∧
    (a.applyLegPermutations ((legOrder codom dom).map (ESpace.basisPerm sym))).val
      (List.zipWith (fun (p : List ℕ) x => p.getD x 0)
        ((legOrder codom dom).map (inverseBasisPerm sym)) idx) = a.val idx := by
  obtain ⟨row, pos, hl, -⟩ := (C35_index_bijection sym _ h).1 idx hi
  obtain ⟨p1, p2, p3, p4, p5, p6⟩ := located_perm h hl
  obtain ⟨c1, c2, c3⟩ := cut_spec h a hr
  rw [p1, toDenseBlock_val h c1 p4 p3]
  refine ⟨(c3 idx row pos hl).1, (c3 idx row pos hl).2, ?_⟩
  show a.val _ = _
  rw [p2]

open Classical in
/-- the two norms of the check -/
private theorem norms (h : DenseOK sym (legOrder codom dom)) (a : Blk ℂ)
    {rows : List (List ℕ)}
    (hr : validBlockInds R (codom.map (toBLeg sym)) (dom.map (toBLeg sym)) = some rows) :
    Blk.norm (a.applyLegPermutations ((legOrder codom dom).map (ESpace.basisPerm sym))) =
      Real.sqrt ((gridC ((legOrder codom dom).map (ESpace.dim sym))).map
        fun idx => ‖a.val idx‖ ^ 2).sum ∧
    Blk.norm (Blk.sub (a.applyLegPermutations ((legOrder codom dom).map (ESpace.basisPerm sym)))
      (toDenseBlock sym (legOrder codom dom) (cutBlocks sym (legOrder codom dom)
        (a.applyLegPermutations ((legOrder codom dom).map (ESpace.basisPerm sym))) rows))) =
      Real.sqrt ((gridC ((legOrder codom dom).map (ESpace.dim sym))).map
        fun idx => if Allowed sym R codom dom idx then 0 else ‖a.val idx‖ ^ 2).sum := by
  constructor
  · unfold Blk.norm
    rw [shape_perm h, sum_places h]
    congr 2
    refine List.map_congr_left fun idx hi => ?_
    rw [(projected_val h a hr idx ((mem_gridC _ _).1 hi)).2.2]
  · unfold Blk.norm
    rw [show (Blk.sub (a.applyLegPermutations ((legOrder codom dom).map (ESpace.basisPerm sym)))
      (toDenseBlock sym (legOrder codom dom) (cutBlocks sym (legOrder codom dom)
        (a.applyLegPermutations ((legOrder codom dom).map (ESpace.basisPerm sym))) rows))).shape =
        (legOrder codom dom).map (ESpace.dim sym) from shape_perm h a, sum_places h]
    congr 2
    refine List.map_congr_left fun idx hi => ?_
    obtain ⟨q1, q2, q3⟩ := projected_val h a hr idx ((mem_gridC _ _).1 hi)
    show ‖Blk.val _ _ - Blk.val _ _‖ ^ 2 = _
    rw [q3]
    by_cases hA : Allowed sym R codom dom idx
    · rw [if_pos hA, q1 hA]; simp
    · rw [if_neg hA, q2 hA]; simp

open Classical in
/-- **C35**: `from_dense_block` raises exactly if there are no legs, or if the norm of the entries
that violate the charge rule is larger than `tol` times the norm of the array. -/
theorem C35_from_dense_raises_iff (sym : Sym S) (R : FusionRule S) (codom dom : List (ESpace S))
    (h : DenseOK sym (codom ++ dom.reverse)) (a : Blk ℂ) (tol : ℝ) :
    fromDense sym R codom dom a tol = none ↔ (codom = [] ∧ dom = []) ∨
      tol * Real.sqrt ((gridC ((codom ++ dom.reverse).map (ESpace.dim sym))).map
        fun idx => ‖a.val idx‖ ^ 2).sum <
      Real.sqrt ((gridC ((codom ++ dom.reverse).map (ESpace.dim sym))).map
        fun idx => if Allowed sym R codom dom idx then 0 else ‖a.val idx‖ ^ 2).sum := by
  change DenseOK sym (legOrder codom dom) at h
  unfold fromDense fromDenseBlock
  cases hr : validBlockInds R (codom.map (toBLeg sym)) (dom.map (toBLeg sym)) with
  | none =>
    have : codom = [] ∧ dom = [] := by
      unfold validBlockInds makeGridPy legOrder at hr
      by_contra hne
      rw [if_neg] at hr
      · cases hr
      · simpa [not_and] using hne
    simp [this]
  | some rows =>
    have hne : ¬ (codom = [] ∧ dom = []) := by
      rintro ⟨rfl, rfl⟩
      cases hr
    rw [Option.bind_some, shape_perm h]
    obtain ⟨n1, n2⟩ := norms h a hr
    unfold toDenseBlock at n2
    simp only
    rw [n1, n2]
    change _ ↔ _ ∨ tol * Real.sqrt ((gridC ((legOrder codom dom).map (ESpace.dim sym))).map
        fun idx => ‖a.val idx‖ ^ 2).sum < Real.sqrt ((gridC ((legOrder codom dom).map
          (ESpace.dim sym))).map fun idx => if Allowed sym R codom dom idx then 0
            else ‖a.val idx‖ ^ 2).sum
    rw [or_iff_right hne]
    split
    · simpa using ‹_›
    · constructor
      · intro hc; cases hc
      · intro hlt; exact absurd hlt ‹_›

private theorem fromDense_some {a : Blk ℂ} {tol : ℝ} {T : Ents ℂ}
    (hT : fromDense sym R codom dom a tol = some T) :
    ∃ rows, validBlockInds R (codom.map (toBLeg sym)) (dom.map (toBLeg sym)) = some rows ∧
      T = cutBlocks sym (legOrder codom dom)
        (a.applyLegPermutations ((legOrder codom dom).map (ESpace.basisPerm sym))) rows := by
  unfold fromDense fromDenseBlock at hT
  cases hr : validBlockInds R (codom.map (toBLeg sym)) (dom.map (toBLeg sym)) with
  | none => rw [hr] at hT; cases hT
  | some rows =>
    rw [hr, Option.bind_some] at hT
    refine ⟨rows, rfl, ?_⟩
    simp only at hT
    split at hT
    · cases hT
    · injection hT with hT
      exact hT.symm

/-- **C35**: the result of `from_dense_block` is consistent, respects the charge rule, and
contains the entries of the array that are allowed by the charge rule. -/
theorem C35_from_dense (sym : Sym S) (R : FusionRule S) (codom dom : List (ESpace S))
    (h : DenseOK sym (codom ++ dom.reverse)) (a : Blk ℂ) (tol : ℝ) (T : Ents ℂ)
    (hT : fromDense sym R codom dom a tol = some T) :
    Sane (legMults (codom ++ dom.reverse)) T ∧
    Conserving R (codom.map (toBLeg sym)) (dom.map (toBLeg sym)) T ∧
    ∀ idx row pos, Located sym (codom ++ dom.reverse) idx row pos →
      (Allowed sym R codom dom idx → dense T row pos = a.val idx) ∧
      (¬ Allowed sym R codom dom idx → dense T row pos = 0) := by
  obtain ⟨rows, hr, rfl⟩ := fromDense_some hT
  obtain ⟨c1, c2, c3⟩ := cut_spec (R := R) (codom := codom) (dom := dom) h a hr
  refine ⟨c1, fun p hp => ?_, c3⟩
  obtain ⟨r, hr', rfl⟩ := List.mem_map.1 hp
  simpa using ((c2 r).1 hr').2

/-- **C35**: dense array to tensor and back: the entries allowed by the charge rule are reproduced,
the others are set to zero. -/
theorem C35_round_trip_dense (sym : Sym S) (R : FusionRule S) (codom dom : List (ESpace S))
    (h : DenseOK sym (codom ++ dom.reverse)) (a : Blk ℂ) (tol : ℝ) (T : Ents ℂ)
    (hT : fromDense sym R codom dom a tol = some T) (idx : List ℕ)
    (hi : InShape idx ((codom ++ dom.reverse).map (ESpace.dim sym))) :
    (Allowed sym R codom dom idx → (toDense sym (codom ++ dom.reverse) T).val idx = a.val idx) ∧
    (¬ Allowed sym R codom dom idx → (toDense sym (codom ++ dom.reverse) T).val idx = 0) := by
  obtain ⟨c1, -, c3⟩ := C35_from_dense sym R codom dom h a tol T hT
  obtain ⟨row, pos, hl, -⟩ := (C35_index_bijection sym _ h).1 idx hi
  rw [(C35_to_dense sym _ h T c1).2 idx row pos hl]
  exact c3 idx row pos hl

/-- **C35**: tensor to dense array and back: for every tolerance `tol ≥ 0` the conversion succeeds
and gives the same tensor (with all allowed blocks stored). -/
theorem C35_round_trip_tensor (sym : Sym S) (R : FusionRule S) (codom dom : List (ESpace S))
    (h : DenseOK sym (codom ++ dom.reverse)) (hne : codom ≠ [] ∨ dom ≠ []) (tol : ℝ)
    (htol : 0 ≤ tol) (T : Ents ℂ) (hT : Sane (legMults (codom ++ dom.reverse)) T)
    (hc : Conserving R (codom.map (toBLeg sym)) (dom.map (toBLeg sym)) T) :
    ∃ T', fromDense sym R codom dom (toDense sym (codom ++ dom.reverse) T) tol = some T' ∧
      ∀ row pos, IsIndex (legMults (codom ++ dom.reverse)) row pos →
        dense T' row pos = dense T row pos := by
  classical
  have hzero : ∀ idx, InShape idx ((codom ++ dom.reverse).map (ESpace.dim sym)) →
      ¬ Allowed sym R codom dom idx → (toDense sym (codom ++ dom.reverse) T).val idx = 0 := by
    intro idx hi hA
    obtain ⟨row, pos, hl, -⟩ := (C35_index_bijection sym _ h).1 idx hi
    rw [(C35_to_dense sym _ h T hT).2 idx row pos hl]
    refine dense_of_not_mem (fun p hp he => hA ⟨row, pos, hl, ?_⟩) pos
    have := hc p hp
    rw [he] at this
    simpa using this
  cases hr : fromDense sym R codom dom (toDense sym (codom ++ dom.reverse) T) tol with
  | none =>
    exfalso
    rcases (C35_from_dense_raises_iff sym R codom dom h _ tol).1 hr with hr | hr
    · rcases hne with hne | hne
      · exact hne hr.1
      · exact hne hr.2
    · rw [show ((gridC ((codom ++ dom.reverse).map (ESpace.dim sym))).map fun idx =>
          if Allowed sym R codom dom idx then 0
          else ‖(toDense sym (codom ++ dom.reverse) T).val idx‖ ^ 2).sum = 0 from ?_] at hr
      · rw [Real.sqrt_zero] at hr
        have := mul_nonneg htol (Real.sqrt_nonneg ((gridC ((codom ++ dom.reverse).map
          (ESpace.dim sym))).map fun idx =>
            ‖(toDense sym (codom ++ dom.reverse) T).val idx‖ ^ 2).sum)
        linarith
      · refine sum_zero _ _ fun idx hi => ?_
        by_cases hA : Allowed sym R codom dom idx
        · rw [if_pos hA]
        · rw [if_neg hA, hzero idx ((mem_gridC _ _).1 hi) hA]
          simp
  | some T' =>
    refine ⟨T', rfl, fun row pos hi => ?_⟩
    obtain ⟨-, -, c3⟩ := C35_from_dense sym R codom dom h _ tol T' hr
    obtain ⟨idx, hl, hin⟩ := (C35_index_bijection sym _ h).2.1 row pos hi
    have e := (C35_to_dense sym _ h T hT).2 idx row pos hl
    by_cases hA : Allowed sym R codom dom idx
    · rw [(c3 idx row pos hl).1 hA, e]
    · rw [(c3 idx row pos hl).2 hA, ← e, hzero idx hin hA]

/-- **C35** (finding): `from_dense_block` never looks at the shape of the array.  Entries beyond the
dimensions of the legs are dropped without an error: arrays that agree in range (whatever their
shapes) give the same tensor. -/
theorem C35_from_dense_excess (sym : Sym S) (R : FusionRule S) (codom dom : List (ESpace S))
    (h : DenseOK sym (codom ++ dom.reverse)) (a b : Blk ℂ) (tol : ℝ)
    (hab : ∀ idx, InShape idx ((codom ++ dom.reverse).map (ESpace.dim sym)) →
      a.val idx = b.val idx) :
    (fromDense sym R codom dom a tol = none ↔ fromDense sym R codom dom b tol = none) ∧
    ∀ T T', fromDense sym R codom dom a tol = some T → fromDense sym R codom dom b tol = some T' →
      ∀ row pos, IsIndex (legMults (codom ++ dom.reverse)) row pos →
        dense T row pos = dense T' row pos := by
  classical
  constructor
  · rw [C35_from_dense_raises_iff sym R codom dom h, C35_from_dense_raises_iff sym R codom dom h]
    have e1 : ((gridC ((codom ++ dom.reverse).map (ESpace.dim sym))).map
        fun idx => ‖a.val idx‖ ^ 2) = ((gridC ((codom ++ dom.reverse).map (ESpace.dim sym))).map
        fun idx => ‖b.val idx‖ ^ 2) :=
      List.map_congr_left fun idx hi => by rw [hab idx ((mem_gridC _ _).1 hi)]
    have e2 : ((gridC ((codom ++ dom.reverse).map (ESpace.dim sym))).map
        fun idx => if Allowed sym R codom dom idx then 0 else ‖a.val idx‖ ^ 2) =
        ((gridC ((codom ++ dom.reverse).map (ESpace.dim sym))).map
        fun idx => if Allowed sym R codom dom idx then 0 else ‖b.val idx‖ ^ 2) :=
      List.map_congr_left fun idx hi => by rw [hab idx ((mem_gridC _ _).1 hi)]
    rw [e1, e2]
  · intro T T' hT hT' row pos hi
    obtain ⟨idx, hl, hin⟩ := (C35_index_bijection sym _ h).2.1 row pos hi
    obtain ⟨-, -, c⟩ := C35_from_dense sym R codom dom h a tol T hT
    obtain ⟨-, -, c'⟩ := C35_from_dense sym R codom dom h b tol T' hT'
    by_cases hA : Allowed sym R codom dom idx
    · rw [(c idx row pos hl).1 hA, (c' idx row pos hl).1 hA, hab idx hin]
    · rw [(c idx row pos hl).2 hA, (c' idx row pos hl).2 hA]

end From

/-! ## A concrete case -/

/-- a leg with the charges 0 and 1, of multiplicities 1 and 2, and a basis permutation -/
def denseLeg : ESpace ℤ := ⟨[0, 1], [1, 2], false, some [2, 0, 1]⟩

theorem denseLeg_ok : DenseOK exU1 [denseLeg, denseLeg] := by
  refine ⟨exU1_ok, fun _ => rfl, rfl, fun e he => ?_⟩
  have : e = denseLeg := by simpa using he
  subst this
  exact ⟨rfl, by decide, fun p hp => by injection hp with hp; subst hp; decide⟩

theorem sane_denseT : Sane (legMults [denseLeg, denseLeg]) (Example.T 1) := Example.sane_T 1

/-- The public index `(0, 1)` is the entry `(0, 1)` of the block of the second sector. -/
theorem C35_example : (toDense exU1 [denseLeg, denseLeg] (Example.T 1)).val [0, 1] = 2 ∧
    (toDense exU1 [denseLeg, denseLeg] (Example.T 1)).val [2, 2] = 1 ∧
    (toDense exU1 [denseLeg, denseLeg] (Example.T 1)).val [2, 0] = 0 ∧
    getElement exU1 [denseLeg, denseLeg] (Example.T 1) [-3, 1] = some 2 ∧
    getElement exU1 [denseLeg, denseLeg] (Example.T 1) [0, 3] = none := by
  decide +kernel

end Cyten.Props
