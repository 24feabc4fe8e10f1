import Verif.Model.NoSym
import Verif.Lemmas.AbelianCombine
import Verif.Lemmas.BasisSum
import Verif.Props.AbelianOuter

/-! # The bases of legs without symmetry; contraction of blocks -/

namespace Cyten.NoSym
open Cyten.Abelian Cyten.Abelian.Spec Cyten.Tools Cyten.Tables Cyten.Props Cyten.ListSum

variable {K : Type}

/-- A consistent leg: `_basis_perm` is a permutation of `0, …, dim - 1`. -/
def LegOK (l : NLeg) : Prop := ∀ p, l.perm = some p → p.Perm (List.range l.dim)

/-- A consistent tensor (`test_tensor_sanity`): consistent legs, a block of their dimensions. -/
structure NSane (t : NTensor K) : Prop where
  legs : ∀ l ∈ t.legs, LegOK l
  shape : t.blk.shape = ldims t.legs

/-- The internal multi-index of a public one. -/
def intl (legs : List NLeg) (i : List ℕ) : List ℕ :=
  List.zipWith (fun (l : NLeg) x => l.inversePerm.getD x 0) legs i

theorem pub_val (legs : List NLeg) (b : Blk K) (i : List ℕ) : (pub legs b).val i = b.val (intl legs i) := by
  show b.val _ = _
  rw [List.zipWith_map_left]; rfl

theorem inversePerm_perm {l : NLeg} (h : LegOK l) : l.inversePerm.Perm (List.range l.dim) := by
  unfold NLeg.inversePerm
  cases hp : l.perm with
  | none => exact List.Perm.refl _
  | some p =>
    have h := h p hp
    have hl : p.length = l.dim := by simpa using h.length_eq
    have := inversePermutation_perm (perm := p) (by rw [hl]; exact h)
    rw [hl] at this
    exact this

theorem basisPerm_perm {l : NLeg} (h : LegOK l) : l.basisPerm.Perm (List.range l.dim) := by
  unfold NLeg.basisPerm
  cases hp : l.perm with
  | none => exact List.Perm.refl _
  | some p => exact h p hp

theorem getD_of {l : List ℕ} {i v : ℕ} (h : l[i]? = some v) : l.getD i 0 = v := by
  rw [List.getD_eq_getElem?_getD, h]; rfl

theorem getElem?_of_perm {p : List ℕ} {n x : ℕ} (h : p.Perm (List.range n)) (hx : x < n) :
    p[x]? = some (p.getD x 0) := by
  have hl : p.length = n := by simpa using h.length_eq
  rw [List.getD_eq_getElem?_getD, List.getElem?_eq_getElem (by rw [hl]; exact hx)]; rfl

theorem getD_lt_of_perm {p : List ℕ} {n x : ℕ} (h : p.Perm (List.range n)) (hx : x < n) :
    p.getD x 0 < n := by
  have := List.mem_of_getElem? (getElem?_of_perm h hx)
  simpa using h.mem_iff.1 this

theorem basis_inverse {l : NLeg} (h : LegOK l) {x : ℕ} (hx : x < l.dim) :
    l.basisPerm.getD (l.inversePerm.getD x 0) 0 = x := by
  unfold NLeg.basisPerm NLeg.inversePerm
  cases hp : l.perm with
  | none =>
    have : (List.range l.dim).getD x 0 = x := getD_of (by rw [List.getElem?_range hx])
    simp only
    rw [this, this]
  | some p =>
    have h := h p hp
    have hl : p.length = l.dim := by simpa using h.length_eq
    have h' : p.Perm (List.range p.length) := by rw [hl]; exact h
    have hi : (inversePermutation p)[x]? = some ((inversePermutation p).getD x 0) := by
      rw [List.getD_eq_getElem?_getD, List.getElem?_eq_getElem (by
        rw [length_inversePermutation, hl]; exact hx)]; rfl
    exact getD_of (inversePermutation_apply' h' hi)

theorem inverse_basis {l : NLeg} (h : LegOK l) {x : ℕ} (hx : x < l.dim) :
    l.inversePerm.getD (l.basisPerm.getD x 0) 0 = x := by
  unfold NLeg.basisPerm NLeg.inversePerm
  cases hp : l.perm with
  | none =>
    have : (List.range l.dim).getD x 0 = x := getD_of (by rw [List.getElem?_range hx])
    simp only
    rw [this, this]
  | some p =>
    have h := h p hp
    have hl : p.length = l.dim := by simpa using h.length_eq
    have h' : p.Perm (List.range p.length) := by rw [hl]; exact h
    exact getD_of (inversePermutation_apply h' (getElem?_of_perm h hx))

theorem intl_inShape {legs : List NLeg} (h : ∀ l ∈ legs, LegOK l) {i : List ℕ}
    (hi : InShape i (ldims legs)) : InShape (intl legs i) (ldims legs) := by
  induction legs generalizing i with
  | nil => exact .nil
  | cons l ls ih =>
    cases hi with
    | cons hx hr =>
      exact .cons (getD_lt_of_perm (inversePerm_perm (h l (by simp))) hx)
        (ih (fun l hl => h l (by simp [hl])) hr)

@[simp] theorem length_ldims (legs : List NLeg) : (ldims legs).length = legs.length := by simp [ldims]

theorem ldims_append (l m : List NLeg) : ldims (l ++ m) = ldims l ++ ldims m := by simp [ldims]

theorem ldims_reverse (l : List NLeg) : ldims l.reverse = (ldims l).reverse := by simp [ldims]

theorem length_intl (legs : List NLeg) (i : List ℕ) (h : i.length = legs.length) :
    (intl legs i).length = legs.length := by
  simp [intl, h]

theorem intl_append (l m : List NLeg) (i j : List ℕ) (h : i.length = l.length) :
    intl (l ++ m) (i ++ j) = intl l i ++ intl m j := by
  unfold intl
  rw [List.zipWith_append h.symm]

theorem intl_reverse (l : List NLeg) (i : List ℕ) (h : i.length = l.length) :
    intl l.reverse i.reverse = (intl l i).reverse := by
  unfold intl
  rw [List.reverse_zipWith h.symm]

theorem intl_take (l : List NLeg) (i : List ℕ) (n : ℕ) : intl (l.take n) (i.take n) = (intl l i).take n := by
  unfold intl; rw [List.take_zipWith]

theorem intl_drop (l : List NLeg) (i : List ℕ) (n : ℕ) : intl (l.drop n) (i.drop n) = (intl l i).drop n := by
  unfold intl; rw [List.drop_zipWith]

theorem intl_inj {legs : List NLeg} (h : ∀ l ∈ legs, LegOK l) {i j : List ℕ}
    (hi : InShape i (ldims legs)) (hj : InShape j (ldims legs)) (he : intl legs i = intl legs j) :
    i = j := by
  induction legs generalizing i j with
  | nil => cases hi; cases hj; rfl
  | cons l ls ih =>
    cases hi with
    | cons hx hr =>
      cases hj with
      | cons hy hs =>
        injection he with h1 h2
        have e := congrArg (l.basisPerm.getD · 0) h1
        simp only at e
        rw [basis_inverse (h l (by simp)) hx, basis_inverse (h l (by simp)) hy] at e
        rw [e, ih (fun l hl => h l (by simp [hl])) hr hs h2]

theorem intl_grid {legs : List NLeg} (h : ∀ l ∈ legs, LegOK l) :
    ((gridC (ldims legs)).map (intl legs)).Perm (gridC (ldims legs)) := by
  have hnd : ((gridC (ldims legs)).map (intl legs)).Nodup := by
    refine List.Nodup.map_on ?_ (nodup_gridC _)
    intro x hx y hy he
    exact intl_inj h ((mem_gridC _ _).1 hx) ((mem_gridC _ _).1 hy) he
  refine List.Subperm.perm_of_length_le ?_ (by simp)
  refine List.subperm_of_subset hnd ?_
  intro x hx
  obtain ⟨y, hy, rfl⟩ := List.mem_map.1 hx
  rw [mem_gridC] at hy ⊢
  exact intl_inShape h hy

theorem sum_intl [AddCommMonoid K] {legs : List NLeg} (h : ∀ l ∈ legs, LegOK l) (f : List ℕ → K) :
    ((gridC (ldims legs)).map fun x => f (intl legs x)).sum = ((gridC (ldims legs)).map f).sum := by
  rw [← sum_perm (intl_grid h) f, List.map_map]; rfl

theorem intl_pick (legs : List NLeg) (perm i : List ℕ) (h : i.length = legs.length)
    (hp : ∀ c ∈ perm, c < legs.length) :
    intl (perm.map fun c => legs.getD c ⟨0, none⟩) (pick perm i) = pick perm (intl legs i) := by
  unfold intl pick
  rw [List.zipWith_map, List.zipWith_self]
  refine List.map_congr_left fun c hc => ?_
  have hc := hp c hc
  rw [List.getD_eq_getElem?_getD (l := List.zipWith _ _ _), List.getElem?_zipWith,
    List.getElem?_eq_getElem hc, List.getElem?_eq_getElem (by rw [h]; exact hc)]
  simp [List.getD_eq_getElem?_getD, List.getElem?_eq_getElem hc,
    List.getElem?_eq_getElem (show c < i.length by rw [h]; exact hc)]

theorem ldims_pick (legs : List NLeg) (perm : List ℕ) (hp : ∀ c ∈ perm, c < legs.length) :
    ldims (perm.map fun c => legs.getD c ⟨0, none⟩) = pick perm (ldims legs) := by
  unfold ldims pick
  rw [List.map_map]
  refine List.map_congr_left fun c hc => ?_
  have hc := hp c hc
  simp [List.getD_eq_getElem?_getD, List.getElem?_eq_getElem hc]

/-! ## Contraction of blocks -/

theorem otherLegs_suffix (n m : ℕ) :
    otherLegs (n + m) (List.range' n m).reverse = List.range n := by
  unfold otherLegs
  rw [List.range_eq_range', ← List.range'_append_1, List.filter_append,
    List.filter_eq_self.2, List.filter_eq_nil_iff.2, List.append_nil, List.range_eq_range']
  · intro a ha
    simp only [List.mem_range'_1] at ha
    simp [List.mem_range'_1]; omega
  · intro a ha
    simp only [List.mem_range'_1] at ha
    simp [List.mem_range'_1]; omega

theorem otherLegs_prefix (n m : ℕ) (l : List ℕ) (hl : l.Perm (List.range n)) :
    otherLegs (n + m) l = List.range' n m := by
  unfold otherLegs
  rw [List.range_eq_range', ← List.range'_append_1, List.filter_append,
    List.filter_eq_nil_iff.2 (by
      intro a ha
      simp only [List.mem_range'_1] at ha
      simp [hl.mem_iff]; omega), List.nil_append, List.filter_eq_self.2]
  · simp
  · intro a ha
    simp only [List.mem_range'_1] at ha
    simp [hl.mem_iff]; omega

theorem otherLegs_middle (f c r : ℕ) :
    otherLegs (f + c + r) (List.range' f c) = List.range f ++ List.range' (f + c) r := by
  unfold otherLegs
  rw [List.range_eq_range', ← List.range'_append_1, ← List.range'_append_1, List.filter_append,
    List.filter_append, List.filter_eq_self.2, List.filter_eq_nil_iff.2, List.append_nil,
    List.filter_eq_self.2, List.range_eq_range']
  · simp
  all_goals
    intro a ha
    simp only [List.mem_range'_1] at ha
    simp [List.mem_range'_1]; omega

/-- The entries of a contraction: `r` and `s` are index functions for the axes in their order. -/
theorem tdot_val [AddCommMonoid K] [Mul K] (a b : Blk K) (ia ib : List ℕ) (i j : List ℕ)
    (hi : i.length = (otherLegs a.shape.length ia).length)
    (ra rb : List ℕ → List ℕ)
    (ha : ∀ x, InShape x (pick ia a.shape) →
      (otherLegs a.shape.length ia ++ ia).Perm (List.range (ra x).length) ∧
      pick (otherLegs a.shape.length ia ++ ia) (ra x) = i ++ x)
    (hb : ∀ x, InShape x (pick ia a.shape) →
      (ib ++ otherLegs b.shape.length ib).Perm (List.range (rb x).length) ∧
      pick (ib ++ otherLegs b.shape.length ib) (rb x) = x ++ j) :
    (Blk.tdot a b ia ib).val (i ++ j) =
      ((gridC (pick ia a.shape)).map fun x => a.val (ra x) * b.val (rb x)).sum := by
  show ((gridC (pick ia a.shape)).map fun x => _).sum = _
  refine sum_congr _ fun x hx => ?_
  have hx := (mem_gridC _ _).1 hx
  obtain ⟨p1, e1⟩ := ha x hx
  obtain ⟨p2, e2⟩ := hb x hx
  rw [← hi, List.take_left, List.drop_left, ← e1, ← e2, permuteAxes_val _ _ _ p1,
    permuteAxes_val _ _ _ p2]

end Cyten.NoSym
