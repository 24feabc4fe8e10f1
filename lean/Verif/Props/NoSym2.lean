import Verif.Props.NoSym
import Verif.Props.AbelianMask2

/-!
# C70: partial composition, diagonal tensors, masks, decompositions, pipes without symmetry
-/

namespace Cyten.Props
open Cyten.NoSym Cyten.Abelian Cyten.Abelian.Spec Cyten.Tools Cyten.Tables Cyten.ListSum Cyten.Spaces

variable {K : Type}

/-! ## Partial composition -/

theorem pick_mid (p x s : List ℕ) : pick (List.range' p.length x.length) (p ++ x ++ s) = x := by
  have : List.range' p.length x.length = (List.range x.length).map (p.length + ·) := by
    rw [List.range_eq_range', List.map_add_range', Nat.add_zero]
  rw [this, List.append_assoc, pick_map_add, pick_append_left, pick_range _ _ le_rfl, List.take_length]
  intro c hc; simpa using hc

theorem pick_end (p x s : List ℕ) :
    pick (List.range' (p.length + x.length) s.length) (p ++ x ++ s) = s := by
  rw [pick_range' _ _ _ (by simp; omega), List.drop_left' (by simp)]

theorem pick_start (p x s : List ℕ) : pick (List.range p.length) (p ++ x ++ s) = p := by
  rw [pick_range _ _ (by simp), List.append_assoc, List.take_left]

theorem partial_core [AddCommMonoid K] [Mul K] (A B : Blk K) (c : ℕ) (p s j : List ℕ)
    (sa : A.shape.length = p.length + c + s.length) (ib : List ℕ) (rb : List ℕ → List ℕ)
    (hb : ∀ x, InShape x (pick (List.range' p.length c) A.shape) →
      (ib ++ otherLegs B.shape.length ib).Perm (List.range (rb x).length) ∧
      pick (ib ++ otherLegs B.shape.length ib) (rb x) = x ++ j) :
    ((Blk.tdot A B (List.range' p.length c) ib).permuteAxes (List.range p.length ++
      (List.range j.length).map (p.length + s.length + ·) ++ List.range' p.length s.length)).val
        (p ++ j ++ s) =
    ((gridC (pick (List.range' p.length c) A.shape)).map fun x =>
      A.val (p ++ x ++ s) * B.val (rb x)).sum := by
  have oa := otherLegs_middle p.length c s.length
  have e : p ++ j ++ s = pick (List.range p.length ++
      (List.range j.length).map (p.length + s.length + ·) ++ List.range' p.length s.length)
      (p ++ s ++ j) := by
    have := tensorOuter_pick p.length (p ++ s) j (by simp)
    rw [List.length_append, Nat.add_sub_cancel_left, List.take_left, List.drop_left] at this
    exact this.symm
  rw [e, permuteAxes_val]
  · refine tdot_val A B _ _ (p ++ s) j (by rw [sa, oa]; simp) (fun x => p ++ x ++ s) rb ?_ hb
    intro x hx
    have lx : x.length = c := by have := hx.length; simpa [pick] using this
    subst lx
    rw [sa, oa]
    constructor
    · rw [List.length_append, List.length_append, List.range_eq_range', List.range_eq_range',
        ← List.range'_append_1, ← List.range'_append_1, List.append_assoc, List.append_assoc, Nat.zero_add]
      simp only [Nat.zero_add]
      exact List.Perm.append_left _ List.perm_append_comm
    · rw [pick_append, pick_append, pick_mid, pick_end, pick_start]
  · rw [List.length_append, List.length_append]
    have h1 : (List.range j.length).map (p.length + s.length + ·) =
        List.range' (p.length + s.length) j.length := by
      rw [List.range_eq_range', List.map_add_range', Nat.add_zero]
    rw [h1, List.range_eq_range', List.range_eq_range', ← List.range'_append_1,
      ← List.range'_append_1, List.append_assoc, List.append_assoc]
    simp only [Nat.zero_add]
    exact List.Perm.append_left _ List.perm_append_comm

theorem partial_shape [AddCommMonoid K] [Mul K] (A B : Blk K) (p x s j ib : List ℕ)
    (sa : A.shape = p ++ x ++ s) (sb : pick (otherLegs B.shape.length ib) B.shape = j) :
    ((Blk.tdot A B (List.range' p.length x.length) ib).permuteAxes (List.range p.length ++
      (List.range j.length).map (p.length + s.length + ·) ++ List.range' p.length s.length)).shape =
    p ++ j ++ s := by
  show pick _ (pick (otherLegs A.shape.length _) A.shape ++ pick (otherLegs B.shape.length ib) B.shape) = _
  have : A.shape.length = p.length + x.length + s.length := by rw [sa]; simp; omega
  rw [this, otherLegs_middle, sb, sa, pick_append (List.range p.length) (List.range' (p.length + x.length) s.length), pick_start, pick_end]
  have := tensorOuter_pick p.length (p ++ s) j (by simp)
  rw [List.length_append, Nat.add_sub_cancel_left, List.take_left, List.drop_left] at this
  exact this

/-- **C70**: `partial_compose` with the contracted legs in the codomain of `a`: the codomain of `b`
takes their place. -/
theorem C70_partial_compose_cod [AddCommMonoid K] [Mul K] (a b : NTensor K) (ha : NSane a) (hb : NSane b)
    (c1 c3 : List NLeg) (hc : a.cod = c1 ++ b.dom ++ c3) (hne : b.dom ≠ []) (p j s : List ℕ)
    (hp : InShape p (ldims c1)) (hj : InShape j (ldims b.cod))
    (hs : InShape s (ldims (c3 ++ a.dom.reverse))) :
    NSane (NoSym.partialCompose a b c1.length) ∧
    (NoSym.partialCompose a b c1.length).cod = c1 ++ b.cod ++ c3 ∧
    (NoSym.partialCompose a b c1.length).dom = a.dom ∧
    NDense (NoSym.partialCompose a b c1.length) (p ++ j ++ s) =
      ((gridC (ldims b.dom)).map fun x =>
        NDense a (p ++ x ++ s) * NDense b (j ++ x.reverse)).sum := by
  have lp : p.length = c1.length := by simpa using hp.length
  have lj : j.length = b.cod.length := by simpa using hj.length
  have ls : s.length = (c3 ++ a.dom.reverse).length := by simpa using hs.length
  have hlt : c1.length < a.cod.length := by
    have : 0 < b.dom.length := List.length_pos_iff.2 hne
    rw [hc]; simp; omega
  have hin : decide (c1.length < a.cod.length) = true := by simpa using hlt
  have hna : a.cod.length + a.dom.length - b.dom.length = c1.length + (c3 ++ a.dom.reverse).length := by
    rw [hc]; simp; omega
  have hla : a.legs = c1 ++ b.dom ++ (c3 ++ a.dom.reverse) := by
    show a.cod ++ _ = _
    rw [hc]; simp
  have hcod : (NoSym.partialCompose a b c1.length).cod = c1 ++ b.cod ++ c3 := by
    unfold NoSym.partialCompose
    simp only [hin, if_true]
    rw [hc, List.append_assoc c1, List.take_left, ← List.append_assoc, List.drop_left' (by simp)]
  have hdom : (NoSym.partialCompose a b c1.length).dom = a.dom := by
    unfold NoSym.partialCompose
    simp only [hin, if_true]
  have hblk : (NoSym.partialCompose a b c1.length).blk =
      (Blk.tdot a.blk b.blk (List.range' c1.length b.dom.length)
        (List.range' b.cod.length b.dom.length).reverse).permuteAxes
      (List.range c1.length ++
        (List.range b.cod.length).map (c1.length + (c3 ++ a.dom.reverse).length + ·) ++
        List.range' c1.length (c3 ++ a.dom.reverse).length) := by
    unfold NoSym.partialCompose
    simp only [hin, if_true]
    rw [hna, Nat.add_sub_cancel_left]
  have hL : (NoSym.partialCompose a b c1.length).legs = c1 ++ b.cod ++ (c3 ++ a.dom.reverse) := by
    show _ ++ _ = _
    rw [hcod, hdom]; simp
  have sb : b.blk.shape.length = b.cod.length + b.dom.length := by rw [hb.shapeLength, nLegs_length]
  have ob : otherLegs b.blk.shape.length (List.range' b.cod.length b.dom.length).reverse =
      List.range b.cod.length := by rw [sb, otherLegs_suffix]
  have sa' : a.blk.shape = ldims c1 ++ ldims b.dom ++ ldims (c3 ++ a.dom.reverse) := by
    rw [ha.shape, hla, ldims_append, ldims_append]
  have sb' : b.blk.shape = ldims b.cod ++ (ldims b.dom).reverse := by
    rw [hb.shape, NTensor.legs, ldims_append, ldims_reverse]
  have hia : pick (List.range' c1.length b.dom.length) a.blk.shape = ldims b.dom := by
    have := pick_mid (ldims c1) (ldims b.dom) (ldims (c3 ++ a.dom.reverse))
    rw [length_ldims, length_ldims] at this
    rw [sa', this]
  have pk : ∀ u v : List ℕ, u.length = b.cod.length → v.length = b.dom.length →
      pick (List.range' b.cod.length b.dom.length).reverse (u ++ v) = v.reverse := by
    intro u v hu hv
    unfold pick
    rw [List.map_reverse]
    congr 1
    have := pick_range' (u ++ v) b.cod.length b.dom.length (by simp [hu, hv])
    rw [List.drop_left' hu] at this
    exact this
  refine ⟨⟨fun l hl => ?_, ?_⟩, hcod, hdom, ?_⟩
  · rw [hL] at hl
    have h1 := ha.legs
    rw [hla] at h1
    simp only [List.mem_append] at hl h1
    rcases hl with (hl | hl) | hl
    · exact h1 l (.inl (.inl hl))
    · exact hb.cod l hl
    · exact h1 l (.inr hl)
  · rw [hblk, hL, ldims_append, ldims_append]
    have := partial_shape a.blk b.blk (ldims c1) (ldims b.dom) (ldims (c3 ++ a.dom.reverse))
      (ldims b.cod) (List.range' b.cod.length b.dom.length).reverse sa' (by
        rw [ob, pick_range _ _ (by omega), sb', List.take_left' (by simp)])
    simpa only [length_ldims] using this
  · rw [nDense_eq, hL, intl_append _ _ _ _ (by simp [lp, lj]), intl_append _ _ _ _ lp, hblk]
    have h1 := partial_core a.blk b.blk b.dom.length (intl c1 p) (intl (c3 ++ a.dom.reverse) s)
      (intl b.cod j) (by
        rw [length_intl _ _ lp, length_intl _ _ ls, sa']; simp; try omega)
      (List.range' b.cod.length b.dom.length).reverse (fun x => intl b.cod j ++ x.reverse) (by
        intro x hx
        rw [length_intl _ _ lp, hia] at hx
        have lx : x.length = b.dom.length := by simpa using hx.length
        rw [ob]
        constructor
        · rw [List.length_append, length_intl _ _ lj, List.length_reverse, lx,
            List.range_eq_range', List.range_eq_range', ← List.range'_append_1, Nat.zero_add]
          exact List.perm_append_comm.trans (List.Perm.append_left _ (List.reverse_perm _))
        · rw [pick_append, pk _ _ (length_intl _ _ lj) (by simp [lx]), List.reverse_reverse,
            pick_range _ _ (by rw [List.length_append, length_intl _ _ lj]; omega),
            List.take_left' (length_intl _ _ lj)])
    rw [length_intl _ _ lp, length_intl _ _ ls, length_intl _ _ lj, hia] at h1
    rw [h1, ← sum_intl hb.dom]
    refine sum_congr _ fun x hx => ?_
    have lx : x.length = b.dom.length := by simpa using ((mem_gridC _ _).1 hx).length
    rw [nDense_eq, nDense_eq, hla, intl_append _ _ _ _ (by simp [lp, lx]), intl_append _ _ _ _ lp,
      NTensor.legs, intl_append _ _ _ _ lj, intl_reverse _ _ lx]

/-- **C70**: `partial_compose` with the contracted legs in the domain of `a`: the domain of `b` takes
their place. -/
theorem C70_partial_compose_dom [AddCommMonoid K] [Mul K] (a b : NTensor K) (ha : NSane a) (hb : NSane b)
    (d1 d3 : List NLeg) (hd : a.dom = d1 ++ b.cod ++ d3) (p j s : List ℕ)
    (hp : InShape p (ldims (a.cod ++ d3.reverse))) (hj : InShape j (ldims b.dom.reverse))
    (hs : InShape s (ldims d1.reverse)) :
    NSane (NoSym.partialCompose a b (a.cod.length + d3.length)) ∧
    (NoSym.partialCompose a b (a.cod.length + d3.length)).cod = a.cod ∧
    (NoSym.partialCompose a b (a.cod.length + d3.length)).dom = d1 ++ b.dom ++ d3 ∧
    NDense (NoSym.partialCompose a b (a.cod.length + d3.length)) (p ++ j ++ s) =
      ((gridC (ldims b.cod)).map fun x =>
        NDense a (p ++ x.reverse ++ s) * NDense b (x ++ j)).sum := by
  have lp : p.length = (a.cod ++ d3.reverse).length := by simpa using hp.length
  have lj : j.length = b.dom.reverse.length := by simpa using hj.length
  have ls : s.length = d1.reverse.length := by simpa using hs.length
  set first := a.cod.length + d3.length with hf
  have hfl : (a.cod ++ d3.reverse).length = first := by simp [hf]
  have hin : decide (first < a.cod.length) = false := by simp [hf]
  have hnd : a.dom.length = d1.length + b.cod.length + d3.length := by rw [hd]; simp; omega
  have hna : a.cod.length + a.dom.length - b.cod.length = first + d1.reverse.length := by
    rw [List.length_reverse]; omega
  have hla : a.legs = (a.cod ++ d3.reverse) ++ b.cod.reverse ++ d1.reverse := by
    show a.cod ++ a.dom.reverse = _
    rw [hd]; simp
  have hcod : (NoSym.partialCompose a b first).cod = a.cod := by
    unfold NoSym.partialCompose
    simp only [hin, Bool.false_eq_true, if_false]
  have hdom : (NoSym.partialCompose a b first).dom = d1 ++ b.dom ++ d3 := by
    unfold NoSym.partialCompose
    simp only [hin, Bool.false_eq_true, if_false]
    rw [show a.cod.length + a.dom.length - (first + b.cod.length) = d1.length by omega,
      show a.cod.length + a.dom.length - first = d1.length + b.cod.length by omega, hd,
      List.append_assoc d1, List.take_left, ← List.append_assoc, List.drop_left' (by simp)]
  have hblk : (NoSym.partialCompose a b first).blk =
      (Blk.tdot a.blk b.blk (List.range' first b.cod.length)
        (List.range b.cod.length).reverse).permuteAxes
      (List.range first ++
        (List.range b.dom.length).map (first + d1.reverse.length + ·) ++
        List.range' first d1.reverse.length) := by
    unfold NoSym.partialCompose
    simp only [hin, Bool.false_eq_true, if_false]
    rw [hna, Nat.add_sub_cancel_left]
  have hL : (NoSym.partialCompose a b first).legs = (a.cod ++ d3.reverse) ++ b.dom.reverse ++ d1.reverse := by
    show _ ++ _ = _
    rw [hcod, hdom]; simp
  have sb : b.blk.shape.length = b.cod.length + b.dom.length := by rw [hb.shapeLength, nLegs_length]
  have ob : otherLegs b.blk.shape.length (List.range b.cod.length).reverse =
      List.range' b.cod.length b.dom.length := by
    rw [sb, otherLegs_prefix _ _ _ (List.reverse_perm _)]
  have sa' : a.blk.shape = ldims (a.cod ++ d3.reverse) ++ ldims b.cod.reverse ++ ldims d1.reverse := by
    rw [ha.shape, hla, ldims_append, ldims_append]
  have sb' : b.blk.shape = ldims b.cod ++ ldims b.dom.reverse := by
    rw [hb.shape, NTensor.legs, ldims_append]
  have hia : pick (List.range' first b.cod.length) a.blk.shape = ldims b.cod.reverse := by
    have := pick_mid (ldims (a.cod ++ d3.reverse)) (ldims b.cod.reverse) (ldims d1.reverse)
    rw [length_ldims, length_ldims, hfl, List.length_reverse] at this
    rw [sa', this]
  refine ⟨⟨fun l hl => ?_, ?_⟩, hcod, hdom, ?_⟩
  · rw [hL] at hl
    have h1 := ha.legs
    rw [hla] at h1
    simp only [List.mem_append, List.mem_reverse] at hl h1
    rcases hl with (hl | hl) | hl
    · exact h1 l (.inl (.inl hl))
    · exact hb.dom l hl
    · exact h1 l (.inr hl)
  · rw [hblk, hL, ldims_append, ldims_append]
    have := partial_shape a.blk b.blk (ldims (a.cod ++ d3.reverse)) (ldims b.cod.reverse) (ldims d1.reverse)
      (ldims b.dom.reverse) (List.range b.cod.length).reverse sa' (by
        rw [ob, pick_range' _ _ _ (by omega), sb', List.drop_left' (by simp)])
    rw [length_ldims, length_ldims, length_ldims, length_ldims, hfl, List.length_reverse (as := b.cod),
      List.length_reverse (as := b.dom)] at this
    exact this
  · rw [nDense_eq, hL, intl_append _ _ _ _ (by simp only [List.length_append]; rw [lp, lj, List.length_append]),
      intl_append _ _ _ _ lp, hblk]
    have h1 := partial_core a.blk b.blk b.cod.length (intl (a.cod ++ d3.reverse) p) (intl d1.reverse s)
      (intl b.dom.reverse j) (by
        rw [length_intl _ _ lp, length_intl _ _ ls, sa']; simp; try omega)
      (List.range b.cod.length).reverse (fun x => x.reverse ++ intl b.dom.reverse j) (by
        intro x hx
        rw [length_intl _ _ lp, hfl, hia] at hx
        have lx : x.length = b.cod.length := by simpa using hx.length
        rw [ob]
        constructor
        · rw [List.length_append, length_intl _ _ lj, List.length_reverse, List.length_reverse, lx,
            List.range_eq_range', List.range_eq_range', ← List.range'_append_1, Nat.zero_add]
          exact List.Perm.append_right _ (List.reverse_perm _)
        · rw [pick_append, pick_append_left _ _ _ (by intro c hc; simpa [lx] using hc),
            pick_range' _ _ _ (by simp [lx, length_intl _ _ lj]), List.drop_left' (by simp [lx])]
          rw [show b.cod.length = x.reverse.length by simp [lx], pick_reverse_range, List.reverse_reverse])
    rw [length_intl _ _ lp, length_intl _ _ ls, length_intl _ _ lj, hfl, hia, List.length_reverse (as := b.dom)] at h1
    rw [h1, ldims_reverse, ((gridC_reverse_perm (ldims b.cod)).map _).sum_eq, List.map_map,
      ← sum_intl hb.cod]
    refine sum_congr _ fun x hx => ?_
    have lx : x.length = b.cod.length := by simpa using ((mem_gridC _ _).1 hx).length
    simp only [Function.comp]
    rw [nDense_eq, nDense_eq, hla, intl_append _ _ _ _ (by simp only [List.length_append]; rw [lp]; simp [lx]),
      intl_append _ _ _ _ lp, intl_reverse _ _ lx, List.reverse_reverse,
      show b.legs = b.cod ++ b.dom.reverse from rfl, intl_append _ _ _ _ lx]

/-! ## Diagonal tensors -/

/-- The public index of an axis. -/
theorem intl_getD (legs : List NLeg) (i : List ℕ) (h : i.length = legs.length) (c : ℕ) (hc : c < legs.length) :
    (intl legs i).getD c 0 = (legs.getD c ⟨0, none⟩).inversePerm.getD (i.getD c 0) 0 := by
  unfold intl
  rw [List.getD_eq_getElem?_getD (l := List.zipWith _ _ _), List.getElem?_zipWith,
    List.getElem?_eq_getElem hc, List.getElem?_eq_getElem (by rw [h]; exact hc)]
  simp [List.getD_eq_getElem?_getD, List.getElem?_eq_getElem hc,
    List.getElem?_eq_getElem (show c < i.length by rw [h]; exact hc)]

theorem inShape_getD {legs : List NLeg} {i : List ℕ} (h : InShape i (ldims legs)) {c : ℕ} {l : NLeg}
    (hc : legs[c]? = some l) : i.getD c 0 < l.dim := by
  obtain ⟨hc', rfl⟩ := List.getElem?_eq_some_iff.1 hc
  have li : i.length = legs.length := by simpa using h.length
  have := List.Forall₂.get h (show c < i.length by rw [li]; exact hc') (by simpa using hc')
  simp only [ldims, List.get_eq_getElem, List.getElem_map] at this
  simpa [List.getD_eq_getElem?_getD, List.getElem?_eq_getElem (show c < i.length by rw [li]; exact hc')]
    using this

theorem take1_inverse [Zero K] {l : NLeg} (h : LegOK l) (a : List K) {x : ℕ} (hx : x < l.dim) :
    (take1 a l.inversePerm).getD x 0 = a.getD (l.inversePerm.getD x 0) 0 := by
  unfold take1
  rw [List.getD_eq_getElem?_getD, List.getElem?_map, getElem?_of_perm (inversePerm_perm h) hx]
  rfl

theorem take1_basis [Zero K] {l : NLeg} (h : LegOK l) (a : List K) {x : ℕ} (hx : x < l.dim) :
    (take1 a l.basisPerm).getD x 0 = a.getD (l.basisPerm.getD x 0) 0 := by
  unfold take1
  rw [List.getD_eq_getElem?_getD, List.getElem?_map, getElem?_of_perm (basisPerm_perm h) hx]
  rfl

/-- **C70**: diagonal tensors: the diagonal given to `from_diag_block` is the diagonal read back, it is
the diagonal of the full tensor, and the trace is its sum. -/
theorem C70_diagonal [AddCommMonoid K] (l : NLeg) (h : LegOK l) (d : List K) (hd : d.length = l.dim) :
    (NDiag.fromDense l d).toDense = d ∧
    (NDiag.fromDense l d).trace = d.sum ∧
    NSane (NDiag.fromDense l d).full ∧
    ∀ x y, x < l.dim → y < l.dim →
      NDense (NDiag.fromDense l d).full [x, y] = if x = y then d.getD x 0 else 0 := by
  have hlen : ∀ (a : List K) (p : List ℕ), (take1 a p).length = p.length := fun a p => by simp [take1]
  have lb : l.basisPerm.length = l.dim := by simpa using (basisPerm_perm h).length_eq
  have li : l.inversePerm.length = l.dim := by simpa using (inversePerm_perm h).length_eq
  refine ⟨?_, ?_, ⟨?_, ?_⟩, ?_⟩
  · show take1 (take1 d l.basisPerm) l.inversePerm = d
    refine List.ext_getElem? fun x => ?_
    by_cases hx : x < l.dim
    · have e := take1_inverse h (take1 d l.basisPerm) hx
      rw [take1_basis h d (getD_lt_of_perm (inversePerm_perm h) hx), basis_inverse h hx] at e
      have l1 : x < (take1 (take1 d l.basisPerm) l.inversePerm).length := by rw [hlen, li]; exact hx
      rw [List.getD_eq_getElem _ _ l1, List.getD_eq_getElem _ _ (by rw [hd]; exact hx)] at e
      rw [List.getElem?_eq_getElem l1, List.getElem?_eq_getElem (by rw [hd]; exact hx), e]
    · rw [List.getElem?_eq_none (by rw [hlen, li]; omega), List.getElem?_eq_none (by omega)]
  · show (l.basisPerm.map fun i => d.getD i 0).sum = _
    rw [((basisPerm_perm h).map _).sum_eq, ← hd]
    congr 1
    refine List.ext_getElem? fun x => ?_
    by_cases hx : x < d.length
    · rw [List.getElem?_map, List.getElem?_range hx, List.getElem?_eq_getElem hx]
      simp [List.getD_eq_getElem?_getD, List.getElem?_eq_getElem hx]
    · rw [List.getElem?_eq_none (by simpa using hx), List.getElem?_eq_none (by omega)]
  · intro l' hl'
    have : l' = l := by
      have : l' ∈ [l] ++ [l].reverse := hl'
      simpa using this
    rw [this]; exact h
  · show [(take1 d l.basisPerm).length, (take1 d l.basisPerm).length] = [l.dim, l.dim]
    rw [hlen, lb]
  · intro x y hx hy
    rw [nDense_eq]
    show (Blk.fromDiagonal (take1 d l.basisPerm)).val [l.inversePerm.getD x 0, l.inversePerm.getD y 0] = _
    show (if l.inversePerm.getD x 0 = l.inversePerm.getD y 0 then
      (take1 d l.basisPerm).getD (l.inversePerm.getD x 0) 0 else 0) = _
    rw [take1_basis h d (getD_lt_of_perm (inversePerm_perm h) hx), basis_inverse h hx]
    by_cases e : x = y
    · rw [if_pos e, if_pos (by rw [e])]
    · rw [if_neg e, if_neg fun e' => e ?_]
      rw [← basis_inverse h hx, e', basis_inverse h hy]

/-- **C70**: `scale_axis` multiplies with the entry of the diagonal at the index of that leg. -/
theorem C70_scale_axis [MulZeroClass K] (a : NTensor K) (ha : NSane a) (d : NDiag K) (leg : ℕ)
    (hl : a.legs[leg]? = some d.leg) (i : List ℕ) (hi : InShape i (ldims a.legs)) :
    NSane (NoSym.scaleAxis a d leg) ∧
    NDense (NoSym.scaleAxis a d leg) i = NDense a i * d.toDense.getD (i.getD leg 0) 0 := by
  obtain ⟨hc, he⟩ := List.getElem?_eq_some_iff.1 hl
  have li : i.length = a.legs.length := by simpa using hi.length
  have ok : LegOK d.leg := he ▸ ha.legs _ (List.getElem_mem _)
  refine ⟨⟨ha.legs, ha.shape⟩, ?_⟩
  rw [nDense_eq, nDense_eq]
  show a.blk.val (intl a.legs i) * d.blk.getD ((intl a.legs i).getD leg 0) 0 = _
  rw [intl_getD _ _ li _ hc, List.getD_eq_getElem?_getD (l := a.legs), hl]
  show _ = _ * (take1 d.blk d.leg.inversePerm).getD _ 0
  rw [take1_inverse ok _ (inShape_getD hi hl)]
  rfl

/-! ## Masks -/

section Masks
variable {l : NLeg} {m : List Bool}

theorem maskBlk_get (h : LegOK l) (hm : m.length = l.dim) (x : ℕ) :
    (maskFromBlock l m).blk[x]? = some true ↔ x < l.dim ∧ m[l.basisPerm.getD x 0]? = some true := by
  show (l.basisPerm.map fun i => m.getD i false)[x]? = some true ↔ _
  rw [List.getElem?_map]
  by_cases hx : x < l.dim
  · have hb := getD_lt_of_perm (basisPerm_perm h) hx
    rw [getElem?_of_perm (basisPerm_perm h) hx]
    simp only [Option.map_some, Option.some.injEq, hx, true_and]
    rw [List.getD_eq_getElem?_getD (l := m), List.getElem?_eq_getElem (by rw [hm]; exact hb)]
    simp
  · have : l.basisPerm.length = l.dim := by simpa using (basisPerm_perm h).length_eq
    rw [List.getElem?_eq_none (by omega)]
    simp [hx]

theorem maskBlk_count (h : LegOK l) (hm : m.length = l.dim) :
    countTrue (maskFromBlock l m).blk = countTrue m := by
  show (l.basisPerm.map fun i => m.getD i false).count true = m.count true
  rw [((basisPerm_perm h).map _).count_eq, ← hm]
  congr 1
  refine List.ext_getElem? fun x => ?_
  by_cases hx : x < m.length
  · rw [List.getElem?_map, List.getElem?_range hx, List.getElem?_eq_getElem hx]
    simp [List.getD_eq_getElem?_getD, List.getElem?_eq_getElem hx]
  · rw [List.getElem?_eq_none (by simpa using hx), List.getElem?_eq_none (by omega)]

/-- The small leg is consistent, its dimension is the number of entries that are kept. -/
theorem small_ok (h : LegOK l) (hm : m.length = l.dim) :
    LegOK (maskFromBlock l m).small ∧ (maskFromBlock l m).small.dim = countTrue m := by
  show LegOK (smallLeg l (maskFromBlock l m).blk) ∧ (smallLeg l (maskFromBlock l m).blk).dim = _
  unfold NoSym.smallLeg
  by_cases h0 : countTrue (maskFromBlock l m).blk = 0
  · rw [if_pos h0]
    refine ⟨fun p hp => by simp at hp, ?_⟩
    rw [← maskBlk_count h hm, h0]
  · rw [if_neg h0]
    refine ⟨fun p hp => ?_, maskBlk_count h hm⟩
    obtain ⟨q, hq, rfl⟩ := Option.map_eq_some_iff.1 hp
    have hb : l.basisPerm = q := by unfold NLeg.basisPerm; rw [hq]
    refine (rankNat_perm _).trans ?_
    rw [length_compress _ _ (by
      show (l.basisPerm.map _).length ≤ _
      rw [List.length_map, hb])]

/-- The internal index of the small leg selects the internal index of the large leg. -/
theorem small_index (h : LegOK l) (hm : m.length = l.dim) {x : ℕ} (hx : x < countTrue m) :
    ∃ y, (nonzero m)[x]? = some y ∧ y < l.dim ∧
      (nonzero (maskFromBlock l m).blk)[(maskFromBlock l m).small.inversePerm.getD x 0]? =
        some (l.inversePerm.getD y 0) := by
  have hy : x < (nonzero m).length := by rw [length_nonzero]; exact hx
  refine ⟨(nonzero m)[x], List.getElem?_eq_getElem hy, ?_, ?_⟩
  · have := (mem_nonzero m _).1 (List.getElem_mem hy)
    rw [← hm]; exact (List.getElem?_eq_some_iff.1 this).1
  set M := maskFromBlock l m with hM
  have h0 : countTrue M.blk ≠ 0 := by rw [maskBlk_count h hm]; omega
  have hbl : l.basisPerm.length = l.dim := by simpa using (basisPerm_perm h).length_eq
  have hml : M.blk.length = l.dim := by
    show (l.basisPerm.map _).length = _
    rw [List.length_map, hbl]
  -- the public indices that are kept, in the internal order
  set P := compress M.blk l.basisPerm with hP
  have hPl : P.length = countTrue m := by
    rw [hP, length_compress _ _ (by rw [hml, hbl]), ← maskBlk_count h hm]
  have hmemP : ∀ y, y ∈ P ↔ m[y]? = some true := by
    intro y
    rw [hP, mem_compress]
    constructor
    · rintro ⟨p, h1, h2⟩
      have := ((maskBlk_get h hm p).1 h1).2
      rwa [getD_of h2] at this
    · intro hy
      have hyl : y < l.dim := by rw [← hm]; exact (List.getElem?_eq_some_iff.1 hy).1
      refine ⟨l.inversePerm.getD y 0, (maskBlk_get h hm _).2 ⟨getD_lt_of_perm (inversePerm_perm h) hyl, ?_⟩, ?_⟩
      · rw [basis_inverse h hyl]; exact hy
      · rw [getElem?_of_perm (basisPerm_perm h) (getD_lt_of_perm (inversePerm_perm h) hyl),
          basis_inverse h hyl]
  have hnd : P.Nodup := by
    rw [hP]
    exact List.Nodup.sublist (compress_sublist _ _) ((basisPerm_perm h).nodup_iff.2 List.nodup_range)
  have hsm : M.small = ⟨countTrue M.blk, l.perm.map fun p => rankNat (compress M.blk p)⟩ := by
    show smallLeg l M.blk = _
    unfold NoSym.smallLeg
    rw [if_neg h0]
  obtain ⟨hok, hdim⟩ := small_ok h hm
  have hip := inversePerm_perm hok
  rw [hdim] at hip
  have hlt : ∀ i ∈ M.small.inversePerm, i < P.length := by
    intro i hi
    rw [hPl]
    simpa using hip.mem_iff.1 hi
  -- sorted by the public index
  have hg : gather P M.small.inversePerm = nonzero m := by
    refine eq_of_sorted ?_ (nonzero_sorted _) fun y => ?_
    · rw [hsm]
      unfold NLeg.inversePerm
      cases hpp : l.perm with
      | none =>
        simp only [Option.map_none]
        have hb : l.basisPerm = List.range l.dim := by unfold NLeg.basisPerm; rw [hpp]
        have : gather P (List.range (countTrue M.blk)) = P := by
          rw [maskBlk_count h hm, ← hPl]
          unfold gather
          have := filterMap_range P id
          simpa using this
        rw [this, hP, hb]
        exact List.Pairwise.sublist (compress_sublist _ _) List.pairwise_lt_range
      | some p =>
        simp only [Option.map_some]
        have hb : l.basisPerm = p := by unfold NLeg.basisPerm; rw [hpp]
        rw [← hb]
        exact gather_sorted P hnd
    · rw [mem_nonzero, ← hmemP]
      unfold gather
      rw [List.mem_filterMap]
      constructor
      · rintro ⟨i, -, hi⟩; exact List.mem_of_getElem? hi
      · intro hy
        obtain ⟨i, hi, rfl⟩ := List.mem_iff_getElem.1 hy
        refine ⟨i, hip.mem_iff.2 (by rw [List.mem_range, ← hPl]; exact hi), List.getElem?_eq_getElem hi⟩
  have h1 : (gather P M.small.inversePerm)[x]? = some (nonzero m)[x] := by
    rw [hg]; exact List.getElem?_eq_getElem hy
  rw [gather_get_of_lt P _ hlt, getElem?_of_perm hip hx, Option.bind_some] at h1
  obtain ⟨p, p1, p2, p3⟩ := (compress_get _ _ _ _).1 h1
  rw [nonzero_get]
  have hpl : p < l.dim := ((maskBlk_get h hm p).1 p1).1
  have e : l.inversePerm.getD (nonzero m)[x] 0 = p := by
    rw [← getD_of p2, inverse_basis h hpl]
  rw [e]
  exact ⟨p1, p3⟩

end Masks

theorem set_reverse_legs (l : List NLeg) (k : ℕ) (x : NLeg) (hk : k < l.length) :
    (l.set k x).reverse = l.reverse.set (l.length - 1 - k) x := by
  refine List.ext_getElem? fun i => ?_
  by_cases hi : i < l.length
  · rw [List.getElem?_reverse (by simpa using hi), List.length_set, List.getElem?_set,
      List.getElem?_set, List.getElem?_reverse hi]
    by_cases h : k = l.length - 1 - i
    · rw [if_pos h, if_pos (by omega), if_pos (by omega), if_pos (by simp; omega)]
    · rw [if_neg h, if_neg (by omega)]
  · rw [List.getElem?_eq_none (by simpa using hi), List.getElem?_eq_none (by simpa using hi)]

theorem set_legs (cod dom : List NLeg) (leg : ℕ) (x : NLeg) (hk : leg < cod.length + dom.length) :
    (if leg < cod.length then cod.set leg x else cod) ++
      (if leg < cod.length then dom else dom.set (cod.length + dom.length - 1 - leg) x).reverse =
    (cod ++ dom.reverse).set leg x := by
  by_cases h : leg < cod.length
  · rw [if_pos h, if_pos h, List.set_append_left _ _ h]
  · rw [if_neg h, if_neg h, List.set_append_right _ _ (by omega), set_reverse_legs _ _ _ (by omega)]
    congr 2; omega

theorem intl_set (legs : List NLeg) (i : List ℕ) (c : ℕ) (l : NLeg) :
    intl (legs.set c l) i = (intl legs i).set c (l.inversePerm.getD (i.getD c 0) 0) := by
  unfold intl
  induction legs generalizing i c with
  | nil => simp
  | cons a legs ih =>
    cases i with
    | nil => cases c <;> simp
    | cons x i =>
      cases c with
      | zero => simp
      | succ c =>
        rw [List.set_cons_succ, List.zipWith_cons_cons, List.zipWith_cons_cons, List.set_cons_succ, ih]
        simp

theorem intl_set' (legs : List NLeg) (i : List ℕ) (c y : ℕ) (l : NLeg) (hc : legs[c]? = some l) :
    intl legs (i.set c y) = (intl legs i).set c (l.inversePerm.getD y 0) := by
  unfold intl
  induction legs generalizing i c with
  | nil => simp
  | cons a legs ih =>
    cases i with
    | nil => cases c <;> simp
    | cons x i =>
      cases c with
      | zero =>
        have : a = l := by simpa using hc
        simp [this]
      | succ c =>
        rw [List.set_cons_succ, List.zipWith_cons_cons, List.zipWith_cons_cons, List.set_cons_succ,
          ih _ _ (by simpa using hc)]

theorem maskLarge_legs (a : NTensor K) (M : NMask) (leg : ℕ) (hk : leg < a.legs.length) :
    (maskLarge a M leg).legs = a.legs.set leg M.small ∧ (maskLarge a M leg).blk = a.blk.applyMask M.blk leg := by
  rw [nLegs_length] at hk
  have := set_legs a.cod a.dom leg M.small hk
  unfold maskLarge
  by_cases h : leg < a.cod.length
  · rw [if_pos h]; rw [if_pos h, if_pos h] at this; exact ⟨this, rfl⟩
  · rw [if_neg h]; rw [if_neg h, if_neg h] at this; exact ⟨this, rfl⟩

theorem maskSmall_legs [Zero K] (a : NTensor K) (M : NMask) (leg : ℕ) (hk : leg < a.legs.length) :
    (maskSmall a M leg).legs = a.legs.set leg M.large ∧ (maskSmall a M leg).blk = a.blk.enlargeLeg M.blk leg := by
  rw [nLegs_length] at hk
  have := set_legs a.cod a.dom leg M.large hk
  unfold maskSmall
  by_cases h : leg < a.cod.length
  · rw [if_pos h]; rw [if_pos h, if_pos h] at this; exact ⟨this, rfl⟩
  · rw [if_neg h]; rw [if_neg h, if_neg h] at this; exact ⟨this, rfl⟩

theorem ldims_set (legs : List NLeg) (c : ℕ) (l : NLeg) : ldims (legs.set c l) = (ldims legs).set c l.dim := by
  unfold ldims; rw [List.map_set]

/-- **C70**: `apply_mask` with a boolean vector `m` in the public basis: axis `leg` of the dense array
is restricted to the positions where `m` is true, in their order. -/
theorem C70_mask_project (a : NTensor K) (ha : NSane a) (l : NLeg) (m : List Bool) (leg : ℕ)
    (hl : a.legs[leg]? = some l) (hm : m.length = l.dim) (i : List ℕ)
    (hi : InShape i ((ldims a.legs).set leg (m.count true))) :
    NSane (maskLarge a (maskFromBlock l m) leg) ∧
    ldims (maskLarge a (maskFromBlock l m) leg).legs = (ldims a.legs).set leg (m.count true) ∧
    ∃ y, (nonzero m)[i.getD leg 0]? = some y ∧
      NDense (maskLarge a (maskFromBlock l m) leg) i = NDense a (i.set leg y) := by
  obtain ⟨hc, he⟩ := List.getElem?_eq_some_iff.1 hl
  have ok : LegOK l := he ▸ ha.legs _ (List.getElem_mem _)
  obtain ⟨h1, h2⟩ := maskLarge_legs a (maskFromBlock l m) leg hc
  obtain ⟨s1, s2⟩ := small_ok ok hm
  have hd : ldims (maskLarge a (maskFromBlock l m) leg).legs = (ldims a.legs).set leg (m.count true) := by
    rw [h1, ldims_set, s2]; rfl
  have hx : i.getD leg 0 < countTrue m := by
    have h3 : InShape i (ldims (a.legs.set leg (maskFromBlock l m).small)) := by
      rw [ldims_set, s2]; exact hi
    have := inShape_getD h3 (c := leg) (l := (maskFromBlock l m).small) (by simp [hc])
    rwa [s2] at this
  obtain ⟨y, y1, -, y3⟩ := small_index ok hm hx
  refine ⟨⟨fun l' hl' => ?_, ?_⟩, hd, y, y1, ?_⟩
  · rw [h1] at hl'
    rcases List.mem_or_eq_of_mem_set hl' with h | h
    · exact ha.legs _ h
    · rw [h]; exact s1
  · rw [hd, h2]
    show a.blk.shape.set leg _ = _
    rw [ha.shape, maskBlk_count ok hm]; rfl
  · rw [nDense_eq, nDense_eq, h1, h2, intl_set, intl_set' _ _ _ _ _ hl]
    show a.blk.val _ = _
    congr 1
    have li : i.length = a.legs.length := by simpa using hi.length
    have hlen : leg < (intl a.legs i).length := by rw [length_intl _ _ li]; exact hc
    rw [List.set_set]
    congr 1
    rw [List.getD_eq_getElem?_getD (l := List.set _ _ _), List.getElem?_set_self (by simpa using hlen)]
    exact getD_of y3

/-- **C70**: `enlarge_leg`: the entries of axis `leg` are put to the positions where `m` is true, in
their order; the others are zero. -/
theorem C70_mask_embed [Zero K] (a : NTensor K) (ha : NSane a) (l : NLeg) (hlok : LegOK l) (m : List Bool)
    (leg : ℕ) (hl : a.legs[leg]? = some (maskFromBlock l m).small) (hm : m.length = l.dim) (i : List ℕ)
    (hi : InShape i ((ldims a.legs).set leg m.length)) :
    NSane (maskSmall a (maskFromBlock l m) leg) ∧
    ldims (maskSmall a (maskFromBlock l m) leg).legs = (ldims a.legs).set leg m.length ∧
    NDense (maskSmall a (maskFromBlock l m) leg) i =
      if m.getD (i.getD leg 0) false then
        NDense a (i.set leg ((m.take (i.getD leg 0)).count true)) else 0 := by
  obtain ⟨hc, he⟩ := List.getElem?_eq_some_iff.1 hl
  obtain ⟨h1, h2⟩ := maskSmall_legs a (maskFromBlock l m) leg hc
  have hlg : (maskFromBlock l m).large = l := rfl
  rw [hlg] at h1
  have hml : (maskFromBlock l m).blk.length = l.dim := by
    show (l.basisPerm.map _).length = _
    rw [List.length_map]; simpa using (basisPerm_perm hlok).length_eq
  have hd : ldims (maskSmall a (maskFromBlock l m) leg).legs = (ldims a.legs).set leg m.length := by
    rw [h1, ldims_set, hm]
  have hx : i.getD leg 0 < l.dim := by
    have h3 : InShape i (ldims (a.legs.set leg l)) := by
      rw [ldims_set, ← hm]; exact hi
    exact inShape_getD h3 (c := leg) (l := l) (by simp [hc])
  refine ⟨⟨fun l' hl' => ?_, ?_⟩, hd, ?_⟩
  · rw [h1] at hl'
    rcases List.mem_or_eq_of_mem_set hl' with h | h
    · exact ha.legs _ h
    · rw [h]; exact hlok
  · rw [hd, h2]
    show a.blk.shape.set leg _ = _
    rw [ha.shape, hml, hm]
  · have li : i.length = a.legs.length := by simpa using hi.length
    have hlen : leg < (intl a.legs i).length := by rw [length_intl _ _ li]; exact hc
    rw [nDense_eq, nDense_eq, h1, h2, intl_set, intl_set' _ _ _ _ _ hl]
    show (if (maskFromBlock l m).blk.getD _ false = true then _ else 0) = _
    rw [List.getD_eq_getElem?_getD (l := List.set _ _ _), List.getElem?_set_self (by simpa using hlen),
      Option.getD_some, List.set_set]
    have hiff : ((maskFromBlock l m).blk.getD (l.inversePerm.getD (i.getD leg 0) 0) false = true) ↔
        m.getD (i.getD leg 0) false = true := by
      have h3 := maskBlk_get hlok hm (l.inversePerm.getD (i.getD leg 0) 0)
      rw [basis_inverse hlok hx] at h3
      have g1 : ∀ (v : List Bool) (k : ℕ), v.getD k false = true ↔ v[k]? = some true := by
        intro v k
        rw [List.getD_eq_getElem?_getD]
        cases v[k]? <;> simp
      rw [g1, g1, h3]
      exact and_iff_right (getD_lt_of_perm (inversePerm_perm hlok) hx)
    by_cases hb : m.getD (i.getD leg 0) false = true
    · rw [if_pos (hiff.2 hb), if_pos hb]
      congr 2
      have hb' : m[i.getD leg 0]? = some true := by
        rw [List.getD_eq_getElem?_getD] at hb
        cases h : m[i.getD leg 0]? with
        | none => rw [h] at hb; simp at hb
        | some v => rw [h] at hb; simpa using hb
      have hn := (nonzero_get m _ _).2 ⟨hb', rfl⟩
      have hlt : countTrue (m.take (i.getD leg 0)) < countTrue m := by
        rw [← length_nonzero m]; exact (List.getElem?_eq_some_iff.1 hn).1
      obtain ⟨y, y1, -, y3⟩ := small_index hlok hm hlt
      have : y = i.getD leg 0 := by rw [hn] at y1; simpa using y1.symm
      rw [this] at y3
      exact ((nonzero_get _ _ _).1 y3).2
    · rw [if_neg fun h => hb (hiff.1 h), if_neg hb]

end Cyten.Props
