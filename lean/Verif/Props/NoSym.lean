import Verif.Lemmas.NoSym
import Verif.Lemmas.AbelianInner
import Verif.Props.AbelianTrace

/-!
# C70: the backend without symmetry computes the dense operations

For every operation: the dense array (in the public bases of the legs) of the result is the operation
on the dense arrays of the arguments, whatever the basis permutations of the legs are.
-/

namespace Cyten.Props
open Cyten.NoSym Cyten.Abelian Cyten.Abelian.Spec Cyten.Tools Cyten.Tables Cyten.ListSum

variable {K : Type}

/-- The entry of the dense array of a tensor. -/
def NDense (t : NTensor K) (i : List ℕ) : K := (toDense t).val i

theorem nDense_eq (t : NTensor K) (i : List ℕ) : NDense t i = t.blk.val (intl t.legs i) := pub_val _ _ _

theorem nLegs_length (t : NTensor K) : t.legs.length = t.cod.length + t.dom.length := by
  simp [NTensor.legs]

theorem _root_.Cyten.NoSym.NSane.cod {t : NTensor K} (h : NSane t) : ∀ l ∈ t.cod, LegOK l := fun l hl =>
  h.legs l (by simp [NTensor.legs, hl])

theorem _root_.Cyten.NoSym.NSane.dom {t : NTensor K} (h : NSane t) : ∀ l ∈ t.dom, LegOK l := fun l hl =>
  h.legs l (by simp [NTensor.legs, hl])

theorem _root_.Cyten.NoSym.NSane.shapeLength {t : NTensor K} (h : NSane t) : t.blk.shape.length = t.legs.length := by
  rw [h.shape, length_ldims]

/-! ## Dense arrays -/

theorem mapLegs_length {legs : List NLeg} (h : ∀ l ∈ legs, LegOK l) :
    (legs.map NLeg.inversePerm).map List.length = ldims legs ∧
    (legs.map NLeg.basisPerm).map List.length = ldims legs := by
  simp only [ldims, List.map_map]
  exact ⟨List.map_congr_left fun l hl => by
      simpa using (inversePerm_perm (h l hl)).length_eq,
    List.map_congr_left fun l hl => by simpa using (basisPerm_perm (h l hl)).length_eq⟩

/-- **C70**: `from_dense_block` then `to_dense_block` gives the array back, for every array of the
shape of the legs. -/
theorem C70_roundtrip (cod dom : List NLeg) (h : ∀ l ∈ cod ++ dom.reverse, LegOK l) (a : Blk K)
    (i : List ℕ) (hi : InShape i (ldims (cod ++ dom.reverse))) :
    NSane (fromDense cod dom a) ∧
    (toDense (fromDense cod dom a)).shape = ldims (cod ++ dom.reverse) ∧
    NDense (fromDense cod dom a) i = a.val i := by
  refine ⟨⟨h, (mapLegs_length h).2⟩, (mapLegs_length h).1, ?_⟩
  rw [nDense_eq]
  show a.val (List.zipWith _ ((cod ++ dom.reverse).map NLeg.basisPerm) (intl (cod ++ dom.reverse) i)) = _
  congr 1
  generalize cod ++ dom.reverse = L at h hi
  induction L generalizing i with
  | nil => cases hi; rfl
  | cons l ls ih =>
    cases hi with
    | cons hx hr =>
      have e1 := basis_inverse (h l (by simp)) hx
      have e2 := ih _ (fun l hl => h l (by simp [hl])) hr
      exact congrArg₂ List.cons e1 e2

/-- **C70**: `to_dense_block` then `from_dense_block` gives the tensor back. -/
theorem C70_roundtrip' (t : NTensor K) (h : NSane t) (i : List ℕ) (hi : InShape i t.blk.shape) :
    (fromDense t.cod t.dom (toDense t)).blk.shape = t.blk.shape ∧
    (fromDense t.cod t.dom (toDense t)).blk.val i = t.blk.val i := by
  refine ⟨(mapLegs_length h.legs).2.trans h.shape.symm, ?_⟩
  show t.blk.val (List.zipWith _ (t.legs.map NLeg.inversePerm) (List.zipWith _ (t.legs.map NLeg.basisPerm) i)) = _
  congr 1
  rw [h.shape] at hi
  have hL := h.legs
  generalize t.legs = L at hL hi
  clear h
  induction L generalizing i with
  | nil => cases hi; rfl
  | cons l ls ih =>
    cases hi with
    | cons hx hr =>
      have e1 := inverse_basis (hL l (by simp)) hx
      have e2 := ih _ (fun l hl => hL l (by simp [hl])) hr
      exact congrArg₂ List.cons e1 e2

/-- **C70**: `tensor[i, j, …]` is the entry of the dense array. -/
theorem C70_element (t : NTensor K) (i : List ℕ) (hi : InShape i (ldims t.legs)) :
    NoSym.getElement t i = NDense t i := by
  rw [nDense_eq]
  unfold NoSym.getElement
  congr 1
  generalize t.legs = L at hi
  induction L generalizing i with
  | nil => rfl
  | cons l ls ih =>
    cases hi with
    | cons hx hr =>
      show _ :: _ = _ :: _
      rw [show List.zipWith _ ls _ = _ from ih _ hr]
      refine congrArg (· :: _) ?_
      obtain ⟨d, pm⟩ := l
      cases pm with
      | none => exact (getD_of (l := List.range d) (by rw [List.getElem?_range hx])).symm
      | some p => rfl

/-! ## Linear structure -/

/-- **C70**: linear combinations are entrywise. -/
theorem C70_linear [Semiring K] (a b : K) (v w : NTensor K) (hc : v.cod = w.cod) (hd : v.dom = w.dom)
    (i : List ℕ) :
    NDense (linearCombination a v b w) i = a * NDense v i + b * NDense w i ∧
    NDense (mul a v) i = a * NDense v i := by
  have hl : v.legs = w.legs := by unfold NTensor.legs; rw [hc, hd]
  rw [nDense_eq, nDense_eq, nDense_eq, nDense_eq]
  refine ⟨?_, rfl⟩
  show a * v.blk.val (intl v.legs i) + b * w.blk.val (intl v.legs i) = _
  rw [hl]

/-- **C70**: the tensor of zeros. -/
theorem C70_zero [Zero K] (cod dom : List NLeg) (i : List ℕ) : NDense (zeroData cod dom : NTensor K) i = 0 := by
  rw [nDense_eq]; rfl

/-- **C70**: `eye` is the identity matrix from the (reversed) domain legs to the codomain legs. -/
theorem C70_eye [Zero K] [One K] (legs : List NLeg) (h : ∀ l ∈ legs, LegOK l) (x y : List ℕ)
    (hx : InShape x (ldims legs)) (hy : InShape y (ldims legs)) :
    NDense (eye legs : NTensor K) (x ++ y.reverse) = if x = y then 1 else 0 := by
  rw [nDense_eq]
  have lx : x.length = legs.length := by simpa using hx.length
  have ly : y.length = legs.length := by simpa using hy.length
  show (Blk.eyeBlock (ldims legs) : Blk K).val (intl (legs ++ legs.reverse) _) = _
  rw [intl_append _ _ _ _ lx, intl_reverse _ _ ly,
    eyeBlock_val _ _ _ (intl_inShape h hx) (intl_inShape h hy)]
  by_cases e : x = y
  · rw [if_pos e, if_pos (by rw [e])]
  · rw [if_neg e, if_neg fun e' => e (intl_inj h hx hy e')]

/-! ## Legs -/

/-- **C70**: the dagger exchanges the legs and conjugates the entries. -/
theorem C70_dagger [Star K] (t : NTensor K) (h : NSane t) (i : List ℕ) (hi : InShape i (ldims t.legs)) :
    NSane (dagger t) ∧ NDense (dagger t) i.reverse = star (NDense t i) := by
  have li : i.length = t.legs.length := by simpa using hi.length
  have e : (dagger t).legs = t.legs.reverse := by
    show t.dom ++ t.cod.reverse = (t.cod ++ t.dom.reverse).reverse
    simp
  refine ⟨⟨fun l hl => ?_, ?_⟩, ?_⟩
  · rw [e, List.mem_reverse] at hl; exact h.legs l hl
  · rw [e, ldims_reverse, ← h.shape]; exact dagger_shape t.blk
  · rw [nDense_eq, nDense_eq, e, intl_reverse _ _ li]
    show t.blk.dagger.val _ = _
    rw [dagger_val _ _ (by rw [List.length_reverse, length_intl _ _ li, h.shapeLength]),
      List.reverse_reverse]

/-- **C70**: `permute_legs` permutes the axes: axis `k` of the result is the axis `perm[k]`. -/
theorem C70_permute (t : NTensor K) (h : NSane t) (cod dom : List ℕ)
    (hp : (cod ++ dom.reverse).Perm (List.range t.legs.length)) (i : List ℕ)
    (hi : InShape i (ldims t.legs)) :
    NSane (permuteLegs t cod dom) ∧
    NDense (permuteLegs t cod dom) ((cod ++ dom.reverse).map fun c => i.getD c 0) = NDense t i := by
  have li : i.length = t.legs.length := by simpa using hi.length
  have hlt : ∀ c ∈ cod ++ dom.reverse, c < t.legs.length := fun c hc => by simpa using hp.mem_iff.1 hc
  have e : (permuteLegs t cod dom).legs =
      (cod ++ dom.reverse).map fun c => t.legs.getD c ⟨0, none⟩ := by
    show List.map _ cod ++ (List.map _ dom).reverse = _
    rw [List.map_append, List.map_reverse]
  refine ⟨⟨fun l hl => ?_, ?_⟩, ?_⟩
  · rw [e, List.mem_map] at hl
    obtain ⟨c, hc, rfl⟩ := hl
    rw [List.getD_eq_getElem?_getD, List.getElem?_eq_getElem (hlt c hc)]
    exact h.legs _ (List.getElem_mem _)
  · rw [e, ldims_pick _ _ hlt, ← h.shape]; rfl
  · rw [nDense_eq, nDense_eq, e]
    show (t.blk.permuteAxes (cod ++ dom.reverse)).val (intl _ (pick (cod ++ dom.reverse) i)) = _
    rw [intl_pick _ _ _ li hlt, permuteAxes_val]
    rw [length_intl _ _ li]; exact hp

/-! ## Products -/

/-- **C70**: the outer product. -/
theorem C70_outer [Mul K] (a b : NTensor K) (ha : NSane a) (hb : NSane b) (ic id j : List ℕ)
    (hic : InShape ic (ldims a.cod)) (hid : InShape id (ldims a.dom.reverse))
    (hj : InShape j (ldims b.legs)) :
    NSane (outer a b) ∧ NDense (outer a b) (ic ++ j ++ id) = NDense a (ic ++ id) * NDense b j := by
  have l1 : ic.length = a.cod.length := by simpa using hic.length
  have l2 : id.length = a.dom.reverse.length := by simpa using hid.length
  have l3 : j.length = b.legs.length := by simpa using hj.length
  have e : (outer a b).legs = a.cod ++ b.legs ++ a.dom.reverse := by
    show a.cod ++ b.cod ++ (a.dom ++ b.dom).reverse = a.cod ++ (b.cod ++ b.dom.reverse) ++ a.dom.reverse
    simp
  have hk : a.cod.length ≤ a.blk.shape.length := by rw [ha.shapeLength, nLegs_length]; omega
  have hs : a.blk.shape = ldims a.cod ++ ldims a.dom.reverse := by
    rw [ha.shape, NTensor.legs, ldims_append]
  refine ⟨⟨fun l hl => ?_, ?_⟩, ?_⟩
  · rw [e] at hl
    simp only [List.mem_append, List.mem_reverse] at hl
    rcases hl with (hl | hl) | hl
    · exact ha.cod l hl
    · exact hb.legs l hl
    · exact ha.dom l hl
  · show (Blk.tensorOuter a.blk b.blk a.cod.length).shape = _
    rw [tensorOuter_shape _ _ _ hk, e, ldims_append, ldims_append, hs, hb.shape,
      List.take_left' (by simp), List.drop_left' (by simp)]
  · rw [nDense_eq, nDense_eq, nDense_eq, e, intl_append _ _ _ _ (by
      rw [List.length_append, List.length_append, l1, l3]), intl_append _ _ _ _ l1]
    have h1 := tensorOuter_val a.blk b.blk a.cod.length hk (intl a.legs (ic ++ id)) (intl b.legs j)
      (by rw [length_intl _ _ (by rw [nLegs_length]; simp [l1, l2]), ha.shapeLength])
      (by rw [length_intl _ _ l3, hb.shapeLength])
    rw [← h1]
    show (Blk.tensorOuter a.blk b.blk a.cod.length).val _ = _
    congr 1
    rw [show a.legs = a.cod ++ a.dom.reverse from rfl, intl_append _ _ _ _ l1,
      List.take_left' (length_intl _ _ l1), List.drop_left' (length_intl _ _ l1)]

/-- **C70**: composition contracts the domain of `a` with the codomain of `b`. -/
theorem C70_compose [AddCommMonoid K] [Mul K] (a b : NTensor K) (ha : NSane a) (hb : NSane b)
    (hab : a.dom = b.cod) (i j : List ℕ) (hi : InShape i (ldims a.cod))
    (hj : InShape j (ldims b.dom.reverse)) :
    NSane (compose a b) ∧
    NDense (compose a b) (i ++ j) =
      ((gridC (ldims a.dom)).map fun x => NDense a (i ++ x.reverse) * NDense b (x ++ j)).sum := by
  have l1 : i.length = a.cod.length := by simpa using hi.length
  have l2 : j.length = b.dom.reverse.length := by simpa using hj.length
  have sa : a.blk.shape.length = a.cod.length + a.dom.length := by rw [ha.shapeLength, nLegs_length]
  have sb : b.blk.shape.length = b.cod.length + b.dom.length := by rw [hb.shapeLength, nLegs_length]
  have oa : otherLegs a.blk.shape.length (List.range' a.cod.length a.dom.length).reverse =
      List.range a.cod.length := by rw [sa, otherLegs_suffix]
  have ob : otherLegs b.blk.shape.length (List.range b.cod.length) =
      List.range' b.cod.length b.dom.length := by rw [sb, otherLegs_prefix _ _ _ (List.Perm.refl _)]
  have sa' : a.blk.shape = ldims a.cod ++ (ldims a.dom).reverse := by
    rw [ha.shape, NTensor.legs, ldims_append, ldims_reverse]
  have sb' : b.blk.shape = ldims b.cod ++ (ldims b.dom).reverse := by
    rw [hb.shape, NTensor.legs, ldims_append, ldims_reverse]
  have pk : ∀ u v : List ℕ, u.length = a.cod.length → v.length = a.dom.length →
      pick (List.range' a.cod.length a.dom.length).reverse (u ++ v) = v.reverse := by
    intro u v hu hv
    unfold pick
    rw [List.map_reverse]
    congr 1
    have := pick_range' (u ++ v) a.cod.length a.dom.length (by simp [hu, hv])
    rw [List.drop_left' hu] at this
    exact this
  have hia : pick (List.range' a.cod.length a.dom.length).reverse a.blk.shape = ldims a.dom := by
    rw [sa', pk _ _ (by simp) (by simp), List.reverse_reverse]
  have hL : (compose a b).legs = a.cod ++ b.dom.reverse := rfl
  refine ⟨⟨fun l hl => ?_, ?_⟩, ?_⟩
  · rw [hL] at hl
    simp only [List.mem_append, List.mem_reverse] at hl
    rcases hl with hl | hl
    · exact ha.cod l hl
    · exact hb.dom l hl
  · show pick (otherLegs a.blk.shape.length _) a.blk.shape ++ pick (otherLegs b.blk.shape.length _) b.blk.shape = _
    rw [oa, ob, hL, ldims_append, ldims_reverse, pick_range _ _ (by omega),
      pick_range' _ _ _ (by omega), sa', sb', List.take_left' (by simp), List.drop_left' (by simp)]
  · rw [nDense_eq, hL, intl_append _ _ _ _ l1]
    show (Blk.tdot a.blk b.blk _ _).val _ = _
    rw [tdot_val a.blk b.blk _ _ (intl a.cod i) (intl b.dom.reverse j)
      (by rw [oa, length_intl _ _ l1, List.length_range])
      (fun x => intl a.cod i ++ x.reverse) (fun x => x ++ intl b.dom.reverse j), hia]
    · rw [← sum_intl ha.dom]
      refine sum_congr _ fun x hx => ?_
      have hx := (mem_gridC _ _).1 hx
      have lx : x.length = a.dom.length := by simpa using hx.length
      rw [nDense_eq, nDense_eq, NTensor.legs, NTensor.legs, intl_append _ _ _ _ l1,
        intl_reverse _ _ lx, ← hab, intl_append _ _ _ _ lx]
    · intro x hx
      rw [hia] at hx
      have lx : x.length = a.dom.length := by simpa using hx.length
      rw [oa]
      constructor
      · rw [List.length_append, length_intl _ _ l1, List.length_reverse, lx, List.range_eq_range',
          List.range_eq_range', ← List.range'_append_1]
        refine List.Perm.append_left _ ?_
        rw [Nat.zero_add]
        exact List.reverse_perm _
      · rw [pick_append, pick_range _ _ (by rw [List.length_append, length_intl _ _ l1]; omega),
          List.take_left' (length_intl _ _ l1), pk _ _ (length_intl _ _ l1) (by simp [lx]),
          List.reverse_reverse]
    · intro x hx
      rw [hia] at hx
      have lx : x.length = b.cod.length := by rw [← hab]; simpa using hx.length
      have lj : (intl b.dom.reverse j).length = b.dom.length := by
        rw [length_intl _ _ l2, List.length_reverse]
      rw [ob]
      constructor
      · rw [List.length_append, lx, lj, List.range_eq_range', List.range_eq_range',
          ← List.range'_append_1, Nat.zero_add]
      · rw [pick_append, pick_range _ _ (by rw [List.length_append]; omega), List.take_left' lx,
          pick_range' _ _ _ (by rw [List.length_append, lx, lj]), List.drop_left' lx]

/-- **C70**: the inner products. -/
theorem C70_inner [NonUnitalNonAssocSemiring K] [Star K] (a b : NTensor K) (ha : NSane a) (hb : NSane b) :
    (a.legs = b.legs → inner a b true =
      ((gridC (ldims b.legs)).map fun i => star (NDense a i) * NDense b i).sum) ∧
    (a.legs = b.legs.reverse → inner a b false =
      ((gridC (ldims b.legs)).map fun i => NDense a i.reverse * NDense b i).sum) := by
  constructor
  · intro h
    show Blk.inner a.blk b.blk true = _
    rw [blkInner_true, ha.shape, h, ← sum_intl hb.legs]
    exact sum_congr _ fun x _ => by rw [nDense_eq, nDense_eq, h]
  · intro h
    show Blk.inner a.blk b.blk false = _
    rw [blkInner_false, ha.shape, h, ldims_reverse, ((gridC_reverse_perm (ldims b.legs)).map _).sum_eq,
      List.map_map, ← sum_intl hb.legs]
    refine sum_congr _ fun x hx => ?_
    have lx : x.length = b.legs.length := by simpa using ((mem_gridC _ _).1 hx).length
    simp only [Function.comp]
    rw [nDense_eq, nDense_eq, h, intl_reverse _ _ lx, List.reverse_reverse]

/-- **C70**: the full trace. -/
theorem C70_trace [AddCommMonoid K] (a : NTensor K) (ha : NSane a) (h : a.cod = a.dom) :
    NoSym.traceFull a = ((gridC (ldims a.cod)).map fun x => NDense a (x ++ x.reverse)).sum := by
  show a.blk.traceFull = _
  rw [blkTrace a.blk (ldims a.cod) (by rw [ha.shape, NTensor.legs, ldims_append, ldims_reverse, ← h]),
    ← sum_intl ha.cod]
  refine sum_congr _ fun x hx => ?_
  have lx : x.length = a.cod.length := by simpa using ((mem_gridC _ _).1 hx).length
  rw [nDense_eq, NTensor.legs, intl_append _ _ _ _ lx, ← h, intl_reverse _ _ lx]

/-! ## Partial trace and partial composition -/

theorem range'_eq_reverse (k n : ℕ) :
    List.range' k n = (List.range n).reverse.map fun i => k + n - 1 - i := by
  refine List.ext_getElem? fun i => ?_
  by_cases hi : i < n
  · rw [List.getElem?_map, List.getElem?_reverse (by simpa using hi), List.length_range,
      List.getElem?_range (by omega), List.getElem?_range' hi]
    simp; omega
  · rw [List.getElem?_eq_none (by simp; omega), List.getElem?_eq_none (by simp; omega)]

/-- The legs that remain, in the order of the tensor legs. -/
theorem keep_legs (cod dom : List NLeg) (P : ℕ → Bool) :
    ((List.range cod.length).filter P).map (fun i => cod.getD i ⟨0, none⟩) ++
      (((List.range dom.length).filter fun i => P (cod.length + dom.length - 1 - i)).map fun i =>
        dom.getD i ⟨0, none⟩).reverse =
    ((List.range (cod.length + dom.length)).filter P).map fun i =>
      (cod ++ dom.reverse).getD i ⟨0, none⟩ := by
  rw [List.range_eq_range' (n := cod.length + dom.length), ← List.range'_append_1, List.filter_append,
    List.map_append, Nat.zero_add, ← List.range_eq_range', range'_eq_reverse cod.length,
    List.filter_map, List.map_map, ← List.map_reverse, ← List.filter_reverse]
  congr 1
  · refine List.map_congr_left fun i hi => ?_
    have hi : i < cod.length := by simpa using (List.mem_filter.1 hi).1
    rw [List.getD_eq_getElem?_getD, List.getD_eq_getElem?_getD, List.getElem?_append_left hi]
  · refine List.map_congr_left fun i hi => ?_
    have hi : i < dom.length := by simpa using (List.mem_filter.1 hi).1
    simp only [Function.comp]
    rw [List.getD_eq_getElem?_getD, List.getD_eq_getElem?_getD, List.getElem?_append_right (by omega),
      List.getElem?_reverse (by omega)]
    congr 2; omega

/-- **C70**: the partial trace: the sum over all entries where the indices of the paired legs agree. -/
theorem C70_partial_trace [AddCommMonoid K] (a : NTensor K) (ha : NSane a) (pairs : List (ℕ × ℕ))
    (hp : (otherLegs a.legs.length (pairs.map Prod.fst ++ pairs.map Prod.snd) ++ pairs.map Prod.fst ++
      pairs.map Prod.snd).Perm (List.range a.legs.length))
    (hl : ∀ pr ∈ pairs, a.legs[pr.1]? = a.legs[pr.2]?) :
    let rem := otherLegs a.legs.length (pairs.map Prod.fst ++ pairs.map Prod.snd)
    NSane (NoSym.partialTrace a pairs) ∧
    (NoSym.partialTrace a pairs).legs = (rem.map fun i => a.legs[i]?).reduceOption ∧
    ∀ pos, InShape pos (ldims (NoSym.partialTrace a pairs).legs) →
      NDense (NoSym.partialTrace a pairs) pos =
        ((gridC (ldims a.legs)).map fun q =>
          if (rem.map fun c => q.getD c 0) = pos ∧ ∀ pr ∈ pairs, q.getD pr.1 0 = q.getD pr.2 0 then
            NDense a q else 0).sum := by
  intro rem
  have hn : a.legs.length = a.cod.length + a.dom.length := nLegs_length a
  have hrem : ((List.range (a.cod.length + a.dom.length)).filter fun i =>
      !((pairs.map Prod.fst).contains i) && !((pairs.map Prod.snd).contains i)) = rem := by
    show _ = otherLegs _ _
    unfold otherLegs
    rw [hn]
    refine List.filter_congr fun i _ => ?_
    by_cases h1 : i ∈ pairs.map Prod.fst <;> by_cases h2 : i ∈ pairs.map Prod.snd <;>
      simp only [List.contains_eq_mem, List.mem_append, h1, h2] <;> decide
  have hlt : ∀ c ∈ rem, c < a.legs.length := fun c hc => by
    have := (List.mem_filter.1 hc).1; simpa using this
  have hmem : ∀ i, i < a.legs.length → (rem.contains i = (!((pairs.map Prod.fst).contains i) &&
      !((pairs.map Prod.snd).contains i))) := by
    intro i hi
    rw [← hrem]
    by_cases hb : (!((pairs.map Prod.fst).contains i) && !((pairs.map Prod.snd).contains i)) = true
    · rw [hb, List.contains_iff_mem, List.mem_filter]
      exact ⟨by simpa [hn] using hi, hb⟩
    · rw [Bool.not_eq_true] at hb
      rw [hb]
      rw [← Bool.not_eq_true, List.contains_iff_mem, List.mem_filter]
      intro h; rw [hb] at h; exact absurd h.2 (by simp)
  have hL : (NoSym.partialTrace a pairs).legs = rem.map fun i => a.legs.getD i ⟨0, none⟩ := by
    have h1 := keep_legs a.cod a.dom fun i => rem.contains i
    have h2 : ((List.range (a.cod.length + a.dom.length)).filter fun i => rem.contains i) = rem := by
      rw [← hn, List.filter_congr fun i hi => hmem i (by simpa using hi), hn, hrem]
    rw [h2] at h1
    rw [show a.legs = a.cod ++ a.dom.reverse from rfl, ← h1]
    show _ ++ _ = _
    unfold NoSym.partialTrace
    simp only
    rw [hrem]
  have hL2 : (rem.map fun i => a.legs[i]?).reduceOption = rem.map fun i => a.legs.getD i ⟨0, none⟩ := by
    have : (rem.map fun i => a.legs[i]?) = (rem.map fun i => a.legs.getD i ⟨0, none⟩).map some := by
      rw [List.map_map]
      refine List.map_congr_left fun i hi => ?_
      simp [List.getD_eq_getElem?_getD, List.getElem?_eq_getElem (hlt i hi)]
    rw [this]; unfold List.reduceOption; rw [List.filterMap_map]; simp
  have hsh : pick rem a.blk.shape = ldims (rem.map fun i => a.legs.getD i ⟨0, none⟩) := by
    rw [ldims_pick _ _ hlt, ha.shape]
  have hblk : (NoSym.partialTrace a pairs).blk =
      a.blk.tracePartial (pairs.map Prod.fst) (pairs.map Prod.snd) rem := by
    show a.blk.tracePartial _ _ _ = _
    rw [hrem]
  have hlegs : ∀ l ∈ rem.map (fun i => a.legs.getD i ⟨0, none⟩), LegOK l := by
    intro l hl
    obtain ⟨c, hc, rfl⟩ := List.mem_map.1 hl
    rw [List.getD_eq_getElem?_getD, List.getElem?_eq_getElem (hlt c hc)]
    exact ha.legs _ (List.getElem_mem _)
  have hpl : ∀ pr ∈ pairs, pr.1 < a.legs.length ∧ pr.2 < a.legs.length := by
    intro pr hpr
    have h1 : pr.1 ∈ List.range a.legs.length := hp.mem_iff.1 (by
      simp only [List.mem_append, List.mem_map]; exact Or.inl (Or.inr ⟨pr, hpr, rfl⟩))
    have h2 : pr.2 ∈ List.range a.legs.length := hp.mem_iff.1 (by
      simp only [List.mem_append, List.mem_map]; exact Or.inr ⟨pr, hpr, rfl⟩)
    simpa using And.intro (List.mem_range.1 h1) (List.mem_range.1 h2)
  refine ⟨⟨by rw [hL]; exact hlegs, by rw [hblk, tracePartial_shape, hL, hsh]⟩, by rw [hL, hL2], ?_⟩
  intro pos hpos
  rw [hL] at hpos
  have lpos : pos.length = (rem.map fun i => a.legs.getD i (⟨0, none⟩ : NLeg)).length := by
    simpa using hpos.length
  rw [nDense_eq, hL, hblk, tracePartial_val]
  · rw [ha.shape, ← sum_intl ha.legs]
    refine sum_congr _ fun q hq => ?_
    have hq := (mem_gridC _ _).1 hq
    have lq : q.length = a.legs.length := by simpa using hq.length
    rw [nDense_eq]
    have e1 : (pick rem (intl a.legs q) = intl (rem.map fun i => a.legs.getD i ⟨0, none⟩) pos) ↔
        (rem.map fun c => q.getD c 0) = pos := by
      rw [← intl_pick _ _ _ lq hlt]
      constructor
      · intro h
        refine intl_inj hlegs ?_ hpos h
        rw [ldims_pick _ _ hlt]
        exact inShape_permute hq fun c hc => by rw [lq]; exact hlt c hc
      · intro h
        rw [show pick rem q = pos from h]
    have hg : ∀ c, c < a.legs.length → (intl a.legs q).getD c 0 =
        (a.legs.getD c ⟨0, none⟩).inversePerm.getD (q.getD c 0) 0 := by
      intro c hc
      unfold intl
      rw [List.getD_eq_getElem?_getD (l := List.zipWith _ _ _), List.getElem?_zipWith,
        List.getElem?_eq_getElem hc, List.getElem?_eq_getElem (by rw [lq]; exact hc)]
      simp [List.getD_eq_getElem?_getD, List.getElem?_eq_getElem hc,
        List.getElem?_eq_getElem (show c < q.length by rw [lq]; exact hc)]
    have e2 : (pick (pairs.map Prod.fst) (intl a.legs q) = pick (pairs.map Prod.snd) (intl a.legs q)) ↔
        ∀ pr ∈ pairs, q.getD pr.1 0 = q.getD pr.2 0 := by
      unfold pick
      rw [List.map_map, List.map_map, List.map_inj_left]
      refine forall₂_congr fun pr hpr => ?_
      obtain ⟨c1, c2⟩ := hpl pr hpr
      simp only [Function.comp]
      rw [hg _ c1, hg _ c2]
      have hleg : a.legs.getD pr.1 ⟨0, none⟩ = a.legs.getD pr.2 ⟨0, none⟩ := by
        rw [List.getD_eq_getElem?_getD, List.getD_eq_getElem?_getD, hl pr hpr]
      have ok : LegOK (a.legs.getD pr.2 ⟨0, none⟩) := by
        rw [List.getD_eq_getElem?_getD, List.getElem?_eq_getElem c2]
        exact ha.legs _ (List.getElem_mem _)
      have b1 : ∀ c, c < a.legs.length → q.getD c 0 < (a.legs.getD c ⟨0, none⟩).dim := by
        intro c hc
        have := List.Forall₂.get hq (show c < q.length by rw [lq]; exact hc) (by simpa using hc)
        simp only [ldims, List.get_eq_getElem, List.getElem_map] at this
        simpa [List.getD_eq_getElem?_getD, List.getElem?_eq_getElem hc,
          List.getElem?_eq_getElem (show c < q.length by rw [lq]; exact hc)] using this
      rw [hleg]
      constructor
      · intro h
        have := congrArg ((a.legs.getD pr.2 ⟨0, none⟩).basisPerm.getD · 0) h
        rwa [basis_inverse ok (hleg ▸ b1 _ c1), basis_inverse ok (b1 _ c2)] at this
      · intro h; rw [h]
    by_cases hc : (rem.map fun c => q.getD c 0) = pos ∧ ∀ pr ∈ pairs, q.getD pr.1 0 = q.getD pr.2 0
    · rw [if_pos hc, if_pos ⟨e1.2 hc.1, e2.2 hc.2⟩]
    · rw [if_neg hc, if_neg fun h => hc ⟨e1.1 h.1, e2.1 h.2⟩]
  · rw [ha.shapeLength]; exact hp
  · rw [ha.shape]
    unfold pick
    rw [List.map_map, List.map_map]
    refine List.map_congr_left fun pr hpr => ?_
    show (List.map NLeg.dim a.legs).getD pr.1 0 = (List.map NLeg.dim a.legs).getD pr.2 0
    rw [List.getD_eq_getElem?_getD, List.getD_eq_getElem?_getD, List.getElem?_map, List.getElem?_map,
      hl pr hpr]
  · rw [hsh]; exact intl_inShape hlegs hpos

end Cyten.Props
