import Verif.Props.AbelianCharge

/-!
# C56: tdot and partial_compose are contractions of the dense tensors

See `Verif.Spec.AbelianData` for `dense`, `basis`, `Sane`; `pick legs x` are the components of the
multi-index `x` on the given legs.
-/

namespace Cyten.Abelian.Spec
open Cyten.Abelian

/-- The entries of the result of a contraction. -/
def value {S K : Type} [AddCommMonoid K] : Res S K → List ℕ → List ℕ → K
  | .tensor t, row, pos => dense t.data row pos
  | .scalar x, _, _ => x

/-- The multiplicities of the sectors of the legs of a tensor. -/
def _root_.Cyten.Abelian.STensor.mults {S K : Type} (t : STensor S K) : List (List ℕ) := multsOf (coDomainLegs t.cod t.dom)

/-- A consistent symmetric tensor. -/
structure _root_.Cyten.Abelian.STensor.Valid {S K : Type} (R : Cyten.FusionRule S) (t : STensor S K) : Prop where
  hom : IsHom R t.cod t.dom t.data
  legs : LegsOK (coDomainLegs t.cod t.dom)

end Cyten.Abelian.Spec

namespace Cyten.Props
open Cyten.Abelian Cyten.Abelian.Spec Cyten.Tables Cyten.Tools Cyten.ListSum Cyten.Spaces
open Cyten.FusionTrees

variable {K S : Type}

/-! ## Sums over bases with some components fixed -/

section
variable {α : Type} [AddCommMonoid α]

theorem mults_permuted_append (M : List (List ℕ)) (p q : List ℕ) :
    permuted M (p ++ q) = permuted M p ++ permuted M q := by simp [permuted]

theorem isIndex_pick {M : List (List ℕ)} {r p : List ℕ} (h : IsIndex M r p) (legs : List ℕ)
    (hlt : ∀ c ∈ legs, c < M.length) : IsIndex (permuted M legs) (pick legs r) (pick legs p) := by
  have lr : r.length = M.length := by simpa using h.1.length
  have lp : p.length = M.length := by rw [h.2.length, length_shapeOf _ _ lr]
  refine ⟨?_, ?_⟩
  · rw [map_length_permuted M legs hlt]
    exact inShape_permute h.1 fun c hc => by rw [lr]; exact hlt c hc
  · rw [shapeOf_permuted M legs r hlt lr]
    exact inShape_permute h.2 fun c hc => by rw [lp]; exact hlt c hc

theorem length_pick (p r : List ℕ) : (pick p r).length = p.length := by simp [pick]

/-- Fix the components on the first legs of a permutation. -/
theorem sum_basis_fix_left (M : List (List ℕ)) (p q : List ℕ)
    (hp : (p ++ q).Perm (List.range M.length)) (r0 p0 : List ℕ)
    (h0 : IsIndex (permuted M p) r0 p0) (G : List ℕ → List ℕ → α) :
    ((basis M).map fun x => if pick p x.1 = r0 ∧ pick p x.2 = p0 then
      G (pick (p ++ q) x.1) (pick (p ++ q) x.2) else 0).sum =
      ((basis (permuted M q)).map fun c => G (r0 ++ c.1) (p0 ++ c.2)).sum := by
  have l0 : r0.length = p.length := by simpa [permuted] using h0.1.length
  have l1 : p0.length = p.length := by
    rw [h0.2.length, length_shapeOf _ _ (by simpa [permuted] using l0)]; simp [permuted]
  have e : ((basis M).map fun x => if pick p x.1 = r0 ∧ pick p x.2 = p0 then
      G (pick (p ++ q) x.1) (pick (p ++ q) x.2) else 0) = ((basis M).map fun x =>
      (fun u v : List ℕ => if u.take p.length = r0 ∧ v.take p.length = p0 then G u v else 0)
        (pick (p ++ q) x.1) (pick (p ++ q) x.2)) := by
    refine List.map_congr_left fun x _ => ?_
    simp only [pick_append, List.take_left' (length_pick _ _)]
  rw [e, ← sum_basis_pick M (p ++ q) hp (fun u v : List ℕ =>
    if u.take p.length = r0 ∧ v.take p.length = p0 then G u v else 0), mults_permuted_append,
    sum_basis_append (permuted M p) (permuted M q) (fun u v : List ℕ =>
    if u.take p.length = r0 ∧ v.take p.length = p0 then G u v else 0),
    sum_single' _ (C34_basis_nodup _) (r0, p0) ((C34_basis _ _ _).2 h0)]
  · refine sum_congr _ fun c _ => ?_
    rw [List.take_left' l0, List.take_left' l1, if_pos ⟨rfl, rfl⟩]
  · intro x hx hne
    obtain ⟨m1, m2, -⟩ := mem_basis hx
    refine sum_zero _ _ fun c _ => ?_
    rw [List.take_left' (by simpa [permuted] using m1), List.take_left' (by simpa [permuted] using m2),
      if_neg fun h => hne (Prod.ext h.1 h.2)]

/-- Fix the components on the last legs of a permutation. -/
theorem sum_basis_fix_right (M : List (List ℕ)) (p q : List ℕ)
    (hp : (q ++ p).Perm (List.range M.length)) (r0 p0 : List ℕ)
    (h0 : IsIndex (permuted M p) r0 p0) (G : List ℕ → List ℕ → α) :
    ((basis M).map fun x => if pick p x.1 = r0 ∧ pick p x.2 = p0 then
      G (pick (q ++ p) x.1) (pick (q ++ p) x.2) else 0).sum =
      ((basis (permuted M q)).map fun c => G (c.1 ++ r0) (c.2 ++ p0)).sum := by
  have e : ((basis M).map fun x => if pick p x.1 = r0 ∧ pick p x.2 = p0 then
      G (pick (q ++ p) x.1) (pick (q ++ p) x.2) else 0) = ((basis M).map fun x =>
      if pick p x.1 = r0 ∧ pick p x.2 = p0 then
      (fun u v : List ℕ => G (u.drop p.length ++ u.take p.length) (v.drop p.length ++ v.take p.length))
        (pick (p ++ q) x.1) (pick (p ++ q) x.2) else 0) := by
    refine List.map_congr_left fun x _ => ?_
    simp only [pick_append, List.take_left' (length_pick _ _), List.drop_left' (length_pick _ _)]
  rw [e, sum_basis_fix_left M p q (List.perm_append_comm.trans hp) r0 p0 h0 (fun u v : List ℕ =>
    G (u.drop p.length ++ u.take p.length) (v.drop p.length ++ v.take p.length))]
  have l0 : r0.length = p.length := by simpa [permuted] using h0.1.length
  have l1 : p0.length = p.length := by
    rw [h0.2.length, length_shapeOf _ _ (by simpa [permuted] using l0)]; simp [permuted]
  refine sum_congr _ fun c _ => ?_
  simp only [List.take_left' l0, List.take_left' l1, List.drop_left' l0, List.drop_left' l1]

end

/-! ## Permuted tensors -/

section
variable [AddCommGroup S] [DecidableEq S] {R : FusionRule S} {dual : S → S}

theorem STensor.length_mults (t : STensor S K) : t.mults.length = t.numLegs := by
  simp [STensor.mults, multsOf, coDomainLegs, STensor.numLegs]

theorem legsOK_asCodomainLeg {cod dom : List (BLeg S)} (h : LegsOK (coDomainLegs cod dom)) (n : ℕ) :
    (asCodomainLeg dual cod dom n).sectors.length = (asCodomainLeg dual cod dom n).mults.length := by
  have key : ((coDomainLegs cod dom).getD n ⟨[], []⟩).sectors.length =
      ((coDomainLegs cod dom).getD n ⟨[], []⟩).mults.length := by
    rw [List.getD_eq_getElem?_getD]
    cases hc : (coDomainLegs cod dom)[n]? with
    | none => rfl
    | some l => exact h l (List.mem_of_getElem? hc)
  unfold asCodomainLeg
  simp only
  split
  · exact key
  · simpa [BLeg.dual] using key

theorem STensor.permuteLegs_cod (hG : GroupRule R dual) (t : STensor S K) (ci di : List ℕ) :
    (t.permuteLegs dual ci di).cod = ci.map (asCodomainLeg dual t.cod t.dom) ∧
      (t.permuteLegs dual ci di).dom = di.map (asDomainLeg dual t.cod t.dom) := by
  have _ := hG
  unfold STensor.permuteLegs
  by_cases h : ci = List.range t.cod.length ∧ di = (List.range' t.cod.length t.dom.length).reverse
  · rw [if_pos h, h.1, h.2]
    constructor
    · refine List.ext_getElem (by simp) fun i h1 h2 => ?_
      simp only [List.getElem_map, List.getElem_range]
      unfold asCodomainLeg coDomainLegs
      simp only
      rw [if_pos h1, List.getD_append _ _ _ _ h1, List.getD_eq_getElem?_getD,
        List.getElem?_eq_getElem h1]
      rfl
    · refine List.ext_getElem (by simp) fun i h1 h2 => ?_
      simp only [List.getElem_map, List.getElem_reverse, List.getElem_range', List.length_range']
      unfold asDomainLeg coDomainLegs
      simp only
      rw [if_neg (by omega), List.getD_append_right _ _ _ _ (by omega), List.getD_eq_getElem?_getD,
        List.getElem?_reverse (by omega), List.getElem?_eq_getElem (by omega)]
      simp only [Option.getD_some]
      congr 1
      omega
  · rw [if_neg h]
    exact ⟨rfl, rfl⟩

theorem STensor.permuteLegs_hom (hG : GroupRule R dual) (t : STensor S K)
    (ht : IsHom R t.cod t.dom t.data) (ci di : List ℕ)
    (hp : (ci ++ di.reverse).Perm (List.range t.numLegs)) :
    IsHom R (t.permuteLegs dual ci di).cod (t.permuteLegs dual ci di).dom
      (t.permuteLegs dual ci di).data := by
  have h2 := STensor.permuteLegs_cod hG t ci di
  have h3 := C45_permute_legs_isHom hG t.cod t.dom t.data ht ci di hp
  unfold STensor.permuteLegs at h2 ⊢
  by_cases h : ci = List.range t.cod.length ∧ di = (List.range' t.cod.length t.dom.length).reverse
  · rw [if_pos h]; exact ht
  · rw [if_neg h]; exact h3

theorem STensor.permuteLegs_dense [AddCommMonoid K] (t : STensor S K)
    (ht : IsHom R t.cod t.dom t.data) (ci di : List ℕ)
    (hp : (ci ++ di.reverse).Perm (List.range t.numLegs)) (row pos : List ℕ)
    (hr : row.length = t.numLegs) (hq : pos.length = t.numLegs) :
    dense (t.permuteLegs dual ci di).data (pick (ci ++ di.reverse) row) (pick (ci ++ di.reverse) pos) =
      dense t.data row pos := by
  have hs : Sane t.mults t.data := by
    unfold STensor.mults; rw [multsOf_coDomainLegs]; exact ht.sane
  unfold STensor.permuteLegs
  by_cases h : ci = List.range t.cod.length ∧ di = (List.range' t.cod.length t.dom.length).reverse
  · rw [if_pos h]
    have e : ci ++ di.reverse = List.range t.numLegs := by
      rw [h.1, h.2, List.reverse_reverse, STensor.numLegs, List.range_add, ← List.range'_eq_map_range]
    rw [e, pick_range _ _ (by omega), pick_range _ _ (by omega), ← hr, List.take_length, hr, ← hq,
      List.take_length]
  · rw [if_neg h]
    exact C45_permute_legs _ t.data hs ci di (by rw [STensor.length_mults]; exact hp) row pos
      (by rw [STensor.length_mults]; exact hr) (by rw [STensor.length_mults]; exact hq)

end

/-! ## tdot -/

theorem otherLegs_perm (n : ℕ) (legs : List ℕ) (hn : legs.Nodup) (hl : ∀ i ∈ legs, i < n) :
    (otherLegs n legs ++ legs).Perm (List.range n) := by
  unfold otherLegs
  rw [List.perm_ext_iff_of_nodup]
  · intro i
    simp only [List.mem_append, List.mem_filter, List.mem_range, Bool.not_eq_true',
      List.contains_eq_mem, decide_eq_false_iff_not]
    constructor
    · rintro (h | h)
      · exact h.1
      · exact hl i h
    · intro h
      by_cases hi : i ∈ legs
      · exact Or.inr hi
      · exact Or.inl ⟨h, hi⟩
  · rw [List.nodup_append]
    refine ⟨List.Nodup.filter _ List.nodup_range, hn, ?_⟩
    intro a ha b hb
    rintro rfl
    have := (List.mem_filter.1 ha).2
    simp [hb] at this
  · exact List.nodup_range

section
variable [AddCommGroup S] [DecidableEq S] {R : FusionRule S} {dual : S → S}
  [NonUnitalNonAssocSemiring K] [Star K]

theorem value_composeSym (a b : STensor S K) (ha : IsHom R a.cod a.dom a.data)
    (hb : IsHom R b.cod b.dom b.data) (hab : a.dom = b.cod) (hok : LegsOK b.cod) (res : Res S K)
    (h : composeSym R a b = some res) (ra pa rb pb : List ℕ) (hra : IsIndex (multsOf a.cod) ra pa)
    (hrb : IsIndex (multsOf b.dom).reverse rb pb) :
    value res (ra ++ rb) (pa ++ pb) = ((basis (multsOf b.cod)).map fun x =>
      dense a.data (ra ++ x.1.reverse) (pa ++ x.2.reverse) *
        dense b.data (x.1 ++ rb) (x.2 ++ pb)).sum := by
  have ha' : IsHom R a.cod b.cod a.data := hab ▸ ha
  unfold composeSym at h
  by_cases h1 : (a.cod.isEmpty && b.dom.isEmpty) = true
  · rw [if_pos h1] at h
    obtain ⟨v, hv, rfl⟩ := Option.map_eq_some_iff.1 h
    have hc : compose R a.cod b.cod b.dom a.data b.data = some (mkData [([], ⟨[], fun _ => v⟩)] true) := by
      unfold compose
      rw [if_pos h1, ← hab, hv]
      rfl
    rw [← C33_compose R a.cod b.cod b.dom a.data b.data _ hok ha'.sane hb.sane ha'.charge hb.charge hc
      ra pa rb pb hra hrb]
    rw [Bool.and_eq_true, List.isEmpty_iff, List.isEmpty_iff] at h1
    rw [h1.1] at hra
    rw [h1.2] at hrb
    have e1 : ra = [] := List.length_eq_zero_iff.1 (by simpa [multsOf] using hra.1.length)
    have e3 : rb = [] := List.length_eq_zero_iff.1 (by simpa [multsOf] using hrb.1.length)
    simp [value, dense, mkData, e1, e3]
  · rw [if_neg h1] at h
    obtain ⟨d, hd, rfl⟩ := Option.map_eq_some_iff.1 h
    exact C33_compose R a.cod b.cod b.dom a.data b.data _ hok ha'.sane hb.sane ha'.charge hb.charge hd
      ra pa rb pb hra hrb

/-- **C56**: `tdot(a, b, legs1, legs2)` is the contraction of the dense tensors: its legs are the other
legs of `a` and then the other legs of `b` in their order, and its entries are the sums of products
over all basis vectors which have the given components on the other legs and equal components on the
contracted legs. -/
theorem C56_tdot (hG : GroupRule R dual) (a b : STensor S K) (ha : a.Valid R) (hb : b.Valid R)
    (legs1 legs2 : List ℕ) (res : Res S K) (h : tdot R dual a b legs1 legs2 = some res)
    (ra pa rb pb : List ℕ) (hra : IsIndex (permuted (a.mults) (otherLegs a.numLegs legs1)) ra pa)
    (hrb : IsIndex (permuted (b.mults) (otherLegs b.numLegs legs2)) rb pb) :
    value res (ra ++ rb) (pa ++ pb) =
      ((basis (a.mults)).map fun x =>
        if pick (otherLegs a.numLegs legs1) x.1 = ra ∧ pick (otherLegs a.numLegs legs1) x.2 = pa then
          ((basis (b.mults)).map fun y =>
            if pick (otherLegs b.numLegs legs2) y.1 = rb ∧ pick (otherLegs b.numLegs legs2) y.2 = pb then
              if pick legs1 x.1 = pick legs2 y.1 ∧ pick legs1 x.2 = pick legs2 y.2 then
                dense a.data x.1 x.2 * dense b.data y.1 y.2
              else 0
            else 0).sum
        else 0).sum := by
  unfold tdot at h
  by_cases h1 : ¬ legs1.Nodup ∨ ¬ legs2.Nodup
  · rw [if_pos h1] at h; cases h
  rw [if_neg h1] at h
  by_cases h2 : legs2.length ≠ legs1.length
  · rw [if_pos h2] at h; cases h
  rw [if_neg h2] at h
  by_cases h3 : ¬ (∀ n ∈ legs1, n < a.numLegs) ∨ ¬ (∀ n ∈ legs2, n < b.numLegs)
  · rw [if_pos h3] at h; cases h
  rw [if_neg h3] at h
  by_cases h4 : legs1.map (asDomainLeg dual a.cod a.dom) ≠ legs2.map (asCodomainLeg dual b.cod b.dom)
  · rw [if_pos h4] at h; cases h
  rw [if_neg h4] at h
  push Not at h1 h2 h3 h4
  obtain ⟨n1, n2⟩ := h1
  obtain ⟨b1, b2⟩ := h3
  set o1 := otherLegs a.numLegs legs1 with ho1
  set o2 := otherLegs b.numLegs legs2 with ho2
  have hp1 : (o1 ++ legs1).Perm (List.range a.numLegs) := otherLegs_perm _ _ n1 b1
  have hp2 : (o2 ++ legs2).Perm (List.range b.numLegs) := otherLegs_perm _ _ n2 b2
  have hp1' : (o1 ++ legs1.reverse).Perm (List.range a.numLegs) :=
    ((List.reverse_perm legs1).append_left o1).trans hp1
  have hp2' : (legs2 ++ o2).Perm (List.range b.numLegs) := List.perm_append_comm.trans hp2
  have hp2'' : (legs2 ++ o2.reverse.reverse).Perm (List.range b.numLegs) := by
    rw [List.reverse_reverse]; exact hp2'
  have la := STensor.length_mults a
  have lb := STensor.length_mults b
  set A := a.permuteLegs dual o1 legs1 with hA
  set B := b.permuteLegs dual legs2 o2.reverse with hB
  have cA := STensor.permuteLegs_cod hG a o1 legs1
  have cB := STensor.permuteLegs_cod hG b legs2 o2.reverse
  rw [← hA] at cA
  rw [← hB] at cB
  have hmcod : multsOf A.cod = permuted (a.mults) o1 := by
    rw [cA.1, multsOf, List.map_map]
    exact List.map_congr_left fun c _ => mults_asCodomainLeg a.cod a.dom c
  have hmdom : (multsOf B.dom).reverse = permuted (b.mults) o2 := by
    rw [cB.2, multsOf, List.map_map, List.map_reverse, List.reverse_reverse]
    exact List.map_congr_left fun c _ => mults_asDomainLeg b.cod b.dom c
  have hm2 : multsOf B.cod = permuted (b.mults) legs2 := by
    rw [cB.1, multsOf, List.map_map]
    exact List.map_congr_left fun c _ => mults_asCodomainLeg b.cod b.dom c
  have hm1 : multsOf B.cod = permuted (a.mults) legs1 := by
    rw [cB.1, ← h4, multsOf, List.map_map]
    exact List.map_congr_left fun c _ => mults_asDomainLeg a.cod a.dom c
  have hok : LegsOK B.cod := by
    intro l hl
    rw [cB.1] at hl
    obtain ⟨n, -, rfl⟩ := List.mem_map.1 hl
    exact legsOK_asCodomainLeg hb.legs n
  rw [value_composeSym A B (STensor.permuteLegs_hom hG a ha.hom _ _ hp1')
    (STensor.permuteLegs_hom hG b hb.hom _ _ hp2'') (by rw [cA.2, cB.1, h4]) hok res h ra pa rb pb
    (by rw [hmcod]; exact hra) (by rw [hmdom]; exact hrb)]
  symm
  -- the sum over the second tensor
  have hin : ∀ x ∈ basis (a.mults), ((basis (b.mults)).map fun y =>
      if pick o2 y.1 = rb ∧ pick o2 y.2 = pb then
        if pick legs1 x.1 = pick legs2 y.1 ∧ pick legs1 x.2 = pick legs2 y.2 then
          dense a.data x.1 x.2 * dense b.data y.1 y.2 else 0 else 0).sum =
      dense a.data x.1 x.2 * dense B.data (pick legs1 x.1 ++ rb) (pick legs1 x.2 ++ pb) := by
    intro x hx
    obtain ⟨x1, x2, hxi⟩ := mem_basis hx
    have e : ((basis (b.mults)).map fun y =>
        if pick o2 y.1 = rb ∧ pick o2 y.2 = pb then
          if pick legs1 x.1 = pick legs2 y.1 ∧ pick legs1 x.2 = pick legs2 y.2 then
            dense a.data x.1 x.2 * dense b.data y.1 y.2 else 0 else 0) =
        ((basis (b.mults)).map fun y =>
        if pick o2 y.1 = rb ∧ pick o2 y.2 = pb then
          (fun u v : List ℕ => if pick legs1 x.1 = u.take legs2.length ∧ pick legs1 x.2 = v.take legs2.length
            then dense a.data x.1 x.2 * dense B.data u v else 0)
            (pick (legs2 ++ o2) y.1) (pick (legs2 ++ o2) y.2) else 0) := by
      refine List.map_congr_left fun y hy => ?_
      obtain ⟨y1, y2, hyi⟩ := mem_basis hy
      have hd := STensor.permuteLegs_dense (dual := dual) b hb.hom legs2 o2.reverse hp2'' y.1 y.2
        (by rw [y1, lb]) (by rw [y2, lb])
      rw [List.reverse_reverse, ← hB] at hd
      simp only [hd]
      simp only [pick_append, List.take_left' (length_pick _ _)]
    rw [e, sum_basis_fix_right (b.mults) o2 legs2 (by rw [lb]; exact hp2') rb pb hrb
      (fun u v : List ℕ => if pick legs1 x.1 = u.take legs2.length ∧ pick legs1 x.2 = v.take legs2.length
            then dense a.data x.1 x.2 * dense B.data u v else 0)]
    rw [sum_single' _ (C34_basis_nodup _) (pick legs1 x.1, pick legs1 x.2)]
    · rw [if_pos]
      constructor
      · rw [List.take_left' (by rw [length_pick, h2])]
      · rw [List.take_left' (by rw [length_pick, h2])]
    · rw [C34_basis, ← hm2, hm1]
      exact isIndex_pick hxi legs1 fun c hc => by rw [la]; exact b1 c hc
    · intro c hc hne
      obtain ⟨c1, c2, -⟩ := mem_basis hc
      rw [List.take_left' (by simpa [permuted] using c1), List.take_left' (by simpa [permuted] using c2),
        if_neg fun h => hne (Prod.ext h.1.symm h.2.symm)]
  have e : ((basis (a.mults)).map fun x => if pick o1 x.1 = ra ∧ pick o1 x.2 = pa then
      ((basis (b.mults)).map fun y =>
      if pick o2 y.1 = rb ∧ pick o2 y.2 = pb then
        if pick legs1 x.1 = pick legs2 y.1 ∧ pick legs1 x.2 = pick legs2 y.2 then
          dense a.data x.1 x.2 * dense b.data y.1 y.2 else 0 else 0).sum else 0) =
      ((basis (a.mults)).map fun x => if pick o1 x.1 = ra ∧ pick o1 x.2 = pa then
        (fun u v : List ℕ => dense A.data u v *
          dense B.data ((u.drop o1.length).reverse ++ rb) ((v.drop o1.length).reverse ++ pb))
          (pick (o1 ++ legs1.reverse) x.1) (pick (o1 ++ legs1.reverse) x.2) else 0) := by
    refine List.map_congr_left fun x hx => ?_
    obtain ⟨x1, x2, -⟩ := mem_basis hx
    rw [hin x hx]
    have hd := STensor.permuteLegs_dense (dual := dual) a ha.hom o1 legs1 hp1' x.1 x.2
      (by rw [x1, la]) (by rw [x2, la])
    rw [← hA] at hd
    have hrev : ∀ r, (pick legs1.reverse r).reverse = pick legs1 r := by
      intro r; simp [pick]
    simp only [hd]
    simp only [pick_append, List.drop_left' (length_pick _ _), hrev]
  rw [e, sum_basis_fix_left (a.mults) o1 legs1.reverse (by rw [la]; exact hp1') ra pa hra
    (fun u v : List ℕ => dense A.data u v *
          dense B.data ((u.drop o1.length).reverse ++ rb) ((v.drop o1.length).reverse ++ pb))]
  have hrevM : permuted (a.mults) legs1.reverse = (multsOf B.cod).reverse := by
    rw [hm1]; simp [permuted]
  rw [hrevM, sum_perm (basis_reverse_perm (multsOf B.cod)), List.map_map]
  have l0 : ra.length = o1.length := by simpa [permuted] using hra.1.length
  have l1 : pa.length = o1.length := by
    rw [hra.2.length, length_shapeOf _ _ (by simpa [permuted] using l0)]; simp [permuted]
  refine sum_congr _ fun c _ => ?_
  simp only [Function.comp, List.drop_left' l0, List.drop_left' l1, List.reverse_reverse]

/-- The arguments pass the checks of `tdot`: no leg is given twice, all leg numbers are valid, and the
leg `legs1[i]` of `a`, as a leg of the domain, is the leg `legs2[i]` of `b`, as a leg of the codomain. -/
structure TdotArgs (dual : S → S) (a b : STensor S K) (legs1 legs2 : List ℕ) : Prop where
  nodup1 : legs1.Nodup
  nodup2 : legs2.Nodup
  lt1 : ∀ n ∈ legs1, n < a.numLegs
  lt2 : ∀ n ∈ legs2, n < b.numLegs
  legs : legs1.map (asDomainLeg dual a.cod a.dom) = legs2.map (asCodomainLeg dual b.cod b.dom)

theorem tdot_eq (a b : STensor S K) (legs1 legs2 : List ℕ) (h : TdotArgs dual a b legs1 legs2) :
    tdot R dual a b legs1 legs2 = composeSym R (a.permuteLegs dual (otherLegs a.numLegs legs1) legs1)
      (b.permuteLegs dual legs2 (otherLegs b.numLegs legs2).reverse) := by
  have hl : legs2.length = legs1.length := by simpa using (congrArg List.length h.legs).symm
  unfold tdot
  rw [if_neg (by simp [h.nodup1, h.nodup2]), if_neg (by simp [hl]), if_neg, if_neg (by simp [h.legs])]
  push Not
  exact ⟨h.lt1, h.lt2⟩

theorem tdot_args (a b : STensor S K) (legs1 legs2 : List ℕ) (res : Res S K)
    (h : tdot R dual a b legs1 legs2 = some res) : TdotArgs dual a b legs1 legs2 := by
  unfold tdot at h
  by_cases h1 : ¬ legs1.Nodup ∨ ¬ legs2.Nodup
  · rw [if_pos h1] at h; cases h
  rw [if_neg h1] at h
  by_cases h2 : legs2.length ≠ legs1.length
  · rw [if_pos h2] at h; cases h
  rw [if_neg h2] at h
  by_cases h3 : ¬ (∀ n ∈ legs1, n < a.numLegs) ∨ ¬ (∀ n ∈ legs2, n < b.numLegs)
  · rw [if_pos h3] at h; cases h
  rw [if_neg h3] at h
  by_cases h4 : legs1.map (asDomainLeg dual a.cod a.dom) ≠ legs2.map (asCodomainLeg dual b.cod b.dom)
  · rw [if_pos h4] at h; cases h
  push Not at h1 h3 h4
  exact ⟨h1.1, h1.2, h3.1, h3.2, h4⟩

/-- **C56**: the result of `tdot` is a consistent symmetric tensor, with the other legs of `a` as
codomain and the other legs of `b` (in reversed order, bent) as domain; it is a scalar exactly if no
legs are left. -/
theorem C56_tdot_isHom (hG : GroupRule R dual) (a b : STensor S K) (ha : a.Valid R) (hb : b.Valid R)
    (legs1 legs2 : List ℕ) (res : Res S K) (h : tdot R dual a b legs1 legs2 = some res) :
    match res with
    | .tensor t =>
      t.cod = (otherLegs a.numLegs legs1).map (asCodomainLeg dual a.cod a.dom) ∧
      t.dom = (otherLegs b.numLegs legs2).reverse.map (asDomainLeg dual b.cod b.dom) ∧
      IsHom R t.cod t.dom t.data ∧
      ¬ (otherLegs a.numLegs legs1 = [] ∧ otherLegs b.numLegs legs2 = [])
    | .scalar _ => otherLegs a.numLegs legs1 = [] ∧ otherLegs b.numLegs legs2 = [] := by
  have hargs := tdot_args a b legs1 legs2 res h
  rw [tdot_eq a b legs1 legs2 hargs] at h
  set o1 := otherLegs a.numLegs legs1 with ho1
  set o2 := otherLegs b.numLegs legs2 with ho2
  have hp1 : (o1 ++ legs1.reverse).Perm (List.range a.numLegs) :=
    ((List.reverse_perm legs1).append_left o1).trans (otherLegs_perm _ _ hargs.nodup1 hargs.lt1)
  have hp2 : (legs2 ++ o2.reverse.reverse).Perm (List.range b.numLegs) := by
    rw [List.reverse_reverse]
    exact List.perm_append_comm.trans (otherLegs_perm _ _ hargs.nodup2 hargs.lt2)
  have cA := STensor.permuteLegs_cod hG a o1 legs1
  have cB := STensor.permuteLegs_cod hG b legs2 o2.reverse
  have hA := STensor.permuteLegs_hom hG a ha.hom o1 legs1 hp1
  have hB := STensor.permuteLegs_hom hG b hb.hom legs2 o2.reverse hp2
  set A := a.permuteLegs dual o1 legs1
  set B := b.permuteLegs dual legs2 o2.reverse
  have hab : A.dom = B.cod := by rw [cA.2, cB.1, hargs.legs]
  have hok : LegsOK B.cod := by
    intro l hl
    rw [cB.1] at hl
    obtain ⟨n, -, rfl⟩ := List.mem_map.1 hl
    exact legsOK_asCodomainLeg hb.legs n
  have hemp : (A.cod.isEmpty && B.dom.isEmpty) = true ↔ o1 = [] ∧ o2 = [] := by
    rw [cA.1, cB.2]; simp
  unfold composeSym at h
  by_cases h1 : (A.cod.isEmpty && B.dom.isEmpty) = true
  · rw [if_pos h1] at h
    obtain ⟨v, hv, rfl⟩ := Option.map_eq_some_iff.1 h
    exact hemp.1 h1
  · rw [if_neg h1] at h
    obtain ⟨d, hd, rfl⟩ := Option.map_eq_some_iff.1 h
    refine ⟨cA.1, cB.2, ?_, fun h' => h1 (hemp.2 h')⟩
    exact C33_isHom R A.cod B.cod B.dom A.data B.data d hok (hab ▸ hA) hB hd

/-- **C56**: for valid arguments, with at least one contracted leg, `tdot` only raises if the strides of
the contracted legs overflow. -/
theorem C56_tdot_defined (hG : GroupRule R dual) (a b : STensor S K) (legs1 legs2 : List ℕ)
    (h : TdotArgs dual a b legs1 legs2)
    (hs : (makeStridePy (legs2.map fun n =>
      (asCodomainLeg dual b.cod b.dom n).sectors.length) false).isSome = true)
    (hs' : (makeStridePy (legs2.reverse.map fun n =>
      (asCodomainLeg dual b.cod b.dom n).sectors.length) false).isSome = true) :
    ∃ res, tdot R dual a b legs1 legs2 = some res := by
  rw [tdot_eq a b legs1 legs2 h]
  have cA := STensor.permuteLegs_cod hG a (otherLegs a.numLegs legs1) legs1
  have cB := STensor.permuteLegs_cod hG b legs2 (otherLegs b.numLegs legs2).reverse
  set A := a.permuteLegs dual (otherLegs a.numLegs legs1) legs1
  set B := b.permuteLegs dual legs2 (otherLegs b.numLegs legs2).reverse
  have e1 : (B.cod.map fun l => l.sectors.length) =
      legs2.map fun n => (asCodomainLeg dual b.cod b.dom n).sectors.length := by
    rw [cB.1, List.map_map]; rfl
  have e2 : (A.dom.reverse.map fun l => l.sectors.length) =
      legs2.reverse.map fun n => (asCodomainLeg dual b.cod b.dom n).sectors.length := by
    rw [cA.2, h.legs, ← List.map_reverse, List.map_map]; rfl
  obtain ⟨st, hst⟩ := Option.isSome_iff_exists.1 hs
  obtain ⟨st', hst'⟩ := Option.isSome_iff_exists.1 hs'
  unfold composeSym
  by_cases h1 : (A.cod.isEmpty && B.dom.isEmpty) = true
  · rw [if_pos h1, e2]
    unfold Abelian.inner
    rw [hst']
    exact ⟨_, rfl⟩
  · rw [if_neg h1]
    unfold compose
    rw [if_neg h1]
    by_cases h2 : B.cod.isEmpty = true
    · rw [if_pos h2]; exact ⟨_, rfl⟩
    · rw [if_neg h2]
      unfold composeWorker
      by_cases h3 : (A.data.isEmpty || B.data.isEmpty) = true
      · rw [if_pos h3]; exact ⟨_, rfl⟩
      · rw [if_neg h3, e1, hst]; exact ⟨_, rfl⟩

end

/-! ## A concrete case -/

/-- a tensor with two codomain legs and two domain legs -/
def tdotExample : STensor (Fin 2) ℤ := ⟨[z2Leg, z2Leg], [z2Leg, z2Leg], traceExample⟩

theorem tdotExample_valid : tdotExample.Valid z2Rule :=
  ⟨traceExample_isHom, by simp [tdotExample, LegsOK, coDomainLegs, z2Leg]⟩

attribute [local instance] starRingOfComm in
/-- The hypotheses of C56 are met: the contraction of leg 0 with leg 2 and leg 3 with leg 1 (each once
a leg of the codomain, once a leg of the domain). -/
theorem C56_nonvacuous : TdotArgs (fun a => -a) tdotExample tdotExample [0, 3] [2, 1] ∧
    ∃ t, tdot z2Rule (fun a => -a) tdotExample tdotExample [0, 3] [2, 1] = some (.tensor t) ∧
      dense t.data [1, 1, 1, 1] [0, 1, 0, 0] = 4 * 0 + 5 * 4 + 12 * 2 + 13 * 6 := by
  refine ⟨⟨by decide, by decide, by simp [tdotExample, STensor.numLegs],
    by simp [tdotExample, STensor.numLegs], ?_⟩, ?_⟩
  · decide
  · refine ⟨_, rfl, ?_⟩
    decide +kernel

end Cyten.Props
