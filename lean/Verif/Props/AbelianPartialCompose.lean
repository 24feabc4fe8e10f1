import Verif.Props.AbelianTdot
import Verif.Lemmas.AbelianCombine2

/-!
# C56: `partial_compose`
-/

namespace Cyten.Props
open Cyten.Abelian Cyten.Abelian.Spec Cyten.Tables Cyten.Tools Cyten.ListSum Cyten.Spaces
open Cyten.FusionTrees

variable {K S : Type}

/-! ## Moving a segment of a list to the end -/

theorem map_getD_range {α : Type} (l m : List α) (d : α) :
    (List.range l.length).map (fun c => (l ++ m).getD c d) = l := by
  refine List.ext_getElem (by simp) fun i h1 h2 => ?_
  simp [List.getD_eq_getElem?_getD, List.getElem?_append_left h2, List.getElem?_eq_getElem h2]

theorem map_getD_range' {α : Type} (k l m : List α) (d : α) :
    (List.range' k.length l.length).map (fun c => (k ++ l ++ m).getD c d) = l := by
  refine List.ext_getElem (by simp) fun i h1 h2 => ?_
  simp only [List.getElem_map, List.getElem_range', List.getD_eq_getElem?_getD, List.append_assoc,
    Nat.one_mul]
  rw [List.getElem?_append_right (by omega), Nat.add_sub_cancel_left, List.getElem?_append_left h2,
    List.getElem?_eq_getElem h2]
  rfl

/-- the permutation that moves the segment `first, …, first + c - 1` to the end -/
def segPerm (first c rest : ℕ) : List ℕ :=
  List.range first ++ List.range' (first + c) rest ++ List.range' first c

theorem map_getD_segPerm {α : Type} (u w v : List α) (d : α) :
    (segPerm u.length w.length v.length).map (fun c => (u ++ w ++ v).getD c d) = u ++ v ++ w := by
  unfold segPerm
  rw [List.map_append, List.map_append]
  congr 1
  · congr 1
    · rw [List.append_assoc]; exact map_getD_range u _ d
    · have := map_getD_range' (u ++ w) v [] d
      rw [List.length_append, List.append_nil] at this
      exact this
  · exact map_getD_range' u w v d

theorem segPerm_perm (first c rest : ℕ) :
    (segPerm first c rest).Perm (List.range (first + c + rest)) := by
  unfold segPerm
  have e : List.range (first + c + rest) =
      List.range first ++ List.range' first c ++ List.range' (first + c) rest := by
    rw [List.range_add, List.range_add, ← List.range'_eq_map_range, ← List.range'_eq_map_range]
  rw [e, List.append_assoc, List.append_assoc]
  exact List.perm_append_comm.append_left _

/-! ## Tensors given by the list of all their legs -/

section
variable [AddCommGroup S]

/-- consistent data for the list of all legs -/
structure LegData (legs : List (BLeg S)) (T : Ents K) : Prop where
  sane : Sane (multsOf legs) T
  charge : ∀ p ∈ T, rowCharge legs p.1 = 0

variable {R : FusionRule S} {dual : S → S}

theorem multsOf_allLegs (cod dom : List (BLeg S)) :
    multsOf (allLegs dual cod dom) = multsOf cod ++ (multsOf dom).reverse := by
  simp [multsOf, allLegs, BLeg.dual, Function.comp_def]

theorem isHom_iff_legData (hG : GroupRule R dual) (cod dom : List (BLeg S)) (T : Ents K) :
    IsHom R cod dom T ↔ LegData (allLegs dual cod dom) T := by
  have hlen : ∀ (_ : Sane (multsOf cod ++ (multsOf dom).reverse) T), ∀ p ∈ T,
      p.1.length = cod.length + dom.length := fun hs p hp => by
    rw [hs.rowLength hp]; simp [multsOf]
  constructor
  · intro h
    exact ⟨by rw [multsOf_allLegs]; exact h.sane,
      (conserving_iff hG cod dom T (hlen h.sane)).1 h.charge⟩
  · intro h
    have hs := h.sane
    rw [multsOf_allLegs] at hs
    exact ⟨hs, (conserving_iff hG cod dom T (hlen hs)).2 h.charge⟩

theorem permuteData_eq (a : Ents K) (perm : List ℕ) : permuteData a perm = permuteLegs a perm [] := by
  unfold permuteData permuteLegs
  simp

theorem multsOf_map_getD (legs : List (BLeg S)) (perm : List ℕ) :
    multsOf (perm.map fun c => legs.getD c ⟨[], []⟩) = permuted (multsOf legs) perm := by
  unfold multsOf permuted
  rw [List.map_map]
  refine List.map_congr_left fun c _ => ?_
  simp only [Function.comp]
  rw [List.getD_eq_getElem?_getD, List.getD_eq_getElem?_getD, List.getElem?_map]
  cases legs[c]? <;> rfl

theorem LegData.permute {legs : List (BLeg S)} {T : Ents K} (h : LegData legs T) (perm : List ℕ)
    (hp : perm.Perm (List.range legs.length)) :
    LegData (perm.map fun c => legs.getD c ⟨[], []⟩) (permuteData T perm) := by
  have lM : (multsOf legs).length = legs.length := by simp [multsOf]
  refine ⟨?_, ?_⟩
  · rw [multsOf_map_getD, permuteData_eq]
    have := C41_permute_legs _ T h.sane perm [] (by rw [lM]; simpa using hp)
    simpa using this
  · intro p hpm
    obtain ⟨q, hq, rfl⟩ := List.mem_map.1 (mem_mkData.1 hpm)
    have lq := h.sane.rowLength hq
    rw [lM] at lq
    exact (rowCharge_permute legs q.1 perm lq hp).trans (h.charge q hq)

theorem dense_permuteData [AddCommMonoid K] {legs : List (BLeg S)} {T : Ents K} (h : LegData legs T)
    (perm : List ℕ) (hp : perm.Perm (List.range legs.length)) (row pos : List ℕ)
    (hr : row.length = legs.length) (hq : pos.length = legs.length) :
    dense (permuteData T perm) (pick perm row) (pick perm pos) = dense T row pos := by
  have lM : (multsOf legs).length = legs.length := by simp [multsOf]
  have := C45_permute_legs _ T h.sane perm [] (by rw [lM]; simpa using hp) row pos (by rw [lM]; exact hr)
    (by rw [lM]; exact hq)
  rw [permuteData_eq]
  simpa [pick] using this

/-- moving a segment of legs to the end -/
theorem dense_segPerm [AddCommMonoid K] {u w v : List (BLeg S)} {T : Ents K}
    (h : LegData (u ++ w ++ v) T) (ru rw' rv pu pw pv : List ℕ) (h1 : ru.length = u.length)
    (h2 : rw'.length = w.length) (h3 : rv.length = v.length) (h4 : pu.length = u.length)
    (h5 : pw.length = w.length) (h6 : pv.length = v.length) :
    dense (permuteData T (segPerm u.length w.length v.length)) (ru ++ rv ++ rw') (pu ++ pv ++ pw) =
      dense T (ru ++ rw' ++ rv) (pu ++ pw ++ pv) := by
  have hp : (segPerm u.length w.length v.length).Perm (List.range (u ++ w ++ v).length) := by
    have := segPerm_perm u.length w.length v.length
    simpa [Nat.add_assoc] using this
  rw [← dense_permuteData h _ hp (ru ++ rw' ++ rv) (pu ++ pw ++ pv) (by simp [h1, h2, h3])
    (by simp [h4, h5, h6])]
  have e1 : pick (segPerm u.length w.length v.length) (ru ++ rw' ++ rv) = ru ++ rv ++ rw' := by
    rw [← h1, ← h2, ← h3]; exact map_getD_segPerm ru rw' rv 0
  have e2 : pick (segPerm u.length w.length v.length) (pu ++ pw ++ pv) = pu ++ pv ++ pw := by
    rw [← h4, ← h5, ← h6]; exact map_getD_segPerm pu pw pv 0
  rw [e1, e2]

theorem LegData.segPerm {u w v : List (BLeg S)} {T : Ents K} (h : LegData (u ++ w ++ v) T) :
    LegData (u ++ v ++ w) (permuteData T (segPerm u.length w.length v.length)) := by
  have hp : (Props.segPerm u.length w.length v.length).Perm (List.range (u ++ w ++ v).length) := by
    have := segPerm_perm u.length w.length v.length
    simpa [Nat.add_assoc] using this
  have := h.permute _ hp
  rwa [map_getD_segPerm] at this

variable [DecidableEq S]

theorem composeWorker_congr [AddCommMonoid K] [Mul K] (R : FusionRule S)
    (codom contr contr' dom : List (BLeg S)) (a b : Ents K)
    (h : (contr.map fun l => l.sectors.length) = contr'.map fun l => l.sectors.length) :
    composeWorker R codom contr dom a b = composeWorker R codom contr' dom a b := by
  have hl : contr.length = contr'.length := by simpa using congrArg List.length h
  unfold composeWorker
  rw [h, hl]

variable [NonUnitalNonAssocSemiring K]

/-- The contraction of the segment `w` of the legs of `a` with the first legs of `b`, where the result
puts the other legs of `b` in the place of the segment. -/
theorem segment_contraction (hG : GroupRule R dual) (u v c dom : List (BLeg S)) (a b T : Ents K)
    (hc : LegsOK c) (hne : c ≠ []) (huv : u ++ v ≠ [])
    (ha : LegData (u ++ (c.map (BLeg.dual dual)).reverse ++ v) a)
    (hb : LegData (c ++ (dom.map (BLeg.dual dual)).reverse) b)
    (h : composeWorker R (u ++ v) c dom (permuteData a (segPerm u.length c.length v.length)) b = some T) :
    LegData (u ++ (dom.map (BLeg.dual dual)).reverse ++ v)
        (permuteData T (segPerm u.length v.length dom.length)) ∧
      ∀ ru pu ry py rv pv, IsIndex (multsOf u) ru pu → IsIndex (multsOf dom).reverse ry py →
        IsIndex (multsOf v) rv pv →
        dense (permuteData T (segPerm u.length v.length dom.length)) (ru ++ ry ++ rv) (pu ++ py ++ pv) =
          ((basis (multsOf c)).map fun x =>
            dense a (ru ++ x.1.reverse ++ rv) (pu ++ x.2.reverse ++ pv) *
              dense b (x.1 ++ ry) (x.2 ++ py)).sum := by
  letI : Star K := ⟨id⟩
  have lw : (c.map (BLeg.dual dual)).reverse.length = c.length := by simp
  have ha' : IsHom R (u ++ v) c (permuteData a (segPerm u.length c.length v.length)) := by
    rw [isHom_iff_legData hG]
    have := ha.segPerm
    rw [lw] at this
    exact this
  have hb' : IsHom R c dom b := (isHom_iff_legData hG c dom b).2 hb
  have hcomp : compose R (u ++ v) c dom (permuteData a (segPerm u.length c.length v.length)) b = some T := by
    unfold compose
    rw [if_neg, if_neg]
    · exact h
    · simpa using hne
    · rw [Bool.and_eq_true, List.isEmpty_iff]; exact fun hh => huv hh.1
  have hT : LegData (u ++ v ++ (dom.map (BLeg.dual dual)).reverse) T :=
    (isHom_iff_legData hG (u ++ v) dom T).1 (C33_isHom R (u ++ v) c dom _ b T hc ha' hb' hcomp)
  have hT2 := hT.segPerm
  have ld : (dom.map (BLeg.dual dual)).reverse.length = dom.length := by simp
  rw [ld] at hT2
  refine ⟨hT2, ?_⟩
  intro ru pu ry py rv pv hu hy hv
  have lu := isIndex_length hu
  have ly := isIndex_length hy
  have lv := isIndex_length hv
  simp only [multsOf, List.length_map, List.length_reverse] at lu ly lv
  have hd := dense_segPerm hT ru rv ry pu pv py lu.1 lv.1 (by rw [ld]; exact ly.1) lu.2 lv.2
    (by rw [ld]; exact ly.2)
  rw [ld] at hd
  rw [hd, C33_compose R (u ++ v) c dom _ b T hc ha'.sane hb'.sane ha'.charge hb'.charge hcomp (ru ++ rv)
    (pu ++ pv) ry py (by
      have := isIndex_append hu hv
      rw [multsOf, List.map_append]; exact this) hy]
  refine sum_congr _ fun x hx => ?_
  obtain ⟨x1, x2, -⟩ := mem_basis hx
  simp only [multsOf, List.length_map] at x1 x2
  have hd2 := dense_segPerm ha ru x.1.reverse rv pu x.2.reverse pv lu.1 (by simp [x1]) lv.1 lu.2
    (by simp [x2]) lv.2
  rw [lw] at hd2
  rw [hd2]

/-! ## The arguments of the worker -/

theorem map_asCodomainLeg_take (cod dom : List (BLeg S)) (u w v : List (BLeg S))
    (h : allLegs dual cod dom = u ++ w ++ v) :
    ((segPerm u.length w.length v.length).take (u.length + v.length)).map
      (asCodomainLeg dual cod dom) = u ++ v := by
  have hl : cod.length + dom.length = u.length + w.length + v.length := by
    have := congrArg List.length h
    simp [allLegs] at this
    omega
  have e : (segPerm u.length w.length v.length).take (u.length + v.length) =
      List.range u.length ++ List.range' (u.length + w.length) v.length := by
    unfold segPerm
    rw [List.take_left' (by simp)]
  rw [e]
  have : ∀ c ∈ List.range u.length ++ List.range' (u.length + w.length) v.length,
      asCodomainLeg dual cod dom c = (u ++ w ++ v).getD c ⟨[], []⟩ := by
    intro c hc
    rw [← h, getD_allLegs]
    simp only [List.mem_append, List.mem_range, List.mem_range'_1] at hc
    omega
  rw [List.map_congr_left this, List.map_append]
  congr 1
  · rw [List.append_assoc]; exact map_getD_range u _ _
  · have := map_getD_range' (u ++ w) v [] (⟨[], []⟩ : BLeg S)
    rw [List.length_append, List.append_nil] at this
    exact this

theorem dual_map_dual (hG : GroupRule R dual) (l : List (BLeg S)) :
    (l.map (BLeg.dual dual)).map (BLeg.dual dual) = l := by
  rw [List.map_map]
  conv_rhs => rw [← List.map_id l]
  exact List.map_congr_left fun x _ => dual_dual hG x

theorem legsOK_dual {l : List (BLeg S)} (h : LegsOK l) : LegsOK (l.map (BLeg.dual dual)) := by
  intro x hx
  obtain ⟨y, hy, rfl⟩ := List.mem_map.1 hx
  simpa [BLeg.dual] using h y hy

theorem multsOf_dual (l : List (BLeg S)) : multsOf (l.map (BLeg.dual dual)) = multsOf l := by
  simp [multsOf, BLeg.dual, Function.comp_def]

/-- **C56**: `partial_compose(a, b, first)` with legs in the codomain of `a`: the domain of `b` is
contracted with the legs `first, …` of the codomain of `a`, and the codomain of `b` takes their place.
The result is a consistent symmetric tensor. -/
theorem C56_partial_compose_codomain (hG : GroupRule R dual) (a b t : STensor S K) (ha : a.Valid R)
    (hb : b.Valid R) (first : ℕ) (hf : first < a.cod.length)
    (h : partialComposePy R dual a b first = some t) :
    t.cod = a.cod.take first ++ b.cod ++ a.cod.drop (first + b.dom.length) ∧ t.dom = a.dom ∧
      IsHom R t.cod t.dom t.data ∧
      ∀ x1 ∈ basis (multsOf (a.cod.take first)), ∀ y ∈ basis (multsOf b.cod),
        ∀ x2 ∈ basis (multsOf (a.cod.drop (first + b.dom.length))), ∀ z ∈ basis (multsOf a.dom),
        entry t.data (x1.1 ++ y.1 ++ x2.1, x1.2 ++ y.2 ++ x2.2) z =
          ((basis (multsOf b.dom)).map fun w =>
            entry a.data (x1.1 ++ w.1 ++ x2.1, x1.2 ++ w.2 ++ x2.2) z * entry b.data y w).sum := by
  unfold partialComposePy at h
  rw [if_pos hf] at h
  simp only at h
  by_cases h1 : ¬ 0 < b.dom.length ∨ ¬ first + b.dom.length - 1 < a.cod.length ∨
      ¬ b.dom.length < a.cod.length
  · rw [if_pos h1] at h; cases h
  rw [if_neg h1] at h
  by_cases h2 : (a.cod.drop first).take b.dom.length ≠ b.dom
  · rw [if_pos h2] at h; cases h
  rw [if_neg h2] at h
  push Not at h1 h2
  obtain ⟨hpos, hlast, hlt⟩ := h1
  obtain ⟨d, hd, rfl⟩ := Option.map_eq_some_iff.1 h
  refine ⟨rfl, rfl, ?_⟩
  simp only
  -- the segments of the legs of `a`
  set u := a.cod.take first with hu
  set x := a.cod.drop (first + b.dom.length) with hx
  have hcod : a.cod = u ++ b.dom ++ x := by
    rw [← h2, hu, hx, List.append_assoc, ← List.drop_drop, List.take_append_drop, List.take_append_drop]
  set v := x ++ (a.dom.map (BLeg.dual dual)).reverse with hv
  have lu : u.length = first := by rw [hu, List.length_take]; omega
  have lcod : a.cod.length = u.length + b.dom.length + x.length := by
    rw [hcod]; simp; omega
  have lv : v.length = x.length + a.dom.length := by simp [hv]
  have hall : allLegs dual a.cod a.dom = u ++ b.dom ++ v := by
    unfold allLegs
    rw [hcod, hv, List.append_assoc _ x]
  -- the contracted legs as legs of the codomain of `b`
  set c := (b.dom.map (BLeg.dual dual)).reverse with hc
  have lc : c.length = b.dom.length := by simp [hc]
  have hcd : (c.map (BLeg.dual dual)).reverse = b.dom := by
    rw [hc, ← List.map_reverse, List.reverse_reverse, dual_map_dual hG]
  set D := (b.cod.map (BLeg.dual dual)).reverse with hD
  have lD : D.length = b.cod.length := by simp [hD]
  have hDd : (D.map (BLeg.dual dual)).reverse = b.cod := by
    rw [hD, ← List.map_reverse, List.reverse_reverse, dual_map_dual hG]
  have hA : LegData (u ++ (c.map (BLeg.dual dual)).reverse ++ v) a.data := by
    rw [hcd, ← hall]; exact (isHom_iff_legData hG _ _ _).1 ha.hom
  have hB0 : LegData ([] ++ b.cod ++ c) b.data := (isHom_iff_legData hG _ _ _).1 hb.hom
  have hB : LegData (c ++ (D.map (BLeg.dual dual)).reverse)
      (permuteData b.data (segPerm 0 b.cod.length c.length)) := by
    rw [hDd]
    have := hB0.segPerm
    simpa using this
  have hbdom : LegsOK b.dom := fun l hl => hb.legs l (by simp [coDomainLegs, hl])
  have hok : LegsOK c := by
    intro l hl
    rw [hc, List.mem_reverse] at hl
    exact legsOK_dual hbdom l hl
  -- the worker
  have hpc : partialCompose R dual a.cod a.dom b.cod b.dom a.data b.data first =
      (composeWorker R (u ++ v) c D (permuteData a.data (segPerm u.length c.length v.length))
        (permuteData b.data (segPerm 0 b.cod.length c.length))).map fun res =>
          permuteData res (segPerm u.length v.length D.length) := by
    have e1 : a.cod.length + a.dom.length - b.dom.length = u.length + v.length := by omega
    have e2 : List.range first ++ List.range' (first + b.dom.length)
        (a.cod.length + a.dom.length - (first + b.dom.length)) ++ List.range' first b.dom.length =
        segPerm u.length b.dom.length v.length := by
      unfold segPerm
      rw [lu]
      congr 3
      omega
    have e3 : List.range' b.cod.length b.dom.length ++ List.range b.cod.length =
        segPerm 0 b.cod.length c.length := by
      unfold segPerm
      simp [lc, List.range_eq_range']
    have e4 : List.range first ++ List.range' (a.cod.length + a.dom.length - b.dom.length) b.cod.length ++
        List.range' first (a.cod.length + a.dom.length - b.dom.length - first) =
        segPerm u.length v.length D.length := by
      unfold segPerm
      rw [lu, lD]
      congr 3
      · omega
      · omega
    unfold partialCompose
    simp only [hf, decide_true, if_true]
    rw [e2, e4, e1]
    rw [map_asCodomainLeg_take a.cod a.dom u b.dom v hall]
    have e5 : ((List.range' b.cod.length b.dom.length ++ List.range b.cod.length).drop b.dom.length).map
        (asDomainLeg dual b.cod b.dom) = b.cod.map (BLeg.dual dual) := by
      rw [List.drop_left' (by simp)]
      refine List.ext_getElem (by simp) fun i g1 g2 => ?_
      simp only [List.length_map] at g2
      simp only [List.getElem_map, List.getElem_range]
      unfold asDomainLeg coDomainLegs
      simp only
      rw [if_pos g2, List.getD_append _ _ _ _ g2, List.getD_eq_getElem?_getD,
        List.getElem?_eq_getElem g2]
      rfl
    have e6 : ((List.range' b.cod.length b.dom.length ++ List.range b.cod.length).take b.dom.length).map
        (fun n => (coDomainLegs b.cod b.dom).getD n ⟨[], []⟩) = b.dom.reverse := by
      rw [List.take_left' (by simp)]
      have := map_getD_range' b.cod b.dom.reverse [] (⟨[], []⟩ : BLeg S)
      rw [List.append_nil, List.length_reverse] at this
      exact this
    rw [e5, e6, e3, lc]
    rw [composeWorker_congr R (u ++ v) b.dom.reverse c]
    rw [hc, ← List.map_reverse, List.map_map]
    refine List.map_congr_left fun l _ => ?_
    simp [BLeg.dual]
  rw [hpc] at hd
  obtain ⟨T, hT, rfl⟩ := Option.map_eq_some_iff.1 hd
  have main := segment_contraction hG u v c D a.data _ T hok
    (by intro hh; rw [hh] at lc; simp at lc; omega)
    (by intro hh
        have := congrArg List.length hh
        rw [List.length_append, List.length_nil] at this
        omega) hA hB hT
  rw [hDd] at main
  constructor
  · rw [isHom_iff_legData hG]
    have e : allLegs dual (u ++ b.cod ++ x) a.dom = u ++ b.cod ++ v := by
      unfold allLegs; rw [hv, List.append_assoc _ x]
    rw [e]; exact main.1
  · intro x1 hx1 y hy x2 hx2 z hz
    obtain ⟨-, -, i1⟩ := mem_basis hx1
    obtain ⟨y1, y2, iy⟩ := mem_basis hy
    obtain ⟨-, -, i2⟩ := mem_basis hx2
    obtain ⟨-, -, iz⟩ := mem_basis hz
    have iv : IsIndex (multsOf v) (x2.1 ++ z.1.reverse) (x2.2 ++ z.2.reverse) := by
      have := isIndex_append i2 (isIndex_reverse iz)
      rw [hv, multsOf, List.map_append, List.map_reverse]
      have e := multsOf_dual (dual := dual) a.dom
      unfold multsOf at e this
      rw [e]; exact this
    have iy' : IsIndex (multsOf D).reverse y.1 y.2 := by
      rw [hD]
      have e := multsOf_dual (dual := dual) b.cod
      unfold multsOf at e iy ⊢
      rw [List.map_reverse, e, List.reverse_reverse]; exact iy
    have hm := main.2 x1.1 x1.2 y.1 y.2 _ _ i1 iy' iv
    unfold entry
    have r1 : x1.1 ++ y.1 ++ x2.1 ++ z.1.reverse = x1.1 ++ y.1 ++ (x2.1 ++ z.1.reverse) := by simp
    have r2 : x1.2 ++ y.2 ++ x2.2 ++ z.2.reverse = x1.2 ++ y.2 ++ (x2.2 ++ z.2.reverse) := by simp
    simp only
    rw [r1, r2, hm]
    have e : multsOf c = (multsOf b.dom).reverse := by
      rw [hc, multsOf, List.map_reverse]
      have e := multsOf_dual (dual := dual) b.dom
      unfold multsOf at e ⊢
      rw [e]
    rw [e, sum_perm (basis_reverse_perm (multsOf b.dom)), List.map_map]
    refine sum_congr _ fun w hw => ?_
    obtain ⟨w1, w2, -⟩ := mem_basis hw
    simp only [Function.comp, List.reverse_reverse]
    congr 1
    · congr 1 <;> simp
    · have hd2 := dense_segPerm hB0 [] y.1 w.1.reverse [] y.2 w.2.reverse rfl (by rw [y1]; simp [multsOf])
        (by rw [lc, List.length_reverse, w1]; simp [multsOf]) rfl (by rw [y2]; simp [multsOf])
        (by rw [lc, List.length_reverse, w2]; simp [multsOf])
      simpa using hd2

/-- **C56**: `partial_compose(a, b, first)` with legs in the domain of `a`: the codomain of `b` is
contracted with the legs `first, …` of `a`, which are the factors `d, …` of its domain, and the domain
of `b` takes their place.  The result is a consistent symmetric tensor. -/
theorem C56_partial_compose_domain (hG : GroupRule R dual) (a b t : STensor S K) (ha : a.Valid R)
    (hb : b.Valid R) (first : ℕ) (hf : ¬ first < a.cod.length)
    (h : partialComposePy R dual a b first = some t) (d : ℕ)
    (hdd : d + b.cod.length + first = a.numLegs) :
    t.cod = a.cod ∧ t.dom = a.dom.take d ++ b.dom ++ a.dom.drop (d + b.cod.length) ∧
      IsHom R t.cod t.dom t.data ∧
      ∀ x ∈ basis (multsOf a.cod), ∀ z1 ∈ basis (multsOf (a.dom.take d)), ∀ y ∈ basis (multsOf b.dom),
        ∀ z2 ∈ basis (multsOf (a.dom.drop (d + b.cod.length))),
        entry t.data x (z1.1 ++ y.1 ++ z2.1, z1.2 ++ y.2 ++ z2.2) =
          ((basis (multsOf b.cod)).map fun w =>
            entry a.data x (z1.1 ++ w.1 ++ z2.1, z1.2 ++ w.2 ++ z2.2) * entry b.data w y).sum := by
  unfold partialComposePy at h
  rw [if_neg hf] at h
  simp only at h
  by_cases h1 : ¬ 0 < b.cod.length ∨ ¬ first + b.cod.length - 1 < a.numLegs ∨
      ¬ b.cod.length < a.dom.length
  · rw [if_pos h1] at h; cases h
  rw [if_neg h1] at h
  push Not at h1
  obtain ⟨hpos, hlast, hlt⟩ := h1
  have hd' : a.numLegs - 1 - (first + b.cod.length - 1) = d := by omega
  rw [hd'] at h
  by_cases h2 : (a.dom.drop d).take b.cod.length ≠ b.cod
  · rw [if_pos h2] at h; cases h
  rw [if_neg h2] at h
  push Not at h2
  obtain ⟨dat, hd, rfl⟩ := Option.map_eq_some_iff.1 h
  refine ⟨rfl, rfl, ?_⟩
  simp only
  have ln : a.numLegs = a.cod.length + a.dom.length := rfl
  set z1' := a.dom.take d with hz1
  set z2' := a.dom.drop (d + b.cod.length) with hz2
  have hdom : a.dom = z1' ++ b.cod ++ z2' := by
    rw [← h2, hz1, hz2, List.append_assoc, ← List.drop_drop, List.take_append_drop,
      List.take_append_drop]
  have ldom : a.dom.length = z1'.length + b.cod.length + z2'.length := by
    rw [hdom]; simp; omega
  have lz1 : z1'.length = d := by rw [hz1, List.length_take]; omega
  set u := a.cod ++ (z2'.map (BLeg.dual dual)).reverse with hu
  set v := (z1'.map (BLeg.dual dual)).reverse with hv
  have lu : u.length = a.cod.length + z2'.length := by simp [hu]
  have lu' : u.length = first := by omega
  have lv : v.length = d := by simp [hv, lz1]
  have hall : allLegs dual a.cod a.dom = u ++ (b.cod.map (BLeg.dual dual)).reverse ++ v := by
    unfold allLegs
    rw [hdom, hu, hv]
    simp
  have hA : LegData (u ++ (b.cod.map (BLeg.dual dual)).reverse ++ v) a.data := by
    rw [← hall]; exact (isHom_iff_legData hG _ _ _).1 ha.hom
  have hB : LegData (b.cod ++ (b.dom.map (BLeg.dual dual)).reverse) b.data :=
    (isHom_iff_legData hG _ _ _).1 hb.hom
  have hok : LegsOK b.cod := fun l hl => hb.legs l (by simp [coDomainLegs, hl])
  have lw : (b.cod.map (BLeg.dual dual)).reverse.length = b.cod.length := by simp
  have hpc : partialCompose R dual a.cod a.dom b.cod b.dom a.data b.data first =
      (composeWorker R (u ++ v) b.cod b.dom (permuteData a.data (segPerm u.length b.cod.length v.length))
        b.data).map fun res => permuteData res (segPerm u.length v.length b.dom.length) := by
    have e1 : a.cod.length + a.dom.length - b.cod.length = u.length + v.length := by omega
    have e2 : List.range first ++ List.range' (first + b.cod.length)
        (a.cod.length + a.dom.length - (first + b.cod.length)) ++ List.range' first b.cod.length =
        segPerm u.length b.cod.length v.length := by
      unfold segPerm
      rw [lu']
      congr 3
      omega
    have e4 : List.range first ++ List.range' (a.cod.length + a.dom.length - b.cod.length) b.dom.length ++
        List.range' first (a.cod.length + a.dom.length - b.cod.length - first) =
        segPerm u.length v.length b.dom.length := by
      unfold segPerm
      rw [lu']
      congr 3
      · omega
      · omega
    unfold partialCompose
    simp only [hf, decide_false, Bool.false_eq_true, if_false]
    rw [e2, e4, e1]
    have hm := map_asCodomainLeg_take a.cod a.dom u _ v hall
    rw [lw] at hm
    rw [hm]
    have e7 : List.range (b.cod.length + b.dom.length) =
        List.range b.cod.length ++ List.range' b.cod.length b.dom.length := by
      rw [List.range_add, ← List.range'_eq_map_range]
    have e5 : (((List.range (b.cod.length + b.dom.length)).drop b.cod.length).map
        (asDomainLeg dual b.cod b.dom)).reverse = b.dom := by
      rw [e7, List.drop_left' (by simp)]
      have : ∀ n ∈ List.range' b.cod.length b.dom.length, asDomainLeg dual b.cod b.dom n =
          (b.cod ++ b.dom.reverse ++ []).getD n ⟨[], []⟩ := by
        intro n hn
        rw [List.mem_range'_1] at hn
        unfold asDomainLeg coDomainLegs
        simp only [List.append_nil]
        rw [if_neg (by omega)]
      rw [List.map_congr_left this]
      have := map_getD_range' b.cod b.dom.reverse [] (⟨[], []⟩ : BLeg S)
      rw [List.length_reverse] at this
      rw [this, List.reverse_reverse]
    have e6 : ((List.range (b.cod.length + b.dom.length)).take b.cod.length).map
        (fun n => (coDomainLegs b.cod b.dom).getD n ⟨[], []⟩) = b.cod := by
      rw [e7, List.take_left' (by simp)]
      exact map_getD_range b.cod _ _
    rw [e5, e6]
  rw [hpc] at hd
  obtain ⟨T, hT, rfl⟩ := Option.map_eq_some_iff.1 hd
  have main := segment_contraction hG u v b.cod b.dom a.data b.data T hok
    (by intro hh; rw [hh] at hpos; simp at hpos)
    (by intro hh
        have := congrArg List.length hh
        rw [List.length_append, List.length_nil] at this
        omega) hA hB hT
  constructor
  · rw [isHom_iff_legData hG]
    have e : allLegs dual a.cod (z1' ++ b.dom ++ z2') = u ++ (b.dom.map (BLeg.dual dual)).reverse ++ v := by
      unfold allLegs; rw [hu, hv]; simp
    rw [e]; exact main.1
  · intro x hx z1 hz1 y hy z2 hz2
    obtain ⟨-, -, ix⟩ := mem_basis hx
    obtain ⟨-, -, i1⟩ := mem_basis hz1
    obtain ⟨-, -, iy⟩ := mem_basis hy
    obtain ⟨-, -, i2⟩ := mem_basis hz2
    have iu : IsIndex (multsOf u) (x.1 ++ z2.1.reverse) (x.2 ++ z2.2.reverse) := by
      have := isIndex_append ix (isIndex_reverse i2)
      rw [hu, multsOf, List.map_append, List.map_reverse]
      have e := multsOf_dual (dual := dual) z2'
      unfold multsOf at e this
      rw [e]; exact this
    have iv : IsIndex (multsOf v) z1.1.reverse z1.2.reverse := by
      have := isIndex_reverse i1
      rw [hv, multsOf, List.map_reverse]
      have e := multsOf_dual (dual := dual) z1'
      unfold multsOf at e this
      rw [e]; exact this
    have hm := main.2 _ _ y.1.reverse y.2.reverse _ _ iu (isIndex_reverse iy) iv
    unfold entry
    have r : ∀ x y z1 z2 : List ℕ, x ++ (z1 ++ y ++ z2).reverse =
        x ++ z2.reverse ++ y.reverse ++ z1.reverse := by intro x y z1 z2; simp
    simp only
    rw [r, r, hm]
    refine sum_congr _ fun w _ => ?_
    simp only [r]

end

/-! ## A concrete case -/

/-- The hypotheses of the theorems on `partial_compose` are met: a matrix is applied to leg 1 of the
codomain, and to leg 2, the second factor of the domain. -/
theorem C56_partial_nonvacuous : ∃ t t' : STensor (Fin 2) ℤ,
    partialComposePy z2Rule (fun a => -a) tdotExample ⟨[z2Leg], [z2Leg], Example.T 1⟩ 1 = some t ∧
    partialComposePy z2Rule (fun a => -a) tdotExample ⟨[z2Leg], [z2Leg], Example.T 1⟩ 2 = some t' ∧
    entry t.data ([1, 1], [0, 1]) ([1, 1], [0, 0]) =
      entry tdotExample.data ([1, 1], [0, 0]) ([1, 1], [0, 0]) * entry (Example.T 1) ([1], [1]) ([1], [0]) +
      entry tdotExample.data ([1, 1], [0, 1]) ([1, 1], [0, 0]) * entry (Example.T 1) ([1], [1]) ([1], [1]) ∧
    entry t.data ([1, 1], [0, 1]) ([1, 1], [0, 0]) ≠ 0 ∧
    entry t'.data ([1, 1], [0, 1]) ([1, 1], [0, 1]) =
      entry tdotExample.data ([1, 1], [0, 1]) ([1, 1], [0, 0]) * entry (Example.T 1) ([1], [0]) ([1], [1]) +
      entry tdotExample.data ([1, 1], [0, 1]) ([1, 1], [0, 1]) * entry (Example.T 1) ([1], [1]) ([1], [1]) := by
  refine ⟨_, _, rfl, rfl, ?_, ?_, ?_⟩ <;> decide +kernel

end Cyten.Props
