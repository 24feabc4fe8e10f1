import Verif.Props.Charged

/-!
# C84: norm, comparison and inner products of charged tensors
-/

namespace Cyten.Props
open Cyten.Abelian Cyten.Abelian.Spec Cyten.Tables Cyten.Tools Cyten.ListSum Cyten.Spaces
open Cyten.FusionTrees

variable {S : Type} [LinearOrder S] {sym : Sym S} {R : Cyten.FusionRule S}

/-! ## Norm -/

/-- **C84**: the norm is the 2-norm of the dense tensor; it raises without a state. -/
theorem C84_norm (t : Charged S) (h : Charged.Valid sym R t) :
    (t.state = none → t.norm sym = none) ∧
    ∀ D, t.toDense sym = some D → t.norm sym =
      some (Real.sqrt ((indices sym t.legs).map fun idx => ‖D.val idx‖ ^ 2).sum) := by
  refine ⟨fun hs => by unfold Charged.norm; rw [hs]; rfl, fun D hD => ?_⟩
  obtain ⟨s, hs⟩ := toDense_state hD
  obtain ⟨D', hD', hsh, -⟩ := (C84_to_dense t h).2 s hs
  rw [hD] at hD'
  obtain rfl := Option.some.inj hD'
  have hDe : D = Charged.contractLast (Abelian.toDense sym t.invLegs t.data) s := by
    unfold Charged.toDense at hD
    rw [hs] at hD
    exact (Option.some.inj hD).symm
  unfold Charged.norm
  rw [hs, Option.map_some]
  congr 1
  by_cases h1 : t.charge.dim sym = 1
  · rw [if_pos h1]
    obtain ⟨b, o, hp, hv⟩ := dense_one h hs hD h1
    have hok := Charged.denseOK h
    have hsane := Charged.sane h
    rw [Charged.invLegs_eq, legMults_append] at hsane
    rw [C34_norm _ _ hsane,
      sum_basis_append (legMults t.legs) (legMults [t.charge]) fun r p => ‖dense t.data r p‖ ^ 2]
    have e : ((indices sym t.legs).map fun idx => ‖D.val idx‖ ^ 2).sum =
        ‖s.getD 0 0‖ ^ 2 * ((basis (legMults t.legs)).map fun x =>
          ((basis (legMults [t.charge])).map fun y => ‖dense t.data (x.1 ++ y.1) (x.2 ++ y.2)‖ ^ 2).sum).sum := by
      rw [mul_sum]
      refine sum_public (denseOK_left hok) _ (fun r p => ‖s.getD 0 0‖ ^ 2 * ((basis (legMults [t.charge])).map
        fun y => ‖dense t.data (r ++ y.1) (p ++ y.2)‖ ^ 2).sum) fun idx row pos hl _ => ?_
      rw [hv idx row pos hl]
      have := sum_public_one (denseOK_right hok) (fun n => ‖dense t.data (row ++ [b]) (pos ++ [o])‖ ^ 2)
        (fun y => ‖dense t.data (row ++ y.1) (pos ++ y.2)‖ ^ 2) (by
          intro n b' o' hp'
          have hn : n = 0 := by
            have := isPosition_lt hok.dims (hok.valid t.charge (by simp)) hp'
            omega
          subst hn
          obtain ⟨rfl, rfl⟩ := position_unique (denseOK_right hok) hp hp'
          rfl)
      rw [h1] at this
      rw [show legMults [t.charge] = [t.charge.mults] from rfl, ← this, norm_mul, mul_pow]
      simp [mul_comm]
    rw [e, Real.sqrt_mul (sq_nonneg _), Real.sqrt_sq (norm_nonneg _)]
  · rw [if_neg h1, ← hDe]
    unfold Blk.norm indices
    rw [hsh]

/-! ## Comparison -/

theorem located_inShape {legs : List (ESpace S)} (h : DenseOK sym legs) : ∀ {i r p : List ℕ},
    Located sym legs i r p → InShape i (legs.map (ESpace.dim sym)) := by
  intro i r p hl
  obtain ⟨hd, h1, hc, hv⟩ := h
  induction legs generalizing i r p with
  | nil => cases i <;> cases r <;> cases p <;> simp [Located] at hl; exact .nil
  | cons e es ih =>
    cases i <;> cases r <;> cases p <;> simp only [Located] at hl
    exact .cons (isPosition_lt hd (hv e List.mem_cons_self) hl.1)
      (ih hl.2 fun x hx => hv x (List.mem_cons_of_mem _ hx))

theorem almostEqual_mul {M : List (List ℕ)} {x y : ℂ} {v w : Ents ℂ} (hv : Sane M v) (hw : Sane M w)
    (rtol atol : ℝ) (ha : 0 ≤ atol) (hr : 0 ≤ rtol) :
    (Abelian.almostEqual (Abelian.mul x v) (Abelian.mul y w) rtol atol →
      ∀ row pos, IsIndex M row pos →
        ‖x * dense v row pos - y * dense w row pos‖ ≤ atol + rtol * ‖y * dense w row pos‖) ∧
    ((∀ row pos, IsIndex M row pos → ‖x * dense v row pos - y * dense w row pos‖ ≤ atol) →
      Abelian.almostEqual (Abelian.mul x v) (Abelian.mul y w) rtol atol) := by
  classical
  rw [C58_almost_equal_iff M _ _ rtol atol ha (by convert C41_mul M x v hv) (by convert C41_mul M y w hw)]
  have e1 : ∀ row pos, dense (Abelian.mul x v) row pos = x * dense v row pos := fun row pos => by
    convert C32_mul x v row pos
  have e2 : ∀ row pos, dense (Abelian.mul y w) row pos = y * dense w row pos := fun row pos => by
    convert C32_mul y w row pos
  simp only [← e1, ← e2]
  constructor
  · intro h row pos hi
    by_cases hm : ∃ p ∈ Abelian.mul x v, p.1 = row
    · exact (h row pos hi).1 hm
    · push Not at hm
      have h0 := (h row pos hi).2 hm
      rw [dense_of_not_mem hm, zero_sub, norm_neg]
      have := mul_nonneg hr (norm_nonneg (dense (Abelian.mul y w) row pos))
      linarith
  · intro h row pos hi
    refine ⟨fun _ => ?_, fun hm => ?_⟩
    · have := mul_nonneg hr (norm_nonneg (dense (Abelian.mul y w) row pos))
      have := h row pos hi
      linarith
    · have := h row pos hi
      rwa [dense_of_not_mem hm, zero_sub, norm_neg] at this


theorem almostEqual_some {v w : Charged S} {rtol atol : ℝ} {p : Prop}
    (h : Charged.almostEqual sym v w rtol atol = some p) {sv sw : List ℂ} (hv : v.state = some sv)
    (hw : w.state = some sw) : SameLegs sym [v.charge] [w.charge] ∧ v.charge.dim sym = 1 ∧
      p = Abelian.almostEqual (Abelian.mul (sw.getD 0 0) v.data) (Abelian.mul (sv.getD 0 0) w.data) rtol atol := by
  unfold Charged.almostEqual at h
  by_cases h2 : Leg.beqSpace sym v.charge w.charge = true
  swap
  · rw [if_pos (by simpa using h2)] at h; cases h
  rw [if_neg (by simpa using h2), hv, hw] at h
  dsimp only at h
  by_cases h3 : v.charge.dim sym = 1
  swap
  · rw [if_pos h3] at h; cases h
  rw [if_neg (by simpa using h3)] at h
  exact ⟨.cons h2 .nil, h3, (Option.some.inj h).symm⟩

/-- **C84** (partial: equal states only, see `C84_almost_equal_false`): `almost_equal` is true if the dense
tensors differ by at most `atol`, and only if they differ by at most `atol + rtol |b|`. -/
theorem C84_almost_equal_partial (v w : Charged S) (hv : Charged.Valid sym R v) (hw : Charged.Valid sym R w)
    (l1 : SameLegs sym v.cod w.cod) (l2 : SameLegs sym v.dom w.dom)
    (rtol atol : ℝ) (ha : 0 ≤ atol) (hr : 0 ≤ rtol) (hst : v.state = w.state) (DV DW : Blk ℂ)
    (hDV : v.toDense sym = some DV) (hDW : w.toDense sym = some DW) (p : Prop)
    (h : Charged.almostEqual sym v w rtol atol = some p) :
    (p → ∀ idx ∈ indices sym v.legs, ‖DV.val idx - DW.val idx‖ ≤ atol + rtol * ‖DW.val idx‖) ∧
    ((∀ idx ∈ indices sym v.legs, ‖DV.val idx - DW.val idx‖ ≤ atol) → p) := by
  obtain ⟨s, h1⟩ := toDense_state hDV
  have h2 : w.state = some s := by rw [← hst, h1]
  obtain ⟨l3, h3, rfl⟩ := almostEqual_some h h1 h2
  have hwc : SameLegs sym v.legs w.legs := SameLegs.append l1 (SameLegs.reverse l2)
  have hok := Charged.denseOK hv
  have hdw : w.charge.dim sym = 1 := by
    have e := (beqSpace_iff sym _ _).1 (List.forall₂_cons.1 l3).1
    have d1 := dim_eq hv.legs.dims hv.legs.one (hv.legs.valid v.charge (by simp))
    have d2 := dim_eq hw.legs.dims hw.legs.one (hw.legs.valid w.charge (by simp))
    rw [d2, ← e.2.1, ← d1, h3]
  obtain ⟨b1, o1, p1, e1⟩ := dense_one hv h1 hDV h3
  obtain ⟨b2, o2, p2, e2⟩ := dense_one hw h2 hDW hdw
  have q2 := (located_congr (i := [0]) (r := [b2]) (p := [o2]) (SameLegs.symm l3) ⟨p2, trivial⟩).1
  obtain ⟨rfl, rfl⟩ := position_unique (denseOK_right hok) p1 q2
  have hsv := Charged.sane hv
  have hsw : Sane (legMults v.invLegs) w.data := by
    rw [Charged.invLegs_eq, SameLegs.legMults (SameLegs.append hwc l3), ← Charged.invLegs_eq]
    exact Charged.sane hw
  obtain ⟨k1, k2⟩ := almostEqual_mul (x := s.getD 0 0) (y := s.getD 0 0) hsv hsw rtol atol ha hr
  have hbij := C35_index_bijection sym v.invLegs hv.legs
  constructor
  · intro hp idx hi
    obtain ⟨row, pos, hl, hx⟩ := (C35_index_bijection sym v.legs (denseOK_left hok)).1 idx ((mem_gridC _ _).1 hi)
    obtain ⟨j1, j2, j3⟩ := located_length hl
    have hl' : Located sym v.invLegs (idx ++ [0]) (row ++ [b1]) (pos ++ [o1]) := by
      rw [Charged.invLegs_eq]
      exact (located_append_iff j1 j2 j3).2 ⟨hl, p1, trivial⟩
    have hin : InShape (idx ++ [0]) (v.invLegs.map (ESpace.dim sym)) := by
      rw [Charged.invLegs_eq, List.map_append, List.map_cons, h3]
      exact List.rel_append ((mem_gridC _ _).1 hi) (.cons Nat.one_pos .nil)
    obtain ⟨row', pos', hl'', hx'⟩ := hbij.1 _ hin
    obtain ⟨rfl, rfl⟩ := hbij.2.2.1 _ _ _ _ _ hl' hl''
    rw [e1 idx row pos hl, e2 idx row pos (located_congr hwc hl), mul_comm _ (s.getD 0 0), mul_comm _ (s.getD 0 0)]
    exact k1 hp _ _ hx'
  · intro hp
    refine k2 fun row' pos' hx => ?_
    obtain ⟨idx', hl, hin⟩ := hbij.2.1 row' pos' hx
    rw [Charged.invLegs_eq, List.map_append, List.map_cons, h3] at hin
    obtain ⟨g1, g2, g3⟩ := located_length hl
    rw [Charged.invLegs_eq, List.length_append, List.length_singleton] at g1 g2 g3
    obtain ⟨idx, n, rfl⟩ : ∃ i n, idx' = i ++ [n] := ⟨_, _, (List.dropLast_append_getLast
      (List.ne_nil_of_length_eq_add_one g1)).symm⟩
    obtain ⟨row, b, rfl⟩ : ∃ i n, row' = i ++ [n] := ⟨_, _, (List.dropLast_append_getLast
      (List.ne_nil_of_length_eq_add_one g2)).symm⟩
    obtain ⟨pos, o, rfl⟩ : ∃ i n, pos' = i ++ [n] := ⟨_, _, (List.dropLast_append_getLast
      (List.ne_nil_of_length_eq_add_one g3)).symm⟩
    have j1 : idx.length = v.legs.length := by simpa using g1
    have j2 : row.length = v.legs.length := by simpa using g2
    have j3 : pos.length = v.legs.length := by simpa using g3
    rw [Charged.invLegs_eq, located_append_iff j1 j2 j3] at hl
    have hn : n = 0 := by
      have := isPosition_lt hok.dims (hok.valid v.charge (by simp)) hl.2.1
      omega
    subst hn
    obtain ⟨rfl, rfl⟩ := position_unique (denseOK_right hok) p1 hl.2.1
    have := hp idx ((mem_gridC _ _).2 (located_inShape (denseOK_left hok) hl.1))
    rw [e1 idx row pos hl.1, e2 idx row pos (located_congr hwc hl.1), mul_comm _ (s.getD 0 0),
      mul_comm _ (s.getD 0 0)] at this
    exact this

end Cyten.Props
