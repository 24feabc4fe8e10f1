import Verif.Props.Charged3
import Verif.Lemmas.AbelianExample
import Mathlib.Tactic.NormNum

/-!
# C84: conversion from dense arrays, concrete charged tensors, and claims that are false of the code
-/

namespace Cyten.Props
open Cyten.Abelian Cyten.Abelian.Spec Cyten.Tables Cyten.Tools Cyten.ListSum Cyten.Spaces
open Cyten.FusionTrees

section
variable {S : Type} [LinearOrder S] {sym : Sym S} {R : Cyten.FusionRule S}

/-- **C84**: `ChargedTensor.from_dense_block` (one-dimensional charge leg): the result is consistent and its dense
tensor has the entries of the array that are allowed by the charge rule (with the charge leg), and zeros else. -/
theorem C84_from_dense (cod dom : List (ESpace S)) (charge : ESpace S)
    (h : DenseOK sym (cod ++ (charge :: dom).reverse)) (a : Blk ℂ) (real : Bool) (tol : ℝ) (t : Charged S)
    (ht : Charged.fromDense sym R cod dom charge a real tol = some t) :
    charge.dim sym = 1 ∧ t.cod = cod ∧ t.dom = dom ∧ t.charge = charge ∧ Charged.Valid sym R t ∧
    ∃ D, t.toDense sym = some D ∧ ∀ idx ∈ indices sym (cod ++ dom.reverse),
      (Allowed sym R cod (charge :: dom) (idx ++ [0]) → D.val idx = a.val idx) ∧
      (¬ Allowed sym R cod (charge :: dom) (idx ++ [0]) → D.val idx = 0) := by
  unfold Charged.fromDense at ht
  by_cases h1 : charge.dim sym = 1
  swap
  · rw [if_pos h1] at ht; cases ht
  rw [if_neg (by simpa using h1)] at ht
  obtain ⟨data, hdata, rfl⟩ := Option.map_eq_some_iff.1 ht
  obtain ⟨c1, c2, -⟩ := C35_from_dense sym R cod (charge :: dom) h _ tol data hdata
  have hcast : Charged.castState real [1] = [1] :=
    castState_eq _ _ fun _ z hz => by rw [List.mem_singleton.1 hz]; rfl
  have e : Charged.make cod dom charge data real (some [1]) = ⟨cod, dom, charge, data, real, some [1]⟩ := by
    unfold Charged.make
    rw [Option.map_some, hcast]
  rw [e]
  have hv : Charged.Valid sym R ⟨cod, dom, charge, data, real, some [1]⟩ := by
    refine ⟨h, ⟨?_, c2⟩, fun s hs => ?_, fun _ s hs z hz => ?_⟩
    · rw [multsOf_toBLeg, multsOf_toBLeg]
      rw [legMults_append] at c1
      simpa [legMults] using c1
    · obtain rfl := Option.some.inj hs
      exact h1.symm
    · obtain rfl := Option.some.inj hs
      rw [List.mem_singleton.1 hz]; rfl
  refine ⟨h1, rfl, rfl, rfl, hv, ?_⟩
  obtain ⟨D, hD, -, hval⟩ := (C84_to_dense _ hv).2 _ rfl
  refine ⟨D, hD, fun idx hi => ?_⟩
  have hin : InShape (idx ++ [0]) ((cod ++ (charge :: dom).reverse).map (ESpace.dim sym)) := by
    rw [List.reverse_cons, ← List.append_assoc, List.map_append, List.map_cons, h1]
    exact List.rel_append ((mem_gridC _ _).1 hi) (.cons Nat.one_pos .nil)
  have hrt := C35_round_trip_dense sym R cod (charge :: dom) h _ tol data hdata (idx ++ [0]) hin
  have hDv : D.val idx = (Abelian.toDense sym (cod ++ (charge :: dom).reverse) data).val (idx ++ [0]) := by
    rw [hval idx]
    show ((List.range (charge.dim sym)).map _).sum = _
    rw [h1, List.range_one, List.map_cons, List.map_nil, List.sum_cons, List.sum_nil, add_zero]
    rw [show cod ++ (charge :: dom).reverse = cod ++ dom.reverse ++ [charge] by simp]
    exact mul_one _
  rw [hDv]
  refine ⟨fun hA => ?_, hrt.2⟩
  rw [hrt.1 hA]
  simp

end

/-! ## Concrete charged tensors -/

/-- the charge leg: one state of charge one -/
def oneLeg : ESpace ℤ := ⟨[1], [1], false, none⟩

/-- An operator that raises the charge by one: two basis vectors of charge one, one of charge zero. -/
noncomputable def raising (x : ℂ) (real : Bool) (state : List ℂ) : Charged ℤ :=
  ⟨[denseLeg], [denseLeg], oneLeg, [([1, 0, 0], ⟨[2, 1, 1], fun i => if i.getD 0 0 = 0 then x else 0⟩)], real,
    some state⟩

theorem oneLeg_dim : oneLeg.dim exU1 = 1 := by decide

theorem raising_valid (x : ℂ) (real : Bool) (z : ℂ) (h : real = true → z.im = 0) :
    Charged.Valid exU1 intRule (raising x real [z]) := by
  refine ⟨⟨exU1_ok, fun _ => rfl, rfl, fun e he => ?_⟩, ⟨?_, ?_⟩, fun s hs => ?_, fun hr s hs y hy => ?_⟩
  · have he' : e = denseLeg ∨ e = oneLeg ∨ e = denseLeg := by
      simpa [raising, or_comm, or_left_comm] using he
    rcases he' with rfl | rfl | rfl
    · exact denseLeg_ok.valid _ (by simp)
    · exact ⟨rfl, by decide, fun p hp => by cases hp⟩
    · exact denseLeg_ok.valid _ (by simp)
  · exact Example.sane_of_saneB (by rfl)
  · intro p hp
    rw [List.mem_singleton.1 hp]
    rfl
  · obtain rfl := Option.some.inj hs
    exact oneLeg_dim.symm
  · obtain rfl := Option.some.inj hs
    rw [List.mem_singleton.1 hy]
    exact h hr

theorem raising_pos : Located exU1 [denseLeg, denseLeg] [0, 2] [1, 0] [0, 0] :=
  ⟨⟨1, 2, rfl, rfl, by decide, by decide⟩, ⟨0, 1, rfl, rfl, by decide, by decide⟩, trivial⟩

theorem oneLeg_pos : IsPosition exU1 oneLeg 0 0 0 := ⟨1, 1, rfl, rfl, by decide, by decide⟩

theorem oneLeg_ok : DenseOK exU1 [oneLeg] :=
  ⟨exU1_ok, fun _ => rfl, rfl, fun e he => by
    rw [List.mem_singleton.1 he]
    exact ⟨rfl, by decide, fun p hp => by cases hp⟩⟩

theorem raising_mem : [0, 2] ∈ indices exU1 [denseLeg, denseLeg] := by
  unfold indices
  decide

/-- The matrix element of the raising operator. -/
theorem raising_dense (x z : ℂ) (real : Bool) (h : real = true → z.im = 0) :
    ∃ D, (raising x real [z]).toDense exU1 = some D ∧ D.val [0, 2] = x * z := by
  have hv := raising_valid x real z h
  obtain ⟨D, hD, -, -⟩ := (C84_to_dense _ hv).2 [z] rfl
  obtain ⟨b, o, hp, hval⟩ := dense_one hv rfl hD oneLeg_dim
  obtain ⟨rfl, rfl⟩ := position_unique oneLeg_ok oneLeg_pos hp
  refine ⟨D, hD, ?_⟩
  rw [hval [0, 2] [1, 0] [0, 0] raising_pos]
  show dense (raising x real [z]).data [1, 0, 0] [0, 0, 0] * z = _
  rw [hv.hom.sane.dense_of_mem (p := ([1, 0, 0], ⟨[2, 1, 1], fun i => if i.getD 0 0 = 0 then x else 0⟩))
    (List.mem_singleton.2 rfl)]
  simp

/-- **C84** (finding): multiplying a charged tensor with a real invariant part by a complex number drops the
imaginary parts: `1j * v` is zero for real `v`, since the new state is converted to the dtype of the invariant
part. -/
theorem C84_scalar_multiply_false : ∃ (v : Charged ℤ) (D D' : Blk ℂ) (idx : List ℕ),
    Charged.Valid exU1 intRule v ∧ idx ∈ indices exU1 v.legs ∧ v.toDense exU1 = some D ∧
    (Charged.scalarMultiply ⟨Complex.I, false⟩ v).toDense exU1 = some D' ∧ D.val idx = 1 ∧ D'.val idx = 0 := by
  obtain ⟨D, hD, e⟩ := raising_dense 1 1 true fun _ => rfl
  obtain ⟨D', hD', e'⟩ := raising_dense 1 0 true fun _ => rfl
  refine ⟨raising 1 true [1], D, D', [0, 2], raising_valid 1 true 1 fun _ => rfl, raising_mem, hD, ?_, ?_, ?_⟩
  · rw [← hD']
    congr 1
    unfold Charged.scalarMultiply Charged.make Charged.castState raising
    simp
  · rw [e, mul_one]
  · rw [e', mul_zero]

/-- The multiplication by a complex number is right for a complex invariant part. -/
theorem C84_scalar_multiply_nonvacuous :
    ∃ D', (Charged.scalarMultiply ⟨Complex.I, false⟩ (raising 1 false [2])).toDense exU1 = some D' ∧
      D'.val [0, 2] = Complex.I * 2 := by
  obtain ⟨D, hD, e⟩ := raising_dense 1 2 false (by simp)
  obtain ⟨-, -, h⟩ := C84_scalar_multiply ⟨Complex.I, false⟩ _ (raising_valid 1 false 2 (by simp))
  obtain ⟨-, h⟩ := h (by simp [raising])
  obtain ⟨D', hD', -, hval⟩ := h D hD
  exact ⟨D', hD', by rw [hval, e, one_mul]⟩

theorem same_raising (x y : ℂ) (r r' : Bool) (s s' : List ℂ) :
    Charged.sameSpaces exU1 (raising x r s) (raising y r' s') = true ∧
      Leg.beqSpace exU1 (raising x r s).charge (raising y r' s').charge = true := by
  constructor
  · show (sameLegs exU1 [denseLeg] [denseLeg] && sameLegs exU1 [denseLeg] [denseLeg]) = true
    decide +kernel
  · show Leg.beqSpace exU1 oneLeg oneLeg = true
    decide +kernel

/-- The hypotheses of `C84_linear_combination` are met: states with different entries are combined. -/
theorem C84_linear_combination_nonvacuous :
    ∃ t D, Charged.linearCombination exU1 ⟨3, true⟩ (raising 1 true [2]) ⟨1, true⟩ (raising 5 true [1]) = some t ∧
      t.toDense exU1 = some D ∧ D.val [0, 2] = 11 := by
  obtain ⟨DV, hDV, eV⟩ := raising_dense 1 2 true fun _ => rfl
  obtain ⟨DW, hDW, eW⟩ := raising_dense 5 1 true fun _ => rfl
  obtain ⟨-, -, h3, h4⟩ := C84_linear_combination ⟨3, true⟩ ⟨1, true⟩ _ _ (raising_valid 1 true 2 fun _ => rfl)
    (raising_valid 5 true 1 fun _ => rfl)
  cases ht : Charged.linearCombination exU1 ⟨3, true⟩ (raising 1 true [2]) ⟨1, true⟩ (raising 5 true [1]) with
  | none =>
    exfalso
    obtain ⟨s1, s2⟩ := same_raising 1 5 true true [2] [1]
    unfold Charged.sameSpaces at s1
    rw [Bool.and_eq_true, sameLegs_iff, sameLegs_iff] at s1
    rcases h4.1 ht with h | h | ⟨s, h, h' | h'⟩
    · exact h ⟨s1.1, s1.2, .cons s2 .nil⟩
    · simp [raising] at h
    · exact h' oneLeg_dim
    · obtain rfl := Option.some.inj h
      simp at h'
  | some t =>
    obtain ⟨D, hD, -, hval⟩ := h3 t DV DW ht hDV hDW
    refine ⟨t, D, rfl, hD, ?_⟩
    rw [hval _ raising_mem, eV, eW]
    norm_num

theorem raising_scale (x : ℂ) (s s' : List ℂ) (row pos : List ℕ) :
    dense (raising x false s).data row pos = x * dense (raising 1 false s').data row pos := by
  have hv := raising_valid x false 0 (by simp)
  have hw := raising_valid 1 false 0 (by simp)
  by_cases hrow : row = [1, 0, 0]
  · subst hrow
    rw [hv.hom.sane.dense_of_mem (T := (raising x false s).data)
        (p := ([1, 0, 0], ⟨[2, 1, 1], fun i => if i.getD 0 0 = 0 then x else 0⟩))
        (List.mem_singleton.2 rfl), hw.hom.sane.dense_of_mem (T := (raising 1 false s').data)
        (p := ([1, 0, 0], ⟨[2, 1, 1], fun i => if i.getD 0 0 = 0 then 1 else 0⟩)) (List.mem_singleton.2 rfl)]
    simp
  · rw [dense_of_not_mem fun p hp h' => hrow (by rw [← h', List.mem_singleton.1 hp]),
        dense_of_not_mem fun p hp h' => hrow (by rw [← h', List.mem_singleton.1 hp]), mul_zero]

theorem raising_almostEqual (x y a b : ℂ) (rtol atol : ℝ) (ha : 0 ≤ atol) (hr : 0 ≤ rtol) :
    ∃ p, Charged.almostEqual exU1 (raising x false [a]) (raising y false [b]) rtol atol = some p ∧
      (p → ‖b * x - a * y‖ ≤ atol + rtol * ‖a * y‖) ∧ (b * x = a * y → p) := by
  refine ⟨Abelian.almostEqual (Abelian.mul b (raising x false [a]).data) (Abelian.mul a (raising y false [b]).data)
      rtol atol, ?_, ?_, ?_⟩
  · unfold Charged.almostEqual
    rw [if_neg (by simp [(same_raising x y false false [a] [b]).2])]
    show (if oneLeg.dim exU1 ≠ 1 then none else _) = _
    rw [if_neg (by simp [oneLeg_dim])]
    rfl
  all_goals
    have hv := raising_valid x false a (by simp)
    have hw := raising_valid y false b (by simp)
    obtain ⟨k1, k2⟩ := almostEqual_mul (x := b) (y := a) hv.hom.sane (w := (raising y false [b]).data)
      hw.hom.sane rtol atol ha hr
    have dv : dense (raising x false [a]).data [1, 0, 0] [0, 0, 0] = x := by
      rw [hv.hom.sane.dense_of_mem (p := ([1, 0, 0], ⟨[2, 1, 1], fun i => if i.getD 0 0 = 0 then x else 0⟩))
        (List.mem_singleton.2 rfl)]
      simp
    have dw : dense (raising y false [b]).data [1, 0, 0] [0, 0, 0] = y := by
      rw [hw.hom.sane.dense_of_mem (p := ([1, 0, 0], ⟨[2, 1, 1], fun i => if i.getD 0 0 = 0 then y else 0⟩))
        (List.mem_singleton.2 rfl)]
      simp
  · intro hp
    have := k1 hp [1, 0, 0] [0, 0, 0] ((C34_basis _ _ _).1 (by
      show _ ∈ basis [[1, 2], [1, 2], [1]]
      decide))
    rwa [dv, dw] at this
  · intro he
    refine k2 fun row pos hi => ?_
    by_cases hrow : row = [1, 0, 0]
    · subst hrow
      rw [hv.hom.sane.dense_of_mem (p := ([1, 0, 0], ⟨[2, 1, 1], fun i => if i.getD 0 0 = 0 then x else 0⟩))
        (List.mem_singleton.2 rfl), hw.hom.sane.dense_of_mem
        (p := ([1, 0, 0], ⟨[2, 1, 1], fun i => if i.getD 0 0 = 0 then y else 0⟩)) (List.mem_singleton.2 rfl)]
      dsimp only
      split
      · rw [he, sub_self, norm_zero]; exact ha
      · rw [mul_zero, mul_zero, sub_self, norm_zero]; exact ha
    · rw [dense_of_not_mem fun p hp h' => hrow (by rw [← h', List.mem_singleton.1 hp]),
        dense_of_not_mem fun p hp h' => hrow (by rw [← h', List.mem_singleton.1 hp])]
      simpa using ha

/-- **C84** (finding): `almost_equal` of charged tensors multiplies the invariant parts with the states of the
*other* tensor: it is false for a pair with equal dense tensors, and true for a pair with different ones (at the
default tolerances). -/
theorem C84_almost_equal_false :
    (∃ (v w : Charged ℤ) (DV DW : Blk ℂ), Charged.Valid exU1 intRule v ∧ Charged.Valid exU1 intRule w ∧
      v.toDense exU1 = some DV ∧ w.toDense exU1 = some DW ∧
      (∀ idx ∈ indices exU1 v.legs, DV.val idx = DW.val idx) ∧
      ∃ p, Charged.almostEqual exU1 v w (1 / 100000) (1 / 100000000) = some p ∧ ¬ p) ∧
    (∃ (v w : Charged ℤ) (DV DW : Blk ℂ) (idx : List ℕ), Charged.Valid exU1 intRule v ∧
      Charged.Valid exU1 intRule w ∧ v.toDense exU1 = some DV ∧ w.toDense exU1 = some DW ∧
      idx ∈ indices exU1 v.legs ∧ DV.val idx = 1 ∧ DW.val idx = 4 ∧
      ∃ p, Charged.almostEqual exU1 v w (1 / 100000) (1 / 100000000) = some p ∧ p) := by
  constructor
  · have v1 := raising_valid 1 false 2 (by simp)
    have v2 := raising_valid 2 false 1 (by simp)
    obtain ⟨DV, hDV, -⟩ := raising_dense 1 2 false (by simp)
    obtain ⟨DW, hDW, -⟩ := raising_dense 2 1 false (by simp)
    obtain ⟨p, hp, h1, -⟩ := raising_almostEqual 1 2 2 1 (1 / 100000) (1 / 100000000) (by norm_num) (by norm_num)
    refine ⟨_, _, DV, DW, v1, v2, hDV, hDW, fun idx hi => ?_, p, hp, fun h => ?_⟩
    · obtain ⟨row, pos, hl, -⟩ := (C35_index_bijection exU1 _ (denseOK_left (Charged.denseOK v1))).1 idx
        ((mem_gridC _ _).1 hi)
      obtain ⟨b1, o1, p1, e1⟩ := dense_one v1 rfl hDV oneLeg_dim
      obtain ⟨b2, o2, p2, e2⟩ := dense_one v2 rfl hDW oneLeg_dim
      obtain ⟨rfl, rfl⟩ := position_unique oneLeg_ok p1 p2
      rw [e1 idx row pos hl, e2 idx row pos hl, raising_scale 2 _ [2]]
      show _ * 2 = _ * 1
      ring
    · have := h1 h
      norm_num at this
  · obtain ⟨DV, hDV, e1⟩ := raising_dense 1 1 false (by simp)
    obtain ⟨DW, hDW, e2⟩ := raising_dense 2 2 false (by simp)
    obtain ⟨p, hp, -, h2⟩ := raising_almostEqual 1 2 1 2 (1 / 100000) (1 / 100000000) (by norm_num) (by norm_num)
    exact ⟨_, _, DV, DW, [0, 2], raising_valid 1 false 1 (by simp), raising_valid 2 false 2 (by simp), hDV, hDW,
      raising_mem, by rw [e1]; norm_num, by rw [e2]; norm_num, p, hp, h2 (by norm_num)⟩


/-! ## Inner products -/

/-- The hypotheses of `C84_inner` are met. -/
theorem C84_inner_nonvacuous (x y z w : ℂ) :
    ∃ r, Charged.inner exU1 intRule (raising x false [z]) (raising y false [w]) = some r := by
  have s1 := (same_raising x y false false [z] [w]).1
  unfold Charged.sameSpaces at s1
  rw [Bool.and_eq_true, sameLegs_iff, sameLegs_iff] at s1
  refine C84_inner_defined intRule_group _ _ s1.1 s1.2 (Option.some_ne_none _) (Option.some_ne_none _) ?_ ?_
  · show (makeStridePy ([denseLeg, denseLeg].map fun e => (e.sectors exU1).length) false).isSome = true
    decide
  · show (makeStridePy ([denseLeg, denseLeg].reverse.map fun e => (e.sectors exU1).length) false).isSome = true
    decide

/-- one state of trivial charge -/
def zeroLeg : ESpace ℤ := ⟨[0], [1], false, none⟩

theorem zeroLeg_valid : ValidSpace exU1 zeroLeg := ⟨rfl, by decide, fun p hp => by cases hp⟩

noncomputable def vecCharged (z : ℂ) : Charged ℤ :=
  ⟨[zeroLeg], [], zeroLeg, [([0, 0], ⟨[1, 1], fun _ => 1⟩)], false, some [z]⟩

noncomputable def vecSym : GTensor ℤ ℂ := ⟨[zeroLeg], [], [([0], ⟨[1], fun _ => 1⟩)]⟩

theorem vecCharged_valid (z : ℂ) : Charged.Valid exU1 intRule (vecCharged z) := by
  refine ⟨⟨exU1_ok, fun _ => rfl, rfl, fun e he => ?_⟩, ⟨Example.sane_of_saneB (by rfl), ?_⟩, fun s hs => ?_,
    fun hr => ?_⟩
  · have : e = zeroLeg := by simpa [vecCharged] using he
    rw [this]; exact zeroLeg_valid
  · intro p hp
    rw [List.mem_singleton.1 hp]
    rfl
  · obtain rfl := Option.some.inj hs
    show 1 = zeroLeg.dim exU1
    decide
  · cases hr

theorem vecSym_valid : SymValid exU1 intRule vecSym := by
  refine ⟨⟨exU1_ok, fun _ => rfl, rfl, fun e he => ?_⟩, ⟨Example.sane_of_saneB (by rfl), ?_⟩⟩
  · have : e = zeroLeg := by simpa [vecSym] using he
    rw [this]; exact zeroLeg_valid
  · intro p hp
    rw [List.mem_singleton.1 hp]
    rfl

theorem zeroLeg_pos : IsPosition exU1 zeroLeg 0 0 0 := ⟨0, 1, rfl, rfl, by decide, by decide⟩

theorem zeroLeg_ok : DenseOK exU1 [zeroLeg] :=
  ⟨exU1_ok, fun _ => rfl, rfl, fun e he => by rw [List.mem_singleton.1 he]; exact zeroLeg_valid⟩

theorem vecCharged_dense (z : ℂ) : ∃ D, (vecCharged z).toDense exU1 = some D ∧ D.val [0] = z := by
  have hv := vecCharged_valid z
  obtain ⟨D, hD, -, -⟩ := (C84_to_dense _ hv).2 [z] rfl
  obtain ⟨b, o, hp, hval⟩ := dense_one hv rfl hD (by show zeroLeg.dim exU1 = 1; decide)
  obtain ⟨rfl, rfl⟩ := position_unique zeroLeg_ok zeroLeg_pos hp
  refine ⟨D, hD, ?_⟩
  rw [hval [0] [0] [0] ⟨zeroLeg_pos, trivial⟩]
  show dense (vecCharged z).data [0, 0] [0, 0] * z = _
  rw [hv.hom.sane.dense_of_mem (p := ([0, 0], ⟨[1, 1], fun _ => 1⟩)) (List.mem_singleton.2 rfl), one_mul]

theorem vec_inner (z : ℂ) : Charged.innerSym exU1 intRule vecSym (vecCharged z) true = some (star z) := by
  have hB := vecCharged_valid z
  have hav : (⟨vecSym.cod.map (toBLeg exU1), vecSym.dom.map (toBLeg exU1), vecSym.data⟩ : STensor ℤ ℂ).Valid
      intRule := by
    refine ⟨vecSym_valid.hom, ?_⟩
    show LegsOK (coDomainLegs (vecSym.cod.map (toBLeg exU1)) (vecSym.dom.map (toBLeg exU1)))
    unfold coDomainLegs
    rw [← List.map_reverse, ← List.map_append]
    exact legsOK_toBLeg vecSym_valid.legs.valid
  have hm : multWhere exU1 zeroLeg intRule.unit ≠ 0 := by decide
  obtain ⟨res, hres⟩ := C56_tdot_defined (R := intRule) (dual := exU1.dual) intRule_group
    (Charged.daggerSym (⟨vecSym.cod.map (toBLeg exU1), vecSym.dom.map (toBLeg exU1), vecSym.data⟩ : STensor ℤ ℂ))
    ((vecCharged z).inv exU1) (List.range 1) (List.range 1).reverse
    ⟨by decide, by decide, by intro n hn; simp at hn; subst hn; exact Nat.one_pos,
      by intro n hn; simp at hn; subst hn; exact Nat.two_pos, by rfl⟩ (by rfl) (by rfl)
  have hx : Charged.innerSym exU1 intRule vecSym (vecCharged z) true =
      some ((Charged.contractLast (Charged.denseRes exU1 [zeroLeg] res) ([z].map star)).val []) := by
    unfold Charged.innerSym
    rw [if_neg (by
      show ¬ ((!(if true = true then sameLegs exU1 [zeroLeg] [zeroLeg] && sameLegs exU1 [] []
        else sameLegs exU1 [zeroLeg] [] && sameLegs exU1 [] [zeroLeg])) = true)
      decide +kernel)]
    rw [show (vecCharged z).state = some [z] from rfl, Option.bind_some, show (vecCharged z).charge = zeroLeg from rfl,
      if_neg hm]
    simp only [if_true]
    rw [show vecSym.cod.length + vecSym.dom.length = 1 from rfl, hres]
    rfl
  rw [hx]
  congr 1
  obtain ⟨g, hg⟩ := exists_basis_state zeroLeg_ok ([z].map star)
  have key := innerSym_aux intRule_group _ (daggerSym_valid hav) (vecCharged z) hB (by rfl) (by rfl) ([z].map star) res
    hres g hg
  rw [show Charged.denseRes exU1 [(vecCharged z).charge] res = Charged.denseRes exU1 [zeroLeg] res from rfl] at key
  rw [key, show legMults (vecCharged z).legs = [[1]] from rfl, show [(vecCharged z).charge.mults] = [[1]] from rfl,
    show basis [[1]] = [([0], [0])] by decide]
  simp only [List.map_cons, List.map_nil, List.sum_cons, List.sum_nil, add_zero]
  have d1 : dense (Abelian.dagger vecSym.data) [0] [0] = 1 := by
    rw [C34_dagger [[1]] _ vecSym_valid.hom.sane _ _ rfl rfl]
    show star (dense vecSym.data [0] [0]) = 1
    rw [vecSym_valid.hom.sane.dense_of_mem (p := ([0], ⟨[1], fun _ => 1⟩)) (List.mem_singleton.2 rfl), star_one]
  have d2 : dense (vecCharged z).data [0, 0] [0, 0] = 1 := by
    rw [hB.hom.sane.dense_of_mem (p := ([0, 0], ⟨[1, 1], fun _ => 1⟩)) (List.mem_singleton.2 rfl)]
  show dense (Abelian.dagger vecSym.data) [0] [0] * (dense (vecCharged z).data [0, 0] [0, 0] * g ([0], [0])) = _
  rw [d1, d2, hg 0 0 0 zeroLeg_pos]
  simp

/-- **C84** (finding): `inner(A, B)` of a symmetric tensor and a charged tensor with a complex state uses the
conjugated state: for `A = 1` and `B = i` the result is `-i`, not `i`. -/
theorem C84_inner_dagger_false : ∃ (A : GTensor ℤ ℂ) (B : Charged ℤ) (DB : Blk ℂ) (x : ℂ),
    SymValid exU1 intRule A ∧ Charged.Valid exU1 intRule B ∧ B.toDense exU1 = some DB ∧
    Charged.innerSym exU1 intRule A B true = some x ∧
    x ≠ ((indices exU1 B.legs).map fun idx =>
      star ((Abelian.toDense exU1 (A.cod ++ A.dom.reverse) A.data).val idx) * DB.val idx).sum := by
  obtain ⟨D, hD, e⟩ := vecCharged_dense Complex.I
  refine ⟨vecSym, vecCharged Complex.I, D, _, vecSym_valid, vecCharged_valid _, hD, vec_inner _, ?_⟩
  rw [show indices exU1 (vecCharged Complex.I).legs = [[0]] by
    show gridC ([zeroLeg].map (ESpace.dim exU1)) = _
    decide]
  simp only [List.map_cons, List.map_nil, List.sum_cons, List.sum_nil, add_zero]
  have d1 : (Abelian.toDense exU1 (vecSym.cod ++ vecSym.dom.reverse) vecSym.data).val [0] = 1 := by
    show (Abelian.toDense exU1 [zeroLeg] vecSym.data).val [0] = 1
    rw [(C35_to_dense exU1 [zeroLeg] zeroLeg_ok vecSym.data vecSym_valid.hom.sane).2 [0] [0] [0] ⟨zeroLeg_pos, trivial⟩]
    rw [vecSym_valid.hom.sane.dense_of_mem (p := ([0], ⟨[1], fun _ => 1⟩)) (List.mem_singleton.2 rfl)]
  rw [d1, e]
  intro h
  have := congrArg Complex.im h
  norm_num at this

end Cyten.Props
