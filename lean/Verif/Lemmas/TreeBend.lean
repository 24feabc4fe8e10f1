import Verif.Lemmas.TreeMoves
import Mathlib.Tactic.LinearCombination

/-! # Bends of pairs of fusion trees -/

namespace Cyten.FT
open Cyten.FT.Spec Cyten.Tools Cyten.ListSum Cyten.Props Cyten.Permute Cyten.Mappings

variable {S K : Type} [LinearOrder S] [CommRing K] [StarRing K]

/-- The dense entry of a pair of trees -/
def pairTensor (T : FTensors S K) (J : FusionTree S × FusionTree S) (is js : List ℕ) : K :=
  ((List.range (T.dim J.1.coupled)).map fun g => star (treeTensor T J.1 is g) * treeTensor T J.2 js g).sum

/-- What bending the last leg of the domain down does to the dense entries -/
structure BendOK (R : FusionRule S) (T : FTensors S K) (cj : Bool) (X Y : FusionTree S) (u : List S) (ds : List Bool)
    (z : S) (d : Bool) (l : UMap (FusionTree S × FusionTree S) K) : Prop where
  tree : ∀ p ∈ l, p.1.1.Sane R ∧ p.1.2.Sane R ∧ p.1.1.coupled = p.1.2.coupled ∧
    p.1.1.uncoupled = X.uncoupled ++ [T.dual z] ∧ p.1.1.areDual = X.areDual ++ [!d] ∧ p.1.2.uncoupled = u ∧
    p.1.2.areDual = ds
  sum : ∀ is js j, InDims T X.uncoupled is → InDims T u js → j < T.dim z →
    (l.map fun p => conjIf cj p.2 * pairTensor T p.1 (is ++ [j]) js).sum = pairTensor T (X, Y) is (js ++ [j])

theorem fromSector_sane {R : FusionRule S} (a : S) (d : Bool) : (FusionTree.fromSector a d).Sane R :=
  (sane_one_iff R _ a rfl).2 ⟨rfl, rfl, rfl, rfl⟩

theorem eq_fromSector {R : FusionRule S} (t : FusionTree S) (h : t.Sane R) (a : S) (ha : t.uncoupled = [a]) :
    ∃ d, t = FusionTree.fromSector a d := by
  obtain ⟨q1, q2, q3, q4⟩ := (sane_one_iff R t a ha).1 h
  obtain ⟨d0, hd0⟩ : ∃ d0, t.areDual = [d0] := List.length_eq_one_iff.1 q2
  refine ⟨d0, ?_⟩
  obtain ⟨u, co, du, inn, ms⟩ := t
  simp only at ha q1 q2 q3 q4 hd0
  subst ha q1 q3 q4 hd0; rfl

theorem eq_fromEmpty {R : FusionRule S} (t : FusionTree S) (h : t.Sane R) (ha : t.uncoupled = []) :
    t = FusionTree.fromEmpty R := by
  obtain ⟨u, co, du, inn, ms⟩ := t
  have h1 := h.len_dual
  have h2 := h.len_inner
  have h3 := h.len_mult
  have h4 := h.zero_legs
  simp only at ha h1 h2 h3 h4
  subst ha
  obtain rfl := List.length_eq_zero_iff.1 h1
  obtain rfl := List.length_eq_zero_iff.1 h2
  obtain rfl := List.length_eq_zero_iff.1 h3
  obtain rfl := h4 rfl
  rfl

theorem fromEmpty_sane {R : FusionRule S} : (FusionTree.fromEmpty R).Sane R := by
  refine ⟨rfl, rfl, rfl, fun _ => rfl, fun a h => ?_, fun n hn => ?_⟩
  · simp [FusionTree.fromEmpty] at h
  · simp [FusionTree.fromEmpty] at hn

theorem tensor_sector (T : FTensors S K) (a : S) (d : Bool) (i k : ℕ) :
    treeTensor T (FusionTree.fromSector a d) [i] k = if d then T.Z (T.dual a) k i else if i = k then 1 else 0 := rfl

section
variable {R : FusionRule S} {T : FTensors S K} {D : Topo S K}

theorem cup_star (hL : GroupLaws R T D) (a : S) (i j : ℕ) (hi : i < T.dim a) (hj : j < T.dim a) :
    T.X a (T.dual a) R.unit false false 0 i j 0 = D.invSqrtQdim a * star (T.Z a j i) := by
  rw [hL.z_cup a i j hi hj, star_mul', star_star, hL.sqrt_real, ← mul_assoc, hL.sqrt_inv, one_mul]

theorem z_rows (hL : GroupLaws R T D) (a : S) (i j : ℕ) (hi : i < T.dim a) (hj : j < T.dim a) :
    ((List.range (T.dim a)).map fun h => star (T.Z a i h) * T.Z a j h).sum = if i = j then 1 else 0 := by
  rw [← hL.z_unitary (T.dual a) i j (by rwa [hL.dim_dual]) (by rwa [hL.dim_dual]), hL.dim_dual]
  refine sum_congr _ fun h hh => ?_
  rw [hL.z_fs a h i (List.mem_range.1 hh) hi, hL.z_fs a h j (List.mem_range.1 hh) hj, star_mul', hL.fs_real]
  linear_combination (- (star (T.Z a i h) * T.Z a j h)) * hL.fs_sq a

theorem cup_flag (hL : GroupLaws R T D) (a : S) (d : Bool) (i j : ℕ) (hi : i < T.dim a) (hj : j < T.dim a) :
    T.X a (T.dual a) R.unit false d 0 i j 0 =
      if d then D.invSqrtQdim a * (if i = j then 1 else 0) else D.invSqrtQdim a * star (T.Z a j i) := by
  cases d
  · simpa using cup_star hL a i j hi hj
  · have h1 := hL.unit_one a
    rw [hL.z_right a (T.dual a) R.unit false 0 i j 0 (by omega) hi (by rwa [hL.dim_dual]) (by rw [hL.dim_unit]; omega),
      if_pos rfl, ← hL.z_unitary a i j hi hj, mul_sum, hL.dim_dual, hL.dual_dual]
    refine sum_congr _ fun h hh => ?_
    rw [cup_star hL a i h hi (List.mem_range.1 hh)]
    ring

theorem conjIf_real (cj : Bool) {x : K} (h : star x = x) : conjIf cj x = x := by cases cj <;> simp [conjIf, h]

theorem bend_one (hL : GroupLaws R T D) (X : FusionTree S) (hX : X.Sane R) (c : S) (d : Bool) (hc : X.coupled = c)
    (cj : Bool) : ∃ l, bendDown R D X (FusionTree.fromSector c d) cj = some l ∧
      BendOK R T cj X (FusionTree.fromSector c d) [] [] c d l := by
  have hco : star (if d then D.sqrtQdim c * D.frobSchur c else D.sqrtQdim c) =
      if d then D.sqrtQdim c * D.frobSchur c else D.sqrtQdim c := by
    cases d <;> simp [hL.sqrt_real, hL.fs_real]
  refine ⟨[((X.extended (D.dual c) 0 R.unit (!d), FusionTree.fromEmpty R),
      if d then D.sqrtQdim c * D.frobSchur c else D.sqrtQdim c)], rfl, ?_, ?_⟩
  · intro p hp
    obtain rfl := List.mem_singleton.1 hp
    rw [hL.dual_eq]
    refine ⟨?_, fromEmpty_sane, rfl, rfl, rfl, rfl, rfl⟩
    by_cases hX0 : X.uncoupled = []
    · have := hX.zero_legs hX0
      rw [eq_fromEmpty X hX hX0]
      have hcu : c = R.unit := by rw [← hc, this]
      refine (sane_one_iff R _ (T.dual c) rfl).2 ⟨?_, rfl, rfl, rfl⟩
      rw [hcu, hL.dual_unit]; rfl
    · have := List.length_pos_iff.2 hX0
      exact extended_sane_pos R X hX _ _ 0 _ this (by rw [hc, hL.unit_one]; omega)
  · intro is js j hi hjs hj
    have : js = [] := by cases hjs; rfl
    subst this
    simp only [List.map_cons, List.map_nil, List.sum_cons, List.sum_nil, add_zero, conjIf_real cj hco, List.nil_append]
    unfold pairTensor
    simp only [extended_coupled, hL.dim_unit, List.range_one, List.map_cons, List.map_nil, List.sum_cons, List.sum_nil,
      add_zero, hL.dual_eq]
    have e0 : treeTensor T (FusionTree.fromEmpty R) [] 0 = 1 := rfl
    rw [e0, mul_one, hc]
    by_cases hX0 : X.uncoupled = []
    · have hu := hX.zero_legs hX0
      have hcu : c = R.unit := by rw [← hc, hu]
      rw [eq_fromEmpty X hX hX0]
      have : is = [] := by
        rw [hX0] at hi
        cases hi; rfl
      subst this
      subst hcu
      obtain rfl : j = 0 := by rw [hL.dim_unit] at hj; omega
      have e1 : treeTensor T ((FusionTree.fromEmpty R).extended (T.dual R.unit) 0 R.unit (!d)) ([] ++ [0]) 0 =
        if !d then T.Z (T.dual (T.dual R.unit)) 0 0 else if 0 = 0 then 1 else 0 := rfl
      have e2 : treeTensor T (FusionTree.fromEmpty R) [] 0 = 1 := rfl
      rw [e1, hL.dim_unit]
      simp only [List.range_one, List.map_cons, List.map_nil, List.sum_cons, List.sum_nil, add_zero, tensor_sector, e2,
        hL.dual_unit, hL.z_one, hL.sqrt_one, hL.fs_one]
      cases d <;> simp
    · have hl := List.length_pos_iff.2 hX0
      have h1 := hL.unit_one c
      rw [treeTensor_extended hL X hX hl (T.dual c) R.unit 0 (!d) (by rw [hc]; omega) is hi j 0
        (by rwa [hL.dim_dual]) (by rw [hL.dim_unit]; omega), hc, star_lsum, mul_sum]
      have e1 : ∀ g ∈ List.range (T.dim c), (if d then D.sqrtQdim c * D.frobSchur c else D.sqrtQdim c) *
          star (treeTensor T X is g * T.X c (T.dual c) R.unit false (!d) 0 g j 0) =
          star (treeTensor T X is g) * treeTensor T (FusionTree.fromSector c d) [j] g := by
        intro g hg
        rw [cup_flag hL c (!d) g j (List.mem_range.1 hg) hj, tensor_sector, star_mul']
        have hs := hL.sqrt_inv c
        cases d
        · simp only [Bool.not_false, Bool.false_eq_true, if_true, if_false]
          rw [star_mul', hL.inv_real]
          by_cases hgj : g = j
          · subst hgj
            simp only [if_true, star_one]
            linear_combination (star (treeTensor T X is g)) * hs
          · simp [hgj, Ne.symm hgj]
        · simp only [Bool.not_true, Bool.false_eq_true, if_true, if_false]
          rw [star_mul', hL.inv_real, star_star, hL.z_fs c g j (List.mem_range.1 hg) hj]
          linear_combination (star (treeTensor T X is g) * D.frobSchur c * T.Z c j g) * hs
      exact sum_congr _ e1

theorem bend_empty (hL : GroupLaws R T D) (Xi : FusionTree S) (hXi : Xi.Sane R) (hl : 1 ≤ Xi.uncoupled.length) (z : S)
    (mu : ℕ) (d : Bool) (hmu : mu < R.nSymbol Xi.coupled z R.unit) (cj : Bool) :
    ∃ l, bendDown R D (FusionTree.fromEmpty R) (Xi.extended z mu R.unit d) cj = some l ∧
      BendOK R T cj (FusionTree.fromEmpty R) (Xi.extended z mu R.unit d) Xi.uncoupled Xi.areDual z d l := by
  have hz : z = T.dual Xi.coupled := hL.unit_right _ _ (by omega)
  subst hz
  obtain rfl : mu = 0 := by have := hL.unit_one Xi.coupled; omega
  set e := Xi.coupled with he
  have hco : star (if !d then D.invSqrtQdim e * D.frobSchur e else D.invSqrtQdim e) =
      if !d then D.invSqrtQdim e * D.frobSchur e else D.invSqrtQdim e := by
    cases d <;> simp [hL.inv_real, hL.fs_real]
  refine ⟨[((FusionTree.fromSector e (!d), Xi), if !d then D.invSqrtQdim e * D.frobSchur e else D.invSqrtQdim e)],
    ?_, ?_, ?_⟩
  · unfold bendDown
    have hla : (Xi.extended (T.dual e) 0 R.unit d).areDual.getLast? = some d := by
      rw [extended_areDual]; simp
    have hu := extended_uncoupled Xi (T.dual e) R.unit 0 d
    rw [hla]
    match hq : (Xi.extended (T.dual e) 0 R.unit d).uncoupled with
    | [] => rw [hq] at hu; simp at hu
    | [_] =>
      rw [hq] at hu
      have := congrArg List.length hu
      simp only [List.length_append, List.length_cons, List.length_nil] at this; omega
    | _ :: _ :: _ =>
      simp only
      rw [splitBottom_extended R Xi hXi (T.dual e) R.unit 0 d hl]
      rfl
  · intro p hp
    obtain rfl := List.mem_singleton.1 hp
    refine ⟨fromSector_sane _ _, hXi, rfl, ?_, rfl, rfl, rfl⟩
    simp [FusionTree.fromSector, FusionTree.fromEmpty, hL.dual_dual]
  · intro is js j hi hjs hj
    have : is = [] := by
      have h' : List.Forall₂ (fun a i => i < T.dim a) [] is := hi
      cases h'; rfl
    subst this
    rw [hL.dim_dual] at hj
    simp only [List.map_cons, List.map_nil, List.sum_cons, List.sum_nil, add_zero, conjIf_real cj hco, List.nil_append]
    unfold pairTensor
    have e0 : ∀ g, treeTensor T (FusionTree.fromEmpty R) [] g = 1 := fun g => rfl
    have e1 : (FusionTree.fromEmpty R).coupled = R.unit := rfl
    have e2 : (FusionTree.fromSector e (!d)).coupled = e := rfl
    simp only [e0, e1, e2, hL.dim_unit, List.range_one, List.map_cons, List.map_nil, List.sum_cons, List.sum_nil,
      add_zero, star_one, one_mul]
    rw [treeTensor_extended hL Xi hXi hl (T.dual e) R.unit 0 d hmu js hjs j 0 (by rwa [hL.dim_dual])
      (by rw [hL.dim_unit]; omega), mul_sum]
    refine sum_congr _ fun g hg => ?_
    rw [tensor_sector, cup_flag hL e d g j (List.mem_range.1 hg) hj]
    cases d
    · simp only [Bool.not_false, Bool.false_eq_true, if_true, if_false]
      rw [hL.z_fs e g j (List.mem_range.1 hg) hj, star_mul', hL.fs_real]
      linear_combination (D.invSqrtQdim e * star (T.Z e j g) * treeTensor T Xi js g) * hL.fs_sq e
    · simp only [Bool.not_true, Bool.false_eq_true, if_true, if_false]
      by_cases hgj : g = j
      · subst hgj; simp; ring
      · simp [hgj, Ne.symm hgj]

theorem bend_many (hL : GroupLaws R T D) (X : FusionTree S) (hX : X.Sane R) (hlX : 1 ≤ X.uncoupled.length)
    (Xi : FusionTree S) (hXi : Xi.Sane R) (hl : 1 ≤ Xi.uncoupled.length) (z c : S)
    (mu : ℕ) (d : Bool) (hmu : mu < R.nSymbol Xi.coupled z c) (hc : X.coupled = c) (cj : Bool) :
    ∃ l, bendDown R D X (Xi.extended z mu c d) cj = some l ∧
      BendOK R T cj X (Xi.extended z mu c d) Xi.uncoupled Xi.areDual z d l := by
  set e := Xi.coupled with he
  have hext := hL.b_extent e z c (by omega)
  have hrot := hL.rotate e z c
  refine ⟨(List.range (R.nSymbol c (T.dual z) e)).map fun nu =>
      ((X.extended (T.dual z) nu e (!d), Xi),
        conjIf cj (if d then D.bSym e z c mu nu * D.frobSchur z else D.bSym e z c mu nu)), ?_, ?_, ?_⟩
  · unfold bendDown
    have hla : (Xi.extended z mu c d).areDual.getLast? = some d := by
      rw [extended_areDual]; simp
    have hu := extended_uncoupled Xi z c mu d
    rw [hla]
    match hq : (Xi.extended z mu c d).uncoupled with
    | [] => rw [hq] at hu; simp at hu
    | [_] =>
      rw [hq] at hu
      have := congrArg List.length hu
      simp only [List.length_append, List.length_cons, List.length_nil] at this; omega
    | _ :: _ :: _ =>
      simp only
      rw [splitBottom_extended R Xi hXi z c mu d hl]
      have hX0 : X.uncoupled.isEmpty = false := by
        rcases hX0 : X.uncoupled with _ | ⟨a, l⟩
        · rw [hX0] at hlX; simp at hlX
        · rfl
      simp only [hX0, Bool.false_eq_true, if_false, extended_coupled, hL.dual_eq]
      rw [← he, hext]
  · intro p hp
    obtain ⟨nu, hnu, rfl⟩ := List.mem_map.1 hp
    exact ⟨extended_sane_pos R X hX _ _ nu _ hlX (by rw [hc]; exact List.mem_range.1 hnu), hXi, rfl, rfl, rfl, rfl, rfl⟩
  · intro is js j hi hjs hj
    rw [List.map_map]
    have e1 : ∀ nu ∈ List.range (R.nSymbol c (T.dual z) e),
        ((fun p : (FusionTree S × FusionTree S) × K => conjIf cj p.2 * pairTensor T p.1 (is ++ [j]) js) ∘ fun nu =>
          ((X.extended (T.dual z) nu e (!d), Xi),
            conjIf cj (if d then D.bSym e z c mu nu * D.frobSchur z else D.bSym e z c mu nu))) nu =
        ((List.range (T.dim c)).map fun k => ((List.range (T.dim e)).map fun g =>
          star (treeTensor T X is k) * treeTensor T Xi js g *
          ((if d then D.bSym e z c mu nu * D.frobSchur z else D.bSym e z c mu nu) *
            star (T.X c (T.dual z) e false (!d) nu k j g))).sum).sum := by
      intro nu hnu
      have hnu := List.mem_range.1 hnu
      simp only [Function.comp_def, conjIf_conjIf]
      unfold pairTensor
      simp only [extended_coupled]
      rw [mul_sum]
      refine Eq.trans ?_ (sum_comm _ _ _)
      refine sum_congr _ fun g hg => ?_
      rw [treeTensor_extended hL X hX hlX (T.dual z) e nu (!d) (by rw [hc]; exact hnu) is hi j g
        (by rwa [hL.dim_dual]) (List.mem_range.1 hg), hc, star_lsum, sum_mul, mul_sum]
      refine sum_congr _ fun k _ => ?_
      rw [star_mul']
      ring
    rw [sum_congr _ e1]
    unfold pairTensor
    simp only
    rw [hc]
    refine (sum_comm _ _ _).trans ?_
    refine sum_congr _ fun k hk => ?_
    have hk := List.mem_range.1 hk
    rw [treeTensor_extended hL Xi hXi hl z c mu d hmu js hjs j k hj hk, mul_sum]
    refine (sum_comm _ _ _).trans ?_
    refine sum_congr _ fun g hg => ?_
    have hg := List.mem_range.1 hg
    rw [← mul_sum, mul_assoc]
    congr 2
    cases d
    · simp only [Bool.not_false, Bool.false_eq_true, if_false]
      rw [hL.b_move e z c mu g j k hmu hg hj hk]
      refine sum_congr _ fun nu hnu => ?_
      rw [hL.z_right c (T.dual z) e false nu k j g (List.mem_range.1 hnu) hk (by rwa [hL.dim_dual]) hg, hL.dim_dual,
        hL.dual_dual]
    · simp only [Bool.not_true, if_true]
      rw [hL.z_right e z c false mu g j k hmu hg hj hk]
      have e2 : ∀ h ∈ List.range (T.dim z), T.Z (T.dual z) h j * T.X e z c false false mu g h k =
          ((List.range (R.nSymbol c (T.dual z) e)).map fun nu => ((List.range (T.dim z)).map fun m =>
            D.bSym e z c mu nu * D.frobSchur z * star (T.X c (T.dual z) e false false nu k m g) *
              (star (T.Z z m h) * T.Z z j h)).sum).sum := by
        intro h hh
        have hh := List.mem_range.1 hh
        rw [hL.b_move e z c mu g h k hmu hg hh hk, mul_sum]
        refine sum_congr _ fun nu _ => ?_
        rw [star_lsum, mul_sum, mul_sum]
        refine sum_congr _ fun m _ => ?_
        rw [hL.z_fs z h j hh hj, star_mul']
        ring
      rw [sum_congr _ e2]
      refine Eq.trans ?_ (sum_comm _ _ _)
      refine sum_congr _ fun nu _ => ?_
      refine Eq.trans ?_ (sum_comm _ _ _)
      have e3 : ∀ m ∈ List.range (T.dim z), ((List.range (T.dim z)).map fun h =>
          D.bSym e z c mu nu * D.frobSchur z * star (T.X c (T.dual z) e false false nu k m g) *
              (star (T.Z z m h) * T.Z z j h)).sum =
          if j = m then D.bSym e z c mu nu * D.frobSchur z * star (T.X c (T.dual z) e false false nu k m g) else 0 := by
        intro m hm
        rw [← mul_sum, z_rows hL z m j (List.mem_range.1 hm) hj]
        by_cases hmj : m = j
        · simp [hmj]
        · simp [hmj, Ne.symm hmj]
      rw [sum_congr _ e3, sum_single _ List.nodup_range, if_pos (List.mem_range.2 hj)]

theorem bendDown_spec (hL : GroupLaws R T D) (X Y : FusionTree S) (hX : X.Sane R) (hY : Y.Sane R)
    (hc : X.coupled = Y.coupled) (u : List S) (ds : List Bool) (z : S) (d : Bool) (hu : Y.uncoupled = u ++ [z])
    (hd : Y.areDual = ds ++ [d]) (cj : Bool) :
    ∃ l, bendDown R D X Y cj = some l ∧ BendOK R T cj X Y u ds z d l := by
  by_cases hu0 : u = []
  · subst hu0
    obtain ⟨d', rfl⟩ := eq_fromSector Y hY z hu
    have hds : ds = [] ∧ d' = d := by
      have : [d'] = ds ++ [d] := hd
      rcases ds with _ | ⟨x, ds⟩
      · simpa using this
      · simp at this
    obtain ⟨rfl, rfl⟩ := hds
    exact bend_one hL X hX z d' hc cj
  · have hul := List.length_pos_iff.2 hu0
    obtain ⟨r, mu, z', d', hr, hlr, hmu, ht⟩ := tree_cases Y hY (by rw [hu]; simp; omega)
    have h1 : Y.uncoupled = r.uncoupled ++ [z'] := by rw [ht]; rfl
    have h2 : Y.areDual = r.areDual ++ [d'] := by rw [ht]; rfl
    rw [hu] at h1
    rw [hd] at h2
    obtain ⟨rfl, h1⟩ := List.append_inj' h1 rfl
    obtain ⟨rfl, h2⟩ := List.append_inj' h2 rfl
    obtain rfl : z = z' := by simpa using h1
    obtain rfl : d = d' := by simpa using h2
    rw [ht]
    by_cases hX0 : X.uncoupled = []
    · have hun := hX.zero_legs hX0
      have hYu : Y.coupled = R.unit := by rw [← hc, hun]
      rw [hYu] at hmu ⊢
      rw [eq_fromEmpty X hX hX0]
      exact bend_empty hL r hr hlr z mu d hmu cj
    · exact bend_many hL X hX (List.length_pos_iff.2 hX0) r hr hlr z Y.coupled mu d hmu hc cj

theorem star_pairTensor (T : FTensors S K) (X Y : FusionTree S) (hc : X.coupled = Y.coupled) (is js : List ℕ) :
    star (pairTensor T (X, Y) is js) = pairTensor T (Y, X) js is := by
  unfold pairTensor
  rw [star_lsum]
  simp only [hc]
  refine sum_congr _ fun g _ => ?_
  rw [star_mul', star_star, mul_comm]

end

end Cyten.FT
