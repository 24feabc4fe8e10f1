import Verif.Lemmas.Fusion3
import Verif.Props.Legs2

/-!
# Ring laws of the product of multiplicity vectors
-/

set_option linter.unusedSectionVars false

namespace Cyten.Spaces
open Cyten.Spaces.Spec Cyten.FusionTrees Cyten.Tools Cyten.Props

variable {S : Type} [LinearOrder S]

theorem outV_eq (R : FusionRule S) (hR : R.Lawful) (a b : S) :
    outV R a b = ((R.outcomes a b).map fun x => Finsupp.single x (R.nSymbol a b x)).sum := by
  unfold outV vec
  rw [List.map_map]
  congr 1
  apply List.map_congr_left
  intro x hx
  simp [FusionRule.nSymbol, (canFuseTo_iff R a b x).2 hx]

theorem sum_apply (l : List (S →₀ ℕ)) (d : S) : l.sum d = (l.map fun v => v d).sum := by
  induction l with
  | nil => rfl
  | cons v l ih => simp [ih]

theorem mulL_comm (R : FusionRule S) (hR : R.Lawful) {dual : S → S} (hN : FusionRingN R dual)
    (v w : S →₀ ℕ) : mulL R v w = mulL R w v := by
  have : mulL R = (mulL R).flip := by
    ext a b c
    simp [outV_apply R hR, hN.comm a b]
  conv_lhs => rw [this]
  rfl

theorem mulL_assoc (R : FusionRule S) (hR : R.Lawful) {dual : S → S} (hN : FusionRingN R dual)
    (u v w : S →₀ ℕ) : mulL R (mulL R u v) w = mulL R u (mulL R v w) := by
  have key : ∀ a b c : S, mulL R (mulL R (Finsupp.single a 1) (Finsupp.single b 1))
        (Finsupp.single c 1) =
      mulL R (Finsupp.single a 1) (mulL R (Finsupp.single b 1) (Finsupp.single c 1)) := by
    intro a b c
    simp only [mulL_single, Nat.mul_one, one_smul]
    have h1 : mulL R (outV R a b) (Finsupp.single c 1) =
        ((R.outcomes a b).map fun x => R.rawN a b x • outV R x c).sum := by
      have := map_vec ((mulL R).flip (Finsupp.single c 1))
        ((R.outcomes a b).map fun c => (c, R.rawN a b c))
      simp only [LinearMap.flip_apply, List.map_map, Function.comp_def, mulL_single, Nat.mul_one,
        one_smul] at this
      exact this
    have h2 : mulL R (Finsupp.single a 1) (outV R b c) =
        ((R.outcomes b c).map fun y => R.rawN b c y • outV R a y).sum := by
      have := map_vec (mulL R (Finsupp.single a 1)) ((R.outcomes b c).map fun x => (x, R.rawN b c x))
      simp only [List.map_map, Function.comp_def, mulL_single, Nat.mul_one, one_smul] at this
      exact this
    rw [h1, h2]
    ext d
    rw [sum_apply, sum_apply, List.map_map, List.map_map]
    simp only [Function.comp_def, Finsupp.smul_apply, outV_apply R hR, smul_eq_mul]
    have := hN.assoc a b c d
    rw [List.map_congr_left (fun x hx => by rw [nSymbol_of_mem R hx]),
      List.map_congr_left (l := R.outcomes b c) (fun x hx => by rw [nSymbol_of_mem R hx])] at this
    exact this
  -- extend by linearity in all three arguments
  have h3 : ∀ a b : S, ∀ w, mulL R (mulL R (Finsupp.single a 1) (Finsupp.single b 1)) w =
      mulL R (Finsupp.single a 1) (mulL R (Finsupp.single b 1) w) := by
    intro a b w
    have : mulL R (mulL R (Finsupp.single a 1) (Finsupp.single b 1)) =
        (mulL R (Finsupp.single a 1)).comp (mulL R (Finsupp.single b 1)) := by
      apply Finsupp.lhom_ext'
      intro c
      apply LinearMap.ext_ring
      exact key a b c
    rw [this]; rfl
  have h2 : ∀ a : S, ∀ v w, mulL R (mulL R (Finsupp.single a 1) v) w =
      mulL R (Finsupp.single a 1) (mulL R v w) := by
    intro a v w
    have : (mulL R).flip w ∘ₗ mulL R (Finsupp.single a 1) =
        (mulL R (Finsupp.single a 1)) ∘ₗ (mulL R).flip w := by
      apply Finsupp.lhom_ext'
      intro b
      apply LinearMap.ext_ring
      exact h3 a b w
    exact LinearMap.congr_fun this v
  have : (mulL R).flip w ∘ₗ (mulL R).flip v = (mulL R).flip (mulL R v w) := by
    apply Finsupp.lhom_ext'
    intro a
    apply LinearMap.ext_ring
    exact h2 a v w
  exact LinearMap.congr_fun this u

theorem mulL_unit_left (R : FusionRule S) (hR : R.Lawful) {dual : S → S} (hN : FusionRingN R dual)
    (v : S →₀ ℕ) : mulL R (Finsupp.single R.unit 1) v = v := by
  have : mulL R (Finsupp.single R.unit 1) = LinearMap.id := by
    ext a c
    simp [outV_apply R hR, hN.unit, Finsupp.single_apply]
  rw [this]; rfl

theorem mulL_unit_right (R : FusionRule S) (hR : R.Lawful) {dual : S → S} (hN : FusionRingN R dual)
    (v : S →₀ ℕ) : mulL R v (Finsupp.single R.unit 1) = v := by
  rw [mulL_comm R hR hN, mulL_unit_left R hR hN]

theorem foldl_mul (R : FusionRule S) (hR : R.Lawful) {dual : S → S} (hN : FusionRingN R dual)
    (vs : List (S →₀ ℕ)) (v : S →₀ ℕ) :
    vs.foldl (fun x y => mulL R x y) v = mulL R v (prodV R vs) := by
  induction vs generalizing v with
  | nil => simp [prodV, mulL_unit_right R hR hN]
  | cons w vs ih =>
    rw [List.foldl_cons, ih, prodV, ih w, mulL_assoc R hR hN]

theorem prodV_cons (R : FusionRule S) (hR : R.Lawful) {dual : S → S} (hN : FusionRingN R dual)
    (v : S →₀ ℕ) (vs : List (S →₀ ℕ)) : prodV R (v :: vs) = mulL R v (prodV R vs) := by
  rw [prodV, foldl_mul R hR hN]

theorem prodV_append (R : FusionRule S) (hR : R.Lawful) {dual : S → S} (hN : FusionRingN R dual)
    (vs ws : List (S →₀ ℕ)) : prodV R (vs ++ ws) = mulL R (prodV R vs) (prodV R ws) := by
  induction vs with
  | nil => simp [prodV, mulL_unit_left R hR hN]
  | cons v vs ih =>
    rw [List.cons_append, prodV_cons R hR hN, ih, prodV_cons R hR hN, mulL_assoc R hR hN]

theorem prodV_perm (R : FusionRule S) (hR : R.Lawful) {dual : S → S} (hN : FusionRingN R dual)
    {vs ws : List (S →₀ ℕ)} (h : vs.Perm ws) : prodV R vs = prodV R ws := by
  induction h with
  | nil => rfl
  | cons v _ ih => rw [prodV_cons R hR hN, prodV_cons R hR hN, ih]
  | swap v w l =>
    rw [prodV_cons R hR hN, prodV_cons R hR hN, prodV_cons R hR hN, prodV_cons R hR hN,
      ← mulL_assoc R hR hN, ← mulL_assoc R hR hN, mulL_comm R hR hN w v]
  | trans _ _ ih1 ih2 => rw [ih1, ih2]

theorem prodV_flatten (R : FusionRule S) (hR : R.Lawful) {dual : S → S} (hN : FusionRingN R dual)
    (vss : List (List (S →₀ ℕ))) : prodV R vss.flatten = prodV R (vss.map (prodV R)) := by
  induction vss with
  | nil => rfl
  | cons vs vss ih =>
    rw [List.flatten_cons, prodV_append R hR hN, ih, List.map_cons, prodV_cons R hR hN]

/-- The dual of a multiplicity vector. -/
noncomputable def dualV (dual : S → S) : (S →₀ ℕ) →ₗ[ℕ] (S →₀ ℕ) :=
  Finsupp.linearCombination ℕ fun a => Finsupp.single (dual a) 1

@[simp] theorem dualV_single (dual : S → S) (a : S) (m : ℕ) :
    dualV dual (Finsupp.single a m) = Finsupp.single (dual a) m := by
  simp [dualV]

theorem dualV_vec (dual : S → S) (l : List (S × ℕ)) :
    dualV dual (vec l) = vec (l.map fun p => (dual p.1, p.2)) := by
  induction l with
  | nil => simp
  | cons p l ih => simp [ih]

theorem dualV_apply (dual : S → S) (hd : ∀ a, dual (dual a) = a) (v : S →₀ ℕ) (s : S) :
    dualV dual v (dual s) = v s := by
  induction v using Finsupp.induction_linear with
  | zero => simp
  | add f g hf hg => simp [hf, hg]
  | single a m =>
    have : dual a = dual s ↔ a = s := ⟨fun h => by rw [← hd a, h, hd], fun h => by rw [h]⟩
    simp [Finsupp.single_apply, this]

theorem dualV_mul (R : FusionRule S) (hR : R.Lawful) {dual : S → S} (hN : FusionRingN R dual)
    (v w : S →₀ ℕ) : dualV dual (mulL R v w) = mulL R (dualV dual v) (dualV dual w) := by
  have key : ∀ a b, dualV dual (outV R a b) = outV R (dual a) (dual b) := by
    intro a b
    ext c
    have hc : c = dual (dual c) := (hN.dual_dual c).symm
    rw [hc, dualV_apply dual hN.dual_dual, outV_apply R hR, outV_apply R hR,
      hN.comm (dual a), hN.dual_fusion]
  have : (mulL R).compr₂ (dualV dual) = (mulL R).compl₁₂ (dualV dual) (dualV dual) := by
    ext a b c
    simp [key]
  exact LinearMap.congr_fun (LinearMap.congr_fun this v) w

theorem dualV_prodV (R : FusionRule S) (hR : R.Lawful) {dual : S → S} (hN : FusionRingN R dual)
    (vs : List (S →₀ ℕ)) : dualV dual (prodV R vs) = prodV R (vs.map (dualV dual)) := by
  induction vs with
  | nil => simp [prodV, hN.dual_unit]
  | cons v vs ih =>
    rw [prodV_cons R hR hN, dualV_mul R hR hN, ih, List.map_cons, prodV_cons R hR hN]

theorem leavesAll_append (l l' : List (Leg S)) :
    Leg.leavesAll (l ++ l') = Leg.leavesAll l ++ Leg.leavesAll l' := by
  induction l with
  | nil => rfl
  | cons x l ih => rw [List.cons_append, Leg.leavesAll, Leg.leavesAll, ih, List.append_assoc]

theorem leavesAll_flatMap (l : List (Leg S)) : Leg.leavesAll l = l.flatMap Leg.leaves := by
  induction l with
  | nil => rfl
  | cons x l ih => rw [Leg.leavesAll, ih]; rfl

mutual
theorem leaves_dual : ∀ l : Leg S, l.dual.leaves = (l.leaves.map ESpace.dual).reverse
  | .space e => by rw [Leg.dual, Leg.leaves, Leg.leaves]; rfl
  | .pipe ls d c => by
    rw [Leg.dual, Leg.leaves, Leg.leaves]
    exact leavesAll_dual ls
theorem leavesAll_dual : ∀ ls : List (Leg S),
    Leg.leavesAll (Leg.dualAll ls).reverse = ((Leg.leavesAll ls).map ESpace.dual).reverse
  | [] => rfl
  | l :: ls => by
    rw [Leg.dualAll, List.reverse_cons, leavesAll_append, leavesAll_dual ls, Leg.leavesAll,
      Leg.leavesAll, Leg.leavesAll, leaves_dual l]
    simp
end

end Cyten.Spaces
