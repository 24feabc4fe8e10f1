import Verif.Spec.TensorProduct
import Verif.Lemmas.Spaces2
import Verif.Lemmas.Trees
import Mathlib.LinearAlgebra.Finsupp.LinearCombination
import Mathlib.LinearAlgebra.BilinearMap

/-!
# The fusion ring of a fusion rule as finitely supported functions, and sorted sector lists
-/

set_option linter.unusedSectionVars false

namespace Cyten.Spaces
open Cyten.Spaces.Spec Cyten.FusionTrees

variable {S : Type} [LinearOrder S]

/-- A list of sectors with multiplicities as a vector. -/
noncomputable def vec (l : List (S × ℕ)) : S →₀ ℕ := (l.map fun p => Finsupp.single p.1 p.2).sum

@[simp] theorem vec_nil : vec ([] : List (S × ℕ)) = 0 := rfl
@[simp] theorem vec_cons (p : S × ℕ) (l : List (S × ℕ)) :
    vec (p :: l) = Finsupp.single p.1 p.2 + vec l := by simp [vec]
@[simp] theorem vec_append (l l' : List (S × ℕ)) : vec (l ++ l') = vec l + vec l' := by simp [vec]

theorem vec_perm {l l' : List (S × ℕ)} (h : l.Perm l') : vec l = vec l' :=
  (h.map _).sum_eq

theorem vec_apply (l : List (S × ℕ)) (s : S) :
    vec l s = (l.map fun p => if p.1 = s then p.2 else 0).sum := by
  induction l with
  | nil => rfl
  | cons p l ih =>
    rw [vec_cons, Finsupp.add_apply, ih, List.map_cons, List.sum_cons, Finsupp.single_apply]

theorem vec_zip (sectors : List S) (mults : List ℕ) (s : S) :
    vec (sectors.zip mults) s = multOf sectors mults s := vec_apply _ _

theorem vec_flatMap {α : Type} (l : List α) (f : α → List (S × ℕ)) :
    vec (l.flatMap f) = (l.map fun x => vec (f x)).sum := by
  induction l with
  | nil => rfl
  | cons x l ih => rw [List.flatMap_cons, vec_append, ih, List.map_cons, List.sum_cons]

/-- A linear map applied to a vector. -/
theorem map_vec {M : Type} [AddCommMonoid M] (f : (S →₀ ℕ) →ₗ[ℕ] M) (l : List (S × ℕ)) :
    f (vec l) = (l.map fun p => p.2 • f (Finsupp.single p.1 1)).sum := by
  induction l with
  | nil => simp
  | cons p l ih =>
    rw [vec_cons, map_add, ih, List.map_cons, List.sum_cons]
    congr 1
    rw [← map_smul]
    simp

/-- The sectors of a product of two sectors. -/
noncomputable def outV (R : FusionRule S) (a b : S) : S →₀ ℕ :=
  vec ((R.outcomes a b).map fun c => (c, R.rawN a b c))

theorem outV_apply (R : FusionRule S) (hR : R.Lawful) (a b c : S) :
    outV R a b c = R.nSymbol a b c := by
  unfold outV FusionRule.nSymbol
  rw [vec_apply, List.map_map]
  simp only [Function.comp_def]
  have hnd := hR.nodup a b
  by_cases h : c ∈ R.outcomes a b
  · rw [if_pos ((canFuseTo_iff R a b c).2 h)]
    generalize R.outcomes a b = l at h hnd
    induction l with
    | nil => cases h
    | cons x l ih =>
      have hn := List.nodup_cons.1 hnd
      rw [List.map_cons, List.sum_cons]
      by_cases hx : x = c
      · subst hx
        have hz : ∀ y ∈ l, (if y = x then R.rawN a b y else 0) = 0 := by
          intro y hy
          rw [if_neg]; rintro rfl; exact hn.1 hy
        rw [if_pos rfl, List.map_congr_left hz]
        simp
      · rw [if_neg hx, Nat.zero_add]
        exact ih (by simpa [Ne.symm hx] using h) hn.2
  · rw [if_neg (by rw [canFuseTo_iff]; exact h)]
    have hz : ∀ y ∈ R.outcomes a b, (if y = c then R.rawN a b y else 0) = 0 := by
      intro y hy
      rw [if_neg]; rintro rfl; exact h hy
    rw [List.map_congr_left hz]; simp

/-- The product of the fusion ring, as a bilinear map. -/
noncomputable def mulL (R : FusionRule S) : (S →₀ ℕ) →ₗ[ℕ] (S →₀ ℕ) →ₗ[ℕ] (S →₀ ℕ) :=
  Finsupp.linearCombination ℕ fun a => Finsupp.linearCombination ℕ fun b => outV R a b

@[simp] theorem mulL_single (R : FusionRule S) (a b : S) (m n : ℕ) :
    mulL R (Finsupp.single a m) (Finsupp.single b n) = (m * n) • outV R a b := by
  unfold mulL
  rw [Finsupp.linearCombination_single, LinearMap.smul_apply, Finsupp.linearCombination_single,
    smul_smul]

/-- The product of a list of vectors, from left to right. -/
noncomputable def prodV (R : FusionRule S) : List (S →₀ ℕ) → S →₀ ℕ
  | [] => Finsupp.single R.unit 1
  | v :: vs => vs.foldl (fun x y => mulL R x y) v

theorem prodV_snoc (R : FusionRule S) (v : S →₀ ℕ) (vs : List (S →₀ ℕ)) (w : S →₀ ℕ) :
    prodV R (v :: vs ++ [w]) = mulL R (prodV R (v :: vs)) w := by
  simp [prodV, List.foldl_append]

/-- Products from the left are linear in the first entry. -/
noncomputable def foldL (R : FusionRule S) : List (S →₀ ℕ) → (S →₀ ℕ) →ₗ[ℕ] (S →₀ ℕ)
  | [] => LinearMap.id
  | w :: ws => (foldL R ws).comp ((mulL R).flip w)

theorem foldL_apply (R : FusionRule S) (ws : List (S →₀ ℕ)) (v : S →₀ ℕ) :
    foldL R ws v = ws.foldl (fun x y => mulL R x y) v := by
  induction ws generalizing v with
  | nil => rfl
  | cons w ws ih => simp [foldL, ih]

/-- The product of single sectors counts fusion trees. -/
theorem prodV_singles (R : FusionRule S) (hR : R.Lawful) (unc : List S) (c : S) :
    prodV R (unc.map fun a => Finsupp.single a 1) c = FusionTrees.size R unc c := by
  match unc with
  | [] =>
    rw [FusionTrees.size]
    simp [prodV, Finsupp.single_apply, eq_comm]
  | [a] =>
    rw [FusionTrees.size]
    simp [prodV, Finsupp.single_apply]
  | [a, b] =>
    rw [FusionTrees.size]
    simp only [prodV, List.map_cons, List.map_nil, List.foldl_cons, List.foldl_nil, mulL_single]
    simp [outV_apply R hR]
  | a :: b :: x :: rest =>
    rw [FusionTrees.size]
    simp only [List.map_cons, prodV, List.foldl_cons (a := Finsupp.single b 1), mulL_single]
    have e : ((1 * 1 : ℕ) • outV R a b) = outV R a b := by simp
    rw [e, ← foldL_apply]
    unfold outV
    rw [map_vec, List.map_map]
    have : ∀ l : List S, ((l.map ((fun p : S × ℕ => p.2 • (foldL R
        (Finsupp.single x 1 :: rest.map fun a => Finsupp.single a 1)) (Finsupp.single p.1 1)) ∘
          fun c => (c, R.rawN a b c))).sum : S →₀ ℕ) c =
        (l.map fun y => R.rawN a b y * FusionTrees.size R (y :: x :: rest) c).sum := by
      intro l
      induction l with
      | nil => rfl
      | cons y l ih =>
        rw [List.map_cons, List.sum_cons, Finsupp.add_apply, ih, List.map_cons, List.sum_cons]
        congr 1
        rw [← prodV_singles R hR (y :: x :: rest) c]
        simp [foldL_apply, prodV]
    exact this _
termination_by unc.length

/-- One choice as a product of single sectors. -/
noncomputable def choiceV (R : FusionRule S) (ch : List (S × ℕ)) : S →₀ ℕ :=
  (ch.map Prod.snd).prod • prodV R (ch.map fun p => Finsupp.single p.1 1)

theorem foldL_choices (R : FusionRule S) (xs : List (List (S × ℕ))) (v : S →₀ ℕ) :
    foldL R (xs.map vec) v =
      ((choices xs).map fun ch => (ch.map Prod.snd).prod •
        foldL R (ch.map fun p => Finsupp.single p.1 1) v).sum := by
  induction xs generalizing v with
  | nil => simp [choices, foldL]
  | cons x xs ih =>
    simp only [choices, List.map_cons, foldL, LinearMap.comp_apply]
    rw [ih]
    simp only [LinearMap.flip_apply, List.map_flatMap, List.map_map, Function.comp_def,
      List.map_cons, foldL, LinearMap.comp_apply, List.prod_cons]
    -- expand the vector `vec x`
    have h1 : ∀ ch : List (S × ℕ), foldL R (ch.map fun p => Finsupp.single p.1 1) (mulL R v (vec x)) =
        (x.map fun p => p.2 • foldL R (ch.map fun p => Finsupp.single p.1 1)
          (mulL R v (Finsupp.single p.1 1))).sum := by
      intro ch
      have := map_vec ((foldL R (ch.map fun p => Finsupp.single p.1 1)).comp (mulL R v)) x
      simpa using this
    simp only [h1]
    clear h1 ih
    induction x with
    | nil => simp
    | cons p x ihx =>
      simp only [List.map_cons, List.sum_cons, smul_add, List.flatMap_cons, List.sum_append]
      rw [← ihx, ← List.sum_map_add]
      congr 1
      apply List.map_congr_left
      intro ch _
      rw [smul_smul, Nat.mul_comm]

theorem prodV_choices (R : FusionRule S) (xs : List (List (S × ℕ))) :
    prodV R (xs.map vec) = ((choices xs).map (choiceV R)).sum := by
  cases xs with
  | nil => simp [choices, prodV, choiceV]
  | cons x xs =>
    simp only [List.map_cons, prodV, choices, choiceV]
    rw [← foldL_apply]
    have h1 := map_vec (foldL R (xs.map vec)) x
    rw [h1]
    simp only [foldL_choices]
    simp only [List.map_flatMap, List.map_map, Function.comp_def, List.map_cons, prodV,
      List.prod_cons, ← foldL_apply]
    clear h1
    induction x with
    | nil => simp
    | cons p x ihx =>
      simp only [List.map_cons, List.sum_cons, List.flatMap_cons, List.sum_append]
      unfold choiceV at ihx ⊢
      rw [ihx]
      congr 1
      rw [List.smul_sum, List.map_map]
      congr 1
      apply List.map_congr_left
      intro ch _
      simp [smul_smul, prodV, foldL_apply]

end Cyten.Spaces
