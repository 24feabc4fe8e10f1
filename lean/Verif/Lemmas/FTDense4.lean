import Verif.Lemmas.FTDense3
import Mathlib.Data.Matrix.Block
import Mathlib.LinearAlgebra.Matrix.Kronecker

/-! # The dense block as a product of matrices -/

namespace Cyten.FT
open Cyten.FT.Spec Cyten.Tools Cyten.ListSum Cyten.Props Cyten.Spaces Cyten.Spaces.Spec Cyten.Abelian
  Cyten.FusionTrees Matrix Kronecker

variable {S K : Type} [LinearOrder S] [CommRing K] [StarRing K]

/-- The multi-indices of a shape -/
abbrev Ix (shape : List ℕ) := {x : List ℕ // x ∈ (gridC shape).toFinset}

theorem sum_ix (shape : List ℕ) (f : List ℕ → K) :
    ((gridC shape).map f).sum = ∑ x : Ix shape, f x.1 := by
  rw [Finset.sum_coe_sort (gridC shape).toFinset f, List.sum_toFinset f (nodup_gridC shape)]

/-- Coupled sector, row and state of the sector -/
abbrev St (T : FTensors S K) (Q : Finset S) (l : BLeg S) := Σ c : Q, Fin (Spec.mult l c.1) × Fin (T.dim c.1)

/-- The rows are the vectors -/
def V (R : FusionRule S) (T : FTensors S K) (Q : Finset S) (s : Side S) (l : BLeg S) :
    Matrix (St T Q l) (Ix (s.spaces.map (spaceDim T.dim))) K :=
  fun a is => vec R T s a.1.1 a.2.1 a.2.2 is.1

/-- The blocks of a tensor, repeated for every state of the sector -/
def B (T : FTensors S K) (Q : Finset S) (lc ld : BLeg S) (D : FEnts K) : Matrix (St T Q lc) (St T Q ld) K :=
  Matrix.blockDiagonal' fun c : Q => matrixOf lc ld D c.1 ⊗ₖ (1 : Matrix (Fin (T.dim c.1)) (Fin (T.dim c.1)) K)

/-- The dense block -/
def Dn (R : FusionRule S) (T : FTensors S K) (cod dom : Side S) (lc : BLeg S) (D : FEnts K) :
    Matrix (Ix (cod.spaces.map (spaceDim T.dim))) (Ix (dom.spaces.map (spaceDim T.dim))) K :=
  fun is js => toDenseCore R T lc.sectors cod dom D is.1 js.1

section
variable {R : FusionRule S} {T : FTensors S K} {s cod mid dom : Side S} {l lc lm ld : BLeg S} (Q : Finset S)

theorem V_unit (hR : R.Lawful) (hT : Spec.Lawful R T) (h : SideOK R s l) : V R T Q s l * (V R T Q s l)ᴴ = 1 := by
  ext a b
  obtain ⟨⟨c, hc⟩, r, g⟩ := a
  obtain ⟨⟨c', hc'⟩, r', g'⟩ := b
  rw [Matrix.mul_apply]
  have e : ∀ is : Ix (s.spaces.map (spaceDim T.dim)), V R T Q s l ⟨⟨c, hc⟩, r, g⟩ is *
      (V R T Q s l)ᴴ is ⟨⟨c', hc'⟩, r', g'⟩ = star (vec R T s c' r' g' is.1) * vec R T s c r g is.1 :=
    fun is => mul_comm _ _
  rw [Finset.sum_congr rfl fun is _ => e is, ← sum_ix _ fun is => star (vec R T s c' r' g' is) * vec R T s c r g is,
    vec_orth hR hT h c' c r' r g' g r'.2 g'.2 g.2, Matrix.one_apply]
  by_cases hcc : c = c'
  · subst hcc
    by_cases hrg : r = r' ∧ g = g'
    · obtain ⟨rfl, rfl⟩ := hrg
      simp
    · rw [if_neg fun hh => hrg ⟨Fin.ext hh.2.1.symm, Fin.ext hh.2.2.symm⟩, if_neg]
      intro hh
      apply hrg
      simpa using hh
  · rw [if_neg fun hh => hcc hh.1.symm, if_neg]
    intro hh
    exact hcc (congrArg (fun x => x.1.1) hh)

theorem B_mul_V (D : FEnts K) (c : Q) (r : Fin (Spec.mult lc c.1)) (g : Fin (T.dim c.1))
    (js : Ix (dom.spaces.map (spaceDim T.dim))) :
    (B T Q lc ld D * V R T Q dom ld) ⟨c, r, g⟩ js =
      ∑ t : Fin (Spec.mult ld c.1), matrixOf lc ld D c.1 r t * vec R T dom c.1 t g js.1 := by
  rw [Matrix.mul_apply, Fintype.sum_sigma, Finset.sum_eq_single c]
  · rw [Fintype.sum_prod_type]
    refine Finset.sum_congr rfl fun t _ => ?_
    rw [Finset.sum_eq_single g]
    · rw [B, Matrix.blockDiagonal'_apply_eq, Matrix.kronecker_apply, Matrix.one_apply_eq, mul_one]
      rfl
    · intro g' _ hne
      rw [B, Matrix.blockDiagonal'_apply_eq, Matrix.kronecker_apply, Matrix.one_apply_ne hne.symm, mul_zero, zero_mul]
    · simp
  · intro c' _ hne
    refine Finset.sum_eq_zero fun x _ => ?_
    rw [B, Matrix.blockDiagonal'_apply_ne _ _ _ hne.symm, zero_mul]
  · simp

theorem mult_zero {l : BLeg S} (h : Coupled l) {c : S} (hc : c ∉ l.sectors) : Spec.mult l c = 0 := by
  unfold Spec.mult
  rw [List.idxOf_eq_length hc, h.len]
  simp

/-- A sum over the coupled sectors, if the other terms vanish. -/
theorem sum_Q {l : BLeg S} (h : Coupled l) (hQ : ∀ c ∈ l.sectors, c ∈ Q) (f : S → K)
    (hf : ∀ c, c ∉ l.sectors → f c = 0) : (l.sectors.map f).sum = ∑ c : Q, f c.1 := by
  rw [Finset.sum_coe_sort Q f, ← List.sum_toFinset f h.nodup]
  refine Finset.sum_subset (fun c hc => hQ c (List.mem_toFinset.1 hc)) fun c _ hc => hf c fun hh => hc ?_
  exact List.mem_toFinset.2 hh

/-- The dense block in terms of the matrices of the sectors -/
theorem core_eq (hc : SideOK R cod lc) (hd : SideOK R dom ld) (D : FEnts K) (hD : FSane lc ld D) (is js : List ℕ)
    (hi : is.length = cod.spaces.length) (hj : js.length = dom.spaces.length) :
    toDenseCore R T lc.sectors cod dom D is js = (lc.sectors.map fun c =>
      ∑ r : Fin (Spec.mult lc c), ∑ t : Fin (Spec.mult ld c), ∑ g : Fin (T.dim c),
        star (vec R T cod c r g is) * (matrixOf lc ld D c r t * vec R T dom c t g js)).sum := by
  have e1 := sum_sectors hc.coupled D hD.lt fun c e => ((visits R T.dim true cod dom c).map
    (contribution T c e.2 is js)).sum
  refine Eq.trans (Eq.trans ?_ e1.symm) ?_
  · unfold toDenseCore
    refine sum_congr _ fun e _ => ?_
    cases lc.sectors[e.1.1]? <;> rfl
  refine sum_congr _ fun c _ => ?_
  have e3 : ∀ e ∈ D, (if lc.sectors[e.1.1]? = some c then ((visits R T.dim true cod dom c).map
      (contribution T c e.2 is js)).sum else 0) =
      ((List.range (Spec.mult lc c)).map fun r => ((List.range (Spec.mult ld c)).map fun t =>
        ((List.range (T.dim c)).map fun g =>
        star (vec R T cod c r g is) * ((if lc.sectors[e.1.1]? = some c then e.2.val r t else 0) *
          vec R T dom c t g js)).sum).sum).sum := by
    intro e _
    by_cases h : lc.sectors[e.1.1]? = some c
    · simp only [if_pos h]
      rw [sum_contribution hc hd _ c e.2 is js hi hj]
    · simp [h]
  rw [sum_congr _ e3, sum_comm3 D (List.range (Spec.mult lc c)) (List.range (Spec.mult ld c)) (List.range (T.dim c))
    fun e r t g => star (vec R T cod c r g is) * ((if lc.sectors[e.1.1]? = some c then e.2.val r t else 0) *
          vec R T dom c t g js), sum_range_fin]
  refine Finset.sum_congr rfl fun r _ => ?_
  rw [sum_range_fin]
  refine Finset.sum_congr rfl fun t _ => ?_
  rw [sum_range_fin]
  refine Finset.sum_congr rfl fun g _ => ?_
  rw [← ListSum.mul_sum, ← ListSum.sum_mul, ← matrixOf_sum hD hc.coupled hd.coupled]

theorem ix_len {shape : List ℕ} (x : Ix shape) : x.1.length = shape.length := by
  have := (mem_gridC _ _).1 (List.mem_toFinset.1 x.2)
  exact List.Forall₂.length_eq this

theorem Dn_eq (hc : SideOK R cod lc) (hd : SideOK R dom ld) (D : FEnts K) (hD : FSane lc ld D)
    (hQ : ∀ c ∈ lc.sectors, c ∈ Q) :
    Dn R T cod dom lc D = (V R T Q cod lc)ᴴ * (B T Q lc ld D * V R T Q dom ld) := by
  ext is js
  rw [Dn, core_eq hc hd D hD is.1 js.1 (by simpa using ix_len is) (by simpa using ix_len js), Matrix.mul_apply,
    Fintype.sum_sigma]
  rw [sum_Q Q hc.coupled hQ]
  · refine Finset.sum_congr rfl fun c _ => ?_
    rw [Fintype.sum_prod_type]
    refine Finset.sum_congr rfl fun r _ => ?_
    rw [Finset.sum_comm]
    refine Finset.sum_congr rfl fun g _ => ?_
    rw [B_mul_V, Finset.mul_sum]
    rfl
  · intro c hcc
    have h0 := mult_zero hc.coupled hcc
    refine Finset.sum_eq_zero fun r _ => ?_
    exact absurd r.2 (by omega)

end

end Cyten.FT
