import Verif.Lemmas.ProductSym
import Mathlib.Algebra.Order.BigOperators.Group.List

namespace Cyten
open Spec

namespace ProductSym

/-- the product of no factors: one sector, the empty one -/
def oneCat : Cat (List ℤ) ℂ where
  valid a := a = []
  unit := []
  out _ _ := [[]]
  dual _ := []
  F _ _ _ _ _ _ := 1
  R _ _ _ := 1
  C _ _ _ _ _ _ := 0

def prodCat : List Factor → Cat (List ℤ) ℂ
  | [] => oneCat
  | f :: fs => consCat f.len f.cat (prodCat fs)

theorem oneCat_FR : oneCat.UnitaryBraidedFR := by
  constructor
  · constructor <;> simp [oneCat]
  · intro a b c _ _ _; simp [oneCat]
  · constructor
    · rintro a b c d rfl rfl rfl rfl f hf f' hf'
      simp only [Cat.chL, oneCat, List.mem_filter, List.mem_singleton] at hf hf'
      simp [Cat.chR, oneCat, hf.1, hf'.1]
    · rintro a b c d rfl rfl rfl rfl f hf f' hf'
      simp only [Cat.chR, oneCat, List.mem_filter, List.mem_singleton] at hf hf'
      simp [Cat.chL, oneCat, hf.1, hf'.1]
  · rintro a b c d rfl rfl rfl rfl f hf g hg e he j hj i hi _ _
    simp only [oneCat, List.mem_singleton] at *
    simp [*]
  · rintro a b c d rfl rfl rfl rfl e he _ g hg _
    simp only [oneCat, List.mem_singleton] at *
    simp
  · rintro a b c d rfl rfl rfl rfl e he _ g hg _
    simp only [oneCat, List.mem_singleton] at *
    simp

theorem prodCat_FR (fs : List Factor) (h : ∀ f ∈ fs, f.cat.UnitaryBraidedFR)
    (hn : ∀ f ∈ fs, ∀ a, f.cat.valid a → a.length = f.len) : (prodCat fs).UnitaryBraidedFR := by
  induction fs with
  | nil => exact oneCat_FR
  | cons f fs ih =>
    exact cons_FR (hn f (by simp)) (h f (by simp))
      (ih (fun g hg => h g (by simp [hg])) (fun g hg => hn g (by simp [hg])))

theorem slices_shift (off k : ℕ) (fs : List Factor) :
    slices (off + k) fs = (slices k fs).map fun p => (off + p.1, p.2) := by
  induction fs generalizing k with
  | nil => rfl
  | cons f fs ih => simp [slices, ← ih, Nat.add_assoc]

theorem slices_cons (f : Factor) (fs : List Factor) :
    slices 0 (f :: fs) = (0, f) :: (slices 0 fs).map fun p => (f.len + p.1, p.2) := by
  have := slices_shift f.len 0 fs
  simp only [Nat.add_zero] at this
  simp [slices, this]

theorem slice_shift (a : List ℤ) (off k : ℕ) (f : Factor) :
    slice a (off + k, f) = slice (a.drop off) (k, f) := by
  simp [slice, List.drop_drop]

theorem slice_zero (a : List ℤ) (f : Factor) : slice a (0, f) = a.take f.len := by simp [slice]

theorem foldl_mul {K α : Type} [CommMonoid K] (l : List α) (g : α → K) (r : K) :
    l.foldl (fun r p => r * g p) r = r * (l.map g).prod := by
  induction l generalizing r with
  | nil => simp
  | cons x l ih => simp [ih, mul_assoc]

theorem fSym_cons (f : Factor) (fs : List Factor) (a b c d e g : List ℤ) :
    fSym (f :: fs) a b c d e g = f.cat.F (a.take f.len) (b.take f.len) (c.take f.len)
      (d.take f.len) (e.take f.len) (g.take f.len) *
      fSym fs (a.drop f.len) (b.drop f.len) (c.drop f.len) (d.drop f.len) (e.drop f.len)
        (g.drop f.len) := by
  unfold fSym
  rw [foldl_mul, foldl_mul, slices_cons]
  simp only [List.map_cons, List.prod_cons, List.map_map, slice_zero, one_mul, Function.comp_def,
    slice_shift]

theorem rSym_cons (f : Factor) (fs : List Factor) (a b c : List ℤ) :
    rSym (f :: fs) a b c = f.cat.R (a.take f.len) (b.take f.len) (c.take f.len) *
      rSym fs (a.drop f.len) (b.drop f.len) (c.drop f.len) := by
  unfold rSym
  rw [foldl_mul, foldl_mul, slices_cons]
  simp only [List.map_cons, List.prod_cons, List.map_map, slice_zero, one_mul, Function.comp_def,
    slice_shift]

theorem dual_cons (f : Factor) (fs : List Factor) (a : List ℤ) :
    dual (f :: fs) a = f.cat.dual (a.take f.len) ++ dual fs (a.drop f.len) := by
  unfold dual
  rw [slices_cons]
  simp only [List.map_cons, List.flatten_cons, List.map_map, slice_zero, Function.comp_def,
    slice_shift]

def outs (fs : List Factor) (a b : List ℤ) : List (List ℤ) :=
  cartesian ((slices 0 fs).map fun p => p.2.cat.out (slice a p) (slice b p))

theorem outs_cons (f : Factor) (fs : List Factor) (a b : List ℤ) :
    outs (f :: fs) a b = pairs (f.cat.out (a.take f.len) (b.take f.len))
      (outs fs (a.drop f.len) (b.drop f.len)) := by
  unfold outs
  rw [slices_cons]
  simp only [List.map_cons, cartesian, List.map_map, slice_zero, Function.comp_def,
    slice_shift, pairs]

theorem valid_iff (fs : List Factor)
    (hn : ∀ f ∈ fs, ∀ a, f.cat.valid a → a.length = f.len) (a : List ℤ) :
    valid fs a ↔ (prodCat fs).valid a := by
  induction fs generalizing a with
  | nil => simp [valid, prodCat, oneCat, slices]
  | cons f fs ih =>
    have ih' := ih (fun g hg => hn g (by simp [hg])) (a.drop f.len)
    have hv : (prodCat (f :: fs)).valid a ↔
      f.cat.valid (a.take f.len) ∧ (prodCat fs).valid (a.drop f.len) := Iff.rfl
    rw [hv, ← ih']
    unfold valid
    rw [slices_cons]
    simp only [List.map_cons, List.sum_cons, List.mem_cons, List.mem_map, List.length_drop]
    constructor
    · rintro ⟨h1, h2⟩
      refine ⟨by simpa [slice_zero] using h2 (0, f) (Or.inl rfl), by omega, ?_⟩
      intro p hp
      have := h2 _ (Or.inr ⟨p, hp, rfl⟩)
      simpa [slice_shift] using this
    · rintro ⟨h1, h2, h3⟩
      have h4 := hn f (by simp) _ h1
      rw [List.length_take] at h4
      refine ⟨by omega, ?_⟩
      rintro p (rfl | ⟨q, hq, rfl⟩)
      · simpa [slice_zero] using h1
      · simpa [slice_shift] using h3 q hq

theorem cat_eq (fs : List Factor) (hne : fs ≠ [])
    (hn : ∀ f ∈ fs, ∀ a, f.cat.valid a → a.length = f.len) :
    { cat fs with C := fun _ _ _ _ _ _ => 0 } = prodCat fs := by
  have hv : valid fs = (prodCat fs).valid := funext fun a => propext (valid_iff fs hn a)
  have hu : (fs.map fun f => f.cat.unit).flatten = (prodCat fs).unit := by
    clear hne hn hv
    induction fs with
    | nil => rfl
    | cons f fs ih => simp only [List.map_cons, List.flatten_cons, ih]; rfl
  have ho : fusionOutcomes fs = (prodCat fs).out := by
    have : fusionOutcomes fs = outs fs := by
      funext a b; unfold fusionOutcomes outs; simp [hne]
    rw [this]
    clear hne hn hv hu this
    induction fs with
    | nil => rfl
    | cons f fs ih => funext a b; rw [outs_cons, ih]; rfl
  have hd : dual fs = (prodCat fs).dual := by
    clear hne hn hv hu ho
    induction fs with
    | nil => rfl
    | cons f fs ih => funext a; rw [dual_cons, ih]; rfl
  have hF : fSym fs = (prodCat fs).F := by
    clear hne hn hv hu ho hd
    induction fs with
    | nil => rfl
    | cons f fs ih => funext a b c d e g; rw [fSym_cons, ih]; rfl
  have hR : rSym fs = (prodCat fs).R := by
    clear hne hn hv hu ho hd hF
    induction fs with
    | nil => rfl
    | cons f fs ih => funext a b c; rw [rSym_cons, ih]; rfl
  have hC : (fun (_ _ _ _ _ _ : List ℤ) => (0 : ℂ)) = (prodCat fs).C := by
    cases fs <;> rfl
  simp only [cat, hv, hu, ho, hd, hF, hR, hC]

theorem cat_unitaryBraided (fs : List Factor) (hne : fs ≠ [])
    (hn : ∀ f ∈ fs, ∀ a, f.cat.valid a → a.length = f.len)
    (h : ∀ f ∈ fs, f.cat.UnitaryBraidedFR) : (cat fs).UnitaryBraided := by
  have h0 : ({ cat fs with C := fun _ _ _ _ _ _ => 0 } : Cat (List ℤ) ℂ).UnitaryBraidedFR := by
    rw [cat_eq fs hne hn]; exact prodCat_FR fs h hn
  refine ⟨⟨h0.ring.1, h0.ring.2, h0.ring.3, h0.ring.4, h0.ring.5, h0.ring.6, h0.ring.7,
    h0.ring.8, h0.ring.9, h0.ring.10⟩, h0.rPhase, ⟨h0.fUnitary.1, h0.fUnitary.2⟩, h0.pentagon,
    h0.hexagon, h0.hexagon', ?_⟩
  intro a b c d e f _ _ _ _ _ _ _ _
  rfl

/-- componentwise characterisation of the outcomes -/
theorem mem_cartesian_iff (fs : List Factor) (a b c : List ℤ)
    (hl : ∀ p ∈ slices 0 fs, ∀ x ∈ p.2.cat.out (slice a p) (slice b p), x.length = p.2.len) :
    c ∈ outs fs a b ↔ c.length = (fs.map Factor.len).sum ∧
      ∀ p ∈ slices 0 fs, slice c p ∈ p.2.cat.out (slice a p) (slice b p) := by
  induction fs generalizing a b c with
  | nil => simp [outs, cartesian, slices]
  | cons f fs ih =>
    rw [slices_cons] at hl ⊢
    have h0 := hl (0, f) (by simp)
    simp only [slice_zero] at h0
    rw [outs_cons, mem_pairs h0, ih]
    · simp only [List.map_cons, List.sum_cons, List.mem_cons, List.mem_map, List.length_drop]
      constructor
      · rintro ⟨h1, h2, h3⟩
        have := h0 _ h1
        rw [List.length_take] at this
        refine ⟨by omega, ?_⟩
        rintro p (rfl | ⟨q, hq, rfl⟩)
        · simpa [slice_zero] using h1
        · simpa [slice_shift] using h3 q hq
      · rintro ⟨h1, h2⟩
        refine ⟨by simpa [slice_zero] using h2 (0, f) (Or.inl rfl), by omega, ?_⟩
        intro p hp
        have := h2 _ (Or.inr ⟨p, hp, rfl⟩)
        simpa [slice_shift] using this
    · intro p hp x hx
      have := hl (f.len + p.1, p.2) (by simp only [List.mem_cons, List.mem_map]; exact Or.inr ⟨p, hp, rfl⟩) x
      simp only [slice_shift] at this
      exact this hx

end ProductSym
end Cyten
