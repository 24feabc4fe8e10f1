import Verif.Lemmas.ProductSym4

namespace Cyten
open Spec

/-- A symmetry whose sectors have one entry, seen as a symmetry with array sectors. -/
def liftCat (A : Cat ℤ ℂ) : Cat (List ℤ) ℂ where
  valid a := ∃ x, a = [x] ∧ A.valid x
  unit := [A.unit]
  out a b := (A.out (a.headD 0) (b.headD 0)).map fun x => [x]
  dual a := [A.dual (a.headD 0)]
  F a b c d e f := A.F (a.headD 0) (b.headD 0) (c.headD 0) (d.headD 0) (e.headD 0) (f.headD 0)
  R a b c := A.R (a.headD 0) (b.headD 0) (c.headD 0)
  C a b c d e f := A.C (a.headD 0) (b.headD 0) (c.headD 0) (d.headD 0) (e.headD 0) (f.headD 0)

namespace LiftCat
variable {A : Cat ℤ ℂ}

theorem len (a : List ℤ) (h : (liftCat A).valid a) : a.length = 1 := by
  obtain ⟨x, rfl, -⟩ := h; rfl

theorem mem_out (x y z : ℤ) : [z] ∈ (liftCat A).out [x] [y] ↔ z ∈ A.out x y := by
  simp [liftCat]

theorem mem_out' (x y : ℤ) (c : List ℤ) : c ∈ (liftCat A).out [x] [y] ↔ ∃ z ∈ A.out x y, c = [z] := by
  simp only [liftCat, List.headD_cons, List.mem_map]
  exact ⟨fun ⟨z, h, e⟩ => ⟨z, h, e.symm⟩, fun ⟨z, h, e⟩ => ⟨z, h, e.symm⟩⟩

theorem filt {K : Type} [AddCommMonoid K] (l : List ℤ) (p : List ℤ → Bool) (g : List ℤ → K) :
    (((l.map fun x => [x]).filter p).map g).sum =
      ((l.filter fun x => p [x]).map fun x => g [x]).sum := by
  induction l with
  | nil => rfl
  | cons x l ih => 
    simp only [List.map_cons, List.filter_cons]
    split <;> simp_all

theorem filt_len (l : List ℤ) (p : List ℤ → Bool) :
    ((l.map fun x => [x]).filter p).length = (l.filter fun x => p [x]).length := by
  induction l with
  | nil => rfl
  | cons x l ih => 
    simp only [List.map_cons, List.filter_cons]
    split <;> simp_all

theorem ring (h : A.FusionRing) : (liftCat A).FusionRing := by
  constructor
  · exact ⟨_, rfl, h.unit_valid⟩
  · rintro _ _ ⟨x, rfl, hx⟩ ⟨y, rfl, hy⟩ c hc
    obtain ⟨z, hz, rfl⟩ := (mem_out' x y c).1 hc
    exact ⟨z, rfl, h.closed x y hx hy z hz⟩
  · rintro _ _ ⟨x, rfl, hx⟩ ⟨y, rfl, hy⟩
    exact (h.nodup x y hx hy).map (fun a b e => by simpa using e)
  · rintro _ ⟨x, rfl, hx⟩
    simp [liftCat, h.unit_left x hx]
  · rintro _ ⟨x, rfl, hx⟩
    simp [liftCat, h.unit_right x hx]
  · rintro _ _ ⟨x, rfl, hx⟩ ⟨y, rfl, hy⟩ c
    simp only [mem_out', h.comm x y hx hy]
  · rintro _ _ _ _ ⟨x, rfl, hx⟩ ⟨y, rfl, hy⟩ ⟨z, rfl, hz⟩ ⟨w, rfl, hw⟩
    have := h.assoc x y z w hx hy hz hw
    refine (filt_len _ _).trans (Eq.trans ?_ (this.trans (Eq.trans ?_ (filt_len _ _).symm)))
    · simp only [mem_out, List.headD_cons]
    · simp only [mem_out, List.headD_cons]
  · rintro _ ⟨x, rfl, hx⟩
    exact ⟨_, rfl, h.dual_valid x hx⟩
  · rintro _ ⟨x, rfl, hx⟩
    simp [liftCat, h.dual_dual x hx]
  · rintro _ _ ⟨x, rfl, hx⟩ ⟨y, rfl, hy⟩
    have := h.dual_iff x y hx hy
    simp only [liftCat, List.headD_cons, List.mem_map, List.cons.injEq, and_true]
    rw [← this]; simp

theorem FR (h : A.UnitaryBraidedFR) : (liftCat A).UnitaryBraidedFR := by
  have hR := h.ring
  refine ⟨ring h.ring, ?_, ⟨?_, ?_⟩, ?_, ?_, ?_⟩
  · rintro _ _ c ⟨x, rfl, hx⟩ ⟨y, rfl, hy⟩ hc
    obtain ⟨z, hz, rfl⟩ := (mem_out' x y c).1 hc
    exact h.rPhase x y z hx hy hz
  · rintro _ _ _ _ ⟨x, rfl, hx⟩ ⟨y, rfl, hy⟩ ⟨z, rfl, hz⟩ ⟨w, rfl, hw⟩ f hf f' hf'
    simp only [Cat.chL, List.mem_filter, decide_eq_true_eq] at hf hf'
    obtain ⟨hf1, hf2⟩ := hf
    obtain ⟨hf'1, hf'2⟩ := hf'
    obtain ⟨u, hu, rfl⟩ := (mem_out' x y f).1 hf1
    obtain ⟨v, hv, rfl⟩ := (mem_out' x y f').1 hf'1
    rw [mem_out] at hf2 hf'2
    have := h.fUnitary.rows x y z w hx hy hz hw u (by simp [Cat.chL, hu, hf2]) v
      (by simp [Cat.chL, hv, hf'2])
    have e : ((if [u] = [v] then 1 else 0) : ℂ) = if u = v then 1 else 0 := by simp
    rw [e, ← this]
    refine (filt _ _ _).trans ?_
    simp only [Cat.chR, mem_out, List.headD_cons]
    rfl
  · rintro _ _ _ _ ⟨x, rfl, hx⟩ ⟨y, rfl, hy⟩ ⟨z, rfl, hz⟩ ⟨w, rfl, hw⟩ f hf f' hf'
    simp only [Cat.chR, List.mem_filter, decide_eq_true_eq] at hf hf'
    obtain ⟨hf1, hf2⟩ := hf
    obtain ⟨hf'1, hf'2⟩ := hf'
    obtain ⟨u, hu, rfl⟩ := (mem_out' y z f).1 hf1
    obtain ⟨v, hv, rfl⟩ := (mem_out' y z f').1 hf'1
    rw [mem_out] at hf2 hf'2
    have := h.fUnitary.cols x y z w hx hy hz hw u (by simp [Cat.chR, hu, hf2]) v
      (by simp [Cat.chR, hv, hf'2])
    have e : ((if [u] = [v] then 1 else 0) : ℂ) = if u = v then 1 else 0 := by simp
    rw [e, ← this]
    refine (filt _ _ _).trans ?_
    simp only [Cat.chL, mem_out, List.headD_cons]
    rfl
  · rintro _ _ _ _ ⟨x, rfl, hx⟩ ⟨y, rfl, hy⟩ ⟨z, rfl, hz⟩ ⟨w, rfl, hw⟩ f hf g hg e he j hj i hi h1 h2
    obtain ⟨f, hf, rfl⟩ := (mem_out' _ _ _).1 hf
    obtain ⟨g, hg, rfl⟩ := (mem_out' _ _ _).1 hg
    obtain ⟨e, he, rfl⟩ := (mem_out' _ _ _).1 he
    obtain ⟨j, hj, rfl⟩ := (mem_out' _ _ _).1 hj
    obtain ⟨i, hi, rfl⟩ := (mem_out' _ _ _).1 hi
    rw [mem_out] at h1 h2
    have := h.pentagon x y z w hx hy hz hw f ((mem_out _ _ _).1 hf) g ((mem_out _ _ _).1 hg) e ((mem_out _ _ _).1 he) j ((mem_out _ _ _).1 hj) i ((mem_out _ _ _).1 hi) h1 h2
    refine this.trans (Eq.trans ?_ (filt _ _ _).symm)
    simp only [mem_out, List.headD_cons]
    rfl
  · rintro _ _ _ _ ⟨x, rfl, hx⟩ ⟨y, rfl, hy⟩ ⟨z, rfl, hz⟩ ⟨w, rfl, hw⟩ e he hde g hg hdg
    obtain ⟨e, he, rfl⟩ := (mem_out' _ _ _).1 he
    obtain ⟨g, hg, rfl⟩ := (mem_out' _ _ _).1 hg
    rw [mem_out] at hde hdg
    have := h.hexagon x y z w hx hy hz hw e ((mem_out _ _ _).1 he) hde g ((mem_out _ _ _).1 hg) hdg
    refine this.trans (Eq.trans ?_ (filt _ _ _).symm)
    simp only [mem_out, List.headD_cons]
    rfl
  · rintro _ _ _ _ ⟨x, rfl, hx⟩ ⟨y, rfl, hy⟩ ⟨z, rfl, hz⟩ ⟨w, rfl, hw⟩ e he hde g hg hdg
    obtain ⟨e, he, rfl⟩ := (mem_out' _ _ _).1 he
    obtain ⟨g, hg, rfl⟩ := (mem_out' _ _ _).1 hg
    rw [mem_out] at hde hdg
    have := h.hexagon' x y z w hx hy hz hw e ((mem_out _ _ _).1 he) hde g ((mem_out _ _ _).1 hg) hdg
    refine this.trans (Eq.trans ?_ (filt _ _ _).symm)
    simp only [mem_out, List.headD_cons]
    rfl

theorem qdim {d : ℤ → ℝ} (h : A.QdimCharacter d) :
    (liftCat A).QdimCharacter fun a => d (a.headD 0) := by
  constructor
  · rintro _ ⟨x, rfl, hx⟩; exact h.pos x hx
  · exact h.unit
  · rintro _ _ ⟨x, rfl, hx⟩ ⟨y, rfl, hy⟩
    simpa [liftCat, Function.comp_def] using h.mul x y hx hy
  · rintro _ ⟨x, rfl, hx⟩
    simpa [liftCat] using h.dual x hx

theorem ribbon {d : ℤ → ℝ} {t : ℤ → ℂ} (h : A.Ribbon d t) :
    (liftCat A).Ribbon (fun a => d (a.headD 0)) fun a => t (a.headD 0) := by
  constructor
  · rintro _ ⟨x, rfl, hx⟩
    simpa [liftCat, Function.comp_def] using h.formula x hx
  · rintro _ ⟨x, rfl, hx⟩; exact h.phase x hx
  · rintro _ _ c ⟨x, rfl, hx⟩ ⟨y, rfl, hy⟩ hc
    obtain ⟨z, hz, rfl⟩ := (mem_out' x y c).1 hc
    exact h.balance x y z hx hy hz
  · rintro _ ⟨x, rfl, hx⟩
    simpa [liftCat] using h.dual x hx

end LiftCat
end Cyten
