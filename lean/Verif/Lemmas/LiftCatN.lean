import Verif.Lemmas.CatNProd

/-! # Sectors with one entry as array sectors, with multiplicities -/

namespace Cyten.LiftCatN
open Spec CatNProd

/-- `Q` has the data of `A` with every sector wrapped into an array of length one. -/
structure IsLift (Q : CatN (List ℤ) ℂ) (A : CatN ℤ ℂ) : Prop where
  valid : ∀ a, Q.valid a ↔ ∃ x, a = [x] ∧ A.valid x
  unit : Q.unit = [A.unit]
  out : ∀ x y, Q.out [x] [y] = (A.out x y).map fun z => [z]
  dual : ∀ x, Q.dual [x] = [A.dual x]
  N : ∀ x y z, Q.N [x] [y] [z] = A.N x y z
  F : ∀ a b c d e f i j k l, Q.F [a] [b] [c] [d] [e] [f] i j k l = A.F a b c d e f i j k l
  R : ∀ a b c i, Q.R [a] [b] [c] i = A.R a b c i

variable {Q : CatN (List ℤ) ℂ} {A : CatN ℤ ℂ} (h : IsLift Q A)
include h

theorem mem_out (x y z : ℤ) : [z] ∈ Q.out [x] [y] ↔ z ∈ A.out x y := by
  simp [h.out]

theorem mem_out' (x y : ℤ) (c : List ℤ) : c ∈ Q.out [x] [y] ↔ ∃ z ∈ A.out x y, c = [z] := by
  rw [h.out, List.mem_map]
  exact ⟨fun ⟨z, h, e⟩ => ⟨z, h, e.symm⟩, fun ⟨z, h, e⟩ => ⟨z, h, e.symm⟩⟩

theorem ring (r : A.FusionRing) : Q.FusionRing := by
  constructor
  · rw [h.valid, h.unit]; exact ⟨_, rfl, r.unit_valid⟩
  · intro a b ha hb c hc
    rw [h.valid] at ha hb ⊢
    obtain ⟨x, rfl, hx⟩ := ha
    obtain ⟨y, rfl, hy⟩ := hb
    obtain ⟨z, hz, rfl⟩ := (mem_out' h x y c).1 hc
    exact ⟨z, rfl, r.closed x y hx hy z hz⟩
  · intro a b ha hb
    rw [h.valid] at ha hb
    obtain ⟨x, rfl, hx⟩ := ha
    obtain ⟨y, rfl, hy⟩ := hb
    rw [h.out]
    exact (r.nodup x y hx hy).map (fun a b e => by simpa using e)
  · intro a b c ha hb hc
    rw [h.valid] at ha hb hc
    obtain ⟨x, rfl, hx⟩ := ha
    obtain ⟨y, rfl, hy⟩ := hb
    obtain ⟨z, rfl, hz⟩ := hc
    rw [mem_out h, h.N, r.mem_iff x y z hx hy hz]
  · intro a c ha hc
    rw [h.valid] at ha hc
    obtain ⟨x, rfl, hx⟩ := ha
    obtain ⟨z, rfl, hz⟩ := hc
    rw [h.unit, h.N, r.unit_left x z hx hz]
    simp
  · intro a c ha hc
    rw [h.valid] at ha hc
    obtain ⟨x, rfl, hx⟩ := ha
    obtain ⟨z, rfl, hz⟩ := hc
    rw [h.unit, h.N, r.unit_right x z hx hz]
    simp
  · intro a b c ha hb hc
    rw [h.valid] at ha hb hc
    obtain ⟨x, rfl, hx⟩ := ha
    obtain ⟨y, rfl, hy⟩ := hb
    obtain ⟨z, rfl, hz⟩ := hc
    rw [h.N, h.N, r.comm x y z hx hy hz]
  · intro a b c d ha hb hc hd
    rw [h.valid] at ha hb hc hd
    obtain ⟨x, rfl, hx⟩ := ha
    obtain ⟨y, rfl, hy⟩ := hb
    obtain ⟨z, rfl, hz⟩ := hc
    obtain ⟨w, rfl, hw⟩ := hd
    rw [h.out, h.out, List.map_map, List.map_map]
    simp only [Function.comp_def, h.N]
    exact r.assoc x y z w hx hy hz hw
  · intro a ha
    rw [h.valid] at ha ⊢
    obtain ⟨x, rfl, hx⟩ := ha
    exact ⟨_, h.dual x, r.dual_valid x hx⟩
  · intro a ha
    rw [h.valid] at ha
    obtain ⟨x, rfl, hx⟩ := ha
    rw [h.dual, h.dual, r.dual_dual x hx]
  · intro a b ha hb
    rw [h.valid] at ha hb
    obtain ⟨x, rfl, hx⟩ := ha
    obtain ⟨y, rfl, hy⟩ := hb
    rw [h.unit, h.N, h.dual, r.dual_iff x y hx hy]
    simp
  · intro a b c ha hb hc
    rw [h.valid] at ha hb hc
    obtain ⟨x, rfl, hx⟩ := ha
    obtain ⟨y, rfl, hy⟩ := hb
    obtain ⟨z, rfl, hz⟩ := hc
    rw [h.dual, h.N, h.N, r.frobenius x y z hx hy hz]

/-- sums over the bases -/
theorem sumR (a b c d : ℤ) (g : List ℤ × ℕ × ℕ → ℂ) :
    ((Q.chR [a] [b] [c] [d]).map g).sum =
      ((A.chR a b c d).map fun x => g ([x.1], x.2.1, x.2.2)).sum := by
  simp only [CatN.chR, h.out, ListSum.sum_flatMap, List.map_map, Function.comp_def, h.N]

theorem sumL (a b c d : ℤ) (g : List ℤ × ℕ × ℕ → ℂ) :
    ((Q.chL [a] [b] [c] [d]).map g).sum =
      ((A.chL a b c d).map fun x => g ([x.1], x.2.1, x.2.2)).sum := by
  simp only [CatN.chL, h.out, ListSum.sum_flatMap, List.map_map, Function.comp_def, h.N]

theorem memR (a b c d : ℤ) (x : List ℤ × ℕ × ℕ) (hx : x ∈ Q.chR [a] [b] [c] [d]) :
    ∃ y ∈ A.chR a b c d, x = ([y.1], y.2.1, y.2.2) := by
  rw [mem_chR] at hx
  obtain ⟨e, μ, ν⟩ := x
  obtain ⟨h1, h2, h3⟩ := hx
  obtain ⟨z, hz, he⟩ := (mem_out' h b c _).1 h1
  simp only at he h2 h3
  subst he
  rw [h.N] at h2 h3
  refine ⟨(z, μ, ν), ?_, rfl⟩
  simp only [CatN.chR, List.mem_flatMap, List.mem_map, List.mem_range]
  exact ⟨z, hz, μ, h2, ν, h3, rfl⟩

theorem memL (a b c d : ℤ) (x : List ℤ × ℕ × ℕ) (hx : x ∈ Q.chL [a] [b] [c] [d]) :
    ∃ y ∈ A.chL a b c d, x = ([y.1], y.2.1, y.2.2) := by
  rw [mem_chL] at hx
  obtain ⟨e, μ, ν⟩ := x
  obtain ⟨h1, h2, h3⟩ := hx
  obtain ⟨z, hz, he⟩ := (mem_out' h a b _).1 h1
  simp only at he h2 h3
  subst he
  rw [h.N] at h2 h3
  refine ⟨(z, μ, ν), ?_, rfl⟩
  simp only [CatN.chL, List.mem_flatMap, List.mem_map, List.mem_range]
  exact ⟨z, hz, μ, h2, ν, h3, rfl⟩

theorem core (hA : A.UnitaryBraided) : Core Q := by
  have r := ring h hA.ring
  refine ⟨r, ?_, ?_, ?_, ?_, ?_, ?_⟩
  · constructor
    · intro a b c ha hb hc μ hμ
      rw [h.valid] at ha hb
      obtain ⟨x, rfl, hx⟩ := ha
      obtain ⟨y, rfl, hy⟩ := hb
      obtain ⟨z, hz, rfl⟩ := (mem_out' h x y c).1 hc
      rw [h.N] at hμ
      rw [h.R]
      exact hA.rPhase.phase x y z hx hy hz μ hμ
    · intro a ha
      rw [h.valid] at ha
      obtain ⟨x, rfl, hx⟩ := ha
      rw [h.unit, h.R, h.R]
      exact hA.rPhase.unit x hx
  · constructor
    · intro a b c d ha hb hc hd x hx x' hx'
      rw [h.valid] at ha hb hc hd
      obtain ⟨a, rfl, ha⟩ := ha
      obtain ⟨b, rfl, hb⟩ := hb
      obtain ⟨c, rfl, hc⟩ := hc
      obtain ⟨d, rfl, hd⟩ := hd
      obtain ⟨y, hy, rfl⟩ := memR h a b c d x hx
      obtain ⟨y', hy', rfl⟩ := memR h a b c d x' hx'
      have := hA.fUnitary.rows a b c d ha hb hc hd y hy y' hy'
      rw [sumL h]
      simp only [CatN.FM, h.F] at this ⊢
      rw [this]
      congr 1
      obtain ⟨y1, y2, y3⟩ := y
      obtain ⟨z1, z2, z3⟩ := y'
      simp
    · intro a b c d ha hb hc hd x hx x' hx'
      rw [h.valid] at ha hb hc hd
      obtain ⟨a, rfl, ha⟩ := ha
      obtain ⟨b, rfl, hb⟩ := hb
      obtain ⟨c, rfl, hc⟩ := hc
      obtain ⟨d, rfl, hd⟩ := hd
      obtain ⟨y, hy, rfl⟩ := memL h a b c d x hx
      obtain ⟨y', hy', rfl⟩ := memL h a b c d x' hx'
      have := hA.fUnitary.cols a b c d ha hb hc hd y hy y' hy'
      rw [sumR h]
      simp only [CatN.FM, h.F] at this ⊢
      rw [this]
      congr 1
      obtain ⟨y1, y2, y3⟩ := y
      obtain ⟨z1, z2, z3⟩ := y'
      simp
  · intro b c d hb hc hd μ hμ ν hν
    rw [h.valid] at hb hc
    obtain ⟨b, rfl, hb⟩ := hb
    obtain ⟨c, rfl, hc⟩ := hc
    obtain ⟨z, hz, rfl⟩ := (mem_out' h b c d).1 hd
    rw [h.N] at hμ hν
    rw [h.unit, h.F, h.F, h.F]
    exact hA.triangle b c z hb hc hz μ hμ ν hν
  · intro a b c d ha hb hc hd f hf g hg e he j hj i hi hm μ hμ ν hν ρ hρ γ hγ δ hδ κ hκ
    rw [h.valid] at ha hb hc hd
    obtain ⟨a, rfl, ha⟩ := ha
    obtain ⟨b, rfl, hb⟩ := hb
    obtain ⟨c, rfl, hc⟩ := hc
    obtain ⟨d, rfl, hd⟩ := hd
    obtain ⟨f, -, rfl⟩ := (mem_out' h _ _ _).1 hf
    obtain ⟨g, -, rfl⟩ := (mem_out' h _ _ _).1 hg
    obtain ⟨e, -, rfl⟩ := (mem_out' h _ _ _).1 he
    obtain ⟨j, -, rfl⟩ := (mem_out' h _ _ _).1 hj
    obtain ⟨i, -, rfl⟩ := (mem_out' h _ _ _).1 hi
    rw [mem_out h] at hf hg he hj hi hm
    simp only [h.N] at hμ hν hρ hγ hδ hκ
    have := hA.pentagon a b c d ha hb hc hd f hf g hg e he j hj i hi hm μ hμ ν hν ρ hρ γ hγ δ hδ κ hκ
    simp only [h.N, h.F, h.out, sum_fm, List.map_map, Function.comp_def] at this ⊢
    exact this
  · intro a b c d ha hb hc hd e he g hg α hα β hβ μ hμ ν hν
    rw [h.valid] at ha hb hc hd
    obtain ⟨a, rfl, ha⟩ := ha
    obtain ⟨b, rfl, hb⟩ := hb
    obtain ⟨c, rfl, hc⟩ := hc
    obtain ⟨d, rfl, hd⟩ := hd
    obtain ⟨e, -, rfl⟩ := (mem_out' h _ _ _).1 he
    obtain ⟨g, -, rfl⟩ := (mem_out' h _ _ _).1 hg
    rw [mem_out h] at he hg
    simp only [h.N] at hα hβ hμ hν
    have := hA.hexagon a b c d ha hb hc hd e he g hg α hα β hβ μ hμ ν hν
    simp only [h.N, h.F, h.R, h.out, sum_fm, List.map_map, Function.comp_def] at this ⊢
    exact this
  · intro a b c d ha hb hc hd e he g hg α hα β hβ μ hμ ν hν
    rw [h.valid] at ha hb hc hd
    obtain ⟨a, rfl, ha⟩ := ha
    obtain ⟨b, rfl, hb⟩ := hb
    obtain ⟨c, rfl, hc⟩ := hc
    obtain ⟨d, rfl, hd⟩ := hd
    obtain ⟨e, -, rfl⟩ := (mem_out' h _ _ _).1 he
    obtain ⟨g, -, rfl⟩ := (mem_out' h _ _ _).1 hg
    rw [mem_out h] at he hg
    simp only [h.N] at hα hβ hμ hν
    have := hA.hexagon' a b c d ha hb hc hd e he g hg α hα β hβ μ hμ ν hν
    simp only [h.N, h.F, h.R, h.out, sum_fm, List.map_map, Function.comp_def] at this ⊢
    exact this

end Cyten.LiftCatN
