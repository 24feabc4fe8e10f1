import Verif.Spec.CategoryN
import Verif.Lemmas.ProductSym3
import Verif.Lemmas.ListSum
import Mathlib.Analysis.Real.Sqrt

/-! # Products of categories with fusion multiplicities -/

namespace Cyten
open Spec

/-- a sum over a product of index ranges factorises -/
theorem range_fac {K : Type} [CommSemiring K] (n m : ℕ) (f f1 f2 : ℕ → K)
    (h : ∀ i < n * m, f i = f1 (i / m) * f2 (i % m)) :
    ((List.range (n * m)).map f).sum = ((List.range n).map f1).sum * ((List.range m).map f2).sum := by
  induction n with
  | zero => simp
  | succ n ih =>
    have e : List.range ((n + 1) * m) = List.range (n * m) ++ (List.range m).map fun j => n * m + j := by
      rw [Nat.succ_mul, List.range_add]
    rw [e, List.map_append, List.sum_append, ih fun i hi => h i (by
      have : n * m ≤ (n + 1) * m := Nat.mul_le_mul_right _ (Nat.le_succ n)
      omega), List.range_succ, List.map_append, List.sum_append, add_mul]
    congr 1
    rw [List.map_map, List.map_singleton, List.sum_singleton, ListSum.mul_sum]
    refine ListSum.sum_congr _ fun j hj => ?_
    rw [List.mem_range] at hj
    have hm : 0 < m := by omega
    rw [Function.comp_apply, h (n * m + j) (by rw [Nat.succ_mul]; omega)]
    congr 2
    · rw [Nat.mul_comm n m, Nat.mul_add_div hm, Nat.div_eq_of_lt hj, Nat.add_zero]
    · rw [Nat.mul_comm n m, Nat.mul_add_mod, Nat.mod_eq_of_lt hj]

theorem div_lt_of {i n m : ℕ} (h : i < n * m) : i / m < n := Nat.div_lt_of_lt_mul (by rwa [Nat.mul_comm])
theorem mod_lt_of {i n m : ℕ} (h : i < n * m) : i % m < m :=
  Nat.mod_lt _ (Nat.pos_of_ne_zero fun e => by rw [e, Nat.mul_zero] at h; omega)

theorem eq_iff_div_mod (i j m : ℕ) : i = j ↔ i / m = j / m ∧ i % m = j % m :=
  ⟨fun h => by rw [h]; exact ⟨rfl, rfl⟩, fun ⟨h1, h2⟩ => by
    rw [← Nat.div_add_mod i m, ← Nat.div_add_mod j m, h1, h2]⟩

theorem ite_mul_ite {K : Type} [MulZeroOneClass K] (p q r : Prop) [Decidable p] [Decidable q]
    [Decidable r] (h : p ↔ q ∧ r) :
    (if p then (1 : K) else 0) = (if q then 1 else 0) * (if r then 1 else 0) := by
  by_cases hq : q <;> by_cases hr : r <;> simp [h, hq, hr]

theorem mul_pos_iff_of_nat (a b : ℕ) : 0 < a * b ↔ 0 < a ∧ 0 < b := by
  constructor
  · intro h
    exact ⟨Nat.pos_of_ne_zero fun e => by simp [e] at h, Nat.pos_of_ne_zero fun e => by simp [e] at h⟩
  · exact fun h => Nat.mul_pos h.1 h.2

theorem sum_fm {α K : Type} [AddCommMonoid K] (l : List α) (g : α → List K) :
    (l.flatMap g).sum = (l.map fun x => (g x).sum).sum := by
  induction l with
  | nil => simp
  | cons x l ih => simp [ih]

namespace CatNProd
variable {n : ℕ} {P A B : CatN (List ℤ) ℂ}

/-- `P` is the product of `A` (sectors of length `n`) and `B` on concatenated sectors; the
multiplicity index of the product is `iA * N_B + iB`. -/
structure IsProd (n : ℕ) (P A B : CatN (List ℤ) ℂ) : Prop where
  len : ∀ a, A.valid a → a.length = n
  valid : ∀ a, P.valid a ↔ A.valid (a.take n) ∧ B.valid (a.drop n)
  unit : P.unit = A.unit ++ B.unit
  out : ∀ a b, P.valid a → P.valid b →
    P.out a b = pairs (A.out (a.take n) (b.take n)) (B.out (a.drop n) (b.drop n))
  dual : ∀ a, P.valid a → P.dual a = A.dual (a.take n) ++ B.dual (a.drop n)
  N : ∀ a b c, P.valid a → P.valid b → P.valid c →
    P.N a b c = A.N (a.take n) (b.take n) (c.take n) * B.N (a.drop n) (b.drop n) (c.drop n)
  F : ∀ a b c d e f i j k l, P.valid a → P.valid b → P.valid c → P.valid d → P.valid e →
    P.valid f → i < P.N b c e → j < P.N a e d → k < P.N a b f → l < P.N f c d →
    P.F a b c d e f i j k l =
      A.F (a.take n) (b.take n) (c.take n) (d.take n) (e.take n) (f.take n)
        (i / B.N (b.drop n) (c.drop n) (e.drop n)) (j / B.N (a.drop n) (e.drop n) (d.drop n))
        (k / B.N (a.drop n) (b.drop n) (f.drop n)) (l / B.N (f.drop n) (c.drop n) (d.drop n)) *
      B.F (a.drop n) (b.drop n) (c.drop n) (d.drop n) (e.drop n) (f.drop n)
        (i % B.N (b.drop n) (c.drop n) (e.drop n)) (j % B.N (a.drop n) (e.drop n) (d.drop n))
        (k % B.N (a.drop n) (b.drop n) (f.drop n)) (l % B.N (f.drop n) (c.drop n) (d.drop n))
  R : ∀ a b c i, P.valid a → P.valid b → P.valid c → i < P.N a b c →
    P.R a b c i =
      A.R (a.take n) (b.take n) (c.take n) (i / B.N (a.drop n) (b.drop n) (c.drop n)) *
      B.R (a.drop n) (b.drop n) (c.drop n) (i % B.N (a.drop n) (b.drop n) (c.drop n))

section
variable (h : IsProd n P A B) (hA : A.FusionRing) (hB : B.FusionRing)
include h hA

theorem mem_out {a b : List ℤ} (ha : P.valid a) (hb : P.valid b) (x : List ℤ) :
    x ∈ P.out a b ↔ x.take n ∈ A.out (a.take n) (b.take n) ∧
      x.drop n ∈ B.out (a.drop n) (b.drop n) := by
  rw [h.out a b ha hb]
  exact mem_pairs (fun y hy => h.len y (hA.closed _ _ ((h.valid a).1 ha).1 ((h.valid b).1 hb).1 y hy)) x

/-- sums over the outcomes factorise -/
theorem sum_out {K : Type} [CommSemiring K] {a b : List ℤ} (ha : P.valid a) (hb : P.valid b)
    (g g1 g2 : List ℤ → K)
    (hg : ∀ x ∈ P.out a b, g x = g1 (x.take n) * g2 (x.drop n)) :
    ((P.out a b).map g).sum = ((A.out (a.take n) (b.take n)).map g1).sum *
      ((B.out (a.drop n) (b.drop n)).map g2).sum := by
  have hm := mem_out h hA ha hb
  rw [h.out a b ha hb] at hg ⊢
  refine pairs_sum _ _ _ _ _ fun x hx y hy => ?_
  have hl := h.len x (hA.closed _ _ ((h.valid a).1 ha).1 ((h.valid b).1 hb).1 x hx)
  have := hg (x ++ y) (by
    rw [← h.out a b ha hb, hm, List.take_left' hl, List.drop_left' hl]; exact ⟨hx, hy⟩)
  rwa [List.take_left' hl, List.drop_left' hl] at this

omit hA in
theorem unit_td (hA : A.FusionRing) : P.unit.take n = A.unit ∧ P.unit.drop n = B.unit := by
  have hu := h.len _ hA.unit_valid
  rw [h.unit]
  exact ⟨List.take_left' hu, List.drop_left' hu⟩

theorem dual_td {a : List ℤ} (ha : P.valid a) :
    (P.dual a).take n = A.dual (a.take n) ∧ (P.dual a).drop n = B.dual (a.drop n) := by
  have hu := h.len _ (hA.dual_valid _ ((h.valid a).1 ha).1)
  rw [h.dual a ha]
  exact ⟨List.take_left' hu, List.drop_left' hu⟩

include hB

theorem ring : P.FusionRing := by
  have hv := fun a => h.valid a
  obtain ⟨hu1, hu2⟩ := unit_td h hA
  have hU : P.valid P.unit := by
    rw [hv, hu1, hu2]; exact ⟨hA.unit_valid, hB.unit_valid⟩
  have hcl : ∀ a b, P.valid a → P.valid b → ∀ c ∈ P.out a b, P.valid c := by
    intro a b ha hb c hc
    rw [mem_out h hA ha hb] at hc
    rw [hv] at *
    exact ⟨hA.closed _ _ ha.1 hb.1 _ hc.1, hB.closed _ _ ha.2 hb.2 _ hc.2⟩
  have hD : ∀ a, P.valid a → P.valid (P.dual a) := by
    intro a ha
    obtain ⟨d1, d2⟩ := dual_td h hA ha
    rw [hv, d1, d2]
    rw [hv] at ha
    exact ⟨hA.dual_valid _ ha.1, hB.dual_valid _ ha.2⟩
  constructor
  · exact hU
  · exact hcl
  · intro a b ha hb
    rw [h.out a b ha hb]
    rw [hv] at ha hb
    exact nodup_pairs (fun y hy => h.len y (hA.closed _ _ ha.1 hb.1 y hy))
      (hA.nodup _ _ ha.1 hb.1) (hB.nodup _ _ ha.2 hb.2)
  · intro a b c ha hb hc
    rw [mem_out h hA ha hb, h.N a b c ha hb hc]
    rw [hv] at ha hb hc
    rw [hA.mem_iff _ _ _ ha.1 hb.1 hc.1, hB.mem_iff _ _ _ ha.2 hb.2 hc.2]
    exact (mul_pos_iff_of_nat _ _).symm
  · intro a c ha hc
    rw [h.N _ a c hU ha hc, hu1, hu2]
    rw [hv] at ha hc
    rw [hA.unit_left _ _ ha.1 hc.1, hB.unit_left _ _ ha.2 hc.2]
    exact (ite_mul_ite _ _ _ (eq_iff_take_drop n c a)).symm
  · intro a c ha hc
    rw [h.N a _ c ha hU hc, hu1, hu2]
    rw [hv] at ha hc
    rw [hA.unit_right _ _ ha.1 hc.1, hB.unit_right _ _ ha.2 hc.2]
    exact (ite_mul_ite _ _ _ (eq_iff_take_drop n c a)).symm
  · intro a b c ha hb hc
    rw [h.N a b c ha hb hc, h.N b a c hb ha hc]
    rw [hv] at ha hb hc
    rw [hA.comm _ _ _ ha.1 hb.1 hc.1, hB.comm _ _ _ ha.2 hb.2 hc.2]
  · intro a b c d ha hb hc hd
    have va := (hv a).1 ha
    have vb := (hv b).1 hb
    have vc := (hv c).1 hc
    have vd := (hv d).1 hd
    rw [sum_out h hA ha hb _
      (fun f => A.N (a.take n) (b.take n) f * A.N f (c.take n) (d.take n))
      (fun f => B.N (a.drop n) (b.drop n) f * B.N f (c.drop n) (d.drop n)),
      sum_out h hA hb hc _
      (fun e => A.N (b.take n) (c.take n) e * A.N (a.take n) e (d.take n))
      (fun e => B.N (b.drop n) (c.drop n) e * B.N (a.drop n) e (d.drop n)),
      hA.assoc _ _ _ _ va.1 vb.1 vc.1 vd.1, hB.assoc _ _ _ _ va.2 vb.2 vc.2 vd.2]
    · intro x hx
      have vx := hcl b c hb hc x hx
      rw [h.N b c x hb hc vx, h.N a x d ha vx hd]; ring
    · intro x hx
      have vx := hcl a b ha hb x hx
      rw [h.N a b x ha hb vx, h.N x c d vx hc hd]; ring
  · exact hD
  · intro a ha
    obtain ⟨d1, d2⟩ := dual_td h hA ha
    rw [h.dual _ (hD a ha), d1, d2]
    rw [hv] at ha
    rw [hA.dual_dual _ ha.1, hB.dual_dual _ ha.2, List.take_append_drop]
  · intro a b ha hb
    obtain ⟨d1, d2⟩ := dual_td h hA ha
    rw [h.N a b _ ha hb hU, hu1, hu2]
    have va := (hv a).1 ha
    have vb := (hv b).1 hb
    rw [hA.dual_iff _ _ va.1 vb.1, hB.dual_iff _ _ va.2 vb.2]
    refine (ite_mul_ite _ _ _ ?_).symm
    rw [eq_iff_take_drop n, d1, d2]
  · intro a b c ha hb hc
    obtain ⟨d1, d2⟩ := dual_td h hA hb
    rw [h.N a b c ha hb hc, h.N c _ a hc (hD b hb) ha, d1, d2]
    rw [hv] at ha hb hc
    rw [hA.frobenius _ _ _ ha.1 hb.1 hc.1, hB.frobenius _ _ _ ha.2 hb.2 hc.2]

theorem rPhase (rA : A.RPhase) (rB : B.RPhase) : P.RPhase := by
  have hP := ring h hA hB
  obtain ⟨hu1, hu2⟩ := unit_td h hA
  constructor
  · intro a b c ha hb hc μ hμ
    have hcv := hP.closed a b ha hb c hc
    rw [mem_out h hA ha hb] at hc
    rw [h.R a b c μ ha hb hcv hμ, star_mul']
    rw [h.N a b c ha hb hcv] at hμ
    have va := (h.valid a).1 ha
    have vb := (h.valid b).1 hb
    have h1 := rA.phase _ _ _ va.1 vb.1 hc.1 _ (div_lt_of hμ)
    have h2 := rB.phase _ _ _ va.2 vb.2 hc.2 _ (mod_lt_of hμ)
    rw [mul_mul_mul_comm, h1, h2, one_mul]
  · intro a ha
    have va := (h.valid a).1 ha
    have hU := hP.unit_valid
    have e1 : 0 < P.N a P.unit a := by rw [hP.unit_right a a ha ha]; simp
    have e2 : 0 < P.N P.unit a a := by rw [hP.unit_left a a ha ha]; simp
    rw [h.R _ _ _ _ ha hU ha e1, h.R _ _ _ _ hU ha ha e2, hu1, hu2, Nat.zero_div, Nat.zero_mod,
      Nat.zero_div, Nat.zero_mod, (rA.unit _ va.1).1, (rA.unit _ va.1).2, (rB.unit _ va.2).1,
      (rB.unit _ va.2).2]
    exact ⟨one_mul 1, one_mul 1⟩

end

theorem mem_chR (Q : CatN (List ℤ) ℂ) (a b c d : List ℤ) (x : List ℤ × ℕ × ℕ) :
    x ∈ Q.chR a b c d ↔ x.1 ∈ Q.out b c ∧ x.2.1 < Q.N b c x.1 ∧ x.2.2 < Q.N a x.1 d := by
  obtain ⟨e, μ, ν⟩ := x
  simp only [CatN.chR, List.mem_flatMap, List.mem_map, List.mem_range, Prod.mk.injEq]
  constructor
  · rintro ⟨_, h1, _, h2, _, h3, rfl, rfl, rfl⟩; exact ⟨h1, h2, h3⟩
  · rintro ⟨h1, h2, h3⟩; exact ⟨_, h1, _, h2, _, h3, rfl, rfl, rfl⟩

theorem mem_chL (Q : CatN (List ℤ) ℂ) (a b c d : List ℤ) (x : List ℤ × ℕ × ℕ) :
    x ∈ Q.chL a b c d ↔ x.1 ∈ Q.out a b ∧ x.2.1 < Q.N a b x.1 ∧ x.2.2 < Q.N x.1 c d := by
  obtain ⟨e, μ, ν⟩ := x
  simp only [CatN.chL, List.mem_flatMap, List.mem_map, List.mem_range, Prod.mk.injEq]
  constructor
  · rintro ⟨_, h1, _, h2, _, h3, rfl, rfl, rfl⟩; exact ⟨h1, h2, h3⟩
  · rintro ⟨h1, h2, h3⟩; exact ⟨_, h1, _, h2, _, h3, rfl, rfl, rfl⟩

theorem sum_chR (Q : CatN (List ℤ) ℂ) (a b c d : List ℤ) (g : List ℤ × ℕ × ℕ → ℂ) :
    ((Q.chR a b c d).map g).sum = ((Q.out b c).map fun e => ((List.range (Q.N b c e)).map fun μ =>
      ((List.range (Q.N a e d)).map fun ν => g (e, μ, ν)).sum).sum).sum := by
  simp only [CatN.chR, ListSum.sum_flatMap, List.map_map, Function.comp_def]

theorem sum_chL (Q : CatN (List ℤ) ℂ) (a b c d : List ℤ) (g : List ℤ × ℕ × ℕ → ℂ) :
    ((Q.chL a b c d).map g).sum = ((Q.out a b).map fun e => ((List.range (Q.N a b e)).map fun μ =>
      ((List.range (Q.N e c d)).map fun ν => g (e, μ, ν)).sum).sum).sum := by
  simp only [CatN.chL, ListSum.sum_flatMap, List.map_map, Function.comp_def]

section
variable (h : IsProd n P A B) (hA : A.FusionRing) (hB : B.FusionRing)
include h hA hB

/-- a sum over the range of a product multiplicity factorises -/
theorem sum_N {a b c : List ℤ} (ha : P.valid a) (hb : P.valid b) (hc : P.valid c)
    (f f1 f2 : ℕ → ℂ)
    (hf : ∀ i < P.N a b c, f i = f1 (i / B.N (a.drop n) (b.drop n) (c.drop n)) *
      f2 (i % B.N (a.drop n) (b.drop n) (c.drop n))) :
    ((List.range (P.N a b c)).map f).sum =
      ((List.range (A.N (a.take n) (b.take n) (c.take n))).map f1).sum *
      ((List.range (B.N (a.drop n) (b.drop n) (c.drop n))).map f2).sum := by
  rw [h.N a b c ha hb hc] at hf ⊢
  exact range_fac _ _ _ _ _ hf

theorem sum_chR_prod {a b c d : List ℤ} (ha : P.valid a) (hb : P.valid b) (hc : P.valid c)
    (hd : P.valid d) (g g1 g2 : List ℤ × ℕ × ℕ → ℂ)
    (hg : ∀ e, P.valid e → ∀ μ < P.N b c e, ∀ ν < P.N a e d, g (e, μ, ν) =
      g1 (e.take n, μ / B.N (b.drop n) (c.drop n) (e.drop n),
        ν / B.N (a.drop n) (e.drop n) (d.drop n)) *
      g2 (e.drop n, μ % B.N (b.drop n) (c.drop n) (e.drop n),
        ν % B.N (a.drop n) (e.drop n) (d.drop n))) :
    ((P.chR a b c d).map g).sum =
      ((A.chR (a.take n) (b.take n) (c.take n) (d.take n)).map g1).sum *
      ((B.chR (a.drop n) (b.drop n) (c.drop n) (d.drop n)).map g2).sum := by
  have hP := ring h hA hB
  rw [sum_chR, sum_chR, sum_chR]
  refine sum_out h hA hb hc _ _ _ fun e he => ?_
  have ve := hP.closed b c hb hc e he
  refine sum_N h hA hB hb hc ve _ _ _ fun μ hμ => ?_
  refine sum_N h hA hB ha ve hd _ _ _ fun ν hν => ?_
  exact hg e ve μ hμ ν hν

theorem sum_chL_prod {a b c d : List ℤ} (ha : P.valid a) (hb : P.valid b) (hc : P.valid c)
    (hd : P.valid d) (g g1 g2 : List ℤ × ℕ × ℕ → ℂ)
    (hg : ∀ e, P.valid e → ∀ μ < P.N a b e, ∀ ν < P.N e c d, g (e, μ, ν) =
      g1 (e.take n, μ / B.N (a.drop n) (b.drop n) (e.drop n),
        ν / B.N (e.drop n) (c.drop n) (d.drop n)) *
      g2 (e.drop n, μ % B.N (a.drop n) (b.drop n) (e.drop n),
        ν % B.N (e.drop n) (c.drop n) (d.drop n))) :
    ((P.chL a b c d).map g).sum =
      ((A.chL (a.take n) (b.take n) (c.take n) (d.take n)).map g1).sum *
      ((B.chL (a.drop n) (b.drop n) (c.drop n) (d.drop n)).map g2).sum := by
  have hP := ring h hA hB
  rw [sum_chL, sum_chL, sum_chL]
  refine sum_out h hA ha hb _ _ _ fun e he => ?_
  have ve := hP.closed a b ha hb e he
  refine sum_N h hA hB ha hb ve _ _ _ fun μ hμ => ?_
  refine sum_N h hA hB ve hc hd _ _ _ fun ν hν => ?_
  exact hg e ve μ hμ ν hν

theorem fUnitary (uA : A.FUnitary) (uB : B.FUnitary) : P.FUnitary := by
  have hP := ring h hA hB
  constructor
  · intro a b c d ha hb hc hd x hx x' hx'
    obtain ⟨e, μ, ν⟩ := x
    obtain ⟨e', μ', ν'⟩ := x'
    rw [mem_chR] at hx hx'
    obtain ⟨m1, m2, m3⟩ := hx
    obtain ⟨m1', m2', m3'⟩ := hx'
    simp only at m1 m2 m3 m1' m2' m3'
    have ve := hP.closed b c hb hc e m1
    have ve' := hP.closed b c hb hc e' m1'
    rw [sum_chL_prod h hA hB ha hb hc hd _
      (fun y => A.FM (a.take n) (b.take n) (c.take n) (d.take n) (e.take n,
          μ / B.N (b.drop n) (c.drop n) (e.drop n), ν / B.N (a.drop n) (e.drop n) (d.drop n)) y *
        star (A.FM (a.take n) (b.take n) (c.take n) (d.take n) (e'.take n,
          μ' / B.N (b.drop n) (c.drop n) (e'.drop n), ν' / B.N (a.drop n) (e'.drop n) (d.drop n)) y))
      (fun y => B.FM (a.drop n) (b.drop n) (c.drop n) (d.drop n) (e.drop n,
          μ % B.N (b.drop n) (c.drop n) (e.drop n), ν % B.N (a.drop n) (e.drop n) (d.drop n)) y *
        star (B.FM (a.drop n) (b.drop n) (c.drop n) (d.drop n) (e'.drop n,
          μ' % B.N (b.drop n) (c.drop n) (e'.drop n), ν' % B.N (a.drop n) (e'.drop n) (d.drop n)) y))]
    · rw [mem_out h hA hb hc] at m1 m1'
      rw [h.N b c _ hb hc ve] at m2
      rw [h.N b c _ hb hc ve'] at m2'
      rw [h.N a _ d ha ve hd] at m3
      rw [h.N a _ d ha ve' hd] at m3'
      have va := (h.valid a).1 ha
      have vb := (h.valid b).1 hb
      have vc := (h.valid c).1 hc
      have vd := (h.valid d).1 hd
      rw [uA.rows _ _ _ _ va.1 vb.1 vc.1 vd.1 _
          ((mem_chR _ _ _ _ _ _).2 ⟨m1.1, div_lt_of m2, div_lt_of m3⟩) _
          ((mem_chR _ _ _ _ _ _).2 ⟨m1'.1, div_lt_of m2', div_lt_of m3'⟩),
        uB.rows _ _ _ _ va.2 vb.2 vc.2 vd.2 _
          ((mem_chR _ _ _ _ _ _).2 ⟨m1.2, mod_lt_of m2, mod_lt_of m3⟩) _
          ((mem_chR _ _ _ _ _ _).2 ⟨m1'.2, mod_lt_of m2', mod_lt_of m3'⟩)]
      refine (ite_mul_ite _ _ _ ?_).symm
      simp only [Prod.mk.injEq]
      constructor
      · rintro ⟨rfl, rfl, rfl⟩; exact ⟨⟨rfl, rfl, rfl⟩, rfl, rfl, rfl⟩
      · rintro ⟨⟨q1, q2, q3⟩, r1, r2, r3⟩
        have ee : e = e' := (eq_iff_take_drop n e e').2 ⟨q1, r1⟩
        subst ee
        exact ⟨rfl, (eq_iff_div_mod _ _ _).2 ⟨q2, r2⟩, (eq_iff_div_mod _ _ _).2 ⟨q3, r3⟩⟩
    · intro f vf κ hκ l hl
      simp only [CatN.FM]
      rw [h.F a b c d e f _ _ _ _ ha hb hc hd ve vf m2 m3 hκ hl,
        h.F a b c d e' f _ _ _ _ ha hb hc hd ve' vf m2' m3' hκ hl, star_mul']
      ring
  · intro a b c d ha hb hc hd x hx x' hx'
    obtain ⟨e, μ, ν⟩ := x
    obtain ⟨e', μ', ν'⟩ := x'
    rw [mem_chL] at hx hx'
    obtain ⟨m1, m2, m3⟩ := hx
    obtain ⟨m1', m2', m3'⟩ := hx'
    simp only at m1 m2 m3 m1' m2' m3'
    have ve := hP.closed a b ha hb e m1
    have ve' := hP.closed a b ha hb e' m1'
    rw [sum_chR_prod h hA hB ha hb hc hd _
      (fun y => star (A.FM (a.take n) (b.take n) (c.take n) (d.take n) y (e.take n,
          μ / B.N (a.drop n) (b.drop n) (e.drop n), ν / B.N (e.drop n) (c.drop n) (d.drop n))) *
        A.FM (a.take n) (b.take n) (c.take n) (d.take n) y (e'.take n,
          μ' / B.N (a.drop n) (b.drop n) (e'.drop n), ν' / B.N (e'.drop n) (c.drop n) (d.drop n)))
      (fun y => star (B.FM (a.drop n) (b.drop n) (c.drop n) (d.drop n) y (e.drop n,
          μ % B.N (a.drop n) (b.drop n) (e.drop n), ν % B.N (e.drop n) (c.drop n) (d.drop n))) *
        B.FM (a.drop n) (b.drop n) (c.drop n) (d.drop n) y (e'.drop n,
          μ' % B.N (a.drop n) (b.drop n) (e'.drop n), ν' % B.N (e'.drop n) (c.drop n) (d.drop n)))]
    · rw [mem_out h hA ha hb] at m1 m1'
      rw [h.N a b _ ha hb ve] at m2
      rw [h.N a b _ ha hb ve'] at m2'
      rw [h.N _ c d ve hc hd] at m3
      rw [h.N _ c d ve' hc hd] at m3'
      have va := (h.valid a).1 ha
      have vb := (h.valid b).1 hb
      have vc := (h.valid c).1 hc
      have vd := (h.valid d).1 hd
      rw [uA.cols _ _ _ _ va.1 vb.1 vc.1 vd.1 _
          ((mem_chL _ _ _ _ _ _).2 ⟨m1.1, div_lt_of m2, div_lt_of m3⟩) _
          ((mem_chL _ _ _ _ _ _).2 ⟨m1'.1, div_lt_of m2', div_lt_of m3'⟩),
        uB.cols _ _ _ _ va.2 vb.2 vc.2 vd.2 _
          ((mem_chL _ _ _ _ _ _).2 ⟨m1.2, mod_lt_of m2, mod_lt_of m3⟩) _
          ((mem_chL _ _ _ _ _ _).2 ⟨m1'.2, mod_lt_of m2', mod_lt_of m3'⟩)]
      refine (ite_mul_ite _ _ _ ?_).symm
      simp only [Prod.mk.injEq]
      constructor
      · rintro ⟨rfl, rfl, rfl⟩; exact ⟨⟨rfl, rfl, rfl⟩, rfl, rfl, rfl⟩
      · rintro ⟨⟨q1, q2, q3⟩, r1, r2, r3⟩
        have ee : e = e' := (eq_iff_take_drop n e e').2 ⟨q1, r1⟩
        subst ee
        exact ⟨rfl, (eq_iff_div_mod _ _ _).2 ⟨q2, r2⟩, (eq_iff_div_mod _ _ _).2 ⟨q3, r3⟩⟩
    · intro f vf κ hκ l hl
      simp only [CatN.FM]
      rw [h.F a b c d f e _ _ _ _ ha hb hc hd vf ve hκ hl m2 m3,
        h.F a b c d f e' _ _ _ _ ha hb hc hd vf ve' hκ hl m2' m3', star_mul']
      ring

theorem triangle (tA : A.Triangle) (tB : B.Triangle) : P.Triangle := by
  have hP := ring h hA hB
  obtain ⟨hu1, hu2⟩ := unit_td h hA
  intro b c d hb hc hd μ hμ ν hν
  have vd := hP.closed b c hb hc d hd
  have hU := hP.unit_valid
  have wb := (h.valid b).1 hb
  have wc := (h.valid c).1 hc
  have wd := (h.valid d).1 vd
  have l1 : ∀ a, P.valid a → 0 < P.N P.unit a a := fun a ha => by rw [hP.unit_left a a ha ha]; simp
  have l2 : ∀ a, P.valid a → 0 < P.N a P.unit a := fun a ha => by rw [hP.unit_right a a ha ha]; simp
  have k1 : ∀ a, B.valid a → B.N B.unit a a = 1 := fun a ha => by rw [hB.unit_left a a ha ha]; simp
  have k2 : ∀ a, B.valid a → B.N a B.unit a = 1 := fun a ha => by rw [hB.unit_right a a ha ha]; simp
  rw [h.F _ b c d d b _ _ _ _ hU hb hc vd vd hb hμ (l1 d vd) (l1 b hb) hν,
    h.F b _ c d c b _ _ _ _ hb hU hc vd hc hb (l1 c hc) hμ (l2 b hb) hν,
    h.F b c _ d c d _ _ _ _ hb hc hU vd hc vd (l2 c hc) hμ hν (l2 d vd), hu1, hu2,
    k1 _ wd.2, k1 _ wb.2, k1 _ wc.2, k2 _ wb.2, k2 _ wc.2, k2 _ wd.2]
  rw [mem_out h hA hb hc] at hd
  rw [h.N b c d hb hc vd] at hμ hν
  have t1 := tA _ _ _ wb.1 wc.1 hd.1 _ (div_lt_of hμ) _ (div_lt_of hν)
  have t2 := tB _ _ _ wb.2 wc.2 hd.2 _ (mod_lt_of hμ) _ (mod_lt_of hν)
  simp only [Nat.zero_div, Nat.zero_mod, t1, t2]
  have := ite_mul_ite (K := ℂ) _ _ _ (eq_iff_div_mod μ ν (B.N (b.drop n) (c.drop n) (d.drop n)))
  exact ⟨this.symm, this.symm, this.symm⟩

theorem hexagons (xA : A.Hexagon) (xB : B.Hexagon) (yA : A.Hexagon') (yB : B.Hexagon') :
    P.Hexagon ∧ P.Hexagon' := by
  have hP := ring h hA hB
  have lhs : ∀ x1 x2 x3 y1 y2 y3 : ℂ, x1 * y1 * (x2 * y2) * (x3 * y3) =
    (x1 * x2 * x3) * (y1 * y2 * y3) := by intros; ring
  constructor
  · intro a b c d ha hb hc hd e he g hg α hα β hβ μ hμ ν hν
    have ve := hP.closed c a hc ha e he
    have vg := hP.closed c b hc hb g hg
    have hα' : α < P.N a c e := by rwa [hP.comm a c e ha hc ve]
    have hμ' : μ < P.N b c g := by rwa [hP.comm b c g hb hc vg]
    have wa := (h.valid a).1 ha
    have wb := (h.valid b).1 hb
    have wc := (h.valid c).1 hc
    have wd := (h.valid d).1 hd
    have we := (h.valid e).1 ve
    have wg := (h.valid g).1 vg
    have q1 := hα
    have q2 := hβ
    have q3 := hμ
    have q4 := hν
    rw [mem_out h hA hc ha] at he
    rw [mem_out h hA hc hb] at hg
    rw [h.N c a e hc ha ve] at q1
    rw [h.N e b d ve hb hd] at q2
    rw [h.N c b g hc hb vg] at q3
    rw [h.N a g d ha vg hd] at q4
    have z1 := xA _ _ _ _ wa.1 wb.1 wc.1 wd.1 _ he.1 _ hg.1 _ (div_lt_of q1) _ (div_lt_of q2) _
      (div_lt_of q3) _ (div_lt_of q4)
    have z2 := xB _ _ _ _ wa.2 wb.2 wc.2 wd.2 _ he.2 _ hg.2 _ (mod_lt_of q1) _ (mod_lt_of q2) _
      (mod_lt_of q3) _ (mod_lt_of q4)
    rw [h.R c a e α hc ha ve hα, h.R c b g μ hc hb vg hμ,
      h.F a c b d g e μ ν α β ha hc hb hd vg ve hμ hν hα' hβ,
      hB.comm _ _ _ wa.2 wc.2 we.2, lhs, z1, z2]
    simp only [sum_fm]
    symm
    refine sum_out h hA ha hb _ _ _ fun f hf => ?_
    have vf := hP.closed a b ha hb f hf
    have wf := (h.valid f).1 vf
    refine sum_N h hA hB ha hb vf _ _ _ fun δ hδ => ?_
    refine sum_N h hA hB hc vf hd _ _ _ fun σ hσ => ?_
    have hσ' : σ < P.N f c d := by rwa [hP.comm f c d vf hc hd]
    rw [h.F c a b d f e δ σ α β hc ha hb hd vf ve hδ hσ hα hβ, h.R c f d σ hc vf hd hσ,
      h.F a b c d g f μ ν δ σ ha hb hc hd vg vf hμ' hν hδ hσ', lhs,
      hB.comm _ _ _ wf.2 wc.2 wd.2, hB.comm _ _ _ wb.2 wc.2 wg.2]
  · intro a b c d ha hb hc hd e he g hg α hα β hβ μ hμ ν hν
    have ve := hP.closed c a hc ha e he
    have vg := hP.closed c b hc hb g hg
    have hα' : α < P.N a c e := by rwa [hP.comm a c e ha hc ve]
    have hμ' : μ < P.N b c g := by rwa [hP.comm b c g hb hc vg]
    have wa := (h.valid a).1 ha
    have wb := (h.valid b).1 hb
    have wc := (h.valid c).1 hc
    have wd := (h.valid d).1 hd
    have we := (h.valid e).1 ve
    have wg := (h.valid g).1 vg
    have q1 := hα
    have q2 := hβ
    have q3 := hμ
    have q4 := hν
    rw [mem_out h hA hc ha] at he
    rw [mem_out h hA hc hb] at hg
    rw [h.N c a e hc ha ve] at q1
    rw [h.N e b d ve hb hd] at q2
    rw [h.N c b g hc hb vg] at q3
    rw [h.N a g d ha vg hd] at q4
    have z1 := yA _ _ _ _ wa.1 wb.1 wc.1 wd.1 _ he.1 _ hg.1 _ (div_lt_of q1) _ (div_lt_of q2) _
      (div_lt_of q3) _ (div_lt_of q4)
    have z2 := yB _ _ _ _ wa.2 wb.2 wc.2 wd.2 _ he.2 _ hg.2 _ (mod_lt_of q1) _ (mod_lt_of q2) _
      (mod_lt_of q3) _ (mod_lt_of q4)
    rw [h.R a c e α ha hc ve hα', h.R b c g μ hb hc vg hμ',
      h.F a c b d g e μ ν α β ha hc hb hd vg ve hμ hν hα' hβ,
      hB.comm _ _ _ wa.2 wc.2 we.2, hB.comm _ _ _ wb.2 wc.2 wg.2, star_mul', star_mul', lhs, z1, z2]
    simp only [sum_fm]
    symm
    refine sum_out h hA ha hb _ _ _ fun f hf => ?_
    have vf := hP.closed a b ha hb f hf
    have wf := (h.valid f).1 vf
    refine sum_N h hA hB ha hb vf _ _ _ fun δ hδ => ?_
    refine sum_N h hA hB hc vf hd _ _ _ fun σ hσ => ?_
    have hσ' : σ < P.N f c d := by rwa [hP.comm f c d vf hc hd]
    rw [h.F c a b d f e δ σ α β hc ha hb hd vf ve hδ hσ hα hβ, h.R f c d σ vf hc hd hσ',
      h.F a b c d g f μ ν δ σ ha hb hc hd vg vf hμ' hν hδ hσ', star_mul', lhs,
      hB.comm _ _ _ wf.2 wc.2 wd.2, hB.comm _ _ _ wb.2 wc.2 wg.2]

theorem pentagon (pA : A.Pentagon) (pB : B.Pentagon) : P.Pentagon := by
  have hP := ring h hA hB
  intro a b c d ha hb hc hd f hf g hg e he j hj i hi hm μ hμ ν hν ρ hρ γ hγ δ hδ κ hκ
  have vf := hP.closed a b ha hb f hf
  have vg := hP.closed f c vf hc g hg
  have ve := hP.closed g d vg hd e he
  have vj := hP.closed c d hc hd j hj
  have vi := hP.closed b j hb vj i hi
  have wa := (h.valid a).1 ha
  have wb := (h.valid b).1 hb
  have wc := (h.valid c).1 hc
  have wd := (h.valid d).1 hd
  rw [mem_out h hA ha hb] at hf
  rw [mem_out h hA vf hc] at hg
  rw [mem_out h hA vg hd] at he
  rw [mem_out h hA hc hd] at hj
  rw [mem_out h hA hb vj] at hi
  rw [mem_out h hA ha vi] at hm
  have q1 := hμ
  have q2 := hν
  have q3 := hρ
  have q4 := hγ
  have q5 := hδ
  have q6 := hκ
  rw [h.N a b f ha hb vf] at q1
  rw [h.N f c g vf hc vg] at q2
  rw [h.N g d e vg hd ve] at q3
  rw [h.N c d j hc hd vj] at q4
  rw [h.N b j i hb vj vi] at q5
  rw [h.N a i e ha vi ve] at q6
  have z1 := pA _ _ _ _ wa.1 wb.1 wc.1 wd.1 _ hf.1 _ hg.1 _ he.1 _ hj.1 _ hi.1 hm.1 _ (div_lt_of q1)
    _ (div_lt_of q2) _ (div_lt_of q3) _ (div_lt_of q4) _ (div_lt_of q5) _ (div_lt_of q6)
  have z2 := pB _ _ _ _ wa.2 wb.2 wc.2 wd.2 _ hf.2 _ hg.2 _ he.2 _ hj.2 _ hi.2 hm.2 _ (mod_lt_of q1)
    _ (mod_lt_of q2) _ (mod_lt_of q3) _ (mod_lt_of q4) _ (mod_lt_of q5) _ (mod_lt_of q6)
  have e2 : ∀ {u v x y z w : ℂ}, u = x * y → v = z * w → x = z → y = w → u = v := by
    rintro _ _ _ _ _ _ rfl rfl rfl rfl; rfl
  refine e2 ?_ ?_ z1 z2
  · refine sum_N h hA hB vf vj ve _ _ _ fun σ hσ => ?_
    rw [h.F f c d e j g γ σ ν ρ vf hc hd ve vj vg hγ hσ hν hρ,
      h.F a b j e i f δ κ μ σ ha hb vj ve vi vf hδ hκ hμ hσ]
    ring
  · simp only [sum_fm]
    refine sum_out h hA hb hc _ _ _ fun k hk => ?_
    have vk := hP.closed b c hb hc k hk
    refine sum_N h hA hB hb hc vk _ _ _ fun σ hσ => ?_
    refine sum_N h hA hB ha vk vg _ _ _ fun l hl => ?_
    refine sum_N h hA hB vk hd vi _ _ _ fun ω hω => ?_
    rw [h.F a b c g k f σ l μ ν ha hb hc vg vk vf hσ hl hμ hν,
      h.F a k d e i g ω κ l ρ ha vk hd ve vi vg hω hκ hl hρ,
      h.F b c d i j k γ δ σ ω hb hc hd vi vj vk hγ hδ hσ hω]
    ring

end

/-- The laws that involve only the fusion ring and the F- and R-symbols. -/
structure Core (Q : CatN (List ℤ) ℂ) : Prop where
  ring : Q.FusionRing
  rPhase : Q.RPhase
  fUnitary : Q.FUnitary
  triangle : Q.Triangle
  pentagon : Q.Pentagon
  hexagon : Q.Hexagon
  hexagon' : Q.Hexagon'

theorem core_of_prod (h : IsProd n P A B) (cA : Core A) (cB : Core B) : Core P :=
  have hx := hexagons h cA.ring cB.ring cA.hexagon cB.hexagon cA.hexagon' cB.hexagon'
  ⟨ring h cA.ring cB.ring, rPhase h cA.ring cB.ring cA.rPhase cB.rPhase,
    fUnitary h cA.ring cB.ring cA.fUnitary cB.fUnitary,
    triangle h cA.ring cB.ring cA.triangle cB.triangle,
    pentagon h cA.ring cB.ring cA.pentagon cB.pentagon, hx.1, hx.2⟩

theorem qdimChar (h : IsProd n P A B) (hA : A.FusionRing) (hB : B.FusionRing)
    {d d1 d2 : List ℤ → ℝ} (hd : ∀ a, P.valid a → d a = d1 (a.take n) * d2 (a.drop n))
    (q1 : A.QdimCharacter d1) (q2 : B.QdimCharacter d2) : P.QdimCharacter d := by
  have hP := ring h hA hB
  obtain ⟨hu1, hu2⟩ := unit_td h hA
  constructor
  · intro a ha
    rw [hd a ha]
    rw [h.valid] at ha
    exact mul_pos (q1.pos _ ha.1) (q2.pos _ ha.2)
  · rw [hd _ hP.unit_valid, hu1, hu2, q1.unit, q2.unit, mul_one]
  · intro a b ha hb
    have va := (h.valid a).1 ha
    have vb := (h.valid b).1 hb
    rw [sum_out h hA ha hb _ (fun c => (A.N (a.take n) (b.take n) c : ℝ) * d1 c)
      (fun c => (B.N (a.drop n) (b.drop n) c : ℝ) * d2 c), ← q1.mul _ _ va.1 vb.1,
      ← q2.mul _ _ va.2 vb.2, hd a ha, hd b hb]
    · ring
    · intro c hc
      have vc := hP.closed a b ha hb c hc
      rw [h.N a b c ha hb vc, hd c vc]
      push_cast; ring
  · intro a ha
    obtain ⟨e1, e2⟩ := dual_td h hA ha
    rw [hd _ (hP.dual_valid a ha), hd a ha, e1, e2]
    rw [h.valid] at ha
    rw [q1.dual _ ha.1, q2.dual _ ha.2]

theorem ribbonProd (h : IsProd n P A B) (hA : A.FusionRing) (hB : B.FusionRing)
    {d d1 d2 : List ℤ → ℝ} (hd : ∀ a, P.valid a → d a = d1 (a.take n) * d2 (a.drop n))
    {t1 t2 : List ℤ → ℂ} (q1 : A.Ribbon d1 t1) (q2 : B.Ribbon d2 t2) :
    P.Ribbon d fun a => t1 (a.take n) * t2 (a.drop n) := by
  have hP := ring h hA hB
  constructor
  · intro a ha
    have va := (h.valid a).1 ha
    have e1 := q1.formula _ va.1
    have e2 := q2.formula _ va.2
    rw [hd a ha]
    rw [sum_fm] at e1 e2 ⊢
    rw [sum_out h hA ha ha _ (fun b => ((List.range (A.N (a.take n) (a.take n) b)).map fun μ =>
        (d1 b : ℂ) * A.R (a.take n) (a.take n) b μ).sum)
      (fun b => ((List.range (B.N (a.drop n) (a.drop n) b)).map fun μ =>
        (d2 b : ℂ) * B.R (a.drop n) (a.drop n) b μ).sum), ← e1, ← e2]
    · push_cast; ring
    · intro b hb
      have vb := hP.closed a a ha ha b hb
      refine sum_N h hA hB ha ha vb _ _ _ fun i hi => ?_
      rw [h.R a a b i ha ha vb hi, hd b vb]
      push_cast; ring
  · intro a ha
    have va := (h.valid a).1 ha
    rw [star_mul', mul_mul_mul_comm, q1.phase _ va.1, q2.phase _ va.2, mul_one]
  · intro a b c ha hb hc μ hμ
    have vc := hP.closed a b ha hb c hc
    have va := (h.valid a).1 ha
    have vb := (h.valid b).1 hb
    have vc' := (h.valid c).1 vc
    have hμ' : μ < P.N b a c := by rwa [hP.comm b a c hb ha vc]
    rw [h.R b a c μ hb ha vc hμ', h.R a b c μ ha hb vc hμ, hB.comm _ _ _ vb.2 va.2 vc'.2]
    rw [mem_out h hA ha hb] at hc
    rw [h.N a b c ha hb vc] at hμ
    rw [← q1.balance _ _ _ va.1 vb.1 hc.1 _ (div_lt_of hμ),
      ← q2.balance _ _ _ va.2 vb.2 hc.2 _ (mod_lt_of hμ)]
    ring
  · intro a ha
    obtain ⟨e1, e2⟩ := dual_td h hA ha
    simp only [e1, e2]
    rw [h.valid] at ha
    rw [q1.dual _ ha.1, q2.dual _ ha.2]

/-- the B-symbols are the ones derived from the F-symbols -/
def BFrom (Q : CatN (List ℤ) ℂ) (d : List ℤ → ℝ) : Prop :=
  ∀ a b c, Q.valid a → Q.valid b → Q.valid c → ∀ μ < Q.N a b c, ∀ ν < Q.N a b c,
    Q.B a b c μ ν = star (Q.F a b (Q.dual b) a Q.unit c 0 0 μ ν) * ((Real.sqrt (d b) : ℝ) : ℂ)

theorem bendingProd (h : IsProd n P A B) (hA : A.FusionRing) (hB : B.FusionRing)
    {d d1 d2 : List ℤ → ℝ} (hd : ∀ a, P.valid a → d a = d1 (a.take n) * d2 (a.drop n))
    (c1 : A.QdimCharacter d1) {s s1 s2 : List ℤ → ℤ}
    (hs : ∀ a, P.valid a → s a = s1 (a.take n) * s2 (a.drop n))
    (bP : BFrom P d) (bA : BFrom A d1) (bB : BFrom B d2)
    (q1 : A.Bending d1 s1) (q2 : B.Bending d2 s2) : P.Bending d s := by
  have hP := ring h hA hB
  obtain ⟨hu1, hu2⟩ := unit_td h hA
  have hU := hP.unit_valid
  have nd : ∀ (Q : CatN (List ℤ) ℂ), Q.FusionRing → ∀ b, Q.valid b → Q.N b (Q.dual b) Q.unit = 1 :=
    fun Q hQ b hb => by rw [hQ.dual_iff b _ hb (hQ.dual_valid b hb)]; simp
  have nu : ∀ (Q : CatN (List ℤ) ℂ), Q.FusionRing → ∀ b, Q.valid b → Q.N b Q.unit b = 1 :=
    fun Q hQ b hb => by rw [hQ.unit_right b b hb hb]; simp
  have nd' : ∀ (Q : CatN (List ℤ) ℂ), Q.FusionRing → ∀ b, Q.valid b → Q.N (Q.dual b) b Q.unit = 1 :=
    fun Q hQ b hb => by
      have := nd Q hQ (Q.dual b) (hQ.dual_valid b hb)
      rwa [hQ.dual_dual b hb] at this
  have nl : ∀ (Q : CatN (List ℤ) ℂ), Q.FusionRing → ∀ b, Q.valid b → Q.N Q.unit b b = 1 :=
    fun Q hQ b hb => by rw [hQ.unit_left b b hb hb]; simp
  have hB' : ∀ a b c, P.valid a → P.valid b → P.valid c → ∀ μ < P.N a b c, ∀ ν < P.N a b c,
      P.B a b c μ ν = A.B (a.take n) (b.take n) (c.take n)
          (μ / B.N (a.drop n) (b.drop n) (c.drop n)) (ν / B.N (a.drop n) (b.drop n) (c.drop n)) *
        B.B (a.drop n) (b.drop n) (c.drop n)
          (μ % B.N (a.drop n) (b.drop n) (c.drop n)) (ν % B.N (a.drop n) (b.drop n) (c.drop n)) := by
    intro a b c ha hb hc μ hμ ν hν
    have va := (h.valid a).1 ha
    have vb := (h.valid b).1 hb
    have vc := (h.valid c).1 hc
    have hD := hP.dual_valid b hb
    obtain ⟨e1, e2⟩ := dual_td h hA hb
    have hν' : ν < P.N c (P.dual b) a := by rwa [← hP.frobenius a b c ha hb hc]
    rw [bP a b c ha hb hc μ hμ ν hν, h.F a b (P.dual b) a P.unit c 0 0 μ ν ha hb hD ha hU hc
      (by rw [nd P hP b hb]; exact Nat.one_pos) (by rw [nu P hP a ha]; exact Nat.one_pos) hμ hν',
      hu1, hu2, e1, e2, Nat.zero_div, Nat.zero_mod, Nat.zero_div, Nat.zero_mod,
      ← hB.frobenius _ _ _ va.2 vb.2 vc.2]
    rw [h.N a b c ha hb hc] at hμ hν
    rw [bA _ _ _ va.1 vb.1 vc.1 _ (div_lt_of hμ) _ (div_lt_of hν),
      bB _ _ _ va.2 vb.2 vc.2 _ (mod_lt_of hμ) _ (mod_lt_of hν), hd b hb, star_mul',
      Real.sqrt_mul (c1.pos _ vb.1).le]
    push_cast; ring
  have ite3 : ∀ (x y z : ℂ) (p q r : Prop) [Decidable p] [Decidable q] [Decidable r],
      (p ↔ q ∧ r) → x = y * z → (if q then y else 0) * (if r then z else 0) = if p then x else 0 := by
    intro x y z p q r _ _ _ hpq hx
    by_cases hq : q <;> by_cases hr : r <;> simp [hpq, hq, hr, hx]
  constructor
  · intro a b c ha hb hc μ hμ μ' hμ'
    have vc := hP.closed a b ha hb c hc
    have va := (h.valid a).1 ha
    have vb := (h.valid b).1 hb
    have e := hc
    rw [mem_out h hA ha hb] at e
    have k := hμ
    have k' := hμ'
    rw [h.N a b c ha hb vc] at k k'
    have z1 := q1.norm _ _ _ va.1 vb.1 e.1 _ (div_lt_of k) _ (div_lt_of k')
    have z2 := q2.norm _ _ _ va.2 vb.2 e.2 _ (mod_lt_of k) _ (mod_lt_of k')
    rw [sum_N h hA hB ha hb vc _
      (fun ν => A.B (a.take n) (b.take n) (c.take n)
          (μ / B.N (a.drop n) (b.drop n) (c.drop n)) ν *
        star (A.B (a.take n) (b.take n) (c.take n) (μ' / B.N (a.drop n) (b.drop n) (c.drop n)) ν))
      (fun ν => B.B (a.drop n) (b.drop n) (c.drop n)
          (μ % B.N (a.drop n) (b.drop n) (c.drop n)) ν *
        star (B.B (a.drop n) (b.drop n) (c.drop n) (μ' % B.N (a.drop n) (b.drop n) (c.drop n)) ν)),
      hd a ha]
    · have e3 : ∀ x y z w : ℂ, x * y * (z * w) = (x * z) * (y * w) := by intros; ring
      rw [Complex.ofReal_mul, e3, z1, z2]
      exact ite3 _ _ _ _ _ _ (eq_iff_div_mod _ _ _) (by rw [hd c vc, Complex.ofReal_mul])
    · intro ν hν
      rw [hB' a b c ha hb vc μ hμ ν hν, hB' a b c ha hb vc μ' hμ' ν hν, star_mul']
      ring
  · intro a b c ha hb hc μ hμ μ' hμ'
    have vc := hP.closed a b ha hb c hc
    have va := (h.valid a).1 ha
    have vb := (h.valid b).1 hb
    have vc' := (h.valid c).1 vc
    have e := hc
    rw [mem_out h hA ha hb] at e
    have k := hμ
    have k' := hμ'
    rw [h.N a b c ha hb vc] at k k'
    have hD := hP.dual_valid b hb
    obtain ⟨e1, e2⟩ := dual_td h hA hb
    have z1 := q1.snake _ _ _ va.1 vb.1 e.1 _ (div_lt_of k) _ (div_lt_of k')
    have z2 := q2.snake _ _ _ va.2 vb.2 e.2 _ (mod_lt_of k) _ (mod_lt_of k')
    rw [sum_N h hA hB ha hb vc _
      (fun ν => A.B (a.take n) (b.take n) (c.take n)
          (μ / B.N (a.drop n) (b.drop n) (c.drop n)) ν *
        A.B (c.take n) (A.dual (b.take n)) (a.take n)
          (μ' / B.N (a.drop n) (b.drop n) (c.drop n)) ν)
      (fun ν => B.B (a.drop n) (b.drop n) (c.drop n)
          (μ % B.N (a.drop n) (b.drop n) (c.drop n)) ν *
        B.B (c.drop n) (B.dual (b.drop n)) (a.drop n)
          (μ' % B.N (a.drop n) (b.drop n) (c.drop n)) ν), z1, z2]
    · exact ite3 _ _ _ _ _ _ (eq_iff_div_mod _ _ _) (by rw [hs b hb, Int.cast_mul])
    · intro ν hν
      have f1 : μ' < P.N c (P.dual b) a := by rwa [← hP.frobenius a b c ha hb vc]
      have f2 : ν < P.N c (P.dual b) a := by rwa [← hP.frobenius a b c ha hb vc]
      rw [hB' a b c ha hb vc μ hμ ν hν, hB' c (P.dual b) a vc hD ha μ' f1 ν f2, e1, e2,
        ← hB.frobenius _ _ _ va.2 vb.2 vc'.2]
      ring
  · intro a ha
    have va := (h.valid a).1 ha
    have hD := hP.dual_valid a ha
    obtain ⟨e1, e2⟩ := dual_td h hA ha
    rw [h.F a (P.dual a) a a P.unit P.unit 0 0 0 0 ha hD ha ha hU hU
      (by rw [nd' P hP a ha]; exact Nat.one_pos) (by rw [nu P hP a ha]; exact Nat.one_pos)
      (by rw [nd P hP a ha]; exact Nat.one_pos) (by rw [nl P hP a ha]; exact Nat.one_pos),
      hu1, hu2, e1, e2, hd a ha, hs a ha]
    simp only [Nat.zero_div, Nat.zero_mod]
    rw [Int.cast_mul, ← q1.indicator _ va.1, ← q2.indicator _ va.2, Complex.ofReal_mul]
    ring

end CatNProd
end Cyten
