import Verif.Model.Anyons
import Verif.Lemmas.IsingCheck
import Mathlib.Analysis.SpecialFunctions.Trigonometric.Bounds
import Mathlib.Analysis.SpecialFunctions.Trigonometric.Complex

namespace Cyten
open Spec Exact

section image
variable {K : Type} [Zero K] [One K] [Add K] [Mul K] [Star K] {φ : K → ℂ} {eqB : K → K → Bool}

theorem getD_map_zero (he : Cat.Eval φ eqB) (l : List K) (i : Nat) :
    (l.map φ).getD i 0 = φ (l.getD i 0) := by
  rw [List.getD_eq_getElem?_getD, List.getD_eq_getElem?_getD, List.getElem?_map]
  cases l[i]? <;> simp [he.zero]

theorem Fib.f_map (he : Cat.Eval φ eqB) (tf : List K) (a b c d e f : ℤ) :
    Fib.fSym (tf.map φ) a b c d e f = φ (Fib.fSym tf a b c d e f) := by
  unfold Fib.fSym; split
  · exact getD_map_zero he _ _
  · exact he.one.symm

theorem Fib.r_map (he : Cat.Eval φ eqB) (tr : List K) (a b c : ℤ) :
    Fib.rSym (tr.map φ) a b c = φ (Fib.rSym tr a b c) := by
  unfold Fib.rSym; split
  · exact getD_map_zero he _ _
  · exact he.one.symm

theorem Fib.image (he : Cat.Eval φ eqB) (tf tr : List K) :
    Cat.Image (Fib.catOf tf tr) (Fib.catOf (tf.map φ) (tr.map φ)) φ [0, 1] where
  valid a := by show (0 ≤ a ∧ a < 2) ↔ _; simp; omega
  unit := rfl
  out := rfl
  dual := rfl
  F := Fib.f_map he tf
  R := Fib.r_map he tr
  C a b c d e f := by
    show Fib.cSym (tf.map φ) (tr.map φ) a b c d e f = φ (Fib.cSym tf tr a b c d e f)
    unfold Fib.cSym; split
    · rw [← getD_map_zero he]
      congr 1
      simp only [Fib.cTable, List.map_cons, List.map_nil, defaultC, Fib.f_map he, Fib.r_map he,
        he.mul, he.star, he.zero]
    · exact he.one.symm

variable [Neg K]
set_option linter.unusedSectionVars false

theorem Ising.f_map (he : Cat.Eval φ eqB) (hn : ∀ x, φ (-x) = - φ x) (tf : List K)
    (a b c d e f : ℤ) :
    Ising.fSym (tf.map φ) a b c d e f = φ (Ising.fSym tf a b c d e f) := by
  unfold Ising.fSym
  split_ifs
  · exact getD_map_zero he _ _
  · rw [hn, he.one]
  · rw [hn, he.one]
  · exact he.one.symm

theorem Ising.r_map (he : Cat.Eval φ eqB) (tr : List K) (a b c : ℤ) :
    Ising.rSym (tr.map φ) a b c = φ (Ising.rSym tr a b c) := by
  unfold Ising.rSym
  by_cases h : a ≠ 0 ∧ b ≠ 0
  · simp only [if_pos h]; exact getD_map_zero he _ _
  · simp only [if_neg h]; exact he.one.symm

theorem Ising.image (he : Cat.Eval φ eqB) (hn : ∀ x, φ (-x) = - φ x) (ph : K) (tf tr : List K) :
    Cat.Image (Ising.catOf ph tf tr) (Ising.catOf (φ ph) (tf.map φ) (tr.map φ)) φ [0, 1, 2] where
  valid a := by show (0 ≤ a ∧ a < 3) ↔ _; simp; omega
  unit := rfl
  out := rfl
  dual := rfl
  F := Ising.f_map he hn tf
  R := Ising.r_map he tr
  C a b c d e f := by
    show Ising.cSym (φ ph) (tf.map φ) (tr.map φ) a b c d e f = φ (Ising.cSym ph tf tr a b c d e f)
    unfold Ising.cSym
    by_cases h : b = 1 ∧ c = 1
    · simp only [if_pos h]
      rw [← getD_map_zero he]
      congr 1
      simp only [Ising.cTable, List.map_cons, List.map_nil, defaultC, Ising.f_map he hn,
        Ising.r_map he, he.mul, he.star, he.zero, he.one, hn]
    · simp only [if_neg h]; exact he.one.symm

end image

/-! ### Fibonacci -/
namespace Fib

/-- `exp(i π / 5)` -/
noncomputable def z : ℂ := Complex.exp (Complex.I * (Real.pi / 5 : ℝ))
noncomputable def s : ℂ := ((phi ^ (-0.5 : ℝ) : ℝ) : ℂ)

abbrev P : Par := ⟨5, [0, 0, 1, -1], [1, 1]⟩
def xf : List (Num P) := [⟨[0, 0, 1, -1], [], 0⟩, ⟨[], [1], 0⟩, ⟨[0, 0, -1, 1], [], 0⟩]
def xr (right : Bool) : List (Num P) :=
  let v : List (Num P) := [⟨[0, -1], [], 0⟩, ⟨[0, 0, 0, 1], [], 0⟩]
  if right then v.map star else v
def xcat (right : Bool) : Cat ℤ (Num P) := catOf xf (xr right)
def xd (a : ℤ) : Num P := if a = 0 then 1 else ⟨[1, 0, 1, -1], [], 0⟩
def xθ (right : Bool) (a : ℤ) : Num P :=
  if a = 0 then 1 else if right then star ⟨[0, 0, 0, 0, 1], [], 0⟩ else ⟨[0, 0, 0, 0, 1], [], 0⟩

def checks (r : Bool) : Bool :=
  (xcat r).ringCheck [0, 1] && (xcat r).rCheck Num.eqB [0, 1] && (xcat r).fCheck Num.eqB [0, 1] &&
  (xcat r).pentCheck Num.eqB [0, 1] && (xcat r).hexCheck Num.eqB [0, 1] &&
  (xcat r).cCheck Num.eqB [0, 1] (fun _ _ => true) && (xcat r).qdimCheck Num.eqB [0, 1] xd &&
  (xcat r).ribbonCheck Num.eqB [0, 1] xd (xθ r)

theorem checks_true : ∀ r, checks r = true := by decide +kernel

theorem phi_pos : 0 < phi := by unfold phi; positivity

theorem z_pow (k : Nat) : z ^ k = Complex.exp (Complex.I * ((k * Real.pi / 5 : ℝ) : ℂ)) := by
  rw [z, ← Complex.exp_nat_mul]; congr 1; push_cast; ring

theorem z5 : z ^ 5 = -1 := by
  rw [z_pow]
  have : Complex.I * (((5 : ℕ) * Real.pi / 5 : ℝ) : ℂ) = Real.pi * Complex.I := by push_cast; ring
  rw [this, Complex.exp_pi_mul_I]

theorem star_exp (x : ℝ) : star (Complex.exp (Complex.I * (x : ℂ))) =
    Complex.exp (Complex.I * ((-x : ℝ) : ℂ)) := by
  rw [Complex.star_def, ← Complex.exp_conj]; congr 1; simp

theorem star_exp_mul (x : ℝ) : star (Complex.exp (Complex.I * (x : ℂ))) *
    Complex.exp (Complex.I * (x : ℂ)) = 1 := by
  rw [star_exp, ← Complex.exp_add]; simp

theorem z_star : star z * z = 1 := star_exp_mul _

theorem z2_sub_z3 : z ^ 2 - z ^ 3 = ((phi⁻¹ : ℝ) : ℂ) := by
  have h3 : z ^ 3 = - star (z ^ 2) := by
    have h1 : star (z ^ 2) * z ^ 2 = 1 := by rw [star_pow, ← mul_pow, z_star, one_pow]
    have h2 : (- star (z ^ 2)) * z ^ 2 = z ^ 3 * z ^ 2 := by
      rw [neg_mul, h1, ← pow_add, z5]
    have hz : z ≠ 0 := Complex.exp_ne_zero _
    exact (mul_right_cancel₀ (pow_ne_zero 2 hz) h2).symm
  rw [h3, sub_neg_eq_add, Complex.star_def, Complex.add_conj]
  congr 1
  have : (z ^ 2).re = Real.cos (2 * (Real.pi / 5)) := by
    rw [z_pow, mul_comm, Complex.exp_ofReal_mul_I_re]; congr 1; push_cast; ring
  rw [this, Real.cos_two_mul, Real.cos_pi_div_five]
  have h5 : Real.sqrt 5 * Real.sqrt 5 = 5 := Real.mul_self_sqrt (by norm_num)
  have hp := phi_pos
  apply eq_inv_of_mul_eq_one_left
  unfold phi
  linear_combination (Real.sqrt 5 / 8 + 3 / 8) * h5

theorem phi_rpow : (phi ^ (-1 : ℝ) : ℝ) = phi⁻¹ := by
  rw [Real.rpow_neg phi_pos.le, Real.rpow_one]

theorem good : Num.Good P z s where
  n_pos := by norm_num
  pow := z5
  norm := z_star
  s_real := by rw [s, Complex.star_def, Complex.conj_ofReal]
  s_sq := by
    have : ev z P.sq = z ^ 2 - z ^ 3 := by simp; ring
    rw [this, z2_sub_z3, s, ← Complex.ofReal_mul, ← Real.rpow_add phi_pos, ← phi_rpow]
    norm_num
  mlt := by
    have : ev z P.mlt = 1 + z := by simp
    rw [this]
    intro h
    have hz : z = -1 := by linear_combination h
    have hre : z.re = Real.cos (Real.pi / 5) := by
      rw [z, mul_comm, Complex.exp_ofReal_mul_I_re]
    rw [hz, Real.cos_pi_div_five] at hre
    have := Real.sqrt_nonneg 5
    simp at hre
    linarith

noncomputable abbrev φ : Num P → ℂ := Num.val z s

theorem eval : Cat.Eval φ Num.eqB := Num.eval good

theorem val0 (l : List Int) : φ ⟨l, [], 0⟩ = ev z l := by simp [φ, Num.val]

theorem fTable_eq : fTable = xf.map φ := by
  have h1 := z2_sub_z3
  simp only [fTable, xf, List.map_cons, List.map_nil, val0, phi_rpow]
  congr 1
  · rw [← h1]; simp; ring
  · congr 1
    · simp [φ, Num.val, s]
    · congr 1
      rw [Complex.ofReal_neg, ← h1]; simp; ring

theorem rTable_eq (r : Bool) : rTable r = (xr r).map φ := by
  have e1 : Complex.exp (Complex.I * ((-4 * Real.pi / 5 : ℝ) : ℂ)) = - z := by
    have : Complex.I * ((-4 * Real.pi / 5 : ℝ) : ℂ) =
        Complex.I * ((Real.pi / 5 : ℝ) : ℂ) - Real.pi * Complex.I := by push_cast; ring
    rw [this, Complex.exp_sub, Complex.exp_pi_mul_I, z]; ring
  have e2 : Complex.exp (Complex.I * ((3 * Real.pi / 5 : ℝ) : ℂ)) = z ^ 3 := by
    rw [z_pow]; congr 1
  have b1 : φ ⟨[0, -1], [], 0⟩ = -z := by rw [val0]; simp
  have b2 : φ ⟨[0, 0, 0, 1], [], 0⟩ = z ^ 3 := by rw [val0]; simp; ring
  cases r
  · simp only [rTable, xr, e1, e2, List.map_cons, List.map_nil, Bool.false_eq_true, if_false, b1, b2]
  · simp only [rTable, xr, e1, e2, List.map_cons, List.map_nil, if_true, eval.star, b1, b2]

theorem cat_image (r : Bool) : Cat.Image (xcat r) (cat r) φ [0, 1] := by
  rw [cat, fTable_eq, rTable_eq]; exact image eval _ _

theorem phi_eq : ((phi : ℝ) : ℂ) = 1 + z ^ 2 - z ^ 3 := by
  have : phi = 1 + phi⁻¹ := by
    have h5 : Real.sqrt 5 * Real.sqrt 5 = 5 := Real.mul_self_sqrt (by norm_num)
    have hp := phi_pos
    field_simp
    unfold phi
    linear_combination (1 / 4 : ℝ) * h5
  rw [this, Complex.ofReal_add, ← z2_sub_z3]; push_cast; ring

theorem qdim_eq (a : ℤ) : (qdim a : ℂ) = φ (xd a) := by
  unfold qdim xd
  split
  · rw [eval.one]; simp
  · rw [val0, phi_eq]; simp; ring

theorem qdim_pos (a : ℤ) : 0 < qdim a := by
  unfold qdim; split
  · norm_num
  · exact phi_pos

theorem unitaryBraided (r : Bool) : (cat r).UnitaryBraided := by
  have h := checks_true r
  simp only [checks, Bool.and_eq_true] at h
  have hi := cat_image r
  exact ⟨Cat.ring_of_check hi h.1.1.1.1.1.1.1, Cat.rPhase_of_check eval hi h.1.1.1.1.1.1.2,
    Cat.fUnitary_of_check eval hi h.1.1.1.1.1.2, Cat.pentagon_of_check eval hi h.1.1.1.1.2,
    (Cat.hexagons_of_check eval hi h.1.1.1.2).1, (Cat.hexagons_of_check eval hi h.1.1.1.2).2,
    fun a b c d e f => Cat.c_of_check eval hi _ h.1.1.2 a b c d e f rfl⟩

theorem qdimCharacter (r : Bool) : (cat r).QdimCharacter qdim := by
  have h := checks_true r
  simp only [checks, Bool.and_eq_true] at h
  exact Cat.qdim_of_check eval (cat_image r) xd qdim qdim_eq qdim_pos h.1.2

theorem twist_eq (r : Bool) : ∀ a ∈ ([0, 1] : List ℤ),
    defaultTwist (cat r) qdim a = φ (xθ r a) := by
  have h := checks_true r
  simp only [checks, Bool.and_eq_true] at h
  have h2 := h.2
  simp only [Cat.ribbonCheck, Bool.and_eq_true, List.all_eq_true] at h2
  intro a ha
  have := eval.sound _ _ (h2.1 a ha).1.1
  rw [eval.mul, ← qdim_eq, eval.sum, List.map_map] at this
  have hp := qdim_pos a
  rw [defaultTwist, (cat_image r).out, div_eq_iff (by exact_mod_cast hp.ne'), mul_comm, this]
  congr 1
  apply List.map_congr_left
  intro c _
  simp [eval.mul, qdim_eq, (cat_image r).R]

theorem ribbon (r : Bool) : (cat r).Ribbon qdim (defaultTwist (cat r) qdim) := by
  have h := checks_true r
  simp only [checks, Bool.and_eq_true] at h
  exact Cat.ribbon_of_check eval (cat_image r) xd (xθ r) qdim _ qdim_eq (twist_eq r)
    (unitaryBraided r).ring h.2

theorem twist_tau (r : Bool) : defaultTwist (cat r) qdim 1 =
    Complex.exp (Complex.I * (((if r then -4 else 4) * Real.pi / 5 : ℝ) : ℂ)) := by
  rw [twist_eq r 1 (by simp)]
  have h4 : z ^ 4 = Complex.exp (Complex.I * ((4 * Real.pi / 5 : ℝ) : ℂ)) := by
    rw [z_pow]; congr 1
  have b : φ ⟨[0, 0, 0, 0, 1], [], 0⟩ = z ^ 4 := by rw [val0]; simp; ring
  cases r
  · simp only [xθ, one_ne_zero, if_false, b, h4, Bool.false_eq_true]
  · simp only [xθ, one_ne_zero, if_false, eval.star, b, h4, star_exp, if_true]
    congr 2; push_cast; ring

end Fib

/-! ### Ising -/
namespace Ising

/-- `exp(i π / 8)` -/
noncomputable def z : ℂ := Complex.exp (Complex.I * (Real.pi / 8 : ℝ))

theorem z_pow (k : Nat) : z ^ k = Complex.exp (Complex.I * ((k * Real.pi / 8 : ℝ) : ℂ)) := by
  rw [z, ← Complex.exp_nat_mul]; congr 1; push_cast; ring

theorem z8 : z ^ 8 = -1 := by
  rw [z_pow]
  have : Complex.I * (((8 : ℕ) * Real.pi / 8 : ℝ) : ℂ) = Real.pi * Complex.I := by push_cast; ring
  rw [this, Complex.exp_pi_mul_I]

theorem z4 : z ^ 4 = Complex.I := by
  rw [z_pow]
  have : Complex.I * (((4 : ℕ) * Real.pi / 8 : ℝ) : ℂ) = (Real.pi / 2 : ℂ) * Complex.I := by
    push_cast; ring
  rw [this, Complex.exp_pi_div_two_mul_I]

theorem z16 : z ^ 16 = 1 := by
  have : z ^ 16 = (z ^ 8) ^ 2 := by ring
  rw [this, z8]; norm_num

theorem z_mod (k : Nat) : z ^ (k % 16) = z ^ k := by
  conv_rhs => rw [← Nat.div_add_mod k 16, pow_add, pow_mul, z16, one_pow, one_mul]

theorem good : Num.Good P z 0 where
  n_pos := by norm_num
  pow := z8
  norm := Fib.star_exp_mul _
  s_real := star_zero _
  s_sq := by simp
  mlt := by simp

noncomputable abbrev φ : Num P → ℂ := Num.val z 0

theorem eval : Cat.Eval φ Num.eqB := Num.eval good
theorem neg (x : Num P) : φ (-x) = - φ x := Num.val_neg x

theorem val0 (l : List Int) : φ ⟨l, [], 0⟩ = ev z l := by simp [φ, Num.val]

theorem val_zp (k : Nat) : φ (zp k) = z ^ k := by
  rw [zp, val0, ev_pred z8, ev_append, ev_replicate]; simp

theorem sqrt2 : z ^ 2 - z ^ 6 = ((Real.sqrt 2 : ℝ) : ℂ) := by
  have h3 : z ^ 6 = - star (z ^ 2) := by
    have h1 : star (z ^ 2) * z ^ 2 = 1 := by rw [star_pow, ← mul_pow, good.norm, one_pow]
    have h2 : (- star (z ^ 2)) * z ^ 2 = z ^ 6 * z ^ 2 := by
      rw [neg_mul, h1, ← pow_add, z8]
    have hz : z ≠ 0 := Complex.exp_ne_zero _
    exact (mul_right_cancel₀ (pow_ne_zero 2 hz) h2).symm
  rw [h3, sub_neg_eq_add, Complex.star_def, Complex.add_conj]
  congr 1
  have : (z ^ 2).re = Real.cos (Real.pi / 4) := by
    rw [z_pow, mul_comm, Complex.exp_ofReal_mul_I_re]; congr 1; push_cast; ring
  rw [this, Real.cos_pi_div_four]; ring

theorem val_h : φ xh = ((1 / Real.sqrt 2 : ℝ) : ℂ) := by
  have : φ xh = (z ^ 2 - z ^ 6) / 2 := by simp [φ, Num.val, xh]; ring
  rw [this, sqrt2]
  have h : Real.sqrt 2 / 2 = 1 / Real.sqrt 2 := by
    rw [div_eq_div_iff (by norm_num) (by positivity), Real.mul_self_sqrt (by norm_num)]; norm_num
  rw [← h]; push_cast; rfl

theorem fs1_cases (nu : ℤ) : fs1 nu = 1 ∨ fs1 nu = -1 := by unfold fs1; split <;> simp

theorem val_s (n : Nat) : φ (xs n) = ((fs1 n : ℤ) : ℂ) := by
  unfold xs
  rcases fs1_cases n with h | h
  · rw [if_pos h, eval.one, h]; simp
  · rw [if_neg (by rw [h]; decide), neg, eval.one, h]; simp

theorem phase_eq (n : Nat) : phase n = φ (xph n) := by
  rw [xph, val_zp, z_mod, pow_mul]
  have : z ^ 12 = - Complex.I := by
    have : z ^ 12 = z ^ 8 * z ^ 4 := by ring
    rw [this, z8, z4]; ring
  rw [this, phase, zpow_natCast]

theorem fTable_eq (n : Nat) : fTable n = (xf n).map φ := by
  have h : φ (xs n * xh) = (((fs1 n : ℝ) * (1 / Real.sqrt 2) : ℝ) : ℂ) := by
    rw [eval.mul, val_s, val_h]; push_cast; rfl
  simp only [fTable, xf, List.map_cons, List.map_nil, neg, h, eval.zero]

theorem rTable_eq (n : Nat) : rTable n = (xr n).map φ := by
  have e1 : Complex.exp (Complex.I * ((3 * ((n : ℤ) : ℝ) * Real.pi / 8 : ℝ) : ℂ)) = z ^ (3 * n) := by
    rw [z_pow]; congr 2; push_cast; ring
  have e2 : Complex.exp (Complex.I * ((-((n : ℤ) : ℝ) * Real.pi / 8 : ℝ) : ℂ)) = z ^ (15 * n) := by
    have h1 : z ^ n * Complex.exp (Complex.I * ((-((n : ℤ) : ℝ) * Real.pi / 8 : ℝ) : ℂ)) = 1 := by
      rw [z_pow, ← Complex.exp_add, ← Complex.exp_zero]; congr 1; push_cast; ring
    have h2 : z ^ n * z ^ (15 * n) = 1 := by
      rw [← pow_add]; have : n + 15 * n = 16 * n := by ring
      rw [this, pow_mul, z16, one_pow]
    exact mul_left_cancel₀ (pow_ne_zero n (Complex.exp_ne_zero _)) (h1.trans h2.symm)
  simp only [rTable, xr, List.map_cons, List.map_nil, e1, e2, neg, eval.one, eval.mul, val_s,
    val_zp, z_mod, phase_eq, eval.zero]

theorem normNu_eq (nu : ℤ) : normNu nu = nu % 16 := by
  unfold normNu
  have h1 : Int.tmod nu 16 = if 0 ≤ nu then nu % 16 else -((-nu) % 16) := by
    split
    · exact Int.tmod_eq_emod_of_nonneg ‹_›
    · have : nu = -(-nu) := by ring
      rw [this, Int.neg_tmod, Int.tmod_eq_emod_of_nonneg (by omega), neg_neg]
  rw [h1]
  split
  · rw [Int.tmod_eq_emod_of_nonneg (by omega)]; omega
  · rw [Int.tmod_eq_emod_of_nonneg (by omega)]; omega

theorem norm_odd (nu : ℤ) (h : nu % 2 = 1) : ∃ k : Fin 8, normNu nu = ((2 * k.1 + 1 : ℕ) : ℤ) := by
  refine ⟨⟨((nu % 16) / 2).toNat, by omega⟩, ?_⟩
  rw [normNu_eq]; simp only; omega

theorem cat_image (nu : ℤ) (k : Fin 8) (h : normNu nu = ((2 * k.1 + 1 : ℕ) : ℤ)) :
    Cat.Image (xcat (2 * k.1 + 1)) (cat nu) φ [0, 1, 2] := by
  simp only [cat]
  rw [h, phase_eq, fTable_eq, rTable_eq]; exact image eval neg _ _ _

theorem qdim_eq (a : ℤ) : (qdim a : ℂ) = φ (xd a) := by
  unfold qdim xd
  split
  · rw [val0, ← sqrt2]; simp; ring
  · rw [eval.one]; simp

theorem qdim_pos (a : ℤ) : 0 < qdim a := by
  unfold qdim; split
  · positivity
  · norm_num

theorem braidedFR (nu : ℤ) (hodd : nu % 2 = 1) : (cat nu).UnitaryBraidedFR := by
  obtain ⟨k, hk⟩ := norm_odd nu hodd
  have h := checks_true k
  simp only [checks, Bool.and_eq_true] at h
  have hi := cat_image nu k hk
  exact ⟨Cat.ring_of_check hi h.1.1.1.1.1.1.1, Cat.rPhase_of_check eval hi h.1.1.1.1.1.1.2,
    Cat.fUnitary_of_check eval hi h.1.1.1.1.1.2, Cat.pentagon_of_check eval hi h.1.1.1.1.2,
    (Cat.hexagons_of_check eval hi h.1.1.1.2).1, (Cat.hexagons_of_check eval hi h.1.1.1.2).2⟩

theorem c_good (nu : ℤ) (hodd : nu % 2 = 1) (a b c d e f : ℤ) (hP : goodPair b c = true)
    (ha : (cat nu).valid a) (hb : (cat nu).valid b) (hc : (cat nu).valid c) (hd : (cat nu).valid d)
    (h1 : e ∈ (cat nu).out a b) (h2 : d ∈ (cat nu).out e c) (h3 : f ∈ (cat nu).out a c)
    (h4 : d ∈ (cat nu).out f b) :
    (cat nu).C a b c d e f =
      (cat nu).R e c d * (cat nu).F c a b d e f * star ((cat nu).R a c f) := by
  obtain ⟨k, hk⟩ := norm_odd nu hodd
  have h := checks_true k
  simp only [checks, Bool.and_eq_true] at h
  exact Cat.c_of_check eval (cat_image nu k hk) _ h.1.1.2 a b c d e f hP ha hb hc hd h1 h2 h3 h4

theorem qdimCharacter (nu : ℤ) (hodd : nu % 2 = 1) : (cat nu).QdimCharacter qdim := by
  obtain ⟨k, hk⟩ := norm_odd nu hodd
  have h := checks_true k
  simp only [checks, Bool.and_eq_true] at h
  exact Cat.qdim_of_check eval (cat_image nu k hk) xd qdim qdim_eq qdim_pos h.1.2

theorem twist_eq (nu : ℤ) (k : Fin 8) (hk : normNu nu = ((2 * k.1 + 1 : ℕ) : ℤ)) :
    ∀ a ∈ ([0, 1, 2] : List ℤ),
    defaultTwist (cat nu) qdim a = φ (xθ (2 * k.1 + 1) a) := by
  have h := checks_true k
  simp only [checks, Bool.and_eq_true] at h
  have h2 := h.2
  simp only [Cat.ribbonCheck, Bool.and_eq_true, List.all_eq_true] at h2
  intro a ha
  have hi := cat_image nu k hk
  have := eval.sound _ _ (h2.1 a ha).1.1
  rw [eval.mul, ← qdim_eq, eval.sum, List.map_map] at this
  have hp := qdim_pos a
  rw [defaultTwist, hi.out, div_eq_iff (by exact_mod_cast hp.ne'),
    mul_comm (φ _), this]
  congr 1
  apply List.map_congr_left
  intro c _
  simp [eval.mul, qdim_eq, hi.R]

theorem ribbon (nu : ℤ) (hodd : nu % 2 = 1) :
    (cat nu).Ribbon qdim (defaultTwist (cat nu) qdim) := by
  obtain ⟨k, hk⟩ := norm_odd nu hodd
  have h := checks_true k
  simp only [checks, Bool.and_eq_true] at h
  exact Cat.ribbon_of_check eval (cat_image nu k hk) xd _ qdim _ qdim_eq (twist_eq nu k hk)
    (braidedFR nu hodd).ring h.2

theorem exp_mod (nu : ℤ) (k : Nat) (hk : nu % 16 = k) :
    Complex.exp (Complex.I * ((nu * Real.pi / 8 : ℝ) : ℂ)) = z ^ k := by
  have h1 : (nu : ℝ) = (k : ℝ) + 16 * ((nu / 16 : ℤ) : ℝ) := by
    have : nu = k + 16 * (nu / 16) := by omega
    exact_mod_cast this
  rw [z_pow, Complex.exp_eq_exp_iff_exists_int]
  refine ⟨nu / 16, ?_⟩
  rw [h1]; push_cast; ring

end Ising
end Cyten
