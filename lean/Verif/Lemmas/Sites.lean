import Verif.Model.Sites
import Mathlib.Tactic.LinearCombination
import Mathlib.Tactic.Module
import Mathlib.Tactic.NoncommRing
import Mathlib.LinearAlgebra.Matrix.Kronecker
import Mathlib.RingTheory.RootsOfUnity.Complex

/-!
# Lemmas on site operators
-/

namespace Cyten.Sites

open Matrix

/-! ## Weighted shifts -/

/-- The matrix with entry `w j` at `(j + 1, j)`. -/
def shiftUp (d : ℕ) (w : ℕ → ℂ) : Arr d := of fun i j => if i.val = j.val + 1 then w j.val else 0

theorem shiftUp_mul_conjTranspose (d : ℕ) (w : ℕ → ℂ) :
    shiftUp d w * (shiftUp d w)ᴴ
      = diagonal fun n : Fin d => if n.val = 0 then 0 else w (n.val - 1) * star (w (n.val - 1)) := by
  ext i j
  rw [mul_apply, diagonal_apply]
  simp only [conjTranspose_apply, shiftUp, of_apply]
  by_cases hi : i.val = 0
  · rw [Finset.sum_eq_zero]
    · simp [hi]
    · intro k _
      rw [if_neg (by omega), zero_mul]
  · have hk : i.val - 1 < d := by omega
    rw [Finset.sum_eq_single (⟨i.val - 1, hk⟩ : Fin d)]
    · rw [if_pos (by simp; omega)]
      by_cases hij : i = j
      · subst hij
        rw [if_pos (by simp; omega), if_pos rfl, if_neg hi]
      · have : j.val ≠ i.val - 1 + 1 := by
          intro h; apply hij; apply Fin.ext; omega
        rw [if_neg (by simpa using this), if_neg hij]; simp
    · intro k _ hne
      rw [if_neg, zero_mul]
      intro h; apply hne; apply Fin.ext; simp; omega
    · intro h; exact absurd (Finset.mem_univ _) h

theorem shiftUp_conjTranspose_mul (d : ℕ) (w : ℕ → ℂ) :
    (shiftUp d w)ᴴ * shiftUp d w
      = diagonal fun n : Fin d => if n.val + 1 < d then w n.val * star (w n.val) else 0 := by
  ext i j
  rw [mul_apply, diagonal_apply]
  simp only [conjTranspose_apply, shiftUp, of_apply]
  by_cases hi : i.val + 1 < d
  · rw [Finset.sum_eq_single (⟨i.val + 1, hi⟩ : Fin d)]
    · rw [if_pos (by simp)]
      by_cases hij : i = j
      · subst hij
        rw [if_pos (by simp), if_pos rfl, if_pos hi, mul_comm]
      · have : i.val + 1 ≠ j.val + 1 := by
          intro h; apply hij; apply Fin.ext; omega
        rw [if_neg (by simpa using this), if_neg hij]; simp
    · intro k _ hne
      rw [if_neg, star_zero, zero_mul]
      intro h; apply hne; apply Fin.ext; simp; omega
    · intro h; exact absurd (Finset.mem_univ _) h
  · rw [Finset.sum_eq_zero]
    · by_cases hij : i = j
      · subst hij; rw [if_pos rfl, if_neg hi]
      · rw [if_neg hij]
    · intro k _
      rw [if_neg (by omega), star_zero, zero_mul]

theorem diagonal_shiftUp (d : ℕ) (f : ℕ → ℂ) (w : ℕ → ℂ) :
    (diagonal fun n : Fin d => f n.val) * shiftUp d w - shiftUp d w * (diagonal fun n : Fin d => f n.val)
      = shiftUp d fun n => (f (n + 1) - f n) * w n := by
  ext i j
  rw [Matrix.sub_apply, diagonal_mul, mul_diagonal]
  simp only [shiftUp, of_apply]
  by_cases h : i.val = j.val + 1
  · rw [if_pos h, if_pos h, h]; ring
  · rw [if_neg h, if_neg h]; ring

/-! ## The spin algebra from `Sz`, `Sp` -/

theorem spinVector_su2 {d : ℕ} (Sz Sp : Arr d) (hz : Szᴴ = Sz) (h1 : Sz * Sp - Sp * Sz = Sp)
    (h2 : Sp * Spᴴ - Spᴴ * Sp = (2 : ℂ) • Sz) :
    (spinVector Sz Sp 0 * spinVector Sz Sp 1 - spinVector Sz Sp 1 * spinVector Sz Sp 0
        = Complex.I • spinVector Sz Sp 2) ∧
    (spinVector Sz Sp 1 * spinVector Sz Sp 2 - spinVector Sz Sp 2 * spinVector Sz Sp 1
        = Complex.I • spinVector Sz Sp 0) ∧
    (spinVector Sz Sp 2 * spinVector Sz Sp 0 - spinVector Sz Sp 0 * spinVector Sz Sp 2
        = Complex.I • spinVector Sz Sp 1) := by
  have h3 : Spᴴ * Sz - Sz * Spᴴ = Spᴴ := by
    have := congrArg conjTranspose h1
    rwa [conjTranspose_sub, conjTranspose_mul, conjTranspose_mul, hz] at this
  have hI : Complex.I * Complex.I = -1 := Complex.I_mul_I
  refine ⟨?_, ?_, ?_⟩
  · show ((1 / 2 : ℂ) • (Sp + Spᴴ)) * ((Complex.I / 2 : ℂ) • (Spᴴ - Sp))
      - ((Complex.I / 2 : ℂ) • (Spᴴ - Sp)) * ((1 / 2 : ℂ) • (Sp + Spᴴ)) = Complex.I • Sz
    simp only [smul_mul_assoc, mul_smul_comm, add_mul, mul_add, sub_mul, mul_sub]
    linear_combination (norm := module) (Complex.I / 2 : ℂ) • h2
  · show ((Complex.I / 2 : ℂ) • (Spᴴ - Sp)) * Sz - Sz * ((Complex.I / 2 : ℂ) • (Spᴴ - Sp))
      = Complex.I • ((1 / 2 : ℂ) • (Sp + Spᴴ))
    simp only [smul_mul_assoc, mul_smul_comm, sub_mul, mul_sub]
    linear_combination (norm := module) (Complex.I / 2 : ℂ) • h1 + (Complex.I / 2 : ℂ) • h3
  · show Sz * ((1 / 2 : ℂ) • (Sp + Spᴴ)) - ((1 / 2 : ℂ) • (Sp + Spᴴ)) * Sz
      = Complex.I • ((Complex.I / 2 : ℂ) • (Spᴴ - Sp))
    rw [smul_smul, show Complex.I * (Complex.I / 2) = -(1 / 2) by rw [← mul_div_assoc, hI]; ring]
    simp only [smul_mul_assoc, mul_smul_comm, add_mul, mul_add]
    linear_combination (norm := module) (1 / 2 : ℂ) • h1 - (1 / 2 : ℂ) • h3

theorem spinVector_square {d : ℕ} (Sz Sp : Arr d) :
    spinVector Sz Sp 0 * spinVector Sz Sp 0 + spinVector Sz Sp 1 * spinVector Sz Sp 1
        + spinVector Sz Sp 2 * spinVector Sz Sp 2
      = (1 / 2 : ℂ) • (Sp * Spᴴ + Spᴴ * Sp) + Sz * Sz := by
  have hI : Complex.I / 2 * (Complex.I / 2) = -(1 / 4) := by
    have := Complex.I_mul_I; linear_combination (1 / 4 : ℂ) * this
  show ((1 / 2 : ℂ) • (Sp + Spᴴ)) * ((1 / 2 : ℂ) • (Sp + Spᴴ))
      + ((Complex.I / 2 : ℂ) • (Spᴴ - Sp)) * ((Complex.I / 2 : ℂ) • (Spᴴ - Sp)) + Sz * Sz = _
  rw [smul_mul_smul_comm, smul_mul_smul_comm, hI]
  simp only [add_mul, mul_add, sub_mul, mul_sub]
  module

theorem spinVector_hermitian {d : ℕ} (Sz Sp : Arr d) (hz : Szᴴ = Sz) (a : Fin 3) :
    (spinVector Sz Sp a)ᴴ = spinVector Sz Sp a := by
  match a with
  | 0 =>
    show ((1 / 2 : ℂ) • (Sp + Spᴴ))ᴴ = (1 / 2 : ℂ) • (Sp + Spᴴ)
    rw [conjTranspose_smul, conjTranspose_add, conjTranspose_conjTranspose, add_comm]
    congr 1; simp
  | 1 =>
    show ((Complex.I / 2 : ℂ) • (Spᴴ - Sp))ᴴ = (Complex.I / 2 : ℂ) • (Spᴴ - Sp)
    rw [conjTranspose_smul, conjTranspose_sub, conjTranspose_conjTranspose,
      show star (Complex.I / 2) = -(Complex.I / 2) by simp [neg_div]]
    module
  | 2 => exact hz

theorem spinSp_eq (twoS : ℕ) :
    spinSp twoS = shiftUp (twoS + 1) fun n => ((spinCoeff twoS n : ℝ) : ℂ) := rfl

theorem spinCoeff_sq (twoS n : ℕ) (h : n ≤ twoS) :
    ((spinCoeff twoS n : ℝ) : ℂ) * star ((spinCoeff twoS n : ℝ) : ℂ)
      = ((twoS : ℂ) - n) * ((n : ℂ) + 1) := by
  have hn : (0 : ℝ) ≤ (twoS : ℝ) / 2 * ((twoS : ℝ) / 2 + 1)
      - ((n : ℝ) - (twoS : ℝ) / 2) * (((n : ℝ) - (twoS : ℝ) / 2) + 1) := by
    have h1 : (n : ℝ) ≤ twoS := by exact_mod_cast h
    have h0 : (0 : ℝ) ≤ n := by positivity
    nlinarith
  have : star ((spinCoeff twoS n : ℝ) : ℂ) = ((spinCoeff twoS n : ℝ) : ℂ) := Complex.conj_ofReal _
  rw [this, ← Complex.ofReal_mul, spinCoeff, Real.mul_self_sqrt hn]
  push_cast; ring

theorem spinSz_herm (twoS : ℕ) : (spinSz twoS)ᴴ = spinSz twoS := by
  rw [spinSz, diagonal_conjTranspose]
  congr 1; funext n
  simp

theorem spin_raise (twoS : ℕ) :
    spinSz twoS * spinSp twoS - spinSp twoS * spinSz twoS = spinSp twoS := by
  rw [spinSp_eq, spinSz,
    diagonal_shiftUp (twoS + 1) (fun n => -((twoS : ℂ) / 2) + (n : ℂ))]
  congr 1; funext n; push_cast; ring

theorem spinSp_mul (twoS : ℕ) :
    spinSp twoS * (spinSp twoS)ᴴ
      = diagonal fun n : Fin (twoS + 1) => ((twoS : ℂ) + 1 - n.val) * (n.val : ℂ) := by
  rw [spinSp_eq, shiftUp_mul_conjTranspose]
  congr 1; funext n
  by_cases h : n.val = 0
  · rw [if_pos h, h]; simp
  · rw [if_neg h, spinCoeff_sq _ _ (by omega)]
    obtain ⟨m, hm⟩ : ∃ m, n.val = m + 1 := ⟨n.val - 1, by omega⟩
    rw [hm]; push_cast; simp

theorem spinSp_mul' (twoS : ℕ) :
    (spinSp twoS)ᴴ * spinSp twoS
      = diagonal fun n : Fin (twoS + 1) => ((twoS : ℂ) - n.val) * ((n.val : ℂ) + 1) := by
  rw [spinSp_eq, shiftUp_conjTranspose_mul]
  congr 1; funext n
  by_cases h : n.val + 1 < twoS + 1
  · rw [if_pos h, spinCoeff_sq _ _ (by omega)]
  · rw [if_neg h]
    have : n.val = twoS := by omega
    rw [this]; simp

theorem spin_ladder (twoS : ℕ) :
    spinSp twoS * (spinSp twoS)ᴴ - (spinSp twoS)ᴴ * spinSp twoS = (2 : ℂ) • spinSz twoS := by
  rw [spinSp_mul, spinSp_mul', spinSz, diagonal_sub, ← diagonal_smul]
  congr 1; funext n
  simp only [Pi.smul_apply, smul_eq_mul]; ring

theorem spin_casimir (twoS : ℕ) :
    (1 / 2 : ℂ) • (spinSp twoS * (spinSp twoS)ᴴ + (spinSp twoS)ᴴ * spinSp twoS)
        + spinSz twoS * spinSz twoS
      = ((twoS : ℂ) / 2 * ((twoS : ℂ) / 2 + 1)) • (1 : Arr (twoS + 1)) := by
  rw [spinSp_mul, spinSp_mul', spinSz, diagonal_add, diagonal_mul_diagonal, ← diagonal_smul,
    diagonal_add, ← diagonal_one, ← diagonal_smul]
  congr 1; funext n
  simp only [Pi.smul_apply, smul_eq_mul]; ring

/-! ## Clock operators -/

theorem clockX_apply (q : ℕ) (i j : Fin q) :
    clockX q i j = if j.val = (i.val + 1) % q then 1 else 0 := by
  have hi := i.isLt
  have hj := j.isLt
  rw [clockX, Matrix.add_apply]
  simp only [npEye, of_apply]
  by_cases h : i.val + 1 < q
  · rw [Nat.mod_eq_of_lt h, if_neg (show ¬ ((j.val : ℤ) - i.val = 1 - (q : ℤ)) by omega), add_zero]
    by_cases h2 : j.val = i.val + 1
    · rw [if_pos h2, if_pos (by omega)]
    · rw [if_neg h2, if_neg (by omega)]
  · have hq : i.val + 1 = q := by omega
    rw [hq, Nat.mod_self, if_neg (show ¬ ((j.val : ℤ) - i.val = 1) by omega), zero_add]
    by_cases h2 : j.val = 0
    · rw [if_pos h2, if_pos (by omega)]
    · rw [if_neg h2, if_neg (by omega)]

theorem clockX_pow_apply (q k : ℕ) (i j : Fin q) :
    (clockX q ^ k) i j = if j.val = (i.val + k) % q then 1 else 0 := by
  induction k generalizing i j with
  | zero =>
    rw [pow_zero, one_apply, add_zero, Nat.mod_eq_of_lt i.isLt]
    by_cases h : i = j
    · subst h; simp
    · rw [if_neg h, if_neg (fun e => h (Fin.ext e.symm))]
  | succ k ih =>
    have hq : 0 < q := by have := i.isLt; omega
    rw [pow_succ, mul_apply,
      Finset.sum_eq_single (⟨(i.val + k) % q, Nat.mod_lt _ hq⟩ : Fin q)]
    · rw [ih, if_pos rfl, one_mul, clockX_apply]
      simp only [Nat.mod_add_mod, add_assoc]
    · intro l _ hne
      rw [ih, if_neg (fun e => hne (Fin.ext e)), zero_mul]
    · intro h; exact absurd (Finset.mem_univ _) h

theorem clockX_pow_q (q : ℕ) : clockX q ^ q = 1 := by
  ext i j
  rw [clockX_pow_apply, one_apply, Nat.add_mod_right, Nat.mod_eq_of_lt i.isLt]
  by_cases h : i = j
  · subst h; simp
  · rw [if_neg h, if_neg (fun e => h (Fin.ext e.symm))]

theorem clockZ_eq (q : ℕ) : clockZ q = diagonal fun n => clockPhase q ^ n.val := by
  rw [clockZ]
  congr 1; funext n
  rw [clockPhase, ← Complex.exp_nat_mul]
  congr 1; ring

theorem clockPhase_pow (q : ℕ) (h : q ≠ 0) : clockPhase q ^ q = 1 := by
  rw [clockPhase, ← Complex.exp_nat_mul,
    show (q : ℂ) * (2 * Real.pi / (q : ℂ) * Complex.I) = 2 * Real.pi * Complex.I by
      have : (q : ℂ) ≠ 0 := by exact_mod_cast h
      field_simp]
  exact Complex.exp_two_pi_mul_I

theorem clockPhase_primitive (q : ℕ) (h : q ≠ 0) : IsPrimitiveRoot (clockPhase q) q := by
  have := Complex.isPrimitiveRoot_exp q h
  rwa [show 2 * (Real.pi : ℂ) * Complex.I / q = 2 * Real.pi / (q : ℂ) * Complex.I by ring] at this

theorem clockZ_pow_q (q : ℕ) : clockZ q ^ q = 1 := by
  rw [clockZ_eq, diagonal_pow, ← diagonal_one]
  congr 1; funext n
  have hq : q ≠ 0 := by have := n.isLt; omega
  simp only [Pi.pow_apply]
  rw [← pow_mul, mul_comm, pow_mul, clockPhase_pow q hq, one_pow]

theorem clock_exchange (q : ℕ) : clockX q * clockZ q = clockPhase q • (clockZ q * clockX q) := by
  ext i j
  rw [clockZ_eq, mul_diagonal, Matrix.smul_apply, diagonal_mul, clockX_apply, smul_eq_mul]
  by_cases h : j.val = (i.val + 1) % q
  · rw [if_pos h, one_mul, mul_one, h, ← pow_succ']
    have hq : q ≠ 0 := by have := i.isLt; omega
    have e := Nat.div_add_mod (i.val + 1) q
    conv_rhs => rw [← e, pow_add, pow_mul, clockPhase_pow q hq, one_pow, one_mul]
  · rw [if_neg h]; simp

theorem clockPhase_norm (q : ℕ) : clockPhase q * star (clockPhase q) = 1 := by
  have : star (clockPhase q) = Complex.exp (-(2 * Real.pi / (q : ℂ) * Complex.I)) := by
    rw [clockPhase]
    show (starRingEnd ℂ) _ = _
    rw [← Complex.exp_conj]
    congr 1
    simp [Complex.conj_ofNat]
  rw [this, clockPhase, ← Complex.exp_add]; simp

theorem clockZ_unitary (q : ℕ) : clockZ q * (clockZ q)ᴴ = 1 := by
  rw [clockZ_eq, diagonal_conjTranspose, diagonal_mul_diagonal, ← diagonal_one]
  congr 1; funext n
  simp only [Pi.star_apply, star_pow]
  rw [← mul_pow, clockPhase_norm, one_pow]

theorem clockX_unitary (q : ℕ) : clockX q * (clockX q)ᴴ = 1 := by
  ext i j
  rw [mul_apply, one_apply]
  have hq : 0 < q := by have := i.isLt; omega
  rw [Finset.sum_eq_single (⟨(i.val + 1) % q, Nat.mod_lt _ hq⟩ : Fin q)]
  · rw [conjTranspose_apply, clockX_apply, if_pos rfl, clockX_apply, one_mul]
    by_cases h : i = j
    · subst h; simp
    · rw [if_neg h]
      simp only
      rw [if_neg, star_zero]
      intro e
      apply h; apply Fin.ext
      have := i.isLt
      have := j.isLt
      rcases Nat.lt_or_ge (i.val + 1) q with h1 | h1 <;> rcases Nat.lt_or_ge (j.val + 1) q with h2 | h2
      · rw [Nat.mod_eq_of_lt h1, Nat.mod_eq_of_lt h2] at e; omega
      · rw [Nat.mod_eq_of_lt h1, show j.val + 1 = q by omega, Nat.mod_self] at e; omega
      · rw [Nat.mod_eq_of_lt h2, show i.val + 1 = q by omega, Nat.mod_self] at e; omega
      · omega
  · intro l _ hne
    rw [clockX_apply, if_neg (fun e => hne (Fin.ext e)), zero_mul]
  · intro h; exact absurd (Finset.mem_univ _) h

/-- The exchange relation determines the phase. -/
theorem clock_exchange_unique (q : ℕ) (hq : 0 < q) (c : ℂ)
    (h : clockX q * clockZ q = c • (clockZ q * clockX q)) : c = clockPhase q := by
  rw [clock_exchange] at h
  have := congrFun (congrFun h ⟨0, hq⟩) ⟨1 % q, Nat.mod_lt _ hq⟩
  rw [clockZ_eq, Matrix.smul_apply, Matrix.smul_apply, diagonal_mul, clockX_apply] at this
  simpa using this.symm

theorem inferClockQ_clock (q : ℕ) (h : 2 ≤ q) : inferClockQ (clockX q) (clockZ q) = some q := by
  rw [inferClockQ, List.find?_eq_some_iff_append]
  refine ⟨by simpa using ⟨clockX_pow_q q, clockZ_pow_q q, clock_exchange q⟩,
    List.range' 2 (q - 2), [], ?_, ?_⟩
  · have e : q - 1 = (q - 2) + 1 := by omega
    rw [e, List.range'_concat]
    congr 2; omega
  · intro r hr
    rw [List.mem_range'_1] at hr
    simp only [Bool.not_eq_true', decide_eq_false_iff_not]
    rintro ⟨-, -, h3⟩
    have e := clock_exchange_unique q (by omega) _ h3
    have p1 := clockPhase_primitive r (by omega)
    have p2 := clockPhase_primitive q (by omega)
    rw [e] at p1
    have := p1.unique p2
    omega

theorem inferClockQ_small {d : ℕ} (h : d < 2) (X Z : Arr d) : inferClockQ X Z = none := by
  have : d - 1 = 0 := by omega
  rw [inferClockQ, this]; rfl

end Cyten.Sites
