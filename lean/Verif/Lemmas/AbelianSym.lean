import Verif.Model.AbelianSym
import Verif.Lemmas.Pointed
import Mathlib.Tactic.Linarith
import Mathlib.Tactic.LinearCombination
import Mathlib.Analysis.SpecialFunctions.Complex.Circle
import Mathlib.Analysis.SpecialFunctions.Trigonometric.Basic

namespace Cyten
open Spec

theorem cast16_of_int16 {x : ℤ} (h : IsInt16 x) : cast16 x = x := by
  obtain ⟨h1, h2⟩ := h
  unfold cast16
  exact Int.bmod_eq_of_le (by norm_num; omega) (by norm_num; omega)

theorem isInt16_cast16 (x : ℤ) : IsInt16 (cast16 x) := by
  have h1 := Int.le_bmod (x := x) (m := 65536) (by norm_num)
  have h2 := Int.bmod_lt (x := x) (m := 65536) (by norm_num)
  unfold cast16 IsInt16
  omega

theorem cast16_add_left (x y : ℤ) : cast16 (cast16 x + y) = cast16 (x + y) := by
  unfold cast16; simp

theorem cast16_add_right (x y : ℤ) : cast16 (x + cast16 y) = cast16 (x + y) := by
  unfold cast16; simp

/-- `cast16` preserves values modulo 65536. -/
theorem cast16_emod (x : ℤ) : (cast16 x) % 65536 = x % 65536 := by
  unfold cast16; exact Int.bmod_emod

theorem modN_eq_cast (x N : ℤ) (hN : 0 < N) : modN x N = cast16 (x % N) := by
  have key : (if Int.tmod x N < 0 then Int.tmod x N + N else Int.tmod x N) = x % N := by
    rw [Int.tmod_eq_emod]
    have h1 := Int.emod_nonneg x (by omega : N ≠ 0)
    have h2 := Int.emod_lt_of_pos x hN
    by_cases hx : 0 ≤ x ∨ N ∣ x
    · simp only [hx, if_true]
      rw [if_neg (by omega)]
      simp
    · simp only [hx, if_false]
      push Not at hx
      have hn : ((N.natAbs : ℕ) : ℤ) = N := by omega
      have : 0 < x % N := by
        rcases eq_or_lt_of_le h1 with h | h
        · exact absurd (Int.dvd_of_emod_eq_zero h.symm) hx.2
        · exact h
      first
        | rw [if_pos (by omega)]; omega
        | (split <;> omega)
  simp only [modN, key]

theorem modN_eq (x N : ℤ) (hN : 0 < N) (hN' : N ≤ 32768) : modN x N = x % N := by
  rw [modN_eq_cast x N hN]
  apply cast16_of_int16
  have h1 := Int.emod_nonneg x (by omega : N ≠ 0)
  have h2 := Int.emod_lt_of_pos x hN
  exact ⟨by omega, by omega⟩

theorem zn_pointed (A : Cat ℤ ℂ) (N : ℤ) (hN : 0 < N) (hN' : N ≤ 32768)
    (hv : ∀ a, A.valid a ↔ IsInt16 a ∧ 0 ≤ a ∧ a < N) (hu : A.unit = 0)
    (ho : ∀ a b, A.valid a → A.valid b → A.out a b = [modN (a + b) N])
    (hd : ∀ a, A.valid a → A.dual a = modN (-a) N) :
    Cat.Pointed A (fun a b => (a + b) % N) := by
  have hval : ∀ x : ℤ, A.valid (x % N) := by
    intro x
    have h1 := Int.emod_nonneg x (by omega : N ≠ 0)
    have h2 := Int.emod_lt_of_pos x hN
    exact (hv _).2 ⟨⟨by omega, by omega⟩, h1, h2⟩
  constructor
  · intro a b ha hb; rw [ho a b ha hb, modN_eq _ _ hN hN']
  · rw [hu]; exact (hv _).2 ⟨⟨by omega, by omega⟩, le_refl _, hN⟩
  · intro a b _ _; exact hval _
  · intro a ha
    rw [hu, zero_add]
    have := (hv a).1 ha
    exact Int.emod_eq_of_lt this.2.1 this.2.2
  · intro a b _ _; rw [add_comm]
  · intro a b c _ _ _; simp [add_assoc]
  · intro a ha; rw [hd a ha, modN_eq _ _ hN hN']; exact hval _
  · intro a ha; rw [hd a ha, modN_eq _ _ hN hN', hu]; simp

/-- Unit-modulus complex number with its powers. -/
theorem star_exp_I (x : ℝ) :
    Complex.exp (Complex.I * x) * star (Complex.exp (Complex.I * x)) = 1 := by
  have : star (Complex.exp (Complex.I * x)) = Complex.exp (-(Complex.I * x)) := by
    rw [Complex.star_def, ← Complex.exp_conj]; simp
  rw [this, ← Complex.exp_add]; simp

theorem star_zpow_phase (p : ℂ) (hp : p * star p = 1) (k : ℤ) : star (p ^ k) = p ^ (-k) := by
  have hstar : star p = p⁻¹ := by
    rw [eq_comm]; exact inv_eq_of_mul_eq_one_right hp
  rw [star_zpow₀, hstar, inv_zpow, zpow_neg]

theorem phase_ne_zero (p : ℂ) (hp : p * star p = 1) : p ≠ 0 := by
  rintro rfl; simp at hp

theorem phase_zpow_emod (p : ℂ) (hp : p ≠ 0) (N : ℤ) (h : p ^ N = 1) (c x : ℤ) :
    p ^ (c * (x % N)) = p ^ (c * x) := by
  have e : c * x = c * (x % N) + N * (c * (x / N)) := by
    linear_combination (-c) * (Int.emod_add_mul_ediv x N)
  rw [e, zpow_add₀ hp, zpow_mul p N, h, one_zpow, mul_one]

theorem ZNAnyon.phase_unit (N n : ℤ) : ZNAnyon.phase N n * star (ZNAnyon.phase N n) = 1 :=
  star_exp_I _

theorem ZNAnyon.phase_pow (N n : ℤ) (hN : 0 < N) : ZNAnyon.phase N n ^ N = 1 := by
  have hN' : (N : ℂ) ≠ 0 := by exact_mod_cast hN.ne'
  rw [ZNAnyon.phase, ← Complex.exp_int_mul]
  rw [Complex.exp_eq_one_iff]
  refine ⟨Int.tmod n N, ?_⟩
  push_cast
  field_simp

theorem ZNAnyon2.phase_unit (N n : ℤ) : ZNAnyon2.phase N n * star (ZNAnyon2.phase N n) = 1 :=
  star_exp_I _

theorem ZNAnyon2.phase_pow (N n : ℤ) (hN : 0 < N) : ZNAnyon2.phase N n ^ N = -1 := by
  have hN' : (N : ℂ) ≠ 0 := by exact_mod_cast hN.ne'
  rw [ZNAnyon2.phase, ← Complex.exp_int_mul]
  have : (N : ℂ) * (Complex.I * ((2 * Real.pi * (((Int.tmod n N : ℤ) : ℝ) + 1 / 2) / (N : ℝ) : ℝ) : ℂ))
      = Real.pi * Complex.I + (Int.tmod n N : ℤ) * (2 * Real.pi * Complex.I) := by
    push_cast
    field_simp
    ring
  rw [this, Complex.exp_add, Complex.exp_int_mul_two_pi_mul_I, Complex.exp_pi_mul_I, mul_one]

theorem QDouble.phase_unit (N : ℤ) : QDouble.phase N * star (QDouble.phase N) = 1 :=
  star_exp_I _

theorem QDouble.phase_pow (N : ℤ) (hN : 0 < N) : QDouble.phase N ^ N = 1 := by
  have hN' : (N : ℂ) ≠ 0 := by exact_mod_cast hN.ne'
  rw [QDouble.phase, ← Complex.exp_int_mul, Complex.exp_eq_one_iff]
  refine ⟨1, ?_⟩
  push_cast
  field_simp

theorem paritySign_eq (e : ℤ) : ((paritySign e : ℤ) : ℂ) = (-1 : ℂ) ^ e := by
  unfold paritySign
  rcases Int.even_or_odd e with h | h
  · rw [h.neg_one_zpow, if_pos]
    · simp
    · obtain ⟨k, rfl⟩ := h; exact Int.tmod_eq_zero_of_dvd ⟨k, by ring⟩
  · rw [h.neg_one_zpow, if_neg]
    · simp
    · intro h0
      have := Int.dvd_of_tmod_eq_zero h0
      obtain ⟨k, rfl⟩ := h
      omega

theorem neg_one_zpow_emod_even (N : ℤ) (hN : Even N) (x y : ℤ) :
    (-1 : ℂ) ^ ((x % N) * y) = (-1 : ℂ) ^ (x * y) := by
  have e : x * y = (x % N) * y + N * ((x / N) * y) := by
    linear_combination (-y) * (Int.emod_add_mul_ediv x N)
  rw [e, zpow_add₀ (by norm_num), zpow_mul (-1 : ℂ) N, hN.neg_one_zpow, one_zpow, mul_one]

end Cyten
