import Verif.Lemmas.Anyons
import Verif.Props.CatBraid

/-!
# C08, C09, C42: the Fibonacci and Ising anyon categories

`Fib.cat right`, `Ising.cat nu` are the models of the C++ classes with their tables over `ℂ`;
`Spec.Cat.UnitaryBraided`, `QdimCharacter`, `Ribbon` are the textbook equations.
-/

namespace Cyten.Props
open Cyten Cyten.Spec

/-- **C08**: fusion ring, unitarity, pentagon, both hexagons, and the tabulated C-symbols, for both
handednesses. -/
theorem C08_fibonacci (right : Bool) : (Fib.cat right).UnitaryBraided := Fib.unitaryBraided right

/-- **C08**: `d_a d_b = Σ_c N_ab^c d_c`. -/
theorem C08_fibonacci_qdim (right : Bool) : (Fib.cat right).QdimCharacter Fib.qdim :=
  Fib.qdimCharacter right

/-- **C08**: the twist computed by the library is a phase and satisfies the ribbon equation. -/
theorem C08_fibonacci_ribbon (right : Bool) :
    (Fib.cat right).Ribbon Fib.qdim (defaultTwist (Fib.cat right) Fib.qdim) := Fib.ribbon right

/-- **C08**: its value is `exp(±4πi/5)`. -/
theorem C08_fibonacci_twist (right : Bool) : defaultTwist (Fib.cat right) Fib.qdim 1 =
    Complex.exp (Complex.I * (((if right then -4 else 4) * Real.pi / 5 : ℝ) : ℂ)) :=
  Fib.twist_tau right

/-- **C08**: quantum dimension and Frobenius-Schur indicator are the ones determined by
`F^{a ā a}_a`: `F = fs_a / d_a`. -/
theorem C08_fibonacci_fs (right : Bool) (a : ℤ) (ha : (Fib.cat right).valid a) :
    (Fib.cat right).F a ((Fib.cat right).dual a) a a 0 0 =
      (Fib.frobeniusSchur a : ℂ) / (Fib.qdim a : ℂ) := by
  have h : a = 0 ∨ a = 1 := by
    have : 0 ≤ a ∧ a < 2 := ha
    omega
  rcases h with rfl | rfl
  · simp [Fib.cat, Fib.catOf, Fib.fSym, Fib.frobeniusSchur, Fib.qdim]
  · simp [Fib.cat, Fib.catOf, Fib.fSym, Fib.frobeniusSchur, Fib.qdim, Fib.fTable, Fib.phi_rpow]

/-- Non-vacuity: `τ × τ` has two outcomes, and the F-move on `τττ → τ` is a genuine (non-diagonal)
matrix, all of it covered by `C08_fibonacci`. -/
example : (Fib.cat false).chL 1 1 1 1 = [0, 1] ∧ (Fib.cat false).F 1 1 1 1 0 1 ≠ 0 := by
  constructor
  · decide
  · simp only [Fib.cat, Fib.catOf, Fib.fSym, Fib.fTable]
    simp
    have := Real.rpow_pos_of_pos Fib.phi_pos (-0.5)
    exact_mod_cast this.ne'

/-- **C06** for Fibonacci anyons: braiding fusion trees back and forth is the identity. -/
theorem C06_braid_inverse_fibonacci (right ab : Bool) (qdim : ℤ → ℝ) (fs : ℤ → ℤ) (θ : ℤ → ℂ)
    (t : FusionTree {a // (Fib.cat right).valid a})
    (h : t.Sane (catRule (Fib.cat right) (C08_fibonacci right).ring ab)) (j : Nat)
    (hj : j + 1 < t.uncoupled.length) (ov cj : Bool) :
    ∃ l, t.braid (catRule (Fib.cat right) (C08_fibonacci right).ring ab)
        (catTopo (Fib.cat right) (C08_fibonacci right).ring qdim fs θ) j ov 0 cj = some l ∧
      ∀ t', coeffOf (bindLC l fun s =>
        (s.braid (catRule (Fib.cat right) (C08_fibonacci right).ring ab)
          (catTopo (Fib.cat right) (C08_fibonacci right).ring qdim fs θ) j (!ov) 0 cj).getD []) t' =
          if t = t' then 1 else 0 :=
  C06_braid_inverse_category _ (C08_fibonacci right) ab qdim fs θ t h j hj ov cj

/-! ### Ising -/

/-- **C42**: the F- and R-symbols of `IsingAnyonCategory(nu)` solve pentagon and hexagons and are unitary,
for every odd `nu`. -/
theorem C42_ising_fr (nu : ℤ) (hodd : nu % 2 = 1) : (Ising.cat nu).UnitaryBraidedFR :=
  Ising.braidedFR nu hodd

/-- **C42**: quantum dimensions form a character. -/
theorem C42_ising_qdim (nu : ℤ) (hodd : nu % 2 = 1) : (Ising.cat nu).QdimCharacter Ising.qdim :=
  Ising.qdimCharacter nu hodd

/-- **C42**: twists are phases and satisfy the ribbon equation. -/
theorem C42_ising_ribbon (nu : ℤ) (hodd : nu % 2 = 1) :
    (Ising.cat nu).Ribbon Ising.qdim (defaultTwist (Ising.cat nu) Ising.qdim) :=
  Ising.ribbon nu hodd

/-- **C42** (16-fold way): the twist of `σ` is `exp(2πi nu / 16)`. -/
theorem C42_ising_twist (nu : ℤ) (hodd : nu % 2 = 1) :
    defaultTwist (Ising.cat nu) Ising.qdim 1 =
      Complex.exp (Complex.I * ((nu * Real.pi / 8 : ℝ) : ℂ)) := by
  obtain ⟨k, hk⟩ := Ising.norm_odd nu hodd
  rw [Ising.twist_eq nu k hk 1 (by simp), Ising.exp_mod nu (2 * k.1 + 1)]
  · simp only [Ising.xθ, if_true, Ising.val_zp, Ising.z_mod]
  · rw [← hk, Ising.normNu_eq]

/-- **C42**: quantum dimension and Frobenius-Schur indicator are the ones determined by `F^{a ā a}_a`. -/
theorem C42_ising_fs (nu a : ℤ) (ha : (Ising.cat nu).valid a) :
    (Ising.cat nu).F a ((Ising.cat nu).dual a) a a 0 0 =
      (Ising.frobeniusSchur nu a : ℂ) / (Ising.qdim a : ℂ) := by
  have h : a = 0 ∨ a = 1 ∨ a = 2 := by
    have : 0 ≤ a ∧ a < 3 := ha
    omega
  rcases h with rfl | rfl | rfl
  · simp [Ising.cat, Ising.catOf, Ising.fSym, Ising.frobeniusSchur, Ising.qdim]
  · simp [Ising.cat, Ising.catOf, Ising.fSym, Ising.frobeniusSchur, Ising.qdim, Ising.fTable,
      div_eq_mul_inv]
  · simp [Ising.cat, Ising.catOf, Ising.fSym, Ising.frobeniusSchur, Ising.qdim]

/-- **C09**, the part that holds: the tabulated C-symbol is the one determined by F and R when `b`
or `c` is the vacuum or both are `σ`.  Missing (and false, see `C09_ising_c_symbol_wrong`): the
remaining pairs `(ψ,ψ)`, `(σ,ψ)`, `(ψ,σ)`.  Full statement: `(Ising.cat nu).CFromFR`. -/
theorem C09_ising_c_symbol_partial (nu : ℤ) (hodd : nu % 2 = 1) (a b c d e f : ℤ)
    (hP : b = 0 ∨ c = 0 ∨ (b = 1 ∧ c = 1))
    (ha : (Ising.cat nu).valid a) (hb : (Ising.cat nu).valid b) (hc : (Ising.cat nu).valid c)
    (hd : (Ising.cat nu).valid d)
    (h1 : e ∈ (Ising.cat nu).out a b) (h2 : d ∈ (Ising.cat nu).out e c)
    (h3 : f ∈ (Ising.cat nu).out a c) (h4 : d ∈ (Ising.cat nu).out f b) :
    (Ising.cat nu).C a b c d e f =
      (Ising.cat nu).R e c d * (Ising.cat nu).F c a b d e f * star ((Ising.cat nu).R a c f) :=
  Ising.c_good nu hodd a b c d e f (by
    rcases hP with rfl | rfl | ⟨rfl, rfl⟩ <;> simp [Ising.goodPair]) ha hb hc hd h1 h2 h3 h4

/-- The C-symbol of two `ψ` on the vacuum is `1` in the code, but the F- and R-symbols give the
fermionic sign `-1`. -/
theorem C09_ising_psi_psi (nu : ℤ) :
    (Ising.cat nu).C 0 2 2 0 2 2 = 1 ∧
    (Ising.cat nu).R 2 2 0 * (Ising.cat nu).F 2 0 2 0 2 2 * star ((Ising.cat nu).R 0 2 2) = -1 := by
  constructor
  · simp [Ising.cat, Ising.catOf, Ising.cSym]
  · simp [Ising.cat, Ising.catOf, Ising.rSym, Ising.fSym, Ising.rTable]

/-- **C09** is false of the code, for every `nu`. -/
theorem C09_ising_c_symbol_wrong (nu : ℤ) : ¬ (Ising.cat nu).CFromFR := by
  intro h
  have v : ∀ a : ℤ, 0 ≤ a → a < 3 → (Ising.cat nu).valid a := fun a h0 h1 => ⟨h0, h1⟩
  have := h 0 2 2 0 2 2 (v 0 (by norm_num) (by norm_num)) (v 2 (by norm_num) (by norm_num))
    (v 2 (by norm_num) (by norm_num)) (v 0 (by norm_num) (by norm_num))
    (show (2 : ℤ) ∈ Ising.out 0 2 by decide) (show (0 : ℤ) ∈ Ising.out 2 2 by decide)
    (show (2 : ℤ) ∈ Ising.out 0 2 by decide) (show (0 : ℤ) ∈ Ising.out 2 2 by decide)
  rw [(C09_ising_psi_psi nu).1, (C09_ising_psi_psi nu).2] at this
  norm_num at this

/-- Non-vacuity of the Ising statements: `nu = 1` is odd, `σ × σ = 1 + ψ`, and the F-move on
`σσσ → σ` is two-dimensional. -/
example : (1 : ℤ) % 2 = 1 ∧ (Ising.cat 1).chL 1 1 1 1 = [0, 2] ∧ (Ising.cat 1).chR 1 1 1 1 = [0, 2] :=
  ⟨by norm_num, by decide, by decide⟩

end Cyten.Props
