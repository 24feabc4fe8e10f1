import Verif.Spec.Category
import Verif.Model.AbelianSym
import Mathlib.Analysis.SpecialFunctions.Pow.Real
import Mathlib.Analysis.SpecialFunctions.Complex.Circle

/-!
# Model of the Fibonacci and Ising anyon categories
(`/repo/src/symmetries/factors/fibonacci_anyon_category.cpp`, `ising_anyon_category.cpp`).

The functions are polymorphic in the number type `K`, so that the very same definitions can be
evaluated over `ℂ` (with the tables the code computes from `exp`, `sqrt`, `pow`) and over an exact
computable ring.  A table access outside the table (undefined or throwing in C++) gives `0` here;
it does not happen for allowed sectors.
-/

namespace Cyten
open Spec

/-- `default_c_symbol`, `/repo/src/symmetries/factors/fibonacci_anyon_category.cpp:24-39`, identical
to `BaseSymmetry::_c_symbol`, `/repo/src/symmetries/base_symmetry.cpp:406-419`; one-dimensional
multiplicity spaces. -/
def defaultC {K : Type} [Mul K] [Star K] (F : ℤ → ℤ → ℤ → ℤ → ℤ → ℤ → K) (R : ℤ → ℤ → ℤ → K)
    (a b c d e f : ℤ) : K :=
  R e c d * F c a b d e f * star (R a c f)

namespace Fib
variable {K : Type} [Zero K] [One K] [Mul K] [Star K]

/-- `fusion_map_lookup`, `/repo/src/symmetries/factors/fibonacci_anyon_category.cpp:70-93`. -/
def out (a b : ℤ) : List ℤ :=
  if a + b = 0 then [0] else if a + b = 1 then [1] else if a + b = 2 then [0, 1] else []

/-- `_f_symbol`, `/repo/src/symmetries/factors/fibonacci_anyon_category.cpp:219-228`; `tf` is the
table `_f`. -/
def fSym (tf : List K) (a b c d e f : ℤ) : K :=
  if a = 1 ∧ b = 1 ∧ c = 1 ∧ d = 1 then tf.getD (e + f).toNat 0 else 1

/-- `_r_symbol`, `/repo/src/symmetries/factors/fibonacci_anyon_category.cpp:252-260`; `tr` is the
table `_r`. -/
def rSym (tr : List K) (a b c : ℤ) : K :=
  if a = 1 ∧ b = 1 then tr.getD c.toNat 0 else 1

/-- The table `_c`, `/repo/src/symmetries/factors/fibonacci_anyon_category.cpp:133-150`. -/
def cTable (tf tr : List K) : List K :=
  let dc := defaultC (fSym tf) (rSym tr)
  [dc 0 1 1 0 1 1, 0, 0, dc 0 1 1 1 1 1, 0, 0, dc 1 1 1 0 1 1, dc 1 1 1 1 0 0,
    dc 1 1 1 1 1 0, dc 1 1 1 1 1 1]

/-- `_c_symbol`, `/repo/src/symmetries/factors/fibonacci_anyon_category.cpp:262-270`. -/
def cSym (tf tr : List K) (a b c d e f : ℤ) : K :=
  if b = 1 ∧ c = 1 then (cTable tf tr).getD (6 * a + 3 * d + e + f - 2).toNat 0 else 1

/-- The category data with given tables; `valid` is `is_valid_sector`,
`/repo/src/symmetries/factors/fibonacci_anyon_category.cpp:153-157`, `dual` is the identity
(lines 201-205). -/
def catOf (tf tr : List K) : Cat ℤ K where
  valid a := 0 ≤ a ∧ a < 2
  unit := 0
  out := out
  dual a := a
  F := fSym tf
  R := rSym tr
  C := cSym tf tr

/-- `golden_ratio()`, `/repo/src/symmetries/factors/fibonacci_anyon_category.cpp:41-45`. -/
noncomputable def phi : ℝ := 0.5 * (1 + Real.sqrt 5)

/-- `make_f_table`, `/repo/src/symmetries/factors/fibonacci_anyon_category.cpp:47-54`. -/
noncomputable def fTable : List ℂ :=
  [((phi ^ (-1 : ℝ) : ℝ) : ℂ), ((phi ^ (-0.5 : ℝ) : ℝ) : ℂ), ((-(phi ^ (-1 : ℝ)) : ℝ) : ℂ)]

/-- `make_r_table`, `/repo/src/symmetries/factors/fibonacci_anyon_category.cpp:56-68`. -/
noncomputable def rTable (right : Bool) : List ℂ :=
  let vals := [Complex.exp (Complex.I * ((-4 * Real.pi / 5 : ℝ) : ℂ)),
    Complex.exp (Complex.I * ((3 * Real.pi / 5 : ℝ) : ℂ))]
  if right then vals.map star else vals

/-- `FibonacciAnyonCategory(handedness)`. -/
noncomputable def cat (right : Bool) : Cat ℤ ℂ := catOf fTable (rTable right)

/-- `qdim`, `/repo/src/symmetries/factors/fibonacci_anyon_category.cpp:236-240`. -/
noncomputable def qdim (a : ℤ) : ℝ := if a = 0 then 1 else phi

/-- `frobenius_schur`, `/repo/src/symmetries/factors/fibonacci_anyon_category.cpp:230-234`. -/
def frobeniusSchur (_a : ℤ) : ℤ := 1

end Fib

namespace Ising
variable {K : Type} [Zero K] [One K] [Mul K] [Neg K] [Star K]

/-- `fusion_map_lookup`, `/repo/src/symmetries/factors/ising_anyon_category.cpp:83-121`. -/
def out (a b : ℤ) : List ℤ :=
  let k := a * a + b * b
  if k = 0 then [0] else if k = 1 then [1] else if k = 2 then [0, 2] else if k = 4 then [2]
  else if k = 5 then [1] else if k = 8 then [0] else []

/-- `_f_symbol`, `/repo/src/symmetries/factors/ising_anyon_category.cpp:262-277`. -/
def fSym (tf : List K) (a b c d e f : ℤ) : K :=
  if a = 1 ∧ b = 1 ∧ c = 1 ∧ d = 1 then tf.getD (e + f).toNat 0
  else if a = 2 ∧ b = 1 ∧ c = 2 ∧ d = 1 then -1
  else if a = 1 ∧ b = 2 ∧ c = 1 ∧ d = 2 then -1
  else 1

/-- `_r_symbol`, `/repo/src/symmetries/factors/ising_anyon_category.cpp:302-316`
(the row index wraps once, like a negative numpy index; the table has 5 rows). -/
def rSym (tr : List K) (a b c : ℤ) : K :=
  if a ≠ 0 ∧ b ≠ 0 then
    let row := (a + b) * (c - 1)
    tr.getD (if row < 0 then row + 5 else row).toNat 0
  else 1

/-- The table `_c`, `/repo/src/symmetries/factors/ising_anyon_category.cpp:169-190`; `ph` is
`(-i)^nu`. -/
def cTable (ph : K) (tf tr : List K) : List K :=
  let dc := defaultC (fSym tf) (rSym tr)
  [ph, -ph, dc 0 1 1 0 1 1, dc 0 1 1 2 1 1, dc 1 1 1 1 0 0, dc 1 1 1 1 0 2, dc 1 1 1 1 2 2, 0,
    dc 2 1 1 0 1 1, dc 2 1 1 2 1 1, -1]

/-- `_c_symbol`, `/repo/src/symmetries/factors/ising_anyon_category.cpp:318-332`
(`/` on `int` truncates). -/
def cSym (ph : K) (tf tr : List K) (a b c d e f : ℤ) : K :=
  if b = 1 ∧ c = 1 then
    let factor := -1 * (b - c - 1) * (b - c + 1)
    let factor := factor * (1 - Int.tdiv a 2 - Int.tdiv d 2 + 9 * (b - 1) +
      (2 - b) * (Int.tdiv (e + f) 2 + Int.tdiv d 2 + 3 * a))
    (cTable ph tf tr).getD (factor + Int.tdiv a 2 + Int.tdiv d 2).toNat 0
  else 1

/-- Category data with given tables; validity
`/repo/src/symmetries/factors/ising_anyon_category.cpp:193-197`, dual is the identity. -/
def catOf (ph : K) (tf tr : List K) : Cat ℤ K where
  valid a := 0 ≤ a ∧ a < 3
  unit := 0
  out := out
  dual a := a
  F := fSym tf
  R := rSym tr
  C := cSym ph tf tr

/-- `nu` after normalisation, `/repo/src/symmetries/factors/ising_anyon_category.cpp:161`
(`%` truncates). -/
def normNu (nu : ℤ) : ℤ := Int.tmod (Int.tmod nu 16 + 16) 16

/-- `make_frobenius_array(nu)[1]`, `/repo/src/symmetries/factors/ising_anyon_category.cpp:48-54`. -/
def fs1 (nu : ℤ) : ℤ := if Int.tmod (Int.tdiv (nu * nu - 1) 8) 2 = 0 then 1 else -1

/-- `make_f_table`, `/repo/src/symmetries/factors/ising_anyon_category.cpp:56-65`. -/
noncomputable def fTable (nu : ℤ) : List ℂ :=
  let x : ℝ := (fs1 nu : ℝ) * (1 / Real.sqrt 2)
  [(x : ℂ), 0, (x : ℂ), 0, -(x : ℂ)]

/-- `std::pow(complex128{0, -1}, nu)`. -/
noncomputable def phase (nu : ℤ) : ℂ := (-Complex.I) ^ nu

/-- `make_r_table`, `/repo/src/symmetries/factors/ising_anyon_category.cpp:67-81`. -/
noncomputable def rTable (nu : ℤ) : List ℂ :=
  [phase nu, -1, Complex.exp (Complex.I * ((3 * nu * Real.pi / 8 : ℝ) : ℂ)) * (fs1 nu : ℂ),
    Complex.exp (Complex.I * ((-nu * Real.pi / 8 : ℝ) : ℂ)) * (fs1 nu : ℂ), 0]

/-- `IsingAnyonCategory(nu)`; the constructor rejects even `nu`. -/
noncomputable def cat (nu : ℤ) : Cat ℤ ℂ :=
  let n := normNu nu
  catOf (phase n) (fTable n) (rTable n)

/-- `qdim`, `/repo/src/symmetries/factors/ising_anyon_category.cpp:285-289`. -/
noncomputable def qdim (a : ℤ) : ℝ := if a = 1 then Real.sqrt 2 else 1

/-- `frobenius_schur`, `/repo/src/symmetries/factors/ising_anyon_category.cpp:279-283`. -/
def frobeniusSchur (nu a : ℤ) : ℤ := if a = 1 then fs1 (normNu nu) else 1

end Ising
end Cyten
