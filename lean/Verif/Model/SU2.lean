import Verif.Spec.Category
import Verif.Model.AbelianSym

/-!
# Model of `SU2` (`/repo/src/symmetries/factors/su2.cpp`) and `SU2_kAnyonCategory`
(`/repo/src/symmetries/factors/su2_k_anyon_category.cpp`): fusion rules, dimensions, R-symbols,
twists.  The F-symbols (sympy's Racah symbols, quantum 6j symbols) are not modelled.
-/

namespace Cyten
open Spec

namespace SU2

/-- `is_valid_sector`, `/repo/src/symmetries/factors/su2.cpp:40-44`; a sector is an `int16`. -/
def valid (a : ℤ) : Prop := 0 ≤ a ∧ a ≤ 32767

/-- `fusion_outcomes`, `/repo/src/symmetries/factors/su2.cpp:60-76`.  `n` is cast to `size_t`: a
negative value becomes a number above `2^63`, for which the allocation of the result throws
(`none`). -/
def fusionOutcomes (a b : ℤ) : Option (List ℤ) :=
  let jjMin := cast16 ((a - b).natAbs : ℤ)
  let jjMax := cast16 (a + b)
  let n := Int.tdiv (jjMax - jjMin) 2 + 1
  if n < 0 then none
  else some ((List.range n.toNat).map fun (i : ℕ) => cast16 (jjMin + cast16 (2 * (i : ℤ))))

/-- `can_fuse_to`, `/repo/src/symmetries/factors/su2.cpp:78-85` (in `int`, no wrap-around). -/
def canFuseTo (a b c : ℤ) : Bool :=
  c ≤ a + b ∧ a ≤ b + c ∧ b ≤ c + a ∧ Int.tmod (a + b + c) 2 = 0

/-- `sector_dim`, `/repo/src/symmetries/factors/su2.cpp:87-94`; `qdim` (lines 173-177) is the same
number. -/
def sectorDim (a : ℤ) : ℤ := a + 1

/-- `dual_sector`, `/repo/src/symmetries/factors/su2.cpp:132-139`. -/
def dual (a : ℤ) : ℤ := a

/-- `frobenius_schur`, `/repo/src/symmetries/factors/su2.cpp:164-171`. -/
def frobeniusSchur (a : ℤ) : ℤ := 1 - 2 * Int.tmod a 2

/-- `_r_symbol`, `/repo/src/symmetries/factors/su2.cpp:179-192`. -/
def rSym (a b c : ℤ) : ℤ := 1 - Int.tmod (a + b - c) 4

/-- `Group::topological_twist`, `/repo/src/symmetries/group.cpp:57-61`. -/
def twist (_a : ℤ) : ℤ := 1

/-- `SU2::Z_iso` via `/repo/cyten/symmetries/_su2data.py:73-84`:
`Z[i, -1 - i] = 1 - 2 * mod(i, 2)`, entry `(i, j)` for `0 ≤ i, j ≤ a`. -/
def zIso (a : ℕ) (i j : ℕ) : ℤ := if i + j = a then 1 - 2 * ((i % 2 : ℕ) : ℤ) else 0

end SU2

namespace SU2k

/-- `fusion_outcomes`, `/repo/src/symmetries/factors/su2_k_anyon_category.cpp:204-218`. -/
def out (k a b : ℤ) : List ℤ :=
  let upper := min (a + b) (2 * k - a - b)
  let lower : ℤ := (a - b).natAbs
  let n := Int.tdiv (upper - lower) 2 + 1
  (List.range n.toNat).map fun (i : ℕ) => cast16 (lower + 2 * (i : ℤ))

/-- `_q`, `/repo/src/symmetries/factors/su2_k_anyon_category.cpp:58-59`; `std::pow(_q, x)` for real
`x` is the principal power `exp(x · 2πi/(k+2))` (`|arg q| < π` for `k ≥ 1`). -/
noncomputable def qpow (k : ℤ) (x : ℝ) : ℂ :=
  Complex.exp (Complex.I * ((x * (2 * Real.pi / (k + 2)) : ℝ) : ℂ))

/-- Entry of the table `_r`, `/repo/src/symmetries/factors/su2_k_anyon_category.cpp:71-92`. -/
noncomputable def rEntry (k : ℤ) (right : Bool) (jj1 jj2 jj : ℤ) : ℂ :=
  let factor := (-1 : ℂ) ^ (Int.tdiv (jj - jj1 - jj2) 2) *
    qpow k (((jj * (jj + 2) - jj1 * (jj1 + 2) - jj2 * (jj2 + 2) : ℤ) : ℝ) / 8)
  if right then star factor else factor

/-- `_r_symbol`, `/repo/src/symmetries/factors/su2_k_anyon_category.cpp:343-360`, with the key
condition of the table construction (lines 71-76). -/
noncomputable def rSym (k : ℤ) (right : Bool) (a b c : ℤ) : ℂ :=
  let ja := if a < b then b else a
  let jb := if a < b then a else b
  if 0 ≤ jb ∧ ja ≤ k ∧ 0 ≤ c ∧ c ≤ k ∧ ¬ (c > ja + jb ∨ c < ((ja - jb).natAbs : ℤ) ∨ ja * jb = 0 ∨
      ja < jb) then rEntry k right ja jb c else 1

/-- `qdim`, `/repo/src/symmetries/factors/su2_k_anyon_category.cpp:323-330`. -/
noncomputable def qdim (k a : ℤ) : ℝ :=
  Real.sin ((a + 1) * Real.pi / (k + 2)) / Real.sin (Real.pi / (k + 2))

/-- `frobenius_schur`, `/repo/src/symmetries/factors/su2_k_anyon_category.cpp:317-321`. -/
def frobeniusSchur (a : ℤ) : ℤ := if Int.tmod a 2 = 1 then -1 else 1

/-- The category data that is modelled: validity
(`/repo/src/symmetries/factors/su2_k_anyon_category.cpp:182-186`), fusion, dual (lines 245-249) and
R-symbols.  `F` and `C` are placeholders, nothing is claimed about them. -/
noncomputable def cat (k : ℤ) (right : Bool) : Cat ℤ ℂ where
  valid a := 0 ≤ a ∧ a ≤ k
  unit := 0
  out := out k
  dual a := a
  F _ _ _ _ _ _ := 0
  R := rSym k right
  C _ _ _ _ _ _ := 0

end SU2k
end Cyten
