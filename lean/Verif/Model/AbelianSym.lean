import Verif.Spec.Category
import Mathlib.Analysis.SpecialFunctions.Complex.Circle
import Mathlib.Data.Int.DivMod
import Mathlib.Data.Int.Init

/-!
# Model of the abelian symmetries and pointed anyon categories
(`/repo/src/symmetries/factors/*.cpp`, `/repo/src/symmetries/abelian_group.cpp`).

Sectors are `int16_t` numbers, modelled as `ℤ` with explicit wrap-around `cast16`; intermediate
`int`/`int32_t` computations stay far from their limits for `int16` inputs and are exact.
`complex128` is modelled by `ℂ`.
-/

namespace Cyten

open Spec

/-- `static_cast<int16_t>(x)` (two's complement wrap-around, as on all supported platforms). -/
def cast16 (x : ℤ) : ℤ := Int.bmod x 65536

/-- The values of `int16_t`. -/
def IsInt16 (x : ℤ) : Prop := -32768 ≤ x ∧ x ≤ 32767

/-- `topo_ones::mod_n(x, N)`, `/repo/include/cyten/symmetries/topo_ones.h:39-47`, and the identical
`mod_n` of `/repo/src/symmetries/factors/zn.cpp:11-20`; `%` truncates towards zero in C++. -/
def modN (x N : ℤ) : ℤ :=
  let r := Int.tmod x N
  cast16 (if r < 0 then r + N else r)

/-- `_multiple_fusion_broadcast` on single rows: a left fold with the fusion of two sectors
(`/repo/src/symmetries/factors/u1.cpp:50-60`, `zn.cpp:92-102`, and the `multiple_fusion` wrapper
`/repo/src/symmetries/base_symmetry.cpp:243-282`). -/
def multipleFusion (m : ℤ → ℤ → ℤ) (unit : ℤ) : List ℤ → ℤ
  | [] => unit
  | a :: as => as.foldl m a

/-- `U1`: fusion `/repo/src/symmetries/factors/u1.cpp:40-48`. -/
def U1.fuse (a b : ℤ) : ℤ := cast16 (a + b)
/-- `U1::dual_sector`, `/repo/src/symmetries/factors/u1.cpp:62-66`. -/
def U1.dual (a : ℤ) : ℤ := cast16 (-a)

/-- `ZN`: fusion `/repo/src/symmetries/factors/zn.cpp:82-90`. -/
def ZN.fuse (N a b : ℤ) : ℤ := modN (a + b) N
/-- `ZN::dual_sector`, `/repo/src/symmetries/factors/zn.cpp:104-108`. -/
def ZN.dual (N a : ℤ) : ℤ := modN (-a) N

/-- `AbelianGroup`: all symbols are 1, `/repo/src/symmetries/abelian_group.cpp:51-117`; with the
`U1` fusion rules. `is_valid_sector` (`u1.cpp:18-22`) accepts every `int16`. -/
def U1.cat : Cat ℤ ℂ where
  valid := IsInt16
  unit := 0
  out a b := [U1.fuse a b]
  dual := U1.dual
  F _ _ _ _ _ _ := 1
  R _ _ _ := 1
  C _ _ _ _ _ _ := 1

/-- `ZN(N)`; validity `/repo/src/symmetries/factors/zn.cpp:50-54` (a sector is an `int16`). -/
def ZN.cat (N : ℤ) : Cat ℤ ℂ where
  valid a := IsInt16 a ∧ 0 ≤ a ∧ a < N
  unit := 0
  out a b := [ZN.fuse N a b]
  dual := ZN.dual N
  F _ _ _ _ _ _ := 1
  R _ _ _ := 1
  C _ _ _ _ _ _ := 1

/-- `NoSymmetry`, `/repo/src/symmetries/factors/no_symmetry.cpp:5-58`: the fusion outcome is the
first argument. -/
def NoSymmetry.cat : Cat ℤ ℂ where
  valid a := a = 0
  unit := 0
  out a _ := [a]
  dual a := a
  F _ _ _ _ _ _ := 1
  R _ _ _ := 1
  C _ _ _ _ _ _ := 1

/-- `fermion_sign` of `FermionParity`, `/repo/src/symmetries/factors/fermion_parity.cpp:15-19`. -/
def FermionParity.sign (a b : ℤ) : ℤ := 1 - 2 * a * b

/-- `FermionParity`, `/repo/src/symmetries/factors/fermion_parity.cpp:36-205`. -/
def FermionParity.cat : Cat ℤ ℂ where
  valid a := 0 ≤ a ∧ a < 2
  unit := 0
  out a b := [modN (a + b) 2]
  dual a := a
  F _ _ _ _ _ _ := 1
  R a b _ := (FermionParity.sign a b : ℤ)
  C a _ c _ e _ := ((FermionParity.sign e c * FermionParity.sign a c : ℤ) : ℂ)

/-- `FermionParity::topological_twist`, `/repo/src/symmetries/factors/fermion_parity.cpp:225-230`. -/
def FermionParity.twist (a : ℤ) : ℂ := ((1 - 2 * a : ℤ) : ℂ)

/-- `mod2` of `/repo/src/symmetries/factors/fermion_number.cpp:13-17`. -/
def FermionNumber.mod2 (x : ℤ) : ℤ := modN x 2
/-- `fermion_sign` of `/repo/src/symmetries/factors/fermion_number.cpp:19-23`. -/
def FermionNumber.sign (a b : ℤ) : ℤ := 1 - 2 * FermionNumber.mod2 a * FermionNumber.mod2 b

/-- `FermionNumber`, `/repo/src/symmetries/factors/fermion_number.cpp:40-194`. -/
def FermionNumber.cat : Cat ℤ ℂ where
  valid := IsInt16
  unit := 0
  out a b := [cast16 (a + b)]
  dual a := cast16 (-a)
  F _ _ _ _ _ _ := 1
  R a b _ := (FermionNumber.sign a b : ℤ)
  C a _ c _ e _ := ((FermionNumber.sign c e * FermionNumber.sign a c : ℤ) : ℂ)

/-- `FermionNumber::topological_twist`, `/repo/src/symmetries/factors/fermion_number.cpp:214-222`. -/
def FermionNumber.twist (a : ℤ) : ℂ := ((1 - 2 * FermionNumber.mod2 a : ℤ) : ℂ)

/-- `make_phase(n % N, N)` of `ZNAnyonCategory`,
`/repo/src/symmetries/factors/zn_anyon_category.cpp:16-22,52-54`. -/
noncomputable def ZNAnyon.phase (N n : ℤ) : ℂ :=
  Complex.exp (Complex.I * ((2 * Real.pi * ((Int.tmod n N : ℤ) : ℝ) / (N : ℝ) : ℝ) : ℂ))

/-- `ZNAnyonCategory(N, n)`, `/repo/src/symmetries/factors/zn_anyon_category.cpp:61-213`. -/
noncomputable def ZNAnyon.cat (N n : ℤ) : Cat ℤ ℂ where
  valid a := IsInt16 a ∧ 0 ≤ a ∧ a < N
  unit := 0
  out a b := [modN (a + b) N]
  dual a := modN (-a) N
  F _ _ _ _ _ _ := 1
  R a b _ := ZNAnyon.phase N n ^ (a * b)
  C _ b c _ _ _ := ZNAnyon.phase N n ^ (b * c)

/-- `make_phase(n % N, N)` of `ZNAnyonCategory2`,
`/repo/src/symmetries/factors/zn_anyon_category2.cpp:16-22,53-55`. -/
noncomputable def ZNAnyon2.phase (N n : ℤ) : ℂ :=
  Complex.exp (Complex.I * ((2 * Real.pi * (((Int.tmod n N : ℤ) : ℝ) + 1 / 2) / (N : ℝ) : ℝ) : ℂ))

/-- `parity_sign`, `/repo/src/symmetries/factors/zn_anyon_category2.cpp:30-34`. -/
def paritySign (e : ℤ) : ℤ := if Int.tmod e 2 = 0 then 1 else -1

/-- `ZNAnyonCategory2(N, n)`, `/repo/src/symmetries/factors/zn_anyon_category2.cpp:69-219`. -/
noncomputable def ZNAnyon2.cat (N n : ℤ) : Cat ℤ ℂ where
  valid a := IsInt16 a ∧ 0 ≤ a ∧ a < N
  unit := 0
  out a b := [modN (a + b) N]
  dual a := modN (-a) N
  F a b c _ _ _ := (paritySign (a * Int.tdiv (b + c) N) : ℤ)
  R a b _ := ZNAnyon2.phase N n ^ (a * b)
  C _ b c _ _ _ := ZNAnyon2.phase N n ^ (b * c)

/-- `ZNAnyonCategory2::frobenius_schur`,
`/repo/src/symmetries/factors/zn_anyon_category2.cpp:190-194`. -/
def ZNAnyon2.frobeniusSchur (a : ℤ) : ℤ := paritySign a

/-- `make_unit_phase` of `/repo/src/symmetries/factors/quantum_double_zn_anyon_category.cpp:16-21`. -/
noncomputable def QDouble.phase (N : ℤ) : ℂ :=
  Complex.exp (Complex.I * ((2 * Real.pi / (N : ℝ) : ℝ) : ℂ))

/-- `QuantumDoubleZNAnyonCategory(N)`,
`/repo/src/symmetries/factors/quantum_double_zn_anyon_category.cpp:69-229`
(`ToricCodeCategory` is the case `N = 2`, `toric_code_category.cpp:12-15`). -/
noncomputable def QDouble.cat (N : ℤ) : Cat (ℤ × ℤ) ℂ where
  valid a := (IsInt16 a.1 ∧ 0 ≤ a.1 ∧ a.1 < N) ∧ (IsInt16 a.2 ∧ 0 ≤ a.2 ∧ a.2 < N)
  unit := (0, 0)
  out a b := [(modN (a.1 + b.1) N, modN (a.2 + b.2) N)]
  dual a := (modN (cast16 (-a.1)) N, modN (cast16 (-a.2)) N)
  F _ _ _ _ _ _ := 1
  R a b _ := QDouble.phase N ^ (a.1 * b.2)
  C _ b c _ _ _ := QDouble.phase N ^ (b.1 * c.2)

/-- `BaseSymmetry::topological_twist` for anyonic braiding (no rounding),
`/repo/src/symmetries/base_symmetry.cpp:421-445`, multiplicity free. -/
noncomputable def defaultTwist {S : Type} (A : Cat S ℂ) (qdim : S → ℝ) (a : S) : ℂ :=
  ((A.out a a).map fun b => (qdim b : ℂ) * A.R a a b).sum / (qdim a : ℂ)

/-- `BaseSymmetry::frobenius_schur`, `/repo/src/symmetries/base_symmetry.cpp:359-365`. -/
noncomputable def defaultFrobeniusSchur {S : Type} (A : Cat S ℂ) (a : S) : ℤ :=
  open Classical in if 0 ≤ (A.F a (A.dual a) a a A.unit A.unit).re then 1 else -1

end Cyten
