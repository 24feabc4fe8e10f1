import Verif.Model.FusionSymbol
import Verif.Spec.CategoryN
import Mathlib.Analysis.Complex.Basic
import Mathlib.Analysis.SpecialFunctions.Pow.Real

/-!
# Model of the SU(3)_3 anyon category
(`/repo/src/symmetries/factors/su3_3_anyon_category.cpp`)

Sectors are integers: 0 = one, 1 = eight, 2 = ten, 3 = ten-bar; `8 ⊗ 8` contains `8` twice.  All
functions are polymorphic in the number type `K`, so that the same definitions are evaluated over
`ℂ` with the numbers the code uses and over an exact computable ring.
-/

namespace Cyten.SU33
open Spec

/-- The irrational and fractional constants of
`/repo/src/symmetries/factors/su3_3_anyon_category.cpp:145-213` and the imaginary unit of
lines 492-501. -/
structure Consts (K : Type) where
  /-- `1.0 / 3.0` -/
  third : K
  /-- `0.5` -/
  half : K
  /-- `sqrt3 / 2.0` -/
  s32 : K
  /-- `1.0 / sqrt3` -/
  rs3 : K
  /-- `1.0 / sqrt12` -/
  rs12 : K
  /-- `complex128{0.0, 1.0}` -/
  im : K
  /-- `sqrt_qdim(eight) = sqrt(3.0)` -/
  s3 : K

/-- `fusion_map`, `/repo/src/symmetries/factors/su3_3_anyon_category.cpp:100-129`. -/
def fusionMap (key : ℤ) : List ℤ :=
  if key = 0 then [0]
  else if key = 1 then [1]
  else if key = 2 then [0, 1, 2, 3]
  else if key = 4 then [2]
  else if key = 5 ∨ key = 10 then [1]
  else if key = 8 ∨ key = 9 then [3]
  else if key = 13 then [0]
  else if key = 18 then [2]
  else []

/-- `fusion_outcomes`, `/repo/src/symmetries/factors/su3_3_anyon_category.cpp:387-393`. -/
def out (a b : ℤ) : List ℤ := fusionMap (a * a + b * b)

/-- `can_fuse_to`, `/repo/src/symmetries/base_symmetry.cpp` (membership in `fusion_outcomes`). -/
def canFuseTo (a b c : ℤ) : Bool := (out a b).contains c

/-- `dual_map`, `/repo/src/symmetries/factors/su3_3_anyon_category.cpp:131-143`. -/
def dual (a : ℤ) : ℤ := if a = 2 then 3 else if a = 3 then 2 else a

/-- One entry of `dual_sectors`, `/repo/src/symmetries/factors/su3_3_anyon_category.cpp:439-452`,
with `mod_n`, `/repo/include/cyten/symmetries/topo_ones.h:37-45` (`%` truncates). -/
def dualBatch (q : ℤ) : ℤ :=
  if 2 ≤ q then (let r := Int.tmod (-q) 5; if r < 0 then r + 5 else r) else q

/-- `_n_symbol`, `/repo/src/symmetries/factors/su3_3_anyon_category.cpp:454-458`. -/
def nSym (a b c : ℤ) : ℕ := if a = 1 ∧ b = 1 ∧ c = 1 then 2 else 1

/-- `n_symbol`, `/repo/src/symmetries/base_symmetry.cpp:129-136`. -/
def N (a b c : ℤ) : ℕ := if canFuseTo a b c then nSym a b c else 0

section
variable {K : Type} [Zero K] [One K] [Neg K] [Mul K] [Star K] (q : Consts K)

/-- `_f1`, `/repo/src/symmetries/factors/su3_3_anyon_category.cpp:145-150`. -/
def f1 : FSym K := ⟨2, 2, 2, 1, 1, [1, 0, 0, 1]⟩
/-- `_f2`, `/repo/src/symmetries/factors/su3_3_anyon_category.cpp:152-158`. -/
def f2 : FSym K := ⟨2, 2, 2, 1, 1, [-q.half, -q.s32, q.s32, -q.half]⟩
/-- `_f3`, `/repo/src/symmetries/factors/su3_3_anyon_category.cpp:160-164`. -/
def f3 : FSym K := (f2 q).transpose2

/-- The `set(i, j, v)` calls of `_f4`, `/repo/src/symmetries/factors/su3_3_anyon_category.cpp:177-211`,
in order. -/
def f4Sets : List (ℕ × ℕ × K) :=
  [(0, 0, q.third), (5, 5, q.third), (6, 5, q.third), (5, 6, q.third), (6, 6, q.third),
    (0, 5, -q.third), (0, 6, -q.third), (5, 0, -q.third), (6, 0, -q.third),
    (0, 1, q.rs3), (1, 0, q.rs3), (0, 4, q.rs3), (4, 0, q.rs3),
    (2, 2, q.half), (3, 2, q.half), (2, 3, q.half), (3, 3, q.half), (1, 4, q.half), (4, 1, q.half),
    (2, 6, q.half), (6, 3, q.half), (3, 5, q.half), (5, 2, q.half),
    (2, 5, -q.half), (5, 3, -q.half), (3, 6, -q.half), (6, 2, -q.half), (1, 1, -q.half),
    (4, 4, -q.half),
    (1, 5, q.rs12), (1, 6, q.rs12), (5, 1, q.rs12), (6, 1, q.rs12), (4, 5, q.rs12), (4, 6, q.rs12),
    (5, 4, q.rs12), (6, 4, q.rs12)]

/-- The entry of `_f4` after all assignments (a later assignment overwrites an earlier one). -/
def f4At (i j : ℕ) : K :=
  (f4Sets q).foldl (fun acc s => if s.1 = i ∧ s.2.1 = j then s.2.2 else acc) 0

/-- `f4_slices`, `/repo/src/symmetries/factors/su3_3_anyon_category.cpp:52-65`. -/
def f4Slices (charge : ℤ) : ℕ × ℕ :=
  if charge = 0 then (0, 1) else if charge = 1 then (1, 5) else if charge = 2 then (5, 6) else (6, 7)

/-- `slice2d_block(_f4(), r0, r1, c0, c1)`,
`/repo/src/symmetries/factors/su3_3_anyon_category.cpp:79-95`. -/
def f4Block (r c : ℕ × ℕ) : FSym K :=
  FSym.build 2 (r.2 - r.1) (c.2 - c.1) 1 1 fun i j _ _ => f4At q (r.1 + i) (c.1 + j)

/-- `_compute_f_symbol`, `/repo/src/symmetries/factors/su3_3_anyon_category.cpp:267-364`;
`none`: `reshape` throws. -/
def computeF (a b c d e f : ℤ) : Option (FSym K) :=
  if !canFuseTo b c e || !canFuseTo a e d || !canFuseTo a b f || !canFuseTo f c d then
    some FSym.one4D
  else
    let abcd : List ℤ := [a, b, c, d]
    let n8 := abcd.countP fun x => x == 1
    let shape (m : FSym K) : Option (FSym K) :=
      m.reshaped 4 (nSym b c e) (nSym a e d) (nSym a b f) (nSym f c d)
    let nonTrivial : Bool := abcd.all fun x => x != 0
    if n8 = 4 then shape (f4Block q (f4Slices f) (f4Slices e))
    else if n8 = 3 then
      let index := abcd.findIdx fun x => x != 1
      let not8 := abcd.getD index 0
      if not8 = 0 then shape f1
      else if (not8 = 2 ∧ index ≠ 1) ∨ (not8 = 3 ∧ index = 1) then shape (f2 q)
      else shape (f3 q)
    else
      let index1 := abcd.findIdx fun x => x == 1
      let index2 := index1 + 1 + (abcd.drop (index1 + 1)).findIdx fun x => x == 1
      if n8 = 2 ∧ nonTrivial = true ∧ (index2 = index1 + 1 ∨ (index1 = 0 ∧ index2 = 3)) then
        some (FSym.one4D.scale (-1))
      else
        let n10 := abcd.countP fun x => x == 2
        let index :=
          if n10 = 3 then abcd.findIdx fun x => x != 2
          else if n10 = 1 then abcd.findIdx fun x => x == 2
          else 1
        if n8 = 0 ∧ nonTrivial = true ∧ (index = 0 ∨ index = 2) then some (FSym.one4D.scale (-1))
        else some FSym.one4D

/-- `_r_symbol`, `/repo/src/symmetries/factors/su3_3_anyon_category.cpp:489-504`. -/
def rSym (a b c : ℤ) : FSym K :=
  if a = 1 ∧ b = 1 then
    if c = 1 then ⟨1, 2, 1, 1, 1, [-q.im, q.im]⟩ else FSym.one1D.scale (-1)
  else FSym.one1D

/-- `default_c_symbol`, `/repo/src/symmetries/factors/su3_3_anyon_category.cpp:28-45`, the same as
`BaseSymmetry::_c_symbol`, `/repo/src/symmetries/base_symmetry.cpp:406-419`. -/
def defaultC (a b c d e f : ℤ) : Option (FSym K) := do
  let R1 := rSym q e c d
  let F ← computeF q c a b d e f
  let R2 := (rSym q a c f).conj
  let R1e ← R1.reshaped 4 1 (R1.s0 * R1.s1 * R1.s2 * R1.s3) 1 1
  let R2e ← R2.reshaped 4 1 1 (R2.s0 * R2.s1 * R2.s2 * R2.s3) 1
  let x ← R1e.multiply F
  x.multiply R2e

/-- `_c_symbol`, `/repo/src/symmetries/factors/su3_3_anyon_category.cpp:506-518`, with the table
filled in the constructor, lines 240-264. -/
def cSym (a b c d e f : ℤ) : Option (FSym K) :=
  if canFuseTo a b e && canFuseTo e c d && canFuseTo a c f && canFuseTo f b d then
    defaultC q a b c d e f
  else some FSym.one4D

/-- `BaseSymmetry::_b_symbol`, `/repo/src/symmetries/base_symmetry.cpp:397-404`; `sqrt_qdim`,
`std::sqrt(qdim(b))`. -/
def bSym (a b c : ℤ) : Option (FSym K) := do
  let F ← computeF q a b (dual b) a 0 c
  let M ← F.conj.slice2d 0 0
  some (M.scale (if b = 1 then q.s3 else 1))

/-- An entry of a symbol; `0` if the computation of the symbol throws. -/
def entryOf (s : Option (FSym K)) (i j k l : ℕ) : K := (s.map fun t => t.get i j k l).getD 0

/-- The category data; `is_valid_sector`,
`/repo/src/symmetries/factors/su3_3_anyon_category.cpp:366-370`, `_f_symbol` (a lookup in the table
filled by the constructor), lines 460-465. -/
def catOf : CatN ℤ K where
  valid a := 0 ≤ a ∧ a < 4
  unit := 0
  out := out
  N := N
  dual := dual
  F a b c d e f i j k l := entryOf (computeF q a b c d e f) i j k l
  R a b c i := (rSym q a b c).get i 0 0 0
  C a b c d e f i j k l := entryOf (cSym q a b c d e f) i j k l
  B a b c i j := entryOf (bSym q a b c) i j 0 0

end

/-- The constants as the code computes them (real numbers instead of doubles). -/
noncomputable def consts : Consts ℂ where
  third := ((1 / 3 : ℝ) : ℂ)
  half := ((0.5 : ℝ) : ℂ)
  s32 := ((Real.sqrt 3 / 2 : ℝ) : ℂ)
  rs3 := ((1 / Real.sqrt 3 : ℝ) : ℂ)
  rs12 := ((1 / Real.sqrt 12 : ℝ) : ℂ)
  im := Complex.I
  s3 := ((Real.sqrt 3 : ℝ) : ℂ)

/-- `SU3_3AnyonCategory()`. -/
noncomputable def cat : CatN ℤ ℂ := catOf consts

/-- `qdim`, `/repo/src/symmetries/factors/su3_3_anyon_category.cpp:473-477`. -/
noncomputable def qdim (a : ℤ) : ℝ := if a = 1 then 3 else 1

/-- `frobenius_schur`, `/repo/src/symmetries/factors/su3_3_anyon_category.cpp:467-471`. -/
def frobeniusSchur (_a : ℤ) : ℤ := 1

/-- `topological_twist`, `/repo/src/symmetries/base_symmetry.cpp:421-443` (the braiding is anyonic,
so neither early return applies). -/
noncomputable def twist (a : ℤ) : ℂ :=
  ((out a a).foldl (fun res b => res + (qdim b : ℂ) * (rSym consts a a b).sum) 0) / (qdim a : ℂ)

end Cyten.SU33
