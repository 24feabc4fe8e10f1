import Verif.Model.FusionSymbol
import Verif.Model.ProductSym
import Verif.Spec.CategoryN
import Mathlib.Analysis.Real.Sqrt

/-!
# Model of products of symmetries with fusion multiplicities
(`/repo/src/symmetries/symmetry.cpp`, `kron` of `FusionSymbol`)

As in `Model/ProductSym.lean` a sector is the concatenation of the factors' sectors, but the symbols
are arrays and the product combines them with `kron`.  `none` means that the C++ code throws.
-/

namespace Cyten
open Spec

/-- A `SymmetryFactor` as seen by `Symmetry`: `sector_ind_len`, `fusion_style`, `is_valid_sector`,
`trivial_sector`, `fusion_outcomes`, `dual_sector`, `_n_symbol`, `_f_symbol`, `_r_symbol`, `qdim`
(the virtual functions called in `/repo/src/symmetries/symmetry.cpp:244-598`). -/
structure FactorN where
  len : ℕ
  style : ℕ
  valid : List ℤ → Prop
  unit : List ℤ
  out : List ℤ → List ℤ → List (List ℤ)
  dual : List ℤ → List ℤ
  n : List ℤ → List ℤ → List ℤ → ℕ
  F : List ℤ → List ℤ → List ℤ → List ℤ → List ℤ → List ℤ → Option (FSym ℂ)
  R : List ℤ → List ℤ → List ℤ → Option (FSym ℂ)
  qdim : List ℤ → ℝ

namespace ProductSymN

/-- An entry of a symbol; `0` if computing it throws. -/
noncomputable def entry (s : Option (FSym ℂ)) (i j k l : ℕ) : ℂ := (s.map fun t => t.get i j k l).getD 0

/-- `BaseSymmetry::_c_symbol`, `/repo/src/symmetries/base_symmetry.cpp:406-419`. -/
noncomputable def defaultC (F : List ℤ → List ℤ → List ℤ → List ℤ → List ℤ → List ℤ → Option (FSym ℂ))
    (R : List ℤ → List ℤ → List ℤ → Option (FSym ℂ)) (a b c d e f : List ℤ) :
    Option (FSym ℂ) := do
  let R1 ← R e c d
  let Fs ← F c a b d e f
  let R2' ← R a c f
  let R2 := R2'.conj
  let R1e ← R1.reshaped 4 1 (R1.s0 * R1.s1 * R1.s2 * R1.s3) 1 1
  let R2e ← R2.reshaped 4 1 1 (R2.s0 * R2.s1 * R2.s2 * R2.s3) 1
  let x ← R1e.multiply Fs
  x.multiply R2e

/-- `BaseSymmetry::_b_symbol`, `/repo/src/symmetries/base_symmetry.cpp:397-404`, with
`sqrt_qdim`, `/repo/src/symmetries/base_symmetry.cpp:374-378`. -/
noncomputable def defaultB (F : List ℤ → List ℤ → List ℤ → List ℤ → List ℤ → List ℤ → Option (FSym ℂ))
    (dual : List ℤ → List ℤ) (unit : List ℤ) (qdim : List ℤ → ℝ) (a b c : List ℤ) :
    Option (FSym ℂ) := do
  let Fs ← F a b (dual b) a unit c
  let M ← Fs.conj.slice2d 0 0
  some (M.scale ((Real.sqrt (qdim b) : ℝ) : ℂ))

/-- The observable data of a symmetry given its virtual functions; `n_symbol` is
`/repo/src/symmetries/base_symmetry.cpp:129-136`. -/
noncomputable def facCat (f : FactorN) : CatN (List ℤ) ℂ where
  valid := f.valid
  unit := f.unit
  out := f.out
  N a b c := if c ∈ f.out a b then f.n a b c else 0
  dual := f.dual
  F a b c d e g i j k l := entry (f.F a b c d e g) i j k l
  R a b c i := entry (f.R a b c) i 0 0 0
  C a b c d e g i j k l := entry (defaultC f.F f.R a b c d e g) i j k l
  B a b c i j := entry (defaultB f.F f.dual f.unit f.qdim a b c) i j 0 0

/-- The factors with `sector_slices[i]`, `/repo/src/symmetries/symmetry.cpp:107-111`. -/
def slices : ℕ → List FactorN → List (ℕ × FactorN)
  | _, [] => []
  | off, f :: fs => (off, f) :: slices (off + f.len) fs

/-- `factor_sector(a, i)`, `/repo/src/symmetries/symmetry.cpp:157-163`. -/
def slice (a : List ℤ) (p : ℕ × FactorN) : List ℤ := (a.drop p.1).take p.2.len

/-- `fusion_outcomes`, `/repo/src/symmetries/symmetry.cpp:272-337`. -/
def fusionOutcomes (fs : List FactorN) (a b : List ℤ) : List (List ℤ) :=
  let all := (slices 0 fs).map fun p => p.2.out (slice a p) (slice b p)
  if fs.isEmpty then [] else ProductSym.cartesian all

/-- `dual_sector`, `/repo/src/symmetries/symmetry.cpp:404-416`. -/
def dual (fs : List FactorN) (a : List ℤ) : List ℤ :=
  ((slices 0 fs).map fun p => p.2.dual (slice a p)).flatten

/-- `is_valid_sector`, `/repo/src/symmetries/symmetry.cpp:244-256`. -/
def valid (fs : List FactorN) (a : List ℤ) : Prop :=
  a.length = (fs.map FactorN.len).sum ∧ ∀ p ∈ slices 0 fs, p.2.valid (slice a p)

/-- `max_fusion_style`, `/repo/src/symmetries/symmetry.cpp:27-40`. -/
def maxStyle : List FactorN → ℕ
  | [] => 0
  | f :: fs => fs.foldl (fun s g => if g.style > s then g.style else s) f.style

/-- `_n_symbol`, `/repo/src/symmetries/symmetry.cpp:435-447`. -/
def n (fs : List FactorN) (a b c : List ℤ) : ℕ :=
  if maxStyle fs ≤ 10 then 1
  else (slices 0 fs).foldl (fun r p => r * p.2.n (slice a p) (slice b p) (slice c p)) 1

/-- `qdim`, `/repo/src/symmetries/symmetry.cpp:545-556`. -/
noncomputable def qdim (fs : List FactorN) (a : List ℤ) : ℝ :=
  if maxStyle fs = 0 then 1
  else (slices 0 fs).foldl (fun r p => r * p.2.qdim (slice a p)) 1

/-- `_f_symbol`, `/repo/src/symmetries/symmetry.cpp:572-586`. -/
noncomputable def fSym (fs : List FactorN) (a b c d e f : List ℤ) : Option (FSym ℂ) :=
  (slices 0 fs).foldlM (fun res p => do
    let Fi ← p.2.F (slice a p) (slice b p) (slice c p) (slice d p) (slice e p) (slice f p)
    res.kron Fi) FSym.one4D

/-- `_r_symbol`, `/repo/src/symmetries/symmetry.cpp:588-598`. -/
noncomputable def rSym (fs : List FactorN) (a b c : List ℤ) : Option (FSym ℂ) :=
  (slices 0 fs).foldlM (fun res p => do
    let Ri ← p.2.R (slice a p) (slice b p) (slice c p)
    res.kron Ri) FSym.one1D

/-- `Symmetry(factors)` seen as a symmetry itself; the trivial sector is `concat_trivial_sectors`,
`/repo/src/symmetries/symmetry.cpp:57-75`. -/
noncomputable def symmetry (fs : List FactorN) : FactorN where
  len := (fs.map FactorN.len).sum
  style := maxStyle fs
  valid := valid fs
  unit := (fs.map FactorN.unit).flatten
  out := fusionOutcomes fs
  dual := dual fs
  n := n fs
  F := fSym fs
  R := rSym fs
  qdim := qdim fs

/-- The observable data of `Symmetry(factors)`. -/
noncomputable def cat (fs : List FactorN) : CatN (List ℤ) ℂ := facCat (symmetry fs)

/-- `topological_twist`, `/repo/src/symmetries/base_symmetry.cpp:421-443`, without the two early
returns for trivial and symmetric braiding. -/
noncomputable def twist (f : FactorN) (a : List ℤ) : ℂ :=
  ((f.out a a).foldl (fun res b => res + (f.qdim b : ℂ) * ((f.R a a b).map FSym.sum).getD 0) 0) /
    (f.qdim a : ℂ)

/-- `frobenius_schur`, `/repo/src/symmetries/base_symmetry.cpp:359-365`. -/
noncomputable def frobeniusSchur (f : FactorN) (a : List ℤ) : ℤ :=
  if 0 ≤ (entry (f.F a (f.dual a) a a f.unit f.unit) 0 0 0 0).re then 1 else -1

end ProductSymN
end Cyten
