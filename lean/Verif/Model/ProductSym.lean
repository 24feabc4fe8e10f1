import Verif.Spec.Category
import Verif.Model.AbelianSym

/-!
# Model of the product symmetry `Symmetry` (`/repo/src/symmetries/symmetry.cpp`)

A sector of the product is the concatenation of the factors' sectors (`List ℤ`), cut into slices.
The limit of 7 entries (`max_sector_ind_len`) is not modelled.  Symbols of multiplicity-free
factors are numbers (arrays of shape 1×…×1), so `kron` is multiplication; multiplicities are modelled
separately by `n` (`_n_symbol`).
-/

namespace Cyten
open Spec

/-- A `SymmetryFactor` as seen by `Symmetry`: length of its sectors (`sector_ind_len`), fusion
style (0 `single`, 10 `multiple_unique`, 20 `general`, `/repo/include/cyten/symmetries/styles.h:8-13`),
fusion data, `_n_symbol`, `qdim`, and for symmetries with finitely many sectors `all_sectors`. -/
structure Factor where
  len : ℕ
  style : ℕ
  cat : Cat (List ℤ) ℂ
  n : List ℤ → List ℤ → List ℤ → ℕ
  qdim : List ℤ → ℝ
  all : List (List ℤ)

namespace ProductSym

/-- The factors with `sector_slices[i]`, `/repo/src/symmetries/symmetry.cpp:107-111`. -/
def slices : ℕ → List Factor → List (ℕ × Factor)
  | _, [] => []
  | off, f :: fs => (off, f) :: slices (off + f.len) fs

/-- `factor_sector(a, i)`, `/repo/src/symmetries/symmetry.cpp:157-163`. -/
def slice (a : List ℤ) (p : ℕ × Factor) : List ℤ := (a.drop p.1).take p.2.len

/-- All combinations in C-order (first factor slowest), concatenated: the numpy code in
`/repo/src/symmetries/symmetry.cpp:291-327`. -/
def cartesian : List (List (List ℤ)) → List (List ℤ)
  | [] => [[]]
  | l :: ls => l.flatMap fun x => (cartesian ls).map fun y => x ++ y

/-- `fusion_outcomes`, `/repo/src/symmetries/symmetry.cpp:272-337`. -/
def fusionOutcomes (fs : List Factor) (a b : List ℤ) : List (List ℤ) :=
  let all := (slices 0 fs).map fun p => p.2.cat.out (slice a p) (slice b p)
  if fs.isEmpty then [] else cartesian all

/-- `dual_sector`, `/repo/src/symmetries/symmetry.cpp:404-416` (the duals are written into the
slices of the factors). -/
def dual (fs : List Factor) (a : List ℤ) : List ℤ :=
  ((slices 0 fs).map fun p => p.2.cat.dual (slice a p)).flatten

/-- `is_valid_sector`, `/repo/src/symmetries/symmetry.cpp:244-256`. -/
def valid (fs : List Factor) (a : List ℤ) : Prop :=
  a.length = (fs.map Factor.len).sum ∧ ∀ p ∈ slices 0 fs, p.2.cat.valid (slice a p)

/-- `max_fusion_style`, `/repo/src/symmetries/symmetry.cpp:27-40`. -/
def maxStyle : List Factor → ℕ
  | [] => 0
  | f :: fs => fs.foldl (fun s g => if g.style > s then g.style else s) f.style

/-- `_n_symbol`, `/repo/src/symmetries/symmetry.cpp:435-447`; `has_unique_fusion` is
`fusion_style <= multiple_unique` (`/repo/src/symmetries/base_symmetry.cpp:66-70`). -/
def n (fs : List Factor) (a b c : List ℤ) : ℕ :=
  if maxStyle fs ≤ 10 then 1
  else (slices 0 fs).foldl (fun r p => r * p.2.n (slice a p) (slice b p) (slice c p)) 1

/-- `n_symbol`, `/repo/src/symmetries/base_symmetry.cpp:129-136`. -/
def nSymbol (fs : List Factor) (a b c : List ℤ) : ℕ :=
  if c ∈ fusionOutcomes fs a b then n fs a b c else 0

/-- `all_sectors`, `/repo/src/symmetries/symmetry.cpp:449-497`. -/
def allSectors (fs : List Factor) : List (List ℤ) :=
  if fs.isEmpty then [] else cartesian (fs.map Factor.all)

/-- `qdim`, `/repo/src/symmetries/symmetry.cpp:545-556`; `is_abelian` is `fusion_style == single`. -/
noncomputable def qdim (fs : List Factor) (a : List ℤ) : ℝ :=
  if maxStyle fs = 0 then 1
  else (slices 0 fs).foldl (fun r p => r * p.2.qdim (slice a p)) 1

/-- `_f_symbol`, `/repo/src/symmetries/symmetry.cpp:572-586`. -/
noncomputable def fSym (fs : List Factor) (a b c d e f : List ℤ) : ℂ :=
  (slices 0 fs).foldl (fun r p => r * p.2.cat.F (slice a p) (slice b p) (slice c p) (slice d p)
    (slice e p) (slice f p)) 1

/-- `_r_symbol`, `/repo/src/symmetries/symmetry.cpp:588-598`. -/
noncomputable def rSym (fs : List Factor) (a b c : List ℤ) : ℂ :=
  (slices 0 fs).foldl (fun r p => r * p.2.cat.R (slice a p) (slice b p) (slice c p)) 1

/-- `Symmetry(factors)`; the trivial sector is `concat_trivial_sectors`
(`/repo/src/symmetries/symmetry.cpp:57-75`), the C-symbol is inherited from
`BaseSymmetry::_c_symbol` (`/repo/src/symmetries/base_symmetry.cpp:406-419`). -/
noncomputable def cat (fs : List Factor) : Cat (List ℤ) ℂ where
  valid := valid fs
  unit := (fs.map fun f => f.cat.unit).flatten
  out := fusionOutcomes fs
  dual := dual fs
  F := fSym fs
  R := rSym fs
  C a b c d e f := rSym fs e c d * fSym fs c a b d e f * star (rSym fs a c f)

end ProductSym
end Cyten
