import Verif.Model.TensorProduct
import Verif.Spec.Legs
import Verif.Spec.Spaces

/-! # Specification vocabulary for products of spaces -/

namespace Cyten.Spaces.Spec
open Cyten.Spaces

variable {S : Type} [LinearOrder S]

/-- All choices of one entry per list, the last one varies fastest. -/
def choices : List (List (S × ℕ)) → List (List (S × ℕ))
  | [] => [[]]
  | x :: xs => x.flatMap fun p => (choices xs).map (p :: ·)

/-- The sectors with multiplicities of a list of spaces. -/
def pairs (spaces : List (SpaceData S)) : List (List (S × ℕ)) :=
  spaces.map fun x => x.sectors.zip x.mults

/-- The number of ways in which the spaces fuse to `c`: for every choice of one sector per space,
the product of the multiplicities times the number of fusion trees. -/
def channels (R : FusionRule S) (spaces : List (SpaceData S)) (c : S) : ℕ :=
  ((choices (pairs spaces)).map fun ch => (ch.map Prod.snd).prod *
    (FusionTrees.allTrees R (ch.map Prod.fst) c (ch.map fun _ => false)).length).sum

/-- The laws of a commutative fusion ring with duals, in terms of the multiplicities
`n_symbol(a, b, c)` (proved for the symmetries of cyten in C07-C12, C43). -/
structure FusionRingN (R : FusionRule S) (dual : S → S) : Prop where
  comm : ∀ a b c, R.nSymbol a b c = R.nSymbol b a c
  assoc : ∀ a b c d,
    ((R.outcomes a b).map fun x => R.nSymbol a b x * R.nSymbol x c d).sum =
      ((R.outcomes b c).map fun y => R.nSymbol b c y * R.nSymbol a y d).sum
  unit : ∀ a c, R.nSymbol R.unit a c = if a = c then 1 else 0
  dual_dual : ∀ a, dual (dual a) = a
  dual_unit : dual R.unit = R.unit
  dual_fusion : ∀ a b c, R.nSymbol (dual b) (dual a) (dual c) = R.nSymbol a b c

/-- The slices `l` follow each other without gap or overlap and cover `[a, b)`. -/
def Tiles : ℕ → List (ℕ × ℕ) → ℕ → Prop
  | a, [], b => a = b
  | a, x :: l, b => x.1 = a ∧ x.1 ≤ x.2 ∧ Tiles x.2 l b

end Cyten.Spaces.Spec
