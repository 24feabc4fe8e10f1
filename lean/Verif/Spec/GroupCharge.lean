import Verif.Model.AbelianLegs
import Mathlib.Algebra.Group.Basic
import Mathlib.Algebra.BigOperators.Group.List.Basic

/-!
# Specification vocabulary: symmetries given by an abelian group
-/

namespace Cyten.Abelian.Spec
open Cyten.Abelian Cyten.FusionTrees

variable {S : Type}

/-- The sectors form an abelian group: the fusion of `a` and `b` has the single outcome `a + b`, the
trivial sector is `0`, the dual sector is the negative.  (U(1), Z_N, fermion parity, fermion number
and products of these, see C07 and C10.) -/
structure GroupRule [AddCommGroup S] (R : Cyten.FusionRule S) (dual : S → S) : Prop where
  unit : R.unit = 0
  fuse : ∀ a b, R.outcomes a b = [a + b]
  dual : ∀ a, dual a = -a

/-- The `legs` of a tensor: the codomain, then the duals of the legs of the domain in reversed order
(src/tensors/tensor.cpp, `legs`). -/
def allLegs (dual : S → S) (cod dom : List (BLeg S)) : List (BLeg S) :=
  cod ++ (dom.map (BLeg.dual dual)).reverse

end Cyten.Abelian.Spec
