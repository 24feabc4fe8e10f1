import Verif.Model.AbelianTruncate
import Verif.Model.AbelianLegs

/-!
# Model of `pinv` (abelian backend)

As for `truncated_svd`, the tensor has one leg in the codomain and one in the domain, and the block
decomposition is an argument.  Labels are not modelled.
-/

namespace Cyten.Abelian
open Cyten.Tables Cyten.Tools Cyten.Spaces Cyten.FusionTrees

variable {S : Type}

/-- src/block_backend/numpy.cpp:644-657 `cutoff_inverse` of one number: `1 / inf = 0` if
`abs(a) < cutoff`. -/
noncomputable def cutoffInv (cutoff : ℝ) (s : ℂ) : ℂ := if ‖s‖ < cutoff then 0 else 1 / s

/-- src/tensors/ops_elementwise.cpp:56-64 `cutoff_inverse` of a diagonal tensor
(`maps_zero_to_zero = true`). -/
noncomputable def cutoffInverse (mults : List ℕ) (cutoff : ℝ) (D : DEnts ℂ) : DEnts ℂ :=
  elementwiseUnary mults (List.map (cutoffInv cutoff)) true D

/-- The options of src/tensors/ops_algebra.cpp:1517-1527, with `minimize_error = true` from
include/cyten/tensors/decompositions.h:63. -/
noncomputable def pinvOpts (cutoff : ℝ) : Truncation.Opts ℝ := ⟨none, 1, 0, 0, some cutoff, true⟩

/-- src/tensors/ops_algebra.cpp:1508-1532 `pinv_py` of a symmetric tensor; `compose_py` with a diagonal
tensor is `scale_axis` of the last leg, src/tensors/ops_algebra.cpp:650-658. -/
noncomputable def pinv [LinearOrder S] (R : FusionRule S) (argsort : List ℝ → List ℕ) (lg : ℝ → ℝ)
    (sym : Sym S) (c d l : ESpace S) (f : Blk ℂ → Blk ℂ × List ℂ × Blk ℂ) (T : Ents ℂ) (cutoff : ℝ) :
    Option (Ents ℂ) := do
  let W ← truncatedSvd argsort lg sym c d l f T (pinvOpts cutoff) none
  let B := scaleAxis W.U (cutoffInverse W.leg.mults cutoff W.D) 2 1
  let P ← compose R [toBLeg sym c] [toBLeg sym W.leg] [toBLeg sym d] B W.V
  some (dagger P)

/-- src/tensors/ops_algebra.cpp:1514-1516 `pinv_py` of a diagonal tensor. -/
noncomputable def pinvDiagonal (mults : List ℕ) (cutoff : ℝ) (D : DEnts ℂ) : DEnts ℂ :=
  cutoffInverse mults cutoff D

end Cyten.Abelian
