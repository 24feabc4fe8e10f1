import Verif.Model.AbelianData
import Mathlib.Analysis.Complex.Norm

/-! # Model of the norm of the abelian backend (exact complex arithmetic) -/

namespace Cyten.Abelian
open Cyten.Tools

/-- src/block_backend/numpy.cpp:898-913 `norm` (order 2, all axes) -/
noncomputable def Blk.norm (b : Blk ℂ) : ℝ :=
  Real.sqrt ((gridC b.shape).map fun i => ‖b.val i‖ ^ 2).sum

/-- src/backends/abelian.cpp:2780-2790 `norm`: the norm of the list of the block norms -/
noncomputable def norm (a : Ents ℂ) : ℝ :=
  Real.sqrt (a.map fun p => p.2.norm ^ 2).sum

end Cyten.Abelian
