import Verif.Model.FTMaskOps
import Verif.Model.Truncation
import Mathlib.Data.Complex.Basic

/-!
# Model of `truncate_singular_values` of the fusion tree backend

`co` is the domain of the diagonal tensor of the singular values, i.e. the `TensorProduct` of its leg: its sectors are
sorted, those of the leg need not be.
-/

namespace Cyten.FT
open Cyten.Abelian Cyten.Spaces Cyten.Tools

variable {S K : Type}

/-- src/backends/fusion_tree_backend.cpp:2289-2297, the slices `slc` of the loop -/
def runningSlices : ℕ → List ℕ → List (ℕ × ℕ)
  | _, [] => []
  | stop, m :: ms => (stop, stop + m) :: runningSlices (stop + m) ms

/-- src/backends/fusion_tree_backend.cpp:2279-2304 `S_np`: the blocks, or zeros where there is none -/
def ftSpectrum [Zero K] (co : BLeg S) (D : DEnts K) : List K := (reduceLoop 0 co.mults D).flatten

/-- src/backends/fusion_tree_backend.cpp:2303 `qdims`: the quantum dimension of the sector for each of its values -/
def ftQdims (mults : List ℕ) (qdims : List K) : List K := (List.zipWith List.replicate mults qdims).flatten

/-- src/backends/fusion_tree_backend.cpp:2317-2319: `keep[slc]` for every sector -/
def keepBlocksOf (co : BLeg S) (keep : List Bool) : DEnts Bool :=
  ((runningSlices 0 co.mults).map (getSlice1 keep)).zipIdx.map fun p => (p.2, p.1)

/-- src/backends/fusion_tree_backend.cpp:2313-2325, 2333-2355: the new leg and the blocks of the mask.  `none`: an
exception of `from_sector_decomposition`. -/
def ftTruncateMask [LinearOrder S] (sym : Sym S) (isDual : Bool) (co : BLeg S) (keep : List Bool) : Option (FMask S) :=
  let kept := (keepBlocksOf co keep).filter fun p => p.2.any id
  (ESpace.fromSectorDecomposition sym (kept.filterMap fun p => co.sectors[p.1]?)
    (some (kept.map fun p => countTrue p.2)) isDual none false).map fun e =>
      ⟨{ e with perm := none }, maskData kept⟩

/-- src/backends/fusion_tree_backend.cpp:2254-2357 `truncate_singular_values`: the mask with its small leg, the error and
the new norm.  `none`: an exception (an empty spectrum, or a leg with a `basis_perm`). -/
def ftTruncate [Field K] [LinearOrder K] [LinearOrder S] (argsort : List K → List ℕ) (lg : K → K) (sym : Sym S)
    (leg : ESpace S) (co : BLeg S) (qdims : List K) (D : DEnts K) (o : Truncation.Opts K) : Option (FMask S × K × K) :=
  (Truncation.select argsort lg (ftSpectrum co D) (some (ftQdims co.mults qdims)) o).bind fun r =>
    if leg.perm.isSome then none
    else (ftTruncateMask sym leg.isDual co r.1).map fun M => (M, r.2.1, r.2.2)

/-- src/tensors/decompositions.cpp:687-690 `S_normed` of `truncated_svd_py`; `D` are the singular values of `svd` (of a real
dtype in the code, here real parts), `N` their norm -/
noncomputable def normedValues (N : ℝ) (D : List ((ℕ × ℕ) × List ℂ)) : DEnts ℝ :=
  D.map fun e => (e.1.1, e.2.map fun s => s.re / N)

end Cyten.FT
