import Verif.Model.AbelianCombine
import Verif.Model.AbelianDiag
import Mathlib.Analysis.Normed.Group.Basic

/-!
# Model of `exp`, `almost_equal` and `squeeze_legs` of symmetric tensors (abelian backend)

`src/backends/abelian.cpp`, `src/tensors/ops_elementwise.cpp`.
-/

namespace Cyten.Abelian
open Cyten.Tables Cyten.Tools Cyten.Spaces

variable {S K : Type}

/-- src/backends/abelian.cpp:578-588: the block that is passed to the function. -/
def actPick [Zero K] (mults : List ℕ) (T : Ents K) : Option ℕ × Option ℕ → Option (Blk K)
  | (some i, _) => T[i]?.map Prod.snd
  | (none, some j) => some (Blk.zeros [mults.getD j 0, mults.getD j 0])
  | (none, none) => none

/-- src/backends/abelian.cpp:562-593 `act_block_diagonal_square_matrix`; `mults` are the
multiplicities of the leg of the domain.  Conversion of the dtype is not modelled. -/
def actBlockDiagonal [Zero K] (mults : List ℕ) (f : Blk K → Blk K) (T : Ents K) : Ents K :=
  mkData ((arangeDiag mults.length).zip
    (((iterCommonNoncommon cmpLexsort (T.map Prod.fst) (arangeDiag mults.length)).filterMap
      (actPick mults T)).map f)) true

section Exp
variable [LinearOrder S]

/-- src/tensors/ops_elementwise.cpp:195-218 with the two pipes that are created: combine the legs, act
on the blocks, split the pipes. -/
def expCombined [Zero K] (f : Blk K → Blk K) (pc pd : APipe S) (T : Ents K) : Ents K :=
  let segs := [Seg.pipe pc false, Seg.pipe pd true]
  splitSegs segs (actBlockDiagonal pd.mults f (combineSegs segs T))

/-- src/tensors/ops_elementwise.cpp:174-221 `exp` of a `SymmetricTensor` with codomain and domain
`legs`; `f` is `matrix_exp` of the block backend.  `none`: an exception (`factors[0]` of an empty
product).  `combine_legs` is called without `pipe_dualities`, so the pipe in the codomain is not dual
and the pipe in the domain is (src/tensors/ops_legs.cpp:836-838, 867-868, 898-900), and
`combine_cstyle` is the opposite (src/backends/abelian.cpp:559 in `make_pipe`). -/
def expSym [Zero K] (sym : Sym S) (R : FusionRule S) (f : Blk K → Blk K) (legs : List (ESpace S))
    (T : Ents K) : Option (Ents K) :=
  match legs with
  | [] => none
  | [e] => some (actBlockDiagonal e.mults f T)
  | legs =>
    (APipe.make sym R legs false true).bind fun pc =>
      (APipe.make sym R legs true false).map fun pd => expCombined f pc pd T

end Exp

/-- src/block_backend/numpy.cpp:881-887 `max_abs` is at most `atol` (not larger than `atol`, the tests of
src/backends/abelian.cpp:628-635).  `np.max` of a block without entries raises; blocks have entries. -/
def Blk.maxAbsLe [Norm K] (b : Blk K) (atol : ℝ) : Prop := ∀ i ∈ gridC b.shape, ‖b.val i‖ ≤ atol

/-- src/block_backend/numpy.cpp:577-585 `allclose` (exact arithmetic). -/
def Blk.allclose [Sub K] [Norm K] (a b : Blk K) (rtol atol : ℝ) : Prop :=
  ∀ i ∈ gridC a.shape, ‖a.val i - b.val i‖ ≤ atol + rtol * ‖b.val i‖

/-- src/backends/abelian.cpp:624-640: the test for one row. -/
def almostPick [Sub K] [Norm K] (a b : Ents K) (rtol atol : ℝ) : Option ℕ × Option ℕ → Prop
  | (some i, none) => ∀ p, a[i]? = some p → p.2.maxAbsLe atol
  | (none, some j) => ∀ q, b[j]? = some q → q.2.maxAbsLe atol
  | (some i, some j) => ∀ p q, a[i]? = some p → b[j]? = some q → p.2.allclose q.2 rtol atol
  | (none, none) => True

/-- src/backends/abelian.cpp:614-643 `almost_equal` returns true. -/
def almostEqual [Sub K] [Norm K] (a b : Ents K) (rtol atol : ℝ) : Prop :=
  ∀ ij ∈ iterCommonNoncommon cmpLexsort (a.map Prod.fst) (b.map Prod.fst), almostPick a b rtol atol ij

/-- `delete_columns` and `squeeze`: keep the entries at the positions that are not in `idcs`, counted
from `k`. src/backends/block_inds.cpp `delete_columns` -/
def dropAt {α : Type} (idcs : List ℕ) : ℕ → List α → List α
  | _, [] => []
  | k, x :: xs => if k ∈ idcs then dropAt idcs (k + 1) xs else x :: dropAt idcs (k + 1) xs

/-- Insert zeros at the positions `idcs` below `n`, counted from `k`: where the entry of the squeezed
array comes from. -/
def insertZeros (idcs : List ℕ) : ℕ → ℕ → List ℕ → List ℕ
  | 0, _, l => l
  | n + 1, k, l =>
    if k ∈ idcs then 0 :: insertZeros idcs n (k + 1) l
    else match l with
      | [] => []
      | x :: xs => x :: insertZeros idcs n (k + 1) xs

/-- src/block_backend/numpy.cpp:1075-1087 `squeeze_axes` -/
def Blk.squeezeAxes (b : Blk K) (idcs : List ℕ) : Blk K :=
  ⟨dropAt idcs 0 b.shape, fun i => b.val (insertZeros idcs b.shape.length 0 i)⟩

/-- src/backends/abelian.cpp:3438-3458 `squeeze_legs` -/
def squeezeLegs (T : Ents K) (idcs : List ℕ) : Ents K :=
  mkData (T.map fun p => (dropAt idcs 0 p.1, p.2.squeezeAxes idcs)) true

end Cyten.Abelian
