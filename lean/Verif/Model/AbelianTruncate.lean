import Verif.Model.AbelianDecomp
import Verif.Model.AbelianMask
import Verif.Model.AbelianNorm
import Verif.Model.Truncation

/-!
# Model of the truncated singular value decomposition with the abelian backend

The tensor has one leg in the codomain and one in the domain (`svd_py` combines the legs before and
splits them afterwards, C31 and C49).  Singular values have a real dtype in the code; here they are the
real parts of the complex numbers of `svd`.
-/

namespace Cyten.Abelian
open Cyten.Tables Cyten.Tools Cyten.Spaces

variable {S : Type}

/-- src/backends/abelian.cpp:2780-2790 `norm` of the data of a diagonal tensor: the norm of the list of
the norms of the blocks -/
noncomputable def diagNorm (D : DEnts ℂ) : ℝ :=
  Real.sqrt (D.map fun p => Real.sqrt (p.2.map fun s => ‖s‖ ^ 2).sum ^ 2).sum

/-- src/backends/abelian.cpp:3622-3640 `truncate_singular_values`: the mask, the error and the new
norm -/
noncomputable def truncateSingularValues (argsort : List ℝ → List ℕ) (lg : ℝ → ℝ) (sym : Sym S)
    (l : ESpace S) (D : DEnts ℝ) (o : Truncation.Opts ℝ) : Option (MaskT S × ℝ × ℝ) :=
  (Truncation.select argsort lg (diagonalToBlock sym l D) none o).map fun r =>
    (maskFromBlock sym l r.1, r.2.1, r.2.2)

/-- src/tensors/decompositions.cpp:619-632 `svd_apply_mask_py`: the dagger of the mask on the last leg
of `U`, the mask on the first leg of `Vh`. -/
def svdApplyMask {K : Type} [Zero K] (U : Ents K) (D : DEnts K) (V : Ents K) (M : MaskT S) :
    Ents K × DEnts K × Ents K :=
  (maskContract 2 1 true true U M.dagger.data, maskDiagonal D M.data,
    maskContract 2 0 false true V M.data)

/-- What `truncated_svd_py` returns; `leg` is the new leg between the factors. -/
structure TruncSvd (S : Type) where
  leg : ESpace S
  U : Ents ℂ
  D : DEnts ℂ
  V : Ents ℂ
  err : ℝ
  renormalize : ℝ

/-- src/tensors/decompositions.cpp:672-709 `truncated_svd_py`; `f` is the decomposition of the blocks,
`l` the new leg of `svd`.  `none`: an exception of the selection (an empty spectrum). -/
noncomputable def truncatedSvd [LinearOrder S] (argsort : List ℝ → List ℕ) (lg : ℝ → ℝ) (sym : Sym S)
    (c d l : ESpace S) (f : Blk ℂ → Blk ℂ × List ℂ × Blk ℂ) (T : Ents ℂ) (o : Truncation.Opts ℝ)
    (normalizeTo : Option ℝ) : Option (TruncSvd S) :=
  let usv := svd sym c d l f T
  let N := diagNorm usv.2.1
  let normed : DEnts ℝ := elementwiseUnary l.mults (List.map fun s => s.re / N) false usv.2.1
  (truncateSingularValues argsort lg sym l normed o).map fun r =>
    let cut := svdApplyMask usv.1 usv.2.1 usv.2.2 r.1
    match normalizeTo with
    | none => ⟨r.1.small, cut.1, cut.2.1, cut.2.2, r.2.1, 1⟩
    | some x =>
      ⟨r.1.small, cut.1,
        elementwiseUnary r.1.small.mults (List.map fun s => s * ((x / N / r.2.2 : ℝ) : ℂ)) false cut.2.1,
        cut.2.2, r.2.1, x / N / r.2.2⟩

end Cyten.Abelian
