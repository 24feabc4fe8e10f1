import Verif.Model.FTDiag
import Verif.Model.AbelianMask

/-!
# Model of `Mask` with the fusion tree backend

`src/backends/fusion_tree_backend.cpp:1061-1085, 1384-1437, 3646-4111`.  The rows of `block_inds` hold the
numbers of sectors of the codomain and the domain, i.e. of the `TensorProduct` of the small and of the large leg for a
projection, whose sectors are always sorted, while those of a dual leg are not.  `co` is the `TensorProduct` of the
large leg.  The permutation of the basis (`basis_perm`, `rank_data`) is not modelled here: it is computed as in the
abelian backend (`Verif/Model/AbelianMask.lean`, `smallPerm`); the new leg has `perm = none`.
-/

namespace Cyten.FT
open Cyten.Abelian Cyten.Spaces Cyten.Tools

variable {S K : Type}

/-- The data and the small leg of a projection, the result of the functions of this file. -/
structure FMask (S : Type) where
  small : ESpace S
  data : MEnts
deriving DecidableEq

/-- The blocks with the numbers of the sectors of the large leg: column 1 of a projection, column 0 of an inclusion. -/
def maskEnts (isProjection : Bool) (M : MEnts) : DEnts Bool :=
  M.map fun e => (if isProjection then e.1.2 else e.1.1, e.2)

/-- src/backends/fusion_tree_backend.cpp:1061-1071 `mask_dagger` -/
def ftMaskDagger (M : MEnts) : MEnts := M.map fun e => ((e.1.2, e.1.1), e.2)

/-- src/backends/fusion_tree_backend.cpp:1073-1085 `mask_to_diagonal` -/
def ftMaskToDiagonal [Zero K] [One K] (isProjection : Bool) (M : MEnts) : DEnts K :=
  (maskEnts isProjection M).map fun p => (p.1, p.2.map fun b => if b then 1 else 0)

/-- src/backends/fusion_tree_backend.cpp:3646-3742 `diagonal_to_mask` -/
def ftMaskFromDiagonal [LinearOrder S] (sym : Sym S) (isDual : Bool) (co : BLeg S) (D : DEnts Bool) : FMask S :=
  let kept := D.filter fun p => p.2.any id
  let sectors := kept.filterMap fun p => co.sectors[p.1]?.map fun c => if isDual then sym.dual c else c
  let mults := kept.map fun p => countTrue p.2
  let perm := lexsortIndices sectors
  ⟨if isDual then ⟨gather sectors perm, gather mults perm, isDual, none⟩ else ⟨sectors, mults, isDual, none⟩,
    maskData kept⟩

/-- The blocks of src/backends/fusion_tree_backend.cpp:3777-3825, 4043-4065: one for every sector of the leg, in the
order of the leg, with zeros for missing ones; by a pointer if the leg is not dual, by a search otherwise. -/
def readBlocks [DecidableEq S] (sym : Sym S) (large : ESpace S) (co : BLeg S) (M : MEnts) : Option (List (List Bool)) :=
  if large.isDual then
    (List.range large.defining.length).mapM fun j =>
      match (large.sectors sym)[j]? with
      | none => none
      | some c => (blockIndFromCoupled M co c).map fun
        | none => zeros1 (large.mults.getD j 0)
        | some n => (M[n]?.map Prod.snd).getD []
  else some (reduceLoop 0 large.mults (M.map fun e => (e.1.2, e.2)))

/-- The last part of src/backends/fusion_tree_backend.cpp:3826-3864, 4066-4111; the blocks come with the numbers of
the sectors in the leg. -/
def buildFMask (large : ESpace S) (kept : DEnts Bool) : FMask S :=
  ⟨⟨kept.filterMap fun p => large.defining[p.1]?, kept.map fun p => countTrue p.2, large.isDual, none⟩, maskData kept⟩

/-- src/backends/fusion_tree_backend.cpp:4020-4111 `mask_unary_operand`, of a projection -/
def ftMaskUnary [DecidableEq S] (sym : Sym S) (f : List Bool → List Bool) (large : ESpace S) (co : BLeg S) (M : MEnts) :
    Option (FMask S) :=
  (readBlocks sym large co M).map fun bs => buildFMask large (keepBlocks (bs.zipIdx.map fun p => (p.2, f p.1)))

/-- src/backends/fusion_tree_backend.cpp:3744-3865 `mask_binary_operand`, of projections -/
def ftMaskBinary [DecidableEq S] (sym : Sym S) (f : List Bool → List Bool → List Bool) (large : ESpace S) (co : BLeg S)
    (M₁ M₂ : MEnts) : Option (FMask S) :=
  (readBlocks sym large co M₁).bind fun b₁ => (readBlocks sym large co M₂).map fun b₂ =>
    buildFMask large (keepBlocks ((List.zipWith f b₁ b₂).zipIdx.map fun p => (p.2, p.1)))

/-- src/backends/fusion_tree_backend.cpp:3896-3925: one sector of `mask_from_block`, the number of the sector in the leg,
the number in the domain, the block and the multiplicity that is kept. -/
def maskSector [DecidableEq S] (sym : Sym S) (large : ESpace S) (co : BLeg S) (a : List Bool) (j : ℕ) :
    Option (S × ℕ × List Bool × ℕ) :=
  match large.defining[j]? with
  | none => none
  | some s =>
    let block := getSlice1 a (spaceSlice sym.dim (large.toSpace sym) j)
    if countTrue block = 0 then none
    else some (s, if large.isDual then co.sectors.idxOf (sym.dual s) else j,
      block.take (block.length / sym.dim s), countTrue block / sym.dim s)

/-- src/backends/fusion_tree_backend.cpp:3867-3964 `mask_from_block` -/
def ftMaskFromBlock [DecidableEq S] (sym : Sym S) (large : ESpace S) (co : BLeg S) (a : List Bool) : FMask S :=
  let found := (List.range large.defining.length).filterMap (maskSector sym large co a)
  let kept : DEnts Bool := found.map fun x => (x.2.1, x.2.2.1)
  ⟨⟨found.map fun x => x.1, found.map fun x => x.2.2.2, large.isDual, none⟩,
    maskData (if large.isDual then gather kept (lexsortIndices (S := ℕ) (kept.map Prod.fst)) else kept)⟩

/-- src/backends/fusion_tree_backend.cpp:3966-3986 `mask_to_block` -/
def ftMaskToBlock [DecidableEq S] (dim : S → ℕ) (isDual isProjection : Bool) (leg : SpaceData S) (co : BLeg S)
    (M : MEnts) : List Bool :=
  (maskEnts isProjection M).foldl (fun res p =>
    match co.sectors[p.1]? with
    | none => res
    | some c => setSlice1 res (spaceSlice dim leg (if isDual then leg.sectors.idxOf c else p.1))
        (List.replicate (dim c) p.2).flatten) (zeros1 (spaceDim dim leg))

/-- src/backends/fusion_tree_backend.cpp:3988-4018 `mask_transpose`: the data -/
def ftMaskTranspose [LinearOrder S] (dual : S → S) (cod dom : BLeg S) (M : MEnts) : MEnts :=
  let invDom := inversePermutation (lexsortIndices (dom.sectors.map dual))
  let invCod := inversePermutation (lexsortIndices (cod.sectors.map dual))
  mkData (M.map fun e => ((invDom.getD e.1.2 0, invCod.getD e.1.1 0), e.2)) false

/-- src/block_backend/block_backend.cpp:739-757 `get_block_mask_element`; `none`: division by zero -/
def blockMaskEntry (a : List Bool) (large small sumBlock : ℕ) : Option Bool :=
  if a.length = 0 then none
  else
    let offset := large / a.length * sumBlock
    let l := large % a.length
    if !a.getD l false then some false else some (small == offset + countTrue (a.take l))

/-- src/backends/fusion_tree_backend.cpp:1384-1437 `get_element_mask`; `i` and `j` are the results of `parse_index` for
the codomain and the domain (the number of the sector and the offset in it). -/
def ftMaskGetElement [DecidableEq S] (isProjection : Bool) (cod dom : SpaceData S) (domDual : Bool) (domTP : BLeg S)
    (M : MEnts) (i j : ℕ × ℕ) : Option Bool :=
  match dom.sectors[j.1]?, cod.sectors[i.1]? with
  | some c, some c' =>
    if c ≠ c' then some false
    else
      let idx := if domDual then (if c ∈ domTP.sectors then some (domTP.sectors.idxOf c) else none) else some j.1
      idx.bind fun idx => (blockIndFromDomain M idx).bind fun
        | none => some false
        | some n =>
          let block := (M[n]?.map Prod.snd).getD []
          if isProjection then blockMaskEntry block j.2 i.2 (cod.mults.getD i.1 0)
          else blockMaskEntry block i.2 j.2 (dom.mults.getD j.1 0)
  | _, _ => none

end Cyten.FT
