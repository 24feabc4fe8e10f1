import Verif.Model.FTDense
import Verif.Model.AbelianLegs
import Verif.Model.AbelianMask

/-!
# Model of `scale_axis` and `_mask_contract` of the fusion tree backend

`src/backends/fusion_tree_backend.cpp:3520-3644` and `2371-2492`.
-/

namespace Cyten.FT
open Cyten.Abelian Cyten.Spaces Cyten.Tools Cyten.FusionTrees

variable {S K : Type}

/-- The data of a `DiagonalTensor`: blocks of dimension one. -/
abbrev FDiag (K : Type) := List ((ℕ × ℕ) × List K)

/-- A matrix as a block of dimension two. -/
def Mat.asBlk (M : Mat K) : Blk K := ⟨[M.rows, M.cols], fun i => M.val (i.getD 0 0) (i.getD 1 0)⟩

/-- A block of dimension two as a matrix. -/
def Mat.ofBlk (b : Blk K) : Mat K := ⟨b.shape.getD 0 0, b.shape.getD 1 0, fun m n => b.val [m, n]⟩

/-- The dimension `-1` of `np.reshape`: what is left of the size (the other dimensions are positive). -/
def freeDim (total : ℕ) (others : List ℕ) : ℕ := total / others.prod

/-- src/backends/fusion_tree_backend.cpp:3610-3618, 3621-3629: a slice of columns (`in_domain`) or rows of a block -/
def forestSlice (inDomain : Bool) (M : Mat K) (sl : ℕ × ℕ) : Blk K :=
  M.asBlk.getSlice (if inDomain then [(0, M.rows), sl] else [sl, (0, M.cols)])

/-- src/backends/fusion_tree_backend.cpp:3639 and 2473-2483 `b_set`: overwrite the slice of columns or rows -/
def setForest (inDomain : Bool) (M : Mat K) (sl : ℕ × ℕ) (b : Blk K) : Mat K :=
  Mat.ofBlk (M.asBlk.setSlice (if inDomain then [(0, M.rows), sl] else [sl, (0, M.cols)]) b)

/-! ## scale_axis -/

/-- src/backends/fusion_tree_backend.cpp:3608-3638: reshape the forest block to the multiplicities of the legs,
with a further axis for the trees, scale, reshape back. -/
def scaleForest [Mul K] [Zero K] (inDomain : Bool) (idx : ℕ) (mults : List ℕ) (forest : Blk K) (f : List K) : Blk K :=
  let total := forest.shape.prod
  let shape := if inDomain then
      forest.shape.getD 0 0 :: freeDim total (forest.shape.getD 0 0 :: mults) :: mults
    else freeDim total (mults ++ [forest.shape.getD 1 0]) :: mults ++ [forest.shape.getD 1 0]
  ((forest.reshape shape).scaleAxis f ((if inDomain then 1 else 0) + idx + 1)).reshape forest.shape

/-- src/backends/fusion_tree_backend.cpp:3591-3640: the loop over the forest blocks of one coupled sector, i.e. of
one block `M` of the tensor; the inner `Option` is the block of the result, which is only created once a forest
block has a factor.  Outer `none`: the exception of `block_ind_from_coupled`.  `domain_inds_seen` and
`ind_mapping` are not needed here, as `iter_forest_blocks` treats the coupled sectors one after the other and
different blocks have different numbers. -/
def scaleBlock [LinearOrder S] [Mul K] [Zero K] (inDomain : Bool) (idx : ℕ) (spaces : List (SpaceData S))
    (leg : BLeg S) (b : FDiag K) (M : Mat K) :
    List (List S × (ℕ × ℕ)) → Option (Mat K) → Option (Option (Mat K))
  | [], acc => some acc
  | fb :: fbs, acc =>
    match fb.1[idx]? with
    | none => none
    | some u =>
      match blockIndFromCoupled b leg u with
      | none => none
      | some none => scaleBlock inDomain idx spaces leg b M fbs acc
      | some (some n) =>
        let mults := List.zipWith (fun (x : SpaceData S) s => x.sectorMultiplicity s) spaces fb.1
        let forest := scaleForest inDomain idx mults (forestSlice inDomain M fb.2) ((b[n]?.map Prod.snd).getD [])
        scaleBlock inDomain idx spaces leg b M fbs
          (some (setForest inDomain (acc.getD (Mat.zeros M.rows M.cols)) fb.2 forest))

/-- src/backends/fusion_tree_backend.cpp:3581-3643: all blocks.  `sectors` is the sector decomposition of the
codomain of `a`, `spaces` are the flat legs of the side of `a` with the leg, `leg` the domain of `b`. -/
def scaleLoop [LinearOrder S] [Mul K] [Zero K] (R : FusionRule S) (inDomain : Bool) (idx : ℕ)
    (spaces : List (SpaceData S)) (sectors : List S) (leg : BLeg S) (b : FDiag K) : FEnts K → Option (FEnts K)
  | [] => some []
  | e :: es =>
    match sectors[e.1.1]? with
    | none => none
    | some c =>
      match scaleBlock inDomain idx spaces leg b e.2 (TProd.iterForestBlocks R spaces c) none with
      | none => none
      | some o =>
        (scaleLoop R inDomain idx spaces sectors leg b es).map fun r => (o.map fun M => (e.1, M)).toList ++ r

/-- src/backends/fusion_tree_backend.cpp:3546-3568: the side of the leg has only one factor. -/
def scaleSingle [Mul K] [Zero K] (inDomain : Bool) (a : FEnts K) (b : FDiag K) : FEnts K :=
  (iterCommon (fun e : (ℕ × ℕ) × Mat K => if inDomain then e.1.2 else e.1.1)
      (fun e : (ℕ × ℕ) × List K => e.1.1) a b).map fun p =>
    (if inDomain then (p.1.1.1, p.2.1.1) else (p.2.1.1, p.1.1.2),
      Mat.ofBlk (p.1.2.asBlk.scaleAxis p.2.2 (if inDomain then 1 else 0)))

/-- src/backends/fusion_tree_backend.cpp:3571-3573: the number of the leg among the flat legs; `rest` are the
numbers of flat legs of the factors from number `i` on; `none`: `flat_leg_idcs` raises (`to_valid_idx`).  The
bound of the loop is the variable that the loop increases. -/
def flatIdxLoop : List ℕ → ℕ → ℕ → Option ℕ
  | rest, i, idx =>
    if i < idx then
      match rest with
      | [] => none
      | n :: rest => flatIdxLoop rest (i + 1) (idx + n - 1)
    else some idx

/-- src/backends/fusion_tree_backend.cpp:3571-3573, from the start -/
def flatIdx (numFlat : List ℕ) (idx : ℕ) : Option ℕ := flatIdxLoop numFlat 0 idx

/-- src/backends/fusion_tree_backend.cpp:3520-3644 `scale_axis`.  `numFlat` are the numbers of flat legs of the
factors of the side of the leg; `hasPipes` (of the tensor). -/
def scaleAxis [LinearOrder S] [Mul K] [Zero K] (R : FusionRule S) (inDomain : Bool) (idx : ℕ) (hasPipes : Bool)
    (numFlat : List ℕ) (spaces : List (SpaceData S)) (sectors : List S) (leg : BLeg S) (a : FEnts K) (b : FDiag K) :
    Option (FEnts K) :=
  if numFlat.length = 1 then some (scaleSingle inDomain a b)
  else
    match (if hasPipes then flatIdx numFlat idx else some idx) with
    | none => none
    | some k => scaleLoop R inDomain k spaces sectors leg b a

/-! ## _mask_contract -/

/-- src/backends/fusion_tree_backend.cpp:2452-2472: reshape the forest block to the multiplicities of the legs,
apply the mask, reshape back.  The trees have no axis of their own. -/
def maskForest [Zero K] (inDomain largeLeg : Bool) (idx : ℕ) (mults : List ℕ) (forest : Blk K) (m : List Bool) :
    Blk K :=
  let total := forest.shape.prod
  let shape := if inDomain then freeDim total mults :: mults else mults ++ [freeDim total mults]
  let ax := (if inDomain then 1 else 0) + idx
  let x := if largeLeg then (forest.reshape shape).applyMask m ax else (forest.reshape shape).enlargeLeg m ax
  x.reshape (if inDomain then [forest.shape.getD 0 0, freeDim x.shape.prod [forest.shape.getD 0 0]]
    else [freeDim x.shape.prod [forest.shape.getD 1 0], forest.shape.getD 1 0])

/-- src/backends/fusion_tree_backend.cpp:2443-2484: the loop over the forest blocks of the coupled sector `c` for
one block `M` of the tensor; `maskDom` is the domain of the mask, `D` its data, `target` the flat legs of the
side of the leg after the contraction.  `none`: an exception. -/
def maskBlock [LinearOrder S] [Zero K] (R : FusionRule S) (inDomain largeLeg : Bool) (idx : ℕ)
    (spaces target : List (SpaceData S)) (maskDom : BLeg S) (D : List ((ℕ × ℕ) × List Bool)) (c : S) (M : Mat K) :
    List (List S × (ℕ × ℕ)) → Mat K → Option (Mat K)
  | [], acc => some acc
  | fb :: fbs, acc =>
    match fb.1[idx]? with
    | none => none
    | some u =>
      match blockIndFromCoupled D maskDom u with
      | none => none
      | some none => maskBlock R inDomain largeLeg idx spaces target maskDom D c M fbs acc
      | some (some n) =>
        let mults := List.zipWith (fun (x : SpaceData S) s => x.sectorMultiplicity s) spaces fb.1
        let forest := maskForest inDomain largeLeg idx mults (forestSlice inDomain M fb.2)
          ((D[n]?.map Prod.snd).getD [])
        match TProd.forestBlockSlice R target fb.1 c with
        | none => none
        | some sl => maskBlock R inDomain largeLeg idx spaces target maskDom D c M fbs
            (setForest inDomain acc sl forest)

/-- src/backends/fusion_tree_backend.cpp:2425-2440: the new number of the coupled sector on the side of the leg.
`n` is the size of the block along this side. -/
def newNumber [LinearOrder S] (old new : BLeg S) (c : S) (n i : ℕ) : ℕ :=
  if old.sectors.length = new.sectors.length then i
  else if 0 < n then (if c ∈ new.sectors then new.sectors.idxOf c else i) else i

/-- src/backends/fusion_tree_backend.cpp:2371-2492 `_mask_contract`: the blocks before `discard_zero_blocks`.
`cod`, `dom` are the codomain and the domain before, `cod'`, `dom'` those after the contraction. -/
def maskLoop [LinearOrder S] [Zero K] (R : FusionRule S) (inDomain largeLeg : Bool) (idx : ℕ)
    (spaces target : List (SpaceData S)) (cod dom cod' dom' : BLeg S) (maskDom : BLeg S)
    (D : List ((ℕ × ℕ) × List Bool)) : FEnts K → Option (FEnts K)
  | [] => some []
  | e :: es =>
    match dom.sectors[e.1.2]? with
    | none => none
    | some c =>
      let m := if c ∈ cod'.sectors then cod'.mults.getD (cod'.sectors.idxOf c) 0 else 0
      let n := if c ∈ dom'.sectors then dom'.mults.getD (dom'.sectors.idxOf c) 0 else 0
      let key := if inDomain then (e.1.1, newNumber dom dom' c n e.1.2) else (newNumber cod cod' c m e.1.1, e.1.2)
      match maskBlock R inDomain largeLeg idx spaces target maskDom D c e.2
          (TProd.iterForestBlocks R spaces c) (Mat.zeros m n) with
      | none => none
      | some M =>
        (maskLoop R inDomain largeLeg idx spaces target cod dom cod' dom' maskDom D es).map fun r => (key, M) :: r

/-- src/backends/fusion_tree_backend.cpp:2371-2492 `_mask_contract` (for tensors without pipes; the assertions of
2386-2389 are hypotheses of the theorems). -/
def maskContract [LinearOrder S] [Zero K] (R : FusionRule S) (big : Mat K → Bool) (inDomain largeLeg : Bool)
    (idx : ℕ) (spaces target : List (SpaceData S)) (cod dom cod' dom' : BLeg S) (maskDom : BLeg S)
    (D : List ((ℕ × ℕ) × List Bool)) (a : FEnts K) : Option (FEnts K) :=
  (maskLoop R inDomain largeLeg idx spaces target cod dom cod' dom' maskDom D a).map (discardZeroBlocks big)

end Cyten.FT
