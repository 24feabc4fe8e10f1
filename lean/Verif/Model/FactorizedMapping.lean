import Verif.Model.TreePairMapping

/-!
# Model of `FactorizedTreeMapping`, `src/backends/fusion_tree_mapping.cpp`

The permutation of legs within the codomain and within the domain.  The conversion of an amplitude to the dtype of a
block (`as_scalar(amplitude, get_dtype(block))`) is a function: the identity for complex blocks, the real part for
real ones (src/block_backend/numpy.cpp:338-348).  A symmetry with complex symbols only has tensors with complex dtype
(src/tensors/symmetric_tensor.cpp:82-88, 102-114), so the conversion changes nothing; the theorems take the identity.
-/

namespace Cyten.FT
open Cyten.Abelian Cyten.Spaces Cyten.Tools Cyten.Mappings Cyten.Permute

variable {S K : Type}

/-- `FusionTreeMappingVariant`, include/cyten/backends/fusion_tree_mapping.h:53 -/
inductive TMap (S K : Type)
  | ident (keys : List (FusionTree S))
  | sparse (m : SMap (FusionTree S) K)

/-- src/backends/fusion_tree_mapping.cpp:143-147 `tree_mapping_nonzero_rows` -/
def TMap.rows [DecidableEq S] : TMap S K → List (FusionTree S)
  | .ident keys => keys
  | .sparse m => (nonzeroRows m).dedup

/-- src/backends/fusion_tree_mapping.cpp:129-135 `pre_compose_tree_mapping` -/
def TMap.preCompose [DecidableEq S] [CommRing K] (other : SMap (FusionTree S) K) : TMap S K → TMap S K
  | .ident keys => .sparse (idPreCompose keys other)
  | .sparse m => .sparse (Mappings.preCompose m other)

/-- The mapping of all rows by a braid or a twist, and the composition,
src/backends/fusion_tree_mapping.cpp:578-589, 606-615 -/
def TMap.step [DecidableEq S] [CommRing K] (f : FusionTree S → Option (UMap (FusionTree S) K)) (t : TMap S K) :
    Option (TMap S K) :=
  (t.rows.mapM fun X => (f X).map fun l => (X, l)).map fun tm => t.preCompose tm

/-- `FactorizedTreeMapping`: `splitting_tree_mapping`, `fusion_tree_mapping` -/
structure FactMap (S K : Type) where
  split : TMap S K
  fuse : TMap S K

/-- src/backends/fusion_tree_mapping.cpp:561-620: the three `pre_compose_..._instruction`; a bend is an error. -/
def FactMap.pre [DecidableEq S] [CommRing K] [StarRing K] (R : FusionRule S) (D : Topo S K) (small : K → Bool)
    (m : FactMap S K) : Instr → Option (FactMap S K)
  | .bend _ => none
  | .braid true idx over => (m.split.step fun X => braid R D small X idx (!over) true).map fun s => { m with split := s }
  | .braid false idx over => (m.fuse.step fun Y => braid R D small Y idx over false).map fun s => { m with fuse := s }
  | .twist true idcs over => (m.split.step fun X => twist D X idcs over).map fun s => { m with split := s }
  | .twist false idcs over => (m.fuse.step fun Y => twist D Y idcs over).map fun s => { m with fuse := s }

/-- src/backends/fusion_tree_mapping.cpp:95-126 `collect_splitting_and_fusion_trees`, for one side; the keys are an
`unordered_set`. -/
def sideKeys [LinearOrder S] (R : FusionRule S) (sectors : List S) (s : Side S) (rows : List (ℕ × ℕ)) :
    Option (List (FusionTree S)) :=
  (rows.mapM fun r => sectors[r.1]?).map fun cs => (cs.flatMap fun c =>
    (TProd.iterTreeBlocks R s.areDual s.spaces c).map fun xb => xb.1).dedup

/-- src/backends/fusion_tree_mapping.cpp:531-559 `from_identity`, `from_instructions` -/
def FactMap.fromInstructions [LinearOrder S] [CommRing K] [StarRing K] (R : FusionRule S) (D : Topo S K)
    (small : K → Bool) (sectors : List S) (cod dom : Side S) (rows : List (ℕ × ℕ)) (ins : List Instr) :
    Option (FactMap S K) :=
  (sideKeys R sectors cod rows).bind fun ks => (sideKeys R sectors dom rows).bind fun kf =>
    ins.foldlM (FactMap.pre R D small) ⟨.ident ks, .ident kf⟩

/-! ## transform_tensor -/

/-- src/block_backend/block_backend.cpp:888-921 `permute_combined_idx` with `axis = 0` -/
def permuteIdx0 (M : Mat K) (dims idcs : List ℕ) : Mat K :=
  let b := (M.toBlk.reshape (dims ++ [M.cols])).permuteAxes (idcs ++ [idcs.length])
  ⟨M.rows, M.cols, fun i j => (b.reshape [M.rows, M.cols]).val [i, j]⟩

/-- src/block_backend/block_backend.cpp:888-921 `permute_combined_idx` with `axis = 1` -/
def permuteIdx1 (M : Mat K) (dims idcs : List ℕ) : Mat K :=
  let b := (M.toBlk.reshape ([M.rows] ++ dims)).permuteAxes ([0] ++ idcs.map (1 + ·))
  ⟨M.rows, M.cols, fun i j => (b.reshape [M.rows, M.cols]).val [i, j]⟩

/-- src/backends/fusion_tree_mapping.cpp:643-658, 692-709: the linear combination of the rows (columns) of the old
block, `part`: the slice of the block -/
def treePart [LinearOrder S] [CommRing K] (R : FusionRule S) (conv : K → K) (m : SMap (FusionTree S) K)
    (s : Side S) (part : ℕ × ℕ → Mat K) (t : FusionTree S) : Option (Option (Mat K)) :=
  m.foldlM (fun acc p => match p.2.find t with
    | none => some acc
    | some v => (TProd.treeBlockSlice R s.spaces p.1).map fun i => some (addBlock acc ((part i).smul (conv v)))) none

/-- src/backends/fusion_tree_mapping.cpp:663-668, 714-719: the multiplicities in the old order -/
def oldMults (mults axes : List ℕ) : List ℕ := (inversePermutation axes).map fun i => mults.getD i 0

/-- src/backends/fusion_tree_mapping.cpp:642-672: one tree of the new codomain -/
def splitStep [LinearOrder S] [CommRing K] (R : FusionRule S) (conv : K → K) (m : SMap (FusionTree S) K) (old : Mat K)
    (cod : Side S) (axes : List ℕ) (st : Mat K × Bool) (x : FusionTree S × (ℕ × ℕ) × List ℕ) : Option (Mat K × Bool) :=
  (treePart R conv m cod (fun i => old.slice i (0, old.cols)) x.1).map fun o => match o with
    | none => st
    | some b => (st.1.setSlice x.2.1 (0, st.1.cols) (permuteIdx0 b (oldMults x.2.2 axes) axes), false)

/-- src/backends/fusion_tree_mapping.cpp:627-674 `transform_splitting_trees` -/
def transformSplitting [LinearOrder S] [CommRing K] (R : FusionRule S) (conv : K → K) (tm : TMap S K) (old out : Mat K)
    (c : S) (cod cod' : Side S) (axes : List ℕ) : Option (Mat K × Bool) :=
  match tm with
  | .ident _ => some (old, false)
  | .sparse m => (TProd.iterTreeBlocks R cod'.areDual cod'.spaces c).foldlM (splitStep R conv m old cod axes) (out, true)

/-- src/backends/fusion_tree_mapping.cpp:691-723: one tree of the new domain -/
def fuseStep [LinearOrder S] [CommRing K] (R : FusionRule S) (conv : K → K) (m : SMap (FusionTree S) K) (old : Mat K)
    (dom : Side S) (axes : List ℕ) (st : Mat K × Bool) (y : FusionTree S × (ℕ × ℕ) × List ℕ) : Option (Mat K × Bool) :=
  (treePart R conv m dom (fun i => old.slice (0, old.rows) i) y.1).map fun o => match o with
    | none => st
    | some b => (st.1.setSlice (0, st.1.rows) y.2.1 (permuteIdx1 b (oldMults y.2.2 axes) axes), false)

/-- src/backends/fusion_tree_mapping.cpp:676-725 `transform_fusion_trees` -/
def transformFusion [LinearOrder S] [CommRing K] (R : FusionRule S) (conv : K → K) (tm : TMap S K) (old out : Mat K)
    (c : S) (dom dom' : Side S) (axes : List ℕ) : Option (Mat K × Bool) :=
  match tm with
  | .ident _ => some (old, false)
  | .sparse m => (TProd.iterTreeBlocks R dom'.areDual dom'.spaces c).foldlM (fuseStep R conv m old dom axes) (out, true)

/-- The conversion for the second step: its block has the dtype of the data only if the first step was trivial,
src/backends/fusion_tree_mapping.cpp:775-786. -/
def convFuse (convOld convNew : K → K) : TMap S K → K → K
  | .ident _ => convOld
  | .sparse _ => convNew

/-- src/backends/fusion_tree_mapping.cpp:764-786: the block of one coupled sector; `convOld`, `convNew`: conversion of
an amplitude to the dtype of the data and to the dtype of the result -/
def factBlock [LinearOrder S] [CommRing K] (R : FusionRule S) (convOld convNew : K → K) (m : FactMap S K)
    (old : Mat K) (cod dom cod' dom' : Side S) (axes1 axes2 : List ℕ) (c : S) (rows cols : ℕ) :
    Option (Option (Mat K)) :=
  (transformSplitting R convOld m.split old (Mat.zeros rows cols) c cod cod' axes1).bind fun r1 =>
    if r1.2 then some none
    else (transformFusion R (convFuse convOld convNew m.split) m.fuse r1.1 (Mat.zeros rows cols) c dom dom' axes2).map
      fun r2 => if r2.2 then none else some r2.1

/-- src/backends/fusion_tree_mapping.cpp:727-791 `FactorizedTreeMapping::transform_tensor` -/
def factTransform [LinearOrder S] [CommRing K] (R : FusionRule S) (convOld convNew : K → K) (m : FactMap S K)
    (data : FEnts K) (ld : BLeg S) (cod dom : Side S) (lc' ld' : BLeg S) (cod' dom' : Side S)
    (codIdcs domIdcs : List ℕ) : Option (FEnts K) :=
  let N := cod.spaces.length + dom.spaces.length
  (((Cyten.Tables.iterCommonSorted compare lc'.sectors ld'.sectors true true).getD []).mapM fun ij =>
    lc'.sectors[ij.1]?.bind fun c =>
      match blockIndFromCoupled data ld c with
      | none => none
      | some none => some none
      | some (some k) => data[k]?.bind fun e =>
        (factBlock R convOld convNew m e.2 cod dom cod' dom' codIdcs (domIdcs.map fun i => N - 1 - i) c
          (lc'.mults.getD ij.1 0) (ld'.mults.getD ij.2 0)).map fun o => o.map fun B => ((ij.1, ij.2), B)).map
    fun l => mkData l.reduceOption true

/-- src/backends/fusion_tree_backend.cpp:592-632, 1439-1530 `permute_legs` without `mixes_codomain_domain`, for legs
that are not pipes -/
def permuteLegsInner [LinearOrder S] [CommRing K] [StarRing K] (R : FusionRule S) (D : Topo S K) (small : K → Bool)
    (big : Mat K → Bool) (convOld convNew : K → K) (sym : Bool) (levels : List (Option ℤ))
    (bendRight : List (Option Bool)) (data : FEnts K) (lc ld : BLeg S) (cod dom : Side S) (lc' ld' : BLeg S)
    (cod' dom' : Side S) (codIdcs domIdcs : List ℕ) : Option (FEnts K) :=
  match instructions cod.spaces.length dom.spaces.length codIdcs domIdcs levels bendRight sym with
  | .error _ => none
  | .ok ins =>
    (FactMap.fromInstructions R D small lc.sectors cod dom (data.map Prod.fst) ins).bind fun m =>
      (factTransform R convOld convNew m data ld cod dom lc' ld' cod' dom' codIdcs domIdcs).map (discardZeroBlocks big)

end Cyten.FT
