import Verif.Model.FTDense
import Verif.Model.TreesBraid
import Verif.Model.Mappings
import Verif.Model.PermuteEngine

/-!
# Model of the permutation of legs in the fusion tree backend

`src/symmetries/trees.cpp` (`braid`, `bend_leg`, `twist` with scalars of any ring),
`src/backends/fusion_tree_mapping.cpp` (`TreePairMapping`), `src/backends/fusion_tree_backend.cpp`
(`apply_instructions`, `permute_legs`), for legs that are not pipes.  Arithmetic is exact.
An `Option` that is `none` models an exception or a failed assertion.
-/

namespace Cyten.FT
open Cyten.Abelian Cyten.Spaces Cyten.Tools Cyten.Mappings Cyten.Permute

variable {S K : Type}

/-- What the moves read of a symmetry, include/cyten/symmetries/base_symmetry.h: `r_symbol(a, b, c)[mu]`,
`c_symbol(a, b, c, d, e, f)[mu, nu, kappa, lambda]`, `b_symbol(a, b, c)[mu, nu]` and its second extent,
`sqrt_qdim`, `inv_sqrt_qdim`, `frobenius_schur`, `topological_twist`, `has_trivial_braid`, `dual_sector`. -/
structure Topo (S K : Type) where
  rSym : S → S → S → ℕ → K
  cSym : S → S → S → S → S → S → ℕ → ℕ → ℕ → ℕ → K
  bSym : S → S → S → ℕ → ℕ → K
  bExtent : S → S → S → ℕ
  sqrtQdim : S → K
  invSqrtQdim : S → K
  frobSchur : S → K
  twist : S → K
  trivialBraid : Bool
  dual : S → S

/-- `do_conj ? conj(x) : x` -/
def conjIf [Star K] (doConj : Bool) (x : K) : K := if doConj then star x else x

/-- src/symmetries/trees.cpp:892-976 `FusionTree::braid`; `small`: the absolute value is less than the cutoff. -/
def braid [DecidableEq S] [Star K] (R : FusionRule S) (D : Topo S K) (small : K → Bool) (t : FusionTree S) (j : ℕ)
    (overbraid doConj : Bool) : Option (UMap (FusionTree S) K) :=
  if j = 0 then
    match t.vertexLabels 0, t.areDual[0]?, t.areDual[1]? with
    | some (a, b, mu, c), some d0, some d1 =>
      some [({ t with
        uncoupled := (t.uncoupled.set 0 b).set 1 a
        areDual := (t.areDual.set 0 d1).set 1 d0 },
        conjIf doConj (if overbraid then D.rSym a b c mu else star (D.rSym b a c mu)))]
    | _, _, _ => none
  else
    match t.vertexLabels (j - 1), t.vertexLabels j, t.areDual[j]?, t.areDual[j+1]? with
    | some (a, b, mu, e), some (_, c, nu, d), some d0, some d1 =>
      some (((R.channels a c b d).map fun (f, kappa, lam) =>
        ({ t with
            uncoupled := (t.uncoupled.set j c).set (j + 1) b
            areDual := (t.areDual.set j d1).set (j + 1) d0
            inner := t.inner.set (j - 1) f
            mult := (t.mult.set (j - 1) kappa).set j lam },
          conjIf doConj (if overbraid then D.cSym a b c d e f mu nu kappa lam
            else star (D.cSym a c b d f e kappa lam mu nu)))).filter fun p => !small p.2)
    | _, _, _, _ => none

/-- src/symmetries/trees.cpp:833-889: the case `bend_downward` of `bend_leg(X, Y, bend_downward, do_conj)`: the
last leg of `Y` is appended to `X`. -/
def bendDown [Star K] [Mul K] (R : FusionRule S) (D : Topo S K) (X Y : FusionTree S) (doConj : Bool) :
    Option (UMap (FusionTree S × FusionTree S) K) :=
  match Y.uncoupled, Y.areDual.getLast? with
  | [], _ => none
  | _, none => none
  | [_], some isDual =>
    let b := D.sqrtQdim Y.coupled
    some [((X.extended (D.dual Y.coupled) 0 R.unit (!isDual), FusionTree.fromEmpty R),
      if isDual then b * D.frobSchur Y.coupled else b)]
  | _ :: _ :: _, some isDual =>
    match Y.splitBottomVertex R with
    | .error _ => none
    | .ok (Xi, _, mu, z) =>
      if X.uncoupled.isEmpty then
        let b := D.invSqrtQdim Xi.coupled
        some [((FusionTree.fromSector Xi.coupled (!isDual), Xi), if !isDual then b * D.frobSchur Xi.coupled else b)]
      else
        some ((List.range (D.bExtent Xi.coupled z Y.coupled)).map fun nu =>
          let b := D.bSym Xi.coupled z Y.coupled mu nu
          ((X.extended (D.dual z) nu Xi.coupled (!isDual), Xi),
            conjIf doConj (if isDual then b * D.frobSchur z else b)))

/-- src/symmetries/trees.cpp:801-890 `FusionTree::bend_leg(X, Y, bend_downward)`, with `do_conj = false` -/
def bendLeg [Star K] [Mul K] (R : FusionRule S) (D : Topo S K) (X Y : FusionTree S) (down : Bool) :
    Option (UMap (FusionTree S × FusionTree S) K) :=
  if down then bendDown R D X Y false
  else (bendDown R D Y X true).map fun l => l.map fun p => ((p.1.2, p.1.1), p.2)

/-- src/symmetries/trees.cpp:1454-1523 `FusionTree::twist`, for valid indices that are not negative (the engine
makes no others); the last case is not implemented. -/
def twist [Star K] [One K] (D : Topo S K) (t : FusionTree S) (idcs : List ℕ) (overtwist : Bool) :
    Option (UMap (FusionTree S) K) :=
  if D.trivialBraid then some [(t, 1)]
  else
    match idcs with
    | [] => some [(t, 1)]
    | [i] => t.uncoupled[i]?.map fun a => [(t, conjIf (!overtwist) (D.twist a))]
    | _ :: _ :: _ =>
      let sorted := idcs.insertionSort (· ≤ ·)
      if ¬ (sorted.Nodup ∧ ∀ i ∈ sorted, i < t.uncoupled.length) then none
      else if sorted.length = t.uncoupled.length then some [(t, conjIf (!overtwist) (D.twist t.coupled))]
      else if sorted = List.range sorted.length then
        t.inner[sorted.length - 2]?.map fun a => [(t, conjIf (!overtwist) (D.twist a))]
      else none

/-! ## TreePairMapping -/

/-- `SparseMappingFusionTreePair` -/
abbrev PMap (S K : Type) := SMap (FusionTree S × FusionTree S) K

/-- src/backends/fusion_tree_mapping.cpp:254-271 `pre_compose_bend_instruction` -/
def preBend [DecidableEq S] [CommRing K] [StarRing K] (R : FusionRule S) (D : Topo S K) (m : PMap S K) (down : Bool) :
    Option (PMap S K) :=
  ((nonzeroRows m).dedup.mapM fun key => (bendLeg R D key.1 key.2 down).map fun l => (key, l)).map (preCompose m)

/-- src/backends/fusion_tree_mapping.cpp:277-288: the column for `pre_compose_fusion_tree_mapping` -/
def fusionColumn [DecidableEq S] [CommRing K] (tm : SMap (FusionTree S) K)
    (col : UMap (FusionTree S × FusionTree S) K) : UMap (FusionTree S × FusionTree S) K :=
  col.foldl (fun res p => match tm.find p.1.2 with
    | none => res
    | some l => l.foldl (fun res (q : FusionTree S × K) => res.addTo (p.1.1, q.1) (q.2 * p.2)) res) []

/-- src/backends/fusion_tree_mapping.cpp:299-312: the column for `pre_compose_splitting_tree_mapping` -/
def splittingColumn [DecidableEq S] [CommRing K] (tm : SMap (FusionTree S) K)
    (col : UMap (FusionTree S × FusionTree S) K) : UMap (FusionTree S × FusionTree S) K :=
  col.foldl (fun res p => match tm.find p.1.1 with
    | none => res
    | some l => l.foldl (fun res (q : FusionTree S × K) => res.addTo (q.1, p.1.2) (q.2 * p.2)) res) []

/-- A mapping of single trees, applied to the codomain or the domain,
src/backends/fusion_tree_mapping.cpp:330-355, 366-390. -/
def preTree [DecidableEq S] [CommRing K] (codomain : Bool) (f : FusionTree S → Option (UMap (FusionTree S) K))
    (m : PMap S K) : Option (PMap S K) :=
  if codomain then
    (((nonzeroRows m).map Prod.fst).dedup.mapM fun X => (f X).map fun l => (X, l)).map fun tm =>
      m.map fun p => (p.1, splittingColumn tm p.2)
  else
    (((nonzeroRows m).map Prod.snd).dedup.mapM fun Y => (f Y).map fun l => (Y, l)).map fun tm =>
      m.map fun p => (p.1, fusionColumn tm p.2)

/-- src/backends/fusion_tree_mapping.cpp:195-219 `pre_compose_instruction`, 254-391, without `prune_tol` -/
def preInstruction [DecidableEq S] [CommRing K] [StarRing K] (R : FusionRule S) (D : Topo S K) (small : K → Bool)
    (m : PMap S K) : Instr → Option (PMap S K)
  | .bend down => preBend R D m down
  | .braid true idx over => preTree true (fun X => braid R D small X idx (!over) true) m
  | .braid false idx over => preTree false (fun Y => braid R D small Y idx over false) m
  | .twist codomain idcs over => preTree codomain (fun t => twist D t idcs over) m

/-- src/backends/fusion_tree_mapping.cpp:66-93 `collect_tree_pair_keys` for given `block_inds` -/
def pairKeys [LinearOrder S] (R : FusionRule S) (sectors : List S) (cod dom : Side S) (rows : List (ℕ × ℕ)) :
    Option (List (FusionTree S × FusionTree S)) :=
  (rows.mapM fun r => sectors[r.1]?).map fun cs => cs.flatMap fun c =>
    (TProd.iterTreeBlocks R cod.areDual cod.spaces c).flatMap fun xb =>
      (TProd.iterTreeBlocks R dom.areDual dom.spaces c).map fun yb => (xb.1, yb.1)

/-- src/backends/fusion_tree_mapping.cpp:239-252 `from_instructions` -/
def fromInstructions [LinearOrder S] [CommRing K] [StarRing K] (R : FusionRule S) (D : Topo S K) (small : K → Bool)
    (sectors : List S) (cod dom : Side S) (rows : List (ℕ × ℕ)) (ins : List Instr) : Option (PMap S K) :=
  (pairKeys R sectors cod dom rows).bind fun keys => ins.foldlM (preInstruction R D small) (fromIdentity keys)

/-! ## transform_tensor -/

/-- A matrix as a block of dimension two -/
def Mat.toBlk (M : Mat K) : Blk K := ⟨[M.rows, M.cols], fun i => M.val (i.getD 0 0) (i.getD 1 0)⟩

/-- src/block_backend/block_backend.cpp:856-886 `permute_combined_matrix` -/
def permuteCombined (M : Mat K) (dims1 idcs1 dims2 idcs2 : List ℕ) : Mat K :=
  let b := (M.toBlk.reshape (dims1 ++ dims2)).permuteAxes (idcs1 ++ idcs2)
  let m := (b.shape.take idcs1.length).prod
  let n := (b.shape.drop idcs1.length).prod
  ⟨m, n, fun i j => (b.reshape [m, n]).val [i, j]⟩

/-- `old_block[i1, i2]` for two slices -/
def Mat.slice (M : Mat K) (s1 s2 : ℕ × ℕ) : Mat K :=
  ⟨s1.2 - s1.1, s2.2 - s2.1, fun m n => M.val (s1.1 + m) (s2.1 + n)⟩

/-- `tree_block = add_block` if there is none, `tree_block + add_block` otherwise -/
def addBlock [Add K] (acc : Option (Mat K)) (b : Mat K) : Mat K :=
  match acc with
  | none => b
  | some a => ⟨a.rows, a.cols, fun m n => a.val m n + b.val m n⟩

/-- src/backends/fusion_tree_mapping.cpp:455-476: one round of the loop over the entries of the mapping -/
def pairStep [LinearOrder S] [CommRing K] (R : FusionRule S) (data : FEnts K) (ld : BLeg S) (cod dom : Side S)
    (J : FusionTree S × FusionTree S) (acc : Option (Mat K))
    (p : (FusionTree S × FusionTree S) × UMap (FusionTree S × FusionTree S) K) : Option (Option (Mat K)) :=
  match p.2.find J with
  | none => some acc
  | some v =>
    match blockIndFromCoupled data ld p.1.1.coupled with
    | none => none
    | some none => some acc
    | some (some k) =>
      match data[k]?, TProd.treeBlockSlice R cod.spaces p.1.1, TProd.treeBlockSlice R dom.spaces p.1.2 with
      | some e, some s1, some s2 => some (some (addBlock acc ((e.2.slice s1 s2).smul v)))
      | _, _, _ => none

/-- src/backends/fusion_tree_mapping.cpp:453-479: the tree block before the permutation; `some none` if there is no
contribution -/
def pairBlock [LinearOrder S] [CommRing K] (R : FusionRule S) (m : PMap S K) (data : FEnts K) (ld : BLeg S)
    (cod dom : Side S) (J : FusionTree S × FusionTree S) : Option (Option (Mat K)) :=
  m.foldlM (pairStep R data ld cod dom J) none

/-- src/backends/fusion_tree_mapping.cpp:419-428: `i < J ? i : (N - 1) + (J - i)` -/
def blockAxis (J N : ℕ) (i : ℕ) : ℕ := if i < J then i else (N - 1) + J - i

/-- src/backends/fusion_tree_mapping.cpp:482-502: multiplicities in the old order, and the permutation of the axes of
the tree block; `J`, `N`: numbers of legs of the old codomain and in total -/
def permuteTreeBlock (J N : ℕ) (codIdcs domIdcs : List ℕ) (xm ym : List ℕ) (b : Mat K) : Mat K :=
  let legMults := xm ++ ym.reverse
  let oldMults := (inversePermutation (codIdcs ++ domIdcs.reverse)).map fun i => legMults.getD i 0
  permuteCombined b (oldMults.take J) (codIdcs.map (blockAxis J N)) (oldMults.drop J).reverse
    (domIdcs.map (blockAxis J N))

/-- `block[s1, s2] = b` -/
def Mat.setSlice (M : Mat K) (s1 s2 : ℕ × ℕ) (b : Mat K) : Mat K :=
  ⟨M.rows, M.cols, fun m n =>
    if s1.1 ≤ m ∧ m < s1.2 ∧ s2.1 ≤ n ∧ n < s2.2 then b.val (m - s1.1) (n - s2.1) else M.val m n⟩

/-- src/backends/fusion_tree_mapping.cpp:451-508: one pair of tree blocks of the new tensor; the state is the block
and the flag `is_zero_block` -/
def setPair [LinearOrder S] [CommRing K] (R : FusionRule S) (m : PMap S K) (data : FEnts K) (ld : BLeg S)
    (cod dom : Side S) (codIdcs domIdcs : List ℕ) (st : Mat K × Bool)
    (v : (FusionTree S × (ℕ × ℕ) × List ℕ) × (FusionTree S × (ℕ × ℕ) × List ℕ)) : Option (Mat K × Bool) :=
  (pairBlock R m data ld cod dom (v.1.1, v.2.1)).map fun o =>
    match o with
    | none => st
    | some b => (st.1.setSlice v.1.2.1 v.2.2.1 (permuteTreeBlock cod.spaces.length
        (cod.spaces.length + dom.spaces.length) codIdcs domIdcs v.1.2.2 v.2.2.2 b), false)

/-- src/backends/fusion_tree_mapping.cpp:443-514: the block of one coupled sector of the new tensor -/
def newBlock [LinearOrder S] [CommRing K] (R : FusionRule S) (m : PMap S K) (data : FEnts K) (ld : BLeg S)
    (cod dom cod' dom' : Side S) (codIdcs domIdcs : List ℕ) (c : S) (rows cols : ℕ) : Option (Mat K × Bool) :=
  ((TProd.iterTreeBlocks R cod'.areDual cod'.spaces c).flatMap fun xb =>
    (TProd.iterTreeBlocks R dom'.areDual dom'.spaces c).map fun yb => (xb, yb)).foldlM
    (setPair R m data ld cod dom codIdcs domIdcs) (Mat.zeros rows cols, true)

/-- src/backends/fusion_tree_mapping.cpp:398-523 `TreePairMapping::transform_tensor` -/
def transformTensor [LinearOrder S] [CommRing K] (R : FusionRule S) (m : PMap S K) (data : FEnts K) (ld : BLeg S)
    (cod dom : Side S) (lc' ld' : BLeg S) (cod' dom' : Side S) (codIdcs domIdcs : List ℕ) : Option (FEnts K) :=
  (((Cyten.Tables.iterCommonSorted compare lc'.sectors ld'.sectors true true).getD []).mapM fun ij =>
    lc'.sectors[ij.1]?.bind fun c =>
      (newBlock R m data ld cod dom cod' dom' codIdcs domIdcs c (lc'.mults.getD ij.1 0) (ld'.mults.getD ij.2 0)).map
        fun r => if r.2 then none else some ((ij.1, ij.2), r.1)).map fun l => mkData l.reduceOption true

/-- src/backends/fusion_tree_backend.cpp:592-632 `apply_instructions` with `mixes_codomain_domain`; `big`: the norm of
a block is at least `fusion_tree_eps` -/
def applyMixed [LinearOrder S] [CommRing K] [StarRing K] (R : FusionRule S) (D : Topo S K) (small : K → Bool)
    (big : Mat K → Bool) (ins : List Instr) (data : FEnts K) (lc ld : BLeg S) (cod dom : Side S) (lc' ld' : BLeg S)
    (cod' dom' : Side S) (codIdcs domIdcs : List ℕ) : Option (FEnts K) :=
  (fromInstructions R D small lc.sectors cod dom (data.map Prod.fst) ins).bind fun m =>
    (transformTensor R m data ld cod dom lc' ld' cod' dom' codIdcs domIdcs).map (discardZeroBlocks big)

/-- src/backends/fusion_tree_backend.cpp:1439-1530 `permute_legs` with `mixes_codomain_domain`, for legs that are not
pipes; `sym`: `has_symmetric_braid` -/
def permuteLegsMixed [LinearOrder S] [CommRing K] [StarRing K] (R : FusionRule S) (D : Topo S K) (small : K → Bool)
    (big : Mat K → Bool) (sym : Bool) (levels : List (Option ℤ)) (bendRight : List (Option Bool)) (data : FEnts K)
    (lc ld : BLeg S) (cod dom : Side S) (lc' ld' : BLeg S) (cod' dom' : Side S) (codIdcs domIdcs : List ℕ) :
    Option (FEnts K) :=
  match instructions cod.spaces.length dom.spaces.length codIdcs domIdcs levels bendRight sym with
  | .error _ => none
  | .ok ins => applyMixed R D small big ins data lc ld cod dom lc' ld' cod' dom' codIdcs domIdcs

end Cyten.FT
