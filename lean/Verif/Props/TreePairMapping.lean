import Verif.Lemmas.TreePermute6
import Verif.Props.FTDense

/-! # Properties of the permutation of legs in the fusion tree backend -/

namespace Cyten.FT
open Cyten.FT.Spec Cyten.Tools Cyten.ListSum Cyten.Props Cyten.Spaces Cyten.Spaces.Spec Cyten.Abelian
  Cyten.FusionTrees Cyten.Mappings Cyten.Permute Cyten.Permute.Spec

variable {S K : Type} [LinearOrder S] [CommRing K] [StarRing K]

/-- The mapping from valid instructions -/
theorem fromInstructions_info {R : FusionRule S} {T : FTensors S K} {D : Topo S K} (hL : GroupLaws R T D)
    {small : K → Bool} (hS : CutoffExact D small) (hR : R.Lawful) {cod dom : Side S} {lc ld : BLeg S}
    (hc : SideOK R cod lc) (hd : SideOK R dom ld) (data : FEnts K) (hD : FSane lc ld data) (ins : List Instr)
    {s : List ℕ × List ℕ} {tr : List (ℕ × ℕ × Bool)}
    (ha : execute ins (initialLegs cod.spaces.length dom.spaces.length) = some (s, tr)) :
    ∃ m Q, fromInstructions R D small lc.sectors cod dom (data.map Prod.fst) ins = some m ∧
      MapInfo R T (legOf T cod dom) (flagOf cod dom) (List.range cod.spaces.length)
        (List.range' cod.spaces.length dom.spaces.length).reverse s.1 s.2 cod dom Q m ∧
      m.map Prod.fst = allPairs R T.dim cod dom (data.filterMap fun e => lc.sectors[e.1.1]?) := by
  have hl := labelled_old T hL.dual_dual cod dom hc.dual hd.dual
  set c := List.range cod.spaces.length with hcc
  set d := (List.range' cod.spaces.length dom.spaces.length).reverse with hdd
  have hn : (c ++ d).Nodup := by
    rw [List.nodup_append]
    refine ⟨List.nodup_range, List.nodup_reverse.2 List.nodup_range', ?_⟩
    intro x hx y hy hxy
    rw [hcc, List.mem_range] at hx
    rw [hdd, List.mem_reverse, List.mem_range'_1] at hy
    omega
  set keys := allPairs R T.dim cod dom (data.filterMap fun e => lc.sectors[e.1.1]?) with hkeys
  have hq : ∀ J, ∃ q, J ∈ keys → PairInfo R T (legOf T cod dom) (flagOf cod dom) c d cod dom J q := by
    intro J
    by_cases hJ : J ∈ keys
    · obtain ⟨q, hq⟩ := allPairs_info hc hd hR hL.dim_dual hl hn hJ
      exact ⟨q, fun _ => hq⟩
    · exact ⟨fun _ => ⟨R.unit, 0, 0⟩, fun h => absurd h hJ⟩
  choose Q hQ using hq
  have hk : keys.Nodup := allPairs_nodup hc hd hR T.dim (dataSectors_nodup hc.coupled hd.coupled hD)
  have hid := identity_ok (R := R) (T := T) (sec := fun J x => (Q J x).sec) (flag := flagOf cod dom) c d keys hk
    fun J hJ => (hQ J hJ).good
  obtain ⟨m, m1, m2, m3⟩ := instructions_ok hL hS ins hid ha
  have mk : m.map Prod.fst = keys := by
    rw [m2, fromIdentity_eq keys hk, List.map_map]
    simp [Function.comp_def]
  refine ⟨m, Q, ?_, ⟨fun p hp => hQ p.1 ?_, m3⟩, mk⟩
  · unfold fromInstructions
    rw [pairKeys_eq hc hd T.dim hD]
    exact m1
  · rw [← mk]; exact List.mem_map_of_mem hp

omit [CommRing K] [StarRing K] [LinearOrder S] in
theorem spaceDim_zip (dim : S → ℕ) (x : SpaceData S) :
    spaceDim dim x = ((x.sectors.zip x.mults).map fun p => dim p.1 * p.2).sum := by
  unfold spaceDim
  generalize x.sectors = a
  generalize x.mults = b
  induction a generalizing b with
  | nil => simp
  | cons s a ih => cases b with
    | nil => simp
    | cons m b => simp [ih]

omit [CommRing K] [StarRing K] [LinearOrder S] in
theorem shape_labelled {T : FTensors S K} (hdim : ∀ a, T.dim (T.dual a) = T.dim a) {LS : ℕ → List (S × ℕ)}
    {LF : ℕ → Bool} {c d : List ℕ} {cod dom : Side S} (h : Labelled T LS LF c d cod dom) :
    legDims T.dim cod = (c.map fun x => ((LS x).map fun p => T.dim p.1 * p.2).sum) ∧
    legDims T.dim dom = d.map fun x => ((LS x).map fun p => T.dim p.1 * p.2).sum := by
  constructor
  · have := congrArg (List.map fun l : List (S × ℕ) => (l.map fun p => T.dim p.1 * p.2).sum) h.codSpaces
    rw [List.map_map, List.map_map] at this
    refine Eq.trans ?_ this
    exact List.map_congr_left fun x _ => spaceDim_zip T.dim x
  · have := congrArg (List.map fun l : List (S × ℕ) => (l.map fun p => T.dim p.1 * p.2).sum) h.domSpaces
    rw [List.map_map, List.map_map] at this
    refine Eq.trans ?_ (this.trans ?_)
    · exact List.map_congr_left fun x _ => spaceDim_zip T.dim x
    · refine List.map_congr_left fun x _ => ?_
      simp [Function.comp_def, hdim]

/-- The dense array of a tensor with the same entries for permuted legs -/
theorem permuted_dense {R : FusionRule S} {T : FTensors S K} (hdd : ∀ a, T.dual (T.dual a) = a)
    (hdim : ∀ a, T.dim (T.dual a) = T.dim a) {big : Mat K → Bool} (hb : ExactBig big)
    {cod dom cod' dom' : Side S} {lc ld lc' ld' : BLeg S} (hc : SideOK R cod lc) (hd : SideOK R dom ld)
    (hc' : SideOK R cod' lc') (hd' : SideOK R dom' ld') (data : FEnts K) (codIdcs domIdcs : List ℕ)
    (hperm : (codIdcs ++ domIdcs).Perm (List.range (cod.spaces.length + dom.spaces.length)))
    (hl : Labelled T (legOf T cod dom) (flagOf cod dom) codIdcs domIdcs cod' dom') {D1 : FEnts K}
    (t2 : FSane lc' ld' D1) (t3 : ∀ idx : ℕ → ℕ, (∀ x < cod.spaces.length + dom.spaces.length,
        idx x < ((legOf T cod dom x).map fun p => T.dim p.1 * p.2).sum) →
      toDenseCore R T lc'.sectors cod' dom' D1 (codIdcs.map idx) (domIdcs.map idx) =
        toDenseCore R T lc.sectors cod dom data ((List.range cod.spaces.length).map idx)
          ((List.range' cod.spaces.length dom.spaces.length).reverse.map idx)) :
    FSane lc' ld' (discardZeroBlocks big D1) ∧
      (toDenseBlock R T lc'.sectors cod' dom' (discardZeroBlocks big D1)).shape =
        ((codIdcs ++ domIdcs.reverse).map fun x => (toDenseBlock R T lc.sectors cod dom data).shape.getD x 0) ∧
      ∀ idx, InShape idx (toDenseBlock R T lc.sectors cod dom data).shape →
        (toDenseBlock R T lc'.sectors cod' dom' (discardZeroBlocks big D1)).val
            ((codIdcs ++ domIdcs.reverse).map fun x => idx.getD x 0) =
          (toDenseBlock R T lc.sectors cod dom data).val idx := by
  have hl0 := labelled_old T hdd cod dom hc.dual hd.dual
  obtain ⟨d1, d2⟩ := C61_discard_zero_blocks hc'.coupled hd'.coupled big D1 t2 fun e _ hbig r hr t ht =>
    hb e.2 hbig r t hr ht
  obtain ⟨s1, s2⟩ := shape_labelled hdim hl0
  obtain ⟨s1', s2'⟩ := shape_labelled hdim hl
  set N : ℕ → ℕ := fun x => ((legOf T cod dom x).map fun p => T.dim p.1 * p.2).sum with hN
  have hsh : (toDenseBlock R T lc.sectors cod dom data).shape =
      (List.range (cod.spaces.length + dom.spaces.length)).map N := by
    show legDims T.dim cod ++ (legDims T.dim dom).reverse = _
    rw [s1, s2, List.map_reverse, List.reverse_reverse, ← List.map_append, List.range_eq_range', List.range_eq_range',
      ← List.range'_append_1, Nat.zero_add]
  refine ⟨d1, ?_, ?_⟩
  · rw [hsh]
    show legDims T.dim cod' ++ (legDims T.dim dom').reverse = _
    rw [s1', s2', ← List.map_reverse, ← List.map_append]
    refine List.map_congr_left fun x hx => ?_
    have hx' : x < cod.spaces.length + dom.spaces.length := by
      have : x ∈ codIdcs ++ domIdcs := by
        simp only [List.mem_append, List.mem_reverse] at hx ⊢; exact hx
      simpa using hperm.mem_iff.1 this
    rw [List.getD_eq_getElem?_getD, List.getElem?_map, List.getElem?_range hx']; rfl
  · intro idx hidx
    rw [hsh] at hidx
    have hlen : idx.length = cod.spaces.length + dom.spaces.length := by
      have := hidx.length_eq
      simpa using this
    have hlt : ∀ x < cod.spaces.length + dom.spaces.length, idx.getD x 0 < N x := by
      intro x hx
      have h1 := (List.forall₂_iff_get.1 hidx).2 x (by omega) (by simpa using hx)
      rw [List.getD_eq_getElem?_getD, List.getElem?_eq_getElem (by omega)]
      simpa using h1
    have key := t3 (fun x => idx.getD x 0) hlt
    have hcl : codIdcs.length = cod'.spaces.length := by
      have := congrArg List.length hl.codSpaces
      simpa using this.symm
    have hdl : domIdcs.length = dom'.spaces.length := by
      have := congrArg List.length hl.domSpaces
      simpa using this.symm
    have e1 : (toDenseBlock R T lc'.sectors cod' dom' (discardZeroBlocks big D1)).val
        ((codIdcs ++ domIdcs.reverse).map fun x => idx.getD x 0) =
        toDenseCore R T lc'.sectors cod' dom' (discardZeroBlocks big D1) (codIdcs.map fun x => idx.getD x 0)
          (domIdcs.map fun x => idx.getD x 0) := by
      show toDenseCore R T lc'.sectors cod' dom' _ (List.take _ _) (List.drop _ _).reverse = _
      rw [List.map_append, ← hcl, List.take_left' (by simp), List.drop_left' (by simp), List.map_reverse,
        List.reverse_reverse]
    have e2 : (toDenseBlock R T lc.sectors cod dom data).val idx =
        toDenseCore R T lc.sectors cod dom data ((List.range cod.spaces.length).map fun x => idx.getD x 0)
          ((List.range' cod.spaces.length dom.spaces.length).reverse.map fun x => idx.getD x 0) := by
      show toDenseCore R T lc.sectors cod dom _ (List.take _ _) (List.drop _ _).reverse = _
      have h0 : idx = (List.range (cod.spaces.length + dom.spaces.length)).map fun x => idx.getD x 0 := by
        rw [← hlen, map_getD_self]
      congr 1
      · conv_lhs => rw [h0]
        rw [List.range_eq_range', ← List.range'_append_1, List.map_append, List.take_left' (by simp), List.range_eq_range']
      · conv_lhs => rw [h0]
        rw [List.range_eq_range', ← List.range'_append_1, List.map_append, List.drop_left' (by simp), List.map_reverse,
          Nat.zero_add]
    rw [e1, e2, ← key, core_eq hc' hd' _ d1 _ _ (by simpa using hcl) (by simpa using hdl),
      core_eq hc' hd' _ t2 _ _ (by simpa using hcl) (by simpa using hdl)]
    simp only [d2]

/-- **C72** `permute_legs` of the fusion tree backend, for a symmetry with a group (bosonic braiding): whatever the
levels and the directions of the bends, the dense array of the result is the transposed dense array. -/
theorem C72_permute_legs {R : FusionRule S} {T : FTensors S K} {D : Topo S K} (hL : GroupLaws R T D)
    {small : K → Bool} (hS : CutoffExact D small) {big : Mat K → Bool} (hb : ExactBig big) (hR : R.Lawful)
    {cod dom cod' dom' : Side S} {lc ld lc' ld' : BLeg S} (hc : SideOK R cod lc) (hd : SideOK R dom ld)
    (hc' : SideOK R cod' lc') (hd' : SideOK R dom' ld') (data : FEnts K) (hD : FSane lc ld data)
    (levels : List (Option ℤ)) (bendRight : List (Option Bool)) (codIdcs domIdcs : List ℕ)
    (hV : Valid cod.spaces.length dom.spaces.length codIdcs domIdcs bendRight)
    (hl : Labelled T (legOf T cod dom) (flagOf cod dom) codIdcs domIdcs cod' dom') :
    ∃ data', permuteLegsMixed R D small big true levels bendRight data lc ld cod dom lc' ld' cod' dom' codIdcs domIdcs =
        some data' ∧ FSane lc' ld' data' ∧
      (toDenseBlock R T lc'.sectors cod' dom' data').shape =
        ((codIdcs ++ domIdcs.reverse).map fun x => (toDenseBlock R T lc.sectors cod dom data).shape.getD x 0) ∧
      ∀ idx, InShape idx (toDenseBlock R T lc.sectors cod dom data).shape →
        (toDenseBlock R T lc'.sectors cod' dom' data').val ((codIdcs ++ domIdcs.reverse).map fun x => idx.getD x 0) =
          (toDenseBlock R T lc.sectors cod dom data).val idx := by
  obtain ⟨ins, tr, hi, hx⟩ := C71_symmetric_braid (levels := levels) hV
  obtain ⟨m, Q, m1, m2, m3⟩ := fromInstructions_info hL hS hR hc hd data hD ins hx
  have hl0 := labelled_old T hL.dual_dual cod dom hc.dual hd.dual
  obtain ⟨D1, t1, t2, t3⟩ := transform_dense hL.dual_dual hL.dim_dual hR hc hd hc' hd' _ _ rfl rfl hl0 hl hV.perm hD m2
    m3
  obtain ⟨p1, p2, p3⟩ := permuted_dense hL.dual_dual hL.dim_dual hb hc hd hc' hd' data codIdcs domIdcs hV.perm hl t2 t3
  refine ⟨discardZeroBlocks big D1, ?_, p1, p2, p3⟩
  unfold permuteLegsMixed
  rw [hi]
  simp only [applyMixed]
  rw [m1, Option.bind_some, t1]; rfl

/-- **C72** `FusionTree::braid` for a symmetry with a group: the result is a linear combination of valid trees with
the legs `j` and `j + 1` exchanged, and as tensors their sum is the given tree with two indices exchanged. -/
theorem C72_braid {R : FusionRule S} {T : FTensors S K} {D : Topo S K} (hL : GroupLaws R T D)
    {small : K → Bool} (hS : CutoffExact D small) (overbraid doConj : Bool) (t : FusionTree S) (h : t.Sane R) (j : ℕ)
    (hj : j + 1 < t.uncoupled.length) :
    ∃ l, braid R D small t j overbraid doConj = some l ∧
      (∀ p ∈ l, p.1.Sane R ∧ p.1.coupled = t.coupled ∧ p.1.uncoupled = swapNext t.uncoupled j ∧
        p.1.areDual = swapNext t.areDual j) ∧
      ∀ is, List.Forall₂ (fun a i => i < T.dim a) t.uncoupled is → ∀ k < T.dim t.coupled,
        (l.map fun p => (if doConj then star p.2 else p.2) * treeTensor T p.1 (swapNext is j) k).sum =
          treeTensor T t is k := by
  obtain ⟨l, h1, h2⟩ := braid_spec (T := T) hL hS overbraid doConj _ t h rfl j hj
  exact ⟨l, h1, h2.tree, h2.sum⟩

/-- **C72** `FusionTree::bend_leg` for a symmetry with a group, downwards: the last leg of the domain becomes the last
leg of the codomain, and the dense entries are the same. -/
theorem C72_bend_down {R : FusionRule S} {T : FTensors S K} {D : Topo S K} (hL : GroupLaws R T D) (X Y : FusionTree S)
    (hX : X.Sane R) (hY : Y.Sane R) (hc : X.coupled = Y.coupled) (u : List S) (ds : List Bool) (z : S) (d : Bool)
    (hu : Y.uncoupled = u ++ [z]) (hd : Y.areDual = ds ++ [d]) :
    ∃ l, bendLeg R D X Y true = some l ∧
      (∀ p ∈ l, p.1.1.Sane R ∧ p.1.2.Sane R ∧ p.1.1.coupled = p.1.2.coupled ∧
        p.1.1.uncoupled = X.uncoupled ++ [T.dual z] ∧ p.1.1.areDual = X.areDual ++ [!d] ∧ p.1.2.uncoupled = u ∧
        p.1.2.areDual = ds) ∧
      ∀ is js j, List.Forall₂ (fun a i => i < T.dim a) X.uncoupled is → List.Forall₂ (fun a i => i < T.dim a) u js →
        j < T.dim z →
        (l.map fun p => p.2 * pairTensor T p.1 (is ++ [j]) js).sum = pairTensor T (X, Y) is (js ++ [j]) := by
  obtain ⟨l, h1, h2⟩ := bendDown_spec hL X Y hX hY hc u ds z d hu hd false
  exact ⟨l, by simp [bendLeg, h1], h2.tree, h2.sum⟩

/-- **C72** `FusionTree::bend_leg` upwards: the last leg of the codomain becomes the last leg of the domain. -/
theorem C72_bend_up {R : FusionRule S} {T : FTensors S K} {D : Topo S K} (hL : GroupLaws R T D) (X Y : FusionTree S)
    (hX : X.Sane R) (hY : Y.Sane R) (hc : X.coupled = Y.coupled) (u : List S) (ds : List Bool) (z : S) (d : Bool)
    (hu : X.uncoupled = u ++ [z]) (hd : X.areDual = ds ++ [d]) :
    ∃ l, bendLeg R D X Y false = some l ∧
      (∀ p ∈ l, p.1.1.Sane R ∧ p.1.2.Sane R ∧ p.1.1.coupled = p.1.2.coupled ∧ p.1.1.uncoupled = u ∧
        p.1.1.areDual = ds ∧ p.1.2.uncoupled = Y.uncoupled ++ [T.dual z] ∧ p.1.2.areDual = Y.areDual ++ [!d]) ∧
      ∀ is js j, List.Forall₂ (fun a i => i < T.dim a) u is → List.Forall₂ (fun a i => i < T.dim a) Y.uncoupled js →
        j < T.dim z →
        (l.map fun p => p.2 * pairTensor T p.1 is (js ++ [j])).sum = pairTensor T (X, Y) (is ++ [j]) js := by
  obtain ⟨l, h1, h2⟩ := bendDown_spec hL Y X hY hX hc.symm u ds z d hu hd true
  refine ⟨l.map fun p => ((p.1.2, p.1.1), p.2), by simp [bendLeg, h1], fun p hp => ?_, fun is js j hi hj hz => ?_⟩
  · obtain ⟨q, hq, rfl⟩ := List.mem_map.1 hp
    obtain ⟨g1, g2, g3, g4, g5, g6, g7⟩ := h2.tree q hq
    exact ⟨g2, g1, g3.symm, g6, g7, g4, g5⟩
  · have e' := congrArg star (h2.sum js is j hj hi hz)
    rw [star_lsum, star_pairTensor T Y X hc.symm] at e'
    rw [List.map_map]
    refine Eq.trans ?_ e'
    refine sum_congr _ fun p hp => ?_
    obtain ⟨g1, g2, g3, -⟩ := h2.tree p hp
    obtain ⟨⟨p1, p2⟩, p3⟩ := p
    simp only [Function.comp_def, conjIf, if_true]
    rw [star_mul', star_star, star_pairTensor T p1 p2 g3]

/-! ## Concrete case: the representations of the dihedral group with eight elements -/

namespace D4

local instance : Fact (Nat.Prime 7) := ⟨by decide⟩
local instance : StarRing (ZMod 7) := starRingOfComm

/-- Two vertices: `(a b -> e) c -> d` -/
def twoV (a b e c d : Fin 5) (i j k l : ℕ) : ZMod 7 :=
  ((List.range (tensors.dim e)).map fun h => tensors.X a b e false false 0 i j h * tensors.X e c d false false 0 h k l).sum

/-- The symbols, computed from the fusion tensors -/
def topo : Topo (Fin 5) (ZMod 7) where
  rSym a b c _ := if a = 4 ∧ b = 4 ∧ c = 3 then -1 else 1
  cSym a b c d e f _ _ _ _ :=
    ((List.range (tensors.dim a)).map fun i => ((List.range (tensors.dim b)).map fun j =>
      ((List.range (tensors.dim c)).map fun k => twoV a b e c d i j k 0 * twoV a c f b d i k j 0).sum).sum).sum
  bSym a b c _ _ := (if (a = 3 ∧ b = 4) ∨ (a = 4 ∧ b = 3) ∨ (b = 4 ∧ c = 3) then -1 else 1) *
    (if b = 4 then (if a = 4 then 5 else 3) else 1)
  bExtent a b c := rule.nSymbol a b c
  sqrtQdim a := if a = 4 then 3 else 1
  invSqrtQdim a := if a = 4 then 5 else 1
  frobSchur _ := 1
  twist _ := 1
  trivialBraid := true
  dual := id

theorem topo_laws : GroupLaws rule tensors topo := by
  have hN : ∀ a b c, rule.nSymbol a b c ≤ 1 := by decide +kernel
  have hd : ∀ a, tensors.dim a ≤ 2 := by decide
  have hX : ∀ (a b c : Fin 5) (x y : Bool) (mu i j k : ℕ),
    tensors.X a b c x y mu i j k = tensors.X a b c false false 0 i j k := fun _ _ _ _ _ _ _ _ _ => rfl
  have kz : ∀ a : Fin 5, ∀ i j : Fin 2, i.1 < tensors.dim a → j.1 < tensors.dim a →
      tensors.Z a j i = topo.sqrtQdim a * star (tensors.X a (tensors.dual a) rule.unit false false 0 i j 0) := by
    decide +kernel
  have kr : ∀ a b c : Fin 5, 0 < rule.nSymbol a b c → ∀ i j k : Fin 2, i.1 < tensors.dim a → j.1 < tensors.dim b →
      k.1 < tensors.dim c →
      tensors.X a b c false false 0 i j k = topo.rSym a b c 0 * tensors.X b a c false false 0 j i k := by decide +kernel
  have kb : ∀ a b c : Fin 5, 0 < rule.nSymbol a b c → ∀ i j k : Fin 2, i.1 < tensors.dim a → j.1 < tensors.dim b →
      k.1 < tensors.dim c →
      tensors.X a b c false false 0 i j k = topo.bSym a b c 0 0 * tensors.X c b a false false 0 k j i := by decide +kernel
  have kc : ∀ a b c d e : Fin 5, 0 < rule.nSymbol a b e → 0 < rule.nSymbol e c d → ∀ i j k l : Fin 2,
      i.1 < tensors.dim a → j.1 < tensors.dim b → k.1 < tensors.dim c → l.1 < tensors.dim d →
      twoV a b e c d i j k l = ((rule.channels a c b d).map fun q => topo.cSym a b c d e q.1 0 0 0 0 *
        twoV a c q.1 b d i k j l).sum := by decide +kernel
  have ku : ∀ a : Fin 5, ∀ i j : Fin 2, i.1 < tensors.dim a → j.1 < tensors.dim a →
      ((List.range (tensors.dim a)).map fun h => star (tensors.Z a h i) * tensors.Z a h j).sum =
        if i.1 = j.1 then 1 else 0 := by decide +kernel
  have krot : ∀ a b c : Fin 5, rule.nSymbol a b c = rule.nSymbol c (tensors.dual b) a := by decide +kernel
  refine ⟨rfl, fun _ => rfl, rfl, fun _ => rfl, rfl, rfl, by decide +kernel, by decide +kernel, by decide +kernel,
    by decide +kernel, ?_, ?_, ?_, ?_, ?_, rfl, rfl, by decide, fun _ => rfl, fun _ => rfl, rfl, fun _ => rfl,
    by decide, ?_, ?_, ?_, ?_, ?_, ?_⟩
  · intro a b c e mu i j k _ hi _ _
    refine (sum_range_single (tensors.dim a) i hi fun h => tensors.X a b c false e mu h j k).symm.trans ?_
    refine sum_congr _ fun h _ => ?_
    simp only [tensors, ite_mul, one_mul, zero_mul, eq_comm (a := h)]
  · intro a b c e mu i j k _ _ hj _
    refine (sum_range_single (tensors.dim b) j hj fun h => tensors.X a b c e false mu i h k).symm.trans ?_
    refine sum_congr _ fun h _ => ?_
    simp only [tensors, ite_mul, one_mul, zero_mul, eq_comm (a := h)]
  · intro a i j _ _
    simp [tensors, topo, eq_comm]
  · intro a i j hi hj
    have := hd a
    exact ku a ⟨i, by omega⟩ ⟨j, by omega⟩ hi hj
  · intro a i j hi hj
    exact kz a ⟨i, by have := hd a; omega⟩ ⟨j, by have := hd a; omega⟩ hi hj
  · intro a b c mu i j k h1 h2 h3 h4
    have := hd a; have := hd b; have := hd c
    exact kr a b c (by omega) ⟨i, by omega⟩ ⟨j, by omega⟩ ⟨k, by omega⟩ h2 h3 h4
  · intro a b c mu _
    simp only [topo, and_left_comm]
    rfl
  · intro a b c d e mu nu i j k l h1 h2 h3 h4 h5 h6
    have := hd a; have := hd b; have := hd c; have := hd d
    exact kc a b c d e (by omega) (by omega) ⟨i, by omega⟩ ⟨j, by omega⟩ ⟨k, by omega⟩ ⟨l, by omega⟩ h3 h4 h5 h6
  · intro a b c d e f mu nu kappa lam _ _ _ _
    show topo.cSym a c b d f e kappa lam mu nu = _
    simp only [topo]
    refine sum_congr _ fun i _ => ?_
    rw [sum_comm]
    refine sum_congr _ fun j _ => sum_congr _ fun k _ => ?_
    exact mul_comm _ _
  · exact fun a b c _ => krot a b c
  · intro a b c mu i j k h1 h2 h3 h4
    have := hd a; have := hd b; have := hd c
    have hx := kb a b c (by omega) ⟨i, by omega⟩ ⟨j, by omega⟩ ⟨k, by omega⟩ h2 h3 h4
    have hn : rule.nSymbol c (tensors.dual b) a = 1 := by
      have h5 := hN a b c
      have h6 := krot a b c
      omega
    rw [hn]
    refine hx.trans ?_
    have e1 : ((List.range (tensors.dim b)).map fun h =>
        tensors.Z b h j * tensors.X c (tensors.dual b) a false false 0 k h i).sum = tensors.X c b a false false 0 k j i := by
      refine Eq.trans ?_ (sum_range_single (tensors.dim b) j h3 fun h => tensors.X c b a false false 0 k h i)
      refine sum_congr _ fun h _ => ?_
      simp only [tensors, sym, id, ite_mul, one_mul, zero_mul, eq_comm (a := h)]
    simp only [List.range_one, List.map_cons, List.map_nil, List.sum_cons, List.sum_nil, add_zero]
    rw [e1]; rfl

def small (x : ZMod 7) : Bool := x == 0

theorem small_exact : CutoffExact topo small :=
  ⟨fun _ _ _ _ _ _ _ _ _ _ h => by simpa [small] using h, fun _ _ _ _ _ _ _ _ _ _ h => by simpa [small] using h⟩

/-- discards exactly the zero blocks -/
def big (M : Mat (ZMod 7)) : Bool := (List.range M.rows).any fun r => (List.range M.cols).any fun t => M.val r t != 0

theorem big_exact : ExactBig big := by
  intro M h m n hm hn
  by_contra h0
  have : big M = true := List.any_eq_true.2 ⟨m, List.mem_range.2 hm, List.any_eq_true.2 ⟨n, List.mem_range.2 hn, by
    simpa using h0⟩⟩
  rw [h] at this
  cases this

/-- The legs 3 and 0 as the new codomain -/
def factors2 : List (Leg (Fin 5)) := [.space ⟨[0, 4], [1, 2], true, none⟩, .space ⟨[0, 4], [1, 2], false, none⟩]

/-- The legs 1 and 2 as the new domain -/
def factors3 : List (Leg (Fin 5)) := [.space ⟨[3, 4], [2, 1], false, none⟩, .space ⟨[3, 4], [2, 1], true, none⟩]

theorem side2_ok : SideOK rule (sideOf sym factors2) (coupledOf sym rule false factors2) :=
  (C63_sides sym (fun _ => rfl) rule false rule_ok factors2 (by
    intro e he
    simp [factors2, Leg.leavesAll, Leg.leaves] at he
    rcases he with rfl | rfl <;> decide)).1

theorem side3_ok : SideOK rule (sideOf sym factors3) (coupledOf sym rule false factors3) :=
  (C63_sides sym (fun _ => rfl) rule false rule_ok factors3 (by
    intro e he
    simp [factors3, Leg.leavesAll, Leg.leaves] at he
    rcases he with rfl | rfl <;> decide)).1

/-- A tensor with four legs: the second leg of the codomain is bent to the right and the first leg of the domain
to the left. -/
example : ∃ data', permuteLegsMixed rule topo small big true [] [none, some true, none, some false] ten leg leg side side
        (coupledOf sym rule false factors2) (coupledOf sym rule false factors3) (sideOf sym factors2)
        (sideOf sym factors3) [3, 0] [1, 2] = some data' ∧
      FSane (coupledOf sym rule false factors2) (coupledOf sym rule false factors3) data' ∧
      (toDenseBlock rule tensors (coupledOf sym rule false factors2).sectors (sideOf sym factors2)
        (sideOf sym factors3) data').shape = [5, 5, 4, 4] ∧
      ∀ i < 5, ∀ j < 4, ∀ k < 4, ∀ l < 5,
        (toDenseBlock rule tensors (coupledOf sym rule false factors2).sectors (sideOf sym factors2)
          (sideOf sym factors3) data').val [l, i, k, j] =
          (toDenseBlock rule tensors leg.sectors side side ten).val [i, j, k, l] := by
  obtain ⟨d, h1, h2, h3, h4⟩ := C72_permute_legs topo_laws small_exact big_exact rule_ok.lawful side_ok side_ok side2_ok
    side3_ok ten ten_sane [] [none, some true, none, some false] [3, 0] [1, 2]
    ⟨by decide, fun x hx => by
      have hs : side.spaces.length = 2 := by decide +kernel
      rw [hs] at hx
      rcases hx with ⟨h, hx⟩ | ⟨h, hx⟩
      · simp only [List.mem_cons, List.not_mem_nil, or_false] at hx
        rcases hx with rfl | rfl
        · exact ⟨true, rfl⟩
        · omega
      · simp only [List.mem_cons, List.not_mem_nil, or_false] at hx
        rcases hx with rfl | rfl
        · exact ⟨false, rfl⟩
        · omega⟩
    ⟨by decide +kernel, by decide +kernel, by decide +kernel, by decide +kernel⟩
  refine ⟨d, h1, h2, h3.trans (by decide +kernel), fun i hi j hj k hk l hl => ?_⟩
  refine h4 [i, j, k, l] ?_
  have : (toDenseBlock rule tensors leg.sectors side side ten).shape = [5, 4, 4, 5] := by decide +kernel
  rw [this]
  exact .cons hi (.cons hj (.cons hk (.cons hl .nil)))

end D4

end Cyten.FT
