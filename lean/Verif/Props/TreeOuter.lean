import Verif.Lemmas.TreeOuter10
import Verif.Props.TreePairMapping

/-!
# C85: outer products with the fusion tree backend

Small specification, in terms of the tensors (Clebsch-Gordan coefficients) that the trees stand for:
`Inserted` (`Lemmas/TreeOuter4`): the result of `t.insert_at(n, t2)` is the contraction of leg `n` of `t` with the coupled
sector of `t2`; `Fused` (`Lemmas/TreeOuter5`): the result of `t.outer(r)` is `t` and `r` side by side, fused in all
possible ways.
-/

namespace Cyten.Props
open Cyten.FT Cyten.FT.Spec Cyten.Spaces Cyten.Abelian Cyten.Tools Cyten.ListSum

variable {S K : Type} [LinearOrder S] [CommRing K] [StarRing K]
variable {R : FusionRule S} {T : FTensors S K} {G : Topo S K} {F : FSym S K}

/-- **C85** (inserting). `t.insert_at(n, t2)` is a linear combination of trees with the legs of `t2` in place of leg `n`
of `t`, and as a tensor it is the contraction of `t2` with leg `n` of `t`. -/
theorem C85_insert_at (hL : GroupLaws R T G) (hO : OuterLaws R T F) (small : K → Bool) (hS : FCutoffExact F small)
    (t t2 : FusionTree S) (h : t.Sane R) (h2 : t2.Sane R) (h1 : 1 ≤ t2.uncoupled.length) (n : ℕ)
    (hn : t.uncoupled[n]? = some t2.coupled) (hd : t.areDual[n]? = some false) :
    Inserted R T t n t2 (insertAt R F small t n t2) :=
  insertAt_spec hL hO hS t h n t2 h2 h1 hn hd

/-- **C85** (outer products of trees). `t.outer(r)` is a linear combination of distinct trees on the legs of `t` and `r`;
its part with coupled sector `c` is `t` and `r`, fused by (the sum of) the fusion tensors for `c`. -/
theorem C85_tree_outer (hL : GroupLaws R T G) (hO : OuterLaws R T F) (hR : R.Lawful) (small : K → Bool)
    (hS : FCutoffExact F small) (t r : FusionTree S) (h : t.Sane R) (h2 : r.Sane R) :
    Fused R T t r (treeOuter R F small t r) :=
  treeOuter_spec hL hO hR hS t h r h2

/-- **C85** (outer products of tensors). Without fusion multiplicities, `outer` succeeds, its result passes
`test_sanity`, and its dense block is the outer product of the dense blocks: the codomain is `[*a.codomain, *b.codomain]`
and the domain `[*a.domain, *b.domain]`. -/
theorem C85_outer_partial (hL : GroupLaws R T G) (hO : OuterLaws R T F) (hR : R.Lawful) (small : K → Bool)
    (hS : FCutoffExact F small) (big : Mat K → Bool) (hbig : ExactBig big) (hmf : ∀ a b c, R.nSymbol a b c ≤ 1)
    {codA domA codB domB : Side S} {lA dA lB dB lc ld : BLeg S}
    (hA : SideOK R codA lA) (hAd : SideOK R domA dA) (hB : SideOK R codB lB) (hBd : SideOK R domB dB)
    (hc : SideOK R (codA.append codB) lc) (hd : SideOK R (domA.append domB) ld) (a b : FEnts K)
    (ha : FSane lA dA a) (hb : FSane lB dB b) :
    ∃ D, FT.outer R F small big T.dim lA.sectors lB.sectors codA domA codB domB lc ld a b = some D ∧ FSane lc ld D ∧
      ∀ iA iB jA jB, InShape iA (legDims T.dim codA) → InShape iB (legDims T.dim codB) →
        InShape jA (legDims T.dim domA) → InShape jB (legDims T.dim domB) →
        FT.Spec.entry (FT.toDenseBlock R T lc.sectors (codA.append codB) (domA.append domB) D) (iA ++ iB) (jA ++ jB) =
          FT.Spec.entry (FT.toDenseBlock R T lA.sectors codA domA a) iA jA *
            FT.Spec.entry (FT.toDenseBlock R T lB.sectors codB domB b) iB jB := by
  obtain ⟨D, h1, h2, h3⟩ := outer_dense (a := a) (b := b) hL hO hR hS hbig hmf hA hAd hB hBd hc hd ha hb
  refine ⟨D, h1, h2, fun iA iB jA jB g1 g2 g3 g4 => ?_⟩
  have e : InShape (iA ++ iB) (legDims T.dim (codA.append codB)) := by
    unfold legDims Side.append
    rw [List.map_append]
    exact List.rel_append g1 g2
  rw [entry_core _ _ _ _ ((mem_gridC _ _).2 e), entry_core _ _ _ _ ((mem_gridC _ _).2 g1), entry_core _ _ _ _ ((mem_gridC _ _).2 g2)]
  exact h3 iA iB jA jB g1 g2 g3 g4

/-- **C85** (fusion multiplicities: the full claim is false). `FusionTreeBackend::outer` replaces the pair of tree blocks
`(ta, sa)`, `(tb, sb)` by all pairs of a tree in `sa.outer(sb)` and one in `ta.outer(tb)` with equal coupled sector.  If
some `N(a, b, c)` is at least two, this is not the outer product, already for trees with one leg: the pairs with different
multiplicity labels at the new vertex are spurious. -/
theorem C85_multiplicity [Nontrivial K] (hR : R.Lawful) (hT : Spec.Lawful R T) (small : K → Bool) (a b c : S)
    (h2 : 2 ≤ R.nSymbol a b c) :
    ¬ ∀ iA iB jA jB : List ℕ, InDims T [a] iA → InDims T [b] iB → InDims T [a] jA → InDims T [b] jB →
      ((treeOuter R F small (FusionTree.fromSector a false) (FusionTree.fromSector b false)).map fun y =>
        ((treeOuter R F small (FusionTree.fromSector a false) (FusionTree.fromSector b false)).map fun x =>
          if x.1.coupled = y.1.coupled then star x.2 * y.2 * pairTensor T (x.1, y.1) (iA ++ iB) (jA ++ jB)
          else 0).sum).sum =
      pairTensor T (FusionTree.fromSector a false, FusionTree.fromSector a false) iA jA *
        pairTensor T (FusionTree.fromSector b false, FusionTree.fromSector b false) iB jB := by
  intro hall
  let P : List (ℕ × ℕ) := (List.range (T.dim a)).flatMap fun i => (List.range (T.dim b)).map fun j => (i, j)
  let Q : List (S × ℕ) := (R.outcomes a b).flatMap fun c => (List.range (T.dim c)).map fun k => (c, k)
  let Y : S × ℕ → ℕ × ℕ → K := fun q p =>
    ((List.range (R.nSymbol a b q.1)).map fun m => T.X a b q.1 false false m p.1 p.2 q.2).sum
  have hPm : ∀ p, p ∈ P ↔ p.1 < T.dim a ∧ p.2 < T.dim b := by
    intro p
    simp only [P, List.mem_flatMap, List.mem_map, List.mem_range]
    constructor
    · rintro ⟨i, hi, j, hj, rfl⟩; exact ⟨hi, hj⟩
    · rintro ⟨hi, hj⟩; exact ⟨p.1, hi, p.2, hj, rfl⟩
  have hPn : P.Nodup := by
    refine List.nodup_flatMap.2 ⟨fun i _ => List.nodup_range.map fun x y h => (Prod.mk.inj h).2, ?_⟩
    refine List.nodup_range.imp fun {x y} hxy => List.disjoint_left.2 fun p h1 h2 => ?_
    obtain ⟨_, _, rfl⟩ := List.mem_map.1 h1
    obtain ⟨_, _, h⟩ := List.mem_map.1 h2
    exact hxy (Prod.mk.inj h).1.symm
  have sumP : ∀ f : ℕ × ℕ → K, (P.map f).sum =
      ((List.range (T.dim a)).map fun i => ((List.range (T.dim b)).map fun j => f (i, j)).sum).sum := by
    intro f
    simp only [P]
    rw [sum_flatMap]
    exact sum_congr _ fun i _ => by rw [List.map_map]; rfl
  have sumQ : ∀ f : S × ℕ → K, (Q.map f).sum =
      ((R.outcomes a b).map fun c => ((List.range (T.dim c)).map fun k => f (c, k)).sum).sum := by
    intro f
    simp only [Q]
    rw [sum_flatMap]
    exact sum_congr _ fun i _ => by rw [List.map_map]; rfl
  have res : ∀ p ∈ P, ∀ q ∈ P, (Q.map fun e => star (Y e p) * Y e q).sum = if p = q then 1 else 0 := by
    rintro ⟨i, j⟩ hp ⟨i', j'⟩ hq
    obtain ⟨g1, g2⟩ := (hPm _).1 hp
    obtain ⟨g3, g4⟩ := (hPm _).1 hq
    have hd : ∀ (s : S) (n : ℕ), n < T.dim s → InDims T [s] [n] := fun s n h => List.Forall₂.cons h .nil
    have h := hall [i] [j] [i'] [j'] (hd _ _ g1) (hd _ _ g2) (hd _ _ g3) (hd _ _ g4)
    rw [fused_first hR rfl rfl (treeOuter_one hR small a b) (treeOuter_one hR small a b) [i] [j] [i'] [j'] (hd _ _ g1)
      (hd _ _ g2) (hd _ _ g3) (hd _ _ g4), pairTensor_one a i i' g1, pairTensor_one b j j' g2] at h
    rw [sumQ]
    refine Eq.trans (sum_congr _ fun d _ => sum_congr _ fun k _ => ?_) (h.trans ?_)
    · refine congrArg₂ (fun x y => star x * y) (sum_congr _ fun m _ => ?_) (sum_congr _ fun m _ => ?_)
      · exact (one_leg a b d m i j k g1 g2).symm
      · exact (one_leg a b d m i' j' k g3 g4).symm
    · simp only [Prod.mk.injEq]
      by_cases h1 : i = i' <;> by_cases h2 : j = j' <;> simp [h1, h2]
  have hc : c ∈ R.outcomes a b := mem_of_nSymbol_pos R (by omega)
  have hp := parseval P hPn Q Y (fun p => T.X a b c false false 0 p.1 p.2 0)
    (fun p => T.X a b c false false 1 p.1 p.2 0) res
  have h0 : (P.map fun p => star (T.X a b c false false 1 p.1 p.2 0) * T.X a b c false false 0 p.1 p.2 0).sum = 0 := by
    rw [sumP, hT.fusion a b c c false false 1 0 0 0 (by omega) (by omega) (hT.dim_pos c) (hT.dim_pos c)]
    simp
  have hl : ∀ d, d ∈ R.outcomes a b → ∀ k, k < T.dim d → ∀ m, m < R.nSymbol a b c →
      (P.map fun p => star (Y (d, k) p) * T.X a b c false false m p.1 p.2 0).sum = if d = c ∧ k = 0 then 1 else 0 := by
    intro d _ k hk m hm
    have : ∀ p ∈ P, star (Y (d, k) p) * T.X a b c false false m p.1 p.2 0 = ((List.range (R.nSymbol a b d)).map fun m' =>
        star (T.X a b d false false m' p.1 p.2 k) * T.X a b c false false m p.1 p.2 0).sum := by
      intro p _
      simp only [Y]
      rw [star_lsum, ListSum.sum_mul]
    rw [sum_congr _ this, sum_comm]
    have e2 : ∀ m' ∈ List.range (R.nSymbol a b d), (P.map fun p =>
        star (T.X a b d false false m' p.1 p.2 k) * T.X a b c false false m p.1 p.2 0).sum =
        if m = m' then (if d = c ∧ k = 0 then 1 else 0) else 0 := by
      intro m' hm'
      rw [sumP, hT.fusion a b d c false false m' m k 0 (List.mem_range.1 hm') hm hk (hT.dim_pos c)]
      by_cases h1 : m = m' <;> by_cases h2 : d = c <;> simp [h1, h2, eq_comm]
    rw [sum_congr _ e2]
    by_cases hdc : d = c
    · subst hdc
      exact sum_range_single _ m hm fun _ => _
    · rw [if_neg fun h => hdc h.1]
      exact sum_zero _ _ fun m' _ => by split_ifs <;> rfl
  have hr : ∀ d, d ∈ R.outcomes a b → ∀ k, k < T.dim d → ∀ m, m < R.nSymbol a b c →
      (P.map fun p => star (T.X a b c false false m p.1 p.2 0) * Y (d, k) p).sum = if d = c ∧ k = 0 then 1 else 0 := by
    intro d hd k hk m hm
    have h := congrArg star (hl d hd k hk m hm)
    rw [star_lsum] at h
    refine Eq.trans (sum_congr _ fun p _ => ?_) (h.trans ?_)
    · rw [star_mul', star_star]; ring
    · by_cases h1 : d = c ∧ k = 0 <;> simp [h1]
  rw [h0, sumQ] at hp
  have h1 : ((R.outcomes a b).map fun d => ((List.range (T.dim d)).map fun k =>
      (P.map fun p => star (Y (d, k) p) * T.X a b c false false 0 p.1 p.2 0).sum *
        (P.map fun p => star (T.X a b c false false 1 p.1 p.2 0) * Y (d, k) p).sum).sum).sum = 1 := by
    refine (sum_single' _ (hR.nodup a b) c hc _ fun d hd hne => ?_).trans ?_
    · refine sum_zero _ _ fun k hk => ?_
      rw [hl d hd k (List.mem_range.1 hk) 0 (by omega), if_neg fun h => hne h.1, zero_mul]
    · refine Eq.trans (sum_congr _ fun k hk => ?_) (sum_range_single (T.dim c) 0 (hT.dim_pos c) fun _ => (1 : K))
      rw [hl c hc k (List.mem_range.1 hk) 0 (by omega), hr c hc k (List.mem_range.1 hk) 1 (by omega)]
      by_cases h : k = 0 <;> simp [h, eq_comm]
  exact one_ne_zero (h1.symm.trans hp)

/-- **C85** (an empty tree at the last leg). `insert_at(n, t2)` with an empty `t2` at the last of three or more legs never
gives a tree that passes `test_sanity`: one inner sector too many is kept. -/
theorem C85_insert_empty (small : K → Bool) (t t2 : FusionTree S) (h : t.Sane R) (h3 : 3 ≤ t.uncoupled.length)
    (h0 : t2.uncoupled.length = 0) :
    ∃ p, insertAt R F small t (t.uncoupled.length - 1) t2 = [p] ∧ ¬ p.1.Sane R := by
  refine ⟨_, by unfold insertAt; rw [if_pos h0], fun hs => ?_⟩
  have := hs.len_inner
  have hi := h.len_inner
  simp only [List.length_append, List.length_take, List.length_drop] at this
  omega

/-! ## Concrete case: the dihedral group, see `Props/FTDense` -/

namespace D4
open Cyten.FT.D4

local instance : Fact (Nat.Prime 7) := ⟨by decide⟩
local instance : StarRing (ZMod 7) := starRingOfComm

/-- The F symbol, computed from the fusion tensors -/
def fsym : FSym (Fin 5) (ZMod 7) := fun a b c d e f _ _ _ _ =>
  ((List.range (tensors.dim a)).map fun i => ((List.range (tensors.dim b)).map fun j =>
    ((List.range (tensors.dim c)).map fun k => ((List.range (tensors.dim e)).map fun h =>
      tensors.X b c e false false 0 j k h * tensors.X a e d false false 0 i h 0).sum *
        twoV a b f c d i j k 0).sum).sum).sum

theorem outer_laws : OuterLaws rule tensors fsym := by
  have hN : ∀ a b c, rule.nSymbol a b c ≤ 1 := by decide +kernel
  have hd : ∀ a, tensors.dim a ≤ 2 := by decide
  have kl : ∀ b : Fin 5, ∀ j k : Fin 2, j.1 < tensors.dim b → k.1 < tensors.dim b →
      tensors.X rule.unit b b false false 0 0 j k = if j.1 = k.1 then 1 else 0 := by decide +kernel
  have kr : ∀ b : Fin 5, ∀ j k : Fin 2, j.1 < tensors.dim b → k.1 < tensors.dim b →
      tensors.X b rule.unit b false false 0 j 0 k = if j.1 = k.1 then 1 else 0 := by decide +kernel
  have kc : ∀ a b : Fin 5, ∀ i j i' j' : Fin 2, i.1 < tensors.dim a → j.1 < tensors.dim b → i'.1 < tensors.dim a →
      j'.1 < tensors.dim b → ((rule.outcomes a b).map fun c => ((List.range (rule.nSymbol a b c)).map fun mu =>
        ((List.range (tensors.dim c)).map fun k => star (tensors.X a b c false false mu i j k) *
          tensors.X a b c false false mu i' j' k).sum).sum).sum = if i.1 = i'.1 ∧ j.1 = j'.1 then 1 else 0 := by
    decide +kernel
  have kf : ∀ a b c d e : Fin 5, 0 < rule.nSymbol b c e → 0 < rule.nSymbol a e d → ∀ i j k l : Fin 2,
      i.1 < tensors.dim a → j.1 < tensors.dim b → k.1 < tensors.dim c → l.1 < tensors.dim d →
      ((List.range (tensors.dim e)).map fun h => tensors.X b c e false false 0 j k h *
        tensors.X a e d false false 0 i h l).sum = ((rule.channels a b c d).map fun q => fsym a b c d e q.1 0 0 0 0 *
        twoV a b q.1 c d i j k l).sum := by decide +kernel
  refine ⟨by decide +kernel, by decide +kernel, ?_, ?_, ?_, ?_⟩
  · intro b j k h1 h2
    have := hd b
    exact kl b ⟨j, by omega⟩ ⟨k, by omega⟩ h1 h2
  · intro b j k h1 h2
    have := hd b
    exact kr b ⟨j, by omega⟩ ⟨k, by omega⟩ h1 h2
  · intro a b i j i' j' h1 h2 h3 h4
    have := hd a; have := hd b
    exact kc a b ⟨i, by omega⟩ ⟨j, by omega⟩ ⟨i', by omega⟩ ⟨j', by omega⟩ h1 h2 h3 h4
  · intro a b c d e mu nu i j k l h1 h2 h3 h4 h5 h6
    have := hd a; have := hd b; have := hd c; have := hd d
    exact kf a b c d e (by omega) (by omega) ⟨i, by omega⟩ ⟨j, by omega⟩ ⟨k, by omega⟩ ⟨l, by omega⟩ h3 h4 h5 h6

theorem fsym_exact : FCutoffExact fsym small := fun _ _ _ _ _ _ _ _ _ _ h => by simpa [small] using h

/-- The legs of the outer product -/
def factors22 : List (Leg (Fin 5)) := factors ++ factors

theorem factors22_sane : SaneLeaves factors22 := by
  intro e he
  simp [factors22, factors, Leg.leavesAll, Leg.leaves] at he
  rcases he with rfl | rfl | rfl | rfl <;> decide

theorem side22 : side.append side = sideOf sym factors22 := rfl

theorem side22_ok : SideOK rule (side.append side) (coupledOf sym rule false factors22) := by
  rw [side22]
  exact (C63_sides sym (fun _ => rfl) rule false rule_ok factors22 factors22_sane).1

/-- The hypotheses are met: the outer product of two tensors with four legs each. -/
example : ∃ D, FT.outer rule fsym small big tensors.dim leg.sectors leg.sectors side side side side
    (coupledOf sym rule false factors22) (coupledOf sym rule false factors22) ten (dagger ten) = some D ∧
    ∀ iA iB jA jB, InShape iA [5, 4] → InShape iB [5, 4] → InShape jA [5, 4] → InShape jB [5, 4] →
      FT.Spec.entry (FT.toDenseBlock rule tensors (coupledOf sym rule false factors22).sectors (side.append side)
        (side.append side) D) (iA ++ iB) (jA ++ jB) =
      FT.Spec.entry (FT.toDenseBlock rule tensors leg.sectors side side ten) iA jA *
        FT.Spec.entry (FT.toDenseBlock rule tensors leg.sectors side side (dagger ten)) iB jB := by
  obtain ⟨D, h1, -, h3⟩ := C85_outer_partial topo_laws outer_laws rule_ok.lawful small fsym_exact big big_exact
    (by decide +kernel) side_ok side_ok side_ok side_ok side22_ok side22_ok ten (dagger ten) ten_sane
    (C61_dagger side_ok.coupled side_ok.coupled ten ten_sane).1
  exact ⟨D, h1, h3⟩

end D4

/-! ## Fusion multiplicities: the group of the rotations of a tetrahedron -/

namespace A4

/-- Two copies of a field with `13` elements, exchanged by the conjugation; a third root of unity is `(3, 9)`. -/
abbrev C13 := ZMod 13 × ZMod 13

/-- The conjugation -/
@[reducible] def starC13 : StarRing C13 where
  star x := (x.2, x.1)
  star_involutive _ := rfl
  star_mul x y := by simp [Prod.ext_iff, mul_comm]
  star_add _ _ := rfl

attribute [local instance] starC13

/-- `0, 1, 2`: one-dimensional; `3`: three-dimensional, `3 x 3 = 0 + 1 + 2 + 2 * 3` -/
def rule : FusionRule (Fin 4) where
  unit := 0
  outcomes a b := if a = 3 then (if b = 3 then [0, 1, 2, 3] else [3]) else if b = 3 then [3] else
    [if a = 0 then b else if b = 0 then a else if a = b then 3 - a else 0]
  rawN a b c := if a = 3 ∧ b = 3 ∧ c = 3 then 2 else 1
  isAbelian := false

def sym : Sym (Fin 4) := ⟨fun a => if a = 3 then 3 else 1, fun a => if a = 1 then 2 else if a = 2 then 1 else a, false, false⟩

/-- Powers of the third root of unity -/
def om (n : ℕ) : C13 := ((3, 9) : C13) ^ (n % 3)

/-- `(3, 3) ^ 2 * 3 = 1` -/
def tensors : FTensors (Fin 4) C13 where
  dim := sym.dim
  dual := sym.dual
  X a b c _ _ mu i j k :=
    if a = 3 then
      if b = 3 then
        if c = 3 then (if mu = 0 then (if (i + 1) % 3 = j ∧ (i + 2) % 3 = k then 1 else 0)
          else if (i + 2) % 3 = j ∧ (i + 1) % 3 = k then 1 else 0)
        else if i = j then ((3, 3) : C13) * om (c.1 * i) else 0
      else if i = k then om (b.1 * i) else 0
    else if b = 3 then (if j = k then om (a.1 * j) else 0) else 1
  Z _ i j := if i = j then 1 else 0

theorem rule_lawful : rule.Lawful := ⟨by decide, by decide +kernel, by simp [rule]⟩

theorem tensors_lawful : Spec.Lawful rule tensors := by
  have hN : ∀ a b c, rule.nSymbol a b c ≤ 2 := by decide +kernel
  have hd : ∀ a, tensors.dim a ≤ 3 := by decide
  refine ⟨rfl, by decide, ?_, ?_⟩
  · have key : ∀ a b c c' : Fin 4, ∀ mu mu' : Fin 2, mu.1 < rule.nSymbol a b c → mu'.1 < rule.nSymbol a b c' →
        ∀ k k' : Fin 3, k.1 < tensors.dim c → k'.1 < tensors.dim c' →
        ((List.range (tensors.dim a)).map fun i => ((List.range (tensors.dim b)).map fun j =>
          star (tensors.X a b c false false mu i j k) * tensors.X a b c' false false mu' i j k').sum).sum =
          if c = c' ∧ mu.1 = mu'.1 ∧ k.1 = k'.1 then 1 else 0 := by decide +kernel
    intro a b c c' d e mu mu' k k' h1 h2 h3 h4
    have := hN a b c; have := hN a b c'; have := hd c; have := hd c'
    exact key a b c c' ⟨mu, by omega⟩ ⟨mu', by omega⟩ h1 h2 ⟨k, by omega⟩ ⟨k', by omega⟩ h3 h4
  · have key : ∀ (a : Fin 4) (k k' : Fin 3), k.1 < tensors.dim a → k'.1 < tensors.dim a →
        ((List.range (tensors.dim a)).map fun i => star (tensors.Z (tensors.dual a) k i) *
          tensors.Z (tensors.dual a) k' i).sum = if k.1 = k'.1 then 1 else 0 := by decide +kernel
    intro a k k' h3 h4
    have := hd a
    exact key a ⟨k, by omega⟩ ⟨k', by omega⟩ h3 h4

theorem nontrivial : Nontrivial C13 := ⟨0, 1, by decide⟩

/-- The hypotheses of `C85_multiplicity` are met. -/
example := haveI := nontrivial; C85_multiplicity (F := fun _ _ _ _ _ _ _ _ _ _ => (0 : C13)) rule_lawful tensors_lawful (fun x => x == 0) 3 3 3
  (by decide)

/-- One three-dimensional leg -/
def factors : List (Leg (Fin 4)) := [.space ⟨[3], [1], false, none⟩]

abbrev side : Side (Fin 4) := sideOf sym factors
abbrev leg : BLeg (Fin 4) := coupledOf sym rule false factors
abbrev leg2 : BLeg (Fin 4) := coupledOf sym rule false (factors ++ factors)

/-- The identity on this leg -/
def one : FEnts C13 := [((0, 0), ⟨1, 1, fun _ _ => 1⟩)]

end A4

section
open A4
attribute [local instance] starC13

/-- `outer` itself: the outer product of two identity maps should be an identity map, but the entry with row `(0, 1)` and
column `(1, 0)` is one. -/
theorem C85_outer_wrong : ((FT.outer rule (fun _ _ _ _ _ _ _ _ _ _ => (0 : C13)) (fun x => x == 0) (fun _ => true) tensors.dim
    leg.sectors leg.sectors side side side side leg2 leg2 one one).map fun D =>
      FT.Spec.entry (FT.toDenseBlock rule tensors leg2.sectors (side.append side) (side.append side) D) [0, 1] [1, 0]) =
        some 1 ∧
    FT.Spec.entry (FT.toDenseBlock rule tensors leg.sectors side side one) [0] [1] *
      FT.Spec.entry (FT.toDenseBlock rule tensors leg.sectors side side one) [1] [0] = 0 := by
  decide +kernel

end

/-- The hypotheses of `C85_insert_empty` are met: three legs of `Z2`, the last one trivial. -/
example : (⟨[1, 1, 0], 0, [false, false, false], [0], [0, 0]⟩ : FusionTree (Fin 2)).Sane FT.Z2.rule ∧
    (FusionTree.fromEmpty FT.Z2.rule).uncoupled.length = 0 := by
  refine ⟨⟨rfl, rfl, rfl, by simp, by simp, fun n hn => ?_⟩, rfl⟩
  have hn' : n < 2 := by simpa using hn
  obtain rfl | rfl : n = 0 ∨ n = 1 := by omega
  · exact ⟨1, 1, 0, 0, rfl, by decide, by decide⟩
  · exact ⟨0, 0, 0, 0, rfl, by decide, by decide⟩

end Cyten.Props
