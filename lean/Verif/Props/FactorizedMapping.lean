import Verif.Lemmas.FactMap6
import Verif.Props.TreePairMapping

/-! # Properties of the permutation of legs within the codomain and within the domain -/

namespace Cyten.FT
open Cyten.FT.Spec Cyten.Tools Cyten.ListSum Cyten.Props Cyten.Spaces Cyten.Spaces.Spec Cyten.Abelian
  Cyten.FusionTrees Cyten.Mappings Cyten.Permute Cyten.Permute.Spec

variable {S K : Type} [LinearOrder S] [CommRing K] [StarRing K]

/-- The identity is a valid mapping. -/
theorem tmap_ident {R : FusionRule S} {T : FTensors S K} (cj : Bool) {sec : FusionTree S → ℕ → S} {flag : ℕ → Bool}
    {l0 : List ℕ} {keys : List (FusionTree S)} (h : ∀ X ∈ keys, X.Sane R ∧ X.uncoupled = l0.map (sec X) ∧
      X.areDual = l0.map flag) : TMapOK R T cj sec flag l0 l0 keys (.ident keys : TMap S K) := by
  refine ⟨by simp [TMap.toSparse, Function.comp_def], fun p hp => ?_, fun _ _ => rfl⟩
  obtain ⟨X, hX, rfl⟩ := List.mem_map.1 hp
  obtain ⟨h1, h2, h3⟩ := h X hX
  refine ⟨by simp, fun q hq => ?_, fun idx _ k _ => by simp [colSum]⟩
  obtain rfl := List.mem_singleton.1 hq
  exact ⟨h1, rfl, h2, h3⟩

/-- The trees of a side -/
theorem keys_info {R : FusionRule S} {s : Side S} {l : BLeg S} (h : SideOK R s l) (dim : S → ℕ) {cs : List S}
    {X : FusionTree S} (hX : X ∈ keysOf R dim s cs) :
    X.Sane R ∧ X.areDual = s.areDual ∧ X.uncoupled.length = s.spaces.length := by
  obtain ⟨e, -, hX⟩ := List.mem_flatMap.1 hX
  obtain ⟨x, hx, rfl⟩ := List.mem_map.1 hX
  obtain ⟨ch, p1, p2, p3, p4, p5, p6, p7⟩ := h.placed dim hx
  refine ⟨p6, p5, ?_⟩
  have := p1.length_eq
  rw [p3]
  simpa using this

/-- **C73** `permute_legs` of the fusion tree backend without bending legs, for a symmetry with a group (bosonic
braiding): whatever the levels, the dense array of the result is the transposed dense array. -/
theorem C73_permute_inner {R : FusionRule S} {T : FTensors S K} {D : Topo S K} (hL : GroupLaws R T D)
    (hN : FusionRingN R T.dual)
    {small : K → Bool} (hS : CutoffExact D small) {big : Mat K → Bool} (hb : ExactBig big) (hR : R.Lawful)
    {cod dom cod' dom' : Side S} {lc ld lc' ld' : BLeg S} (hc : SideOK R cod lc) (hd : SideOK R dom ld)
    (hc' : SideOK R cod' lc') (hd' : SideOK R dom' ld') (data : FEnts K) (hD : FSane lc ld data)
    (levels : List (Option ℤ)) (bendRight : List (Option Bool)) (codIdcs domIdcs : List ℕ)
    (hperm : (codIdcs ++ domIdcs).Perm (List.range (cod.spaces.length + dom.spaces.length)))
    (hin : ∀ x ∈ codIdcs, x < cod.spaces.length) (hout : ∀ x ∈ domIdcs, cod.spaces.length ≤ x)
    (hl : Labelled T (legOf T cod dom) (flagOf cod dom) codIdcs domIdcs cod' dom') :
    ∃ data', permuteLegsInner R D small big id id true levels bendRight data lc ld cod dom lc' ld' cod' dom' codIdcs
        domIdcs = some data' ∧ FSane lc' ld' data' ∧
      (toDenseBlock R T lc'.sectors cod' dom' data').shape =
        ((codIdcs ++ domIdcs.reverse).map fun x => (toDenseBlock R T lc.sectors cod dom data).shape.getD x 0) ∧
      ∀ idx, InShape idx (toDenseBlock R T lc.sectors cod dom data).shape →
        (toDenseBlock R T lc'.sectors cod' dom' data').val ((codIdcs ++ domIdcs.reverse).map fun x => idx.getD x 0) =
          (toDenseBlock R T lc.sectors cod dom data).val idx := by
  set J := cod.spaces.length with hJ
  set M := dom.spaces.length with hM
  let τ : ℕ → ℕ := fun a => J + M - 1 - a
  set axes := domIdcs.map τ with haxes
  have hV : Valid J M codIdcs domIdcs bendRight := by
    refine ⟨hperm, fun x hx => ?_⟩
    rcases hx with ⟨h1, h2⟩ | ⟨h1, h2⟩
    · have := hout x h2; omega
    · have := hin x h2; omega
  obtain ⟨ins, tr, hi, hx⟩ := C71_symmetric_braid (levels := levels) hV
  have hnb := instructions_noBend hin hout hi
  have hdi : (List.range' J M).reverse = (List.range M).map τ := by
    refine List.ext_getElem (by simp) fun i h1 h2 => ?_
    simp only [List.length_reverse, List.length_range'] at h1
    simp only [List.getElem_reverse, List.getElem_range', List.length_range', List.getElem_map, List.getElem_range, τ]
    omega
  -- the two permutations
  have hf := hperm.filter (fun x => decide (x < J))
  have hg := hperm.filter (fun x => !decide (x < J))
  rw [List.filter_append, List.filter_eq_self.2 (fun x hx => by simpa using hin x hx),
    List.filter_eq_nil_iff.2 (fun x hx => by simpa using hout x hx), List.append_nil] at hf
  rw [List.filter_append, List.filter_eq_nil_iff.2 (fun x hx => by simpa using hin x hx),
    List.filter_eq_self.2 (fun x hx => by simpa using hout x hx), List.nil_append] at hg
  have hra : List.range (J + M) = List.range J ++ List.range' J M := by
    rw [List.range_eq_range', List.range_eq_range', ← List.range'_append_1, Nat.zero_add]
  have hp1 : codIdcs.Perm (List.range J) := by
    rw [hra, List.filter_append, List.filter_eq_self.2 (fun x hx => by simpa using hx),
      List.filter_eq_nil_iff.2 (fun x hx => by simpa using (List.mem_range'_1.1 hx).1), List.append_nil] at hf
    exact hf
  have hpd : domIdcs.Perm (List.range' J M) := by
    rw [hra, List.filter_append, List.filter_eq_nil_iff.2 (fun x hx => by simpa using hx),
      List.filter_eq_self.2 (fun x hx => by simpa using (List.mem_range'_1.1 hx).1), List.nil_append] at hg
    exact hg
  have hττ : ∀ x, x < J + M → τ (τ x) = x := fun x hx => by simp only [τ]; omega
  have hdt : axes.map τ = domIdcs := by
    rw [haxes, List.map_map]
    conv_rhs => rw [← List.map_id domIdcs]
    refine List.map_congr_left fun x hx => hττ x ?_
    have := List.mem_range'_1.1 (hpd.mem_iff.1 hx)
    omega
  have hp2 : axes.Perm (List.range M) := by
    refine (hpd.map τ).trans ?_
    refine ((List.reverse_perm _).map τ).symm.trans ?_
    rw [hdi, List.map_map]
    refine List.Perm.of_eq ?_
    conv_rhs => rw [← List.map_id (List.range M)]
    exact List.map_congr_left fun x hx => hττ x (by have := List.mem_range.1 hx; omega)
  -- the sectors of the legs of the trees
  let cs := dataSectors lc data
  let secS : FusionTree S → ℕ → S := fun X x => X.uncoupled.getD x R.unit
  let secF : FusionTree S → ℕ → S := fun Y x => T.dual (Y.uncoupled.getD (τ x) R.unit)
  have hl0 := labelled_old T hL.dual_dual cod dom hc.dual hd.dual
  rw [← hJ, ← hM, hdi] at hl0
  have hSX : ∀ X ∈ keysOf R T.dim cod cs, X.uncoupled = (List.range J).map (secS X) := by
    intro X hX
    obtain ⟨-, -, h3⟩ := keys_info hc T.dim hX
    have := ext_range' X.uncoupled 0 (secS X) fun i x hix => by
      simp only [secS, Nat.zero_add]
      rw [List.getD_eq_getElem?_getD, hix]; rfl
    rw [h3, ← List.range_eq_range'] at this
    exact this.symm
  have hFY : ∀ Y ∈ keysOf R T.dim dom cs, Y.uncoupled = ((List.range M).map τ).map fun x => T.dual (secF Y x) := by
    intro Y hY
    obtain ⟨-, -, h3⟩ := keys_info hd T.dim hY
    have := ext_range' Y.uncoupled 0 (fun i => T.dual (secF Y (τ i))) fun i x hix => by
      have hi : i < Y.uncoupled.length := (List.getElem?_eq_some_iff.1 hix).1
      simp only [secF, Nat.zero_add]
      rw [hL.dual_dual, hττ i (by rw [h3] at hi; omega), List.getD_eq_getElem?_getD, hix]; rfl
    rw [h3, ← List.range_eq_range'] at this
    rw [List.map_map]
    exact this.symm
  have h0 : FactOK R T secS secF (flagOf cod dom) (List.range J) ((List.range M).map τ) (List.range J)
      ((List.range M).map τ) (keysOf R T.dim cod cs) (keysOf R T.dim dom cs)
      ⟨.ident (keysOf R T.dim cod cs), .ident (keysOf R T.dim dom cs)⟩ := by
    refine ⟨tmap_ident true fun X hX => ?_, tmap_ident false fun Y hY => ?_⟩
    · obtain ⟨h1, h2, -⟩ := keys_info hc T.dim hX
      exact ⟨h1, hSX X hX, by rw [h2, hl0.codDual]⟩
    · obtain ⟨h1, h2, -⟩ := keys_info hd T.dim hY
      exact ⟨h1, hFY Y hY, by rw [h2, hl0.domDual]⟩
  have hini : initialLegs J M = (List.range J, (List.range M).map τ) := by
    rw [← hdi]; rfl
  rw [hini] at hx
  obtain ⟨m, m1, m2⟩ := pres_ok hL hR hS ins hnb h0 hx
  simp only at m2
  have hcsn : cs.Nodup := dataSectors_nodup hc.coupled hd.coupled hD
  have hm : FactMap.fromInstructions R D small lc.sectors cod dom (data.map Prod.fst) ins = some m := by
    unfold FactMap.fromInstructions
    rw [sideKeys_eq hc hR T.dim lc.sectors data hD.lt hcsn, sideKeys_eq hd hR T.dim lc.sectors data hD.lt hcsn]
    exact m1
  have hl' : Labelled T (legOf T cod dom) (flagOf cod dom) codIdcs (axes.map τ) cod' dom' := by rw [hdt]; exact hl
  rw [← hdt] at m2
  obtain ⟨D1, t1, t2, t3⟩ := fact_dense (secS := secS) (secF := secF) hL.dual_dual hL.dim_dual hR hN hc hd hc' hd' hdi
    hl0 hl' hp1 hp2 hD hSX hFY m2 domIdcs rfl
  rw [← hdi, hdt] at t3
  obtain ⟨p1, p2, p3⟩ := permuted_dense hL.dual_dual hL.dim_dual hb hc hd hc' hd' data codIdcs domIdcs hperm hl t2 t3
  refine ⟨discardZeroBlocks big D1, ?_, p1, p2, p3⟩
  unfold permuteLegsInner
  rw [hi]
  simp only
  rw [hm, Option.bind_some, t1]; rfl

/-! ## Concrete case: the representations of the dihedral group with eight elements -/

namespace D4

local instance : Fact (Nat.Prime 7) := ⟨by decide⟩
local instance : StarRing (ZMod 7) := starRingOfComm

theorem ring : FusionRingN rule tensors.dual := by
  refine ⟨by decide +kernel, by decide +kernel, by decide +kernel, fun _ => rfl, rfl, by decide +kernel⟩

/-- The codomain, and the domain, with its two legs exchanged -/
def factors4 : List (Leg (Fin 5)) := [.space ⟨[3, 4], [2, 1], true, none⟩, .space ⟨[0, 4], [1, 2], false, none⟩]

theorem side4_ok : SideOK rule (sideOf sym factors4) (coupledOf sym rule false factors4) :=
  (C63_sides sym (fun _ => rfl) rule false rule_ok factors4 (by
    intro e he
    simp [factors4, Leg.leavesAll, Leg.leaves] at he
    rcases he with rfl | rfl <;> decide)).1

/-- A tensor with four legs: the two legs of the codomain are exchanged and the two legs of the domain. -/
example : ∃ data', permuteLegsInner rule topo small big id id true [] [] ten leg leg side side
        (coupledOf sym rule false factors4) (coupledOf sym rule false factors4) (sideOf sym factors4)
        (sideOf sym factors4) [1, 0] [2, 3] = some data' ∧
      FSane (coupledOf sym rule false factors4) (coupledOf sym rule false factors4) data' ∧
      (toDenseBlock rule tensors (coupledOf sym rule false factors4).sectors (sideOf sym factors4)
        (sideOf sym factors4) data').shape = [4, 5, 5, 4] ∧
      ∀ i < 5, ∀ j < 4, ∀ k < 4, ∀ l < 5,
        (toDenseBlock rule tensors (coupledOf sym rule false factors4).sectors (sideOf sym factors4)
          (sideOf sym factors4) data').val [j, i, l, k] =
          (toDenseBlock rule tensors leg.sectors side side ten).val [i, j, k, l] := by
  obtain ⟨d, h1, h2, h3, h4⟩ := C73_permute_inner topo_laws ring small_exact big_exact rule_ok.lawful side_ok side_ok
    side4_ok side4_ok ten ten_sane [] [] [1, 0] [2, 3] (by decide) (by decide +kernel) (by decide +kernel)
    ⟨by decide +kernel, by decide +kernel, by decide +kernel, by decide +kernel⟩
  refine ⟨d, h1, h2, h3.trans (by decide +kernel), fun i hi j hj k hk l hl => ?_⟩
  refine h4 [i, j, k, l] ?_
  have : (toDenseBlock rule tensors leg.sectors side side ten).shape = [5, 4, 4, 5] := by decide +kernel
  rw [this]
  exact .cons hi (.cons hj (.cons hk (.cons hl .nil)))

end D4

end Cyten.FT
