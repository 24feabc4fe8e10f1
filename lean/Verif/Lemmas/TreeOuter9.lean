import Verif.Lemmas.TreeOuter8
import Verif.Props.TreePairMapping

/-! # `FusionTreeBackend::outer`: the result -/

namespace Cyten.FT
open Cyten.FT.Spec Cyten.Tools Cyten.ListSum Cyten.Props Cyten.Spaces Cyten.Spaces.Spec Cyten.Abelian
  Cyten.FusionTrees Cyten.Mappings

variable {S K : Type} [LinearOrder S] [CommRing K] [StarRing K]
variable {R : FusionRule S} {T : FTensors S K} {G : Topo S K} {F : FSym S K}

theorem zeroData_val (lc ld : BLeg S) : ∀ e ∈ zeroData (K := K) lc ld true, ∀ r t, e.2.val r t = 0 := by
  intro e he r t
  unfold zeroData at he
  rw [if_neg (by simp)] at he
  obtain ⟨cj, -, h⟩ := List.mem_filterMap.1 he
  by_cases hm : cj.1 ∈ lc.sectors
  · rw [if_pos hm] at h
    obtain rfl := Option.some.inj h
    rfl
  · rw [if_neg hm] at h; cases h

theorem zeroData_filled {lc ld : BLeg S} (hc : Coupled lc) (hd : Coupled ld) :
    Filled lc ld (zeroData (K := K) lc ld true) := by
  obtain ⟨h1, -, h3⟩ := C61_zero_data (K := K) hc hd true
  refine ⟨h1, fun c hc' hd' => ?_⟩
  obtain ⟨e, he, hs⟩ := h3 rfl c hc' hd'
  obtain ⟨c', g1, g2⟩ := h1.coupled e he
  obtain rfl := Option.some.inj (hs.symm.trans g1)
  exact ⟨e, he, g2⟩

variable {codA domA codB domB : Side S} {lA dA lB dB lc ld : BLeg S} {a b : FEnts K}

theorem outer_blocks (hL : GroupLaws R T G) (hO : OuterLaws R T F) (hR : R.Lawful) {small : K → Bool}
    (hS : FCutoffExact F small)
    (hA : SideOK R codA lA) (hAd : SideOK R domA dA) (hB : SideOK R codB lB) (hBd : SideOK R domB dB)
    (hc : SideOK R (codA.append codB) lc) (hd : SideOK R (domA.append domB) ld) :
    ∃ D, ((treeBlockIter R T.dim lA.sectors codA domA a).flatMap fun x =>
      (treeBlockIter R T.dim lB.sectors codB domB b).map fun y => (x, y)).foldlM
        (outerPair R F small (codA.append codB) (domA.append domB) ld) (zeroData lc ld true) = some D ∧ FSane lc ld D ∧
      ∀ c r t, blkVal lc D c r t = ((treeBlockIter R T.dim lA.sectors codA domA a).map fun va =>
        ((treeBlockIter R T.dim lB.sectors codB domB b).map fun vb =>
          ((treeOuter R F small va.2.1 vb.2.1).map fun q => ((treeOuter R F small va.1 vb.1).map fun p =>
            addVal R (codA.append codB) (domA.append domB) c r t (outerBlock va.2.2 vb.2.2) q p).sum).sum).sum).sum := by
  have key := fun c r t => foldlM_sum (P := Filled lc ld) (fun D => blkVal lc D c r t)
    (outerPair R F small (codA.append codB) (domA.append domB) ld)
    (fun v => ((treeOuter R F small v.1.2.1 v.2.2.1).map fun q => ((treeOuter R F small v.1.1 v.2.1).map fun p =>
      addVal R (codA.append codB) (domA.append domB) c r t (outerBlock v.1.2.2 v.2.2.2) q p).sum).sum)
    ((treeBlockIter R T.dim lA.sectors codA domA a).flatMap fun x =>
      (treeBlockIter R T.dim lB.sectors codB domB b).map fun y => (x, y)) (by
      intro v hv D hD
      obtain ⟨va, hva, hv⟩ := List.mem_flatMap.1 hv
      obtain ⟨vb, hvb, rfl⟩ := List.mem_map.1 hv
      obtain ⟨ea, -, ca, -, xa, hxa, ya, hya, rfl⟩ := mem_treeBlockIter hva
      obtain ⟨eb, -, cb, -, xb, hxb, yb, hyb, rfl⟩ := mem_treeBlockIter hvb
      have pA := (hA.placed T.dim hxa).choose_spec.2.2.2.2.2.1
      have pB := (hB.placed T.dim hxb).choose_spec.2.2.2.2.2.1
      have qA := (hAd.placed T.dim hya).choose_spec.2.2.2.2.2.1
      have qB := (hBd.placed T.dim hyb).choose_spec.2.2.2.2.2.1
      exact outerPair_spec hc.coupled hd.coupled small c r t _
        (treesOK_of_placed hc hR (fused_placed hA hB hc hxa hxb (treeOuter_spec hL hO hR hS _ pA _ pB)))
        (treesOK_of_placed hd hR (fused_placed hAd hBd hd hya hyb (treeOuter_spec hL hO hR hS _ qA _ qB))) D hD)
    (zeroData lc ld true) (zeroData_filled hc.coupled hd.coupled)
  obtain ⟨D, h1, h2, -⟩ := key R.unit 0 0
  refine ⟨D, h1, h2.1, fun c r t => ?_⟩
  obtain ⟨D2, g1, -, g3⟩ := key c r t
  obtain rfl := Option.some.inj (h1.symm.trans g1)
  refine g3.trans ?_
  have hz : blkVal lc (zeroData (K := K) lc ld true) c r t = 0 := by
    unfold blkVal
    refine sum_zero _ _ fun e he => ?_
    rw [zeroData_val lc ld e he]
    split <;> rfl
  rw [hz, zero_add, sum_flatMap]
  refine sum_congr _ fun va _ => ?_
  rw [List.map_map]; rfl

theorem states_of_index (s : Side S) (is : List ℕ) (h : InShape is (s.spaces.map (spaceDim T.dim))) :
    ∃ ch as ms, States T s ch as ms ∧ placeOf ch as ms = is := by
  obtain ⟨spaces, dl⟩ := s
  simp only at h
  suffices H : ∃ ch as ms, List.Forall₂ (· ∈ ·) ch (spaces.map (cells T.dim)) ∧
      InShape as (ch.map fun q => T.dim q.sec) ∧ InShape ms (ch.map Cell.mult) ∧ placeOf ch as ms = is by
    obtain ⟨ch, as, ms, h1, h2, h3, h4⟩ := H
    exact ⟨ch, as, ms, ⟨h1, h2, h3⟩, h4⟩
  induction spaces generalizing is with
  | nil => cases h; exact ⟨[], [], [], .nil, .nil, .nil, rfl⟩
  | cons x xs ih =>
    cases h with
    | cons hi hr =>
      rename_i i is
      obtain ⟨ch, as, ms, h1, h2, h3, h4⟩ := ih is hr
      rw [spaceDim_zip] at hi
      obtain ⟨q, hq, a, m, g1, g2, g3⟩ := cell_of_index T.dim _ 0 i hi
      refine ⟨q :: ch, a :: as, m :: ms, .cons hq h1, .cons g1 h2, .cons g2 h3, ?_⟩
      unfold placeOf at h4 ⊢
      simp only [List.zip_cons_cons, List.zipWith_cons_cons, h4]
      rw [← g3, Nat.zero_add]

theorem outer_dense (hL : GroupLaws R T G) (hO : OuterLaws R T F) (hR : R.Lawful) {small : K → Bool}
    (hS : FCutoffExact F small) {big : Mat K → Bool} (hbig : ExactBig big) (hmf : ∀ a b c, R.nSymbol a b c ≤ 1)
    (hA : SideOK R codA lA) (hAd : SideOK R domA dA) (hB : SideOK R codB lB) (hBd : SideOK R domB dB)
    (hc : SideOK R (codA.append codB) lc) (hd : SideOK R (domA.append domB) ld) (ha : FSane lA dA a) (hb : FSane lB dB b) :
    ∃ D, outer R F small big T.dim lA.sectors lB.sectors codA domA codB domB lc ld a b = some D ∧ FSane lc ld D ∧
      ∀ iA iB jA jB, InShape iA (codA.spaces.map (spaceDim T.dim)) → InShape iB (codB.spaces.map (spaceDim T.dim)) →
        InShape jA (domA.spaces.map (spaceDim T.dim)) → InShape jB (domB.spaces.map (spaceDim T.dim)) →
        toDenseCore R T lc.sectors (codA.append codB) (domA.append domB) D (iA ++ iB) (jA ++ jB) =
          toDenseCore R T lA.sectors codA domA a iA jA * toDenseCore R T lB.sectors codB domB b iB jB := by
  obtain ⟨D1, t1, t2, t3⟩ := outer_blocks (a := a) (b := b) hL hO hR hS hA hAd hB hBd hc hd
  obtain ⟨d1, d2⟩ := C61_discard_zero_blocks hc.coupled hd.coupled big D1 t2 fun e _ h r hr t ht =>
    hbig e.2 h r t hr ht
  refine ⟨discardZeroBlocks big D1, by unfold outer; rw [t1]; rfl, d1, fun iA iB jA jB h1 h2 h3 h4 => ?_⟩
  have l1 := h1.length_eq
  have l2 := h2.length_eq
  have l3 := h3.length_eq
  have l4 := h4.length_eq
  simp only [List.length_map] at l1 l2 l3 l4
  have ec : toDenseCore R T lc.sectors (codA.append codB) (domA.append domB) (discardZeroBlocks big D1) (iA ++ iB)
      (jA ++ jB) = toDenseCore R T lc.sectors (codA.append codB) (domA.append domB) D1 (iA ++ iB) (jA ++ jB) := by
    have e1 : (iA ++ iB).length = (codA.append codB).spaces.length := by simp [Side.append, l1, l2]
    have e2 : (jA ++ jB).length = (domA.append domB).spaces.length := by simp [Side.append, l3, l4]
    rw [core_eq hc hd _ d1 _ _ e1 e2, core_eq hc hd _ t2 _ _ e1 e2]
    simp only [d2]
  rw [ec]
  obtain ⟨cA, aA, mA, sA, rfl⟩ := states_of_index codA iA h1
  obtain ⟨cB, aB, mB, sB, rfl⟩ := states_of_index codB iB h2
  obtain ⟨cA', bA, nA, sA', rfl⟩ := states_of_index domA jA h3
  obtain ⟨cB', bB, nB, sB', rfl⟩ := states_of_index domB jB h4
  have k1 := sA.idx.length_eq
  have k2 := sA.deg.length_eq
  have k3 := sA'.idx.length_eq
  have k4 := sA'.deg.length_eq
  simp only [List.length_map] at k1 k2 k3 k4
  have sx := sA.append sB
  have sy := sA'.append sB'
  rw [← placeOf_append cA cB aA aB mA mB k1 k2, ← placeOf_append cA' cB' bA bB nA nB k3 k4,
    dense_pairs hc hd D1 t2 _ _ sx.cell sy.cell _ _ _ _ sx.idx sx.deg sy.idx sy.deg,
    dense_iter hA hAd ha cA cA' sA.cell sA'.cell _ _ _ _ sA.idx sA.deg sA'.idx sA'.deg,
    dense_iter hB hBd hb cB cB' sB.cell sB'.cell _ _ _ _ sB.idx sB.deg sB'.idx sB'.deg, sum_mul_lsum]
  have pe := fun va (hva : va ∈ treeBlockIter R T.dim lA.sectors codA domA a) vb
    (hvb : vb ∈ treeBlockIter R T.dim lB.sectors codB domB b) => pair_entry (a := a) (b := b) (va := va) (vb := vb) hL hO hR hS hmf hA hAd hB hBd hc hd
    sA sB sA' sB' hva hvb
  refine Eq.trans ?_ (sum_congr (M := K) _ fun va hva => sum_congr (M := K) _ fun vb hvb => pe va hva vb hvb)
  have e2 : ∀ va ∈ treeBlockIter R T.dim lA.sectors codA domA a, ((treeBlockIter R T.dim lB.sectors codB domB b).map
      fun vb => (lc.sectors.map fun c => ((layout R T.dim (codA.append codB) c).map fun x =>
      ((layout R T.dim (domA.append domB) c).map fun y =>
        if x.tree.uncoupled = (cA ++ cB).map Cell.sec ∧ y.tree.uncoupled = (cA' ++ cB').map Cell.sec then
          pairTensor T (x.tree, y.tree) (aA ++ aB) (bA ++ bB) *
            ((treeOuter R F small va.2.1 vb.2.1).map fun q => ((treeOuter R F small va.1 vb.1).map fun p =>
              addVal R (codA.append codB) (domA.append domB) c
                (x.start + packRow (makeStride ((cA ++ cB).map Cell.mult) true) (mA ++ mB))
                (y.start + packRow (makeStride ((cA' ++ cB').map Cell.mult) true) (nA ++ nB))
                (outerBlock va.2.2 vb.2.2) q p).sum).sum else 0).sum).sum).sum).sum =
      (lc.sectors.map fun c => ((layout R T.dim (codA.append codB) c).map fun x =>
      ((layout R T.dim (domA.append domB) c).map fun y => ((treeBlockIter R T.dim lB.sectors codB domB b).map fun vb =>
        if x.tree.uncoupled = (cA ++ cB).map Cell.sec ∧ y.tree.uncoupled = (cA' ++ cB').map Cell.sec then
          pairTensor T (x.tree, y.tree) (aA ++ aB) (bA ++ bB) *
            ((treeOuter R F small va.2.1 vb.2.1).map fun q => ((treeOuter R F small va.1 vb.1).map fun p =>
              addVal R (codA.append codB) (domA.append domB) c
                (x.start + packRow (makeStride ((cA ++ cB).map Cell.mult) true) (mA ++ mB))
                (y.start + packRow (makeStride ((cA' ++ cB').map Cell.mult) true) (nA ++ nB))
                (outerBlock va.2.2 vb.2.2) q p).sum).sum else 0).sum).sum).sum).sum := by
    intro va _
    refine (sum_comm _ _ _).trans ?_
    refine sum_congr _ fun c _ => ?_
    refine (sum_comm _ _ _).trans ?_
    refine sum_congr _ fun x _ => ?_
    exact sum_comm _ _ _
  refine Eq.trans ?_ (sum_congr _ e2).symm
  refine Eq.trans ?_ (sum_comm _ _ _)
  refine sum_congr _ fun c _ => ?_
  refine Eq.trans ?_ (sum_comm _ _ _)
  refine sum_congr _ fun x _ => ?_
  refine Eq.trans ?_ (sum_comm _ _ _)
  refine sum_congr _ fun y _ => ?_
  by_cases hu : x.tree.uncoupled = (cA ++ cB).map Cell.sec ∧ y.tree.uncoupled = (cA' ++ cB').map Cell.sec
  · simp only [if_pos hu]
    rw [t3, ListSum.mul_sum]
    refine sum_congr _ fun va _ => ?_
    rw [ListSum.mul_sum]
  · simp only [if_neg hu]
    rw [sum_zero _ _ fun va _ => sum_zero _ _ fun vb _ => rfl]

end Cyten.FT
