import Verif.Lemmas.TreeOuter7

/-! # `FusionTreeBackend::outer`: the dense entries of the result -/

namespace Cyten.FT
open Cyten.FT.Spec Cyten.Tools Cyten.ListSum Cyten.Props Cyten.Spaces Cyten.Spaces.Spec Cyten.Abelian
  Cyten.FusionTrees Cyten.Mappings

variable {S K : Type} [LinearOrder S] [CommRing K] [StarRing K]
variable {R : FusionRule S} {T : FTensors S K} {G : Topo S K} {F : FSym S K}

theorem fused_placed {s1 s2 : Side S} {l1 l2 l : BLeg S} (h1 : SideOK R s1 l1) (h2 : SideOK R s2 l2)
    (h : SideOK R (s1.append s2) l) {dim : S → ℕ} {c1 c2 : S} {x1 x2 : Placed S} (hx1 : x1 ∈ layout R dim s1 c1)
    (hx2 : x2 ∈ layout R dim s2 c2) {T : FTensors S K} {l' : UMap (FusionTree S) K}
    (hf : Fused R T x1.tree x2.tree l') : ∀ p ∈ l', ∃ x ∈ layout R dim (s1.append s2) p.1.coupled, x.tree = p.1 := by
  intro p hp
  obtain ⟨a1, a2, a3⟩ := hf.tree p hp
  obtain ⟨ch1, p1, -, p3, -, p5, -⟩ := h1.placed dim hx1
  obtain ⟨ch2, q1, -, q3, -, q5, -⟩ := h2.placed dim hx2
  refine layout_complete h dim p.1 a1 ?_ (ch1 ++ ch2) ?_ ?_
  · rw [a3, p5, q5]; rfl
  · rw [show (s1.append s2).spaces = s1.spaces ++ s2.spaces from rfl, List.map_append]
    exact List.rel_append p1 q1
  · rw [a2, p3, q3, List.map_append]

section
variable {cod' dom' : Side S} {lc ld : BLeg S}

theorem treesOK_of_placed (h : SideOK R cod' lc) (hR : R.Lawful) {dim : S → ℕ} {xs : UMap (FusionTree S) K}
    (hx : ∀ p ∈ xs, ∃ x ∈ layout R dim cod' p.1.coupled, x.tree = p.1) : TreesOK R cod' lc xs := by
  intro p hp
  obtain ⟨x, h1, h2⟩ := hx p hp
  refine ⟨?_, layout_sector h dim h1⟩
  rw [← h2, treeBlockSlice_layout h hR dim h1]; rfl

theorem slc_layout (h : SideOK R cod' lc) (hR : R.Lawful) {dim : S → ℕ} {c : S} {x : Placed S}
    (hx : x ∈ layout R dim cod' c) : slc R cod' x.tree = (x.start, x.start + cod'.size x.item) := by
  unfold slc
  rw [treeBlockSlice_layout h hR dim hx]; rfl

theorem addVal_layout (hc : SideOK R cod' lc) (hd : SideOK R dom' ld) (hR : R.Lawful) {dim : S → ℕ} {c : S}
    {x y : Placed S} (hx : x ∈ layout R dim cod' c) (hy : y ∈ layout R dim dom' c) {r t : ℕ}
    (hr : r < cod'.size x.item) (ht : t < dom'.size y.item) (b : Mat K) (p q : FusionTree S × K)
    (hp : ∃ x ∈ layout R dim cod' p.1.coupled, x.tree = p.1) (hq : ∃ x ∈ layout R dim dom' q.1.coupled, x.tree = q.1) :
    addVal R cod' dom' c (x.start + r) (y.start + t) b q p =
      if p.1 = x.tree ∧ q.1 = y.tree then star p.2 * q.2 * b.val r t else 0 := by
  obtain ⟨xx, a1, a2⟩ := hp
  obtain ⟨yy, b1, b2⟩ := hq
  have xc := (hc.placed dim hx).choose_spec.2.2.2.1
  have yc := (hd.placed dim hy).choose_spec.2.2.2.1
  unfold addVal
  by_cases h : p.1 = x.tree ∧ q.1 = y.tree
  · rw [if_pos h, h.1, h.2, slc_layout hc hR hx, slc_layout hd hR hy]
    simp only
    rw [if_pos ⟨xc.trans yc.symm, yc, by omega, by omega, by omega, by omega⟩, Nat.add_sub_cancel_left,
      Nat.add_sub_cancel_left]
  · rw [if_neg h, if_neg]
    rintro ⟨e1, e2, e3, e4, e5, e6⟩
    rw [← a2, slc_layout hc hR a1] at e3 e4
    rw [← b2, slc_layout hd hR b1] at e5 e6
    rw [e1, e2] at a1
    rw [e2] at b1
    refine h ⟨?_, ?_⟩
    · rw [← a2, tiles_uniq (hc.tiles dim c) a1 hx e3 e4 (by simp only; omega) (by simp only; omega)]
    · rw [← b2, tiles_uniq (hd.tiles dim c) b1 hy e5 e6 (by simp only; omega) (by simp only; omega)]

theorem sum_pick_tree (h : SideOK R cod' lc) (hR : R.Lawful) {dim : S → ℕ} {c : S} {p : FusionTree S}
    (hp : ∃ x ∈ layout R dim cod' p.coupled, x.tree = p) (f : FusionTree S → K) :
    ((layout R dim cod' c).map fun x => if p = x.tree then f x.tree else 0).sum = if p.coupled = c then f p else 0 := by
  have e : ((layout R dim cod' c).map fun x => if p = x.tree then f x.tree else 0).sum =
      (((layout R dim cod' c).map Placed.tree).map fun t => if p = t then f t else 0).sum := by
    rw [List.map_map]; rfl
  rw [e, sum_single _ (h.tree_nodup hR dim c)]
  obtain ⟨x, h1, h2⟩ := hp
  by_cases hc : p.coupled = c
  · rw [if_pos hc, if_pos]
    rw [← hc]
    exact List.mem_map.2 ⟨x, h1, h2⟩
  · rw [if_neg hc, if_neg]
    intro hm
    obtain ⟨y, hy, rfl⟩ := List.mem_map.1 hm
    exact hc (h.placed dim hy).choose_spec.2.2.2.1

theorem sum_pick_pair (hc : SideOK R cod' lc) (hd : SideOK R dom' ld) (hR : R.Lawful) {dim : S → ℕ}
    {p q : FusionTree S} (hp : ∃ x ∈ layout R dim cod' p.coupled, x.tree = p)
    (hq : ∃ x ∈ layout R dim dom' q.coupled, x.tree = q) (f : FusionTree S → FusionTree S → K) :
    (lc.sectors.map fun c => ((layout R dim cod' c).map fun x => ((layout R dim dom' c).map fun y =>
      if p = x.tree ∧ q = y.tree then f x.tree y.tree else 0).sum).sum).sum =
      if p.coupled = q.coupled then f p q else 0 := by
  have e1 : ∀ c ∈ lc.sectors, ((layout R dim cod' c).map fun x => ((layout R dim dom' c).map fun y =>
      if p = x.tree ∧ q = y.tree then f x.tree y.tree else 0).sum).sum =
      if p.coupled = c then (if q.coupled = c then f p q else 0) else 0 := by
    intro c _
    rw [← sum_pick_tree hc hR hp fun p => if q.coupled = c then f p q else 0]
    refine sum_congr _ fun x _ => ?_
    by_cases h : p = x.tree
    · rw [if_pos h, ← sum_pick_tree hd hR hq fun q => f x.tree q]
      refine sum_congr _ fun y _ => ?_
      by_cases h2 : q = y.tree
      · rw [if_pos ⟨h, h2⟩, if_pos h2]
      · rw [if_neg (fun h' => h2 h'.2), if_neg h2]
    · rw [if_neg h]
      exact sum_zero _ _ fun y _ => if_neg fun h' => h h'.1
  rw [sum_congr _ e1, sum_single _ hc.coupled.nodup]
  obtain ⟨x, h1, -⟩ := hp
  rw [if_pos (layout_sector hc dim h1)]
  by_cases h : p.coupled = q.coupled
  · rw [if_pos h, if_pos h.symm]
  · rw [if_neg h, if_neg (Ne.symm h)]

end

theorem placeOf_append (ch1 ch2 : List (Cell S)) (as1 as2 ms1 ms2 : List ℕ) (h1 : as1.length = ch1.length)
    (h2 : ms1.length = ch1.length) :
    placeOf (ch1 ++ ch2) (as1 ++ as2) (ms1 ++ ms2) = placeOf ch1 as1 ms1 ++ placeOf ch2 as2 ms2 := by
  unfold placeOf
  rw [List.zip_append (by omega), List.zipWith_append (by rw [List.length_zip]; omega)]

theorem inDims_of_inShape {ch : List (Cell S)} {as : List ℕ} (h : InShape as (ch.map fun q => T.dim q.sec)) :
    InDims T (ch.map Cell.sec) as := by
  induction ch generalizing as with
  | nil => cases h; exact List.Forall₂.nil
  | cons q ch ih =>
    cases h with
    | cons h1 h2 => exact List.Forall₂.cons h1 (ih h2)

variable {codA domA codB domB : Side S} {lA dA lB dB lc ld : BLeg S} {a b : FEnts K}

theorem append_iff {u1 u2 v1 v2 : List S} (h : u1.length = v1.length) : u1 ++ u2 = v1 ++ v2 ↔ u1 = v1 ∧ u2 = v2 :=
  ⟨fun e => List.append_inj e h, fun e => by rw [e.1, e.2]⟩

/-- A choice of a state of every leg: the sector, the index within the sector and the index of the multiplicity -/
structure States (T : FTensors S K) (s : Side S) (ch : List (Cell S)) (as ms : List ℕ) : Prop where
  cell : List.Forall₂ (· ∈ ·) ch (s.spaces.map (cells T.dim))
  idx : InShape as (ch.map fun q => T.dim q.sec)
  deg : InShape ms (ch.map Cell.mult)

theorem States.append {s1 s2 : Side S} {ch1 ch2 : List (Cell S)} {as1 as2 ms1 ms2 : List ℕ}
    (h1 : States T s1 ch1 as1 ms1) (h2 : States T s2 ch2 as2 ms2) :
    States T (s1.append s2) (ch1 ++ ch2) (as1 ++ as2) (ms1 ++ ms2) where
  cell := by
    rw [show (s1.append s2).spaces = s1.spaces ++ s2.spaces from rfl, List.map_append]
    exact List.rel_append h1.cell h2.cell
  idx := by rw [List.map_append]; exact List.rel_append h1.idx h2.idx
  deg := by rw [List.map_append]; exact List.rel_append h1.deg h2.deg

/-- What a pair of tree blocks adds to a dense entry of the result -/
theorem pair_entry (hL : GroupLaws R T G) (hO : OuterLaws R T F) (hR : R.Lawful) {small : K → Bool}
    (hS : FCutoffExact F small) (hmf : ∀ a b c, R.nSymbol a b c ≤ 1)
    (hA : SideOK R codA lA) (hAd : SideOK R domA dA) (hB : SideOK R codB lB) (hBd : SideOK R domB dB)
    (hc : SideOK R (codA.append codB) lc) (hd : SideOK R (domA.append domB) ld)
    {cA cB cA' cB' : List (Cell S)} {iA iB jA jB mA mB nA nB : List ℕ} (sA : States T codA cA iA mA)
    (sB : States T codB cB iB mB) (sA' : States T domA cA' jA nA) (sB' : States T domB cB' jB nB)
    {va vb : FusionTree S × FusionTree S × Mat K} (hva : va ∈ treeBlockIter R T.dim lA.sectors codA domA a)
    (hvb : vb ∈ treeBlockIter R T.dim lB.sectors codB domB b) :
    (lc.sectors.map fun c => ((layout R T.dim (codA.append codB) c).map fun x =>
      ((layout R T.dim (domA.append domB) c).map fun y =>
        if x.tree.uncoupled = (cA ++ cB).map Cell.sec ∧ y.tree.uncoupled = (cA' ++ cB').map Cell.sec then
          pairTensor T (x.tree, y.tree) (iA ++ iB) (jA ++ jB) *
            ((treeOuter R F small va.2.1 vb.2.1).map fun q => ((treeOuter R F small va.1 vb.1).map fun p =>
              addVal R (codA.append codB) (domA.append domB) c
                (x.start + packRow (makeStride ((cA ++ cB).map Cell.mult) true) (mA ++ mB))
                (y.start + packRow (makeStride ((cA' ++ cB').map Cell.mult) true) (nA ++ nB))
                (outerBlock va.2.2 vb.2.2) q p).sum).sum else 0).sum).sum).sum =
      entryOf T cA cA' iA mA jA nA va * entryOf T cB cB' iB mB jB nB vb := by
  obtain ⟨ea, hea, ca, hca, xa, hxa, ya, hya, rfl⟩ := mem_treeBlockIter hva
  obtain ⟨eb, heb, cb, hcb, xb, hxb, yb, hyb, rfl⟩ := mem_treeBlockIter hvb
  simp only
  obtain ⟨kA, pA1, pA2, pA3, pA4, pA5, pA6, pA7⟩ := hA.placed T.dim hxa
  obtain ⟨kB, pB1, pB2, pB3, pB4, pB5, pB6, pB7⟩ := hB.placed T.dim hxb
  obtain ⟨kA', qA1, qA2, qA3, qA4, qA5, qA6, qA7⟩ := hAd.placed T.dim hya
  obtain ⟨kB', qB1, qB2, qB3, qB4, qB5, qB6, qB7⟩ := hBd.placed T.dim hyb
  have hF := treeOuter_spec hL hO hR hS xa.tree pA6 xb.tree pB6
  have hF' := treeOuter_spec hL hO hR hS ya.tree qA6 yb.tree qB6
  have hP := fused_placed hA hB hc hxa hxb hF
  have hQ := fused_placed hAd hBd hd hya hyb hF'
  have sx := sA.append sB
  have sy := sA'.append sB'
  set r := packRow (makeStride ((cA ++ cB).map Cell.mult) true) (mA ++ mB) with hr
  set t := packRow (makeStride ((cA' ++ cB').map Cell.mult) true) (nA ++ nB) with ht
  set B := outerBlock (treeBlock codA domA xa ya ea.2) (treeBlock codB domB xb yb eb.2) with hBdef
  -- use the layout
  have e1 : ∀ c ∈ lc.sectors, ∀ x ∈ layout R T.dim (codA.append codB) c, ∀ y ∈ layout R T.dim (domA.append domB) c,
      (if x.tree.uncoupled = (cA ++ cB).map Cell.sec ∧ y.tree.uncoupled = (cA' ++ cB').map Cell.sec then
          pairTensor T (x.tree, y.tree) (iA ++ iB) (jA ++ jB) *
            ((treeOuter R F small ya.tree yb.tree).map fun q => ((treeOuter R F small xa.tree xb.tree).map fun p =>
              addVal R (codA.append codB) (domA.append domB) c (x.start + r) (y.start + t) B q p).sum).sum else 0) =
        ((treeOuter R F small ya.tree yb.tree).map fun q => ((treeOuter R F small xa.tree xb.tree).map fun p =>
          if p.1 = x.tree ∧ q.1 = y.tree then
            (if x.tree.uncoupled = (cA ++ cB).map Cell.sec ∧ y.tree.uncoupled = (cA' ++ cB').map Cell.sec then
              star p.2 * q.2 * pairTensor T (x.tree, y.tree) (iA ++ iB) (jA ++ jB) * B.val r t else 0)
            else 0).sum).sum := by
    intro c _ x hx y hy
    by_cases hu : x.tree.uncoupled = (cA ++ cB).map Cell.sec ∧ y.tree.uncoupled = (cA' ++ cB').map Cell.sec
    · simp only [if_pos hu]
      obtain ⟨k1, w1, w2, w3, -, -, -, w7⟩ := hc.placed T.dim hx
      obtain ⟨k2, z1, z2, z3, -, -, -, z7⟩ := hd.placed T.dim hy
      obtain rfl := forall2_sec hc.good w1 sx.cell (w3.symm.trans hu.1)
      obtain rfl := forall2_sec hd.good z1 sy.cell (z3.symm.trans hu.2)
      have hr' : r < (codA.append codB).size x.item := by rw [w7]; exact packRow_lt sx.deg
      have ht' : t < (domA.append domB).size y.item := by rw [z7]; exact packRow_lt sy.deg
      rw [ListSum.mul_sum]
      refine sum_congr _ fun q hq => ?_
      rw [ListSum.mul_sum]
      refine sum_congr _ fun p hp => ?_
      rw [addVal_layout hc hd hR hx hy hr' ht' B p q (hP p hp) (hQ q hq)]
      by_cases h : p.1 = x.tree ∧ q.1 = y.tree
      · rw [if_pos h, if_pos h]; ring
      · rw [if_neg h, if_neg h, mul_zero]
    · simp only [if_neg hu]
      symm
      exact sum_zero _ _ fun q _ => sum_zero _ _ fun p _ => by split <;> rfl
  rw [sum_congr _ fun c hc' => sum_congr _ fun x hx => sum_congr _ fun y hy => e1 c hc' x hx y hy]
  -- the sums over the new trees first
  have e2 : (lc.sectors.map fun c => ((layout R T.dim (codA.append codB) c).map fun x =>
      ((layout R T.dim (domA.append domB) c).map fun y =>
        ((treeOuter R F small ya.tree yb.tree).map fun q => ((treeOuter R F small xa.tree xb.tree).map fun p =>
          if p.1 = x.tree ∧ q.1 = y.tree then
            (if x.tree.uncoupled = (cA ++ cB).map Cell.sec ∧ y.tree.uncoupled = (cA' ++ cB').map Cell.sec then
              star p.2 * q.2 * pairTensor T (x.tree, y.tree) (iA ++ iB) (jA ++ jB) * B.val r t else 0)
            else 0).sum).sum).sum).sum).sum =
      ((treeOuter R F small ya.tree yb.tree).map fun q => ((treeOuter R F small xa.tree xb.tree).map fun p =>
        (lc.sectors.map fun c => ((layout R T.dim (codA.append codB) c).map fun x =>
          ((layout R T.dim (domA.append domB) c).map fun y => if p.1 = x.tree ∧ q.1 = y.tree then
            (if x.tree.uncoupled = (cA ++ cB).map Cell.sec ∧ y.tree.uncoupled = (cA' ++ cB').map Cell.sec then
              star p.2 * q.2 * pairTensor T (x.tree, y.tree) (iA ++ iB) (jA ++ jB) * B.val r t else 0)
            else 0).sum).sum).sum).sum).sum := by
    have f1 : ∀ c ∈ lc.sectors, ((layout R T.dim (codA.append codB) c).map fun x =>
      ((layout R T.dim (domA.append domB) c).map fun y =>
        ((treeOuter R F small ya.tree yb.tree).map fun q => ((treeOuter R F small xa.tree xb.tree).map fun p =>
          if p.1 = x.tree ∧ q.1 = y.tree then
            (if x.tree.uncoupled = (cA ++ cB).map Cell.sec ∧ y.tree.uncoupled = (cA' ++ cB').map Cell.sec then
              star p.2 * q.2 * pairTensor T (x.tree, y.tree) (iA ++ iB) (jA ++ jB) * B.val r t else 0)
            else 0).sum).sum).sum).sum =
        ((treeOuter R F small ya.tree yb.tree).map fun q => ((treeOuter R F small xa.tree xb.tree).map fun p =>
          ((layout R T.dim (codA.append codB) c).map fun x => ((layout R T.dim (domA.append domB) c).map fun y =>
            if p.1 = x.tree ∧ q.1 = y.tree then
            (if x.tree.uncoupled = (cA ++ cB).map Cell.sec ∧ y.tree.uncoupled = (cA' ++ cB').map Cell.sec then
              star p.2 * q.2 * pairTensor T (x.tree, y.tree) (iA ++ iB) (jA ++ jB) * B.val r t else 0)
            else 0).sum).sum).sum).sum := by
      intro c _
      rw [sum_congr _ fun x _ => sum_comm _ _ _, sum_comm]
      refine sum_congr _ fun q _ => ?_
      rw [sum_congr _ fun x _ => sum_comm _ _ _, sum_comm]
    rw [sum_congr _ f1, sum_comm]
    refine sum_congr _ fun q _ => ?_
    rw [sum_comm]
  rw [e2]
  have e3 : ∀ q ∈ treeOuter R F small ya.tree yb.tree, ∀ p ∈ treeOuter R F small xa.tree xb.tree,
      (lc.sectors.map fun c => ((layout R T.dim (codA.append codB) c).map fun x =>
          ((layout R T.dim (domA.append domB) c).map fun y => if p.1 = x.tree ∧ q.1 = y.tree then
            (if x.tree.uncoupled = (cA ++ cB).map Cell.sec ∧ y.tree.uncoupled = (cA' ++ cB').map Cell.sec then
              star p.2 * q.2 * pairTensor T (x.tree, y.tree) (iA ++ iB) (jA ++ jB) * B.val r t else 0)
            else 0).sum).sum).sum = if p.1.coupled = q.1.coupled then
          (if p.1.uncoupled = (cA ++ cB).map Cell.sec ∧ q.1.uncoupled = (cA' ++ cB').map Cell.sec then
            star p.2 * q.2 * pairTensor T (p.1, q.1) (iA ++ iB) (jA ++ jB) * B.val r t else 0) else 0 := by
    intro q hq p hp
    exact sum_pick_pair hc hd hR (hP p hp) (hQ q hq) fun x y =>
      if x.uncoupled = (cA ++ cB).map Cell.sec ∧ y.uncoupled = (cA' ++ cB').map Cell.sec then
        star p.2 * q.2 * pairTensor T (x, y) (iA ++ iB) (jA ++ jB) * B.val r t else 0
  rw [sum_congr _ fun q hq => sum_congr _ fun p hp => e3 q hq p hp]
  -- the uncoupled sectors
  have lA1 : kA.length = cA.length := by have := pA1.length_eq; have := sA.cell.length_eq; omega
  have lA2 : kA'.length = cA'.length := by have := qA1.length_eq; have := sA'.cell.length_eq; omega
  have hu : ∀ q ∈ treeOuter R F small ya.tree yb.tree, ∀ p ∈ treeOuter R F small xa.tree xb.tree,
      ((p.1.uncoupled = (cA ++ cB).map Cell.sec ∧ q.1.uncoupled = (cA' ++ cB').map Cell.sec) ↔
        ((xa.tree.uncoupled = cA.map Cell.sec ∧ ya.tree.uncoupled = cA'.map Cell.sec) ∧
          (xb.tree.uncoupled = cB.map Cell.sec ∧ yb.tree.uncoupled = cB'.map Cell.sec))) := by
    intro q hq p hp
    rw [(hF.tree p hp).2.1, (hF'.tree q hq).2.1, List.map_append, List.map_append,
      append_iff (by rw [pA3, List.length_map, List.length_map, lA1]),
      append_iff (by rw [qA3, List.length_map, List.length_map, lA2])]
    tauto
  unfold entryOf
  simp only
  by_cases h1 : xa.tree.uncoupled = cA.map Cell.sec ∧ ya.tree.uncoupled = cA'.map Cell.sec
  · by_cases h2 : xb.tree.uncoupled = cB.map Cell.sec ∧ yb.tree.uncoupled = cB'.map Cell.sec
    · rw [if_pos h1, if_pos h2]
      obtain rfl := forall2_sec hA.good pA1 sA.cell (pA3.symm.trans h1.1)
      obtain rfl := forall2_sec hAd.good qA1 sA'.cell (qA3.symm.trans h1.2)
      obtain rfl := forall2_sec hB.good pB1 sB.cell (pB3.symm.trans h2.1)
      obtain rfl := forall2_sec hBd.good qB1 sB'.cell (qB3.symm.trans h2.2)
      have hval : B.val r t = (treeBlock codA domA xa ya ea.2).val (packRow (makeStride (kA.map Cell.mult) true) mA)
          (packRow (makeStride (kA'.map Cell.mult) true) nA) * (treeBlock codB domB xb yb eb.2).val
            (packRow (makeStride (kB.map Cell.mult) true) mB) (packRow (makeStride (kB'.map Cell.mult) true) nB) := by
        rw [hr, ht, List.map_append, List.map_append, packC_append _ _ _ _ sA.deg.length_eq,
          packC_append _ _ _ _ sA'.deg.length_eq]
        have r1 : (treeBlock codB domB xb yb eb.2).rows = (kB.map Cell.mult).prod := by
          rw [← pB7]; exact Nat.add_sub_cancel_left _ _
        have r2 : (treeBlock codB domB xb yb eb.2).cols = (kB'.map Cell.mult).prod := by
          rw [← qB7]; exact Nat.add_sub_cancel_left _ _
        have r3 : (treeBlock codA domA xa ya ea.2).rows = (kA.map Cell.mult).prod := by
          rw [← pA7]; exact Nat.add_sub_cancel_left _ _
        have r4 : (treeBlock codA domA xa ya ea.2).cols = (kA'.map Cell.mult).prod := by
          rw [← qA7]; exact Nat.add_sub_cancel_left _ _
        rw [← r1, ← r2]
        exact outerBlock_val _ _ _ _ _ _ (by rw [r3]; exact packRow_lt sA.deg) (by rw [r4]; exact packRow_lt sA'.deg)
          (by rw [r1]; exact packRow_lt sB.deg) (by rw [r2]; exact packRow_lt sB'.deg)
      have e4 := fused_pairs hO hR (pA4.trans qA4.symm) (pB4.trans qB4.symm) (fun c => hmf _ _ c) hF hF' iA iB jA jB
        (by rw [pA3]; exact inDims_of_inShape sA.idx) (by rw [pB3]; exact inDims_of_inShape sB.idx)
        (by rw [qA3]; exact inDims_of_inShape sA'.idx) (by rw [qB3]; exact inDims_of_inShape sB'.idx)
      have e5 : ∀ q ∈ treeOuter R F small ya.tree yb.tree, ∀ p ∈ treeOuter R F small xa.tree xb.tree,
          (if p.1.coupled = q.1.coupled then
          (if p.1.uncoupled = (kA ++ kB).map Cell.sec ∧ q.1.uncoupled = (kA' ++ kB').map Cell.sec then
            star p.2 * q.2 * pairTensor T (p.1, q.1) (iA ++ iB) (jA ++ jB) * B.val r t else 0) else 0) =
          (if p.1.coupled = q.1.coupled then star p.2 * q.2 * pairTensor T (p.1, q.1) (iA ++ iB) (jA ++ jB) else 0) *
            B.val r t := by
        intro q hq p hp
        rw [if_pos ((hu q hq p hp).2 ⟨h1, h2⟩)]
        by_cases h : p.1.coupled = q.1.coupled
        · rw [if_pos h, if_pos h]
        · rw [if_neg h, if_neg h, zero_mul]
      rw [sum_congr _ fun q hq => sum_congr _ fun p hp => e5 q hq p hp]
      rw [sum_congr _ fun q hq => (ListSum.sum_mul _ _ _).symm, ← ListSum.sum_mul, e4, hval]
      ring
    · rw [if_neg h2, mul_zero]
      refine sum_zero _ _ fun q hq => sum_zero _ _ fun p hp => ?_
      rw [if_neg (fun h => h2 ((hu q hq p hp).1 h).2)]
      split <;> rfl
  · rw [if_neg h1, zero_mul]
    refine sum_zero _ _ fun q hq => sum_zero _ _ fun p hp => ?_
    rw [if_neg (fun h => h1 ((hu q hq p hp).1 h).1)]
    split <;> rfl

end Cyten.FT
