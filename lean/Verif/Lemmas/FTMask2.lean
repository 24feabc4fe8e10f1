import Verif.Lemmas.FTMask

/-! # The loops of `_mask_contract` of the fusion tree backend -/

namespace Cyten.FT
open Cyten.FT.Spec Cyten.Tools Cyten.ListSum Cyten.Props Cyten.Spaces Cyten.Spaces.Spec Cyten.Abelian
  Cyten.FusionTrees

variable {S K A : Type} [LinearOrder S]

/-! ## Lookups of mask blocks -/

theorem searchCol_map2 {B : Type} (D : List ((ℕ × ℕ) × A)) (g : (ℕ × ℕ) × A → (ℕ × ℕ) × B)
    (hg : ∀ e, (g e).1.2 = e.1.2) (v fuel lo hi : ℕ) : searchCol (D.map g) v fuel lo hi = searchCol D v fuel lo hi := by
  induction fuel generalizing lo hi with
  | zero => rfl
  | succ n ih =>
    unfold searchCol
    simp only [List.getElem?_map, Option.map_map, Function.comp_def, hg, ih]

theorem blockInd_map2 {B : Type} (D : List ((ℕ × ℕ) × A)) (g : (ℕ × ℕ) × A → (ℕ × ℕ) × B)
    (hg : ∀ e, (g e).1.2 = e.1.2) (leg : BLeg S) (c : S) :
    blockIndFromCoupled (D.map g) leg c = blockIndFromCoupled D leg c := by
  unfold blockIndFromCoupled blockIndFromDomain
  simp only [List.length_map, searchCol_map2 D g hg, List.getElem?_map, Option.map_map, Function.comp_def, hg]

theorem lookup_mask {large small : SpaceData S} {dom : BLeg S} {D : List ((ℕ × ℕ) × List Bool)} {mk : S → List Bool}
    (h : MaskOK large small dom D mk) (u : S) :
    (0 < (mk u).count true ∧ ∃ (n : ℕ) (e : (ℕ × ℕ) × List Bool), blockIndFromCoupled D dom u = some (some n) ∧
      D[n]? = some e ∧ e.2 = mk u) ∨
    ((mk u).count true = 0 ∧ blockIndFromCoupled D dom u = some none) := by
  let g : (ℕ × ℕ) × List Bool → (ℕ × ℕ) × Mat Unit := fun e =>
    ((e.1.2, e.1.2), ⟨dom.mults.getD e.1.2 0, dom.mults.getD e.1.2 0, fun _ _ => ()⟩)
  have hs : FSane dom dom (D.map g) := by
    refine ⟨fun e he => ?_, fun e he => ?_, ?_⟩
    · obtain ⟨x, hx, rfl⟩ := List.mem_map.1 he
      have h2 := h.bound x hx
      exact ⟨dom.sectors[x.1.2], List.getElem?_eq_getElem h2, List.getElem?_eq_getElem h2⟩
    · obtain ⟨x, hx, rfl⟩ := List.mem_map.1 he
      exact ⟨rfl, rfl⟩
    · rw [List.map_map]
      exact h.sorted
  rw [← blockInd_map2 D g (fun _ => rfl)]
  rcases C61_block_ind_from_coupled h.coupled _ hs u with ⟨n, e, h1, h2, h3⟩ | ⟨h1, h2⟩
  · rw [List.getElem?_map] at h2
    obtain ⟨x, hx, rfl⟩ := Option.map_eq_some_iff.1 h2
    have hxm := List.mem_of_getElem? hx
    exact Or.inl ⟨(h.stored u).1 ⟨x, hxm, h3⟩, n, x, h1, hx, h.block x hxm u h3⟩
  · refine Or.inr ⟨?_, h1⟩
    by_contra hn
    obtain ⟨e, he, heu⟩ := (h.stored u).2 (Nat.pos_of_ne_zero hn)
    exact h2 (g e) (List.mem_map.2 ⟨e, he, rfl⟩) heu

/-! ## The spaces before and after -/

theorem mem_sectors_of_mult {x : SpaceData S} {u : S} (h : 0 < x.sectorMultiplicity u) : u ∈ x.sectors := by
  unfold SpaceData.sectorMultiplicity at h
  cases hf : (x.sectors.zip x.mults).find? fun p => p.1 == u with
  | none => rw [hf] at h; simp at h
  | some p =>
    have h1 := List.find?_some hf
    have h2 := List.mem_of_find?_eq_some hf
    obtain rfl : p.1 = u := by simpa using h1
    exact (List.of_mem_zip h2).1

theorem mult_of_mem_sectors {x : SpaceData S} (hx : GoodSpace x) (hp : ∀ m ∈ x.mults, 0 < m) {u : S} (h : u ∈ x.sectors) :
    0 < x.sectorMultiplicity u := by
  obtain ⟨k, hk, hke⟩ := List.getElem_of_mem h
  have hk2 : k < x.mults.length := by rw [← hx.len]; exact hk
  have hum : (u, x.mults[k]) ∈ x.sectors.zip x.mults := by
    rw [List.mem_iff_getElem?]
    exact ⟨k, by rw [List.getElem?_zip_eq_some]; exact ⟨by rw [List.getElem?_eq_getElem hk, hke], List.getElem?_eq_getElem hk2⟩⟩
  have := sectorMult' x hx _ hum
  simp only at this
  rw [this]
  exact hp _ (List.getElem_mem hk2)

/-- The side of the leg before (`s`) and after (`s'`) the contraction with the mask -/
structure MaskSides (R : FusionRule S) (g : Bool) (idx : ℕ) (s s' : Side S) (l l' : BLeg S) (old new : SpaceData S)
    (dom : BLeg S) (D : List ((ℕ × ℕ) × List Bool)) (mk : S → List Bool) : Prop where
  ok : SideOK R s l
  ok' : SideOK R s' l'
  mask : MaskOK (if g then old else new) (if g then new else old) dom D mk
  get : s.spaces[idx]? = some old
  spaces : s'.spaces = s.spaces.set idx new
  dual : s'.areDual = s.areDual

variable {R : FusionRule S} {g : Bool} {idx : ℕ} {s s' : Side S} {l l' : BLeg S} {old new : SpaceData S}
  {dom : BLeg S} {D : List ((ℕ × ℕ) × List Bool)} {mk : S → List Bool}

theorem MaskSides.idx_lt (h : MaskSides R g idx s s' l l' old new dom D mk) : idx < s.spaces.length :=
  (List.getElem?_eq_some_iff.1 h.get).1

theorem MaskSides.old_mem (h : MaskSides R g idx s s' l l' old new dom D mk) : old ∈ s.spaces :=
  List.mem_of_getElem? h.get

theorem MaskSides.new_mem (h : MaskSides R g idx s s' l l' old new dom D mk) : new ∈ s'.spaces := by
  rw [h.spaces]
  exact List.mem_set h.idx_lt new

theorem MaskSides.back (h : MaskSides R g idx s s' l l' old new dom D mk) : s.spaces = s'.spaces.set idx old := by
  rw [h.spaces, List.set_set]
  obtain ⟨h1, h2⟩ := List.getElem?_eq_some_iff.1 h.get
  rw [← h2]
  exact (List.set_getElem_self h1).symm

theorem MaskSides.old_mult (h : MaskSides R g idx s s' l l' old new dom D mk) (u : S) :
    old.sectorMultiplicity u = if g then (mk u).length else countTrue (mk u) := by
  have h1 := h.mask.largeMult u
  have h2 := h.mask.smallMult u
  cases g
  · exact h2
  · exact h1

theorem MaskSides.new_mult (h : MaskSides R g idx s s' l l' old new dom D mk) (u : S) :
    new.sectorMultiplicity u = if g then countTrue (mk u) else (mk u).length := by
  have h1 := h.mask.largeMult u
  have h2 := h.mask.smallMult u
  cases g
  · exact h1
  · exact h2

theorem MaskSides.both_pos (h : MaskSides R g idx s s' l l' old new dom D mk) {u : S} (hu : 0 < (mk u).count true) :
    u ∈ old.sectors ∧ u ∈ new.sectors := by
  have hl : 0 < (mk u).length := lt_of_lt_of_le hu List.count_le_length
  constructor
  · apply mem_sectors_of_mult
    rw [h.old_mult]
    cases g
    · exact hu
    · exact hl
  · apply mem_sectors_of_mult
    rw [h.new_mult]
    cases g
    · exact hl
    · exact hu

/-- The multiplicity of the leg in an item -/
theorem item_mult_get {spaces : List (SpaceData S)} (hg : ∀ x ∈ spaces, GoodSpace x) {unc : List S} {mults : List ℕ}
    (h : (unc, mults) ∈ TProd.iterUncoupled spaces) {i : ℕ} {x : SpaceData S} {u : S} (hx : spaces[i]? = some x)
    (hu : unc[i]? = some u) : mults[i]? = some (x.sectorMultiplicity u) := by
  have := (item_mults hg _ h).1
  simp only at this
  rw [← this, List.getElem?_zipWith, hx, hu]

theorem item_sector {spaces : List (SpaceData S)} (hg : ∀ x ∈ spaces, GoodSpace x) {unc : List S} {mults : List ℕ}
    (h : (unc, mults) ∈ TProd.iterUncoupled spaces) {i : ℕ} {x : SpaceData S} {u : S} (hx : spaces[i]? = some x)
    (hu : unc[i]? = some u) : u ∈ x.sectors := by
  rw [iterUncoupled_eq _ hg] at h
  obtain ⟨ch, hc0, he⟩ := List.mem_map.1 h
  have hc := mem_choices.1 hc0
  obtain ⟨h1, h2⟩ := Prod.ext_iff.1 he
  simp only at h1
  rw [← h1, List.getElem?_map] at hu
  obtain ⟨q, hq, rfl⟩ := Option.map_eq_some_iff.1 hu
  unfold pairs at hc
  obtain ⟨a1, a2⟩ := List.getElem?_eq_some_iff.1 hx
  obtain ⟨b1, b2⟩ := List.getElem?_eq_some_iff.1 hq
  have := (List.forall₂_iff_get.1 hc).2 i b1 (by simpa using a1)
  simp only [List.get_eq_getElem, List.getElem_map, a2, b2] at this
  exact (List.of_mem_zip this).1

/-- The result of one forest block of the side before -/
def forestOut [Zero K] (d g : Bool) (idx : ℕ) (spaces : List (SpaceData S)) (mk : S → List Bool) (M : Mat K)
    (fb : List S × (ℕ × ℕ)) (u : S) : Blk K :=
  maskForest d g idx (List.zipWith (fun (x : SpaceData S) s => x.sectorMultiplicity s) spaces fb.1)
    (forestSlice d M fb.2) (mk u)

theorem maskBlock_spec [Zero K] (h : MaskSides R g idx s s' l l' old new dom D mk) (d : Bool) (c : S) (M : Mat K)
    (fbs : List (List S × (ℕ × ℕ))) (hsub : ∀ fb ∈ fbs, fb ∈ TProd.iterForestBlocks R s.spaces c)
    (hn : (fbs.map Prod.fst).Nodup) (acc : Mat K) :
    ∃ A, maskBlock R d g idx s.spaces s'.spaces dom D c M fbs acc = some A ∧ A.rows = acc.rows ∧ A.cols = acc.cols ∧
      ∀ fb' ∈ TProd.iterForestBlocks R s'.spaces c, ∀ p q, fb'.2.1 ≤ p → p < fb'.2.2 → q < otherDim d acc →
        (∀ fb ∈ fbs, ∀ u, fb.1 = fb'.1 → fb.1[idx]? = some u → 0 < (mk u).count true →
          sideVal d A p q = (forestOut d g idx s.spaces mk M fb u).val (pos2 d (p - fb'.2.1) q)) ∧
        ((∀ fb ∈ fbs, ∀ u, fb.1 = fb'.1 → fb.1[idx]? = some u → (mk u).count true = 0) →
          sideVal d A p q = sideVal d acc p q) := by
  induction fbs generalizing acc with
  | nil => exact ⟨acc, rfl, rfl, rfl, fun fb' _ p q _ _ _ => ⟨by simp, fun _ => rfl⟩⟩
  | cons fb fbs ih =>
    rw [List.map_cons, List.nodup_cons] at hn
    have hfb := hsub fb List.mem_cons_self
    obtain ⟨i1, i2, mults, i3, i4, i5, i6, i7, i8⟩ := forest_info R c h.ok.good fb hfb
    obtain ⟨u, hu⟩ : ∃ u, fb.1[idx]? = some u := ⟨_, List.getElem?_eq_getElem (by rw [i2]; exact h.idx_lt)⟩
    rw [maskBlock, hu]
    simp only []
    have hne : ∀ fb2 ∈ fbs, fb2.1 ≠ fb.1 := fun fb2 h2 he => hn.1 (he ▸ List.mem_map.2 ⟨fb2, h2, rfl⟩)
    rcases lookup_mask h.mask u with ⟨hpos, n, e, k1, k2, k3⟩ | ⟨hz, k1⟩
    · rw [k1]
      simp only [k2, Option.map_some, Option.getD_some, k3]
      -- the forest block after the contraction
      obtain ⟨u1, u2⟩ := h.both_pos hpos
      have hitem' := swap_item h.ok.good (h.ok'.good new h.new_mem) i3 hu u2
      rw [← h.spaces] at hitem'
      obtain ⟨sl', hsl'⟩ := forest_of_item R c fb.1 _ hitem'
        (prod_set_pos i4 (mult_of_mem_sectors (h.ok'.good new h.new_mem) (h.ok'.pos new h.new_mem) u2)) i5
      obtain ⟨j1, -⟩ := forest_info R c h.ok'.good _ hsl'
      simp only at j1
      rw [j1]
      simp only []
      obtain ⟨A, a1, a2, a3, a4⟩ := ih (fun x hx => hsub x (List.mem_cons_of_mem _ hx)) hn.2
        (setForest d acc sl' (forestOut d g idx s.spaces mk M fb u))
      refine ⟨A, a1, a2, a3, fun fb' hfb' p q p1 p2 hq => ?_⟩
      obtain ⟨b1, b2⟩ := a4 fb' hfb' p q p1 p2 hq
      have htiles := forestBlocks_tiles R c (TProd.iterUncoupled s'.spaces) 0
      have hset := setForest_val d acc sl' (forestOut d g idx s.spaces mk M fb u) p q hq
      by_cases hf : fb'.1 = fb.1
      · have hfb2 : fb' = (fb.1, sl') := by
          have h1 := (forest_info R c h.ok'.good _ hfb').1
          rw [hf, j1] at h1
          exact Prod.ext hf (Option.some.inj h1).symm
        subst hfb2
        have hA : sideVal d A p q = (forestOut d g idx s.spaces mk M fb u).val (pos2 d (p - sl'.1) q) := by
          rw [b2 fun fb2 h2 _ he => absurd he (hne fb2 h2), hset, if_pos ⟨p1, p2⟩]
        refine ⟨fun fb2 h2 u' he hu' _ => ?_, fun hall => ?_⟩
        · rcases List.mem_cons.1 h2 with rfl | h2
          · obtain rfl : u = u' := Option.some.inj (hu.symm.trans hu')
            exact hA
          · exact absurd he (hne fb2 h2)
        · have := hall fb List.mem_cons_self u rfl hu
          omega
      · have hout : ¬ (sl'.1 ≤ p ∧ p < sl'.2) := by
          intro hin
          have := tiles_same htiles hfb' hsl' ⟨p1, p2⟩ hin
          exact hf (by rw [this])
        rw [if_neg hout] at hset
        refine ⟨fun fb2 h2 u' he hu' hp' => ?_, fun hall => ?_⟩
        · rcases List.mem_cons.1 h2 with rfl | h2
          · exact absurd he.symm hf
          · exact b1 fb2 h2 u' he hu' hp'
        · rw [b2 fun fb2 h2 u' he hu' => hall fb2 (List.mem_cons_of_mem _ h2) u' he hu', hset]
    · rw [k1]
      simp only []
      obtain ⟨A, a1, a2, a3, a4⟩ := ih (fun x hx => hsub x (List.mem_cons_of_mem _ hx)) hn.2 acc
      refine ⟨A, a1, a2, a3, fun fb' hfb' p q p1 p2 hq => ?_⟩
      obtain ⟨b1, b2⟩ := a4 fb' hfb' p q p1 p2 hq
      refine ⟨fun fb2 h2 u' he hu' hp' => ?_, fun hall => ?_⟩
      · rcases List.mem_cons.1 h2 with rfl | h2
        · obtain rfl : u = u' := Option.some.inj (hu.symm.trans hu')
          omega
        · exact b1 fb2 h2 u' he hu' hp'
      · exact b2 fun fb2 h2 u' he hu' => hall fb2 (List.mem_cons_of_mem _ h2) u' he hu'

/-! ## Trees before and after -/

theorem tree_unc {R : FusionRule S} {s : Side S} {l : BLeg S} (h : SideOK R s l) {c : S} {unc : List S}
    (hlen : unc.length = s.spaces.length) {k : ℕ} {t : FusionTree S}
    (ht : (allTrees R unc c s.areDual)[k]? = some t) : t.uncoupled = unc ∧ k < size R unc c := by
  refine ⟨?_, ?_⟩
  · obtain ⟨g1, -⟩ := (C01_all_trees_exactly_sane R unc c s.areDual (by rw [h.dual, hlen]) t).1
      (List.mem_of_getElem? ht)
    exact g1
  · have := (List.getElem?_eq_some_iff.1 ht).1
    rwa [length_allTrees] at this

theorem treeRow_lt {R : FusionRule S} {s : Side S} {l : BLeg S} (h : SideOK R s l) {c : S} {t : FusionTree S}
    {ms : List ℕ} {p : ℕ} (hr : TreeRow R s c t ms p) : p < Spec.mult l c := by
  obtain ⟨st, en, mults, htb, hms, hp⟩ := hr
  have ht := treeBlocks_tiles R s.areDual c (TProd.iterUncoupled s.spaces) 0
  rw [Nat.zero_add, items_sum R h.good c, ← h.mult c] at ht
  have hu := tiles_unique ht p
  by_contra hn
  rw [if_neg (by omega), List.length_eq_zero_iff, List.filter_eq_nil_iff] at hu
  obtain ⟨pre, item, post, h1, k, h2, h3, h4⟩ := treeBlocks_mem R s.areDual c _ 0 _ htb
  simp only at h3 h4
  obtain ⟨h5, h6⟩ := Prod.ext_iff.1 h4
  simp only at h5 h6
  have hlt := packRow_lt hms
  have := hu (st, en) (List.mem_map.2 ⟨_, htb, rfl⟩)
  rw [h3] at hlt hp
  simp only [decide_eq_true_eq] at this
  omega

/-- The row after the contraction, the row before it and the values -/
theorem maskRow [Zero K] (h : MaskSides R g idx s s' l l' old new dom D mk) (d : Bool) (c : S) (M : Mat K)
    (hT : d = true ∨ ∀ unc, unc.length = s.spaces.length → size R unc c ≤ 1) (m n : ℕ) :
    ∃ A, maskBlock R d g idx s.spaces s'.spaces dom D c M (TProd.iterForestBlocks R s.spaces c) (Mat.zeros m n) = some A ∧
      A.rows = m ∧ A.cols = n ∧
      ∀ (t : FusionTree S) (ms : List ℕ) (u : S) (p q : ℕ), TreeRow R s' c t ms p → t.uncoupled[idx]? = some u →
        q < otherDim d M → q < (if d then m else n) →
        match oldIdx g (mk u) (ms.getD idx 0) with
        | some j => ∃ p', TreeRow R s c t (ms.set idx j) p' ∧ sideVal d A p q = sideVal d M p' q
        | none => sideVal d A p q = 0 := by
  obtain ⟨A, a1, a2, a3, a4⟩ := maskBlock_spec h d c M _ (fun _ h => h) (forest_nodup R c h.ok.good) (Mat.zeros m n)
  refine ⟨A, a1, a2, a3, fun t ms u p q hr hu hq hq' => ?_⟩
  have hzero : sideVal d (Mat.zeros m n : Mat K) p q = 0 := by cases d <;> rfl
  obtain ⟨fb', hfb', mults', k, r1, r2, r3, r4⟩ := (treeRow_iff R h.ok'.good c t ms p).1 hr
  obtain ⟨f1, f2, mults2, f3, f4, f5, f6, f7, f8⟩ := forest_info R c h.ok'.good fb' hfb'
  have hmm : mults2 = mults' := by
    have := (item_mults h.ok'.good _ r1).1
    simp only at this
    rw [← this, f8]
  subst hmm
  obtain ⟨tu, tk⟩ := tree_unc h.ok' f2 r2
  rw [tu] at hu
  have hp1 : fb'.2.1 ≤ p := by omega
  have hp2 : p < fb'.2.2 := by
    have h1 := packRow_lt r3
    have h2 : (k + 1) * mults2.prod ≤ size R fb'.1 c * mults2.prod := Nat.mul_le_mul_right _ tk
    have h3 : (k + 1) * mults2.prod = k * mults2.prod + mults2.prod := by ring
    omega
  have hqd : q < otherDim d (Mat.zeros m n : Mat K) := by cases d <;> exact hq'
  obtain ⟨b1, b2⟩ := a4 fb' hfb' p q hp1 hp2 hqd
  have hnewget : s'.spaces[idx]? = some new := by
    rw [h.spaces, List.getElem?_set_self h.idx_lt]
  have hmnew : mults2[idx]? = some (if g then countTrue (mk u) else (mk u).length) := by
    rw [item_mult_get h.ok'.good r1 hnewget hu, h.new_mult]
  by_cases hpos : 0 < (mk u).count true
  · obtain ⟨u1, u2⟩ := h.both_pos hpos
    have hold := h.ok.good old h.old_mem
    have hopos := mult_of_mem_sectors hold (h.ok.pos old h.old_mem) u1
    have hitem := swap_item h.ok'.good hold r1 hu u1
    rw [← h.back] at hitem
    have hpp : 0 < (mults2.set idx (old.sectorMultiplicity u)).prod := prod_set_pos f4 hopos
    obtain ⟨sl, hsl⟩ := forest_of_item R c fb'.1 _ hitem hpp f5
    obtain ⟨-, -, mults3, e3, -, -, e6, e7, e8⟩ := forest_info R c h.ok.good _ hsl
    simp only at e3 e6 e7 e8
    have hm3 : mults3 = mults2.set idx (old.sectorMultiplicity u) := by
      have := (item_mults h.ok.good _ hitem).1
      simp only at this
      rw [← this, e8]
    subst hm3
    have hval := b1 _ hsl u rfl hu hpos
    have hpk : p - fb'.2.1 = k * mults2.prod + packRow (makeStride mults2 true) ms := by omega
    have hset2 : (mults2.set idx (old.sectorMultiplicity u)).set idx
        (if g then countTrue (mk u) else (mk u).length) = mults2 := by
      rw [List.set_set]
      obtain ⟨x1, x2⟩ := List.getElem?_eq_some_iff.1 hmnew
      rw [← x2]
      exact List.set_getElem_self x1
    have hidx2 : idx < mults2.length := (List.getElem?_eq_some_iff.1 hmnew).1
    have hfv := maskForest_val d g idx (mults2.set idx (old.sectorMultiplicity u)) ms M sl (mk u) (size R fb'.1 c) k q
      (by
        rcases hT with hT | hT
        · exact Or.inl hT
        · exact Or.inr (by have := hT fb'.1 (by rw [f2, h.spaces, List.length_set]); omega)) e6 tk hpp
      (by rw [List.getElem?_set_self hidx2, h.old_mult]) (by rw [hset2]; exact r3) hq
    rw [hset2] at hfv
    rw [hpk] at hval
    unfold forestOut at hval
    simp only at hval
    rw [e8, hfv] at hval
    cases ho : oldIdx g (mk u) (ms.getD idx 0) with
    | none =>
      rw [ho] at hval
      exact hval
    | some j =>
      rw [ho] at hval
      refine ⟨_, ?_, hval⟩
      refine (treeRow_iff R h.ok.good c t _ _).2 ⟨_, hsl, _, k, hitem, by rw [← h.dual]; exact r2, ?_, rfl⟩
      refine inShape_set (n := if g then countTrue (mk u) else (mk u).length) (o := old.sectorMultiplicity u)
        (by rw [hset2]; exact r3) ?_ (List.getElem?_set_self hidx2)
      have hxi : ms.getD idx 0 < if g then countTrue (mk u) else (mk u).length := by
        have h1 : idx < ms.length := by rw [r3.length]; exact hidx2
        have := (List.forall₂_iff_get.1 r3).2 idx h1 hidx2
        simp only [List.get_eq_getElem] at this
        rw [List.getD_eq_getElem _ _ h1]
        rw [List.getElem?_eq_getElem hidx2] at hmnew
        rw [Option.some.inj hmnew] at this
        exact this
      rw [h.old_mult]
      cases g with
      | true =>
        simp only [oldIdx, if_true, Option.some.injEq] at ho
        simp only [if_true] at hxi ⊢
        rw [← length_nonzero] at hxi
        rw [List.getD_eq_getElem _ _ hxi] at ho
        have := (mem_nonzero (mk u) j).1 (by rw [← ho]; exact List.getElem_mem hxi)
        exact (List.getElem?_eq_some_iff.1 this).1
      | false =>
        simp only [oldIdx, Bool.false_eq_true, if_false] at ho hxi ⊢
        by_cases hb : (mk u).getD (ms.getD idx 0) false = true
        · rw [if_pos hb] at ho
          obtain rfl := Option.some.inj ho
          have h1 : (nonzero (mk u))[countTrue ((mk u).take (ms.getD idx 0))]? = some (ms.getD idx 0) := by
            rw [nonzero_get]
            refine ⟨?_, rfl⟩
            rw [List.getD_eq_getElem _ _ hxi] at hb
            rw [List.getElem?_eq_getElem hxi, hb]
          rw [← length_nonzero (mk u)]
          exact (List.getElem?_eq_some_iff.1 h1).1
        · rw [if_neg hb] at ho
          cases ho
  · have hz : (mk u).count true = 0 := by omega
    have hA := b2 (fun fb _ u' he hu' => by
      rw [he] at hu'
      obtain rfl : u = u' := Option.some.inj (hu.symm.trans hu')
      exact hz)
    rw [hzero] at hA
    -- the new leg is the large one
    have hun := item_sector h.ok'.good r1 hnewget hu
    have hnp := mult_of_mem_sectors (h.ok'.good new h.new_mem) (h.ok'.pos new h.new_mem) hun
    rw [h.new_mult] at hnp
    cases g with
    | true =>
      simp only [if_true] at hnp
      exact absurd hnp (by unfold countTrue; omega)
    | false =>
      have ho : oldIdx false (mk u) (ms.getD idx 0) = none := by
        unfold oldIdx
        rw [if_neg (by simp), if_neg]
        intro hb
        have hmem : true ∈ mk u := by
          by_cases hlt : ms.getD idx 0 < (mk u).length
          · rw [List.getD_eq_getElem _ _ hlt] at hb
            rw [← hb]; exact List.getElem_mem hlt
          · rw [List.getD_eq_default _ _ (by omega)] at hb
            cases hb
        have := List.count_pos_iff.2 hmem
        omega
      rw [ho]
      exact hA

end Cyten.FT
