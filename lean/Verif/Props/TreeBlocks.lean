import Verif.Props.TensorProduct2

/-! # The tree-block layout: C30 -/

namespace Cyten.Props
open Cyten.Tools Cyten.Spaces Cyten.Spaces.Spec Cyten.FusionTrees

set_option linter.unusedSectionVars false

variable {S : Type} [LinearOrder S]

theorem tiles_append (a b c : ℕ) (l l' : List (ℕ × ℕ)) (h : Tiles a l b) (h' : Tiles b l' c) :
    Tiles a (l ++ l') c := by
  induction l generalizing a with
  | nil => rw [Tiles] at h; subst h; exact h'
  | cons x l ih => rw [Tiles] at h; exact ⟨h.1, h.2.1, ih _ h.2.2⟩

theorem tiles_le {a b : ℕ} {l : List (ℕ × ℕ)} (h : Tiles a l b) : a ≤ b := by
  induction l generalizing a with
  | nil => exact h.le
  | cons x l ih => have := ih h.2.2; have := h.1; have := h.2.1; omega

/-- What tiling means point by point: every index of `[a, b)` is in exactly one slice. -/
theorem tiles_unique {a b : ℕ} {l : List (ℕ × ℕ)} (h : Tiles a l b) (i : ℕ) :
    (l.filter fun x => decide (x.1 ≤ i ∧ i < x.2)).length = if a ≤ i ∧ i < b then 1 else 0 := by
  induction l generalizing a with
  | nil =>
    rw [Tiles] at h
    rw [if_neg (by omega)]
    rfl
  | cons x l ih =>
    obtain ⟨h1, h2, h3⟩ := h
    have hle := tiles_le h3
    have := ih h3
    by_cases hx : x.1 ≤ i ∧ i < x.2
    · rw [List.filter_cons_of_pos (by simpa using hx), List.length_cons, this, if_neg (by omega),
        if_pos (by omega)]
    · rw [List.filter_cons_of_neg (by simpa using hx), this]
      by_cases hi : x.2 ≤ i ∧ i < b
      · rw [if_pos hi, if_pos (by omega)]
      · rw [if_neg hi, if_neg (by omega)]

theorem iterUncoupled_eq (spaces : List (SpaceData S)) (h : ∀ x ∈ spaces, GoodSpace x) :
    TProd.iterUncoupled spaces =
      (choices (pairs spaces)).map fun ch => (ch.map Prod.fst, ch.map Prod.snd) := by
  unfold TProd.iterUncoupled
  cases hs : spaces with
  | nil => simp [pairs, choices]
  | cons y ys =>
    rw [← hs, if_neg (by simp [hs])]
    have hg := map_range_grid (spaces.map fun x => x.sectors.length) true fun idcs =>
      ((List.zipWith (fun (x : SpaceData S) (i : ℕ) => x.sectors[i]?) spaces idcs).reduceOption,
        List.zipWith (fun (x : SpaceData S) (i : ℕ) => x.mults.getD i 0) spaces idcs)
    rw [choices_eq_grid, List.map_map, pairs_length spaces h]
    have e : gridC (spaces.map fun x => x.sectors.length) =
        makeGrid (spaces.map fun x => x.sectors.length) true := rfl
    rw [e]
    rw [List.length_map] at hg
    refine Eq.trans ?_ (hg.trans ?_)
    · rfl
    · apply List.map_congr_left
      intro row hrow
      have hr := ((C22_grid_complete _ true).1 row).1 hrow
      obtain ⟨r1, r2⟩ := row_sectors spaces h row hr
      rw [r1, r2]
      rfl

/-! ## Choices -/

theorem mem_choices {xs : List (List (S × ℕ))} {ch : List (S × ℕ)} :
    ch ∈ choices xs ↔ List.Forall₂ (· ∈ ·) ch xs := by
  induction xs generalizing ch with
  | nil => simp [choices]
  | cons x xs ih =>
    rw [choices, List.mem_flatMap]
    constructor
    · rintro ⟨p, hp, hc⟩
      obtain ⟨c', hc', rfl⟩ := List.mem_map.1 hc
      exact List.Forall₂.cons hp (ih.1 hc')
    · intro h
      cases h with
      | cons hp ht => exact ⟨_, hp, List.mem_map.2 ⟨_, ih.2 ht, rfl⟩⟩

/-- A choice is determined by its sectors. -/
theorem choices_fst_nodup {xs : List (List (S × ℕ))} (h : ∀ x ∈ xs, (x.map Prod.fst).Nodup) :
    ((choices xs).map fun ch => ch.map Prod.fst).Nodup := by
  induction xs with
  | nil => simp [choices]
  | cons x xs ih =>
    have ih' := ih fun y hy => h y (List.mem_cons_of_mem _ hy)
    have hx := h x List.mem_cons_self
    rw [choices, List.map_flatMap]
    rw [List.nodup_flatMap]
    refine ⟨?_, ?_⟩
    · intro p _
      rw [List.map_map]
      have : ((fun ch : List (S × ℕ) => ch.map Prod.fst) ∘ (p :: ·)) =
          (p.1 :: ·) ∘ fun ch : List (S × ℕ) => ch.map Prod.fst := by funext ch; simp
      rw [this, ← List.map_map]
      exact List.Nodup.map (fun a b hab => by simpa using hab) ih'
    · rw [List.Nodup, List.pairwise_map] at hx
      refine hx.imp ?_
      intro p q hpq
      change List.Disjoint _ _
      rw [List.disjoint_left]
      intro u hu hv
      obtain ⟨c, hc, rfl⟩ := List.mem_map.1 hu
      obtain ⟨c', _, rfl⟩ := List.mem_map.1 hc
      obtain ⟨d, hd, he⟩ := List.mem_map.1 hv
      obtain ⟨d', _, rfl⟩ := List.mem_map.1 hd
      simp at he
      exact hpq he.1.symm

/-! ## The running offsets -/

theorem treeItems_tiles (size : ℕ) (mults : List ℕ) (ts : List (FusionTree S)) (start : ℕ) :
    Tiles start ((TProd.treeItems size mults ts start).map fun x => x.2.1)
      (start + ts.length * size) := by
  induction ts generalizing start with
  | nil => simp [TProd.treeItems, Tiles]
  | cons t ts ih =>
    rw [TProd.treeItems, List.map_cons]
    refine ⟨rfl, by simp, ?_⟩
    have := ih (start + size)
    have e : start + (t :: ts).length * size = start + size + ts.length * size := by
      simp; ring
    rw [e]
    exact this

theorem treeItems_fst (size : ℕ) (mults : List ℕ) (ts : List (FusionTree S)) (start : ℕ) :
    (TProd.treeItems size mults ts start).map Prod.fst = ts := by
  induction ts generalizing start with
  | nil => rfl
  | cons t ts ih => rw [TProd.treeItems, List.map_cons, ih]

theorem treeItems_getElem (size : ℕ) (mults : List ℕ) (ts : List (FusionTree S)) (start k : ℕ)
    (x : FusionTree S × (ℕ × ℕ) × List ℕ)
    (h : (TProd.treeItems size mults ts start)[k]? = some x) :
    ts[k]? = some x.1 ∧ x.2.1 = (start + size * k, start + size * k + size) ∧ x.2.2 = mults := by
  induction ts generalizing start k with
  | nil => simp [TProd.treeItems] at h
  | cons t ts ih =>
    rw [TProd.treeItems] at h
    cases k with
    | zero => simp at h; subst h; simp
    | succ k =>
      simp only [List.getElem?_cons_succ] at h ⊢
      obtain ⟨h1, h2, h3⟩ := ih _ _ h
      refine ⟨h1, ?_, h3⟩
      rw [h2]
      ext <;> simp <;> ring

/-- The number of states of one item of `iter_uncoupled` that fuse to `c`. -/
def itemSize (R : FusionRule S) (c : S) (item : List S × List ℕ) : ℕ :=
  size R item.1 c * item.2.prod

theorem treeBlocks_tiles (R : FusionRule S) (areDual : List Bool) (c : S)
    (items : List (List S × List ℕ)) (start : ℕ) :
    Tiles start ((TProd.treeBlocksFrom R areDual c items start).map fun x => x.2.1)
      (start + (items.map (itemSize R c)).sum) := by
  induction items generalizing start with
  | nil => simp [TProd.treeBlocksFrom, Tiles]
  | cons item items ih =>
    rw [TProd.treeBlocksFrom, List.map_append]
    refine tiles_append _ _ _ _ _ (treeItems_tiles _ _ _ _) ?_
    have e : start + ((item :: items).map (itemSize R c)).sum =
        start + (allTrees R item.1 c areDual).length * item.2.prod +
          (items.map (itemSize R c)).sum := by
      rw [List.map_cons, List.sum_cons, itemSize, length_allTrees]; ring
    rw [e]
    exact ih _

theorem treeBlocks_fst (R : FusionRule S) (areDual : List Bool) (c : S)
    (items : List (List S × List ℕ)) (start : ℕ) :
    (TProd.treeBlocksFrom R areDual c items start).map Prod.fst =
      items.flatMap fun item => allTrees R item.1 c areDual := by
  induction items generalizing start with
  | nil => rfl
  | cons item items ih =>
    rw [TProd.treeBlocksFrom, List.map_append, ih, treeItems_fst, List.flatMap_cons]

/-- Finding the item again. -/
theorem findForest_spec (R : FusionRule S) (c : S) (pre : List (List S × List ℕ))
    (item : List S × List ℕ) (post : List (List S × List ℕ)) (start : ℕ)
    (h : ((pre ++ item :: post).map Prod.fst).Nodup) :
    TProd.findForest R c item.1 (pre ++ item :: post) start =
      some (start + (pre.map (itemSize R c)).sum, item.2.prod) := by
  induction pre generalizing start with
  | nil => simp [TProd.findForest]
  | cons x pre ih =>
    rw [List.cons_append, TProd.findForest, if_neg, ih]
    · rw [List.map_cons, List.sum_cons, itemSize]
      congr 2
      ring
    · rw [List.cons_append, List.map_cons, List.nodup_cons] at h
      exact h.2
    · intro he
      rw [List.cons_append, List.map_cons, List.nodup_cons] at h
      exact h.1 (by rw [he]; simp)

theorem findForest_none (R : FusionRule S) (c : S) (unc : List S) (items : List (List S × List ℕ))
    (start : ℕ) (h : unc ∉ items.map Prod.fst) :
    TProd.findForest R c unc items start = none := by
  induction items generalizing start with
  | nil => rfl
  | cons x items ih =>
    rw [List.map_cons, List.mem_cons, not_or] at h
    rw [TProd.findForest, if_neg (Ne.symm h.1), ih _ h.2]

theorem treeBlocks_mem (R : FusionRule S) (areDual : List Bool) (c : S)
    (items : List (List S × List ℕ)) (start : ℕ) (x : FusionTree S × (ℕ × ℕ) × List ℕ)
    (h : x ∈ TProd.treeBlocksFrom R areDual c items start) :
    ∃ pre item post, items = pre ++ item :: post ∧ ∃ k : ℕ,
      (allTrees R item.1 c areDual)[k]? = some x.1 ∧ x.2.2 = item.2 ∧
      x.2.1 = (start + (pre.map (itemSize R c)).sum + item.2.prod * k,
        start + (pre.map (itemSize R c)).sum + item.2.prod * k + item.2.prod) := by
  induction items generalizing start with
  | nil => simp [TProd.treeBlocksFrom] at h
  | cons item items ih =>
    rw [TProd.treeBlocksFrom] at h
    rcases List.mem_append.1 h with h | h
    · obtain ⟨k, hk⟩ := List.mem_iff_getElem?.1 h
      obtain ⟨h1, h2, h3⟩ := treeItems_getElem _ _ _ _ _ _ hk
      exact ⟨[], item, items, rfl, k, h1, h3, by simpa using h2⟩
    · obtain ⟨pre, it, post, rfl, k, h1, h2, h3⟩ := ih _ h
      refine ⟨item :: pre, it, post, rfl, k, h1, h2, ?_⟩
      rw [h3, List.map_cons, List.sum_cons, itemSize, length_allTrees]
      ext <;> simp <;> ring

private theorem good_pairs_nodup {spaces : List (SpaceData S)} (h : ∀ x ∈ spaces, GoodSpace x) :
    ∀ x ∈ pairs spaces, (x.map Prod.fst).Nodup := by
  intro x hx
  obtain ⟨y, hy, rfl⟩ := List.mem_map.1 hx
  rw [List.map_fst_zip (by rw [(h y hy).len])]
  exact (h y hy).nodup

theorem items_nodup {spaces : List (SpaceData S)} (h : ∀ x ∈ spaces, GoodSpace x) :
    ((TProd.iterUncoupled spaces).map Prod.fst).Nodup := by
  rw [iterUncoupled_eq spaces h, List.map_map]
  exact choices_fst_nodup (good_pairs_nodup h)

theorem items_sum (R : FusionRule S) {spaces : List (SpaceData S)}
    (h : ∀ x ∈ spaces, GoodSpace x) (c : S) :
    ((TProd.iterUncoupled spaces).map (itemSize R c)).sum = channels R spaces c := by
  rw [iterUncoupled_eq spaces h, List.map_map, channels]
  congr 1
  apply List.map_congr_left
  intro ch _
  simp only [Function.comp_apply, itemSize]
  rw [length_allTrees, mul_comm]

private theorem item_mem {spaces : List (SpaceData S)} (h : ∀ x ∈ spaces, GoodSpace x) {unc : List S} :
    unc ∈ (TProd.iterUncoupled spaces).map Prod.fst ↔
      List.Forall₂ (fun s x => s ∈ x.sectors) unc spaces := by
  rw [iterUncoupled_eq spaces h, List.map_map, List.mem_map]
  simp only [mem_choices, Function.comp_apply]
  constructor
  · rintro ⟨ch, hc, rfl⟩
    rw [List.forall₂_map_left_iff]
    unfold pairs at hc
    rw [List.forall₂_map_right_iff] at hc
    refine hc.imp ?_
    intro p x hp
    exact (List.of_mem_zip (show (p.1, p.2) ∈ _ from hp)).1
  · intro hf
    clear * - hf h
    induction hf with
    | nil => exact ⟨[], by simp [pairs], rfl⟩
    | @cons s x unc spaces hs _ ih =>
      obtain ⟨ch, hc, he⟩ := ih fun y hy => h y (List.mem_cons_of_mem _ hy)
      obtain ⟨i, hi⟩ := List.mem_iff_getElem?.1 hs
      have hlt : i < x.sectors.length := (List.getElem?_eq_some_iff.1 hi).1
      have hg := (h x List.mem_cons_self).len
      refine ⟨(s, x.mults[i]'(by omega)) :: ch, ?_, by simp [he]⟩
      refine List.Forall₂.cons ?_ hc
      rw [List.mem_iff_getElem?]
      refine ⟨i, ?_⟩
      rw [List.getElem?_zip_eq_some]
      exact ⟨hi, List.getElem?_eq_getElem _⟩

private theorem sectorMult (x : SpaceData S) (h : GoodSpace x) (p : S × ℕ)
    (hp : p ∈ x.sectors.zip x.mults) : x.sectorMultiplicity p.1 = p.2 := by
  unfold SpaceData.sectorMultiplicity
  have hn : ((x.sectors.zip x.mults).map Prod.fst).Nodup := by
    rw [List.map_fst_zip (by rw [h.len])]; exact h.nodup
  generalize x.sectors.zip x.mults = l at hp hn
  induction l with
  | nil => cases hp
  | cons q l ih =>
    rw [List.map_cons, List.nodup_cons] at hn
    by_cases hq : q.1 = p.1
    · rw [List.find?_cons_of_pos (by simp [hq])]
      rcases List.mem_cons.1 hp with rfl | hp
      · rfl
      · exact absurd (List.mem_map.2 ⟨p, hp, hq.symm⟩) hn.1
    · rw [List.find?_cons_of_neg (by simp [hq])]
      rcases List.mem_cons.1 hp with rfl | hp
      · exact absurd rfl hq
      · exact ih hp hn.2

private theorem treeBlockSize_choice {spaces : List (SpaceData S)} (h : ∀ x ∈ spaces, GoodSpace x)
    (ch : List (S × ℕ)) (hc : List.Forall₂ (· ∈ ·) ch (pairs spaces)) :
    TProd.treeBlockSize spaces (ch.map Prod.fst) = (ch.map Prod.snd).prod := by
  unfold TProd.treeBlockSize
  congr 1
  unfold pairs at hc
  rw [List.forall₂_map_right_iff] at hc
  induction hc with
  | nil => rfl
  | @cons p x ch spaces hp _ ih =>
    rw [List.map_cons, List.map_cons, List.zipWith_cons_cons, ih fun y hy =>
      h y (List.mem_cons_of_mem _ hy), sectorMult x (h x List.mem_cons_self) p hp]

theorem item_size {spaces : List (SpaceData S)} (h : ∀ x ∈ spaces, GoodSpace x)
    (item : List S × List ℕ) (hi : item ∈ TProd.iterUncoupled spaces) :
    item.2.prod = TProd.treeBlockSize spaces item.1 := by
  rw [iterUncoupled_eq spaces h] at hi
  obtain ⟨ch, hc, rfl⟩ := List.mem_map.1 hi
  exact (treeBlockSize_choice h ch (mem_choices.1 hc)).symm

/-! ## C30 -/

/-- **C30** (tree blocks). The slices of the tree blocks of a coupled sector, in the order of
iteration, follow each other without gap or overlap and cover `[0, block_size)`. -/
theorem C30_tree_blocks_tile (sym : Sym S) (hinv : ∀ s, sym.dual (sym.dual s) = s)
    (R : FusionRule S) (unique : Bool) (hR : FusionOK R unique) (factors : List (Leg S))
    (h : SaneLeaves factors) (areDual : List Bool) (c : S) :
    Tiles 0 ((TProd.iterTreeBlocks R areDual (TProd.flatSpaces sym factors) c).map fun x => x.2.1)
      ((TProd.make sym R unique factors).blockSize c) := by
  have := treeBlocks_tiles R areDual c (TProd.iterUncoupled (TProd.flatSpaces sym factors)) 0
  rw [items_sum R (h.good hinv), Nat.zero_add] at this
  rw [(C29_multiplicity sym hinv R unique hR factors h c).2]
  exact this

/-- **C30** (tree blocks). Every fusion tree from sectors of the flat legs to `c` that passes
`test_sanity` is yielded exactly once, and no other. -/
theorem C30_tree_blocks_trees (sym : Sym S) (hinv : ∀ s, sym.dual (sym.dual s) = s)
    (R : FusionRule S) (hR : R.Lawful) (factors : List (Leg S))
    (h : SaneLeaves factors) (areDual : List Bool)
    (hd : areDual.length = (Leg.leavesAll factors).length) (c : S) :
    let trees := (TProd.iterTreeBlocks R areDual (TProd.flatSpaces sym factors) c).map Prod.fst
    trees.Nodup ∧ ∀ t, t ∈ trees ↔ t.Sane R ∧ t.coupled = c ∧ t.areDual = areDual ∧
      List.Forall₂ (fun s x => s ∈ x.sectors) t.uncoupled (TProd.flatSpaces sym factors) := by
  intro trees
  have hg := h.good hinv
  have e : trees = (TProd.iterUncoupled (TProd.flatSpaces sym factors)).flatMap fun item =>
      allTrees R item.1 c areDual := treeBlocks_fst R areDual c _ 0
  have hlen : ∀ item ∈ TProd.iterUncoupled (TProd.flatSpaces sym factors),
      areDual.length = item.1.length := by
    intro item hi
    have := (item_mem hg).1 (List.mem_map.2 ⟨item, hi, rfl⟩)
    rw [this.length_eq, TProd.flatSpaces, List.length_map, hd]
  refine ⟨?_, ?_⟩
  · rw [e, List.nodup_flatMap]
    refine ⟨fun item hi => C01_all_trees_nodup R hR _ _ _ (hlen item hi), ?_⟩
    have hn := items_nodup hg
    rw [List.Nodup, List.pairwise_map] at hn
    refine (List.Pairwise.and_mem.1 hn).imp ?_
    rintro a b ⟨ha, hb, hab⟩
    change List.Disjoint _ _
    rw [List.disjoint_left]
    intro t h1 h2
    have g1 := (C01_all_trees_exactly_sane R _ _ _ (hlen a ha) t).1 h1
    have g2 := (C01_all_trees_exactly_sane R _ _ _ (hlen b hb) t).1 h2
    exact hab (g1.1.symm.trans g2.1)
  · intro t
    rw [e, List.mem_flatMap]
    constructor
    · rintro ⟨item, hi, ht⟩
      obtain ⟨g1, g2, g3, g4⟩ := (C01_all_trees_exactly_sane R _ _ _ (hlen item hi) t).1 ht
      refine ⟨g4, g2, g3, ?_⟩
      rw [g1]
      exact (item_mem hg).1 (List.mem_map.2 ⟨item, hi, rfl⟩)
    · rintro ⟨g1, g2, g3, g4⟩
      obtain ⟨item, hi, he⟩ := List.mem_map.1 ((item_mem hg).2 g4)
      exact ⟨item, hi, (C01_all_trees_exactly_sane R _ _ _ (hlen item hi) t).2 ⟨he.symm, g2, g3, g1⟩⟩

/-- **C30** (`tree_block_slice`, `tree_block_size`). For each yielded tree, `tree_block_slice` gives
the slice that was yielded with it, its length is `tree_block_size`, the product of the
multiplicities of the uncoupled sectors. -/
theorem C30_tree_block_slice (sym : Sym S) (hinv : ∀ s, sym.dual (sym.dual s) = s)
    (R : FusionRule S) (hR : R.Lawful) (factors : List (Leg S)) (h : SaneLeaves factors)
    (areDual : List Bool) (hd : areDual.length = (Leg.leavesAll factors).length) (c : S)
    (t : FusionTree S) (sl : ℕ × ℕ) (m : List ℕ)
    (ht : (t, sl, m) ∈ TProd.iterTreeBlocks R areDual (TProd.flatSpaces sym factors) c) :
    TProd.treeBlockSlice R (TProd.flatSpaces sym factors) t = some sl ∧
      sl.2 = sl.1 + TProd.treeBlockSize (TProd.flatSpaces sym factors) t.uncoupled ∧
      m.prod = TProd.treeBlockSize (TProd.flatSpaces sym factors) t.uncoupled := by
  have hg := h.good hinv
  obtain ⟨pre, item, post, hi, k, h1, h2, h3⟩ := treeBlocks_mem R areDual c _ 0 _ ht
  simp only at h1 h2 h3
  have hmem : item ∈ TProd.iterUncoupled (TProd.flatSpaces sym factors) := by rw [hi]; simp
  have hlen : areDual.length = item.1.length := by
    have := (item_mem hg).1 (List.mem_map.2 ⟨item, hmem, rfl⟩)
    rw [this.length_eq, TProd.flatSpaces, List.length_map, hd]
  obtain ⟨g1, g2, g3, g4⟩ := (C01_all_trees_exactly_sane R _ _ _ hlen t).1 (List.mem_of_getElem? h1)
  have hsz := item_size hg item hmem
  refine ⟨?_, ?_, ?_⟩
  · unfold TProd.treeBlockSlice
    have hf := findForest_spec R c pre item post 0 (by rw [← hi]; exact items_nodup hg)
    rw [← hi] at hf
    rw [g2, g1, hf, g3]
    have hx : index R item.1 c areDual t = .ok k := by
      have := C03_index_of_yielded R hR item.1 c areDual hlen k (List.getElem?_eq_some_iff.1 h1).1
      rw [(List.getElem?_eq_some_iff.1 h1).2] at this
      exact this
    simp only
    rw [hx, h3]
  · rw [h3, g1, ← hsz]
  · rw [h2, hsz, g1]

/-- **C30** (forest blocks). The forest blocks tile `[0, block_size)` too; each is the
`forest_block_slice` of its uncoupled sectors, and no forest block is empty or repeated. -/
theorem C30_forest_blocks (sym : Sym S) (hinv : ∀ s, sym.dual (sym.dual s) = s)
    (R : FusionRule S) (unique : Bool) (hR : FusionOK R unique) (factors : List (Leg S))
    (h : SaneLeaves factors) (c : S) :
    let blocks := TProd.iterForestBlocks R (TProd.flatSpaces sym factors) c
    Tiles 0 (blocks.map Prod.snd) ((TProd.make sym R unique factors).blockSize c) ∧
      (blocks.map Prod.fst).Nodup ∧
      ∀ b ∈ blocks, TProd.forestBlockSlice R (TProd.flatSpaces sym factors) b.1 c = some b.2 ∧
        b.2.1 < b.2.2 := by
  intro blocks
  have hg := h.good (sym := sym) hinv
  have key : ∀ (items : List (List S × List ℕ)) (start : ℕ),
      Tiles start ((TProd.forestBlocksFrom R c items start).map Prod.snd)
          (start + (items.map (itemSize R c)).sum) ∧
        List.Sublist ((TProd.forestBlocksFrom R c items start).map Prod.fst)
          (items.map Prod.fst) ∧
        ∀ b ∈ TProd.forestBlocksFrom R c items start, ∃ pre item post, items = pre ++ item :: post ∧
          b.1 = item.1 ∧ 0 < itemSize R c item ∧
          b.2 = (start + (pre.map (itemSize R c)).sum,
            start + (pre.map (itemSize R c)).sum + itemSize R c item) := by
    intro items
    induction items with
    | nil => intro start; simp [TProd.forestBlocksFrom, Tiles]
    | cons item items ih =>
      intro start
      rw [TProd.forestBlocksFrom]
      by_cases hw : size R item.1 c * item.2.prod = 0
      · rw [if_pos hw]
        obtain ⟨i1, i2, i3⟩ := ih start
        have hz : itemSize R c item = 0 := hw
        refine ⟨?_, ?_, ?_⟩
        · rw [List.map_cons, List.sum_cons, hz, Nat.zero_add]; exact i1
        · rw [List.map_cons]; exact i2.cons _
        · intro b hb
          obtain ⟨pre, it, post, rfl, e1, e2, e3⟩ := i3 b hb
          refine ⟨item :: pre, it, post, rfl, e1, e2, ?_⟩
          rw [List.map_cons, List.sum_cons, hz, Nat.zero_add]
          exact e3
      · rw [if_neg hw]
        obtain ⟨i1, i2, i3⟩ := ih (start + size R item.1 c * item.2.prod)
        refine ⟨?_, ?_, ?_⟩
        · rw [List.map_cons]
          refine ⟨rfl, by simp, ?_⟩
          rw [List.map_cons, List.sum_cons, itemSize, ← Nat.add_assoc]
          exact i1
        · rw [List.map_cons, List.map_cons]; exact i2.cons_cons _
        · intro b hb
          rcases List.mem_cons.1 hb with rfl | hb
          · exact ⟨[], item, items, rfl, rfl, Nat.pos_of_ne_zero hw, by simp [itemSize]⟩
          · obtain ⟨pre, it, post, rfl, e1, e2, e3⟩ := i3 b hb
            refine ⟨item :: pre, it, post, rfl, e1, e2, ?_⟩
            rw [List.map_cons, List.sum_cons, e3, ← Nat.add_assoc]
            rfl
  obtain ⟨k1, k2, k3⟩ := key (TProd.iterUncoupled (TProd.flatSpaces sym factors)) 0
  refine ⟨?_, k2.nodup (items_nodup hg), ?_⟩
  · rw [(C29_multiplicity sym hinv R unique hR factors h c).2, ← items_sum R hg, ← Nat.zero_add
      ((TProd.iterUncoupled (TProd.flatSpaces sym factors)).map (itemSize R c)).sum]
    exact k1
  · intro b hb
    obtain ⟨pre, item, post, hi, e1, e2, e3⟩ := k3 b hb
    have hmem : item ∈ TProd.iterUncoupled (TProd.flatSpaces sym factors) := by rw [hi]; simp
    have hf := findForest_spec R c pre item post 0 (by rw [← hi]; exact items_nodup hg)
    rw [← hi] at hf
    refine ⟨?_, by rw [e3]; simpa using e2⟩
    unfold TProd.forestBlockSlice
    rw [e1, hf]
    rw [e3, TProd.forestBlockSize, ← item_size hg item hmem]
    rfl

/-- **C30** (forests consist of trees). The tree blocks with the uncoupled sectors of a forest block
tile that forest block. -/
theorem C30_forest_of_trees (sym : Sym S) (hinv : ∀ s, sym.dual (sym.dual s) = s)
    (R : FusionRule S) (factors : List (Leg S))
    (h : SaneLeaves factors) (areDual : List Bool)
    (hd : areDual.length = (Leg.leavesAll factors).length) (c : S) (unc : List S) (a b : ℕ)
    (hb : TProd.forestBlockSlice R (TProd.flatSpaces sym factors) unc c = some (a, b)) :
    Tiles a (((TProd.iterTreeBlocks R areDual (TProd.flatSpaces sym factors) c).filter
      fun x => decide (x.1.uncoupled = unc)).map fun x => x.2.1) b := by
  have hg := h.good (sym := sym) hinv
  unfold TProd.forestBlockSlice at hb
  cases hf : TProd.findForest R c unc (TProd.iterUncoupled (TProd.flatSpaces sym factors)) 0 with
  | none => rw [hf] at hb; simp at hb
  | some r =>
    have hmem : unc ∈ (TProd.iterUncoupled (TProd.flatSpaces sym factors)).map Prod.fst := by
      by_contra hn
      rw [findForest_none R c unc _ 0 hn] at hf
      simp at hf
    obtain ⟨item, hi, rfl⟩ := List.mem_map.1 hmem
    obtain ⟨pre, post, hs⟩ := List.append_of_mem hi
    have hnd := items_nodup hg
    have hf' := findForest_spec R c pre item post 0 (by rw [← hs]; exact hnd)
    rw [← hs] at hf'
    rw [hf'] at hb
    simp only [Option.some.injEq, Prod.mk.injEq, Nat.zero_add] at hb
    rw [TProd.forestBlockSize, ← item_size hg item hi] at hb
    have hlen : ∀ item ∈ TProd.iterUncoupled (TProd.flatSpaces sym factors),
        areDual.length = item.1.length := by
      intro item hi
      have := (item_mem hg).1 (List.mem_map.2 ⟨item, hi, rfl⟩)
      rw [this.length_eq, TProd.flatSpaces, List.length_map, hd]
    -- trees of one item
    have hunc : ∀ it ∈ TProd.iterUncoupled (TProd.flatSpaces sym factors), ∀ st,
        ∀ x ∈ TProd.treeItems it.2.prod it.2 (allTrees R it.1 c areDual) st,
          x.1.uncoupled = it.1 := by
      intro it hit st x hx
      have : x.1 ∈ allTrees R it.1 c areDual := by
        rw [← treeItems_fst it.2.prod it.2 (allTrees R it.1 c areDual) st]
        exact List.mem_map.2 ⟨x, hx, rfl⟩
      exact ((C01_all_trees_exactly_sane R _ _ _ (hlen it hit) x.1).1 this).1
    have hnone : ∀ (items : List (List S × List ℕ)) (st : ℕ),
        (∀ it ∈ items, it ∈ TProd.iterUncoupled (TProd.flatSpaces sym factors)) →
        item.1 ∉ items.map Prod.fst →
        (TProd.treeBlocksFrom R areDual c items st).filter
          (fun x => decide (x.1.uncoupled = item.1)) = [] := by
      intro items
      induction items with
      | nil => intro st _ _; rfl
      | cons it items ih =>
        intro st hsub hni
        rw [List.map_cons, List.mem_cons, not_or] at hni
        rw [TProd.treeBlocksFrom, List.filter_append, ih _
          (fun x hx => hsub x (List.mem_cons_of_mem _ hx)) hni.2, List.append_nil,
          List.filter_eq_nil_iff]
        intro x hx
        rw [hunc it (hsub it List.mem_cons_self) _ x hx]
        simpa using Ne.symm hni.1
    have hsplit : ∀ (items : List (List S × List ℕ)) (items' : List (List S × List ℕ)) (st : ℕ),
        TProd.treeBlocksFrom R areDual c (items ++ items') st =
          TProd.treeBlocksFrom R areDual c items st ++
            TProd.treeBlocksFrom R areDual c items' (st + (items.map (itemSize R c)).sum) := by
      intro items items'
      induction items with
      | nil => intro st; simp [TProd.treeBlocksFrom]
      | cons it items ih =>
        intro st
        rw [List.cons_append, TProd.treeBlocksFrom, ih, TProd.treeBlocksFrom, List.append_assoc,
          List.map_cons, List.sum_cons, itemSize, length_allTrees, ← Nat.add_assoc]
    have hsub1 : ∀ it ∈ pre, it ∈ TProd.iterUncoupled (TProd.flatSpaces sym factors) := by
      intro it hit; rw [hs]; simp [hit]
    have hsub2 : ∀ it ∈ post, it ∈ TProd.iterUncoupled (TProd.flatSpaces sym factors) := by
      intro it hit; rw [hs]; simp [hit]
    rw [hs, List.map_append, List.map_cons, List.nodup_append] at hnd
    unfold TProd.iterTreeBlocks
    rw [hs, hsplit, List.filter_append, TProd.treeBlocksFrom, List.filter_append,
      hnone pre _ hsub1 (fun hm => hnd.2.2 _ hm _ List.mem_cons_self rfl),
      hnone post _ hsub2 (List.nodup_cons.1 hnd.2.1).1, List.nil_append, List.append_nil,
      List.filter_eq_self.2 (by
        intro x hx
        rw [hunc item hi _ x hx]
        simp)]
    have := treeItems_tiles item.2.prod item.2 (allTrees R item.1 c areDual)
      (0 + (pre.map (itemSize R c)).sum)
    rw [length_allTrees, Nat.zero_add] at this
    rw [Nat.zero_add, ← hb.1, ← hb.2]
    exact this

/-- **C30** (what tiling means). Every index of a block belongs to exactly one slice. -/
theorem C30_tiles_exactly_once {b : ℕ} {l : List (ℕ × ℕ)} (h : Tiles 0 l b) (i : ℕ) (hi : i < b) :
    (l.filter fun x => decide (x.1 ≤ i ∧ i < x.2)).length = 1 := by
  rw [tiles_unique h, if_pos ⟨Nat.zero_le _, hi⟩]

/-! ## Concrete case -/

example : ((TProd.iterTreeBlocks exRule [false, true, false]
    (TProd.flatSpaces exSymF [exA, exB, exA]) 1).map fun x => x.2.1) =
    [(0, 4), (4, 8), (8, 20), (20, 32), (32, 44), (44, 56), (56, 68)] := by decide +kernel

end Cyten.Props
