import Verif.Lemmas.TreeMapping2
import Verif.Lemmas.FTDense5
import Verif.Lemmas.AbelianReshape

/-! # Tree blocks of a pair of trees, and the dense entries as sums over pairs of trees -/

namespace Cyten.FT
open Cyten.FT.Spec Cyten.Tools Cyten.ListSum Cyten.Props Cyten.Spaces Cyten.Spaces.Spec Cyten.Abelian
  Cyten.FusionTrees

variable {S K : Type} [LinearOrder S]

section Blocks
variable {R : FusionRule S} {s : Side S} {l : BLeg S}

/-- What `iter_tree_blocks` yields for a tree -/
def blockOf (s : Side S) (x : Placed S) : FusionTree S × (ℕ × ℕ) × List ℕ :=
  (x.tree, (x.start, x.start + s.size x.item), x.item.mults)

theorem treeItems_layout (s : Side S) (u : UItem S) (hs : s.size u = u.mults.prod) (ts : List (FusionTree S))
    (st : ℕ) : TProd.treeItems u.mults.prod u.mults ts st = (placeTrees u (s.size u) ts st).map (blockOf s) := by
  induction ts generalizing st with
  | nil => rfl
  | cons t ts ih => simp only [TProd.treeItems, placeTrees, List.map_cons, ih, blockOf, hs]

theorem treeBlocks_layout (c : S) (us : List (UItem S)) (hs : ∀ u ∈ us, s.size u = u.mults.prod) (st : ℕ) :
    TProd.treeBlocksFrom R s.areDual c (us.map fun u => (u.unc, u.mults)) st =
      (layoutFrom R s c us st).map (blockOf s) := by
  induction us generalizing st with
  | nil => rfl
  | cons u us ih =>
    have hu := hs u List.mem_cons_self
    simp only [List.map_cons, TProd.treeBlocksFrom, layoutFrom, List.map_append]
    rw [ih (fun v hv => hs v (List.mem_cons_of_mem _ hv)), treeItems_layout s u hu, hu]
    rfl

theorem iterTreeBlocks_eq (h : SideOK R s l) (dim : S → ℕ) (c : S) :
    TProd.iterTreeBlocks R s.areDual s.spaces c = (layout R dim s c).map (blockOf s) := by
  unfold TProd.iterTreeBlocks
  rw [← iterUncoupled_of_slices dim, treeBlocks_layout c _ fun u hu => h.size_eq dim hu]
  rfl

theorem treeBlockSlice_layout (h : SideOK R s l) (hR : R.Lawful) (dim : S → ℕ) {c : S} {x : Placed S}
    (hx : x ∈ layout R dim s c) : TProd.treeBlockSlice R s.spaces x.tree = some (x.start, x.start + s.size x.item) := by
  have hm : blockOf s x ∈ TProd.iterTreeBlocks R s.areDual s.spaces c := by
    rw [iterTreeBlocks_eq h dim]; exact List.mem_map_of_mem hx
  obtain ⟨pre, item, post, hi, k, h1, h2, h3⟩ := treeBlocks_mem R s.areDual c _ 0 _ hm
  simp only [blockOf] at h1 h2 h3
  have hmem : item ∈ TProd.iterUncoupled s.spaces := by rw [hi]; simp
  rw [← iterUncoupled_of_slices dim] at hmem
  obtain ⟨u, hu, rfl⟩ := List.mem_map.1 hmem
  have hlen := h.len dim hu
  obtain ⟨g1, g2, g3, g4⟩ := (C01_all_trees_exactly_sane R _ _ _ hlen x.tree).1 (List.mem_of_getElem? h1)
  unfold TProd.treeBlockSlice
  have hf := findForest_spec R c pre (u.unc, u.mults) post 0 (by rw [← hi]; exact items_nodup h.good)
  rw [← hi] at hf
  simp only at g1 g2 g3 g4 hf h1 h2 h3
  rw [g2, g1, hf, g3]
  have hxk : index R u.unc c s.areDual x.tree = .ok k := by
    have := C03_index_of_yielded R hR u.unc c s.areDual hlen k (List.getElem?_eq_some_iff.1 h1).1
    rw [(List.getElem?_eq_some_iff.1 h1).2] at this
    exact this
  simp only
  rw [hxk, h3]

theorem layout_complete (h : SideOK R s l) (dim : S → ℕ) (t : FusionTree S) (ht : t.Sane R)
    (hd : t.areDual = s.areDual) (ch : List (Cell S)) (hc : List.Forall₂ (· ∈ ·) ch (s.spaces.map (cells dim)))
    (hu : t.uncoupled = ch.map Cell.sec) : ∃ x ∈ layout R dim s t.coupled, x.tree = t := by
  have hm : itemOf dim ch ∈ iterUncoupledSlices dim s.spaces := by
    rw [iterUncoupledSlices_eq dim _ h.good]
    exact List.mem_map_of_mem (mem_gchoices.2 hc)
  have : t ∈ (layout R dim s t.coupled).map Placed.tree := by
    rw [layout, layoutFrom_tree]
    refine List.mem_flatMap.2 ⟨_, hm, ?_⟩
    exact (C01_all_trees_exactly_sane R _ _ _ (h.len dim hm) t).2 ⟨hu, rfl, hd, ht⟩
  obtain ⟨x, hx, rfl⟩ := List.mem_map.1 this
  exact ⟨x, hx, rfl⟩

theorem layout_lt (h : SideOK R s l) (dim : S → ℕ) {c : S} {x : Placed S} (hx : x ∈ layout R dim s c) {r : ℕ}
    (hr : r < s.size x.item) : x.start + r < Spec.mult l c := by
  have h1 := tiles_mem_le (h.tiles dim c) _ (List.mem_map_of_mem hx)
  simp only at h1
  omega

theorem mult_pos_mem (h : Coupled l) {c : S} (hc : 0 < Spec.mult l c) : c ∈ l.sectors := by
  by_contra hn
  have := mult_zero h hn
  omega

theorem layout_sector (h : SideOK R s l) (dim : S → ℕ) {c : S} {x : Placed S} (hx : x ∈ layout R dim s c) :
    c ∈ l.sectors := by
  refine mult_pos_mem h.coupled ?_
  have := layout_lt h dim hx (h.size_pos dim (layoutFrom_mem hx).1)
  omega

end Blocks

/-! ## Dense entries -/

section
variable [CommRing K] [StarRing K] {R : FusionRule S} {T : FTensors S K} {cod dom : Side S} {lc ld : BLeg S}

/-- The entry of the block of a coupled sector, zero if there is none -/
def blkVal (lc : BLeg S) (D : FEnts K) (c : S) (m n : ℕ) : K :=
  (D.map fun e => if lc.sectors[e.1.1]? = some c then e.2.val m n else 0).sum

theorem dense_pairs (hc : SideOK R cod lc) (hd : SideOK R dom ld) (D : FEnts K) (hD : FSane lc ld D)
    (ch1 ch2 : List (Cell S)) (h1 : List.Forall₂ (· ∈ ·) ch1 (cod.spaces.map (cells T.dim)))
    (h2 : List.Forall₂ (· ∈ ·) ch2 (dom.spaces.map (cells T.dim))) (as ms bs ns : List ℕ)
    (ha : InShape as (ch1.map fun q => T.dim q.sec)) (hm : InShape ms (ch1.map Cell.mult))
    (hb : InShape bs (ch2.map fun q => T.dim q.sec)) (hn : InShape ns (ch2.map Cell.mult)) :
    toDenseCore R T lc.sectors cod dom D (placeOf ch1 as ms) (placeOf ch2 bs ns) =
      (lc.sectors.map fun c => ((layout R T.dim cod c).map fun x => ((layout R T.dim dom c).map fun y =>
        if x.tree.uncoupled = ch1.map Cell.sec ∧ y.tree.uncoupled = ch2.map Cell.sec then
          pairTensor T (x.tree, y.tree) as bs * blkVal lc D c
            (x.start + packRow (makeStride (ch1.map Cell.mult) true) ms)
            (y.start + packRow (makeStride (ch2.map Cell.mult) true) ns) else 0).sum).sum).sum := by
  have e1 := sum_sectors hc.coupled D hD.lt fun c e => ((visits R T.dim true cod dom c).map
    (contribution T c e.2 (placeOf ch1 as ms) (placeOf ch2 bs ns))).sum
  refine Eq.trans (Eq.trans ?_ e1.symm) ?_
  · unfold toDenseCore
    refine sum_congr _ fun e _ => ?_
    cases lc.sectors[e.1.1]? <;> rfl
  refine sum_congr _ fun c _ => ?_
  have e3 : ∀ e ∈ D, (if lc.sectors[e.1.1]? = some c then ((visits R T.dim true cod dom c).map
      (contribution T c e.2 (placeOf ch1 as ms) (placeOf ch2 bs ns))).sum else 0) =
      ((layout R T.dim cod c).map fun x => ((layout R T.dim dom c).map fun y =>
        if lc.sectors[e.1.1]? = some c then contribution T c e.2 (placeOf ch1 as ms) (placeOf ch2 bs ns) (x, y)
        else 0).sum).sum := by
    intro e _
    by_cases h : lc.sectors[e.1.1]? = some c
    · simp only [if_pos h]
      rw [sum_visits hc hd]
    · simp only [if_neg h]
      rw [sum_zero _ _ fun x _ => sum_zero _ _ fun y _ => rfl]
  rw [sum_congr _ e3, sum_comm]
  refine sum_congr _ fun x hx => ?_
  rw [sum_comm]
  refine sum_congr _ fun y hy => ?_
  obtain ⟨c1, p1, p2, p3, p4, -⟩ := hc.placed T.dim hx
  obtain ⟨c2, q1, q2, q3, q4, -⟩ := hd.placed T.dim hy
  unfold contribution
  simp only
  rw [p2, q2, p3, q3]
  by_cases hh : c1.map Cell.sec = ch1.map Cell.sec ∧ c2.map Cell.sec = ch2.map Cell.sec
  · obtain rfl := forall2_sec hc.good h1 p1 hh.1.symm
    obtain rfl := forall2_sec hd.good h2 q1 hh.2.symm
    have i1 : (inSlices (placeOf ch1 as ms) (itemOf T.dim ch1).slices &&
        inSlices (placeOf ch2 bs ns) (itemOf T.dim ch2).slices) = true := by
      rw [(inSlices_place T.dim _ ch1 ch1 h1 h1 as ms ha hm).2 rfl,
        (inSlices_place T.dim _ ch2 ch2 h2 h2 bs ns hb hn).2 rfl]; rfl
    simp only [if_pos i1, if_pos hh]
    obtain ⟨s1, d1⟩ := idx_place T.dim ch1 as ms ha hm
    obtain ⟨s2, d2⟩ := idx_place T.dim ch2 bs ns hb hn
    rw [s1, s2, d1, d2]
    unfold blkVal pairTensor UItem.ravel
    rw [p4, ListSum.mul_sum]
    refine sum_congr _ fun e _ => ?_
    by_cases h : lc.sectors[e.1.1]? = some c
    · rw [if_pos h, if_pos h]; rfl
    · rw [if_neg h, if_neg h, mul_zero]
  · rw [if_neg hh]
    refine sum_zero _ _ fun e _ => ?_
    have i1 : ¬ (inSlices (placeOf ch1 as ms) (itemOf T.dim c1).slices &&
        inSlices (placeOf ch2 bs ns) (itemOf T.dim c2).slices) = true := by
      rw [Bool.and_eq_true]
      rintro ⟨j1, j2⟩
      rw [inSlices_place T.dim _ ch1 c1 h1 p1 as ms ha hm] at j1
      rw [inSlices_place T.dim _ ch2 c2 h2 q1 bs ns hb hn] at j2
      subst j1; subst j2
      exact hh ⟨rfl, rfl⟩
    rw [if_neg i1]
    simp

end

end Cyten.FT
