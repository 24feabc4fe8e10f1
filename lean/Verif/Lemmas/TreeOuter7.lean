import Verif.Lemmas.TreeOuter6
import Verif.Lemmas.AbelianCombine

/-! # `FusionTreeBackend::outer`: the loops over tree blocks -/

namespace Cyten.FT
open Cyten.FT.Spec Cyten.Tools Cyten.ListSum Cyten.Props Cyten.Spaces Cyten.Spaces.Spec Cyten.Abelian
  Cyten.FusionTrees Cyten.Mappings

variable {S K : Type} [LinearOrder S]

section
variable {R : FusionRule S} {cod dom : Side S}

theorem rowLoop_nil (c : S) (bi : UItem S) (i2 : ℕ) (ais : List (UItem S)) (h : ∀ a ∈ ais, cod.trees R c a = [])
    (i1 : ℕ) : rowLoop R false cod dom c bi i2 ais i1 = [] := by
  induction ais generalizing i1 with
  | nil => rfl
  | cons a as ih =>
    rw [rowLoop]
    simp only [Bool.false_and, Bool.false_eq_true, if_false]
    rw [ih fun x hx => h x (List.mem_cons_of_mem _ hx), List.append_nil]
    unfold forestVisits
    rw [h a List.mem_cons_self]; rfl

theorem foldl_max_width (w : ℕ) (l : List ℕ) (h : ∀ x ∈ l, x = 0 ∨ x = w) (b : ℕ) (hb : b = 0 ∨ b = w) :
    l.foldl max b = if b = w ∨ w ∈ l then w else 0 := by
  induction l generalizing b with
  | nil =>
    rcases hb with rfl | rfl
    · by_cases hw : (0 : ℕ) = w
      · simp [hw]
      · simp [hw]
    · simp
  | cons x l ih =>
    rw [List.foldl_cons, ih (fun y hy => h y (List.mem_cons_of_mem _ hy))]
    · rcases hb with rfl | rfl <;> rcases h x List.mem_cons_self with hx | hx <;> subst hx
      · by_cases h0 : (0 : ℕ) = w
        · simp [h0]
        · have h1 : w ≠ 0 := Ne.symm h0
          simp [h0, h1]
      · simp
      · simp
      · simp
    · rcases hb with rfl | rfl <;> rcases h x List.mem_cons_self with hx | hx <;> subst hx <;> simp

theorem blockIterCols_eq (c : S) (ais bis : List (UItem S)) (i2 : ℕ) :
    blockIterCols R cod dom c ais bis i2 = colLoop R false cod dom c ais bis i2 := by
  by_cases hall : ∀ a ∈ ais, cod.trees R c a = []
  · have h1 : ∀ (bis : List (UItem S)) i2, blockIterCols R cod dom c ais bis i2 = [] := by
      intro bis
      induction bis with
      | nil => intro _; rfl
      | cons b bis ih => intro i2; rw [blockIterCols, ih, rowLoop_nil c b i2 ais hall]; rfl
    have h2 : ∀ (bis : List (UItem S)) i2, colLoop R false cod dom c ais bis i2 = [] := by
      intro bis
      induction bis with
      | nil => intro _; rfl
      | cons b bis ih => intro i2; rw [colLoop, ih, rowLoop_nil c b i2 ais hall]; rfl
    rw [h1, h2]
  · push Not at hall
    obtain ⟨a, ha, hne⟩ := hall
    induction bis generalizing i2 with
    | nil => rfl
    | cons b bis ih =>
      rw [blockIterCols, colLoop, ih]
      have hw : (ais.map fun ai => if (cod.trees R c ai).isEmpty then 0
          else (dom.trees R c b).length * dom.size b).foldl max 0 =
          if ais.isEmpty then 0 else (dom.trees R c b).length * dom.size b := by
        rw [foldl_max_width ((dom.trees R c b).length * dom.size b)]
        · have hne' : ais.isEmpty = false := by
            cases ais with
            | nil => cases ha
            | cons _ _ => rfl
          rw [hne']
          rw [if_pos]
          · rfl
          · refine Or.inr (List.mem_map.2 ⟨a, ha, if_neg ?_⟩)
            simpa using hne
        · intro x hx
          obtain ⟨ai, -, rfl⟩ := List.mem_map.1 hx
          by_cases h : (cod.trees R c ai).isEmpty = true
          · rw [if_pos h]; exact Or.inl rfl
          · rw [if_neg h]; exact Or.inr rfl
        · exact Or.inl rfl
      simp only [hw]

end

variable [CommRing K] [StarRing K]
variable {R : FusionRule S} {T : FTensors S K} {F : FSym S K} {cod dom : Side S} {lc ld : BLeg S} {D : FEnts K}

/-- The tree block of a pair -/
def treeBlock (cod dom : Side S) (x y : Placed S) (M : Mat K) : Mat K :=
  M.slice (x.start, x.start + cod.size x.item) (y.start, y.start + dom.size y.item)

theorem mem_treeBlockIter {dim : S → ℕ} {v : FusionTree S × FusionTree S × Mat K}
    (hv : v ∈ treeBlockIter R dim lc.sectors cod dom D) : ∃ e ∈ D, ∃ c, lc.sectors[e.1.1]? = some c ∧
      ∃ x ∈ layout R dim cod c, ∃ y ∈ layout R dim dom c, v = (x.tree, y.tree, treeBlock cod dom x y e.2) := by
  obtain ⟨e, he, hv⟩ := List.mem_flatMap.1 hv
  rcases hs : lc.sectors[e.1.1]? with _ | c
  · rw [hs] at hv; cases hv
  · rw [hs] at hv
    simp only [blockIterCols_eq] at hv
    obtain ⟨w, hw, rfl⟩ := List.mem_map.1 hv
    obtain ⟨w1, w2⟩ := (mem_visits R dim cod dom c w).1 hw
    exact ⟨e, he, c, hs, w.1, w1, w.2, w2, rfl⟩

theorem sum_treeBlockIter (hc : SideOK R cod lc) (hd : SideOK R dom ld) (hD : FSane lc ld D) (dim : S → ℕ)
    (f : FusionTree S → FusionTree S → Mat K → K) :
    ((treeBlockIter R dim lc.sectors cod dom D).map fun v => f v.1 v.2.1 v.2.2).sum =
      (lc.sectors.map fun c => ((layout R dim cod c).map fun x => ((layout R dim dom c).map fun y =>
        (D.map fun e => if lc.sectors[e.1.1]? = some c then f x.tree y.tree (treeBlock cod dom x y e.2)
          else 0).sum).sum).sum).sum := by
  unfold treeBlockIter
  rw [sum_flatMap]
  have e1 := sum_sectors hc.coupled D hD.lt fun c e => ((layout R dim cod c).map fun x =>
    ((layout R dim dom c).map fun y => f x.tree y.tree (treeBlock cod dom x y e.2)).sum).sum
  refine Eq.trans (Eq.trans (sum_congr _ fun e _ => ?_) e1.symm) ?_
  · rcases lc.sectors[e.1.1]? with _ | c
    · rfl
    · simp only [blockIterCols_eq, List.map_map]
      exact sum_visits hc hd dim false c fun w => f w.1.tree w.2.tree (treeBlock cod dom w.1 w.2 e.2)
  · refine sum_congr _ fun c _ => ?_
    have e2 : ∀ e ∈ D, (if lc.sectors[e.1.1]? = some c then ((layout R dim cod c).map fun x =>
        ((layout R dim dom c).map fun y => f x.tree y.tree (treeBlock cod dom x y e.2)).sum).sum else 0) =
        ((layout R dim cod c).map fun x => ((layout R dim dom c).map fun y =>
          if lc.sectors[e.1.1]? = some c then f x.tree y.tree (treeBlock cod dom x y e.2) else 0).sum).sum := by
      intro e _
      by_cases h : lc.sectors[e.1.1]? = some c
      · simp only [if_pos h]
      · simp only [if_neg h]
        rw [sum_zero _ _ fun x _ => sum_zero _ _ fun y _ => rfl]
    rw [sum_congr _ e2, sum_comm]
    refine sum_congr _ fun x _ => ?_
    rw [sum_comm]

/-- The part of a tree block in a dense entry -/
def entryOf (T : FTensors S K) (ch1 ch2 : List (Cell S)) (as ms bs ns : List ℕ)
    (v : FusionTree S × FusionTree S × Mat K) : K :=
  if v.1.uncoupled = ch1.map Cell.sec ∧ v.2.1.uncoupled = ch2.map Cell.sec then
    pairTensor T (v.1, v.2.1) as bs * v.2.2.val (packRow (makeStride (ch1.map Cell.mult) true) ms)
      (packRow (makeStride (ch2.map Cell.mult) true) ns) else 0

theorem dense_iter (hc : SideOK R cod lc) (hd : SideOK R dom ld) (hD : FSane lc ld D)
    (ch1 ch2 : List (Cell S)) (h1 : List.Forall₂ (· ∈ ·) ch1 (cod.spaces.map (cells T.dim)))
    (h2 : List.Forall₂ (· ∈ ·) ch2 (dom.spaces.map (cells T.dim))) (as ms bs ns : List ℕ)
    (ha : InShape as (ch1.map fun q => T.dim q.sec)) (hm : InShape ms (ch1.map Cell.mult))
    (hb : InShape bs (ch2.map fun q => T.dim q.sec)) (hn : InShape ns (ch2.map Cell.mult)) :
    toDenseCore R T lc.sectors cod dom D (placeOf ch1 as ms) (placeOf ch2 bs ns) =
      ((treeBlockIter R T.dim lc.sectors cod dom D).map (entryOf T ch1 ch2 as ms bs ns)).sum := by
  rw [dense_pairs hc hd D hD ch1 ch2 h1 h2 as ms bs ns ha hm hb hn]
  refine Eq.trans ?_ (sum_treeBlockIter hc hd hD T.dim
    fun t1 t2 M => entryOf T ch1 ch2 as ms bs ns (t1, t2, M)).symm
  refine sum_congr _ fun c _ => sum_congr _ fun x _ => sum_congr _ fun y _ => ?_
  unfold entryOf
  simp only
  by_cases hu : x.tree.uncoupled = ch1.map Cell.sec ∧ y.tree.uncoupled = ch2.map Cell.sec
  · simp only [if_pos hu]
    unfold blkVal
    rw [ListSum.mul_sum]
    refine sum_congr _ fun e _ => ?_
    by_cases h : lc.sectors[e.1.1]? = some c
    · rw [if_pos h, if_pos h]; rfl
    · rw [if_neg h, if_neg h, mul_zero]
  · simp only [if_neg hu]
    rw [sum_zero _ _ fun e _ => by split <;> rfl]

theorem outerBlock_val (a b : Mat K) (i j k l : ℕ) (hi : i < a.rows) (hj : j < a.cols) (hk : k < b.rows)
    (hl : l < b.cols) : (outerBlock a b).val (i * b.rows + k) (j * b.cols + l) = a.val i j * b.val k l := by
  unfold outerBlock
  simp only
  have hs : ((Blk.outer a.toBlk b.toBlk).permuteAxes [0, 2, 1, 3]).shape = [a.rows, b.rows, a.cols, b.cols] := rfl
  rw [reshape_val _ _ _ [i, k, j, l]]
  · have := permuteAxes_val (Blk.outer a.toBlk b.toBlk) [0, 2, 1, 3] [i, j, k, l] (by show List.Perm [0, 2, 1, 3] (List.range 4); decide)
    exact this
  · rw [hs]
    exact List.Forall₂.cons hi (List.Forall₂.cons hk (List.Forall₂.cons hj (List.Forall₂.cons hl List.Forall₂.nil)))
  · rw [hs]
    simp [packRow, makeStride, strideLoop]
    ring

end Cyten.FT
