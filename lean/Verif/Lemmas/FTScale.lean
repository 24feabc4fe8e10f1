import Verif.Model.FTScale
import Verif.Lemmas.FTDense5
import Verif.Props.FTData
import Verif.Lemmas.AbelianReshape
import Mathlib.Data.List.GetD

/-! # Lemmas on `scale_axis` and `_mask_contract` of the fusion tree backend -/

namespace Cyten.FT
open Cyten.FT.Spec Cyten.Tools Cyten.ListSum Cyten.Props Cyten.Spaces Cyten.Spaces.Spec Cyten.Abelian
  Cyten.FusionTrees

variable {S K : Type}

/-- An entry of a matrix: `p` counts along the side of the leg, `q` along the other side. -/
def sideVal (d : Bool) (M : Mat K) (p q : ℕ) : K := if d then M.val q p else M.val p q

/-- The extent along the other side -/
def otherDim (d : Bool) (M : Mat K) : ℕ := if d then M.rows else M.cols

/-- A position in a block of dimension two -/
def pos2 (d : Bool) (p q : ℕ) : List ℕ := if d then [q, p] else [p, q]

theorem setForest_rows (d : Bool) (M : Mat K) (sl : ℕ × ℕ) (b : Blk K) : (setForest d M sl b).rows = M.rows := rfl

theorem setForest_cols (d : Bool) (M : Mat K) (sl : ℕ × ℕ) (b : Blk K) : (setForest d M sl b).cols = M.cols := rfl

theorem setForest_val (d : Bool) (M : Mat K) (sl : ℕ × ℕ) (b : Blk K) (p q : ℕ) (hq : q < otherDim d M) :
    sideVal d (setForest d M sl b) p q =
      if sl.1 ≤ p ∧ p < sl.2 then b.val (pos2 d (p - sl.1) q) else sideVal d M p q := by
  cases d with
  | false =>
    simp only [otherDim, Bool.false_eq_true, if_false] at hq
    by_cases h : sl.1 ≤ p ∧ p < sl.2
    · rw [if_pos h]
      simp [sideVal, setForest, Mat.ofBlk, Blk.setSlice, inSlices, h, hq, pos2]
    · rw [if_neg h]
      have h' : ¬ (inSlices [p, q] [sl, (0, M.cols)] = true) := by simp [inSlices]; omega
      show (if inSlices [p, q] [sl, (0, M.cols)] = true then _ else _) = _
      rw [if_neg h']
      rfl
  | true =>
    simp only [otherDim, if_true] at hq
    by_cases h : sl.1 ≤ p ∧ p < sl.2
    · rw [if_pos h]
      simp [sideVal, setForest, Mat.ofBlk, Blk.setSlice, inSlices, h, hq, pos2]
    · rw [if_neg h]
      have h' : ¬ (inSlices [q, p] [(0, M.rows), sl] = true) := by simp [inSlices]; omega
      show (if inSlices [q, p] [(0, M.rows), sl] = true then _ else _) = _
      rw [if_neg h']
      rfl

theorem forestSlice_shape (d : Bool) (M : Mat K) (sl : ℕ × ℕ) :
    (forestSlice d M sl).shape = pos2 d (sl.2 - sl.1) (otherDim d M) := by
  cases d <;> simp [forestSlice, Blk.getSlice, pos2, otherDim]

theorem forestSlice_val (d : Bool) (M : Mat K) (sl : ℕ × ℕ) (r q : ℕ) :
    (forestSlice d M sl).val (pos2 d r q) = sideVal d M (sl.1 + r) q := by
  cases d <;> simp [forestSlice, Blk.getSlice, pos2, sideVal, Mat.asBlk, Nat.add_comm]

theorem inShape_prod_pos {ms shape : List ℕ} (h : InShape ms shape) : 0 < shape.prod :=
  lt_of_le_of_lt (Nat.zero_le _) (packRow_lt h)

theorem packC_cons (x s : ℕ) (ms shape : List ℕ) :
    packRow (makeStride (s :: shape) true) (x :: ms) = x * shape.prod + packRow (makeStride shape true) ms := by
  rw [packRow_cons]

/-- The scaled forest block, entry by entry: `t` is the tree. -/
theorem scaleForest_val [Mul K] [Zero K] (d : Bool) (idx : ℕ) (mults ms : List ℕ) (M : Mat K) (sl : ℕ × ℕ)
    (f : List K) (T t q : ℕ) (hw : sl.2 - sl.1 = T * mults.prod) (ht : t < T) (hm : InShape ms mults)
    (hq : q < otherDim d M) (hidx : idx < mults.length) :
    (scaleForest d idx mults (forestSlice d M sl) f).val
        (pos2 d (t * mults.prod + packRow (makeStride mults true) ms) q) =
      sideVal d M (sl.1 + (t * mults.prod + packRow (makeStride mults true) ms)) q * f.getD (ms.getD idx 0) 0 := by
  have hp : 0 < mults.prod := inShape_prod_pos hm
  have hr : t * mults.prod + packRow (makeStride mults true) ms < sl.2 - sl.1 := by
    have h1 := packRow_lt hm
    calc t * mults.prod + packRow (makeStride mults true) ms < t * mults.prod + mults.prod := by omega
      _ = (t + 1) * mults.prod := by ring
      _ ≤ T * mults.prod := Nat.mul_le_mul_right _ ht
      _ = _ := hw.symm
  have hin : InShape (pos2 d (t * mults.prod + packRow (makeStride mults true) ms) q)
      (forestSlice d M sl).shape := by
    rw [forestSlice_shape]
    cases d
    · exact List.Forall₂.cons hr (List.Forall₂.cons hq List.Forall₂.nil)
    · exact List.Forall₂.cons hq (List.Forall₂.cons hr List.Forall₂.nil)
  have ho : 0 < otherDim d M := by omega
  cases d with
  | false =>
    have hs : (forestSlice false M sl).shape = [T * mults.prod, otherDim false M] := by
      rw [forestSlice_shape, ← hw]; rfl
    have hT : freeDim (T * mults.prod * otherDim false M) (mults ++ [otherDim false M]) = T := by
      unfold freeDim
      rw [List.prod_append, List.prod_singleton, Nat.mul_assoc]
      exact Nat.mul_div_cancel _ (Nat.mul_pos hp ho)
    have hin2 : InShape (t :: ms ++ [q]) (T :: mults ++ [otherDim false M]) :=
      inShape_append (List.Forall₂.cons ht hm) (List.Forall₂.cons hq List.Forall₂.nil)
    have hpk : packRow (makeStride (T :: mults ++ [otherDim false M]) true) (t :: ms ++ [q]) =
        packRow (makeStride [T * mults.prod, otherDim false M] true)
          [t * mults.prod + packRow (makeStride mults true) ms, q] := by
      rw [packC_two, packC_append _ _ _ _ (by simp [hm.length]), packC_cons, packC_one, List.prod_singleton]
    unfold scaleForest
    simp only [Bool.false_eq_true, if_false, hs, List.prod_cons, List.prod_nil, Nat.mul_one, List.getD_cons_succ,
      List.getD_cons_zero]
    rw [hT]
    rw [reshape_val _ _ _ (t :: ms ++ [q]) (by exact hin2) (by exact hpk.symm)]
    show ((forestSlice false M sl).reshape _).val _ * _ = _
    rw [reshape_val _ _ _ _ hin (by rw [hs]; exact hpk), forestSlice_val]
    congr 2
    rw [Nat.zero_add, List.cons_append, List.getD_cons_succ]
    rw [List.getD_append _ _ _ _ (by rw [hm.length]; exact hidx)]
  | true =>
    have hs : (forestSlice true M sl).shape = [otherDim true M, T * mults.prod] := by
      rw [forestSlice_shape, ← hw]; rfl
    have hT : freeDim (otherDim true M * (T * mults.prod)) (otherDim true M :: mults) = T := by
      unfold freeDim
      rw [List.prod_cons, show otherDim true M * (T * mults.prod) = T * (otherDim true M * mults.prod) by ring]
      exact Nat.mul_div_cancel _ (Nat.mul_pos ho hp)
    have hin2 : InShape (q :: t :: ms) (otherDim true M :: T :: mults) :=
      List.Forall₂.cons hq (List.Forall₂.cons ht hm)
    have hpk : packRow (makeStride (otherDim true M :: T :: mults) true) (q :: t :: ms) =
        packRow (makeStride [otherDim true M, T * mults.prod] true)
          [q, t * mults.prod + packRow (makeStride mults true) ms] := by
      rw [packC_two, packC_cons, packC_cons, List.prod_cons]
    unfold scaleForest
    simp only [if_true, hs, List.prod_cons, List.prod_nil, Nat.mul_one, List.getD_cons_zero]
    rw [hT]
    rw [reshape_val _ _ _ (q :: t :: ms) (by exact hin2) (by exact hpk.symm)]
    show ((forestSlice true M sl).reshape _).val _ * _ = _
    rw [reshape_val _ _ _ _ hin (by rw [hs]; exact hpk), forestSlice_val]
    congr 2
    rw [show 1 + idx + 1 = idx + 1 + 1 by ring, List.getD_cons_succ, List.getD_cons_succ]

/-! ## Forest blocks and tree blocks -/

section trees
variable [LinearOrder S]

theorem sectorMult' (x : SpaceData S) (h : GoodSpace x) (p : S × ℕ)
    (hp : p ∈ x.sectors.zip x.mults) : x.sectorMultiplicity p.1 = p.2 := by
  unfold SpaceData.sectorMultiplicity
  have hn : ((x.sectors.zip x.mults).map Prod.fst).Nodup := by
    rw [List.map_fst_zip (by rw [h.len])]; exact h.nodup
  generalize x.sectors.zip x.mults = l at hp hn
  induction l with
  | nil => cases hp
  | cons q l ih =>
    rw [List.map_cons, List.nodup_cons] at hn
    by_cases hq : q.1 = p.1
    · rw [List.find?_cons_of_pos (by simp [hq])]
      rcases List.mem_cons.1 hp with rfl | hp
      · rfl
      · exact absurd (List.mem_map.2 ⟨p, hp, hq.symm⟩) hn.1
    · rw [List.find?_cons_of_neg (by simp [hq])]
      rcases List.mem_cons.1 hp with rfl | hp
      · exact absurd rfl hq
      · exact ih hp hn.2

/-- The multiplicities that are read from the legs are those of the item. -/
theorem item_mults {spaces : List (SpaceData S)} (h : ∀ x ∈ spaces, GoodSpace x) (item : List S × List ℕ)
    (hi : item ∈ TProd.iterUncoupled spaces) :
    List.zipWith (fun (x : SpaceData S) s => x.sectorMultiplicity s) spaces item.1 = item.2 ∧
      item.1.length = spaces.length := by
  rw [iterUncoupled_eq spaces h] at hi
  obtain ⟨ch, hc0, rfl⟩ := List.mem_map.1 hi
  have hc := mem_choices.1 hc0
  clear hi hc0
  unfold pairs at hc
  rw [List.forall₂_map_right_iff] at hc
  induction hc with
  | nil => simp
  | @cons p x ch spaces hp _ ih =>
    obtain ⟨i1, i2⟩ := ih (fun y hy => h y (List.mem_cons_of_mem _ hy))
    simp only [List.map_cons] at i1 i2 ⊢
    rw [List.zipWith_cons_cons, i1, sectorMult' x (h x List.mem_cons_self) p hp]
    simpa using i2

theorem forestBlocks_tiles (R : FusionRule S) (c : S) (items : List (List S × List ℕ)) (start : ℕ) :
    Tiles start ((TProd.forestBlocksFrom R c items start).map Prod.snd)
      (start + (items.map (itemSize R c)).sum) := by
  induction items generalizing start with
  | nil => simp [TProd.forestBlocksFrom, Tiles]
  | cons item items ih =>
    rw [TProd.forestBlocksFrom]
    by_cases hw : size R item.1 c * item.2.prod = 0
    · rw [if_pos hw, List.map_cons, List.sum_cons, show itemSize R c item = 0 from hw, Nat.zero_add]
      exact ih start
    · rw [if_neg hw, List.map_cons]
      refine ⟨rfl, by simp, ?_⟩
      rw [List.map_cons, List.sum_cons, itemSize, ← Nat.add_assoc]
      exact ih _

theorem forestBlocks_mem (R : FusionRule S) (c : S) (items : List (List S × List ℕ)) (start : ℕ)
    (fb : List S × (ℕ × ℕ)) (h : fb ∈ TProd.forestBlocksFrom R c items start) :
    ∃ item ∈ items, fb.1 = item.1 ∧ fb.2.2 = fb.2.1 + itemSize R c item := by
  induction items generalizing start with
  | nil => simp [TProd.forestBlocksFrom] at h
  | cons item items ih =>
    rw [TProd.forestBlocksFrom] at h
    by_cases hw : size R item.1 c * item.2.prod = 0
    · rw [if_pos hw] at h
      obtain ⟨it, h1, h2⟩ := ih _ h
      exact ⟨it, List.mem_cons_of_mem _ h1, h2⟩
    · rw [if_neg hw] at h
      rcases List.mem_cons.1 h with rfl | h
      · exact ⟨item, List.mem_cons_self, rfl, rfl⟩
      · obtain ⟨it, h1, h2⟩ := ih _ h
        exact ⟨it, List.mem_cons_of_mem _ h1, h2⟩

theorem forestBlocks_of_item (R : FusionRule S) (c : S) (pre : List (List S × List ℕ)) (item : List S × List ℕ)
    (post : List (List S × List ℕ)) (start : ℕ) (hpos : itemSize R c item ≠ 0) :
    (item.1, (start + (pre.map (itemSize R c)).sum, start + (pre.map (itemSize R c)).sum + itemSize R c item)) ∈
      TProd.forestBlocksFrom R c (pre ++ item :: post) start := by
  induction pre generalizing start with
  | nil =>
    rw [List.nil_append, TProd.forestBlocksFrom, if_neg (by exact hpos)]
    simp [itemSize]
  | cons x pre ih =>
    rw [List.cons_append, TProd.forestBlocksFrom]
    by_cases hw : size R x.1 c * x.2.prod = 0
    · rw [if_pos hw]
      have := ih start
      rwa [List.map_cons, List.sum_cons, show itemSize R c x = 0 from hw, Nat.zero_add]
    · rw [if_neg hw]
      have := ih (start + size R x.1 c * x.2.prod)
      rw [List.map_cons, List.sum_cons, ← Nat.add_assoc]
      exact List.mem_cons_of_mem _ this

/-- The forest block of a tree block. -/
theorem forest_of_tree (R : FusionRule S) (areDual : List Bool) (c : S) {spaces : List (SpaceData S)}
    (hg : ∀ x ∈ spaces, GoodSpace x) (x : FusionTree S × (ℕ × ℕ) × List ℕ)
    (hd : areDual.length = spaces.length)
    (hx : x ∈ TProd.iterTreeBlocks R areDual spaces c) (hpos : 0 < x.2.2.prod) :
    ∃ fb ∈ TProd.iterForestBlocks R spaces c, ∃ k < size R fb.1 c, fb.1 = x.1.uncoupled ∧
      fb.2.2 - fb.2.1 = size R fb.1 c * x.2.2.prod ∧ x.2.1.1 = fb.2.1 + k * x.2.2.prod ∧
      (fb.1, x.2.2) ∈ TProd.iterUncoupled spaces := by
  obtain ⟨pre, item, post, h1, k, h2, h3, h4⟩ := treeBlocks_mem R areDual c _ 0 x hx
  have hk : k < size R item.1 c := by
    have := (List.getElem?_eq_some_iff.1 h2).1
    rwa [length_allTrees] at this
  have hmem : item ∈ TProd.iterUncoupled spaces := by rw [h1]; simp
  have hpos' : itemSize R c item ≠ 0 := by
    rw [h3] at hpos
    have := Nat.mul_pos (by omega : 0 < size R item.1 c) hpos
    unfold itemSize
    omega
  refine ⟨_, by rw [TProd.iterForestBlocks, h1]; exact forestBlocks_of_item R c pre item post 0 hpos', k, hk,
    ?_, ?_, ?_, ?_⟩
  · have hl := (item_mults hg item hmem).2
    obtain ⟨g1, -⟩ := (C01_all_trees_exactly_sane R item.1 c areDual (by rw [hd, hl]) x.1).1
      (List.mem_of_getElem? h2)
    exact g1.symm
  · simp only [h3, Nat.add_sub_cancel_left]; rfl
  · simp only [h4, h3]; ring
  · rw [h3]; exact hmem

end trees

end Cyten.FT
