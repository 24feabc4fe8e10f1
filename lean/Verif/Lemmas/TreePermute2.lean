import Verif.Lemmas.TreePermute

/-! # The permutation of a tree block -/

namespace Cyten.FT
open Cyten.FT.Spec Cyten.Tools Cyten.ListSum Cyten.Props Cyten.Spaces Cyten.Spaces.Spec Cyten.Abelian
  Cyten.FusionTrees

variable {K : Type}

theorem inShape_map (l : List ℕ) (μ m : ℕ → ℕ) (h : ∀ x ∈ l, m x < μ x) : InShape (l.map m) (l.map μ) := by
  unfold InShape
  rw [List.forall₂_map_left_iff, List.forall₂_map_right_iff, List.forall₂_same]
  exact h

theorem old_mults (P : List ℕ) (n : ℕ) (h : P.Perm (List.range n)) (μ : ℕ → ℕ) :
    ((inversePermutation P).map fun i => (P.map μ).getD i 0) = (List.range n).map μ := by
  have hu := unpermute (perm := P) (r := (List.range n).map μ) (by simpa using h)
  have e : (P.map fun c => ((List.range n).map μ).getD c 0) = P.map μ := by
    refine List.map_congr_left fun x hx => ?_
    have hx' : x < n := by simpa using h.mem_iff.1 hx
    simp [List.getD_eq_getElem?_getD, List.getElem?_range hx']
  rw [e] at hu
  exact hu

theorem blockAxis_get (J M : ℕ) (f : ℕ → ℕ) (x : ℕ) (hx : x < J + M) :
    ((List.range J ++ (List.range' J M).reverse).map f).getD (blockAxis J (J + M) x) 0 = f x ∧
      blockAxis J (J + M) x < J + M := by
  unfold blockAxis
  by_cases h : x < J
  · rw [if_pos h]
    refine ⟨?_, hx⟩
    rw [List.getD_eq_getElem?_getD, List.getElem?_map, List.getElem?_append_left (by simpa using h),
      List.getElem?_range h]
    rfl
  · rw [if_neg h]
    refine ⟨?_, by omega⟩
    rw [List.getD_eq_getElem?_getD, List.getElem?_map, List.getElem?_append_right (by simp; omega),
      List.getElem?_reverse (by simp; omega), List.getElem?_range' (by simp; omega)]
    simp only [Option.map_some, Option.getD_some, List.length_range', List.length_range]
    congr 1
    omega

theorem axis_pick (J M : ℕ) (f : ℕ → ℕ) (l : List ℕ) (h : ∀ x ∈ l, x < J + M) :
    pick (l.map (blockAxis J (J + M))) ((List.range J ++ (List.range' J M).reverse).map f) = l.map f := by
  unfold pick
  rw [List.map_map]
  exact List.map_congr_left fun x hx => (blockAxis_get J M f x (h x hx)).1

theorem axis_perm (J M : ℕ) (l : List ℕ) (h : l.Perm (List.range (J + M))) :
    (l.map (blockAxis J (J + M))).Perm (List.range (J + M)) := by
  have hl : (l.map (blockAxis J (J + M))).length = J + M := by simpa using h.length_eq
  have hn : (l.map (blockAxis J (J + M))).Nodup := by
    refine List.Nodup.of_map (fun c => ((List.range J ++ (List.range' J M).reverse).map id).getD c 0) ?_
    rw [show List.map (fun c => ((List.range J ++ (List.range' J M).reverse).map id).getD c 0)
      (l.map (blockAxis J (J + M))) = l.map id from
      axis_pick J M id l fun x hx => by simpa using h.mem_iff.1 hx, List.map_id]
    exact h.nodup_iff.2 List.nodup_range
  have := perm_range_of_nodup hn fun x hx => by
    obtain ⟨y, hy, rfl⟩ := List.mem_map.1 hx
    rw [hl]
    exact (blockAxis_get J M id y (by simpa using h.mem_iff.1 hy)).2
  rwa [hl] at this

theorem permuteTreeBlock_spec (J M : ℕ) (cod dom : List ℕ) (hp : (cod ++ dom).Perm (List.range (J + M)))
    (μ : ℕ → ℕ) (b : Mat K) (hr : b.rows = ((List.range J).map μ).prod)
    (hc : b.cols = (((List.range' J M).reverse).map μ).prod) :
    (permuteTreeBlock J (J + M) cod dom (cod.map μ) (dom.map μ) b).rows = (cod.map μ).prod ∧
    (permuteTreeBlock J (J + M) cod dom (cod.map μ) (dom.map μ) b).cols = (dom.map μ).prod ∧
    ∀ m : ℕ → ℕ, (∀ x < J + M, m x < μ x) →
      (permuteTreeBlock J (J + M) cod dom (cod.map μ) (dom.map μ) b).val
          (packRow (makeStride (cod.map μ) true) (cod.map m)) (packRow (makeStride (dom.map μ) true) (dom.map m)) =
        b.val (packRow (makeStride ((List.range J).map μ) true) ((List.range J).map m))
          (packRow (makeStride (((List.range' J M).reverse).map μ) true) (((List.range' J M).reverse).map m)) := by
  have hlt : ∀ x ∈ cod ++ dom, x < J + M := fun x hx => by simpa using hp.mem_iff.1 hx
  have hP : (cod ++ dom.reverse).Perm (List.range (J + M)) :=
    (List.Perm.append_left _ (List.reverse_perm _)).trans hp
  have e1 : ((inversePermutation (cod ++ dom.reverse)).map fun i => (cod.map μ ++ (dom.map μ).reverse).getD i 0) =
      (List.range J).map μ ++ (List.range' J M).map μ := by
    have := old_mults _ _ hP μ
    rw [List.map_append, List.map_reverse] at this
    rw [this, List.range_add, List.map_append, List.range_eq_range' (n := M), List.map_add_range', Nat.add_zero]
  have hL : ∀ f : ℕ → ℕ, (List.range J).map f ++ ((List.range' J M).map f).reverse =
      (List.range J ++ (List.range' J M).reverse).map f := fun f => by simp
  let bb := (b.toBlk.reshape ((List.range J).map μ ++ ((List.range' J M).map μ).reverse)).permuteAxes
    (cod.map (blockAxis J (J + M)) ++ dom.map (blockAxis J (J + M)))
  have hdef : permuteTreeBlock J (J + M) cod dom (cod.map μ) (dom.map μ) b =
      ⟨(bb.shape.take (cod.map (blockAxis J (J + M))).length).prod,
       (bb.shape.drop (cod.map (blockAxis J (J + M))).length).prod,
        fun i j => (bb.reshape [(bb.shape.take (cod.map (blockAxis J (J + M))).length).prod,
          (bb.shape.drop (cod.map (blockAxis J (J + M))).length).prod]).val [i, j]⟩ := by
    unfold permuteTreeBlock permuteCombined
    simp only [e1]
    have t1 : ((List.range J).map μ ++ (List.range' J M).map μ).take J = (List.range J).map μ := by
      rw [List.take_append_of_le_length (by simp), List.take_of_length_le (by simp)]
    have t2 : ((List.range J).map μ ++ (List.range' J M).map μ).drop J = (List.range' J M).map μ := by
      rw [List.drop_append_of_le_length (by simp), List.drop_of_length_le (by simp), List.nil_append]
    rw [t1, t2]
  have hs : bb.shape = cod.map μ ++ dom.map μ := by
    show pick _ ((List.range J).map μ ++ ((List.range' J M).map μ).reverse) = _
    rw [hL, ← List.map_append, axis_pick J M μ _ hlt, List.map_append]
  have h1 : (bb.shape.take (cod.map (blockAxis J (J + M))).length) = cod.map μ := by
    rw [hs, List.take_append_of_le_length (by simp), List.take_of_length_le (by simp)]
  have h2 : (bb.shape.drop (cod.map (blockAxis J (J + M))).length) = dom.map μ := by
    rw [hs, List.drop_append_of_le_length (by simp), List.drop_of_length_le (by simp), List.nil_append]
  rw [h1, h2] at hdef
  rw [hdef]
  refine ⟨rfl, rfl, fun m hm => ?_⟩
  simp only
  have s1 := inShape_map cod μ m fun x hx => hm x (hlt x (List.mem_append_left _ hx))
  have s2 := inShape_map dom μ m fun x hx => hm x (hlt x (List.mem_append_right _ hx))
  have s0 := inShape_map (List.range J) μ m fun x hx => hm x (by have := List.mem_range.1 hx; omega)
  have s0' := inShape_map ((List.range' J M).reverse) μ m fun x hx => hm x (by
    have := List.mem_range'_1.1 (List.mem_reverse.1 hx); omega)
  have s3 : InShape ((cod ++ dom).map m) bb.shape := by
    rw [hs, ← List.map_append]
    exact inShape_map _ μ m fun x hx => hm x (hlt x hx)
  rw [reshape_val bb _ _ ((cod ++ dom).map m) s3 (by
    rw [hs, packC_two, List.map_append, packC_append _ _ _ _ (by simp)])]
  have hv := permuteAxes_val (b.toBlk.reshape ((List.range J).map μ ++ ((List.range' J M).map μ).reverse))
    (cod.map (blockAxis J (J + M)) ++ dom.map (blockAxis J (J + M)))
    ((List.range J ++ (List.range' J M).reverse).map m) (by
      rw [← List.map_append]
      simpa using axis_perm J M _ hp)
  rw [← List.map_append, axis_pick J M m _ hlt] at hv
  have hb' : bb = (b.toBlk.reshape ((List.range J).map μ ++ ((List.range' J M).map μ).reverse)).permuteAxes
    ((cod ++ dom).map (blockAxis J (J + M))) := by rw [List.map_append]
  rw [hb', hv]
  have l1 := packRow_lt s0
  have l2 := packRow_lt s0'
  rw [reshape_val b.toBlk _ _ [packRow (makeStride ((List.range J).map μ) true) ((List.range J).map m),
    packRow (makeStride (((List.range' J M).reverse).map μ) true) (((List.range' J M).reverse).map m)]
    (by
      show List.Forall₂ _ _ [b.rows, b.cols]
      rw [hr, hc]
      exact .cons l1 (.cons l2 .nil))
    (by
      show _ = packRow (makeStride [b.rows, b.cols] true) _
      rw [packC_two, List.map_append, ← List.map_reverse, packC_append _ _ _ _ (by simp), hc])]
  rfl

end Cyten.FT
