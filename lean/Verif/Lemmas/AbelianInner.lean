import Verif.Lemmas.AbelianData

/-! # Lemmas on the inner product of block-sparse data -/

namespace Cyten.Abelian
open Cyten.Tables Cyten.Tools Cyten.Props Cyten.ListSum Spec

theorem makeStridePy_cons (s0 : ℕ) (ss : List ℕ) (c : Bool) : makeStridePy (s0 :: ss) c =
    if (if c then ss.prod else (s0 :: ss).dropLast.prod) * s0 < maxInt then
      some (makeStride (s0 :: ss) c) else none := rfl

theorem makeStridePy_eq {shape : List ℕ} {c : Bool} {st : List ℕ}
    (h : makeStridePy shape c = some st) : st = makeStride shape c := by
  cases shape with
  | nil => cases h
  | cons s0 ss =>
    rw [makeStridePy_cons] at h
    by_cases hb : (if c then ss.prod else (s0 :: ss).dropLast.prod) * s0 < maxInt
    · rw [if_pos hb] at h; injection h with h; exact h.symm
    · rw [if_neg hb] at h; cases h

/-- product of two sparse vectors -/
theorem sum_sparse_mul {R α β ρ τ : Type} [NonUnitalNonAssocSemiring R] [DecidableEq ρ]
    (G : List ρ) (hG : G.Nodup) (H : ρ → List τ) (l : List α) (m : List β) (r : α → ρ) (s : β → ρ)
    (hr : ∀ x ∈ l, r x ∈ G) (F : α → τ → R) (F' : β → τ → R) :
    (G.map fun g => ((H g).map fun t =>
      (l.map fun x => if r x = g then F x t else 0).sum *
        (m.map fun y => if s y = g then F' y t else 0).sum).sum).sum =
      (l.map fun x => (m.map fun y =>
        if r x = s y then ((H (r x)).map fun t => F x t * F' y t).sum else 0).sum).sum := by
  have h1 : ∀ g, ((H g).map fun t =>
      (l.map fun x => if r x = g then F x t else 0).sum *
        (m.map fun y => if s y = g then F' y t else 0).sum).sum =
      (l.map fun x => if r x = g then
        (m.map fun y => if s y = g then ((H g).map fun t => F x t * F' y t).sum else 0).sum
        else 0).sum := by
    intro g
    simp only [sum_mul_sum]
    rw [sum_comm]
    refine sum_congr _ fun x _ => ?_
    rw [sum_comm]
    by_cases hx : r x = g
    · rw [if_pos hx]
      refine sum_congr _ fun y _ => ?_
      by_cases hy : s y = g
      · simp [hx, hy]
      · simp [hx, hy]
    · rw [if_neg hx]
      refine sum_zero _ _ fun y _ => sum_zero _ _ fun t _ => ?_
      rw [if_neg hx, zero_mul]
  simp only [h1]
  rw [sum_comm]
  refine sum_congr _ fun x hx => ?_
  rw [sum_single G hG (r x) fun g =>
    (m.map fun y => if s y = g then ((H g).map fun t => F x t * F' y t).sum else 0).sum,
    if_pos (hr x hx)]
  refine sum_congr _ fun y _ => ?_
  by_cases h : s y = r x
  · rw [if_pos h, if_pos h.symm]
  · rw [if_neg h, if_neg fun he => h he.symm]

theorem star_dense {K : Type} [AddCommMonoid K] [StarAddMonoid K] (T : Ents K) (row pos : List ℕ) :
    star (dense T row pos) = (T.map fun p => if p.1 = row then star (p.2.val pos) else 0).sum := by
  unfold dense
  rw [show star (T.map fun p => if p.1 = row then p.2.val pos else 0).sum =
    starAddEquiv (T.map fun p => if p.1 = row then p.2.val pos else 0).sum from rfl,
    map_list_sum, List.map_map]
  refine sum_congr _ fun p _ => ?_
  show star (if p.1 = row then p.2.val pos else 0) = _
  by_cases h : p.1 = row
  · simp [h]
  · simp [h]

theorem gridC_reverse_perm (sh : List ℕ) :
    (gridC sh.reverse).Perm ((gridC sh).map List.reverse) := by
  rw [List.perm_ext_iff_of_nodup (nodup_gridC _) ((nodup_gridC _).map List.reverse_injective)]
  intro r
  rw [mem_gridC, List.mem_map]
  constructor
  · intro h
    refine ⟨r.reverse, ?_, List.reverse_reverse r⟩
    rw [mem_gridC, ← inShape_reverse, List.reverse_reverse]; exact h
  · rintro ⟨q, hq, rfl⟩
    exact inShape_reverse.2 ((mem_gridC _ _).1 hq)

section
variable {K : Type} [NonUnitalNonAssocSemiring K] [Star K]

theorem blkInner_true (p q : Blk K) : Blk.inner p q true =
    ((gridC p.shape).map fun i => star (p.val i) * q.val i).sum := rfl

theorem blkInner_false (p q : Blk K) : Blk.inner p q false =
    ((gridC p.shape).map fun i => p.val i * q.val i.reverse).sum := by
  have h : Blk.inner p q false =
      ((gridC (p.permuteAxes (List.range p.shape.length).reverse).shape).map fun i =>
        (p.permuteAxes (List.range p.shape.length).reverse).val i * q.val i).sum := rfl
  rw [h, permuteAxes_shape_reverse, ((gridC_reverse_perm p.shape).map _).sum_eq, List.map_map]
  refine sum_congr _ fun i hi => ?_
  have hl := ((mem_gridC _ _).1 hi).length
  simp only [Function.comp]
  congr 1
  show p.val _ = _
  rw [unreverse i.reverse _ (by simpa using hl), List.reverse_reverse]

/-- The sum over all pairs of blocks with matching rows. -/
theorem inner_eq (M : List (List ℕ)) (a b : Ents K) (dd : Bool) (ha : Sane M a)
    (hb : Sane (if dd then M else M.reverse) b) {v : K}
    (h : Abelian.inner (M.map List.length) a b dd = some v) :
    v = (a.map fun p => (b.map fun q =>
      if p.1 = (if dd then q.1 else q.1.reverse) then Blk.inner p.2 q.2 dd else 0).sum).sum := by
  unfold Abelian.inner at h
  set nsecs := M.map List.length with hns
  have hst : makeStridePy nsecs false = some (makeStride nsecs false) ∨
      makeStridePy nsecs false = none := by
    rcases Option.eq_none_or_eq_some (makeStridePy nsecs false) with hn | ⟨st, hs⟩
    · exact Or.inr hn
    · exact Or.inl (hs.trans (congrArg some (makeStridePy_eq hs)))
  rcases hst with hst | hst
  swap
  · rw [hst] at h; simp at h
  rw [hst, Option.map_some] at h
  injection h with h
  simp only at h
  set st := makeStride nsecs false with hstd
  set bk := b.map fun q => (packRow (if dd then st else st.reverse) q.1, q.2) with hbk
  set bs := if dd then bk else bk.insertionSort fun x y => x.1 ≤ y.1 with hbs
  have hstlen : st.length = nsecs.length := by simp [hstd]
  -- keys of `b`
  have hrow : ∀ q ∈ b, InShape (if dd then q.1 else q.1.reverse) nsecs ∧
      packRow (if dd then st else st.reverse) q.1 = packRow st (if dd then q.1 else q.1.reverse) := by
    intro q hq
    cases dd
    · simp only [Bool.false_eq_true, if_false] at hb ⊢
      have h1 := hb.inRange q hq
      have h2 : InShape q.1.reverse nsecs := by
        rw [← inShape_reverse, List.reverse_reverse, hns, ← List.map_reverse]; exact h1
      refine ⟨h2, ?_⟩
      rw [← packRow_reverse st q.1.reverse (by rw [hstlen, h2.length]), List.reverse_reverse]
    · exact ⟨hb.inRange q hq, rfl⟩
  have hperm : bs.Perm bk := by
    rw [hbs]
    cases dd
    · exact List.perm_insertionSort _ _
    · exact List.Perm.refl _
  have hbs_sorted : bs.Pairwise fun x y => x.1 < y.1 := by
    cases hd : dd
    · have hdd : bs = bk.insertionSort fun x y => x.1 ≤ y.1 := by rw [hbs, hd]; rfl
      have h1 : bs.Pairwise fun x y => x.1 ≤ y.1 := by
        rw [hdd]
        exact insertionSort_key_sorted _ (fun x : ℕ × Blk K => x.1) bk fun _ _ _ _ => Iff.rfl
      have h2 : (bs.map Prod.fst).Nodup := by
        rw [(hperm.map Prod.fst).nodup_iff, hbk, List.map_map]
        have hnd := hb.nodup
        unfold List.Nodup at hnd ⊢
        rw [List.pairwise_map] at hnd ⊢
        refine hnd.imp_of_mem fun {p q} hp hq hne he => hne ?_
        simp only [Function.comp] at he
        rw [(hrow p hp).2, (hrow q hq).2,
          packRow_false_inj (hrow p hp).1 (hrow q hq).1, hd] at he
        exact List.reverse_injective (by simpa using he)
      unfold List.Nodup at h2
      rw [List.pairwise_map] at h2
      exact (h1.and h2).imp fun h => lt_of_le_of_ne h.1 h.2
    · have hdd : bs = bk := by rw [hbs, hd]; rfl
      rw [hdd, hbk, List.pairwise_map]
      refine hb.keySorted.imp_of_mem fun {p q} hp hq hpq => ?_
      rw [(hrow p hp).2, (hrow q hq).2, hstd, packRow_false_lt_iff (hrow p hp).1 (hrow q hq).1, hd]
      exact hpq
  have hmap := filterMap_commonLoop (compare : ℕ → ℕ → Ordering)
    (fun p : List ℕ × Blk K => packRow st p.1) (Prod.fst : ℕ × Blk K → ℕ)
    (fun p q => Blk.inner p.2 q.2 dd) a bs
    (fun ij => some (innerPair a bs dd ij))
    (fun i j x y hx hy => by simp [innerPair, hx, hy]) (a.length + bs.length) 0 0
  rw [List.drop_zero, List.drop_zero, List.filterMap_eq_map'] at hmap
  rw [foldl_add_eq, zero_add, List.length_map, hmap] at h
  rw [← h]
  have hsum := joinCommon_sum (compare : ℕ → ℕ → Ordering) id
    (fun p : List ℕ × Blk K => packRow st p.1) (Prod.fst : ℕ × Blk K → ℕ)
    (fun p q => Blk.inner p.2 q.2 dd) (id : K → K) (a.length + bs.length) a bs le_rfl
    (fun x _ y _ => compare_key _ _)
    (ha.keySorted.imp_of_mem fun {p q} hp hq hpq =>
      (packRow_false_lt_iff (ha.inRange p hp) (ha.inRange q hq)).2 hpq)
    hbs_sorted
  rw [List.map_id] at hsum
  rw [hsum]
  refine sum_congr _ fun p hp => ?_
  rw [(hperm.map _).sum_eq, hbk, List.map_map]
  refine sum_congr _ fun q hq => ?_
  simp only [Function.comp, id]
  rw [(hrow q hq).2]
  by_cases he : p.1 = (if dd then q.1 else q.1.reverse)
  · rw [if_pos he, if_pos (by rw [he])]
  · rw [if_neg he, if_neg]
    rw [hstd, packRow_false_inj (ha.inRange p hp) (hrow q hq).1]; exact he

end
end Cyten.Abelian
