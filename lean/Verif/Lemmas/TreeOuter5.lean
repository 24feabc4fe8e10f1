import Verif.Lemmas.TreeOuter4

/-! # `outer` of fusion trees and of pairs of fusion trees -/

namespace Cyten.FT.Spec
open Cyten.FT Cyten.Mappings

/-- `l` is the fusion of the trees `t` and `right` to trees of `t.uncoupled ++ right.uncoupled`: for every coupled sector
`c`, the sum over all fusion channels of the coupled sectors of `t` and `right` into `c`. -/
structure Fused {S K : Type} [LinearOrder S] [CommRing K] [StarRing K] (R : FusionRule S) (T : FTensors S K)
    (t right : FusionTree S) (l : UMap (FusionTree S) K) : Prop where
  tree : ∀ p ∈ l, p.1.Sane R ∧ p.1.uncoupled = t.uncoupled ++ right.uncoupled ∧
    p.1.areDual = t.areDual ++ right.areDual
  channel : ∀ p ∈ l, 0 < R.nSymbol t.coupled right.coupled p.1.coupled
  distinct : (l.map Prod.fst).Nodup
  sum : ∀ (c : S) (is js : List ℕ), InDims T t.uncoupled is → InDims T right.uncoupled js → ∀ k, k < T.dim c →
    (l.map fun p => p.2 * if p.1.coupled = c then treeTensor T p.1 (is ++ js) k else 0).sum =
      ((List.range (R.nSymbol t.coupled right.coupled c)).map fun m =>
        ((List.range (T.dim t.coupled)).map fun g => ((List.range (T.dim right.coupled)).map fun h =>
          treeTensor T t is g * treeTensor T right js h *
            T.X t.coupled right.coupled c false false m g h k).sum).sum).sum

end Cyten.FT.Spec

namespace Cyten.FT
open Cyten.FT.Spec Cyten.Tools Cyten.ListSum Cyten.Props Cyten.Mappings

variable {S K : Type} [LinearOrder S] [CommRing K] [StarRing K]
variable {R : FusionRule S} {T : FTensors S K} {D : Topo S K} {F : FSym S K}

section
variable {A : Type} [DecidableEq A]

omit [StarRing K] in
theorem fold_addTo_one (l : UMap A K) (res : UMap A K) (hn : (res.map Prod.fst).Nodup) :
    let r := l.foldl (fun res q => res.addTo q.1 q.2) res
    (r.map Prod.fst).Nodup ∧ (∀ x, x ∈ r.map Prod.fst → x ∈ l.map Prod.fst ∨ x ∈ res.map Prod.fst) ∧
      ∀ g, colSum r g = colSum res g + colSum l g := by
  have e : (fun (res : UMap A K) (q : A × K) => res.addTo q.1 q.2) =
      fun res q => res.addTo q.1 (q.2 * 1) := by
    funext res q; rw [mul_one]
  intro r
  have h := fun g => fold_addTo l 1 res hn g
  simp only [← e] at h
  exact ⟨(h fun _ => 0).1, (h fun _ => 0).2.1, fun g => by rw [(h g).2.2, one_mul]⟩

omit [StarRing K] in
theorem fold_fold (ls : List (UMap A K)) (res : UMap A K) (hn : (res.map Prod.fst).Nodup) :
    let r := ls.foldl (fun res l => l.foldl (fun res q => res.addTo q.1 q.2) res) res
    (r.map Prod.fst).Nodup ∧ (∀ x, x ∈ r.map Prod.fst → (∃ l ∈ ls, x ∈ l.map Prod.fst) ∨ x ∈ res.map Prod.fst) ∧
      ∀ g, colSum r g = colSum res g + (ls.map fun l => colSum l g).sum := by
  induction ls generalizing res with
  | nil => exact ⟨hn, fun x hx => Or.inr hx, fun g => by simp⟩
  | cons l ls ih =>
    obtain ⟨a1, a2, a3⟩ := fold_addTo_one l res hn
    obtain ⟨b1, b2, b3⟩ := ih _ a1
    refine ⟨b1, fun x hx => ?_, fun g => ?_⟩
    · rcases b2 x hx with ⟨l', hl, h⟩ | h
      · exact Or.inl ⟨l', List.mem_cons_of_mem _ hl, h⟩
      · rcases a2 x h with h | h
        · exact Or.inl ⟨l, List.mem_cons_self, h⟩
        · exact Or.inr h
    · refine (b3 g).trans ?_
      rw [a3, List.map_cons, List.sum_cons]; ring

end

theorem inDims_take_drop {us vs : List S} {is js : List ℕ} (h1 : InDims T us is) (h2 : InDims T vs js) :
    InDims T (us ++ vs) (is ++ js) := by
  induction h1 with
  | nil => exact h2
  | cons h _ ih => exact List.Forall₂.cons h ih

theorem treeTensor_empty (t : FusionTree S) (h : t.Sane R) (hl : t.uncoupled.length = 0) (is : List ℕ) (k : ℕ) :
    treeTensor T t is k = 1 := by
  rw [eq_fromEmpty t h (List.length_eq_zero_iff.1 hl)]
  rfl

theorem extended_eq_outer (t : FusionTree S) (h : t.Sane R) (hl : 1 ≤ t.uncoupled.length) (z c : S) (m : ℕ) :
    (⟨t.uncoupled ++ [z], c, t.areDual ++ [false],
      if t.uncoupled.length ≤ 1 then [] else t.inner ++ [t.coupled], t.mult ++ [m]⟩ : FusionTree S) =
      t.extended z m c false := by
  unfold FusionTree.extended
  have hi := h.len_inner
  congr 1
  · by_cases h1 : t.uncoupled.length ≤ 1
    · rw [if_pos h1, if_neg (by omega)]
      exact (List.length_eq_zero_iff.1 (by omega)).symm
    · rw [if_neg h1, if_pos (by omega)]
  · rw [if_neg (by omega)]

theorem treeOuter_spec (hL : GroupLaws R T D) (hO : OuterLaws R T F) (hR : R.Lawful) {small : K → Bool}
    (hS : FCutoffExact F small) (t : FusionTree S) (h : t.Sane R) (r : FusionTree S) (h2 : r.Sane R) :
    Fused R T t r (treeOuter R F small t r) := by
  unfold treeOuter
  by_cases hl : t.uncoupled.length = 0
  · rw [if_pos hl]
    have hu := List.length_eq_zero_iff.1 hl
    have ht := eq_fromEmpty t h hu
    refine ⟨?_, ?_, by simp, fun c is js hi hj k hk => ?_⟩
    rotate_left
    · intro p hp
      obtain rfl := List.mem_singleton.1 hp
      rw [show t.coupled = R.unit by rw [ht]; rfl, hO.unit_left, if_pos rfl]; exact Nat.one_pos
    rotate_left
    · intro p hp
      obtain rfl := List.mem_singleton.1 hp
      exact ⟨h2, by rw [hu]; rfl, by rw [ht]; rfl⟩
    · have hc : t.coupled = R.unit := by rw [ht]; rfl
      rw [hu] at hi
      cases hi
      rw [hc, hL.dim_unit, hO.unit_left]
      simp only [List.map_cons, List.map_nil, List.sum_cons, List.sum_nil, add_zero, one_mul, List.nil_append,
        List.range_one]
      by_cases hcc : r.coupled = c
      · subst hcc
        rw [if_pos rfl, if_pos rfl]
        simp only [List.range_one, List.map_cons, List.map_nil, List.sum_cons, List.sum_nil, add_zero]
        symm
        refine Eq.trans (sum_congr _ fun g hg => ?_) (sum_range_single (T.dim r.coupled) k hk _)
        rw [hO.x_unit_left _ _ _ (List.mem_range.1 hg) hk, treeTensor_empty t h hl]
        by_cases hgk : g = k
        · rw [if_pos hgk, if_pos hgk.symm]; ring
        · rw [if_neg hgk, if_neg (Ne.symm hgk)]; ring
      · rw [if_neg hcc, if_neg hcc]; simp
  · rw [if_neg hl]
    by_cases hl2 : r.uncoupled.length = 0
    · rw [if_pos hl2]
      have hu := List.length_eq_zero_iff.1 hl2
      have hr := eq_fromEmpty r h2 hu
      refine ⟨?_, ?_, by simp, fun c is js hi hj k hk => ?_⟩
      rotate_left
      · intro p hp
        obtain rfl := List.mem_singleton.1 hp
        rw [show r.coupled = R.unit by rw [hr]; rfl, hO.unit_right, if_pos rfl]; exact Nat.one_pos
      rotate_left
      · intro p hp
        obtain rfl := List.mem_singleton.1 hp
        exact ⟨h, by rw [hu, List.append_nil], by rw [hr]; simp [FusionTree.fromEmpty]⟩
      · have hc : r.coupled = R.unit := by rw [hr]; rfl
        rw [hu] at hj
        cases hj
        rw [hc, hL.dim_unit, hO.unit_right]
        simp only [List.map_cons, List.map_nil, List.sum_cons, List.sum_nil, add_zero, one_mul, List.append_nil,
          List.range_one]
        by_cases hcc : t.coupled = c
        · subst hcc
          rw [if_pos rfl, if_pos rfl]
          simp only [List.range_one, List.map_cons, List.map_nil, List.sum_cons, List.sum_nil, add_zero]
          symm
          refine Eq.trans (sum_congr _ fun g hg => ?_) (sum_range_single (T.dim t.coupled) k hk _)
          rw [hO.x_unit_right _ _ _ (List.mem_range.1 hg) hk, treeTensor_empty r h2 hl2]
          by_cases hgk : g = k
          · rw [if_pos hgk, if_pos hgk.symm]; ring
          · rw [if_neg hgk, if_neg (Ne.symm hgk)]; ring
        · rw [if_neg hcc, if_neg hcc]; simp
    · rw [if_neg hl2]
      have hl' : 1 ≤ t.uncoupled.length := by omega
      have key : ∀ c, ∀ m < R.nSymbol t.coupled r.coupled c,
          Inserted R T (t.extended r.coupled m c false) t.uncoupled.length r
            (insertAt R F small ⟨t.uncoupled ++ [r.coupled], c, t.areDual ++ [false],
              if t.uncoupled.length ≤ 1 then [] else t.inner ++ [t.coupled], t.mult ++ [m]⟩ t.uncoupled.length r) := by
        intro c m hm
        rw [extended_eq_outer t h hl']
        refine insertAt_spec hL hO hS _ (extended_sane_pos R t h _ _ _ _ hl' hm) _ r h2 (by omega) ?_ ?_
        · rw [extended_uncoupled]; simp
        · rw [extended_areDual, ← h.len_dual]; simp
      obtain ⟨b1, b2, b3⟩ := fold_fold ((R.outcomes t.coupled r.coupled).flatMap fun c =>
        (List.range (R.rawN t.coupled r.coupled c)).map fun m =>
          insertAt R F small ⟨t.uncoupled ++ [r.coupled], c, t.areDual ++ [false],
          if t.uncoupled.length ≤ 1 then [] else t.inner ++ [t.coupled], t.mult ++ [m]⟩ t.uncoupled.length r) []
        List.nodup_nil
      refine ⟨fun p hp => ?_, fun p hp => ?_, b1, fun c is js hi hj k hk => ?_⟩
      rotate_left
      · rcases b2 p.1 (List.mem_map_of_mem hp) with ⟨l, hl3, hx⟩ | hx
        · obtain ⟨c, hc, hm⟩ := List.mem_flatMap.1 hl3
          obtain ⟨m, hm3, rfl⟩ := List.mem_map.1 hm
          obtain ⟨q, hq, hqe⟩ := List.mem_map.1 hx
          have hm' : m < R.nSymbol t.coupled r.coupled c := by rw [nSymbol_of_mem R hc]; exact List.mem_range.1 hm3
          rw [← hqe, ((key c m hm').tree q hq).2.1]
          exact lt_of_le_of_lt (Nat.zero_le _) hm'
        · simp at hx
      rotate_left
      · rcases b2 p.1 (List.mem_map_of_mem hp) with ⟨l, hl3, hx⟩ | hx
        · obtain ⟨c, hc, hm⟩ := List.mem_flatMap.1 hl3
          obtain ⟨m, hm3, rfl⟩ := List.mem_map.1 hm
          obtain ⟨q, hq, hqe⟩ := List.mem_map.1 hx
          obtain ⟨s1, s2, s3, s4⟩ := (key c m (by rw [nSymbol_of_mem R hc]; exact List.mem_range.1 hm3)).tree q hq
          rw [← hqe]
          refine ⟨s1, ?_, ?_⟩
          · rw [s3, extended_uncoupled]; simp
          · rw [s4, extended_areDual]
            have := h.len_dual
            simp [← this]
        · simp at hx
      · have e := b3 fun p => if p.coupled = c then treeTensor T p (is ++ js) k else 0
        refine e.trans ?_
        have e0 : colSum ([] : UMap (FusionTree S) K)
          (fun p => if p.coupled = c then treeTensor T p (is ++ js) k else 0) = 0 := rfl
        rw [e0, zero_add, sum_flatMap]
        have e1 : ∀ c' ∈ R.outcomes t.coupled r.coupled,
            (((List.range (R.rawN t.coupled r.coupled c')).map fun m =>
              insertAt R F small ⟨t.uncoupled ++ [r.coupled], c', t.areDual ++ [false],
                if t.uncoupled.length ≤ 1 then [] else t.inner ++ [t.coupled], t.mult ++ [m]⟩ t.uncoupled.length r).map
              fun l => colSum l fun p => if p.coupled = c then treeTensor T p (is ++ js) k else 0).sum =
            if c = c' then ((List.range (R.nSymbol t.coupled r.coupled c')).map fun m =>
              ((List.range (T.dim t.coupled)).map fun g => ((List.range (T.dim r.coupled)).map fun h =>
                treeTensor T t is g * treeTensor T r js h *
                T.X t.coupled r.coupled c' false false m g h k).sum).sum).sum else 0 := by
          intro c' hc'
          rw [List.map_map, ← nSymbol_of_mem R hc']
          by_cases hcc : c = c'
          · subst hcc
            rw [if_pos rfl]
            refine sum_congr _ fun m hm => ?_
            have hm := List.mem_range.1 hm
            have hk2 := key c m hm
            have e2 := hk2.sum is js [] (by rw [extended_uncoupled]; simpa using hi) hj
              (by rw [extended_uncoupled]; simp [InDims]) k hk
            rw [List.append_nil] at e2
            refine Eq.trans (sum_congr _ fun p hp => ?_) (e2.trans ?_)
            · exact congrArg (p.2 * ·) (if_pos (hk2.tree p hp).2.1)
            · rw [sum_comm]
              refine sum_congr _ fun h' hh => ?_
              rw [List.append_nil, treeTensor_extended hL t h hl' _ _ _ _ hm is hi h' k (List.mem_range.1 hh) hk,
                ListSum.sum_mul]
              refine sum_congr _ fun g _ => by ring
          · rw [if_neg hcc]
            refine sum_zero _ _ fun m hm => ?_
            have hk2 := key c' m (List.mem_range.1 hm)
            refine sum_zero _ _ fun p hp => ?_
            refine (congrArg (p.2 * ·) (if_neg ?_)).trans (mul_zero _)
            rw [(hk2.tree p hp).2.1]; exact fun e => hcc e.symm
        rw [sum_congr _ e1, sum_single _ (hR.nodup _ _)]
        by_cases hc : c ∈ R.outcomes t.coupled r.coupled
        · rw [if_pos hc]
        · rw [if_neg hc]
          have : R.nSymbol t.coupled r.coupled c = 0 := by
            by_contra hn
            exact hc (mem_of_nSymbol_pos R (Nat.pos_of_ne_zero hn))
          rw [this]; rfl

/-! ## Pairs of trees -/

theorem complete_sum {I J : Type} [DecidableEq I] (P : List I) (hP : P.Nodup) (C : List J) (a b : I → K)
    (X : I → J → K) (h : ∀ p ∈ P, ∀ q ∈ P, (C.map fun c => star (X p c) * X q c).sum = if p = q then 1 else 0) :
    (C.map fun c => star (P.map fun p => a p * X p c).sum * (P.map fun p => b p * X p c).sum).sum =
      (P.map fun p => star (a p) * b p).sum := by
  have e1 : ∀ c ∈ C, star (P.map fun p => a p * X p c).sum * (P.map fun p => b p * X p c).sum =
      (P.map fun p => (P.map fun q => star (a p) * b q * (star (X p c) * X q c)).sum).sum := by
    intro c _
    rw [star_lsum, sum_mul_lsum]
    refine sum_congr _ fun p _ => sum_congr _ fun q _ => ?_
    rw [star_mul']; ring
  rw [sum_congr _ e1, sum_comm]
  refine sum_congr _ fun p hp => ?_
  rw [sum_comm]
  have e2 : ∀ q ∈ P, (C.map fun c => star (a p) * b q * (star (X p c) * X q c)).sum =
      if p = q then star (a p) * b q else 0 := by
    intro q hq
    rw [← ListSum.mul_sum, h p hp q hq]
    by_cases hpq : p = q
    · rw [if_pos hpq, if_pos hpq, mul_one]
    · rw [if_neg hpq, if_neg hpq, mul_zero]
  rw [sum_congr _ e2, sum_single _ hP, if_pos hp]

/-- the pairs `(g, h)` of two ranges -/
def pairsOf (m n : ℕ) : List (ℕ × ℕ) := (List.range m).flatMap fun g => (List.range n).map fun h => (g, h)

theorem mem_pairsOf {m n : ℕ} {p : ℕ × ℕ} : p ∈ pairsOf m n ↔ p.1 < m ∧ p.2 < n := by
  unfold pairsOf
  simp only [List.mem_flatMap, List.mem_map, List.mem_range]
  constructor
  · rintro ⟨g, hg, h, hh, rfl⟩; exact ⟨hg, hh⟩
  · rintro ⟨h1, h2⟩; exact ⟨p.1, h1, p.2, h2, rfl⟩

theorem nodup_pairsOf (m n : ℕ) : (pairsOf m n).Nodup := by
  unfold pairsOf
  rw [List.nodup_flatMap]
  refine ⟨fun g _ => List.nodup_range.map fun a b h => (Prod.mk.inj h).2, ?_⟩
  refine List.nodup_range.imp fun {a b} hab => ?_
  change List.Disjoint _ _
  rw [List.disjoint_left]
  intro x h1 h2
  obtain ⟨_, _, rfl⟩ := List.mem_map.1 h1
  obtain ⟨_, _, h3⟩ := List.mem_map.1 h2
  exact hab (Prod.mk.inj h3).1.symm

omit [StarRing K] in
theorem sum_pairsOf (m n : ℕ) (f : ℕ × ℕ → K) : ((pairsOf m n).map f).sum =
    ((List.range m).map fun g => ((List.range n).map fun h => f (g, h)).sum).sum := by
  unfold pairsOf
  rw [sum_flatMap]
  refine sum_congr _ fun g _ => ?_
  rw [List.map_map]; rfl

theorem star_range_one {n : ℕ} (hn : n ≤ 1) (f g : ℕ → K) :
    star ((List.range n).map f).sum * ((List.range n).map g).sum = ((List.range n).map fun m => star (f m) * g m).sum := by
  match n, hn with
  | 0, _ => simp
  | 1, _ => simp

theorem fused_first (hR : R.Lawful) {ta tb sa sb : FusionTree S} (ha : ta.coupled = sa.coupled)
    (hb : tb.coupled = sb.coupled) {lx ly : UMap (FusionTree S) K}
    (hx : Fused R T ta tb lx) (hy : Fused R T sa sb ly) (iA iB jA jB : List ℕ) (h1 : InDims T ta.uncoupled iA)
    (h2 : InDims T tb.uncoupled iB) (h3 : InDims T sa.uncoupled jA) (h4 : InDims T sb.uncoupled jB) :
    (ly.map fun y => (lx.map fun x => if x.1.coupled = y.1.coupled then
      star x.2 * y.2 * pairTensor T (x.1, y.1) (iA ++ iB) (jA ++ jB) else 0).sum).sum =
      ((R.outcomes ta.coupled tb.coupled).map fun c => ((List.range (T.dim c)).map fun k =>
        star ((List.range (R.nSymbol ta.coupled tb.coupled c)).map fun m =>
          ((List.range (T.dim ta.coupled)).map fun g => ((List.range (T.dim tb.coupled)).map fun h =>
            treeTensor T ta iA g * treeTensor T tb iB h *
              T.X ta.coupled tb.coupled c false false m g h k).sum).sum).sum *
        ((List.range (R.nSymbol ta.coupled tb.coupled c)).map fun m =>
          ((List.range (T.dim ta.coupled)).map fun g => ((List.range (T.dim tb.coupled)).map fun h =>
            treeTensor T sa jA g * treeTensor T sb jB h *
              T.X ta.coupled tb.coupled c false false m g h k).sum).sum).sum).sum).sum := by
  have e1 : ∀ y ∈ ly, ∀ x ∈ lx, (if x.1.coupled = y.1.coupled then
      star x.2 * y.2 * pairTensor T (x.1, y.1) (iA ++ iB) (jA ++ jB) else 0) =
      ((R.outcomes ta.coupled tb.coupled).map fun c => ((List.range (T.dim c)).map fun k =>
        star (x.2 * if x.1.coupled = c then treeTensor T x.1 (iA ++ iB) k else 0) *
          (y.2 * if y.1.coupled = c then treeTensor T y.1 (jA ++ jB) k else 0)).sum).sum := by
    intro y _ x hx'
    have hmem := mem_of_nSymbol_pos R (hx.channel x hx')
    rw [sum_single' _ (hR.nodup _ _) _ hmem]
    · by_cases hc : x.1.coupled = y.1.coupled
      · rw [if_pos hc]
        unfold pairTensor
        rw [ListSum.mul_sum]
        refine sum_congr _ fun k _ => ?_
        simp only [if_pos hc.symm, if_true, star_mul']
        ring
      · rw [if_neg hc]
        symm
        refine sum_zero _ _ fun k _ => ?_
        rw [if_neg (Ne.symm hc), mul_zero, mul_zero]
    · intro c _ hc
      refine sum_zero _ _ fun k _ => ?_
      rw [if_neg (Ne.symm hc), mul_zero, star_zero, zero_mul]
  rw [sum_congr _ fun y hy' => sum_congr _ fun x hx' => e1 y hy' x hx']
  rw [sum_congr _ fun y hy' => sum_comm _ _ _, sum_comm]
  refine sum_congr _ fun c _ => ?_
  rw [sum_congr _ fun y hy' => sum_comm _ _ _]
  rw [sum_comm]
  refine sum_congr _ fun k hk => ?_
  have hk := List.mem_range.1 hk
  have s1 := hx.sum c iA iB h1 h2 k hk
  have s2 := hy.sum c jA jB h3 h4 k hk
  rw [← ha, ← hb] at s2
  rw [sum_comm]
  refine Eq.trans (sum_mul_lsum lx ly _ _).symm ?_
  rw [← star_lsum, s1, s2]

/-- The pairs of fused trees with the same coupled sector give the tensor product of the two pairs, if no fusion of their
coupled sectors has a multiplicity. -/
theorem fused_pairs (hO : OuterLaws R T F) (hR : R.Lawful) {ta tb sa sb : FusionTree S} (ha : ta.coupled = sa.coupled)
    (hb : tb.coupled = sb.coupled) (hmf : ∀ c, R.nSymbol ta.coupled tb.coupled c ≤ 1) {lx ly : UMap (FusionTree S) K}
    (hx : Fused R T ta tb lx) (hy : Fused R T sa sb ly) (iA iB jA jB : List ℕ) (h1 : InDims T ta.uncoupled iA)
    (h2 : InDims T tb.uncoupled iB) (h3 : InDims T sa.uncoupled jA) (h4 : InDims T sb.uncoupled jB) :
    (ly.map fun y => (lx.map fun x => if x.1.coupled = y.1.coupled then
      star x.2 * y.2 * pairTensor T (x.1, y.1) (iA ++ iB) (jA ++ jB) else 0).sum).sum =
      pairTensor T (ta, sa) iA jA * pairTensor T (tb, sb) iB jB := by
  rw [fused_first hR ha hb hx hy iA iB jA jB h1 h2 h3 h4]
  let C : List (S × ℕ × ℕ) := (R.outcomes ta.coupled tb.coupled).flatMap fun c =>
    (List.range (R.nSymbol ta.coupled tb.coupled c)).flatMap fun m => (List.range (T.dim c)).map fun k => (c, m, k)
  let P := pairsOf (T.dim ta.coupled) (T.dim tb.coupled)
  have hC : ∀ f : S × ℕ × ℕ → K, (C.map f).sum = ((R.outcomes ta.coupled tb.coupled).map fun c =>
      ((List.range (R.nSymbol ta.coupled tb.coupled c)).map fun m => ((List.range (T.dim c)).map fun k =>
        f (c, m, k)).sum).sum).sum := by
    intro f
    rw [sum_flatMap]
    refine sum_congr _ fun c _ => ?_
    rw [sum_flatMap]
    refine sum_congr _ fun m _ => ?_
    rw [List.map_map]; rfl
  have e2 := complete_sum P (nodup_pairsOf _ _) C (fun p => treeTensor T ta iA p.1 * treeTensor T tb iB p.2)
    (fun p => treeTensor T sa jA p.1 * treeTensor T sb jB p.2)
    (fun p c => T.X ta.coupled tb.coupled c.1 false false c.2.1 p.1 p.2 c.2.2) (by
      intro p hp q hq
      obtain ⟨p1, p2⟩ := mem_pairsOf.1 hp
      obtain ⟨q1, q2⟩ := mem_pairsOf.1 hq
      rw [hC]
      refine (hO.complete _ _ p.1 p.2 q.1 q.2 p1 p2 q1 q2).trans ?_
      simp only [Prod.ext_iff])
  refine Eq.trans ?_ (e2.trans ?_)
  · rw [hC]
    refine sum_congr _ fun c _ => ?_
    refine Eq.trans (sum_congr _ fun k hk => ?_) (sum_comm _ _ _)
    rw [star_range_one (hmf c)]
    refine sum_congr _ fun m _ => ?_
    rw [sum_pairsOf, sum_pairsOf]
  · rw [sum_pairsOf]
    unfold pairTensor
    rw [sum_mul_lsum]
    refine sum_congr _ fun g _ => sum_congr _ fun h' _ => ?_
    simp only [star_mul']
    ring

end Cyten.FT
