import Verif.Lemmas.TreeOuter9

/-!
# Outer products of one-leg trees
-/

namespace Cyten.FT
open Cyten.FT.Spec Cyten.Tools Cyten.ListSum Cyten.Props Cyten.Mappings

variable {S K : Type} [LinearOrder S] [CommRing K] [StarRing K]
variable {R : FusionRule S} {T : FTensors S K} {F : FSym S K}

/-- The outer product of two one-leg trees needs no F move. -/
theorem treeOuter_one (hR : R.Lawful) (small : K → Bool) (a b : S) :
    Fused R T (FusionTree.fromSector a false) (FusionTree.fromSector b false)
      (treeOuter R F small (FusionTree.fromSector a false) (FusionTree.fromSector b false)) := by
  have e : treeOuter R F small (FusionTree.fromSector a false) (FusionTree.fromSector b false) =
      ((R.outcomes a b).flatMap fun c => (List.range (R.rawN a b c)).map fun m =>
        [((⟨[a, b], c, [false, false], [], [m]⟩ : FusionTree S), (1 : K))]).foldl
        (fun (res : UMap (FusionTree S) K) l => l.foldl (fun (res : UMap (FusionTree S) K) q => res.addTo q.1 q.2) res) [] := by
    simp [treeOuter, FusionTree.fromSector, insertAt]
  rw [e]
  obtain ⟨b1, b2, b3⟩ := fold_fold ((R.outcomes a b).flatMap fun c => (List.range (R.rawN a b c)).map fun m =>
        [((⟨[a, b], c, [false, false], [], [m]⟩ : FusionTree S), (1 : K))]) [] List.nodup_nil
  have hk : ∀ p ∈ ((R.outcomes a b).flatMap fun c => (List.range (R.rawN a b c)).map fun m =>
        [((⟨[a, b], c, [false, false], [], [m]⟩ : FusionTree S), (1 : K))]).foldl
        (fun (res : UMap (FusionTree S) K) l => l.foldl (fun (res : UMap (FusionTree S) K) q => res.addTo q.1 q.2) res) [],
      ∃ c m, m < R.nSymbol a b c ∧ p.1 = ⟨[a, b], c, [false, false], [], [m]⟩ := by
    intro p hp
    rcases b2 p.1 (List.mem_map_of_mem hp) with ⟨l, hl3, hx⟩ | hx
    · obtain ⟨c, hc, hm⟩ := List.mem_flatMap.1 hl3
      obtain ⟨m, hm3, rfl⟩ := List.mem_map.1 hm
      refine ⟨c, m, by rw [nSymbol_of_mem R hc]; exact List.mem_range.1 hm3, ?_⟩
      simpa using hx
    · simp at hx
  refine ⟨fun p hp => ?_, fun p hp => ?_, b1, fun c is js hi hj k hkc => ?_⟩
  · obtain ⟨c, m, hm, hpe⟩ := hk p hp
    rw [hpe]
    refine ⟨⟨rfl, rfl, rfl, by simp, by simp, fun n hn => ?_⟩, rfl, rfl⟩
    have hn0 : n = 0 := by simpa using hn
    subst hn0
    exact ⟨a, b, m, c, rfl, by omega, hm⟩
  · obtain ⟨c, m, hm, hpe⟩ := hk p hp
    rw [hpe]
    exact lt_of_le_of_lt (Nat.zero_le _) hm
  · have e := b3 fun p => if p.coupled = c then treeTensor T p (is ++ js) k else 0
    refine e.trans ?_
    have e0 : colSum ([] : UMap (FusionTree S) K)
      (fun p => if p.coupled = c then treeTensor T p (is ++ js) k else 0) = 0 := rfl
    rw [e0, zero_add, sum_flatMap]
    cases hi with
    | cons hi hi' =>
    cases hi'
    cases hj with
    | cons hj hj' =>
    cases hj'
    rename_i i j
    have ht : ∀ m, treeTensor T (⟨[a, b], c, [false, false], [], [m]⟩ : FusionTree S) [i, j] k =
      T.X a b c false false m i j k := fun m => rfl
    have hr : ((List.range (R.nSymbol a b c)).map fun m =>
        ((List.range (T.dim a)).map fun g => ((List.range (T.dim b)).map fun h =>
          treeTensor T (FusionTree.fromSector a false) [i] g * treeTensor T (FusionTree.fromSector b false) [j] h *
            T.X a b c false false m g h k).sum).sum).sum =
        ((List.range (R.nSymbol a b c)).map fun m => T.X a b c false false m i j k).sum := by
      refine sum_congr _ fun m _ => ?_
      refine Eq.trans (sum_congr _ fun g _ => ?_) (sum_range_single (T.dim a) i hi fun g => T.X a b c false false m g j k)
      refine Eq.trans (sum_congr _ fun h _ => ?_) ((sum_range_single (T.dim b) j hj fun h =>
        if i = g then T.X a b c false false m g h k else 0).trans ?_)
      · show (if i = g then 1 else 0) * (if j = h then 1 else 0) * _ = _
        by_cases h1 : i = g <;> by_cases h2 : j = h <;> simp [h1, h2]
      · rfl
    refine Eq.trans ?_ hr.symm
    by_cases hc : c ∈ R.outcomes a b
    · refine Eq.trans (sum_single' (R.outcomes a b) (hR.nodup a b) c hc _ fun c' hc' hne => ?_) ?_
      · rw [List.map_map]
        refine sum_zero _ _ fun m _ => ?_
        simp [colSum, hne]
      · rw [List.map_map, nSymbol_of_mem R hc]
        refine sum_congr _ fun m _ => ?_
        simp only [Function.comp, colSum, List.map_cons, List.map_nil, List.sum_cons, List.sum_nil, add_zero, one_mul,
          if_pos, List.cons_append, List.nil_append]
        exact ht m
    · rw [sum_zero _ _ fun c' hc' => ?_]
      · have : R.nSymbol a b c = 0 := by
          by_contra h0
          exact hc (mem_of_nSymbol_pos R (Nat.pos_of_ne_zero h0))
        rw [this]; rfl
      · rw [List.map_map]
        refine sum_zero _ _ fun m _ => ?_
        have : c' ≠ c := fun h => hc (h ▸ hc')
        simp [colSum, this]

/-- A family that resolves the identity preserves scalar products. -/
theorem parseval {A B : Type} [DecidableEq A] (P : List A) (hP : P.Nodup) (Q : List B) (Y : B → A → K) (x y : A → K)
    (hall : ∀ p ∈ P, ∀ q ∈ P, (Q.map fun b => star (Y b p) * Y b q).sum = if p = q then 1 else 0) :
    (Q.map fun b => (P.map fun p => star (Y b p) * x p).sum * (P.map fun q => star (y q) * Y b q).sum).sum =
      (P.map fun p => star (y p) * x p).sum := by
  have e : ∀ b ∈ Q, (P.map fun p => star (Y b p) * x p).sum * (P.map fun q => star (y q) * Y b q).sum =
      (P.map fun p => (P.map fun q => (star (Y b p) * Y b q) * (x p * star (y q))).sum).sum := by
    intro b _
    rw [sum_mul_lsum]
    exact sum_congr _ fun p _ => sum_congr _ fun q _ => by ring
  rw [sum_congr _ e, sum_comm]
  refine sum_congr _ fun p hp => ?_
  rw [sum_comm]
  have e2 : ∀ q ∈ P, (Q.map fun b => (star (Y b p) * Y b q) * (x p * star (y q))).sum =
      if p = q then x q * star (y q) else 0 := by
    intro q hq
    rw [← ListSum.sum_mul, hall p hp q hq]
    by_cases h : p = q
    · rw [if_pos h, if_pos h, h]; ring
    · rw [if_neg h, if_neg h]; ring
  rw [sum_congr _ e2, sum_single _ hP, if_pos hp]; ring

theorem pairTensor_one (a : S) (i i' : ℕ) (hi : i < T.dim a) :
    pairTensor T (FusionTree.fromSector a false, FusionTree.fromSector a false) [i] [i'] = if i = i' then 1 else 0 := by
  refine (sum_congr _ fun g _ => ?_).trans (sum_range_single (T.dim a) i hi fun g => if i' = g then (1 : K) else 0) |>.trans ?_
  · show star (if i = g then (1 : K) else 0) * (if i' = g then 1 else 0) = _
    by_cases h : i = g <;> simp [h]
  · simp [eq_comm]

theorem one_leg (a b c : S) (m i j k : ℕ) (hi : i < T.dim a) (hj : j < T.dim b) :
    ((List.range (T.dim a)).map fun g => ((List.range (T.dim b)).map fun h =>
          treeTensor T (FusionTree.fromSector a false) [i] g * treeTensor T (FusionTree.fromSector b false) [j] h *
            T.X a b c false false m g h k).sum).sum = T.X a b c false false m i j k := by
  refine Eq.trans (sum_congr _ fun g _ => ?_) (sum_range_single (T.dim a) i hi fun g => T.X a b c false false m g j k)
  refine Eq.trans (sum_congr _ fun h _ => ?_) ((sum_range_single (T.dim b) j hj fun h =>
    if i = g then T.X a b c false false m g h k else 0).trans ?_)
  · show (if i = g then 1 else 0) * (if j = h then 1 else 0) * _ = _
    by_cases h1 : i = g <;> by_cases h2 : j = h <;> simp [h1, h2]
  · rfl

end Cyten.FT
