import Verif.Props.FTMask
import Verif.Spec.FTMaskOps

/-!
# Sides with a single leg: rows are multiplicity indices
-/

namespace Cyten.FT
open Cyten.Abelian Cyten.Spaces Cyten.Tools Cyten.FT.Spec Cyten.ListSum Cyten.FusionTrees Cyten.Props

variable {S : Type} [LinearOrder S]

theorem iterUncoupled_single (x : SpaceData S) (h : x.sectors.length = x.mults.length) :
    TProd.iterUncoupled [x] = (x.sectors.zip x.mults).map fun p => ([p.1], [p.2]) := by
  unfold TProd.iterUncoupled
  refine List.ext_getElem (by simp [h]) fun i h1 h2 => ?_
  have hi : i < x.sectors.length := by simpa using h1
  have hi' : i < x.mults.length := h ▸ hi
  have hr : List.range 1 = [0] := rfl
  simp [TProd.uncoupledItem, gridEntry, makeStride, strideLoop, hr, Nat.mod_eq_of_lt hi, hi, hi', List.reduceOption]

theorem zip_find {x : SpaceData S} (h : x.sectors.length = x.mults.length) (hn : x.sectors.Nodup) {j : ℕ} {s : S}
    (hj : x.sectors[j]? = some s) : x.sectorMultiplicity s = x.mults.getD j 0 := by
  obtain ⟨h1, rfl⟩ := List.getElem?_eq_some_iff.1 hj
  have h2 : j < x.mults.length := h ▸ h1
  have hm : (x.sectors[j], x.mults[j]) ∈ x.sectors.zip x.mults := by
    refine List.mem_of_getElem? (i := j) ?_
    simp [h1, h2]
  unfold SpaceData.sectorMultiplicity
  cases hf : (x.sectors.zip x.mults).find? fun p => p.1 == x.sectors[j] with
  | none =>
    have := List.find?_eq_none.1 hf _ hm
    simp at this
  | some p =>
    have hp := List.mem_of_find?_eq_some hf
    have he : p.1 = x.sectors[j] := by simpa using List.find?_some hf
    have hnd : ((x.sectors.zip x.mults).map Prod.fst).Nodup := by
      rw [List.map_fst_zip (by omega)]; exact hn
    have := List.inj_on_of_nodup_map hnd hp hm he
    simp [this, h2]

theorem sectorMultiplicity_not_mem {x : SpaceData S} {s : S} (h : s ∉ x.sectors) : x.sectorMultiplicity s = 0 := by
  by_contra hc
  exact h (mem_sectors_of_mult (Nat.pos_of_ne_zero hc))

/-- The multiplicities of a leg are those of its sorted sectors. -/
theorem sortedLeg_mult {x : SpaceData S} {l : BLeg S} (h : SortedLeg x l) (s : S) : x.sectorMultiplicity s = mult l s := by
  by_cases hs : s ∈ x.sectors
  · obtain ⟨j, hj⟩ := List.getElem?_of_mem hs
    rw [zip_find h.len h.nodup hj, List.getD_eq_getElem?_getD, h.mult j s hj]
    rfl
  · rw [sectorMultiplicity_not_mem hs]
    have : s ∉ l.sectors := fun hm => hs ((h.mem s).1 hm)
    unfold Spec.mult
    rw [List.idxOf_eq_length this, h.coupled.len]
    simp

theorem zip_sum_mult {x : SpaceData S} (h : x.sectors.length = x.mults.length) (hn : x.sectors.Nodup) (c : S) :
    ((x.sectors.zip x.mults).map fun p => if p.1 = c then p.2 else 0).sum = x.sectorMultiplicity c := by
  have hnd : ((x.sectors.zip x.mults).map Prod.fst).Nodup := by
    rw [List.map_fst_zip (by omega)]; exact hn
  by_cases hs : c ∈ x.sectors
  · obtain ⟨j, hj⟩ := List.getElem?_of_mem hs
    obtain ⟨h1, he⟩ := List.getElem?_eq_some_iff.1 hj
    have h2 : j < x.mults.length := h ▸ h1
    have hm : (c, x.mults[j]) ∈ x.sectors.zip x.mults := by
      refine List.mem_of_getElem? (i := j) ?_
      simp [h1, h2, he]
    rw [sum_single' _ (List.Nodup.of_map _ hnd) _ hm, zip_find h hn hj]
    · simp [h2]
    · intro q hq hne
      rw [if_neg]
      intro heq
      exact hne (List.inj_on_of_nodup_map hnd hq hm heq)
  · rw [sectorMultiplicity_not_mem hs, sum_zero]
    intro p hp
    rw [if_neg]
    rintro rfl
    exact hs (List.of_mem_zip hp).1

/-- A leg alone is a consistent side. -/
theorem sideOK_single (R : FusionRule S) {x : SpaceData S} {l : BLeg S} (h : SortedLeg x l) (hx : GoodSpace x)
    (hpos : ∀ m ∈ x.mults, 0 < m) (d : Bool) : SideOK R ⟨[x], [d]⟩ l := by
  refine ⟨fun y hy => by rw [List.mem_singleton.1 hy]; exact hx, fun y hy => by rw [List.mem_singleton.1 hy]; exact hpos,
    rfl, h.coupled, fun c => ?_⟩
  rw [← sortedLeg_mult h c, ← zip_sum_mult h.len h.nodup c]
  unfold Spaces.Spec.channels Spaces.Spec.pairs
  simp only [List.map_cons, List.map_nil, Spaces.Spec.choices]
  rw [sum_flatMap]
  refine sum_congr _ fun p _ => ?_
  by_cases hp : p.1 = c <;> simp [allTrees, hp]

/-- For a single leg, a row is its multiplicity index, and the uncoupled sector is the coupled one. -/
theorem treeRow_single {R : FusionRule S} {x : SpaceData S} {l : BLeg S} (h : SortedLeg x l) {d : Bool} {c : S}
    {t : FusionTree S} {ms : List ℕ} {p : ℕ} (hr : TreeRow R ⟨[x], [d]⟩ c t ms p) :
    ms = [p] ∧ t.uncoupled[0]? = some c := by
  obtain ⟨st, en, mults, h1, h2, h3⟩ := hr
  unfold TProd.iterTreeBlocks at h1
  have h1 : (t, (st, en), mults) ∈ TProd.treeBlocksFrom R [d] c (TProd.iterUncoupled [x]) 0 := h1
  rw [iterUncoupled_single x h.len] at h1
  obtain ⟨pre, item, post, hitems, k, hk, hm, hst⟩ := treeBlocks_mem R [d] c _ 0 _ h1
  simp only at hk hm hst
  have hnd : ((x.sectors.zip x.mults).map Prod.fst).Nodup := by
    rw [List.map_fst_zip (by rw [h.len])]; exact h.nodup
  obtain ⟨q, hq, hqi⟩ : ∃ q ∈ x.sectors.zip x.mults, ([q.1], [q.2]) = item := by
    have : item ∈ (x.sectors.zip x.mults).map fun p => ([p.1], [p.2]) := by rw [hitems]; simp
    exact List.mem_map.1 this
  subst hqi
  have hqc : q.1 = c := by
    by_contra hne
    simp [allTrees, hne] at hk
  have hk0 : k = 0 ∧ t.uncoupled[0]? = some c := by
    simp only [allTrees, hqc, if_true] at hk
    cases k with
    | zero => simp only [List.getElem?_cons_zero, Option.some.injEq] at hk; rw [← hk]; exact ⟨rfl, rfl⟩
    | succ k => simp at hk
  have hpre : (pre.map (itemSize R c)).sum = 0 := by
    refine sum_zero _ _ fun it hit => ?_
    have hnd2 : (pre ++ ([q.1], [q.2]) :: post).Pairwise fun a b => a.1 ≠ b.1 := by
      rw [← hitems, List.pairwise_map]
      refine (List.pairwise_map.1 hnd).imp fun {a b} hab hh => hab ?_
      simpa using hh
    have := (List.pairwise_append.1 hnd2).2.2 it hit _ List.mem_cons_self
    obtain ⟨q', -, hq'⟩ : ∃ q' ∈ x.sectors.zip x.mults, ([q'.1], [q'.2]) = it := by
      have : it ∈ (x.sectors.zip x.mults).map fun p => ([p.1], [p.2]) := by rw [hitems]; simp [hit]
      exact List.mem_map.1 this
    subst hq'
    have hne : q'.1 ≠ c := fun hh => this (by simp [hh, hqc])
    simp [itemSize, size, hne]
  rw [hpre, hk0.1] at hst
  have hst0 : st = 0 := by
    have := congrArg Prod.fst hst
    simpa using this
  subst hm
  obtain ⟨y, rfl, -⟩ : ∃ y, ms = [y] ∧ y < q.2 := by
    cases h2 with
    | cons ha hb => cases hb; exact ⟨_, rfl, ha⟩
  refine ⟨?_, hk0.2⟩
  rw [h3, hst0]
  simp [packRow, makeStride, strideLoop]

end Cyten.FT

namespace Cyten.FT
open Cyten.Abelian Cyten.Spaces Cyten.Tools Cyten.FT.Spec Cyten.ListSum Cyten.FusionTrees Cyten.Props

variable {S : Type} [LinearOrder S]

theorem keeps_outside {large small : BLeg S} {M : MEnts} {mk : S → List Bool} (h : KeepsData large small M mk)
    (hl : ∀ s, (mk s).length = mult large s) {s : S} (hs : s ∉ large.sectors) : mk s = [] := by
  have : (mk s).length = 0 := by
    rw [hl]
    unfold Spec.mult
    rw [List.idxOf_eq_length hs, h.coupledLarge.len]
    simp
  exact List.length_eq_zero_iff.1 this

theorem keeps_mult {large small : BLeg S} {M : MEnts} {mk : S → List Bool} (h : KeepsData large small M mk)
    (hl : ∀ s, (mk s).length = mult large s) (s : S) : mult small s = (mk s).count true := by
  by_cases hs : s ∈ small.sectors
  · exact h.count s hs
  · have h0 : mult small s = 0 := by
      unfold Spec.mult
      rw [List.idxOf_eq_length hs, h.coupledSmall.len]
      simp
    rw [h0]
    by_cases hL : s ∈ large.sectors
    · exact (List.count_eq_zero.2 fun ht => hs ((h.kept s hL).2 ht)).symm
    · rw [keeps_outside h hl hL]; rfl

/-- The data of a projection and of its dagger are those that the contraction of masks expects. -/
theorem maskOK_of_keeps {ll sl : SpaceData S} {co st : BLeg S} (hL : SortedLeg ll co) (hS : SortedLeg sl st) {M : MEnts}
    {mk : S → List Bool} (h : KeepsData co st M mk) (hl : ∀ s, (mk s).length = mult co s) :
    MaskOK ll sl co M mk ∧ MaskOK ll sl st (ftMaskDagger M) mk := by
  have hstored : ∀ u, (∃ e ∈ M, st.sectors[e.1.1]? = some u) ↔ 0 < (mk u).count true := by
    intro u
    constructor
    · rintro ⟨e, he, hu⟩
      obtain ⟨s, h1, h2, -⟩ := h.block e he
      have hsu : s = u := by rw [h1] at hu; exact Option.some.inj hu
      subst hsu
      exact List.count_pos_iff.2 ((h.kept s (List.mem_of_getElem? h2)).1 (List.mem_of_getElem? h1))
    · intro hp
      have ht := List.count_pos_iff.1 hp
      by_cases hL' : u ∈ co.sectors
      · exact h.stored u ((h.kept u hL').2 ht)
      · rw [keeps_outside h hl hL'] at ht
        exact absurd ht (by simp)
  have hlm : ∀ u, ll.sectorMultiplicity u = (mk u).length := fun u => by rw [sortedLeg_mult hL, hl]
  have hsm : ∀ u, sl.sectorMultiplicity u = (mk u).count true := fun u => by rw [sortedLeg_mult hS, keeps_mult h hl]
  constructor
  · refine ⟨h.coupledLarge, fun e he => ?_, h.sorted, fun e he u hu => ?_, fun u => ?_, hlm, hsm⟩
    · obtain ⟨s, h1, h2, -⟩ := h.block e he
      exact (List.getElem?_eq_some_iff.1 h2).1
    · obtain ⟨s, h1, h2, h3⟩ := h.block e he
      rw [h2] at hu
      cases hu
      exact h3
    · rw [← hstored u]
      constructor
      · rintro ⟨e, he, hu⟩
        obtain ⟨s, h1, h2, h3⟩ := h.block e he
        rw [h2] at hu; cases hu
        exact ⟨e, he, h1⟩
      · rintro ⟨e, he, hu⟩
        obtain ⟨s, h1, h2, h3⟩ := h.block e he
        rw [h1] at hu; cases hu
        exact ⟨e, he, h2⟩
  · have hmem : ∀ e ∈ ftMaskDagger M, ((e.1.2, e.1.1), e.2) ∈ M := fun e he => by
      obtain ⟨e', he', rfl⟩ := List.mem_map.1 he
      exact he'
    refine ⟨h.coupledSmall, fun e he => ?_, ?_, fun e he u hu => ?_, fun u => ?_, hlm, hsm⟩
    · obtain ⟨s, h1, h2, -⟩ := h.block _ (hmem e he)
      exact (List.getElem?_eq_some_iff.1 h1).1
    · unfold ftMaskDagger
      rw [List.map_map]
      show (M.map fun e => e.1.1).Pairwise _
      rw [List.pairwise_map]
      refine List.Pairwise.imp_of_mem ?_ (List.pairwise_map.1 h.sorted)
      intro a b ha hb hab
      obtain ⟨s, a1, a2, -⟩ := h.block a ha
      obtain ⟨s', b1, b2, -⟩ := h.block b hb
      obtain ⟨x1, y1⟩ := List.getElem?_eq_some_iff.1 a2
      obtain ⟨x2, y2⟩ := List.getElem?_eq_some_iff.1 b2
      have hss : s < s' := by
        rw [← y1, ← y2]
        exact List.pairwise_iff_getElem.1 h.coupledLarge.sorted _ _ x1 x2 hab
      obtain ⟨x3, y3⟩ := List.getElem?_eq_some_iff.1 a1
      obtain ⟨x4, y4⟩ := List.getElem?_eq_some_iff.1 b1
      by_contra hle
      rcases Nat.lt_or_ge b.1.1 a.1.1 with hlt | hge
      · have := List.pairwise_iff_getElem.1 h.coupledSmall.sorted _ _ x4 x3 hlt
        rw [y3, y4] at this
        exact absurd this (not_lt.2 hss.le)
      · have heq : a.1.1 = b.1.1 := by omega
        have : s = s' := by rw [← y3, ← y4]; simp only [heq]
        exact absurd hss (by rw [this]; exact lt_irrefl _)
    · obtain ⟨s, h1, h2, h3⟩ := h.block _ (hmem e he)
      simp only at h1 h3
      rw [h1] at hu
      cases hu
      exact h3
    · rw [← hstored u]
      constructor
      · rintro ⟨e, he, hu⟩
        exact ⟨_, hmem e he, hu⟩
      · rintro ⟨e, he, hu⟩
        exact ⟨((e.1.2, e.1.1), e.2), List.mem_map.2 ⟨e, he, rfl⟩, hu⟩

end Cyten.FT
