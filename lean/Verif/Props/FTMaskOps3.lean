import Verif.Props.FTMaskOps2
import Verif.Props.FTDiag2

/-!
# C92: conversion, transpose and indexing of masks of the fusion tree backend
-/

namespace Cyten.FT
open Cyten.Abelian Cyten.Spaces Cyten.Tools Cyten.FT.Spec Cyten.Props Cyten.ListSum
open Cyten.Abelian.Spec (diagEntry IsDiagIndex)

variable {S K : Type} [LinearOrder S]

/-- **C92** (dagger). The dagger exchanges projection and inclusion and keeps the blocks, and is its own inverse. -/
theorem C92_dagger (isProjection : Bool) (M : MEnts) :
    maskEnts (!isProjection) (ftMaskDagger M) = maskEnts isProjection M ∧ ftMaskDagger (ftMaskDagger M) = M := by
  constructor
  · unfold maskEnts ftMaskDagger
    rw [List.map_map]
    refine List.map_congr_left fun e _ => ?_
    cases isProjection <;> rfl
  · unfold ftMaskDagger
    rw [List.map_map]
    exact List.map_id' _

/-- The rows of a projection or of an inclusion as those of a projection. -/
theorem maskEnts_asProjection (isProjection : Bool) (M : MEnts) :
    maskEnts isProjection M = maskEnts true (if isProjection then M else ftMaskDagger M) := by
  cases isProjection with
  | true => rfl
  | false => exact ((C92_dagger false M).1).symm

theorem ents_sane {co st : BLeg S} {M : MEnts} {mk : S → List Bool} (hM : KeepsData co st M mk) :
    Abelian.Spec.DSane co.mults (maskEnts true M) := by
  refine ⟨fun p hp => ?_, ?_⟩
  · obtain ⟨e, he, rfl⟩ := List.mem_map.1 hp
    obtain ⟨s, _, s2, s3⟩ := hM.block e he
    refine ⟨by rw [← hM.coupledLarge.len]; exact (List.getElem?_eq_some_iff.1 s2).1, ?_⟩
    simp only [if_true]
    rw [s3, hM.len s (List.mem_of_getElem? s2), mult_eq hM.coupledLarge s2]
  · unfold maskEnts
    rw [List.map_map]
    exact hM.sorted

theorem ents_value {co st : BLeg S} {M : MEnts} {mk : S → List Bool} (hM : KeepsData co st M mk) {s : S} {m : ℕ}
    (h : InLeg co s m) : value co (maskEnts true M) s m = (mk s).getD m false := by
  obtain ⟨i, hi, _⟩ := inLeg_index hM.coupledLarge h
  rw [value_eq hM.coupledLarge _ hi]
  obtain ⟨b1, b2⟩ := keeps_block hM hi
  unfold diagEntry
  cases hx : List.lookup i (maskEnts true M) with
  | none =>
    have := lookup_none_iff.1 hx
    rw [b2 fun e he h => this _ (List.mem_map_of_mem he) h]
    simp only [zeros1, List.getD_eq_getElem?_getD, List.getElem?_replicate]
    split_ifs <;> rfl
  | some x =>
    obtain ⟨e, he, hex⟩ := List.mem_map.1 (lookup_mem hx)
    simp only [if_true, Prod.mk.injEq] at hex
    rw [← hex.2, b1 e he hex.1]
    rfl

/-- **C92** (to block). The dense vector of a mask (projection or inclusion) has true exactly at the indices that are
kept, for every vector of the sector, also if the leg is dual. -/
theorem C92_to_block {leg : SpaceData S} {co st : BLeg S} (h : SortedLeg leg co) (isDual isProjection : Bool)
    (hsorted : isDual = false → leg.sectors = co.sectors) (dim : S → ℕ) (M : MEnts) (mk : S → List Bool)
    (hM : KeepsData co st (if isProjection then M else ftMaskDagger M) mk) :
    (ftMaskToBlock dim isDual isProjection leg co M).length = spaceDim dim leg ∧
    ∀ k s d m, DenseIndex dim leg k s d m →
      (ftMaskToBlock dim isDual isProjection leg co M).getD k false = (mk s).getD m false := by
  have e : ftMaskToBlock dim isDual isProjection leg co M =
      diagToBlock dim leg co (maskEnts true (if isProjection then M else ftMaskDagger M)) := by
    unfold ftMaskToBlock diagToBlock
    rw [maskEnts_asProjection]
    congr 1
    funext res p
    unfold diagPut
    cases hs : co.sectors[p.1]? with
    | none => rfl
    | some c =>
      simp only
      cases hd : isDual with
      | true => rfl
      | false =>
        have : leg.sectors.idxOf c = p.1 := h.idxOf (by rw [hsorted hd]; exact hs)
        rw [this]
        rfl
  obtain ⟨h1, h2⟩ := C91_to_block h dim _ (ents_sane hM)
  rw [e]
  refine ⟨h1, fun k s d m hk => ?_⟩
  rw [← ents_value hM (denseIndex_inLeg h hk).1]
  exact h2 k s d m hk

/-- **C92** (to diagonal). The diagonal tensor of a mask is one at the indices that are kept and zero elsewhere. -/
theorem C92_to_diagonal [Zero K] [One K] {co st : BLeg S} (isProjection : Bool) (M : MEnts) (mk : S → List Bool)
    (hM : KeepsData co st (if isProjection then M else ftMaskDagger M) mk) :
    Abelian.Spec.DSane co.mults (ftMaskToDiagonal (K := K) isProjection M) ∧
    ∀ s m, InLeg co s m → value co (ftMaskToDiagonal (K := K) isProjection M) s m = if (mk s).getD m false then 1 else 0 := by
  have e : ftMaskToDiagonal (K := K) isProjection M =
      diagUnary co (List.map fun b : Bool => if b then (1 : K) else 0) true
        (maskEnts true (if isProjection then M else ftMaskDagger M)) := by
    unfold ftMaskToDiagonal diagUnary
    rw [maskEnts_asProjection]
    rfl
  obtain ⟨h1, h2⟩ := C91_unary hM.coupledLarge (fun b : Bool => if b then (1 : K) else 0) true
    (fun _ => by rw [if_neg]; decide) _ (ents_sane hM)
  rw [e]
  refine ⟨h1, fun s m hm => ?_⟩
  rw [h2 s m hm, ents_value hM hm]

/-- **C92** (transpose). The transpose of a projection is an inclusion of the dual legs that keeps, of the dual of a
sector, the indices of the sector; `co'` and `st'` are the sorted sectors of the dual legs. -/
theorem C92_transpose {co st co' st' : BLeg S} (dual : S → S) (hdd : ∀ s, dual (dual s) = s) (hc' : Coupled co')
    (hs' : Coupled st') (hmem : ∀ s, s ∈ co'.sectors ↔ dual s ∈ co.sectors)
    (hmult : ∀ s ∈ co.sectors, mult co' (dual s) = mult co s) (hmem' : ∀ s, s ∈ st'.sectors ↔ dual s ∈ st.sectors)
    (hmult' : ∀ s ∈ st.sectors, mult st' (dual s) = mult st s) (M : MEnts) (mk : S → List Bool)
    (hM : KeepsData co st M mk) :
    KeepsData co' st' (ftMaskDagger (ftMaskTranspose dual st co M)) fun s => mk (dual s) := by
  have hinj : Function.Injective dual := fun a b h => by rw [← hdd a, ← hdd b, h]
  have hm1 : ∀ s, s ∈ co'.sectors ↔ ∃ t ∈ co.sectors, s = dual t := fun s => by
    rw [hmem]
    exact ⟨fun h => ⟨_, h, (hdd s).symm⟩, fun ⟨t, ht, e⟩ => by rw [e, hdd]; exact ht⟩
  have hm2 : ∀ s, s ∈ st'.sectors ↔ ∃ t ∈ st.sectors, s = dual t := fun s => by
    rw [hmem']
    exact ⟨fun h => ⟨_, h, (hdd s).symm⟩, fun ⟨t, ht, e⟩ => by rw [e, hdd]; exact ht⟩
  set R := M.map fun e => (((inversePermutation (lexsortIndices (co.sectors.map dual))).getD e.1.2 0,
    (inversePermutation (lexsortIndices (st.sectors.map dual))).getD e.1.1 0), e.2) with hR
  have hT : ftMaskTranspose dual st co M = mkData R false := rfl
  have hrow : ∀ e ∈ M, ∃ s, st.sectors[e.1.1]? = some s ∧ co.sectors[e.1.2]? = some s ∧ e.2 = mk s ∧
      co'.sectors[(inversePermutation (lexsortIndices (co.sectors.map dual))).getD e.1.2 0]? = some (dual s) ∧
      st'.sectors[(inversePermutation (lexsortIndices (st.sectors.map dual))).getD e.1.1 0]? = some (dual s) := by
    intro e he
    obtain ⟨s, s1, s2, s3⟩ := hM.block e he
    obtain ⟨k, k1, k2⟩ := dual_number hM.coupledLarge hc' dual hinj hm1 s2
    obtain ⟨l, l1, l2⟩ := dual_number hM.coupledSmall hs' dual hinj hm2 s1
    refine ⟨s, s1, s2, s3, ?_, ?_⟩
    · rw [List.getD_eq_getElem?_getD, k1]; exact k2
    · rw [List.getD_eq_getElem?_getD, l1]; exact l2
  have hRrow : ∀ r ∈ R, ∃ s, co'.sectors[r.1.1]? = some (dual s) ∧ st'.sectors[r.1.2]? = some (dual s) ∧ r.2 = mk s := by
    intro r hr
    obtain ⟨e, he, rfl⟩ := List.mem_map.1 hr
    obtain ⟨s, _, _, s3, s4, s5⟩ := hrow e he
    exact ⟨s, s4, s5, s3⟩
  have hRn : (R.map fun e => e.1.2).Nodup := by
    rw [hR, List.map_map]
    have hn : M.Nodup := (nodup_of_lt hM.sorted).of_map
    refine (List.nodup_map_iff_inj_on hn).2 ?_
    intro e he f hf hef
    obtain ⟨s, _, s2, _, _, s5⟩ := hrow e he
    obtain ⟨t, _, t2, _, _, t5⟩ := hrow f hf
    simp only [Function.comp] at hef
    rw [hef, t5] at s5
    have : t = s := hinj (Option.some.inj s5)
    subst this
    exact List.inj_on_of_nodup_map (nodup_of_lt hM.sorted) he hf (nodup_getElem? hM.coupledLarge.nodup s2 t2)
  have hp : (mkData R false).Perm R := mkData_perm R false
  have hsort : ((mkData R false).map fun e => e.1.2).Pairwise (· < ·) := by
    have a1 := mkData_sorted R hRn
    exact a1
  have hmemD : ∀ r, r ∈ ftMaskDagger (ftMaskTranspose dual st co M) ↔ ((r.1.2, r.1.1), r.2) ∈ R := by
    intro r
    rw [hT, ← hp.mem_iff]
    unfold ftMaskDagger
    rw [List.mem_map]
    constructor
    · rintro ⟨e, he, rfl⟩; exact he
    · intro h; exact ⟨_, h, rfl⟩
  have hblk : ∀ r ∈ ftMaskDagger (ftMaskTranspose dual st co M), ∃ s, st'.sectors[r.1.1]? = some s ∧
      co'.sectors[r.1.2]? = some s ∧ r.2 = mk (dual s) := by
    intro r hr
    obtain ⟨s, s1, s2, s3⟩ := hRrow _ ((hmemD r).1 hr)
    exact ⟨dual s, s2, s1, by rw [hdd]; exact s3⟩
  refine ⟨⟨hc', hs', hblk, ?_, ?_, ?_, ?_⟩, ?_, ?_⟩
  · -- sorted by the large leg
    have h0 : ((ftMaskDagger (ftMaskTranspose dual st co M)).map fun e => e.1.1).Pairwise (· < ·) := by
      rw [hT]
      unfold ftMaskDagger
      rw [List.map_map]
      exact hsort
    rw [List.pairwise_map] at h0 ⊢
    refine h0.imp_of_mem fun {e f} he hf h => ?_
    obtain ⟨s, s1, s2, _⟩ := hblk e he
    obtain ⟨t, t1, t2, _⟩ := hblk f hf
    exact (hc'.lt_iff s2 t2).2 ((hs'.lt_iff s1 t1).1 h)
  · intro s hs
    obtain ⟨e, he, e1⟩ := hM.stored (dual s) ((hmem' s).1 hs)
    obtain ⟨t, t1, t2, t3, t4, t5⟩ := hrow e he
    rw [e1] at t1
    rw [← Option.some.inj t1, hdd] at t5
    refine ⟨(((inversePermutation (lexsortIndices (st.sectors.map dual))).getD e.1.1 0,
      (inversePermutation (lexsortIndices (co.sectors.map dual))).getD e.1.2 0), e.2), ?_, t5⟩
    rw [hmemD]
    exact List.mem_map.2 ⟨e, he, rfl⟩
  · intro s hs
    rw [hM.len _ ((hmem s).1 hs), ← hmult _ ((hmem s).1 hs), hdd]
  · intro s hs
    rw [← hM.count _ ((hmem' s).1 hs), ← hmult' _ ((hmem' s).1 hs), hdd]
  · intro s hs
    rw [hmem]
    exact hM.sub _ ((hmem' s).1 hs)
  · intro s hs
    rw [hmem', hM.kept _ ((hmem s).1 hs)]

end Cyten.FT
