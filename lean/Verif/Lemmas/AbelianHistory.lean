import Verif.Props.AbelianCharge
import Verif.Props.AbelianLinear
import Verif.Props.AbelianMaskContract
import Verif.Model.AbelianGrid
import Verif.Props.AbelianPipe2

/-! Lemmas for C41: every operation of the abelian backend produces a symmetric tensor. -/

namespace Cyten.Props
open Cyten.Abelian Cyten.Abelian.Spec Cyten.Tables Cyten.Tools Cyten.ListSum Cyten.Spaces
open Cyten.FusionTrees

variable {K S : Type}

theorem isHom_linearCombination [Semiring K] (R : Cyten.FusionRule S) (cod dom : List (BLeg S))
    (a b : K) (v w : Ents K) (hv : IsHom R cod dom v) (hw : IsHom R cod dom w) :
    IsHom R cod dom (linearCombination a v b w) := by
  refine ⟨C41_linear_combination _ a b v w hv.sane hw.sane, ?_⟩
  rw [linearCombination_eq]
  intro d hd
  rcases mem_join hd with ⟨p, hp, rfl⟩ | ⟨q, hq, rfl⟩ | ⟨p, hp, q, hq, -, rfl⟩
  · exact hv.charge p hp
  · exact hw.charge q hq
  · exact hv.charge p hp

theorem isHom_nil (R : Cyten.FusionRule S) (cod dom : List (BLeg S)) :
    IsHom R cod dom ([] : Ents K) :=
  ⟨sane_nil _, fun p hp => by simp at hp⟩

theorem isHom_mul [Semiring K] [DecidableEq K] (R : Cyten.FusionRule S) (cod dom : List (BLeg S))
    (a : K) (v : Ents K) (hv : IsHom R cod dom v) : IsHom R cod dom (Abelian.mul a v) := by
  refine ⟨C41_mul _ a v hv.sane, ?_⟩
  unfold Abelian.mul mkData
  by_cases h : a = 0
  · rw [if_pos h]; intro p hp; simp at hp
  · rw [if_neg h, if_pos rfl]
    intro p hp
    obtain ⟨q, hq, rfl⟩ := List.mem_map.1 hp
    exact hv.charge q hq

theorem rowShape_eq (legs : List (BLeg S)) (row : List ℕ) :
    rowShape legs row = shapeOf (multsOf legs) row := by
  unfold rowShape shapeOf multsOf
  rw [List.zipWith_map_left]

theorem multsOf_legOrder (cod dom : List (BLeg S)) :
    multsOf (legOrder cod dom) = multsOf cod ++ (multsOf dom).reverse := by
  simp [multsOf, legOrder]

theorem isHom_rows [LinearOrder S] (R : Cyten.FusionRule S) (cod dom : List (BLeg S))
    (hl : LegsOK (cod ++ dom)) (f : List ℕ → Blk K)
    (hf : ∀ row, (f row).shape = rowShape (legOrder cod dom) row) (rows : List (List ℕ))
    (h : validBlockInds R cod dom = some rows) :
    IsHom R cod dom (mkData (rows.map fun row => (row, f row)) true) := by
  obtain ⟨h1, h2⟩ := validBlockInds_some h
  have hlen : ((legOrder cod dom).map fun l => l.sectors.length) =
      (multsOf cod ++ (multsOf dom).reverse).map List.length := by
    rw [← multsOf_legOrder]
    unfold multsOf
    rw [List.map_map]
    refine List.map_congr_left fun l hm => ?_
    exact hl l (by simpa [legOrder] using hm)
  unfold mkData
  rw [if_pos rfl]
  refine ⟨⟨?_, ?_, ?_⟩, ?_⟩
  · intro p hp
    obtain ⟨r, hr, rfl⟩ := List.mem_map.1 hp
    rw [← hlen]; exact ((h1 r).1 hr).1
  · intro p hp
    obtain ⟨r, hr, rfl⟩ := List.mem_map.1 hp
    show (f r).shape = _
    rw [hf, rowShape_eq, multsOf_legOrder]
  · rw [List.map_map]
    simpa [Function.comp_def] using h2
  · intro p hp
    obtain ⟨r, hr, rfl⟩ := List.mem_map.1 hp
    exact ((h1 r).1 hr).2

theorem isHom_zeroData [LinearOrder S] [Zero K] (R : Cyten.FusionRule S) (cod dom : List (BLeg S))
    (hl : LegsOK (cod ++ dom)) (allBlocks : Bool) (T : Ents K)
    (h : zeroData R cod dom allBlocks = some T) : IsHom R cod dom T := by
  unfold zeroData at h
  cases allBlocks with
  | false => injection h with h; subst h; exact isHom_nil R cod dom
  | true =>
    rw [if_pos rfl] at h
    cases hv : validBlockInds R cod dom with
    | none => rw [hv] at h; simp at h
    | some rows =>
      rw [hv, Option.map_some] at h
      injection h with h; subst h
      exact isHom_rows R cod dom hl (fun row => Blk.zeros (rowShape (legOrder cod dom) row))
        (fun _ => rfl) rows hv

theorem isHom_fromSectorBlockFunc [LinearOrder S] (R : Cyten.FusionRule S) (cod dom : List (BLeg S))
    (hl : LegsOK (cod ++ dom)) (func : List ℕ → S → Blk K)
    (hf : ∀ shape c, (func shape c).shape = shape) (T : Ents K)
    (h : fromSectorBlockFunc R func cod dom = some T) : IsHom R cod dom T := by
  unfold fromSectorBlockFunc at h
  cases hv : validBlockInds R cod dom with
  | none => rw [hv] at h; simp at h
  | some rows =>
    rw [hv, Option.map_some] at h
    injection h with h; subst h
    exact isHom_rows R cod dom hl (fun row => func (rowShape (legOrder cod dom) row)
      (fusedCharge R cod (row.take cod.length))) (fun _ => hf _ _) rows hv

theorem isHom_fullFromDiagonal [AddCommMonoid K] (R : Cyten.FusionRule S) (l : BLeg S) (D : DEnts K)
    (hD : DSane l.mults D) : IsHom R [l] [l] (fullFromDiagonal D) := by
  refine ⟨(C36_full l.mults D hD).1, ?_⟩
  intro p hp
  unfold fullFromDiagonal at hp
  obtain ⟨q, hq, rfl⟩ := List.mem_map.1 hp
  rfl

theorem isHom_fullFromMask [LinearOrder S] {sym : Sym S} [AddCommMonoid K] [One K]
    (R : Cyten.FusionRule S) {M : MaskT S} (h : MaskSane sym M) (hpr : M.isProjection = true) :
    IsHom R [toBLeg sym M.small] [toBLeg sym M.large] (fullFromMask (K := K) M) := by
  refine ⟨(C37_full (K := K) h hpr).1, ?_⟩
  intro p hp
  unfold fullFromMask at hp
  obtain ⟨r, hr, rfl⟩ := List.mem_map.1 hp
  have hs := mask_sector h hr
  rw [hpr] at hs
  simp only [if_true] at hs
  unfold fusedCharge
  show multipleFusion R [(M.small.sectors sym)[r.1.1]?].reduceOption =
    multipleFusion R [(M.large.sectors sym)[r.1.2]?].reduceOption
  rw [hs]

section group
variable [AddCommGroup S] {R : Cyten.FusionRule S} {dual : S → S}

theorem rowLength_hom {cod dom : List (BLeg S)} {T : Ents K} (hT : IsHom R cod dom T)
    {p : List ℕ × Blk K} (hp : p ∈ T) : p.1.length = cod.length + dom.length := by
  have := hT.sane.rowLength hp
  simpa [multsOf] using this

theorem isHom_outer [Mul K] (hG : GroupRule R dual) {c1 d1 c2 d2 : List (BLeg S)} {a b : Ents K}
    (ha : IsHom R c1 d1 a) (hb : IsHom R c2 d2 b) :
    IsHom R (c1 ++ c2) (d1 ++ d2) (Abelian.outer a b c1.length) := by
  have hs := C41_outer _ _ a b ha.sane hb.sane c1.length (by simp [multsOf])
  have e : (multsOf c1 ++ (multsOf d1).reverse).take c1.length ++ (multsOf c2 ++ (multsOf d2).reverse) ++
      (multsOf c1 ++ (multsOf d1).reverse).drop c1.length =
      multsOf (c1 ++ c2) ++ (multsOf (d1 ++ d2)).reverse := by
    rw [List.take_left' (by simp [multsOf]), List.drop_left' (by simp [multsOf])]
    simp [multsOf]
  rw [e] at hs
  refine ⟨hs, ?_⟩
  rw [conserving_iff hG _ _ _ fun p hp => by
    have := hs.rowLength hp; simp [multsOf] at this; simp; omega]
  intro p hp
  unfold Abelian.outer at hp
  rw [mem_mkData, outerPair_grid] at hp
  obtain ⟨q, hq, hp⟩ := List.mem_flatMap.1 hp
  obtain ⟨p', hp', rfl⟩ := List.mem_map.1 hp
  have l1 := rowLength_hom ha hp'
  have l2 := rowLength_hom hb hq
  have h1 := (conserving_iff hG c1 d1 a fun p hp => rowLength_hom ha hp).1 ha.charge p' hp'
  have h2 := (conserving_iff hG c2 d2 b fun p hp => rowLength_hom hb hp).1 hb.charge q hq
  show rowCharge (allLegs dual (c1 ++ c2) (d1 ++ d2))
    (p'.1.take c1.length ++ q.1 ++ p'.1.drop c1.length) = 0
  have e2 : allLegs dual (c1 ++ c2) (d1 ++ d2) =
      c1 ++ allLegs dual c2 d2 ++ (d1.map (BLeg.dual dual)).reverse := by
    simp [allLegs]
  rw [e2, rowCharge_append _ _ _ _ (by simp [allLegs, l1, l2]),
    rowCharge_append _ _ _ _ (by simp [l1]), h2]
  have h1' : rowCharge (c1 ++ (d1.map (BLeg.dual dual)).reverse)
      (p'.1.take c1.length ++ p'.1.drop c1.length) = 0 := by
    rw [List.take_append_drop]; exact h1
  rw [rowCharge_append _ _ _ _ (by simp [l1])] at h1'
  rw [add_zero]; exact h1'

/-- a trivial leg: one trivial sector of multiplicity one -/
def trivialLeg (R : Cyten.FusionRule S) : BLeg S := ⟨[R.unit], [1]⟩

theorem rowCharge_insertIdx (hG : GroupRule R dual) (legs : List (BLeg S)) (row : List ℕ) (k : ℕ)
    (hl : legs.length = row.length) (hk : k ≤ legs.length) (l : BLeg S) (h0 : l.sectors.getD 0 0 = 0) :
    rowCharge (legs.insertIdx k l) (row.insertIdx k 0) = rowCharge legs row := by
  unfold rowCharge
  rw [zipWith_insertIdx _ _ _ _ _ _ hl hk]
  rw [(List.perm_insertIdx _ _ (by simp [← hl, hk])).sum_eq, List.sum_cons, h0, zero_add]

theorem isHom_addTrivialLeg_cod (hG : GroupRule R dual) {cod dom : List (BLeg S)} {T : Ents K}
    (hT : IsHom R cod dom T) (k : ℕ) (hk : k ≤ cod.length) :
    IsHom R (cod.insertIdx k (trivialLeg R)) dom (addTrivialLeg T k) := by
  have hs := C41_add_trivial_leg _ T hT.sane k (by simp [multsOf]; omega)
  rw [insertIdx_append _ _ _ _ (by simpa [multsOf] using hk)] at hs
  have e : (multsOf cod).insertIdx k [1] = multsOf (cod.insertIdx k (trivialLeg R)) := by
    unfold multsOf; rw [List.map_insertIdx]; rfl
  rw [e] at hs
  refine ⟨hs, ?_⟩
  rw [conserving_iff hG _ _ _ fun p hp => by
    have := hs.rowLength hp; simpa [multsOf] using this]
  intro p hp
  unfold addTrivialLeg at hp
  rw [mem_mkData] at hp
  obtain ⟨q, hq, rfl⟩ := List.mem_map.1 hp
  have l1 := rowLength_hom hT hq
  have h1 := (conserving_iff hG cod dom T fun p hp => rowLength_hom hT hp).1 hT.charge q hq
  rw [← h1]
  have e2 : allLegs dual (cod.insertIdx k (trivialLeg R)) dom =
      (allLegs dual cod dom).insertIdx k (trivialLeg R) := by
    unfold allLegs; rw [insertIdx_append _ _ _ _ hk]
  rw [e2]
  exact rowCharge_insertIdx hG _ _ _ (by simp [allLegs, l1]) (by simp [allLegs]; omega) _
    (by simp [trivialLeg, hG.unit])

theorem isHom_addTrivialLeg_dom (hG : GroupRule R dual) {cod dom : List (BLeg S)} {T : Ents K}
    (hT : IsHom R cod dom T) (d : ℕ) (hd : d ≤ dom.length) :
    IsHom R cod (dom.insertIdx d (trivialLeg R))
      (addTrivialLeg T (cod.length + dom.length - d)) := by
  have hs := C41_add_trivial_leg _ T hT.sane (cod.length + dom.length - d) (by simp [multsOf])
  have ins : ∀ {α : Type} (l m : List α) (k : ℕ) (x : α),
      (l ++ m).insertIdx (l.length + k) x = l ++ m.insertIdx k x := by
    intro α l m k x
    induction l with
    | nil => simp
    | cons a l ih =>
      rw [List.cons_append, List.length_cons, show l.length + 1 + k = l.length + k + 1 by omega,
        List.insertIdx_succ_cons, ih, List.cons_append]
  have e : (multsOf cod ++ (multsOf dom).reverse).insertIdx (cod.length + dom.length - d) [1] =
      multsOf cod ++ (multsOf (dom.insertIdx d (trivialLeg R))).reverse := by
    have e1 : cod.length + dom.length - d = (multsOf cod).length + (dom.length - d) := by
      simp [multsOf]; omega
    rw [e1, ins]
    congr 1
    unfold multsOf
    rw [List.map_insertIdx, reverse_insertIdx _ _ _ (by simpa using hd), List.length_map]
    rfl
  rw [e] at hs
  refine ⟨hs, ?_⟩
  rw [conserving_iff hG _ _ _ fun p hp => by
    have := hs.rowLength hp; simpa [multsOf] using this]
  intro p hp
  unfold addTrivialLeg at hp
  rw [mem_mkData] at hp
  obtain ⟨q, hq, rfl⟩ := List.mem_map.1 hp
  have l1 := rowLength_hom hT hq
  have h1 := (conserving_iff hG cod dom T fun p hp => rowLength_hom hT hp).1 hT.charge q hq
  rw [← h1]
  have e2 : allLegs dual cod (dom.insertIdx d (trivialLeg R)) =
      (allLegs dual cod dom).insertIdx (cod.length + dom.length - d)
        ((trivialLeg R).dual dual) := by
    unfold allLegs
    have e1 : cod.length + dom.length - d = cod.length + (dom.length - d) := by omega
    rw [e1, ins, List.map_insertIdx, reverse_insertIdx _ _ _ (by simpa using hd), List.length_map]
  rw [e2]
  refine rowCharge_insertIdx hG _ _ _ (by simp [allLegs, l1]) (by simp [allLegs]) _ ?_
  simp [trivialLeg, BLeg.dual, hG.unit, hG.dual]

theorem abelianLaws_of [LinearOrder S] {sym : Sym S} (hG : GroupRule R sym.dual)
    (h1 : ∀ s, sym.dim s = 1) : AbelianLaws sym R := by
  have hf : ∀ a b, fuse2 R a b = a + b := fun a b => by unfold fuse2; rw [hG.fuse]; rfl
  exact ⟨fun a b c => by simp [hf, add_assoc], fun a b => by simp [hf, hG.dual, add_comm],
    fun a => by simp [hG.dual], h1⟩

end group

end Cyten.Props
