import Verif.Model.AbelianLegs
import Verif.Lemmas.BasisSum

/-!
# C55: the partial trace of a block-sparse tensor is the partial trace of the dense tensor

See `Verif.Spec.AbelianData` for `dense`, `basis`, `Sane`.
-/

namespace Cyten.Props
open Cyten.Abelian Cyten.Abelian.Spec Cyten.Tables Cyten.Tools Cyten.ListSum Cyten.Spaces
open Cyten.FusionTrees

variable {K S : Type}

/-! ## The trace of one block -/

theorem tracePartial_shape [AddCommMonoid K] (b : Blk K) (i1 i2 rem : List ℕ) :
    (b.tracePartial i1 i2 rem).shape = pick rem b.shape := by
  show ((b.permuteAxes (rem ++ i1 ++ i2)).shape).take rem.length = _
  rw [permuteAxes_shape, List.append_assoc]
  show (pick (rem ++ (i1 ++ i2)) b.shape).take rem.length = _
  rw [pick_append]
  conv_lhs => rw [show rem.length = (pick rem b.shape).length by simp [pick]]
  rw [List.take_left]

theorem tracePartial_val [AddCommMonoid K] (b : Blk K) (i1 i2 rem : List ℕ)
    (hp : (rem ++ i1 ++ i2).Perm (List.range b.shape.length))
    (hs : pick i1 b.shape = pick i2 b.shape) (pos : List ℕ) (hpos : InShape pos (pick rem b.shape)) :
    (b.tracePartial i1 i2 rem).val pos =
      ((gridC b.shape).map fun q =>
        if pick rem q = pos ∧ pick i1 q = pick i2 q then b.val q else 0).sum := by
  have hlen : ∀ (p r : List ℕ), (pick p r).length = p.length := fun p r => by simp [pick]
  -- the sum over the diagonal
  have hL : (b.tracePartial i1 i2 rem).val pos = ((gridC (pick i1 b.shape)).map fun t =>
      (b.permuteAxes (rem ++ i1 ++ i2)).val (pos ++ t ++ t)).sum := by
    show ((List.range (pick i1 b.shape).prod).map fun x => _).sum = _
    rw [← map_pack_gridC (pick i1 b.shape), List.map_map]
    refine sum_congr _ fun t ht => ?_
    have ht := (mem_gridC _ _).1 ht
    have hsh : (b.permuteAxes (rem ++ i1 ++ i2)).shape =
        pick rem b.shape ++ pick i1 b.shape ++ pick i1 b.shape := by
      rw [permuteAxes_shape]
      show pick (rem ++ i1 ++ i2) b.shape = _
      rw [pick_append, pick_append, ← hs]
    have htake : (b.permuteAxes (rem ++ i1 ++ i2)).shape.take rem.length = pick rem b.shape := by
      rw [hsh, List.append_assoc, List.take_left' (hlen _ _)]
    simp only [Function.comp, htake]
    refine reshape_val _ _ _ _ ?_ ?_
    · rw [hsh]
      exact inShape_append (inShape_append hpos ht) ht
    · rw [hsh]
      have l1 := hpos.length
      have l2 := ht.length
      rw [List.append_assoc, List.append_assoc, packC_append _ _ _ _ l1, packC_append _ _ _ _ l1,
        packC_append _ _ _ _ l2, packC_two]
      have hprod : [(pick i1 b.shape).prod, (pick i1 b.shape).prod].prod =
          (pick i1 b.shape ++ pick i1 b.shape).prod := by simp
      have hprod' : (pick i1 b.shape).prod = (List.map (fun i => b.shape.getD i 0) i1).prod := rfl
      rw [← hprod', hprod]
  rw [hL]
  have hR : ((gridC b.shape).map fun q =>
      if pick rem q = pos ∧ pick i1 q = pick i2 q then b.val q else 0).sum =
      ((gridC b.shape).map fun q => (fun r : List ℕ =>
        if r.take rem.length = pos ∧
            (r.drop rem.length).take i1.length = (r.drop rem.length).drop i1.length then
          (b.permuteAxes (rem ++ i1 ++ i2)).val r else 0) (pick (rem ++ i1 ++ i2) q)).sum := by
    refine sum_congr _ fun q hq => ?_
    have hq := ((mem_gridC _ _).1 hq).length
    have h1 : (pick (rem ++ i1 ++ i2) q).take rem.length = pick rem q := by
      rw [List.append_assoc, pick_append, List.take_left' (hlen _ _)]
    have h2 : (pick (rem ++ i1 ++ i2) q).drop rem.length = pick i1 q ++ pick i2 q := by
      rw [List.append_assoc, pick_append, List.drop_left' (hlen _ _), pick_append]
    simp only [h1, h2]
    rw [List.take_left' (hlen _ _), List.drop_left' (hlen _ _),
      permuteAxes_val b _ q (by rw [hq]; exact hp)]
  rw [hR, ← sum_gridC_pick b.shape (rem ++ i1 ++ i2) hp (fun r : List ℕ =>
        if r.take rem.length = pos ∧
            (r.drop rem.length).take i1.length = (r.drop rem.length).drop i1.length then
          (b.permuteAxes (rem ++ i1 ++ i2)).val r else 0), pick_append, pick_append,
    sum_gridC_append, sum_gridC_append, ← hs,
    sum_single' _ (nodup_gridC _) pos ((mem_gridC _ _).2 hpos)]
  · refine sum_congr _ fun t ht => ?_
    have ht' := ((mem_gridC _ _).1 ht).length
    rw [sum_single' _ (nodup_gridC _) t ht]
    · rw [if_pos]
      rw [List.append_assoc, List.take_left' (by rw [hpos.length, hlen]),
        List.drop_left' (by rw [hpos.length, hlen]), List.take_left' (by rw [ht', hlen]),
        List.drop_left' (by rw [ht', hlen])]
      exact ⟨rfl, rfl⟩
    · intro u _ hne
      rw [if_neg]
      rw [List.append_assoc, List.take_left' (by rw [hpos.length, hlen]),
        List.drop_left' (by rw [hpos.length, hlen]), List.take_left' (by rw [ht', hlen]),
        List.drop_left' (by rw [ht', hlen])]
      exact fun h => hne h.2.symm
  · intro a ha hne
    refine sum_zero _ _ fun t _ => sum_zero _ _ fun u _ => ?_
    have ha' := ((mem_gridC _ _).1 ha).length
    rw [if_neg]
    rw [List.append_assoc, List.take_left' (by rw [ha', hlen])]
    exact fun h => hne h.1

/-! ## The map of blocks -/

theorem dense_addBlock [AddCommMonoid K] (m : Ents K) (key : List ℕ) (b : Blk K) (row pos : List ℕ) :
    dense (addBlock m key b) row pos = dense m row pos + if key = row then b.val pos else 0 := by
  induction m with
  | nil => simp [addBlock, dense]
  | cons p m ih =>
    unfold addBlock
    unfold dense at ih ⊢
    by_cases h : p.1 = key
    · rw [if_pos h]
      simp only [List.map_cons, List.sum_cons, Blk.add]
      rw [h]
      by_cases hk : key = row
      · simp only [if_pos hk]
        rw [add_assoc, add_assoc, add_comm (b.val pos)]
      · simp [hk]
    · rw [if_neg h]
      simp only [List.map_cons, List.sum_cons, ih, add_assoc]

theorem dense_foldl_addBlock [AddCommMonoid K] {β : Type} (l : List β) (f : β → List ℕ)
    (g : β → Blk K) (m : Ents K) (row pos : List ℕ) :
    dense (l.foldl (fun m x => addBlock m (f x) (g x)) m) row pos =
      dense m row pos + (l.map fun x => if f x = row then (g x).val pos else 0).sum := by
  induction l generalizing m with
  | nil => simp
  | cons x l ih =>
    rw [List.foldl_cons, ih, dense_addBlock, List.map_cons, List.sum_cons, add_assoc]

theorem mem_addBlock [Add K] {m : Ents K} {key : List ℕ} {b : Blk K} {p : List ℕ × Blk K}
    (h : p ∈ addBlock m key b) :
    (∃ q ∈ m, q.1 = p.1 ∧ q.2.shape = p.2.shape) ∨ (p.1 = key ∧ p.2.shape = b.shape) := by
  induction m with
  | nil =>
    simp only [addBlock, List.mem_singleton] at h
    exact Or.inr (by rw [h]; exact ⟨rfl, rfl⟩)
  | cons q m ih =>
    unfold addBlock at h
    by_cases hk : q.1 = key
    · rw [if_pos hk] at h
      rcases List.mem_cons.1 h with rfl | h
      · exact Or.inl ⟨q, List.mem_cons_self, rfl, rfl⟩
      · exact Or.inl ⟨p, List.mem_cons_of_mem _ h, rfl, rfl⟩
    · rw [if_neg hk] at h
      rcases List.mem_cons.1 h with rfl | h
      · exact Or.inl ⟨p, List.mem_cons_self, rfl, rfl⟩
      · rcases ih h with ⟨r, hr, h'⟩ | h'
        · exact Or.inl ⟨r, List.mem_cons_of_mem _ hr, h'⟩
        · exact Or.inr h'

theorem fst_addBlock [Add K] (m : Ents K) (key : List ℕ) (b : Blk K) :
    (addBlock m key b).map Prod.fst =
      if key ∈ m.map Prod.fst then m.map Prod.fst else m.map Prod.fst ++ [key] := by
  induction m with
  | nil => simp [addBlock]
  | cons q m ih =>
    unfold addBlock
    by_cases hk : q.1 = key
    · rw [if_pos hk, if_pos (by rw [List.map_cons, hk]; exact List.mem_cons_self)]
      rfl
    · rw [if_neg hk, List.map_cons, ih, List.map_cons]
      by_cases hm : key ∈ m.map Prod.fst
      · rw [if_pos hm, if_pos (List.mem_cons_of_mem _ hm)]
      · rw [if_neg hm, if_neg, List.cons_append]
        rw [List.mem_cons]
        rintro (h | h)
        · exact hk h.symm
        · exact hm h

theorem nodup_foldl_addBlock [Add K] {β : Type} (l : List β) (f : β → List ℕ) (g : β → Blk K)
    (m : Ents K) (hm : (m.map Prod.fst).Nodup) :
    ((l.foldl (fun m x => addBlock m (f x) (g x)) m).map Prod.fst).Nodup := by
  induction l generalizing m with
  | nil => exact hm
  | cons x l ih =>
    rw [List.foldl_cons]
    refine ih _ ?_
    rw [fst_addBlock]
    by_cases h : f x ∈ m.map Prod.fst
    · rw [if_pos h]; exact hm
    · rw [if_neg h, List.nodup_append]
      refine ⟨hm, by simp, ?_⟩
      intro a ha b hb
      rw [List.mem_singleton] at hb
      rintro rfl
      exact h (hb ▸ ha)

theorem mem_foldl_addBlock [Add K] {β : Type} (l : List β) (f : β → List ℕ) (g : β → Blk K)
    (m : Ents K) {p : List ℕ × Blk K} (h : p ∈ l.foldl (fun m x => addBlock m (f x) (g x)) m) :
    (∃ q ∈ m, q.1 = p.1 ∧ q.2.shape = p.2.shape) ∨ ∃ x ∈ l, p.1 = f x ∧ p.2.shape = (g x).shape := by
  induction l generalizing m with
  | nil => exact Or.inl ⟨p, h, rfl, rfl⟩
  | cons x l ih =>
    rw [List.foldl_cons] at h
    rcases ih _ h with ⟨q, hq, h1, h2⟩ | ⟨y, hy, h'⟩
    · rcases mem_addBlock hq with ⟨r, hr, h3, h4⟩ | ⟨h3, h4⟩
      · exact Or.inl ⟨r, hr, h3.trans h1, h4.trans h2⟩
      · exact Or.inr ⟨x, List.mem_cons_self, h1 ▸ h3, h2 ▸ h4⟩
    · exact Or.inr ⟨y, List.mem_cons_of_mem _ hy, h'⟩

/-! ## The pairs of legs -/

/-- The pairs of legs are valid arguments of `partial_trace`: no leg occurs twice. -/
structure ValidPairs (n : ℕ) (pairs : List (ℕ × ℕ)) : Prop where
  lt : ∀ pr ∈ pairs, pr.1 < n ∧ pr.2 < n
  nodup : (pairs.map Prod.fst ++ pairs.map Prod.snd).Nodup

theorem ValidPairs.perm {n : ℕ} {pairs : List (ℕ × ℕ)} (h : ValidPairs n pairs) :
    (remainingLegs n pairs ++ pairs.map Prod.fst ++ pairs.map Prod.snd).Perm (List.range n) := by
  have hmem : ∀ i, i ∈ remainingLegs n pairs ↔
      i < n ∧ i ∉ pairs.map Prod.fst ∧ i ∉ pairs.map Prod.snd := by
    intro i
    unfold remainingLegs
    simp only [List.mem_filter, List.mem_range, Bool.not_eq_true', List.any_eq_false, Bool.or_eq_true,
      beq_iff_eq, List.mem_map, not_exists, not_and, not_or]
    refine and_congr_right fun _ => ⟨fun h => ⟨fun x hx => (h x hx).1, fun x hx => (h x hx).2⟩,
      fun h x hx => ⟨h.1 x hx, h.2 x hx⟩⟩
  rw [List.append_assoc, List.perm_ext_iff_of_nodup]
  · intro i
    rw [List.mem_append, hmem, List.mem_append, List.mem_range]
    constructor
    · rintro (⟨h1, -⟩ | h1 | h1)
      · exact h1
      · obtain ⟨pr, hpr, rfl⟩ := List.mem_map.1 h1; exact (h.lt pr hpr).1
      · obtain ⟨pr, hpr, rfl⟩ := List.mem_map.1 h1; exact (h.lt pr hpr).2
    · intro hi
      by_cases h1 : i ∈ pairs.map Prod.fst
      · exact Or.inr (Or.inl h1)
      · by_cases h2 : i ∈ pairs.map Prod.snd
        · exact Or.inr (Or.inr h2)
        · exact Or.inl ⟨hi, h1, h2⟩
  · rw [List.nodup_append]
    refine ⟨List.Nodup.filter _ List.nodup_range, h.nodup, ?_⟩
    intro a ha b hb
    rintro rfl
    have := (hmem a).1 ha
    rcases List.mem_append.1 hb with h | h
    · exact this.2.1 h
    · exact this.2.2 h
  · exact List.nodup_range

variable [DecidableEq S]

/-- The input checks of `partial_trace` (src/tensors/ops_algebra.cpp:1388-1410): the first leg of each
pair, as a leg of the codomain, is the second leg, as a leg of the domain. -/
def PairsMatch (dual : S → S) (cod dom : List (BLeg S)) (pairs : List (ℕ × ℕ)) : Prop :=
  ∀ pr ∈ pairs, asCodomainLeg dual cod dom pr.1 = asDomainLeg dual cod dom pr.2

/-- The legs have as many sectors as multiplicities, and no sector occurs twice. -/
def LegsValid (legs : List (BLeg S)) : Prop :=
  ∀ l ∈ legs, l.sectors.length = l.mults.length ∧ l.sectors.Nodup

theorem onDiagonal_iff (dual : S → S) (hinv : ∀ s, dual (dual s) = s) (cod dom : List (BLeg S))
    (hl : LegsValid (coDomainLegs cod dom)) (pr : ℕ × ℕ)
    (h1 : pr.1 < (coDomainLegs cod dom).length) (h2 : pr.2 < (coDomainLegs cod dom).length)
    (hm : asCodomainLeg dual cod dom pr.1 = asDomainLeg dual cod dom pr.2) (row : List ℕ)
    (hr : InShape row ((multsOf (coDomainLegs cod dom)).map List.length)) :
    onDiagonal dual (coDomainLegs cod dom) cod.length row pr = true ↔
      row.getD pr.1 0 = row.getD pr.2 0 := by
  have hinj : Function.Injective dual := fun a b h => by rw [← hinv a, h, hinv]
  unfold onDiagonal
  by_cases hop : (decide (pr.1 < cod.length) != decide (pr.2 < cod.length)) = true
  · rw [if_pos hop, beq_iff_eq]
  · rw [if_neg hop, beq_iff_eq]
    have hop : decide (pr.1 < cod.length) = decide (pr.2 < cod.length) := by simpa using hop
    set L := coDomainLegs cod dom with hL
    have g1 : L.getD pr.1 ⟨[], []⟩ = L[pr.1] := by
      rw [List.getD_eq_getElem?_getD, List.getElem?_eq_getElem h1]; rfl
    have g2 : L.getD pr.2 ⟨[], []⟩ = L[pr.2] := by
      rw [List.getD_eq_getElem?_getD, List.getElem?_eq_getElem h2]; rfl
    unfold asCodomainLeg asDomainLeg at hm
    simp only [← hL, g1, g2] at hm
    rw [List.getElem?_eq_getElem h1, List.getElem?_eq_getElem h2, Option.bind_some, Option.bind_some]
    have hs : (L[pr.2]).sectors.map dual = (L[pr.1]).sectors := by
      by_cases hk : pr.1 < cod.length
      · have hk2 : pr.2 < cod.length := by simpa [hk] using hop
        rw [if_pos hk, if_pos hk2] at hm
        rw [hm]; rfl
      · have hk2 : ¬ pr.2 < cod.length := by simpa [hk] using hop
        rw [if_neg hk, if_neg hk2] at hm
        rw [← hm]
        show ((L[pr.1]).sectors.map dual).map dual = _
        rw [List.map_map]
        conv_rhs => rw [← List.map_id (L[pr.1]).sectors]
        exact List.map_congr_left fun s _ => hinv s
    have hb : ∀ i (hi : i < L.length), row.getD i 0 < (L[i]).sectors.length := by
      intro i hi
      rw [(hl _ (List.getElem_mem hi)).1]
      have := hr.length
      simp only [multsOf, List.length_map] at this
      have h3 := List.forall₂_iff_get.1 hr
      have h4 := h3.2 i (by rw [this]; exact hi) (by simp [multsOf]; exact hi)
      rw [List.getD_eq_getElem?_getD, List.getElem?_eq_getElem (by rw [this]; exact hi)]
      simpa [multsOf] using h4
    rw [← List.getElem?_map, hs]
    have n1 := (hl _ (List.getElem_mem h1)).2
    constructor
    · intro he
      rw [List.getElem?_eq_getElem (hb _ h1)] at he
      have hb2 : row.getD pr.2 0 < (L[pr.1]).sectors.length := by
        rw [← hs, List.length_map]; exact hb _ h2
      rw [List.getElem?_eq_getElem hb2] at he
      exact (List.Nodup.getElem_inj_iff n1).1 (Option.some.inj he)
    · intro he; rw [he]

theorem pick_pairs (pairs : List (ℕ × ℕ)) (r : List ℕ) :
    pick (pairs.map Prod.fst) r = pick (pairs.map Prod.snd) r ↔
      ∀ pr ∈ pairs, r.getD pr.1 0 = r.getD pr.2 0 := by
  unfold pick
  rw [List.map_map, List.map_map, List.map_inj_left]
  rfl

theorem getD_mults (dual : S → S) (cod dom : List (BLeg S)) (i j : ℕ)
    (hm : asCodomainLeg dual cod dom i = asDomainLeg dual cod dom j) :
    (multsOf (coDomainLegs cod dom)).getD i [] = (multsOf (coDomainLegs cod dom)).getD j [] := by
  have key : ∀ n, (multsOf (coDomainLegs cod dom)).getD n [] =
      ((coDomainLegs cod dom).getD n ⟨[], []⟩).mults := by
    intro n
    unfold multsOf
    rw [List.getD_eq_getElem?_getD, List.getD_eq_getElem?_getD, List.getElem?_map]
    cases (coDomainLegs cod dom)[n]? <;> rfl
  rw [key, key]
  have := congrArg BLeg.mults hm
  unfold asCodomainLeg asDomainLeg BLeg.dual at this
  simp only at this
  split at this <;> split at this <;> exact this

/-- The traced parts of the shape of a block on the diagonal agree. -/
theorem shape_pairs (dual : S → S) (cod dom : List (BLeg S)) (pairs : List (ℕ × ℕ))
    (hv : ValidPairs (coDomainLegs cod dom).length pairs) (hm : PairsMatch dual cod dom pairs)
    (row : List ℕ) (hr : row.length = (coDomainLegs cod dom).length)
    (he : ∀ pr ∈ pairs, row.getD pr.1 0 = row.getD pr.2 0) :
    pick (pairs.map Prod.fst) (shapeOf (multsOf (coDomainLegs cod dom)) row) =
      pick (pairs.map Prod.snd) (shapeOf (multsOf (coDomainLegs cod dom)) row) := by
  rw [pick_pairs]
  intro pr hpr
  have key : ∀ n < (coDomainLegs cod dom).length,
      (shapeOf (multsOf (coDomainLegs cod dom)) row).getD n 0 =
        ((multsOf (coDomainLegs cod dom)).getD n []).getD (row.getD n 0) 0 := by
    intro n hn
    have hn1 : n < row.length := by rw [hr]; exact hn
    have hn2 : n < (multsOf (coDomainLegs cod dom)).length := by simpa [multsOf] using hn
    unfold shapeOf
    simp [List.getD_eq_getElem?_getD, List.getElem?_zipWith, List.getElem?_eq_getElem hn1,
      List.getElem?_eq_getElem hn2]
  rw [key _ (hv.lt pr hpr).1, key _ (hv.lt pr hpr).2, getD_mults dual cod dom _ _ (hm pr hpr),
    he pr hpr]

/-! ## C55 -/

section
variable [AddCommMonoid K] (dual : S → S) (hinv : ∀ s, dual (dual s) = s) (cod dom : List (BLeg S))
  (pairs : List (ℕ × ℕ)) (hv : ValidPairs (coDomainLegs cod dom).length pairs)
  (hm : PairsMatch dual cod dom pairs) (hl : LegsValid (coDomainLegs cod dom)) (T : Ents K)
  (hT : Sane (multsOf (coDomainLegs cod dom)) T)
include hinv hv hm hl hT

theorem dense_partialTraceMap (row pos : List ℕ)
    (hidx : IsIndex (permuted (multsOf (coDomainLegs cod dom))
      (remainingLegs (coDomainLegs cod dom).length pairs)) row pos) :
    dense (partialTraceMap dual (coDomainLegs cod dom) cod.length pairs T) row pos =
      ((basis (multsOf (coDomainLegs cod dom))).map fun x =>
        if pick (remainingLegs (coDomainLegs cod dom).length pairs) x.1 = row ∧
            pick (remainingLegs (coDomainLegs cod dom).length pairs) x.2 = pos ∧
            ∀ pr ∈ pairs, x.1.getD pr.1 0 = x.1.getD pr.2 0 ∧ x.2.getD pr.1 0 = x.2.getD pr.2 0 then
          dense T x.1 x.2 else 0).sum := by
  set M := multsOf (coDomainLegs cod dom) with hM
  set rem := remainingLegs (coDomainLegs cod dom).length pairs with hrem
  have lM : M.length = (coDomainLegs cod dom).length := by simp [hM, multsOf]
  have hlt : ∀ c ∈ rem, c < M.length := by
    intro c hc
    have : c ∈ rem ++ pairs.map Prod.fst ++ pairs.map Prod.snd := by simp [hc]
    rw [lM]
    simpa using hv.perm.mem_iff.1 this
  unfold partialTraceMap
  simp only [← hrem]
  rw [dense_foldl_addBlock, show dense ([] : Ents K) row pos = 0 from rfl, zero_add, sum_filter]
  rw [sum_basis M fun r p => if pick rem r = row ∧ pick rem p = pos ∧
    ∀ pr ∈ pairs, r.getD pr.1 0 = r.getD pr.2 0 ∧ p.getD pr.1 0 = p.getD pr.2 0 then
      dense T r p else 0]
  have hR : ∀ r ∈ gridC (M.map List.length), ((gridC (shapeOf M r)).map fun p =>
      if pick rem r = row ∧ pick rem p = pos ∧
        ∀ pr ∈ pairs, r.getD pr.1 0 = r.getD pr.2 0 ∧ p.getD pr.1 0 = p.getD pr.2 0 then
          dense T r p else 0).sum =
      (T.map fun t => if t.1 = r then
        (if pairs.all (onDiagonal dual (coDomainLegs cod dom) cod.length t.1) = true then
          if (rem.map fun c => t.1.getD c 0) = row then
            (t.2.tracePartial (pairs.map Prod.fst) (pairs.map Prod.snd) rem).val pos else 0 else 0)
        else 0).sum := by
    intro r hr
    have hr := (mem_gridC _ _).1 hr
    have lr : r.length = M.length := by simpa using hr.length
    by_cases hex : ∃ t ∈ T, t.1 = r
    · obtain ⟨t, ht, rfl⟩ := hex
      classical
      have hnd : (T.map Prod.fst).Nodup := hT.nodup
      have hT2 : (T.map fun t' => if t'.1 = t.1 then
          (if pairs.all (onDiagonal dual (coDomainLegs cod dom) cod.length t'.1) = true then
            if (rem.map fun c => t'.1.getD c 0) = row then
              (t'.2.tracePartial (pairs.map Prod.fst) (pairs.map Prod.snd) rem).val pos else 0 else 0)
          else 0).sum = (if pairs.all (onDiagonal dual (coDomainLegs cod dom) cod.length t.1) = true then
            if (rem.map fun c => t.1.getD c 0) = row then
              (t.2.tracePartial (pairs.map Prod.fst) (pairs.map Prod.snd) rem).val pos else 0 else 0)
          := by
        rw [sum_single' T (List.Nodup.of_map _ hnd) t ht]
        · rw [if_pos rfl]
        · intro t' ht' hne
          rw [if_neg fun he => hne (hT.eq_of_fst ht' ht he)]
      rw [hT2]
      have hdiag : pairs.all (onDiagonal dual (coDomainLegs cod dom) cod.length t.1) = true ↔
          ∀ pr ∈ pairs, t.1.getD pr.1 0 = t.1.getD pr.2 0 := by
        rw [List.all_eq_true]
        refine forall₂_congr fun pr hpr => ?_
        exact onDiagonal_iff dual hinv cod dom hl pr (hv.lt pr hpr).1 (hv.lt pr hpr).2 (hm pr hpr) t.1
          (hT.inRange t ht)
      by_cases hd : ∀ pr ∈ pairs, t.1.getD pr.1 0 = t.1.getD pr.2 0
      · rw [if_pos (hdiag.2 hd)]
        by_cases hrow : pick rem t.1 = row
        · rw [if_pos (show (rem.map fun c => t.1.getD c 0) = row from hrow)]
          have hsh := hT.shapes t ht
          rw [tracePartial_val t.2 _ _ _ (by
            rw [hsh, length_shapeOf _ _ lr, lM]; exact hv.perm)
            (by rw [hsh]; exact shape_pairs dual cod dom pairs hv hm t.1 (by rw [lr, lM]) hd) pos (by
              have := hidx.2
              rw [← hrow, shapeOf_permuted M rem t.1 hlt lr] at this
              rw [hsh]; exact this), hsh]
          refine sum_congr _ fun p _ => ?_
          rw [hT.dense_of_mem ht]
          have hc : (pick rem t.1 = row ∧ pick rem p = pos ∧ ∀ pr ∈ pairs,
              t.1.getD pr.1 0 = t.1.getD pr.2 0 ∧ p.getD pr.1 0 = p.getD pr.2 0) ↔
              (pick rem p = pos ∧ pick (pairs.map Prod.fst) p = pick (pairs.map Prod.snd) p) := by
            rw [pick_pairs]
            exact ⟨fun h => ⟨h.2.1, fun pr hpr => (h.2.2 pr hpr).2⟩,
              fun h => ⟨hrow, h.1, fun pr hpr => ⟨hd pr hpr, h.2 pr hpr⟩⟩⟩
          by_cases hcc : (pick rem p = pos ∧
              pick (pairs.map Prod.fst) p = pick (pairs.map Prod.snd) p)
          · rw [if_pos (hc.2 hcc), if_pos hcc]
          · rw [if_neg fun h => hcc (hc.1 h), if_neg hcc]
        · rw [if_neg (show ¬ (rem.map fun c => t.1.getD c 0) = row from hrow)]
          refine sum_zero _ _ fun p _ => ?_
          rw [if_neg fun h => hrow h.1]
      · rw [if_neg fun h => hd (hdiag.1 h)]
        refine sum_zero _ _ fun p _ => ?_
        rw [if_neg fun h => hd fun pr hpr => (h.2.2 pr hpr).1]
    · have hex : ∀ t ∈ T, t.1 ≠ r := fun t ht he => hex ⟨t, ht, he⟩
      rw [sum_zero T _ fun t ht => if_neg (hex t ht)]
      refine sum_zero _ _ fun p _ => ?_
      rw [dense_of_not_mem hex, ite_self]
  rw [sum_congr _ hR, sum_comm]
  refine sum_congr _ fun t ht => ?_
  rw [sum_single _ (nodup_gridC _) t.1, if_pos ((mem_gridC _ _).2 (hT.inRange t ht))]

/-- **C55**: the partial trace of the block-sparse tensor is the partial trace of the dense tensor: the
sum over all basis vectors that have the given components on the remaining legs and equal components
on both legs of each pair. -/
theorem C55_partial_trace (U : Ents K)
    (h : partialTrace dual (coDomainLegs cod dom) cod.length pairs T = some U) (row pos : List ℕ)
    (hidx : IsIndex (permuted (multsOf (coDomainLegs cod dom))
      (remainingLegs (coDomainLegs cod dom).length pairs)) row pos) :
    dense U row pos =
      ((basis (multsOf (coDomainLegs cod dom))).map fun x =>
        if pick (remainingLegs (coDomainLegs cod dom).length pairs) x.1 = row ∧
            pick (remainingLegs (coDomainLegs cod dom).length pairs) x.2 = pos ∧
            ∀ pr ∈ pairs, x.1.getD pr.1 0 = x.1.getD pr.2 0 ∧ x.2.getD pr.1 0 = x.2.getD pr.2 0 then
          dense T x.1 x.2 else 0).sum := by
  rw [← dense_partialTraceMap dual hinv cod dom pairs hv hm hl T hT row pos hidx]
  unfold partialTrace at h
  simp only at h
  by_cases he : (remainingLegs (coDomainLegs cod dom).length pairs).isEmpty = true
  · rw [if_pos he] at h
    rw [List.isEmpty_iff] at he
    have hrow : row = [] := by
      have := hidx.1.length
      rw [he] at this
      exact List.length_eq_zero_iff.1 (by simpa [permuted] using this)
    have hpos : pos = [] := by
      have := hidx.2.length
      rw [he] at this
      exact List.length_eq_zero_iff.1 (by simpa [permuted, shapeOf] using this)
    have hkey : ∀ p ∈ partialTraceMap dual (coDomainLegs cod dom) cod.length pairs T, p.1 = [] := by
      intro p hp
      unfold partialTraceMap at hp
      rcases mem_foldl_addBlock _ _ _ _ hp with ⟨q, hq, -⟩ | ⟨x, -, hx, -⟩
      · simp at hq
      · rw [hx, he]; rfl
    subst hrow hpos
    cases hc : partialTraceMap dual (coDomainLegs cod dom) cod.length pairs T with
    | nil => rw [hc] at h; cases h; simp [dense, mkData]
    | cons p l =>
      cases l with
      | nil =>
        rw [hc] at h hkey
        cases h
        simp [dense, mkData, hkey p List.mem_cons_self]
      | cons q l => rw [hc] at h; cases h
  · rw [if_neg he] at h
    cases h
    rw [dense_mkData]

/-- **C55**: `partial_trace` does not raise, and the result has consistent block data. -/
theorem C55_succeeds :
    ∃ U, partialTrace dual (coDomainLegs cod dom) cod.length pairs T = some U ∧
      Sane (permuted (multsOf (coDomainLegs cod dom))
        (remainingLegs (coDomainLegs cod dom).length pairs)) U := by
  set M := multsOf (coDomainLegs cod dom) with hM
  set rem := remainingLegs (coDomainLegs cod dom).length pairs with hrem
  have _ := hinv
  have _ := hm
  have _ := hl
  have lM : M.length = (coDomainLegs cod dom).length := by simp [hM, multsOf]
  have hlt : ∀ c ∈ rem, c < M.length := by
    intro c hc
    have : c ∈ rem ++ pairs.map Prod.fst ++ pairs.map Prod.snd := by simp [hc]
    rw [lM]
    simpa using hv.perm.mem_iff.1 this
  have hmem : ∀ p ∈ partialTraceMap dual (coDomainLegs cod dom) cod.length pairs T,
      InShape p.1 ((permuted M rem).map List.length) ∧ p.2.shape = shapeOf (permuted M rem) p.1 := by
    intro p hp
    unfold partialTraceMap at hp
    rcases mem_foldl_addBlock _ _ _ _ hp with ⟨q, hq, -⟩ | ⟨x, hx, h1, h2⟩
    · simp at hq
    · have hx := (List.mem_filter.1 hx).1
      have h1 : p.1 = pick rem x.1 := h1
      rw [h1, h2, map_length_permuted M rem hlt, shapeOf_permuted M rem x.1 hlt (hT.rowLength hx),
        tracePartial_shape, hT.shapes x hx]
      exact ⟨inShape_permute (hT.inRange x hx) fun c hc => by
        rw [hT.rowLength hx]; exact hlt c hc, rfl⟩
  have hnd : ((partialTraceMap dual (coDomainLegs cod dom) cod.length pairs T).map Prod.fst).Nodup := by
    unfold partialTraceMap
    exact nodup_foldl_addBlock _ _ _ _ (by simp)
  unfold partialTrace
  simp only
  by_cases he : (remainingLegs (coDomainLegs cod dom).length pairs).isEmpty = true
  · rw [if_pos he]
    rw [List.isEmpty_iff] at he
    have hsc : ∀ v : K, Sane (permuted M rem) (mkData [([], ⟨[], fun _ => v⟩)] true) := by
      intro v
      rw [hrem, he]
      exact ⟨by simp [mkData, permuted, InShape], by simp [mkData, permuted, shapeOf],
        by simp [mkData, StrictlySorted]⟩
    have hkey : ∀ p ∈ partialTraceMap dual (coDomainLegs cod dom) cod.length pairs T, p.1 = [] := by
      intro p hp
      have := (hmem p hp).1.length
      rw [hrem, he] at this
      exact List.length_eq_zero_iff.1 (by simpa [permuted] using this)
    cases hc : partialTraceMap dual (coDomainLegs cod dom) cod.length pairs T with
    | nil => exact ⟨_, rfl, hsc 0⟩
    | cons p l =>
      cases l with
      | nil => exact ⟨_, rfl, hsc _⟩
      | cons q l =>
        rw [hc] at hnd hkey
        have h1 := hkey p List.mem_cons_self
        have h2 := hkey q (List.mem_cons_of_mem _ List.mem_cons_self)
        simp [h1, h2] at hnd
  · rw [if_neg he]
    exact ⟨_, rfl, sane_mkData (fun p hp => (hmem p hp).1) (fun p hp => (hmem p hp).2) hnd⟩

end

end Cyten.Props
