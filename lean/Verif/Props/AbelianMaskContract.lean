import Verif.Lemmas.MaskContract

/-!
# C47: contraction of a leg with a mask

`apply_mask` keeps the basis vectors selected by a mask, `enlarge_leg` fills the others with zeros.
-/

namespace Cyten.Props
open Cyten.Abelian Cyten.Abelian.Spec Cyten.Tables Cyten.Tools Cyten.ListSum Cyten.Spaces

variable {S K : Type} [LinearOrder S] {sym : Sym S} {M : MaskT S}

theorem maskBlock_of (h : MaskSane sym M) {r : (ℕ × ℕ) × List Bool} (hr : r ∈ M.data) :
    (if M.isProjection then r.1.1 else r.1.2) < M.small.mults.length ∧
    M.small.mults.getD (if M.isProjection then r.1.1 else r.1.2) 0 = countTrue r.2 ∧
    (if M.isProjection then r.1.2 else r.1.1) < M.large.mults.length ∧
    M.large.mults.getD (if M.isProjection then r.1.2 else r.1.1) 0 = r.2.length := by
  obtain ⟨k, hk⟩ := List.mem_iff_getElem?.1 hr
  have h1 : (if M.isProjection then r.1.1 else r.1.2) = k := by
    have := congrArg (·[k]?) h.rows
    unfold smallColumn at this
    have hlt := (List.getElem?_eq_some_iff.1 hk).1
    simp only [List.getElem?_map, hk, Option.map_some, List.getElem?_range hlt,
      Option.some.injEq] at this
    exact this
  have he : (if M.isProjection then r.1.2 else r.1.1, r.2) ∈ M.ents := List.mem_map.2 ⟨r, hr, rfl⟩
  have h2 := h.ents.shapes _ he
  have hm : M.small.mults = M.data.map fun r => countTrue r.2 := by
    rw [h.mults]; unfold MaskT.ents; rw [List.map_map]; rfl
  rw [h1]
  refine ⟨?_, ?_, h2.1, h2.2.symm⟩
  · rw [hm, List.length_map]; exact (List.getElem?_eq_some_iff.1 hk).1
  · rw [hm, List.getD_eq_getElem?_getD, List.getElem?_map, hk]; rfl

theorem smallCol_sorted (h : MaskSane sym M) :
    M.data.Pairwise fun p q => (if M.isProjection then p.1.1 else p.1.2) <
      (if M.isProjection then q.1.1 else q.1.2) := by
  have := h.rows
  have h2 : (smallColumn M).Pairwise (· < ·) := by rw [this]; exact List.pairwise_lt_range
  unfold smallColumn at h2
  rwa [List.pairwise_map] at h2

theorem largeCol_sorted (h : MaskSane sym M) :
    M.data.Pairwise fun p q => (if M.isProjection then p.1.2 else p.1.1) <
      (if M.isProjection then q.1.2 else q.1.1) := by
  have h2 := h.ents.sorted
  unfold MaskT.ents at h2
  rwa [List.map_map, List.pairwise_map] at h2

/-- `True` number `i` at `j`, in terms of the blocks. -/
theorem block_of_nth (h : MaskSane sym M) {i j t x b y : ℕ} (hi : IsPosition sym M.small i t x)
    (hj : IsPosition sym M.large j b y) (hn : IsNthTrue (asBlockMask sym M) i j) :
    ∃ u, ((if M.isProjection then (t, b) else (b, t)), u) ∈ M.data ∧ u[y]? = some true ∧
      countTrue (u.take y) = x := by
  have key : ∀ {M : MaskT S}, MaskSane sym M → M.isProjection = true →
      IsPosition sym M.small i t x → IsPosition sym M.large j b y →
      IsNthTrue (asBlockMask sym M) i j →
      ∃ u, ((t, b), u) ∈ M.data ∧ u[y]? = some true ∧ countTrue (u.take y) = x := by
    intro M h hpr hi hj hn
    have := (maskEntry_iff h hpr hi hj).2 hn
    cases hl : M.data.lookup (t, b) with
    | none => rw [hl] at this; simp [maskEntry] at this
    | some u =>
      rw [hl] at this
      simp only [maskEntry, blockMaskElement, Bool.and_eq_true, beq_iff_eq] at this
      refine ⟨u, mem_of_lookup hl, ?_, this.2.symm⟩
      have h1 := this.1
      rw [List.getD_eq_getElem?_getD] at h1
      cases hu : u[y]? with
      | none => rw [hu] at h1; simp at h1
      | some c => rw [hu] at h1; exact congrArg some h1
  cases hpr : M.isProjection with
  | true => simpa using key h hpr hi hj hn
  | false =>
    obtain ⟨h1, h2, h3, h4⟩ := C37_dagger h
    obtain ⟨u, hu, hu'⟩ := key h1 (by rw [h3, hpr]; rfl) hi hj (by rw [h2]; exact hn)
    refine ⟨u, ?_, hu'⟩
    obtain ⟨r, hr, he⟩ := List.mem_map.1 hu
    simp only [Prod.mk.injEq] at he
    obtain ⟨⟨rfl, rfl⟩, rfl⟩ := he
    simpa using hr

/-- **C47**: `apply_mask` (contraction of the large leg of the mask with leg `ax` of a tensor, in the
codomain with a projection or in the domain with an inclusion): the data are consistent for the legs
with the small leg put in place of leg `ax`, and the slice of the result at index `i` of that leg is the
slice of the tensor at the index of `True` number `i`. -/
theorem C47_apply_mask [AddCommMonoid K] (h : MaskSane sym M) (mults : List (List ℕ)) (ax : ℕ)
    (hax : mults[ax]? = some M.large.mults) (T : Ents K) (hT : Sane mults T) (inDomain : Bool)
    (hk : M.isProjection = !inDomain) :
    Sane (mults.set ax M.small.mults) (maskContract mults.length ax inDomain true T M.data) ∧
    ∀ i j t x b y, IsPosition sym M.small i t x → IsPosition sym M.large j b y →
      IsNthTrue (asBlockMask sym M) i j →
      ∀ row pos : List ℕ, row.length = mults.length → pos.length = mults.length →
        dense (maskContract mults.length ax inDomain true T M.data) (row.set ax t) (pos.set ax x) =
          dense T (row.set ax b) (pos.set ax y) := by
  have hlt : ax < mults.length := (List.getElem?_eq_some_iff.1 hax).1
  have hcol : ∀ r : ℕ × ℕ, maskCols inDomain r =
      (if M.isProjection then r.2 else r.1, if M.isProjection then r.1 else r.2) := by
    intro r
    rw [hk]
    cases inDomain <;> rfl
  have hc := largeCol_sorted h
  have ho := smallCol_sorted h
  obtain ⟨h1, h2⟩ := contract_spec hT hlt inDomain true M.data
    (by simp only [hcol]; exact hc) (by simp only [hcol]; exact ho) M.small.mults
    (fun r hr => by simp only [hcol]; exact ⟨(maskBlock_of h hr).1, (maskBlock_of h hr).2.1⟩)
  refine ⟨h1, fun i j t x b y hi hj hn row pos hrow hpos => ?_⟩
  obtain ⟨u, hu, hu1, hu2⟩ := block_of_nth h hi hj hn
  have honD : (M.data.map fun r => (maskCols inDomain r.1).2).Nodup := by
    unfold List.Nodup
    rw [List.pairwise_map]
    simp only [hcol]
    exact ho.imp fun h => h.ne
  have hd := (contract_dense hT hlt inDomain true M.data honD h1 h2 row (pos.set ax x) hrow t).1 _ hu
    (by rw [hcol]; cases M.isProjection <;> rfl)
  rw [hd, if_pos rfl]
  have e1 : (maskCols inDomain (if M.isProjection then (t, b) else (b, t))).1 = b := by
    rw [hcol]; cases M.isProjection <;> rfl
  have e2 : (pos.set ax x).getD ax 0 = x := by
    rw [List.getD_eq_getElem?_getD, List.getElem?_set_self (by omega), Option.getD_some]
  have e3 : (nonzero u).getD x 0 = y := by
    rw [List.getD_eq_getElem?_getD, (nonzero_get u x y).2 ⟨hu1, hu2⟩, Option.getD_some]
  rw [e1, e2, e3, List.set_set]

/-- **C47**: `enlarge_leg` (contraction of the small leg of the mask with leg `ax` of a tensor, in the
codomain with an inclusion or in the domain with a projection): the data are consistent for the legs
with the large leg put in place of leg `ax`; the slice of the result at index `j` of that leg is the
slice of the tensor at index `i` if the mask has `True` number `i` at `j`, and zero if the mask has
`False` at `j`. -/
theorem C47_enlarge_leg [AddCommMonoid K] (h : MaskSane sym M) (mults : List (List ℕ)) (ax : ℕ)
    (hax : mults[ax]? = some M.small.mults) (T : Ents K) (hT : Sane mults T) (inDomain : Bool)
    (hk : M.isProjection = inDomain) :
    Sane (mults.set ax M.large.mults) (maskContract mults.length ax inDomain false T M.data) ∧
    ∀ j b y, IsPosition sym M.large j b y →
      ∀ row pos : List ℕ, row.length = mults.length → pos.length = mults.length →
      ((asBlockMask sym M)[j]? = some false →
        dense (maskContract mults.length ax inDomain false T M.data) (row.set ax b) (pos.set ax y) = 0) ∧
      ∀ i t x, IsPosition sym M.small i t x → IsNthTrue (asBlockMask sym M) i j →
        dense (maskContract mults.length ax inDomain false T M.data) (row.set ax b) (pos.set ax y) =
          dense T (row.set ax t) (pos.set ax x) := by
  have hlt : ax < mults.length := (List.getElem?_eq_some_iff.1 hax).1
  have hcol : ∀ r : ℕ × ℕ, maskCols inDomain r =
      (if M.isProjection then r.1 else r.2, if M.isProjection then r.2 else r.1) := by
    intro r
    rw [hk]
    cases inDomain <;> rfl
  have ho := largeCol_sorted h
  have hc := smallCol_sorted h
  obtain ⟨h1, h2⟩ := contract_spec hT hlt inDomain false M.data
    (by simp only [hcol]; exact hc) (by simp only [hcol]; exact ho) M.large.mults
    (fun r hr => by simp only [hcol]; exact ⟨(maskBlock_of h hr).2.2.1, (maskBlock_of h hr).2.2.2⟩)
  have honD : (M.data.map fun r => (maskCols inDomain r.1).2).Nodup := by
    unfold List.Nodup
    rw [List.pairwise_map]
    simp only [hcol]
    exact ho.imp fun h => h.ne
  refine ⟨h1, fun j b y hj row pos hrow hpos => ?_⟩
  have hden := contract_dense hT hlt inDomain false M.data honD h1 h2 row (pos.set ax y) hrow b
  have e2 : (pos.set ax y).getD ax 0 = y := by
    rw [List.getD_eq_getElem?_getD, List.getElem?_set_self (by omega), Option.getD_some]
  constructor
  · intro hf
    rw [(asBlockMask_spec h).2 j b y hj, Option.some.injEq] at hf
    by_cases hex : ∃ r ∈ M.data, (maskCols inDomain r.1).2 = b
    · obtain ⟨r, hr, hrb⟩ := hex
      rw [hden.1 r hr hrb, if_neg (by simp), e2]
      have he : (b, r.2) ∈ M.ents := by
        refine List.mem_map.2 ⟨r, hr, ?_⟩
        rw [hcol] at hrb
        simp only at hrb
        rw [hrb]
      have hz : r.2.getD y false = false := by
        unfold diagEntry at hf
        rw [lookup_of_mem h.ents.sorted he, Option.getD_some] at hf
        exact hf
      rw [hz]
      simp
    · exact hden.2 fun r hr he => hex ⟨r, hr, he⟩
  · intro i t x hi hn
    obtain ⟨u, hu, hu1, hu2⟩ := block_of_nth h hi hj hn
    rw [hden.1 _ hu (by rw [hcol]; cases M.isProjection <;> rfl), if_neg (by simp), e2]
    have e1 : (maskCols inDomain (if M.isProjection then (t, b) else (b, t))).1 = t := by
      rw [hcol]; cases M.isProjection <;> rfl
    rw [e1, if_pos (by rw [List.getD_eq_getElem?_getD, hu1]; rfl)]
    simp only [hu2, List.set_set]

/-- **C47**: a mask applied to a diagonal tensor keeps the diagonal entries at the positions of the
`True`s, in their order. -/
theorem C47_diagonal [Zero K] (h : MaskSane sym M) (hpr : M.isProjection = true) (D : DEnts K)
    (hD : DSane M.large.mults D) :
    DSane M.small.mults (maskDiagonal D M.data) ∧
    ∀ i j, IsNthTrue (asBlockMask sym M) i j →
      (diagonalAsBlock sym M.small (maskDiagonal D M.data)).getD i 0 =
        (diagonalAsBlock sym M.large D).getD j 0 := by
  have ho := smallCol_sorted h
  have hc := largeCol_sorted h
  simp only [hpr, if_true] at ho hc
  have hDs : D.Pairwise fun p q => p.1 < q.1 := by
    have := hD.sorted
    rwa [List.pairwise_map] at this
  obtain ⟨h1, h2⟩ := common_spec (fun p : ℕ × List K => p.1)
    (fun r : (ℕ × ℕ) × List Bool => r.1.2) (fun p r => (r.1.1, compress r.2 p.2)) D M.data true
    (hDs.imp fun h => h.le) (fun _ => hDs) hc _ rfl
  have hs : DSane M.small.mults (maskDiagonal D M.data) := by
    constructor
    · intro d hd
      obtain ⟨p, hp, r, hr, hk, rfl⟩ := (h1 d).1 hd
      have hb := maskBlock_of h hr
      simp only [hpr, if_true] at hb
      refine ⟨hb.1, ?_⟩
      show (compress r.2 p.2).length = _
      rw [hb.2.1]
      apply length_compress
      rw [(hD.shapes p hp).2, ← hb.2.2.2, hk]
    · rw [List.pairwise_map]
      refine h2 _ fun i j hij p q hp hq r hr s hs hk hk' => ?_
      show r.1.1 < s.1.1
      have hpq : p.1 < q.1 := by
        have := List.pairwise_iff_getElem.1 hDs i j (List.getElem?_eq_some_iff.1 hp).1
          (List.getElem?_eq_some_iff.1 hq).1 hij
        rwa [(List.getElem?_eq_some_iff.1 hp).2, (List.getElem?_eq_some_iff.1 hq).2] at this
      obtain ⟨a, ha⟩ := List.mem_iff_getElem?.1 hr
      obtain ⟨b, hb⟩ := List.mem_iff_getElem?.1 hs
      have hab : a < b := by
        rcases Nat.lt_trichotomy a b with h | h | h
        · exact h
        · subst h
          rw [ha, Option.some.injEq] at hb
          subst hb
          omega
        · have := List.pairwise_iff_getElem.1 hc b a (List.getElem?_eq_some_iff.1 hb).1
            (List.getElem?_eq_some_iff.1 ha).1 h
          rw [(List.getElem?_eq_some_iff.1 hb).2, (List.getElem?_eq_some_iff.1 ha).2] at this
          omega
      have := List.pairwise_iff_getElem.1 ho a b (List.getElem?_eq_some_iff.1 ha).1
        (List.getElem?_eq_some_iff.1 hb).1 hab
      rwa [(List.getElem?_eq_some_iff.1 hb).2, (List.getElem?_eq_some_iff.1 ha).2] at this
  refine ⟨hs, fun i j hn => ?_⟩
  have hlen := (asBlockMask_spec h).1
  have hj : j < M.large.dim sym := by rw [← hlen]; exact (List.getElem?_eq_some_iff.1 hn.1).1
  have hi : i < M.small.dim sym := by
    rw [C37_small_dim h, ← hn.2]
    have h3 := List.take_append_drop j (asBlockMask sym M)
    have h4 := congrArg (List.count true) h3
    rw [List.count_append] at h4
    have h5 : 0 < ((asBlockMask sym M).drop j).count true := by
      rw [List.count_pos_iff]
      refine List.mem_iff_getElem?.2 ⟨0, ?_⟩
      rw [List.getElem?_drop, Nat.add_zero]
      exact hn.1
    omega
  obtain ⟨t, x, hpi, -⟩ := position_of_lt h.smallOK hi
  obtain ⟨b, y, hpj, -⟩ := position_of_lt h.large hj
  rw [(C36_as_block h.smallOK _ hs).2 i t x hpi, (C36_as_block h.large _ hD).2 j b y hpj]
  obtain ⟨u, hu, hu1, hu2⟩ := block_of_nth h hpi hpj hn
  simp only [hpr, if_true] at hu
  unfold diagEntry
  cases hl : D.lookup b with
  | some w =>
    have hm := (h1 (t, compress u w)).2 ⟨(b, w), lookup_mem hl, ((t, b), u), hu, rfl, rfl⟩
    have : (maskDiagonal D M.data).lookup t = some (compress u w) := lookup_of_mem hs.sorted hm
    rw [this, Option.getD_some, Option.getD_some, List.getD_eq_getElem?_getD, List.getD_eq_getElem?_getD]
    have hw : y < w.length := by
      have h3 := (hD.shapes _ (lookup_mem hl)).2
      have h4 := (maskBlock_of h hu).2.2.2
      simp only [hpr, if_true] at h3 h4
      have := (List.getElem?_eq_some_iff.1 hu1).1
      omega
    rw [(compress_get u w x w[y]).2 ⟨y, hu1, List.getElem?_eq_getElem hw, hu2⟩,
      List.getElem?_eq_getElem hw]
  | none =>
    have : (maskDiagonal D M.data).lookup t = none := by
      cases hl' : (maskDiagonal D M.data).lookup t with
      | none => rfl
      | some w =>
        exfalso
        obtain ⟨p, hp, r, hr, hk, he⟩ := (h1 _).1 (lookup_mem hl')
        simp only [Prod.mk.injEq] at he
        have hr' : r = ((t, b), u) := by
          refine List.inj_on_of_nodup_map (f := fun r : (ℕ × ℕ) × List Bool => r.1.1) ?_ hr hu he.1.symm
          unfold List.Nodup
          rw [List.pairwise_map]
          exact ho.imp fun h => h.ne
        subst hr'
        have h5 : D.lookup p.1 = some p.2 := lookup_of_mem hD.sorted hp
        have hk' : p.1 = b := hk
        rw [hk'] at h5
        rw [h5] at hl
        exact absurd hl (by simp)
    rw [this]
    simp

/-! ## The charge rule -/

theorem fused_set {S : Type} (R : Cyten.FusionRule S) (legs : List (BLeg S)) (row : List ℕ) (k : ℕ) (l l' : BLeg S)
    (c o : ℕ) (hl : legs[k]? = some l) (hc : row[k]? = some c) (h : l'.sectors[o]? = l.sectors[c]?) :
    fusedCharge R (legs.set k l') (row.set k o) = fusedCharge R legs row := by
  unfold fusedCharge
  congr 2
  induction legs generalizing row k with
  | nil => simp
  | cons a legs ih =>
    cases row with
    | nil => simp at hc
    | cons r row =>
      cases k with
      | zero =>
        simp only [List.getElem?_cons_zero, Option.some.injEq] at hl hc
        subst hl hc
        simp [h]
      | succ k =>
        simp only [List.getElem?_cons_succ] at hl hc
        simp [ih row k hl hc]

theorem reverse_set {α : Type} (l : List α) (k : ℕ) (a : α) (hk : k < l.length) :
    (l.set k a).reverse = l.reverse.set (l.length - 1 - k) a := by
  refine List.ext_getElem (by simp) fun i h1 h2 => ?_
  simp only [List.length_reverse, List.length_set] at h1
  rw [List.getElem_reverse, List.getElem_set, List.getElem_set]
  simp only [List.length_set, List.getElem_reverse]
  by_cases h : k = l.length - 1 - i
  · rw [if_pos h, if_pos (by omega)]
  · rw [if_neg h, if_neg (by omega)]

/-- The sector of the small leg is that of the large leg. -/
theorem mask_sector (h : MaskSane sym M) {r : (ℕ × ℕ) × List Bool} (hr : r ∈ M.data) :
    (M.small.sectors sym)[if M.isProjection then r.1.1 else r.1.2]? =
      (M.large.sectors sym)[if M.isProjection then r.1.2 else r.1.1]? := by
  obtain ⟨k, hk⟩ := List.mem_iff_getElem?.1 hr
  have h1 : (if M.isProjection then r.1.1 else r.1.2) = k := by
    have := congrArg (·[k]?) h.rows
    unfold smallColumn at this
    have hlt := (List.getElem?_eq_some_iff.1 hk).1
    simp only [List.getElem?_map, hk, Option.map_some, List.getElem?_range hlt,
      Option.some.injEq] at this
    exact this
  have he : M.ents[k]? = some (if M.isProjection then r.1.2 else r.1.1, r.2) := by
    unfold MaskT.ents; rw [List.getElem?_map, hk]; rfl
  have h2 := congrArg (·[k]?) h.sectors
  simp only [List.getElem?_map, he, Option.map_some] at h2
  have h3 : M.small.defining[k]? = M.large.defining[if M.isProjection then r.1.2 else r.1.1]? := by
    cases hd : M.small.defining[k]? with
    | none => rw [hd] at h2; simp at h2
    | some s => rw [hd] at h2; simpa using h2
  rw [h1]
  unfold ESpace.sectors
  rw [h.dual]
  split
  · rw [List.getElem?_map, List.getElem?_map, h3]
  · exact h3

/-- **C47**: the contraction with a mask conserves the charge.  `largeLeg` tells which leg of the mask
is contracted; the leg `ax` of the tensor is replaced by the other one. -/
theorem C47_charge [Zero K] (h : MaskSane sym M) (R : Cyten.FusionRule S) (codom dom : List (BLeg S))
    (mults : List (List ℕ)) (hn : mults.length = codom.length + dom.length) (ax : ℕ) (T : Ents K)
    (largeLeg : Bool)
    (hax : mults[ax]? = some (if largeLeg then M.large.mults else M.small.mults))
    (hT : Sane mults T) (hcons : Conserving R codom dom T) :
    (codom[ax]? = some (toBLeg sym (if largeLeg then M.large else M.small)) →
      M.isProjection = largeLeg →
      Conserving R (codom.set ax (toBLeg sym (if largeLeg then M.small else M.large))) dom
        (maskContract mults.length ax false largeLeg T M.data)) ∧
    (∀ d, dom[d]? = some (toBLeg sym (if largeLeg then M.large else M.small)) →
      ax = mults.length - 1 - d → M.isProjection = !largeLeg →
      Conserving R codom (dom.set d (toBLeg sym (if largeLeg then M.small else M.large)))
        (maskContract mults.length ax true largeLeg T M.data)) := by
  have hlt : ax < mults.length := (List.getElem?_eq_some_iff.1 hax).1
  have ho := smallCol_sorted h
  have hc := largeCol_sorted h
  have hb : ∀ r ∈ M.data, _ := fun r hr => maskBlock_of h hr
  have hsec : ∀ r ∈ M.data, _ := fun r hr => mask_sector h hr
  have hmem : ∀ inDomain : Bool, M.isProjection = (inDomain ^^ largeLeg) →
      ∀ d ∈ maskContract mults.length ax inDomain largeLeg T M.data, ∃ p ∈ T, ∃ o,
        d.1 = p.1.set ax o ∧
        ((if largeLeg then M.small else M.large).sectors sym)[o]? =
          ((if largeLeg then M.large else M.small).sectors sym)[p.1.getD ax 0]? := by
    intro dm hpr d hd
    have hs := contract_spec hT hlt dm largeLeg M.data
      (by
        unfold maskCols; rw [hpr] at hc ho
        cases dm <;> cases largeLeg <;> first | exact hc | exact ho)
      (by
        unfold maskCols; rw [hpr] at hc ho
        cases dm <;> cases largeLeg <;> first | exact hc | exact ho)
      (if largeLeg then M.small.mults else M.large.mults)
      (by
        intro r hr
        have hb' := hb r hr
        unfold maskCols
        rw [hpr] at hb'
        cases dm <;> cases largeLeg <;>
          first | exact ⟨hb'.1, hb'.2.1⟩ | exact ⟨hb'.2.2.1, hb'.2.2.2⟩)
    obtain ⟨p, hp, r, hr, hk, rfl⟩ := (hs.2 d).1 hd
    refine ⟨p, hp, _, rfl, ?_⟩
    rw [hk]
    have hs' := hsec r hr
    unfold maskCols
    rw [hpr] at hs'
    cases dm <;> cases largeLeg <;> first | exact hs' | exact hs'.symm
  constructor
  · intro hleg hpr d hd
    obtain ⟨p, hp, o, hdo, hso⟩ := hmem false (by simpa using hpr) d hd
    have hlc : ax < codom.length := (List.getElem?_eq_some_iff.1 hleg).1
    have hlen := hT.rowLength hp
    rw [hdo, List.length_set, List.take_set, List.drop_set_of_lt hlc, ← hcons p hp]
    refine fused_set R codom _ ax _ _ (p.1.getD ax 0) o hleg ?_ hso
    rw [List.getElem?_take, if_pos hlc, List.getD_eq_getElem?_getD,
      List.getElem?_eq_getElem (by omega), Option.getD_some]
  · intro d' hleg hax' hpr d hd
    obtain ⟨p, hp, o, hdo, hso⟩ := hmem true (by simpa using hpr) d hd
    have hld : d' < dom.length := (List.getElem?_eq_some_iff.1 hleg).1
    have hlen := hT.rowLength hp
    have hge : codom.length ≤ ax := by omega
    rw [hdo, List.take_set_of_le hge, List.drop_set,
      if_neg (show ¬ ax < codom.length by omega), hcons p hp,
      reverse_set _ _ _ (by rw [List.length_drop]; omega)]
    have e1 : (p.1.drop codom.length).length - 1 - (ax - codom.length) = d' := by
      rw [List.length_drop]; omega
    rw [e1]
    refine (fused_set R dom _ d' _ _ (p.1.getD ax 0) o hleg ?_ hso).symm
    rw [List.getElem?_reverse (by rw [List.length_drop]; omega), List.getElem?_drop,
      List.getD_eq_getElem?_getD]
    have e2 : codom.length + ((p.1.drop codom.length).length - 1 - d') = ax := by
      rw [List.length_drop]; omega
    rw [e2, List.getElem?_eq_getElem (by omega), Option.getD_some]

/-! ## Consequences -/

theorem nth_lt (h : MaskSane sym M) {i j : ℕ} (hn : IsNthTrue (asBlockMask sym M) i j) :
    i < M.small.dim sym := by
  rw [C37_small_dim h, ← hn.2]
  have h3 := List.take_append_drop j (asBlockMask sym M)
  have h4 := congrArg (List.count true) h3
  rw [List.count_append] at h4
  have h5 : 0 < ((asBlockMask sym M).drop j).count true := by
    rw [List.count_pos_iff]
    refine List.mem_iff_getElem?.2 ⟨0, ?_⟩
    rw [List.getElem?_drop, Nat.add_zero]
    exact hn.1
  omega

/-- **C47**: `enlarge_leg` after `apply_mask` (with the adjoint mask) is the projection: the entries at
the positions of the `True`s are unchanged, the others are zero. -/
theorem C47_projector [AddCommMonoid K] (h : MaskSane sym M) (mults : List (List ℕ)) (ax : ℕ)
    (hax : mults[ax]? = some M.large.mults) (T : Ents K) (hT : Sane mults T) (inDomain : Bool)
    (hk : M.isProjection = !inDomain) (j b y : ℕ) (hj : IsPosition sym M.large j b y)
    (row pos : List ℕ) (hr : row.length = mults.length) (hp : pos.length = mults.length) :
    dense (maskContract mults.length ax inDomain false
      (maskContract mults.length ax inDomain true T M.data) M.dagger.data) (row.set ax b) (pos.set ax y) =
      if (asBlockMask sym M)[j]? = some true then dense T (row.set ax b) (pos.set ax y) else 0 := by
  obtain ⟨a1, a2⟩ := C47_apply_mask h mults ax hax T hT inDomain hk
  obtain ⟨d1, d2, d3, -⟩ := C37_dagger h
  have hlt : ax < mults.length := (List.getElem?_eq_some_iff.1 hax).1
  have hl : (mults.set ax M.small.mults).length = mults.length := List.length_set ..
  obtain ⟨-, e2⟩ := C47_enlarge_leg d1 (mults.set ax M.small.mults) ax
    (List.getElem?_set_self hlt) _ a1 inDomain (by rw [d3, hk, Bool.not_not])
  rw [hl] at e2
  obtain ⟨e3, e4⟩ := e2 j b y hj row pos hr hp
  rw [d2] at e3 e4
  have hjd : j < (asBlockMask sym M).length := by
    rw [(asBlockMask_spec h).1]; exact (lt_of_position h.large hj).1
  by_cases hv : (asBlockMask sym M)[j]? = some true
  · rw [if_pos hv]
    have hn : IsNthTrue (asBlockMask sym M) (((asBlockMask sym M).take j).count true) j := ⟨hv, rfl⟩
    obtain ⟨t, x, hpos, -⟩ := position_of_lt h.smallOK (nth_lt h hn)
    rw [e4 _ t x hpos hn]
    exact a2 _ j t x b y hpos hj hn row pos hr hp
  · rw [if_neg hv]
    refine e3 ?_
    rw [List.getElem?_eq_getElem hjd] at hv ⊢
    simpa using hv

/-! ## Transposition -/

theorem numStates_dual_leg (hd : DimOK sym) (e : ESpace S) :
    numStates sym (e.dual.sectors sym) e.mults = numStates sym (e.sectors sym) e.mults := by
  have : ∀ l : List S, numStates sym (l.map sym.dual) e.mults = numStates sym l e.mults := by
    intro l
    unfold numStates
    rw [List.zipWith_map_left]
    simp only [hd.dual]
  unfold ESpace.sectors ESpace.dual
  cases e.isDual <;> simp [this]

/-- **C37**: the transpose of a mask lives on the dual legs and selects the same basis vectors. -/
theorem C37_transpose (h : MaskSane sym M) :
    MaskSane sym M.transpose ∧ asBlockMask sym M.transpose = asBlockMask sym M ∧
    M.transpose.isProjection = !M.isProjection ∧ M.transpose.large = M.large.dual ∧
    M.transpose.small = M.small.dual := by
  obtain ⟨hd, hv, -, -⟩ := C37_dagger h
  have hdim : ∀ e : ESpace S, e.dual.dim sym = e.dim sym := fun e =>
    congrArg List.sum (numStates_dual_leg h.large.dims e)
  have hbp : ∀ e : ESpace S, e.dual.basisPerm sym = e.basisPerm sym := fun e => by
    unfold ESpace.basisPerm
    rw [hdim]
    rfl
  have hip : ∀ e : ESpace S, inverseBasisPerm sym e.dual = inverseBasisPerm sym e := fun e => by
    unfold inverseBasisPerm
    rw [hdim]
    rfl
  have hsl : ∀ e : ESpace S, legSlice sym e.dual = legSlice sym e := fun e => by
    funext i
    unfold legSlice ESpace.bounds
    have := numStates_dual_leg h.large.dims e
    unfold ESpace.dual at this ⊢
    simp only at this ⊢
    rw [this]
  have hval : ∀ e : ESpace S, ValidSpace sym e → ValidSpace sym e.dual := fun e he =>
    ⟨he.lengths, he.sorted, he.perm⟩
  have hents : M.transpose.ents = M.dagger.ents := rfl
  have hb : maskToBlock sym M.transpose = maskToBlock sym M.dagger := by
    unfold maskToBlock
    rw [hents]
    show List.foldl (fun res (p : ℕ × List Bool) => setSlice1 res (legSlice sym M.large.dual p.1) p.2)
      (zeros1 (M.large.dual.dim sym)) _ = _
    rw [hsl, hdim]
    rfl
  refine ⟨?_, ?_, rfl, rfl, rfl⟩
  · exact {
      large := ⟨h.large.dims, h.large.one, h.large.drop, fun e he => by
        have : e = M.large.dual := List.mem_singleton.1 he
        subst this
        exact hval _ (h.large.valid M.large (by simp))⟩
      small := hval _ h.small
      dual := by
        show (!M.small.isDual) = !M.large.isDual
        rw [h.dual]
      ents := hd.ents
      nonempty := hd.nonempty
      rows := hd.rows
      sectors := hd.sectors
      mults := hd.mults
      perm := by
        have := hd.perm
        unfold permOk at *
        rw [hb]
        show (gather (compress _ (M.large.dual.basisPerm sym)) (inverseBasisPerm sym M.small.dual)).Pairwise _
        rw [hbp, hip]
        exact this }
  · rw [← hv]
    unfold asBlockMask
    rw [hb]
    show take1 _ (inverseBasisPerm sym M.large.dual) = _
    rw [hip]
    rfl

/-! ## A concrete case -/

/-- The mask keeping the basis vectors 1 and 2 of the example leg. -/
def exMask : MaskT ℤ :=
  ⟨true, denseLeg, ⟨[0, 1], [1, 1], false, some [1, 0]⟩, [((0, 0), [true]), ((1, 1), [false, true])]⟩

theorem exMask_sane : MaskSane exU1 exMask ∧ asBlockMask exU1 exMask = [false, true, true] := by
  have := (C37_from_block_mask denseLeg_one [false, true, true]).2 exMask C37_example.1
  exact ⟨this.2.2.1, this.2.2.2⟩

/-- Applied to the first leg of the example tensor: the row `1` of the second block is kept. -/
theorem C47_example :
    IsNthTrue (asBlockMask exU1 exMask) 0 1 ∧ IsNthTrue (asBlockMask exU1 exMask) 1 2 ∧
    (legMults [denseLeg, denseLeg])[0]? = some exMask.large.mults ∧
    dense (maskContract 2 0 false true (Example.T 1) exMask.data) [1, 1] [0, 0] =
      dense (Example.T 1) [1, 1] [1, 0] ∧
    dense (Example.T 1) [1, 1] [1, 0] = 3 ∧
    (maskContract 2 0 false true (Example.T 1) exMask.data).map (fun p => (p.1, p.2.shape)) =
      [([0, 0], [1, 1]), ([1, 1], [1, 2])] ∧
    (maskContract 2 1 true true (Example.T 1) exMask.dagger.data).map (fun p => (p.1, p.2.shape)) =
      [([0, 0], [1, 1]), ([1, 1], [2, 1])] := by
  decide +kernel

end Cyten.Props
