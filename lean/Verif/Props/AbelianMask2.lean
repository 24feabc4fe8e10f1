import Verif.Props.AbelianMask
import Verif.Props.Spaces2

/-! # C37: construction of masks and operations on masks -/

namespace Cyten.Props
open Cyten.Abelian Cyten.Abelian.Spec Cyten.Tables Cyten.Tools Cyten.ListSum Cyten.Spaces

variable {S K : Type} [LinearOrder S] {sym : Sym S} {e : ESpace S}

/-! ## The functions that build masks -/

theorem data_ents (kept : DEnts Bool) :
    (buildMask sym e kept).ents = kept := by
  unfold MaskT.ents buildMask maskData
  rw [List.map_map]
  exact List.zipIdx_map_fst 0 kept

theorem gather_range_self {α : Type} (l : List α) (n : ℕ) (h : n = l.length) :
    gather l (List.range n) = l := by
  subst h
  apply List.ext_getElem?
  intro k
  rw [gather_get_of_lt _ _ (fun i hi => List.mem_range.1 hi)]
  by_cases hk : k < l.length
  · rw [List.getElem?_range hk]; rfl
  · rw [List.getElem?_eq_none (by simpa using hk), List.getElem?_eq_none (by simpa using hk)]; rfl

theorem rankNat_perm (a : List ℕ) : (rankNat a).Perm (List.range a.length) := by
  have hp := lexsortIndices_perm a
  have hl : (lexsortIndices a).length = a.length := by simpa using hp.length_eq
  have : IsPerm (lexsortIndices a) := by unfold IsPerm; rw [hl]; exact hp
  have h2 := (C21_inverse_permutation _ this).1
  have h3 := (C21_inverse_permutation _ this).2.1
  unfold IsPerm at h2
  rw [h3, hl] at h2
  exact h2

theorem gather_sorted (a : List ℕ) (hnd : a.Nodup) :
    (gather a (inversePermutation (rankNat a))).Pairwise (· < ·) := by
  have hp := lexsortIndices_perm a
  have hl : (lexsortIndices a).length = a.length := by simpa using hp.length_eq
  have hip : IsPerm (lexsortIndices a) := by unfold IsPerm; rw [hl]; exact hp
  have : inversePermutation (rankNat a) = lexsortIndices a :=
    (C21_inverse_permutation _ hip).2.2.2.2
  rw [this]
  unfold gather
  rw [List.pairwise_filterMap]
  refine (lexsortIndices_stable a).imp_of_mem fun {i j} hi hj h x hx y hy => ?_
  rcases h x y hx hy with h | ⟨rfl, h⟩
  · exact h
  · exfalso
    obtain ⟨h1, h1'⟩ := List.getElem?_eq_some_iff.1 hx
    obtain ⟨h2, h2'⟩ := List.getElem?_eq_some_iff.1 hy
    have := (List.Nodup.getElem_inj_iff hnd).1 (h1'.trans h2'.symm)
    omega

theorem nodup_basisPerm (h : DenseOK sym [e]) : (e.basisPerm sym).Nodup := by
  have hv := h.valid e (by simp)
  have hp := (basisPerm_isPerm sym h.dims e hv).1
  unfold IsPerm at hp
  exact hp.nodup_iff.2 List.nodup_range

theorem small_defining (h : DenseOK sym [e]) {kept : DEnts Bool} (hD : DSane e.mults kept) :
    (kept.filterMap fun p => e.defining[p.1]?).map some = kept.map fun p => e.defining[p.1]? := by
  have hv := h.valid e (by simp)
  have hs := hD.shapes
  clear hD
  induction kept with
  | nil => rfl
  | cons p kept ih =>
    have := (hs p List.mem_cons_self).1
    rw [hv.lengths] at this
    rw [List.filterMap_cons, List.map_cons, List.getElem?_eq_getElem this]
    simp only [List.map_cons]
    rw [ih fun q hq => hs q (List.mem_cons_of_mem _ hq)]

/-- Masks that are built from blocks with a `True` are consistent. -/
theorem sane_build (h : DenseOK sym [e]) (kept : DEnts Bool) (hD : DSane e.mults kept)
    (hne : ∀ p ∈ kept, true ∈ p.2) : MaskSane sym (buildMask sym e kept) := by
  have hv := h.valid e (by simp)
  have hlk : (e.basisPerm sym).length = e.mults.sum := by
    rw [basisPerm_length h.dims hv, dim_eq h.dims h.one hv]
  have hP : compress (maskToBlock sym (buildMask sym e kept)) (e.basisPerm sym) =
      kept.flatMap fun p => compress p.2 (getSlice1 (e.basisPerm sym) (legSlice sym e p.1)) := by
    rw [maskToBlock_eq, data_ents]
    exact compress_toBlock h kept hD _ hlk
  have hlen : (compress (maskToBlock sym (buildMask sym e kept)) (e.basisPerm sym)).length =
      (kept.map fun p => countTrue p.2).sum := by
    rw [hP, List.length_flatMap]
    congr 1
    apply List.map_congr_left
    intro p hp
    obtain ⟨hb, hl⟩ := hD.shapes p hp
    apply length_compress
    rw [legSlice_eq h hb, hl]
    have h1 := take_sum_succ e.mults p.1 _ (List.getElem?_eq_getElem hb)
    have h2 := take_sum_mono e.mults (p.1 + 1) e.mults.length hb
    rw [List.take_length] at h2
    simp only [getSlice1, slice, List.length_take, List.length_drop, hlk]
    rw [List.getD_eq_getElem?_getD, List.getElem?_eq_getElem hb, Option.getD_some]
    omega
  have hdef := small_defining h hD
  have hlens : (smallLeg sym e kept).mults.length = (smallLeg sym e kept).defining.length := by
    have := congrArg List.length hdef
    simpa [smallLeg] using this.symm
  have hdim : Spec.totalDim sym.dim (smallLeg sym e kept).defining (smallLeg sym e kept).mults =
      (kept.map fun p => countTrue p.2).sum := by
    rw [← numStates_sum, APipe.numStates_one sym h.one _ _ hlens]
    rfl
  have hsmall : ValidSpace sym (smallLeg sym e kept) := by
    refine ⟨hlens, ?_, ?_⟩
    · show (kept.filterMap fun p => e.defining[p.1]?).Pairwise (· < ·)
      rw [List.pairwise_filterMap]
      have := hD.sorted
      rw [List.pairwise_map] at this
      refine this.imp fun {p q} hpq x hx y hy => ?_
      obtain ⟨h1, rfl⟩ := List.getElem?_eq_some_iff.1 hx
      obtain ⟨h2, rfl⟩ := List.getElem?_eq_some_iff.1 hy
      exact List.pairwise_iff_getElem.1 hv.sorted _ _ h1 h2 hpq
    · intro p hp
      rw [hdim, ← hlen]
      change smallPerm sym e kept = some p at hp
      unfold smallPerm at hp
      cases hpe : e.perm with
      | none => simp [hpe] at hp
      | some π =>
        have hb : e.basisPerm sym = π := by unfold ESpace.basisPerm; rw [hpe]
        simp only [hpe] at hp
        split at hp
        · exact absurd hp (by simp)
        · injection hp with hp
          rw [← hp, hP, hb]
          exact rankNat_perm _
  have hsd : ESpace.dim sym (smallLeg sym e kept) = (kept.map fun p => countTrue p.2).sum := by
    rw [dim_eq h.dims h.one hsmall]; rfl
  have hnd : (compress (maskToBlock sym (buildMask sym e kept)) (e.basisPerm sym)).Nodup :=
    (nodup_basisPerm h).sublist (compress_sublist _ _)
  exact {
    large := h
    small := hsmall
    dual := rfl
    ents := by rw [data_ents]; exact hD
    nonempty := by rw [data_ents]; exact hne
    rows := by
      show (maskData kept).map _ = List.range (maskData kept).length
      unfold maskData
      rw [List.map_map, List.length_map, List.length_zipIdx]
      have : kept.zipIdx.map Prod.snd = List.range kept.length := by
        rw [List.zipIdx_map_snd, ← List.range_eq_range']
      exact this
    sectors := by rw [data_ents]; exact hdef
    mults := by rw [data_ents]; rfl
    perm := by
      show (gather (compress (maskToBlock sym (buildMask sym e kept)) (e.basisPerm sym))
        (inverseBasisPerm sym (smallLeg sym e kept))).Pairwise (· < ·)
      cases hpe : e.perm with
      | none =>
        have hb : e.basisPerm sym = List.range (e.dim sym) := by unfold ESpace.basisPerm; rw [hpe]
        have hi : inverseBasisPerm sym (smallLeg sym e kept) =
            List.range (ESpace.dim sym (smallLeg sym e kept)) := by
          unfold inverseBasisPerm ESpace.inversePerm smallLeg smallPerm
          simp [hpe]
        rw [hi, gather_range_self _ _ (by rw [hlen, hsd]), hb]
        exact List.Pairwise.sublist (compress_sublist _ _) List.pairwise_lt_range
      | some π =>
        have hb : e.basisPerm sym = π := by unfold ESpace.basisPerm; rw [hpe]
        by_cases hk : kept.isEmpty
        · have : kept = [] := by simpa using hk
          subst this
          have : compress (maskToBlock sym (buildMask sym e ([] : DEnts Bool))) (e.basisPerm sym) = [] := by
            rw [hP]; rfl
          rw [this]
          simp [gather]
        · have hi : inverseBasisPerm sym (smallLeg sym e kept) =
              inversePermutation (rankNat (compress (maskToBlock sym (buildMask sym e kept))
                (e.basisPerm sym))) := by
            unfold inverseBasisPerm ESpace.inversePerm smallLeg smallPerm
            simp only [hpe, if_neg hk, Option.map_some]
            rw [hP, hb]
          rw [hi]
          exact gather_sorted _ hnd }

theorem vec_build (kept : DEnts Bool) :
    asBlockMask sym (buildMask sym e kept) = diagonalAsBlock sym e kept := by
  rw [asBlockMask_eq, data_ents]
  rfl

theorem sane_filter {mults : List ℕ} {D : DEnts Bool} (hD : DSane mults D) (f : ℕ × List Bool → Bool) :
    DSane mults (D.filter f) :=
  ⟨fun p hp => hD.shapes p (List.mem_filter.1 hp).1,
    hD.sorted.sublist (List.filter_sublist.map _)⟩

theorem diagEntry_filter {mults : List ℕ} {D : DEnts Bool} (hD : DSane mults D)
    (f : ℕ × List Bool → Bool) (hf : ∀ p ∈ D, f p = false → true ∉ p.2) (b x : ℕ) :
    diagEntry (D.filter f) b x = diagEntry D b x := by
  unfold diagEntry
  cases hl : D.lookup b with
  | none =>
    have : (D.filter f).lookup b = none := by
      rw [lookup_none_iff] at hl ⊢
      exact fun p hp => hl p (List.mem_filter.1 hp).1
    rw [this]
  | some u =>
    have hm := lookup_mem hl
    by_cases hfu : f (b, u) = true
    · have := lookup_of_mem (sane_filter hD f).sorted (p := (b, u)) (List.mem_filter.2 ⟨hm, hfu⟩)
      rw [this]
    · have hn : (D.filter f).lookup b = none := by
        rw [lookup_none_iff]
        intro p hp he
        obtain ⟨h1, h2⟩ := List.mem_filter.1 hp
        have := lookup_of_mem hD.sorted h1
        rw [he, hl] at this
        injection this with this
        apply hfu
        rw [← he, this]; exact h2
      rw [hn]
      have ht := hf _ hm (by simpa using hfu)
      simp only [Option.getD_none, Option.getD_some, List.getD_nil]
      rw [List.getD_eq_getElem?_getD]
      cases hu : u[x]? with
      | none => rfl
      | some c =>
        cases c with
        | false => rfl
        | true => exact absurd (List.mem_of_getElem? hu) ht

theorem asBlock_congr {K : Type} [Zero K] (h : DenseOK sym [e]) {D D' : DEnts K} (hD : DSane e.mults D)
    (hD' : DSane e.mults D') (hv : ∀ b x, IsDiagIndex e.mults b x → diagEntry D b x = diagEntry D' b x) :
    diagonalAsBlock sym e D = diagonalAsBlock sym e D' := by
  obtain ⟨h1, h2⟩ := C36_as_block h D hD
  obtain ⟨h1', h2'⟩ := C36_as_block h D' hD'
  refine List.ext_getElem (by rw [h1, h1']) fun j hj hj' => ?_
  obtain ⟨b, x, hp, hbx⟩ := position_of_lt h (j := j) (by omega)
  rw [← List.getD_eq_getElem _ 0 hj, ← List.getD_eq_getElem _ 0 hj', h2 j b x hp, h2' j b x hp,
    hv b x hbx]

theorem keep_spec {mults : List ℕ} {D : DEnts Bool} (hD : DSane mults D) :
    DSane mults (keepBlocks D) ∧ (∀ p ∈ keepBlocks D, true ∈ p.2) ∧
    ∀ b x, diagEntry (keepBlocks D) b x = diagEntry D b x := by
  refine ⟨sane_filter hD _, fun p hp => ?_, diagEntry_filter hD _ fun p _ hf ht => ?_⟩
  · have := (List.mem_filter.1 hp).2
    simp only [bne_iff_ne, ne_eq, countTrue] at this
    exact List.count_pos_iff.1 (by omega)
  · have := List.count_pos_iff.2 ht
    simp only [bne_eq_false_iff_eq, countTrue] at hf
    omega

/-- Masks from consistent data of a diagonal tensor. -/
theorem keep_mask (h : DenseOK sym [e]) {D : DEnts Bool} (hD : DSane e.mults D) :
    MaskSane sym (buildMask sym e (keepBlocks D)) ∧
    asBlockMask sym (buildMask sym e (keepBlocks D)) = diagonalAsBlock sym e D := by
  obtain ⟨h1, h2, h3⟩ := keep_spec hD
  refine ⟨sane_build h _ h1 h2, ?_⟩
  rw [vec_build]
  exact asBlock_congr h h1 hD fun b x _ => h3 b x

theorem fromBlockMask_eq (v : List Bool) :
    fromBlockMask sym e v = (fromDiagBlock sym e v).map fun D => buildMask sym e (keepBlocks D) := by
  unfold fromBlockMask fromDiagBlock
  split <;> rfl

/-- **C37**: `Mask.from_block_mask` raises iff the array is too short; otherwise the result is a
consistent projection mask whose vector is the given one. -/
theorem C37_from_block_mask (h : DenseOK sym [e]) (v : List Bool) :
    (fromBlockMask sym e v = none ↔ v.length < e.dim sym) ∧
    ∀ M, fromBlockMask sym e v = some M →
      M.large = e ∧ M.isProjection = true ∧ MaskSane sym M ∧
      asBlockMask sym M = v.take (e.dim sym) := by
  rw [fromBlockMask_eq]
  refine ⟨by rw [Option.map_eq_none_iff]; exact C36_from_diag_block_raises h v, fun M hM => ?_⟩
  obtain ⟨D, hD, rfl⟩ := Option.map_eq_some_iff.1 hM
  obtain ⟨hs, hval⟩ := C36_from_diag_block h v D hD
  have hlen : ¬ v.length < e.dim sym := by
    rw [← C36_from_diag_block_raises h v, hD]; simp
  obtain ⟨k1, k2⟩ := keep_mask h hs
  refine ⟨rfl, rfl, k1, ?_⟩
  rw [k2]
  obtain ⟨h1, h2⟩ := C36_as_block h D hs
  refine List.ext_getElem (by rw [h1, List.length_take]; omega) fun j hj hj' => ?_
  obtain ⟨b, x, hp, hbx⟩ := position_of_lt h (j := j) (by omega)
  rw [← List.getD_eq_getElem _ 0 hj, h2 j b x hp, hval j b x hp, List.getElem_take,
    List.getD_eq_getElem]

/-- **C37**: `Mask.from_DiagonalTensor` has the vector of the diagonal entries. -/
theorem C37_from_diagonal (h : DenseOK sym [e]) (D : DEnts Bool) (hD : DSane e.mults D) :
    MaskSane sym (maskFromDiagonal sym e D) ∧ (maskFromDiagonal sym e D).isProjection = true ∧
    (maskFromDiagonal sym e D).large = e ∧
    asBlockMask sym (maskFromDiagonal sym e D) = diagonalAsBlock sym e D := by
  have h1 := sane_filter hD fun p => p.2.any id
  have h2 : ∀ p ∈ D.filter (fun p => p.2.any id), true ∈ p.2 := by
    intro p hp
    obtain ⟨c, hc, hc'⟩ := List.any_eq_true.1 (List.mem_filter.1 hp).2
    have : c = true := hc'
    rw [← this]; exact hc
  refine ⟨sane_build h _ h1 h2, rfl, rfl, ?_⟩
  rw [maskFromDiagonal, vec_build]
  refine asBlock_congr h h1 hD fun b x _ => diagEntry_filter hD _ (fun p _ hf ht => ?_) b x
  have : p.2.any id = true := List.any_eq_true.2 ⟨true, ht, rfl⟩
  rw [this] at hf
  exact absurd hf (by simp)

/-- **C37**: `as_DiagonalTensor` of a mask has the entries of the vector (as 0 and 1). -/
theorem C37_to_diagonal [Zero K] [One K] {M : MaskT S} (h : MaskSane sym M) :
    DSane M.large.mults (maskToDiagonal (K := K) M) ∧
    diagonalAsBlock sym M.large (maskToDiagonal (K := K) M) =
      (asBlockMask sym M).map fun c => if c then 1 else 0 := by
  have hs : DSane M.large.mults (maskToDiagonal (K := K) M) := by
    constructor
    · intro p hp
      obtain ⟨q, hq, rfl⟩ := List.mem_map.1 hp
      simpa using h.ents.shapes q hq
    · have := h.ents.sorted
      unfold maskToDiagonal
      rw [List.map_map]
      exact this
  refine ⟨hs, ?_⟩
  obtain ⟨h1, h2⟩ := C36_as_block h.large _ hs
  obtain ⟨h3, h4⟩ := asBlockMask_spec h
  refine List.ext_getElem (by rw [h1, List.length_map, h3]) fun j hj hj' => ?_
  obtain ⟨b, x, hp, hbx⟩ := position_of_lt h.large (j := j) (by omega)
  rw [← List.getD_eq_getElem _ 0 hj, h2 j b x hp, List.getElem_map]
  have h5 := h4 j b x hp
  rw [List.getElem?_eq_getElem (by omega)] at h5
  injection h5 with h5
  rw [h5]
  unfold diagEntry
  cases hl : M.ents.lookup b with
  | none =>
    have : (maskToDiagonal (K := K) M).lookup b = none := by
      rw [lookup_none_iff] at hl ⊢
      intro p hp
      obtain ⟨q, hq, rfl⟩ := List.mem_map.1 hp
      exact hl q hq
    rw [this]
    simp [boolZero]
  | some u =>
    have := lookup_of_mem hs.sorted (p := (b, u.map fun c => if c then 1 else 0))
      (List.mem_map.2 ⟨(b, u), lookup_mem hl, rfl⟩)
    rw [this]
    have hx : x < u.length := by
      rw [(h.ents.shapes _ (lookup_mem hl)).2]; exact hbx.2
    simp [hx]

theorem maskUnary_eq {M : MaskT S} (h : MaskSane sym M) (f : List Bool → List Bool) :
    maskUnary sym f M =
      buildMask sym M.large (keepBlocks (elementwiseUnary M.large.mults f false M.ents)) := by
  unfold maskUnary
  rw [elementwiseUnary_false _ _ _ h.ents, reduceLoop_eq _ _ _ h.ents.from, List.zipIdx_map,
    List.map_map]
  congr 2
  apply List.ext_getElem (by simp)
  intro k h1 h2
  simp

/-- **C37**: an elementwise function of a mask (in particular `~M`, the orthogonal complement) acts on
every entry of the vector; the small leg is adapted. -/
theorem C37_unary {M : MaskT S} (h : MaskSane sym M) (g : Bool → Bool) :
    MaskSane sym (M.unary sym (List.map g)) ∧
    (M.unary sym (List.map g)).isProjection = M.isProjection ∧
    (M.unary sym (List.map g)).large = M.large ∧
    asBlockMask sym (M.unary sym (List.map g)) = (asBlockMask sym M).map g := by
  have key : ∀ {M : MaskT S}, MaskSane sym M → MaskSane sym (maskUnary sym (List.map g) M) ∧
      asBlockMask sym (maskUnary sym (List.map g) M) = (asBlockMask sym M).map g := by
    intro M h
    obtain ⟨hu1, hu2⟩ := C36_unary M.large.mults g false (by simp) M.ents h.ents
    rw [maskUnary_eq h]
    obtain ⟨k1, k2⟩ := keep_mask h.large hu1
    refine ⟨k1, ?_⟩
    rw [k2]
    obtain ⟨h1, h2⟩ := C36_as_block h.large _ hu1
    obtain ⟨h3, h4⟩ := asBlockMask_spec h
    refine List.ext_getElem (by rw [h1, List.length_map, h3]) fun j hj hj' => ?_
    obtain ⟨b, x, hp, hbx⟩ := position_of_lt h.large (j := j) (by omega)
    rw [← List.getD_eq_getElem _ 0 hj, h2 j b x hp, List.getElem_map, hu2 b x hbx]
    have h5 := h4 j b x hp
    rw [List.getElem?_eq_getElem (by omega)] at h5
    injection h5 with h5
    rw [h5]
  unfold MaskT.unary
  by_cases hpr : M.isProjection = true
  · rw [if_pos hpr, hpr]
    exact ⟨(key h).1, rfl, rfl, (key h).2⟩
  · rw [if_neg hpr]
    obtain ⟨d1, d2, -, -⟩ := C37_dagger h
    obtain ⟨k1, k2⟩ := key d1
    obtain ⟨e1, e2, -, -⟩ := C37_dagger k1
    refine ⟨e1, by simpa [MaskT.dagger, maskUnary, buildMask] using hpr, rfl, ?_⟩
    rw [e2, k2, d2]

/-- **C37**: an elementwise function of two masks of the same kind on the same leg (`&`, `|`, `^`,
`==`, `!=`) acts on the pairs of entries; it raises for masks of different kinds. -/
theorem C37_binary {M₁ M₂ : MaskT S} (h₁ : MaskSane sym M₁) (h₂ : MaskSane sym M₂)
    (hleg : M₁.large = M₂.large) (g : Bool → Bool → Bool) :
    (M₁.binary sym (List.zipWith g) M₂ = none ↔ M₁.isProjection ≠ M₂.isProjection) ∧
    ∀ M, M₁.binary sym (List.zipWith g) M₂ = some M →
      MaskSane sym M ∧ M.isProjection = M₁.isProjection ∧ M.large = M₁.large ∧
      asBlockMask sym M = List.zipWith g (asBlockMask sym M₁) (asBlockMask sym M₂) := by
  have key : ∀ {M₁ M₂ : MaskT S}, MaskSane sym M₁ → MaskSane sym M₂ → M₁.large = M₂.large →
      MaskSane sym (maskBinary sym (List.zipWith g) M₁ M₂) ∧
      asBlockMask sym (maskBinary sym (List.zipWith g) M₁ M₂) =
        List.zipWith g (asBlockMask sym M₁) (asBlockMask sym M₂) := by
    intro M₁ M₂ h₁ h₂ hleg
    obtain ⟨hu1, hu2⟩ := C36_binary M₁.large.mults g M₁.ents M₂.ents h₁.ents (hleg ▸ h₂.ents)
    obtain ⟨k1, k2⟩ := keep_mask h₁.large hu1
    refine ⟨k1, ?_⟩
    rw [maskBinary, k2]
    obtain ⟨h1, h2⟩ := C36_as_block h₁.large _ hu1
    obtain ⟨h3, h4⟩ := asBlockMask_spec h₁
    obtain ⟨h5, h6⟩ := asBlockMask_spec h₂
    rw [← hleg] at h5 h6
    refine List.ext_getElem (by rw [h1, List.length_zipWith, h3, h5, min_self]) fun j hj hj' => ?_
    obtain ⟨b, x, hp, hbx⟩ := position_of_lt h₁.large (j := j) (by omega)
    rw [← List.getD_eq_getElem _ 0 hj, h2 j b x hp, List.getElem_zipWith, hu2 b x hbx]
    have h7 := h4 j b x hp
    have h8 := h6 j b x hp
    rw [List.getElem?_eq_getElem (by omega)] at h7 h8
    injection h7 with h7
    injection h8 with h8
    rw [h7, h8]
  unfold MaskT.binary
  by_cases hk : M₁.isProjection = M₂.isProjection
  · rw [if_neg (by simpa using hk)]
    by_cases hpr : M₁.isProjection = true
    · rw [if_pos hpr]
      refine ⟨by simp [hk], fun M hM => ?_⟩
      injection hM with hM
      subst hM
      exact ⟨(key h₁ h₂ hleg).1, hpr.symm, rfl, (key h₁ h₂ hleg).2⟩
    · rw [if_neg hpr]
      refine ⟨by simp [hk], fun M hM => ?_⟩
      injection hM with hM
      subst hM
      obtain ⟨d1, d2, -, -⟩ := C37_dagger h₁
      obtain ⟨d3, d4, -, -⟩ := C37_dagger h₂
      obtain ⟨k1, k2⟩ := key d1 d3 hleg
      obtain ⟨e1, e2, -, -⟩ := C37_dagger k1
      refine ⟨e1, by simpa [MaskT.dagger, maskBinary, buildMask] using hpr, rfl, ?_⟩
      rw [e2, k2, d2, d4]
  · rw [if_pos hk]
    exact ⟨by simp [hk], fun M hM => by simp at hM⟩

/-- **C37**: `all` and `any` are the quantifiers over the vector. -/
theorem C37_all_any {M : MaskT S} (h : MaskSane sym M) :
    (M.all = true ↔ ∀ c ∈ asBlockMask sym M, c = true) ∧
    (M.any sym = true ↔ ∃ c ∈ asBlockMask sym M, c = true) := by
  have hd := C37_small_dim h
  have hlen := (asBlockMask_spec h).1
  have hv := h.large.valid M.large (by simp)
  rw [dim_eq h.large.dims h.large.one hv] at hlen
  rw [dim_eq h.smallOK.dims h.smallOK.one h.small] at hd
  constructor
  · unfold MaskT.all
    rw [beq_iff_eq, hd, ← hlen, List.count_eq_length]
    exact ⟨fun h c hc => (h c hc).symm, fun h c hc => (h c hc).symm⟩
  · unfold MaskT.any
    rw [decide_eq_true_iff, dim_eq h.smallOK.dims h.smallOK.one h.small, hd, List.count_pos_iff]
    exact ⟨fun h => ⟨true, h, rfl⟩, fun ⟨c, hc, he⟩ => he ▸ hc⟩

/-- **C37**: the mask with all entries `True` and the one without any. -/
theorem C37_eye_zero (h : DenseOK sym [e]) :
    (MaskSane sym (maskEye sym e) ∧
      asBlockMask sym (maskEye sym e) = List.replicate (e.dim sym) true) ∧
    (MaskSane sym (maskZero e) ∧
      asBlockMask sym (maskZero e) = List.replicate (e.dim sym) false) := by
  constructor
  · have hD : DSane e.mults (e.mults.zipIdx.map fun p => (p.2, List.replicate p.1 true)) := by
      refine zipIdx_map_sane (fun p => List.replicate p.1 true) fun i _ => by simp
    obtain ⟨h1, -, -, h2⟩ := C37_from_diagonal h _ hD
    refine ⟨h1, ?_⟩
    rw [maskEye, h2]
    obtain ⟨h3, h4⟩ := C36_as_block h _ hD
    refine List.ext_getElem (by rw [h3, List.length_replicate]) fun j hj hj' => ?_
    obtain ⟨b, x, hp, hbx⟩ := position_of_lt h (j := j) (by omega)
    rw [← List.getD_eq_getElem _ 0 hj, h4 j b x hp, List.getElem_replicate]
    have hm : (b, List.replicate (e.mults.getD b 0) true) ∈
        e.mults.zipIdx.map fun p => (p.2, List.replicate p.1 true) := by
      refine List.mem_map.2 ⟨(e.mults.getD b 0, b), ?_, rfl⟩
      rw [List.mk_mem_zipIdx_iff_getElem?, List.getElem?_eq_getElem hbx.1]
      exact congrArg some (List.getD_eq_getElem _ _ hbx.1).symm
    unfold diagEntry
    rw [lookup_of_mem hD.sorted hm]
    have hx := hbx.2
    rw [Option.getD_some, List.getD_eq_getElem?_getD, List.getElem?_replicate, if_pos hx]
    rfl
  · have hz : maskZero e = buildMask sym e [] := by
      unfold maskZero buildMask smallLeg smallPerm maskData
      cases e.perm <;> simp
    rw [hz]
    have hD : DSane e.mults ([] : DEnts Bool) := ⟨by simp, by simp⟩
    refine ⟨sane_build h _ hD (by simp), ?_⟩
    rw [vec_build]
    obtain ⟨h3, h4⟩ := C36_as_block h _ hD
    refine List.ext_getElem (by rw [h3, List.length_replicate]) fun j hj hj' => ?_
    obtain ⟨b, x, hp, hbx⟩ := position_of_lt h (j := j) (by omega)
    rw [← List.getD_eq_getElem _ 0 hj, h4 j b x hp, List.getElem_replicate]
    rfl

/-- **C37**: `as_SymmetricTensor` of a projection mask: the matrix with entry 1 at `(i, j)` iff `j` is
the position of `True` number `i` (public indices), with consistent data. -/
theorem C37_full [AddCommMonoid K] [One K] {M : MaskT S} (h : MaskSane sym M)
    (hpr : M.isProjection = true) :
    Sane [M.small.mults, M.large.mults] (fullFromMask (K := K) M) ∧
    ∀ i j t x b y, IsPosition sym M.small i t x → IsPosition sym M.large j b y →
      dense (fullFromMask (K := K) M) [t, b] [x, y] =
        if IsNthTrue (asBlockMask sym M) i j then 1 else 0 := by
  have hent : M.ents = M.data.map fun r => (r.1.2, r.2) := by
    unfold MaskT.ents; simp [hpr]
  have hrow : M.data.map (fun r => r.1.1) = List.range M.data.length := by
    rw [← h.rows]; unfold smallColumn; simp [hpr]
  have key : ∀ k : ℕ, ∀ r, M.data[k]? = some r → r.1.1 = k := by
    intro k r hk
    have h1 := congrArg (·[k]?) hrow
    simp only [List.getElem?_map, hk] at h1
    have hlt := (List.getElem?_eq_some_iff.1 hk).1
    rw [List.getElem?_range hlt] at h1
    injection h1
  have hs : Sane [M.small.mults, M.large.mults] (fullFromMask (K := K) M) := by
    refine ⟨?_, ?_, ?_⟩
    · intro p hp
      obtain ⟨r, hr, rfl⟩ := List.mem_map.1 hp
      obtain ⟨k, hk⟩ := List.mem_iff_getElem?.1 hr
      have h1 := key k r hk
      have h2 := (h.ents.shapes (r.1.2, r.2) (by rw [hent]; exact List.mem_map.2 ⟨r, hr, rfl⟩)).1
      refine .cons ?_ (.cons h2 .nil)
      rw [h1, h.mults, hent]
      simpa using (List.getElem?_eq_some_iff.1 hk).1
    · intro p hp
      obtain ⟨r, hr, rfl⟩ := List.mem_map.1 hp
      obtain ⟨k, hk⟩ := List.mem_iff_getElem?.1 hr
      have h1 := key k r hk
      have h2 := (h.ents.shapes (r.1.2, r.2) (by rw [hent]; exact List.mem_map.2 ⟨r, hr, rfl⟩)).2
      have h3 : M.small.mults.getD r.1.1 0 = countTrue r.2 := by
        rw [h1, h.mults, hent, List.map_map, List.getD_eq_getElem?_getD, List.getElem?_map, hk]
        rfl
      simp only [Blk.fromMask, shapeOf, List.zipWith_cons_cons, List.zipWith_nil_right]
      rw [h3]
      simp only [List.cons.injEq, true_and, and_true]
      exact h2
    · unfold StrictlySorted fullFromMask
      rw [List.map_map, List.pairwise_map]
      have h1 := h.ents.sorted
      rw [hent, List.map_map, List.pairwise_map] at h1
      have h2 : M.data.Pairwise fun r r' => r.1.1 < r'.1.1 := by
        have : (M.data.map fun r => r.1.1).Pairwise (· < ·) := by
          rw [hrow]; exact List.pairwise_lt_range
        rwa [List.pairwise_map] at this
      refine (h1.and h2).imp fun {p q} hpq => (rowLt_key (n := 2) rfl rfl).2 ?_
      exact List.Lex.rel hpq.1
  refine ⟨hs, fun i j t x b y hi hj => ?_⟩
  have hiff := maskEntry_iff h hpr hi hj
  by_cases hm : ∃ m, M.data.lookup (t, b) = some m
  · obtain ⟨m, hm⟩ := hm
    have hp : ([t, b], Blk.fromMask (K := K) m) ∈ fullFromMask (K := K) M :=
      List.mem_map.2 ⟨((t, b), m), mem_of_lookup hm, rfl⟩
    have := hs.dense_of_mem hp [x, y]
    simp only at this
    rw [this]
    rw [hm] at hiff
    simp only [Blk.fromMask]
    have h0 : (nonzero m)[[x, y].getD 0 0]? = some ([x, y].getD 1 0) ↔
        maskEntry (some m) y x = true := by
      simp only [List.getD_cons_zero, List.getD_cons_succ]
      rw [nonzero_get]
      simp only [maskEntry, blockMaskElement, Bool.and_eq_true, beq_iff_eq]
      rw [List.getD_eq_getElem?_getD]
      constructor
      · rintro ⟨h1, h2⟩; exact ⟨by rw [h1]; rfl, h2.symm⟩
      · rintro ⟨h1, h2⟩
        refine ⟨?_, h2.symm⟩
        cases hu : m[y]? with
        | none => rw [hu] at h1; simp at h1
        | some c => rw [hu] at h1; simpa using h1
    by_cases hc : IsNthTrue (asBlockMask sym M) i j
    · rw [if_pos hc, if_pos (h0.2 (hiff.2 hc))]
    · rw [if_neg hc, if_neg fun h => hc (hiff.1 (h0.1 h))]
  · rw [dense_of_not_mem]
    · rw [if_neg]
      intro hc
      have := hiff.2 hc
      cases hl : M.data.lookup (t, b) with
      | none => rw [hl] at this; simp [maskEntry] at this
      | some m => exact hm ⟨m, hl⟩
    · intro p hp he
      obtain ⟨r, hr, rfl⟩ := List.mem_map.1 hp
      simp only [List.cons.injEq, and_true] at he
      apply hm
      refine ⟨r.2, (lookup_data h hpr t b r.2).2 ?_⟩
      obtain ⟨k, hk⟩ := List.mem_iff_getElem?.1 hr
      have h1 := key k r hk
      rw [hent, List.getElem?_map, ← he.1, h1, hk]
      simp [he.2]

/-- **C37**: the small leg is a subspace of the large leg: `is_subspace_of` is true (the sectors of the
large leg have positive multiplicity). -/
theorem C37_subspace {M : MaskT S} (h : MaskSane sym M) (hdd : ∀ s, sym.dual (sym.dual s) = s)
    (hpos : ∀ m ∈ M.large.mults, 0 < m) :
    (M.small.toSpace sym).isSubspaceOf (M.large.toSpace sym) = true := by
  have hv := h.large.valid M.large (by simp)
  have hinj : Function.Injective sym.dual := fun a b hab => by rw [← hdd a, hab, hdd]
  have hvd : ∀ e : ESpace S, ValidSpace sym e → (∀ m ∈ e.mults, 0 < m) → ValidData sym (e.toSpace sym) := by
    intro e he hp
    refine ⟨(sectors_length he).symm, sectors_nodup he hinj, hp, ?_, ?_⟩
    · intro ho
      unfold ESpace.toSpace at ho
      simp only at ho
      have hd : e.isDual = false := by by_contra hc; simp [hc] at ho
      show (e.sectors sym).Pairwise _
      unfold ESpace.sectors
      rw [if_neg (by simp [hd])]
      exact he.sorted
    · intro ho
      unfold ESpace.toSpace at ho
      simp only at ho
      have hd : e.isDual = true := by by_contra hc; simp [hc] at ho
      show ((e.sectors sym).map _).Pairwise _
      unfold ESpace.sectors
      rw [if_pos hd, List.map_map]
      have : sym.dual ∘ sym.dual = id := funext hdd
      rw [this, List.map_id]
      exact he.sorted
  have hsp : ∀ m ∈ M.small.mults, 0 < m := by
    intro m hm
    rw [h.mults] at hm
    obtain ⟨p, hp, rfl⟩ := List.mem_map.1 hm
    exact List.count_pos_iff.2 (h.nonempty p hp)
  rw [C27_is_subspace_of sym _ _ (hvd _ h.small hsp) (hvd _ hv hpos)]
  -- sectors of the small leg
  have hsec : (M.small.sectors sym).map some = M.ents.map fun p => (M.large.sectors sym)[p.1]? := by
    unfold ESpace.sectors
    rw [h.dual]
    split
    · rw [List.map_map]
      have : (some ∘ sym.dual) = (Option.map sym.dual) ∘ some := rfl
      rw [this, ← List.map_map, h.sectors, List.map_map]
      apply List.map_congr_left
      intro p _
      simp
    · exact h.sectors
  intro s
  show Spec.multOf (M.small.sectors sym) M.small.mults s ≤ Spec.multOf (M.large.sectors sym) M.large.mults s
  have hlnd := sectors_nodup hv hinj
  have hll := sectors_length hv
  -- the large multiplicity at position b
  have hlarge : ∀ b (hb : b < (M.large.sectors sym).length), (M.large.sectors sym)[b] = s →
      M.large.mults.getD b 0 ≤ Spec.multOf (M.large.sectors sym) M.large.mults s := by
    intro b hb hs
    have hb' : b < M.large.mults.length := by omega
    have hmem : (s, M.large.mults[b]) ∈ (M.large.sectors sym).zip M.large.mults := by
      rw [List.mem_iff_getElem]
      exact ⟨b, by simp; omega, by simp [hs]⟩
    have := List.single_le_sum (l := ((M.large.sectors sym).zip M.large.mults).map
      fun p => if p.1 = s then p.2 else 0) (fun _ _ => Nat.zero_le _) (M.large.mults[b])
      (List.mem_map.2 ⟨_, hmem, by simp⟩)
    rw [List.getD_eq_getElem _ _ hb']
    exact this
  have hzip : (M.small.sectors sym).zip M.small.mults =
      M.ents.filterMap fun p => (M.large.sectors sym)[p.1]?.map fun t => (t, p.2.count true) := by
    rw [h.mults]
    have h1 := hsec
    generalize M.small.sectors sym = sec at h1
    have h2 := h.ents.shapes
    clear hsec
    generalize M.ents = E at h1 h2
    induction E generalizing sec with
    | nil => simp at h1; simp [h1]
    | cons p E ih =>
      cases sec with
      | nil => simp at h1
      | cons t sec =>
        rw [List.map_cons, List.map_cons] at h1
        injection h1 with h1 h3
        rw [List.filterMap_cons, ← h1, List.map_cons, List.zip_cons_cons,
          ih sec h3 fun q hq => h2 q (List.mem_cons_of_mem _ hq)]
        rfl
  by_cases hs : ∃ b, ∃ hb : b < (M.large.sectors sym).length, (M.large.sectors sym)[b] = s
  · obtain ⟨b, hb, hbs⟩ := hs
    refine le_trans ?_ (hlarge b hb hbs)
    unfold Spec.multOf
    rw [hzip]
    have hsum : ∀ E : DEnts Bool, (E.map Prod.fst).Pairwise (· < ·) →
        (∀ p ∈ E, p.1 < M.large.mults.length ∧ p.2.length = M.large.mults.getD p.1 0) →
        ((E.filterMap fun p => (M.large.sectors sym)[p.1]?.map fun t => (t, p.2.count true)).map
          fun p => if p.1 = s then p.2 else 0).sum ≤
          if ∃ p ∈ E, p.1 = b then M.large.mults.getD b 0 else 0 := by
      intro E
      induction E with
      | nil => intro _ _; simp
      | cons p E ih =>
        intro hso hsh
        rw [List.map_cons, List.pairwise_cons] at hso
        obtain ⟨hp1, hp2⟩ := hsh p List.mem_cons_self
        have ih' := ih hso.2 fun q hq => hsh q (List.mem_cons_of_mem _ hq)
        rw [List.filterMap_cons, List.getElem?_eq_getElem (by omega)]
        simp only [Option.map_some, List.map_cons, List.sum_cons]
        by_cases hpb : p.1 = b
        · have hno : ¬ ∃ q ∈ E, q.1 = b := by
            rintro ⟨q, hq, hqb⟩
            have := hso.1 q.1 (List.mem_map_of_mem hq)
            omega
          rw [if_neg hno] at ih'
          have hyes : ∃ q ∈ p :: E, q.1 = b := ⟨p, List.mem_cons_self, hpb⟩
          rw [if_pos hyes]
          have hc : p.2.count true ≤ p.2.length := List.count_le_length
          rw [← hpb, ← hp2]
          split
          · exact le_trans (Nat.add_le_add hc ih') (by simp)
          · rw [Nat.zero_add]; exact le_trans ih' (Nat.zero_le _)
        · have hne : ¬ (M.large.sectors sym)[p.1]'(by omega) = s := by
            intro hc
            exact hpb ((List.Nodup.getElem_inj_iff hlnd).1 (hc.trans hbs.symm))
          rw [if_neg hne, Nat.zero_add]
          refine le_trans ih' ?_
          by_cases hex : ∃ q ∈ E, q.1 = b
          · obtain ⟨q, hq, hqb⟩ := hex
            rw [if_pos ⟨q, hq, hqb⟩, if_pos ⟨q, List.mem_cons_of_mem _ hq, hqb⟩]
          · rw [if_neg hex]; exact Nat.zero_le _
    refine le_trans (hsum M.ents h.ents.sorted h.ents.shapes) ?_
    split <;> omega
  · have : Spec.multOf (M.small.sectors sym) M.small.mults s = 0 := by
      unfold Spec.multOf
      rw [List.sum_eq_zero_iff]
      intro x hx
      obtain ⟨p, hp, rfl⟩ := List.mem_map.1 hx
      rw [if_neg]
      intro hps
      rw [hzip] at hp
      obtain ⟨q, hq, hq2⟩ := List.mem_filterMap.1 hp
      obtain ⟨t, ht, rfl⟩ := Option.map_eq_some_iff.1 hq2
      obtain ⟨hb, hbt⟩ := List.getElem?_eq_some_iff.1 ht
      exact hs ⟨q.1, hb, by rw [hbt]; exact hps⟩
    rw [this]
    exact Nat.zero_le _

/-! ## A concrete case -/

theorem denseLeg_one : DenseOK exU1 [denseLeg] := by
  refine ⟨exU1_ok, fun _ => rfl, rfl, fun e he => ?_⟩
  have : e = denseLeg := by simpa using he
  subst this
  exact denseLeg_ok.valid denseLeg (by simp)

/-- A mask that keeps the public basis vectors 1 and 2 of a leg with three of them. -/
theorem C37_example :
    fromBlockMask exU1 denseLeg [false, true, true] =
      some ⟨true, denseLeg, ⟨[0, 1], [1, 1], false, some [1, 0]⟩,
        [((0, 0), [true]), ((1, 1), [false, true])]⟩ ∧
    (((fromBlockMask exU1 denseLeg [false, true, true]).map fun M =>
      (getElementMask exU1 M 0 1, getElementMask exU1 M 1 2, getElementMask exU1 M 1 1,
        getElementMask exU1 M (-1) (-1), getElementMask exU1 M 0 3)) =
      some (some true, some true, some false, some true, none)) ∧
    ((fromBlockMask exU1 denseLeg [false, true, true]).map fun M =>
      asBlockMask exU1 (M.unary exU1 (List.map not))) = some [true, false, false] := by
  decide +kernel

end Cyten.Props
