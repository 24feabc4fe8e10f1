import Verif.Lemmas.Compress
import Verif.Props.AbelianDiag2

/-!
# C37: masks of the abelian backend

A mask on a large leg of dimension `n` is given by a vector of `n` booleans, in the public order of
the basis; the small leg has one basis vector for each `True`, in the same order.
-/

namespace Cyten.Abelian.Spec
open Cyten.Abelian Cyten.Spaces Cyten.Props

variable {S : Type} [LinearOrder S]

/-- `j` is the position of the `True` with number `i` (counted from zero) of `v`. -/
def IsNthTrue (v : List Bool) (i j : ℕ) : Prop := v[j]? = some true ∧ (v.take j).count true = i

instance (v : List Bool) (i j : ℕ) : Decidable (IsNthTrue v i j) := inferInstanceAs (Decidable (_ ∧ _))

/-- The first or second column of `block_inds`, whichever belongs to the small leg. -/
def smallColumn (M : MaskT S) : List ℕ :=
  M.data.map fun r => if M.isProjection then r.1.1 else r.1.2

/-- Consistent mask (`Mask.test_sanity`): valid legs, blocks with the lengths of the sectors of the
large leg, which contain a `True`, in increasing order; the small leg consists of the sectors with a
block, with the numbers of `True` as multiplicities, and its basis has the order of the large leg. -/
structure MaskSane (sym : Sym S) (M : MaskT S) : Prop where
  large : DenseOK sym [M.large]
  small : ValidSpace sym M.small
  dual : M.small.isDual = M.large.isDual
  ents : DSane M.large.mults M.ents
  nonempty : ∀ p ∈ M.ents, true ∈ p.2
  rows : smallColumn M = List.range M.data.length
  sectors : M.small.defining.map some = M.ents.map fun p => M.large.defining[p.1]?
  mults : M.small.mults = M.ents.map fun p => p.2.count true
  perm : permOk sym M

end Cyten.Abelian.Spec

namespace Cyten.Props
open Cyten.Abelian Cyten.Abelian.Spec Cyten.Tables Cyten.Tools Cyten.ListSum Cyten.Spaces

variable {S K : Type} [LinearOrder S] {sym : Sym S} {M : MaskT S}

theorem _root_.Cyten.Abelian.Spec.MaskSane.smallOK (h : MaskSane sym M) : DenseOK sym [M.small] :=
  ⟨h.large.dims, h.large.one, h.large.drop, fun e he => by
    have : e = M.small := by simpa using he
    subst this; exact h.small⟩

/-- The blocks of all sectors. -/
def fullBlock (mults : List ℕ) (D : DEnts Bool) (b : ℕ) : List Bool :=
  (D.lookup b).getD (zeros1 (mults.getD b 0))

theorem length_fullBlock {mults : List ℕ} {D : DEnts Bool} (hD : DSane mults D) (b : ℕ) :
    (fullBlock mults D b).length = mults.getD b 0 := by
  unfold fullBlock
  cases hl : D.lookup b with
  | none => simp [zeros1]
  | some u => exact (hD.shapes _ (lookup_mem hl)).2

section ToBlock
variable {e : ESpace S}

theorem diagonalToBlock_eq (h : DenseOK sym [e]) (D : DEnts Bool) (hD : DSane e.mults D) :
    diagonalToBlock sym e D = (List.range e.mults.length).flatMap (fullBlock e.mults D) := by
  have hv := h.valid e (by simp)
  have hnd : (D.map Prod.fst).Nodup := hD.sorted.imp fun h => Nat.ne_of_lt h
  obtain ⟨h1, h2⟩ := foldl_setSlice1 h D hD.shapes hnd (zeros1 (e.dim sym))
    (by rw [zeros1, List.length_replicate, dim_eq h.dims h.one hv])
  change (diagonalToBlock sym e D).length = _ at h1
  rw [← flatMap_slices e.mults (diagonalToBlock sym e D) h1]
  apply List.flatMap_congr
  intro b hb
  have hb' := List.mem_range.1 hb
  have hfit : (e.mults.take b).sum + e.mults.getD b 0 ≤ (diagonalToBlock sym e D).length := by
    rw [h1]
    have h1 := take_sum_succ e.mults b _ (List.getElem?_eq_getElem hb')
    have h2 := take_sum_mono e.mults (b + 1) e.mults.length hb'
    rw [List.take_length] at h2
    rw [List.getD_eq_getElem?_getD, List.getElem?_eq_getElem hb', Option.getD_some]
    omega
  refine List.ext_getElem ?_ fun x hx hx' => ?_
  · rw [length_fullBlock hD]
    simp only [slice, List.length_take, List.length_drop]
    omega
  · have hxm : x < e.mults.getD b 0 := by rw [← length_fullBlock hD]; exact hx'
    have := h2 b x ⟨hb', hxm⟩
    change (diagonalToBlock sym e D).getD _ 0 = _ at this
    have e1 : (slice (diagonalToBlock sym e D) (e.mults.take b).sum
        ((e.mults.take b).sum + e.mults.getD b 0))[x] =
        (diagonalToBlock sym e D).getD ((e.mults.take b).sum + x) 0 := by
      simp only [slice, List.getElem_take, List.getElem_drop]
      exact (List.getD_eq_getElem _ _ (by omega)).symm
    rw [e1, this]
    rw [← List.getD_eq_getElem (fullBlock e.mults D b) 0 hx']
    unfold fullBlock
    cases hl : D.lookup b with
    | none =>
      simp only [Option.getD_none, zeros1, List.getD_eq_getElem?_getD, List.getElem?_replicate]
      split <;> split <;> rfl
    | some u => rfl

/-- The kept part of the permutation, in the order of the blocks. -/
theorem compress_toBlock {α : Type} (h : DenseOK sym [e]) (D : DEnts Bool) (hD : DSane e.mults D) (l : List α)
    (hl : l.length = e.mults.sum) :
    compress (diagonalToBlock sym e D) l =
      D.flatMap fun p => compress p.2 (getSlice1 l (legSlice sym e p.1)) := by
  have hlen : ∀ b < e.mults.length, (getSlice1 l (legSlice sym e b)).length = e.mults.getD b 0 := by
    intro b hb
    rw [legSlice_eq h hb]
    have h1 := take_sum_succ e.mults b _ (List.getElem?_eq_getElem hb)
    have h2 := take_sum_mono e.mults (b + 1) e.mults.length hb
    rw [List.take_length] at h2
    simp only [getSlice1, slice, List.length_take, List.length_drop]
    rw [List.getD_eq_getElem?_getD, List.getElem?_eq_getElem hb, Option.getD_some]
    omega
  have hsl : l = (List.range e.mults.length).flatMap fun b => getSlice1 l (legSlice sym e b) := by
    conv_lhs => rw [← flatMap_slices e.mults l hl]
    apply List.flatMap_congr
    intro b hb
    rw [legSlice_eq h (List.mem_range.1 hb)]
    rfl
  rw [diagonalToBlock_eq h D hD]
  conv_lhs => rw [hsl]
  rw [compress_flatMap]
  · have := flatMap_lookup D (fun b o => compress (o.getD (zeros1 (e.mults.getD b 0)))
      (getSlice1 l (legSlice sym e b))) (fun b => ?_) hD.sorted 0 e.mults.length (by simp)
      (fun p hp => by simpa using (hD.shapes p hp).1)
    · rw [← List.range_eq_range'] at this
      exact this
    · simp only [Option.getD_none, zeros1]
      exact compress_replicate_false _ _
  · intro b hb
    rw [length_fullBlock hD, hlen b (List.mem_range.1 hb)]

end ToBlock

theorem maskToBlock_eq : maskToBlock sym M = diagonalToBlock sym M.large M.ents := rfl

theorem asBlockMask_eq : asBlockMask sym M = diagonalAsBlock sym M.large M.ents := rfl

theorem asBlockMask_spec (h : MaskSane sym M) :
    (asBlockMask sym M).length = M.large.dim sym ∧
    ∀ j b x, IsPosition sym M.large j b x →
      (asBlockMask sym M)[j]? = some (diagEntry M.ents b x) := by
  obtain ⟨h1, h2⟩ := C36_as_block h.large M.ents h.ents
  rw [asBlockMask_eq]
  refine ⟨h1, fun j b x hp => ?_⟩
  have hj := (lt_of_position h.large hp).1
  rw [← h2 j b x hp, List.getD_eq_getElem?_getD, List.getElem?_eq_getElem (by omega)]
  rfl

/-- The public indices that are kept, in the order of the blocks. -/
theorem kept_eq (h : MaskSane sym M) :
    compress (maskToBlock sym M) (M.large.basisPerm sym) =
      M.ents.flatMap fun p => compress p.2
        (getSlice1 (M.large.basisPerm sym) (legSlice sym M.large p.1)) := by
  have hv := h.large.valid M.large (by simp)
  rw [maskToBlock_eq, compress_toBlock h.large _ h.ents]
  rw [basisPerm_length h.large.dims hv, dim_eq h.large.dims h.large.one hv]

theorem slice_get_iff {α : Type} (l : List α) (a n x : ℕ) (y : α) :
    (slice l a (a + n))[x]? = some y ↔ x < n ∧ l[a + x]? = some y := by
  unfold slice
  rw [List.getElem?_take, Nat.add_sub_cancel_left, List.getElem?_drop]
  split
  · simp [*]
  · simp [*]

/-- A public index is kept iff the mask is true there. -/
theorem mem_kept (h : MaskSane sym M) (j : ℕ) :
    j ∈ compress (maskToBlock sym M) (M.large.basisPerm sym) ↔ (asBlockMask sym M)[j]? = some true := by
  have hv := h.large.valid M.large (by simp)
  obtain ⟨hlen, hval⟩ := asBlockMask_spec h
  rw [kept_eq h, List.mem_flatMap]
  constructor
  · rintro ⟨p, hp, hj⟩
    obtain ⟨x, h1, h2⟩ := (mem_compress _ _ _).1 hj
    obtain ⟨hb, hl⟩ := h.ents.shapes p hp
    rw [legSlice_eq h.large hb] at h2
    obtain ⟨hx, h3⟩ := (slice_get_iff _ _ _ _ _).1 h2
    have hpos : IsPosition sym M.large j p.1 x :=
      (isPosition_iff h.large.one hv _ _ _).2 ⟨hb, hx, h3⟩
    rw [hval j _ _ hpos]
    unfold diagEntry
    rw [lookup_of_mem h.ents.sorted hp, Option.getD_some, List.getD_eq_getElem?_getD, h1]
    rfl
  · intro hj
    have hjd : j < M.large.dim sym := by
      rw [← hlen]; exact (List.getElem?_eq_some_iff.1 hj).1
    obtain ⟨b, x, hpos, hbx⟩ := position_of_lt h.large hjd
    rw [hval j b x hpos] at hj
    have hd : diagEntry M.ents b x = true := by injection hj
    unfold diagEntry at hd
    cases hl : M.ents.lookup b with
    | none => rw [hl] at hd; exact absurd hd (by simp [boolZero])
    | some u =>
      rw [hl, Option.getD_some, List.getD_eq_getElem?_getD] at hd
      refine ⟨(b, u), lookup_mem hl, (mem_compress _ _ _).2 ⟨x, ?_, ?_⟩⟩
      · cases hu : u[x]? with
        | none => rw [hu] at hd; exact absurd hd (by decide)
        | some c => rw [hu] at hd; exact congrArg some hd
      · rw [legSlice_eq h.large hbx.1]
        exact (slice_get_iff _ _ _ _ _).2 ⟨hbx.2, ((isPosition_iff h.large.one hv _ _ _).1 hpos).2.2⟩

theorem chunk_length (h : MaskSane sym M) {p : ℕ × List Bool} (hp : p ∈ M.ents) :
    (compress p.2 (getSlice1 (M.large.basisPerm sym) (legSlice sym M.large p.1))).length =
      p.2.count true := by
  have hv := h.large.valid M.large (by simp)
  obtain ⟨hb, hl⟩ := h.ents.shapes p hp
  apply length_compress
  rw [legSlice_eq h.large hb, hl]
  have h1 := take_sum_succ M.large.mults p.1 _ (List.getElem?_eq_getElem hb)
  have h2 := take_sum_mono M.large.mults (p.1 + 1) M.large.mults.length hb
  rw [List.take_length] at h2
  simp only [getSlice1, slice, List.length_take, List.length_drop, basisPerm_length h.large.dims hv,
    dim_eq h.large.dims h.large.one hv]
  rw [List.getD_eq_getElem?_getD, List.getElem?_eq_getElem hb, Option.getD_some]
  omega

theorem small_mults_eq (h : MaskSane sym M) :
    M.small.mults = M.ents.map fun p =>
      (compress p.2 (getSlice1 (M.large.basisPerm sym) (legSlice sym M.large p.1))).length := by
  rw [h.mults]
  apply List.map_congr_left
  intro p hp
  rw [chunk_length h hp]

theorem length_kept (h : MaskSane sym M) :
    (compress (maskToBlock sym M) (M.large.basisPerm sym)).length = M.small.dim sym := by
  rw [dim_eq h.smallOK.dims h.smallOK.one h.small, small_mults_eq h, kept_eq h, List.length_flatMap]

theorem gather_get_of_lt {α : Type} (l : List α) (idx : List ℕ) (hlt : ∀ i ∈ idx, i < l.length) (k : ℕ) :
    (gather l idx)[k]? = idx[k]?.bind fun i => l[i]? := by
  induction idx generalizing k with
  | nil => simp [gather]
  | cons i idx ih =>
    have hi := hlt i List.mem_cons_self
    have : gather l (i :: idx) = l[i] :: gather l idx := by
      simp [gather, hi]
    rw [this]
    cases k with
    | zero => simp [hi]
    | succ k => simpa using ih (fun j hj => hlt j (List.mem_cons_of_mem _ hj)) k

theorem inverseBasisPerm_perm {e : ESpace S} (hd : DimOK sym) (hv : ValidSpace sym e) :
    (inverseBasisPerm sym e).Perm (List.range (e.dim sym)) := by
  have hbl := basisPerm_length hd hv
  have hb := (basisPerm_isPerm sym hd e hv).1
  unfold IsPerm at hb
  unfold ESpace.basisPerm at hb hbl
  unfold inverseBasisPerm ESpace.inversePerm
  cases hpp : e.perm with
  | none => exact List.Perm.refl _
  | some p =>
    rw [hpp] at hb hbl
    simp only [Option.map_some] at hb hbl ⊢
    have := inversePermutation_perm hb
    rw [hbl] at this
    exact this

/-- The sorted kept indices of `test_sanity` are the positions of the `True`s. -/
theorem gather_kept (h : MaskSane sym M) :
    gather (compress (maskToBlock sym M) (M.large.basisPerm sym)) (inverseBasisPerm sym M.small) =
      nonzero (asBlockMask sym M) := by
  refine eq_of_sorted h.perm (nonzero_sorted _) fun j => ?_
  rw [mem_nonzero, ← mem_kept h]
  set P := compress (maskToBlock sym M) (M.large.basisPerm sym) with hP
  have hlen : P.length = M.small.dim sym := length_kept h
  have hp := inverseBasisPerm_perm h.smallOK.dims h.small
  have hlt : ∀ i ∈ inverseBasisPerm sym M.small, i < P.length := by
    intro i hi
    have := List.mem_range.1 (hp.mem_iff.1 hi)
    omega
  constructor
  · intro hj
    obtain ⟨i, -, hi⟩ := List.mem_filterMap.1 hj
    exact List.mem_of_getElem? hi
  · intro hj
    obtain ⟨i, hi⟩ := List.mem_iff_getElem?.1 hj
    refine List.mem_filterMap.2 ⟨i, hp.mem_iff.2 (List.mem_range.2 ?_), hi⟩
    rw [← hlen]; exact (List.getElem?_eq_some_iff.1 hi).1

/-- **C37**: the small leg has one basis vector for each `True`. -/
theorem C37_small_dim (h : MaskSane sym M) :
    M.small.dim sym = (asBlockMask sym M).count true := by
  have h1 : (gather (compress (maskToBlock sym M) (M.large.basisPerm sym))
      (inverseBasisPerm sym M.small)).length = M.small.dim sym := by
    have hp := inverseBasisPerm_perm h.smallOK.dims h.small
    have hlen := length_kept h
    have : ∀ idx : List ℕ, (∀ i ∈ idx, i < M.small.dim sym) →
        (gather (compress (maskToBlock sym M) (M.large.basisPerm sym)) idx).length = idx.length := by
      intro idx
      induction idx with
      | nil => intro _; rfl
      | cons i idx ih =>
        intro hi
        have := hi i List.mem_cons_self
        unfold gather at ih ⊢
        rw [List.filterMap_cons, List.getElem?_eq_getElem (by omega)]
        simp only [List.length_cons]
        rw [ih fun j hj => hi j (List.mem_cons_of_mem _ hj)]
    rw [this _ fun i hi => List.mem_range.1 (hp.mem_iff.1 hi), hp.length_eq, List.length_range]
  rw [← h1, gather_kept h, length_nonzero]
  rfl

theorem mem_of_lookup {α β : Type} [BEq α] [LawfulBEq α] {D : List (α × β)} {k : α} {x : β}
    (h : D.lookup k = some x) : (k, x) ∈ D := by
  induction D with
  | nil => simp at h
  | cons r D ih =>
    obtain ⟨k', x'⟩ := r
    rw [List.lookup_cons] at h
    classical
    by_cases hk : k = k'
    · subst hk
      simp at h
      subst h
      exact List.mem_cons_self
    · rw [beq_false_of_ne hk] at h
      exact List.mem_cons_of_mem _ (ih h)

theorem lookup_of_nodup {α β : Type} [BEq α] [LawfulBEq α] {D : List (α × β)} (hnd : (D.map Prod.fst).Nodup)
    {k : α} {x : β} (h : (k, x) ∈ D) : D.lookup k = some x := by
  induction D with
  | nil => simp at h
  | cons r D ih =>
    obtain ⟨k', x'⟩ := r
    rw [List.map_cons, List.nodup_cons] at hnd
    rw [List.lookup_cons]
    rcases List.mem_cons.1 h with hm | hm
    · injection hm with h1 h2
      subst h1; subst h2
      simp
    · have : k ≠ k' := fun hc => hnd.1 (List.mem_map.2 ⟨_, hm, hc⟩)
      rw [beq_false_of_ne this]
      exact ih hnd.2 hm

theorem lookup_data (h : MaskSane sym M) (hpr : M.isProjection = true) (t b : ℕ) (m : List Bool) :
    M.data.lookup (t, b) = some m ↔ M.ents[t]? = some (b, m) := by
  have hrows := h.rows
  have he : M.ents = M.data.map fun r => (r.1.2, r.2) := by
    unfold MaskT.ents; simp [hpr]
  have hr : M.data.map (fun r => r.1.1) = List.range M.data.length := by
    rw [← hrows]; unfold smallColumn; simp [hpr]
  have hnd : (M.data.map Prod.fst).Nodup := by
    have : (M.data.map (fun r => r.1.1)).Nodup := by rw [hr]; exact List.nodup_range
    refine List.Nodup.of_map Prod.fst ?_
    rw [List.map_map]; exact this
  have key : ∀ k : ℕ, ∀ r, M.data[k]? = some r → r.1.1 = k := by
    intro k r hk
    have h1 := congrArg (·[k]?) hr
    simp only [List.getElem?_map, hk] at h1
    have hlt := (List.getElem?_eq_some_iff.1 hk).1
    rw [List.getElem?_range hlt] at h1
    injection h1
  rw [he, List.getElem?_map]
  constructor
  · intro hl
    have hmem : ((t, b), m) ∈ M.data := mem_of_lookup hl
    obtain ⟨k, hk⟩ := List.mem_iff_getElem?.1 hmem
    have := key k _ hk
    simp only at this
    subst this
    rw [hk]; rfl
  · intro hg
    cases hk : M.data[t]? with
    | none => rw [hk] at hg; simp at hg
    | some r =>
      rw [hk] at hg
      have h1 := key t r hk
      obtain ⟨⟨a, c⟩, x⟩ := r
      simp at hg h1
      obtain ⟨rfl, rfl⟩ := hg
      subst h1
      exact lookup_of_nodup hnd (List.mem_of_getElem? hk)

/-- The entries in the blocks. -/
theorem maskEntry_iff (h : MaskSane sym M) (hpr : M.isProjection = true) {i j t x b y : ℕ}
    (hi : IsPosition sym M.small i t x) (hj : IsPosition sym M.large j b y) :
    maskEntry (M.data.lookup (t, b)) y x = true ↔ IsNthTrue (asBlockMask sym M) i j := by
  have hv := h.large.valid M.large (by simp)
  have hpi := (isPosition_iff h.smallOK.one h.small _ _ _).1 hi
  have hpj := (isPosition_iff h.large.one hv _ _ _).1 hj
  -- the index in the list of the kept ones
  have hQ : (gather (compress (maskToBlock sym M) (M.large.basisPerm sym))
      (inverseBasisPerm sym M.small))[i]? =
      (compress (maskToBlock sym M) (M.large.basisPerm sym))[(M.small.mults.take t).sum + x]? := by
    have hp := inverseBasisPerm_perm h.smallOK.dims h.small
    rw [gather_get_of_lt _ _ (fun k hk => by
      rw [length_kept h]; exact List.mem_range.1 (hp.mem_iff.1 hk))]
    have hg := inverseBasisPerm_getD h.smallOK.dims h.smallOK.one h.small hi
    have hlt := isPosition_lt h.smallOK.dims h.small hi
    rw [List.getD_eq_getElem?_getD, List.getElem?_eq_getElem (by
      rw [inverseBasisPerm_length h.smallOK.dims h.small]; exact hlt)] at hg
    rw [List.getElem?_eq_getElem (by
      rw [inverseBasisPerm_length h.smallOK.dims h.small]; exact hlt)]
    simp only [Option.getD_some] at hg
    rw [hg]; rfl
  rw [IsNthTrue, ← countTrue, ← nonzero_get, ← gather_kept h, hQ, kept_eq h]
  have ht : t < M.ents.length := by
    have := hpi.1
    rw [h.mults, List.length_map] at this
    exact this
  have hte := List.getElem?_eq_getElem ht
  have hx : x < (compress (M.ents[t]).2 (getSlice1 (M.large.basisPerm sym)
      (legSlice sym M.large (M.ents[t]).1))).length := by
    rw [chunk_length h (List.getElem_mem ht)]
    have := hpi.2.1
    rw [h.mults, List.getD_eq_getElem?_getD, List.getElem?_map, hte] at this
    exact this
  rw [small_mults_eq h, flatMap_get _ _ t x _ hte hx, compress_get]
  have hs := h.ents.shapes _ (List.getElem_mem ht)
  rw [legSlice_eq h.large hs.1]
  constructor
  · intro he
    cases hl : M.data.lookup (t, b) with
    | none => rw [hl] at he; exact absurd he (by simp [maskEntry])
    | some m =>
      rw [hl] at he
      have hm := (lookup_data h hpr t b m).1 hl
      rw [hte] at hm
      have hm' : M.ents[t] = (b, m) := by injection hm
      rw [hm']
      simp only [maskEntry, blockMaskElement, Bool.and_eq_true, beq_iff_eq] at he
      refine ⟨y, ?_, (slice_get_iff _ _ _ _ _).2 ⟨hpj.2.1, hpj.2.2⟩, he.2.symm⟩
      have he1 := he.1
      rw [List.getD_eq_getElem?_getD] at he1
      cases hu : m[y]? with
      | none => rw [hu] at he1; exact absurd he1 (by decide)
      | some c => rw [hu] at he1; exact congrArg some he1
  · rintro ⟨p, h1, h2, h3⟩
    obtain ⟨hp, h4⟩ := (slice_get_iff _ _ _ _ _).1 h2
    have hpos : IsPosition sym M.large j (M.ents[t]).1 p :=
      (isPosition_iff h.large.one hv _ _ _).2 ⟨hs.1, hp, h4⟩
    obtain ⟨b', y', -, -, huniq⟩ := (C26_parse_index sym h.large.dims h.large.drop M.large hv j).2 j
      (isPosition_lt h.large.dims hv hj) (Or.inl rfl)
    obtain ⟨e1, e2⟩ := huniq _ _ hpos
    obtain ⟨e3, e4⟩ := huniq _ _ hj
    have hb : (M.ents[t]).1 = b := e1.trans e3.symm
    have hy : p = y := e2.trans e4.symm
    subst hy
    have hl : M.data.lookup (t, b) = some (M.ents[t]).2 :=
      (lookup_data h hpr t b _).2 (by rw [hte, ← hb])
    rw [hl]
    simp [maskEntry, blockMaskElement, h1, h3]

theorem ents_dagger (M : MaskT S) : M.dagger.ents = M.ents := by
  unfold MaskT.ents MaskT.dagger
  rw [List.map_map]
  apply List.map_congr_left
  intro r _
  cases M.isProjection <;> simp

theorem dagger_dagger (M : MaskT S) : M.dagger.dagger = M := by
  obtain ⟨a, b, c, d⟩ := M
  have : d.map ((fun r : (ℕ × ℕ) × List Bool => ((r.1.2, r.1.1), r.2)) ∘
      fun r => ((r.1.2, r.1.1), r.2)) = d := List.map_id' d
  simp [MaskT.dagger, this]

theorem sane_dagger (h : MaskSane sym M) : MaskSane sym M.dagger := by
  have he := ents_dagger M
  have hb : maskToBlock sym M.dagger = maskToBlock sym M := by
    unfold maskToBlock
    rw [he]
    rfl
  exact {
    large := h.large
    small := h.small
    dual := h.dual
    ents := by rw [he]; exact h.ents
    nonempty := by rw [he]; exact h.nonempty
    rows := by
      have := h.rows
      unfold smallColumn MaskT.dagger at *
      rw [List.map_map, List.length_map, ← this]
      apply List.map_congr_left
      intro r _
      cases M.isProjection <;> simp
    sectors := by rw [he]; exact h.sectors
    mults := by rw [he]; exact h.mults
    perm := by
      have := h.perm
      unfold permOk at *
      rw [hb]
      exact this }

/-- **C37**: the dagger of a mask is consistent and describes the same vector; it is an involution. -/
theorem C37_dagger (h : MaskSane sym M) :
    MaskSane sym M.dagger ∧ asBlockMask sym M.dagger = asBlockMask sym M ∧
    M.dagger.isProjection = !M.isProjection ∧ M.dagger.dagger = M := by
  refine ⟨sane_dagger h, ?_, rfl, dagger_dagger M⟩
  rw [asBlockMask_eq, asBlockMask_eq, ents_dagger]
  rfl

theorem maskEntry_swap (D : MEnts) (t b y x : ℕ) :
    maskEntry ((D.map fun r => ((r.1.2, r.1.1), r.2)).lookup (t, b)) y x =
      maskEntry (D.lookup (b, t)) y x := by
  congr 1
  induction D with
  | nil => rfl
  | cons r D ih =>
    obtain ⟨⟨a, c⟩, m⟩ := r
    rw [List.map_cons, List.lookup_cons, List.lookup_cons, ih]
    have : ((t, b) == (c, a)) = ((b, t) == (a, c)) := by
      rw [Bool.eq_iff_iff]; simp [and_comm]
    rw [this]

/-- **C37**: the entry of a mask at public indices (`M[i, j]`, `i` of the codomain and `j` of the
domain; negative indices were normalized): a projection has entry `True` at `(i, j)` iff `j` is the
position of `True` number `i` of the vector. -/
theorem C37_get_item (h : MaskSane sym M) (i j : ℕ) (hi : i < M.small.dim sym)
    (hj : j < M.large.dim sym) :
    (M.isProjection = true →
      getElementMask sym M i j = some (decide (IsNthTrue (asBlockMask sym M) i j))) ∧
    (M.isProjection = false →
      getElementMask sym M j i = some (decide (IsNthTrue (asBlockMask sym M) i j))) := by
  have hv := h.large.valid M.large (by simp)
  obtain ⟨t, x, hp, hpos, -⟩ :=
    (C26_parse_index sym h.smallOK.dims h.smallOK.drop M.small h.small i).2 i hi (Or.inl rfl)
  obtain ⟨b, y, hq, hqos, -⟩ :=
    (C26_parse_index sym h.large.dims h.large.drop M.large hv j).2 j hj (Or.inl rfl)
  constructor
  · intro hpr
    unfold getElementMask
    rw [if_pos hpr, hp, Option.bind_some, hq, Option.map_some]
    have := maskEntry_iff h hpr hpos hqos
    congr 1
    rw [Bool.eq_iff_iff, this, decide_eq_true_iff]
  · intro hpr
    unfold getElementMask
    rw [if_neg (by simp [hpr]), hq, Option.bind_some, hp, Option.map_some]
    obtain ⟨hd, hvec, -, -⟩ := C37_dagger h
    have := maskEntry_iff hd (by rw [MaskT.dagger]; simp [hpr]) hpos hqos
    rw [hvec] at this
    congr 1
    rw [Bool.eq_iff_iff, decide_eq_true_iff, ← this]
    show _ ↔ maskEntry ((M.data.map fun r => ((r.1.2, r.1.1), r.2)).lookup (t, b)) y x = true
    rw [maskEntry_swap]

end Cyten.Props
