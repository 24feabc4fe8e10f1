import Verif.Props.AbelianDiag

/-!
# C36: conversions of diagonal tensors

The entry of the diagonal at the public basis index `j` of the leg is the one at offset `off` of the
block of sector number `b`, where `IsPosition sym e j b off` (C26).
-/

namespace Cyten.Props
open Cyten.Abelian Cyten.Abelian.Spec Cyten.Tables Cyten.Tools Cyten.ListSum Cyten.Spaces

variable {S K : Type} [LinearOrder S] {sym : Sym S} {e : ESpace S}

theorem legSlice_eq (h : DenseOK sym [e]) {i : ℕ} (hi : i < e.mults.length) :
    legSlice sym e i = ((e.mults.take i).sum, (e.mults.take i).sum + e.mults.getD i 0) := by
  have hv := h.valid e (by simp)
  unfold legSlice
  rw [bounds_getD h.dims h.one hv i hi.le, bounds_getD h.dims h.one hv (i + 1) hi,
    take_sum_succ _ _ _ (List.getElem?_eq_getElem hi), List.getD_eq_getElem?_getD,
    List.getElem?_eq_getElem hi]
  rfl

/-- Each public index is at one position, and vice versa. -/
theorem position_of_lt (h : DenseOK sym [e]) {j : ℕ} (hj : j < e.dim sym) :
    ∃ b off, IsPosition sym e j b off ∧ IsDiagIndex e.mults b off := by
  have hv := h.valid e (by simp)
  obtain ⟨b, off, -, hp, -⟩ := (C26_parse_index sym h.dims h.drop e hv j).2 j hj (Or.inl rfl)
  have := (isPosition_iff h.one hv j b off).1 hp
  exact ⟨b, off, hp, this.1, this.2.1⟩

theorem lt_of_position (h : DenseOK sym [e]) {j b off : ℕ} (hp : IsPosition sym e j b off) :
    j < e.dim sym ∧ IsDiagIndex e.mults b off := by
  have hv := h.valid e (by simp)
  have := (isPosition_iff h.one hv j b off).1 hp
  exact ⟨isPosition_lt h.dims hv hp, this.1, this.2.1⟩

theorem exists_position (h : DenseOK sym [e]) {b off : ℕ} (hp : IsDiagIndex e.mults b off) :
    ∃ j, IsPosition sym e j b off := by
  have hv := h.valid e (by simp)
  have hlt := place_lt hp.1 hp.2
  rw [← dim_eq h.dims h.one hv, ← basisPerm_length h.dims hv] at hlt
  exact ⟨_, (isPosition_iff h.one hv _ b off).2 ⟨hp.1, hp.2, List.getElem?_eq_getElem hlt⟩⟩

private theorem all_perm_lt (h : DenseOK sym [e]) (n : ℕ) :
    (e.basisPerm sym).all (fun i => decide (i < n)) = true ↔ e.dim sym ≤ n := by
  have hv := h.valid e (by simp)
  have hp := (basisPerm_isPerm sym h.dims e hv).1
  rw [IsPerm, basisPerm_length h.dims hv] at hp
  rw [List.all_eq_true]
  constructor
  · intro hall
    by_contra hcon
    have hm : e.dim sym - 1 ∈ e.basisPerm sym := hp.mem_iff.2 (List.mem_range.2 (by omega))
    have := hall _ hm
    simp at this
    omega
  · intro hle i hi
    have := List.mem_range.1 (hp.mem_iff.1 hi)
    simp; omega

private theorem slice_getD [Zero K] (l : List K) (a n x : ℕ) (hx : x < n) :
    (slice l a (a + n)).getD x 0 = l.getD (a + x) 0 := by
  unfold slice
  simp only [List.getD_eq_getElem?_getD, List.getElem?_take, List.getElem?_drop,
    Nat.add_sub_cancel_left, if_pos hx]

private theorem take1_getD [Zero K] (l : List K) (perm : List ℕ) (k j : ℕ)
    (h : perm[k]? = some j) : (take1 l perm).getD k 0 = l.getD j 0 := by
  unfold take1
  rw [List.getD_eq_getElem?_getD, List.getElem?_map, h]
  rfl

/-- **C36**: `from_diag_block` raises iff the array is too short. -/
theorem C36_from_diag_block_raises [Zero K] (h : DenseOK sym [e]) (a : List K) :
    fromDiagBlock sym e a = none ↔ a.length < e.dim sym := by
  unfold fromDiagBlock
  by_cases hc : (e.basisPerm sym).all (fun i => decide (i < a.length)) = true
  · rw [if_pos hc]
    have := (all_perm_lt h a.length).1 hc
    simp; omega
  · rw [if_neg hc]
    simp only [true_iff]
    by_contra hcon
    exact hc ((all_perm_lt h a.length).2 (by omega))

/-- **C36**: `from_diag_block` puts entry `j` of the array at the public basis index `j`. -/
theorem C36_from_diag_block [Zero K] (h : DenseOK sym [e]) (a : List K) (D : DEnts K)
    (hD : fromDiagBlock sym e a = some D) :
    DSane e.mults D ∧ ∀ j b off, IsPosition sym e j b off → diagEntry D b off = a.getD j 0 := by
  have hv := h.valid e (by simp)
  unfold fromDiagBlock at hD
  split at hD
  · cases hD
    set c := take1 a (e.basisPerm sym) with hc
    have hlen : c.length = e.mults.sum := by
      rw [hc, take1, List.length_map, basisPerm_length h.dims hv, dim_eq h.dims h.one hv]
    constructor
    · constructor
      · intro p hp
        obtain ⟨i, hi, rfl⟩ := List.mem_map.1 hp
        have hi' := List.mem_range.1 hi
        refine ⟨hi', ?_⟩
        show (getSlice1 c (legSlice sym e i)).length = e.mults.getD i 0
        rw [legSlice_eq h hi']
        unfold getSlice1 slice
        simp only [List.length_take, List.length_drop, hlen, Nat.add_sub_cancel_left]
        have h1 := take_sum_succ e.mults i _ (List.getElem?_eq_getElem hi')
        have h2 := take_sum_mono e.mults (i + 1) e.mults.length hi'
        rw [List.take_length] at h2
        rw [List.getD_eq_getElem?_getD, List.getElem?_eq_getElem hi', Option.getD_some]
        omega
      · show (List.map Prod.fst (List.map _ _)).Pairwise _
        rw [List.map_map]
        have : (Prod.fst ∘ fun i => (i, getSlice1 c (legSlice sym e i))) = id := rfl
        rw [this, List.map_id]
        exact List.pairwise_lt_range
    · intro j b off hp
      obtain ⟨hb, ho, hj⟩ := (isPosition_iff h.one hv j b off).1 hp
      have hl : (diagonalFromBlock sym e c).lookup b = some (getSlice1 c (legSlice sym e b)) := by
        refine lookup_of_mem (a := diagonalFromBlock sym e c)
          (p := (b, getSlice1 c (legSlice sym e b))) ?_ ?_
        · show (List.map Prod.fst (List.map _ _)).Pairwise _
          rw [List.map_map]
          have : (Prod.fst ∘ fun i => (i, getSlice1 c (legSlice sym e i))) = id := rfl
          rw [this, List.map_id]
          exact List.pairwise_lt_range
        · exact List.mem_map.2 ⟨b, List.mem_range.2 hb, rfl⟩
      unfold diagEntry
      rw [hl, Option.getD_some, legSlice_eq h hb]
      unfold getSlice1
      rw [slice_getD c _ _ _ ho, hc, take1_getD a _ _ j hj]
  · exact absurd hD (by simp)

private theorem setSlice1_spec [Zero K] (res b : List K) (lo n : ℕ) (hb : b.length = n)
    (hn : lo + n ≤ res.length) :
    (setSlice1 res (lo, lo + n) b).length = res.length ∧
    ∀ k, (setSlice1 res (lo, lo + n) b).getD k 0 =
      if lo ≤ k ∧ k < lo + n then b.getD (k - lo) 0 else res.getD k 0 := by
  unfold setSlice1
  have hl : (res.take lo).length = lo := by rw [List.length_take]; omega
  constructor
  · simp only [List.length_append, List.length_take, List.length_drop]
    omega
  · intro k
    simp only [List.getD_eq_getElem?_getD]
    rw [List.append_assoc]
    by_cases h1 : k < lo
    · rw [List.getElem?_append_left (by omega), List.getElem?_take, if_pos h1, if_neg (by omega)]
    · rw [List.getElem?_append_right (by omega), hl]
      by_cases h2 : k - lo < n
      · rw [List.getElem?_append_left (by omega), if_pos (by omega)]
      · rw [List.getElem?_append_right (by omega), if_neg (by omega), hb, List.getElem?_drop,
          show lo + n + (k - lo - n) = k by omega]

/-- The fold of `diagonal_tensor_to_block` and `mask_to_block`. -/
theorem foldl_setSlice1 [Zero K] (h : DenseOK sym [e]) (D : DEnts K)
    (hD : ∀ p ∈ D, p.1 < e.mults.length ∧ p.2.length = e.mults.getD p.1 0)
    (hnd : (D.map Prod.fst).Nodup) (res : List K) (hl : res.length = e.mults.sum) :
    (D.foldl (fun res p => setSlice1 res (legSlice sym e p.1) p.2) res).length = e.mults.sum ∧
    ∀ b off, IsDiagIndex e.mults b off →
      (D.foldl (fun res p => setSlice1 res (legSlice sym e p.1) p.2) res).getD
          ((e.mults.take b).sum + off) 0 =
        match D.lookup b with
        | some u => u.getD off 0
        | none => res.getD ((e.mults.take b).sum + off) 0 := by
  induction D generalizing res with
  | nil => exact ⟨hl, fun _ _ _ => rfl⟩
  | cons p D ih =>
    obtain ⟨hp1, hp2⟩ := hD p List.mem_cons_self
    have hfit : (e.mults.take p.1).sum + e.mults.getD p.1 0 ≤ res.length := by
      rw [hl]
      have h1 := take_sum_succ e.mults p.1 _ (List.getElem?_eq_getElem hp1)
      have h2 := take_sum_mono e.mults (p.1 + 1) e.mults.length hp1
      rw [List.take_length] at h2
      rw [List.getD_eq_getElem?_getD, List.getElem?_eq_getElem hp1, Option.getD_some]
      omega
    obtain ⟨s1, s2⟩ := setSlice1_spec res p.2 (e.mults.take p.1).sum (e.mults.getD p.1 0) hp2 hfit
    rw [List.foldl_cons, legSlice_eq h hp1]
    rw [List.map_cons, List.nodup_cons] at hnd
    obtain ⟨i1, i2⟩ := ih (fun q hq => hD q (List.mem_cons_of_mem _ hq)) hnd.2 _ (s1.trans hl)
    refine ⟨i1, fun b off hb => ?_⟩
    rw [i2 b off hb]
    have hlk : List.lookup b (p :: D) = if b = p.1 then some p.2 else D.lookup b := by
      obtain ⟨j, x⟩ := p
      rw [List.lookup_cons]
      by_cases hbj : b = j
      · simp [hbj]
      · simp [hbj, beq_false_of_ne hbj]
    rw [hlk]
    have hin := take_sum_lt (b' := p.1) hb.1 hp1 hb.2
    rw [take_sum_succ e.mults p.1 _ (List.getElem?_eq_getElem hp1)] at hin
    have hg : e.mults.getD p.1 0 = e.mults[p.1] := by
      rw [List.getD_eq_getElem?_getD, List.getElem?_eq_getElem hp1]; rfl
    by_cases hbp : b = p.1
    · rw [if_pos hbp]
      have hn : D.lookup b = none := by
        rw [lookup_none_iff]
        intro q hq he
        exact hnd.1 (List.mem_map.2 ⟨q, hq, by rw [he, hbp]⟩)
      rw [hn]
      simp only
      rw [s2, if_pos (by rw [hg]; exact hin.2 hbp.symm), hbp, Nat.add_sub_cancel_left]
    · rw [if_neg hbp]
      cases D.lookup b with
      | some u => rfl
      | none =>
        simp only
        rw [s2, if_neg (by rw [hg]; exact fun hc => hbp (hin.1 hc).symm)]

/-- **C36**: `diagonal_as_block` has the entry of the public basis index `j` at position `j`. -/
theorem C36_as_block [Zero K] (h : DenseOK sym [e]) (D : DEnts K) (hD : DSane e.mults D) :
    (diagonalAsBlock sym e D).length = e.dim sym ∧
    ∀ j b off, IsPosition sym e j b off →
      (diagonalAsBlock sym e D).getD j 0 = diagEntry D b off := by
  have hv := h.valid e (by simp)
  have hil := inverseBasisPerm_length h.dims hv
  have hnd : (D.map Prod.fst).Nodup := hD.sorted.imp fun h => Nat.ne_of_lt h
  constructor
  · unfold diagonalAsBlock take1
    rw [List.length_map, hil]
  · intro j b off hp
    have hj := isPosition_lt h.dims hv hp
    have hi := inverseBasisPerm_getD h.dims h.one hv hp
    have hg : (inverseBasisPerm sym e)[j]? = some ((e.mults.take b).sum + off) := by
      rw [← hi, List.getD_eq_getElem?_getD, List.getElem?_eq_getElem (by rw [hil]; exact hj)]
      rfl
    unfold diagonalAsBlock
    rw [take1_getD _ _ _ _ hg]
    unfold diagonalToBlock
    rw [(foldl_setSlice1 h D hD.shapes hnd _ (by simp [zeros1, dim_eq h.dims h.one hv])).2 b off
      (lt_of_position h hp).2]
    unfold diagEntry
    cases D.lookup b with
    | some u => rfl
    | none =>
      simp only [zeros1, List.getD_eq_getElem?_getD, List.getElem?_replicate, Option.getD_none,
        List.getElem?_nil]
      split <;> rfl

/-- **C36**: array to diagonal tensor and back. -/
theorem C36_round_trip_block [Zero K] (h : DenseOK sym [e]) (a : List K)
    (hl : a.length = e.dim sym) :
    ∃ D, fromDiagBlock sym e a = some D ∧ diagonalAsBlock sym e D = a := by
  cases hD : fromDiagBlock sym e a with
  | none =>
    have := (C36_from_diag_block_raises h a).1 hD
    omega
  | some D =>
    refine ⟨D, rfl, ?_⟩
    obtain ⟨h1, h2⟩ := C36_from_diag_block h a D hD
    obtain ⟨h3, h4⟩ := C36_as_block h D h1
    apply List.ext_getElem
    · rw [h3, hl]
    · intro j hj hj'
      obtain ⟨b, off, hp, -⟩ := position_of_lt h (by rw [← hl]; exact hj')
      have := h4 j b off hp
      rw [h2 j b off hp, List.getD_eq_getElem?_getD, List.getD_eq_getElem?_getD,
        List.getElem?_eq_getElem hj, List.getElem?_eq_getElem hj'] at this
      exact this

/-- **C36**: diagonal tensor to array and back: the same entries (with all blocks stored). -/
theorem C36_round_trip_tensor [Zero K] (h : DenseOK sym [e]) (D : DEnts K) (hD : DSane e.mults D) :
    ∃ D', fromDiagBlock sym e (diagonalAsBlock sym e D) = some D' ∧
      ∀ i x, IsDiagIndex e.mults i x → diagEntry D' i x = diagEntry D i x := by
  obtain ⟨h1, h2⟩ := C36_as_block h D hD
  cases hD' : fromDiagBlock sym e (diagonalAsBlock sym e D) with
  | none =>
    have := (C36_from_diag_block_raises h _).1 hD'
    omega
  | some D' =>
    refine ⟨D', rfl, fun i x hix => ?_⟩
    obtain ⟨j, hp⟩ := exists_position h hix
    rw [(C36_from_diag_block h _ D' hD').2 j i x hp, h2 j i x hp]

/-- **C36**: `D[i1, i2]` for indices in range, where a negative index counts from the end (it was
normalized by `__getitem__`): the diagonal entry, zero off the diagonal. -/
theorem C36_get_item [Zero K] (h : DenseOK sym [e]) (D : DEnts K) (hD : DSane e.mults D)
    (i1 i2 : ℕ) (h1 : i1 < e.dim sym) :
    getItemDiagonal sym e D i1 i2 =
      some (if i1 = i2 then (diagonalAsBlock sym e D).getD i1 0 else 0) := by
  have hv := h.valid e (by simp)
  unfold getItemDiagonal
  by_cases hi : i1 = i2
  · subst hi
    rw [if_neg (by simp), if_pos rfl]
    obtain ⟨b, off, hp, hpos, -⟩ := (C26_parse_index sym h.dims h.drop e hv i1).2 i1 h1 (Or.inl rfl)
    unfold getElementDiagonal
    rw [hp, (C36_as_block h D hD).2 i1 b off hpos]
    unfold diagEntry
    cases hl : D.lookup b <;> simp [entry1, hl]
  · rw [if_pos (by exact_mod_cast hi), if_neg hi]

/-! ## Conversion to and from full tensors -/

theorem dense_fullFromDiagonal [AddCommMonoid K] (mults : List ℕ) (D : DEnts K)
    (hD : DSane mults D) (i i' x x' : ℕ) (hx : x < mults.getD i 0) :
    dense (fullFromDiagonal D) [i, i'] [x, x'] =
      if i = i' ∧ x = x' then diagEntry D i x else 0 := by
  have _ := hx
  unfold dense fullFromDiagonal
  rw [List.map_map]
  have hnd : (D.map Prod.fst).Nodup := hD.sorted.imp fun h => Nat.ne_of_lt h
  by_cases hi : i = i'
  · subst hi
    cases hu : D.lookup i with
    | none =>
      rw [sum_zero]
      · simp [diagEntry, hu]
      · intro p hp
        have := lookup_none_iff.1 hu p hp
        simp [this]
    | some u =>
      classical
      rw [sum_single' D (List.Nodup.of_map _ hnd) (i, u) (lookup_mem hu) _ (fun q hq hne => ?_)]
      · simp [Blk.fromDiagonal, diagEntry, hu]
      · simp only [Function.comp]
        rw [if_neg]
        intro he
        apply hne
        have he' : q.1 = i := by simpa using he
        have := lookup_of_mem hD.sorted hq
        rw [he', hu] at this
        cases this
        rw [← he']
  · rw [if_neg (fun hc => hi hc.1), sum_zero]
    intro p hp
    simp only [Function.comp]
    rw [if_neg]
    intro he
    apply hi
    have e1 : p.1 = i := by
      have := congrArg (·.getD 0 0) he; simpa using this
    have e2 : p.1 = i' := by
      have := congrArg (·.getD 1 0) he; simpa using this
    rw [← e1, ← e2]

/-- **C36**: `as_SymmetricTensor` of a diagonal tensor is the diagonal matrix, with consistent
data. -/
theorem C36_full [AddCommMonoid K] (mults : List ℕ) (D : DEnts K) (hD : DSane mults D) :
    Sane [mults, mults] (fullFromDiagonal D) ∧
    ∀ i i' x x', IsIndex [mults, mults] [i, i'] [x, x'] →
      dense (fullFromDiagonal D) [i, i'] [x, x'] =
        if i = i' ∧ x = x' then diagEntry D i x else 0 := by
  constructor
  · refine ⟨?_, ?_, ?_⟩
    · intro p hp
      obtain ⟨q, hq, rfl⟩ := List.mem_map.1 hp
      exact .cons (hD.shapes q hq).1 (.cons (hD.shapes q hq).1 .nil)
    · intro p hp
      obtain ⟨q, hq, rfl⟩ := List.mem_map.1 hp
      simp [Blk.fromDiagonal, shapeOf, (hD.shapes q hq).2]
    · unfold StrictlySorted fullFromDiagonal
      rw [List.map_map, List.pairwise_map]
      have := hD.sorted
      rw [List.pairwise_map] at this
      refine this.imp fun {p q} hpq => (rowLt_key (n := 2) rfl rfl).2 ?_
      exact List.Lex.rel hpq
  · intro i i' x x' hi
    refine dense_fullFromDiagonal mults D hD i i' x x' ?_
    have := hi.2
    rw [show shapeOf [mults, mults] [i, i'] = [mults.getD i 0, mults.getD i' 0] from rfl] at this
    cases this with
    | cons h _ => exact h

theorem sectors_nodup (hv : ValidSpace sym e) (hinj : Function.Injective sym.dual) :
    (e.sectors sym).Nodup := by
  have hd : e.defining.Nodup := hv.sorted.imp fun h => ne_of_lt h
  unfold ESpace.sectors
  split
  · exact hd.map hinj
  · exact hd

/-- **C36**: the charge rule: in a charge conserving tensor with one codomain leg and the same domain
leg, the row of a block is of the form `[i, i]`. -/
theorem C36_charge_rule (R : Cyten.FusionRule S) (hv : ValidSpace sym e)
    (hinj : Function.Injective sym.dual)
    (T : Ents K) (hT : Sane [e.mults, e.mults] T)
    (hc : Conserving R [toBLeg sym e] [toBLeg sym e] T) :
    ∀ p ∈ T, ∃ i, p.1 = [i, i] := by
  intro p hp
  have hlen := sectors_length hv
  have hnd := sectors_nodup hv hinj
  have hr := hT.inRange p hp
  have hcp := hc p hp
  obtain ⟨i, t, hi, ht, he⟩ := List.forall₂_cons_right_iff.1 hr
  obtain ⟨i', t', hi', ht', rfl⟩ := List.forall₂_cons_right_iff.1 ht
  cases ht'
  rw [he] at hcp ⊢
  have h1 : ∀ k (hk : k < (e.sectors sym).length), fusedCharge R [toBLeg sym e] [k] =
      (e.sectors sym)[k] := by
    intro k hk
    simp [fusedCharge, toBLeg, hk, List.reduceOption, Spaces.multipleFusion]
  have : (e.sectors sym)[i]'(by omega) = (e.sectors sym)[i']'(by omega) := by
    rw [← h1, ← h1]; exact hcp
  exact ⟨i, by rw [(List.Nodup.getElem_inj_iff hnd).1 this]⟩

/-- The condition of `np.allclose` in `get_diagonal`: off the diagonal all entries are small. -/
private theorem isDiagonal_iff (small : K → Bool) (b : Blk K) (m n : ℕ) (hb : b.shape = [m, n]) :
    b.isDiagonal small = true ↔ ∀ x < m, ∀ y < n, x ≠ y → small (b.val [x, y]) = true := by
  unfold Blk.isDiagonal
  rw [List.all_eq_true, hb]
  constructor
  · intro h x hx y hy hne
    have := h [x, y] ((mem_gridC _ _).2 (.cons hx (.cons hy .nil)))
    simpa [hne] using this
  · intro h pos hpos
    obtain ⟨x, t, hx, ht, rfl⟩ := List.forall₂_cons_right_iff.1 ((mem_gridC _ _).1 hpos)
    obtain ⟨y, t', hy, ht', rfl⟩ := List.forall₂_cons_right_iff.1 ht
    cases ht'
    by_cases hxy : x = y
    · simp [hxy]
    · simp [hxy, h x hx y hy hxy]

private theorem block_shape {mults : List ℕ} {T : Ents K} (hT : Sane [mults, mults] T)
    {p : List ℕ × Blk K} (hp : p ∈ T) {i : ℕ} (hi : p.1 = [i, i]) :
    i < mults.length ∧ p.2.shape = [mults.getD i 0, mults.getD i 0] := by
  have h1 := hT.inRange p hp
  have h2 := hT.shapes p hp
  rw [hi] at h1 h2
  refine ⟨?_, h2⟩
  cases h1 with
  | cons h _ => exact h

theorem mapM_isSome_iff {α β : Type} (f : α → Option β) (l : List α) :
    (l.mapM f).isSome ↔ ∀ x ∈ l, (f x).isSome := by
  induction l with
  | nil => simp
  | cons x l ih =>
    rw [List.mapM_cons, List.forall_mem_cons, ← ih]
    cases f x with
    | none => simp
    | some y => cases l.mapM f <;> simp

theorem mapM_forall₂ {α β : Type} {f : α → Option β} {l : List α} {r : List β}
    (h : l.mapM f = some r) : List.Forall₂ (fun x y => f x = some y) l r := by
  induction l generalizing r with
  | nil => simp at h; subst h; exact .nil
  | cons x l ih =>
    rw [List.mapM_cons] at h
    cases hx : f x with
    | none => simp [hx] at h
    | some y =>
      cases hl : l.mapM f with
      | none => simp [hx, hl] at h
      | some ys =>
        simp [hx, hl] at h
        subst h
        exact .cons hx (ih hl)

/-- **C36**: `DiagonalTensor.from_tensor` with `check_offdiagonal`: it raises exactly if some entry of
the tensor off the diagonal is not small. -/
theorem C36_from_full_raises [AddCommMonoid K] (mults : List ℕ) (T : Ents K)
    (hT : Sane [mults, mults] T) (hdiag : ∀ p ∈ T, ∃ i, p.1 = [i, i]) (small : K → Bool)
    (h0 : small 0 = true) :
    (diagonalFromFull (some small) T).isSome ↔
      ∀ i x y, IsDiagIndex mults i x → IsDiagIndex mults i y → x ≠ y →
        small (dense T [i, i] [x, y]) = true := by
  unfold diagonalFromFull
  rw [mapM_isSome_iff]
  simp only [Option.isSome_map, Blk.getDiagonal]
  constructor
  · intro h i x y hx hy hne
    by_cases hm : ∃ p ∈ T, p.1 = [i, i]
    · obtain ⟨p, hp, hpi⟩ := hm
      have hs := block_shape hT hp hpi
      have hd : p.2.isDiagonal small = true := by
        have := h p hp
        split at this <;> simp_all
      rw [← hpi, hT.dense_of_mem hp]
      exact (isDiagonal_iff small p.2 _ _ hs.2).1 hd x hx.2 y hy.2 hne
    · rw [dense_of_not_mem (fun p hp he => hm ⟨p, hp, he⟩)]
      exact h0
  · intro h p hp
    obtain ⟨i, hpi⟩ := hdiag p hp
    have hs := block_shape hT hp hpi
    rw [if_pos]
    · rfl
    · refine (isDiagonal_iff small p.2 _ _ hs.2).2 fun x hx y hy hne => ?_
      have := h i x y ⟨hs.1, hx⟩ ⟨hs.1, hy⟩ hne
      rwa [← hpi, hT.dense_of_mem hp] at this

/-- **C36**: `DiagonalTensor.from_tensor` has the diagonal entries of the tensor, whether or not the
entries off the diagonal are checked, and consistent data. -/
theorem C36_from_full [AddCommMonoid K] (mults : List ℕ) (T : Ents K)
    (hT : Sane [mults, mults] T) (hdiag : ∀ p ∈ T, ∃ i, p.1 = [i, i])
    (small : Option (K → Bool)) (D : DEnts K) (h : diagonalFromFull small T = some D) :
    DSane mults D ∧
    ∀ i x, IsDiagIndex mults i x → diagEntry D i x = dense T [i, i] [x, x] := by
  have hf := mapM_forall₂ h
  have hget : ∀ p : List ℕ × Blk K, ∀ q : ℕ × List K,
      (p.2.getDiagonal small).map (fun d => (p.1.getD 0 0, d)) = some q →
      q = (p.1.getD 0 0, p.2.diagonal) := by
    intro p q hq
    unfold Blk.getDiagonal at hq
    cases small with
    | none => simpa using hq.symm
    | some s =>
      simp only at hq
      split at hq
      · simpa using hq.symm
      · simp at hq
  have hDe : D = T.map fun p => (p.1.getD 0 0, p.2.diagonal) := by
    clear h hdiag hT
    induction hf with
    | nil => rfl
    | cons hx _ ih => rw [List.map_cons, ← ih, hget _ _ hx]
  have hDS : DSane mults D := by
    subst hDe
    constructor
    · intro q hq
      obtain ⟨p, hp, rfl⟩ := List.mem_map.1 hq
      obtain ⟨i, hpi⟩ := hdiag p hp
      have hs := block_shape hT hp hpi
      refine ⟨by simpa [hpi] using hs.1, ?_⟩
      simp [Blk.diagonal, hs.2, hpi]
    · have := hT.sorted
      unfold StrictlySorted at this
      rw [List.map_map, List.pairwise_map]
      rw [List.pairwise_map] at this
      refine List.Pairwise.imp_of_mem (fun {p q} hp hq hpq => ?_) this
      obtain ⟨i, hpi⟩ := hdiag p hp
      obtain ⟨j, hqj⟩ := hdiag q hq
      rw [hpi, hqj] at hpq
      have := (rowLt_key (n := 2) rfl rfl).1 hpq
      simp only [Function.comp, hpi, hqj]
      have h2 : [i, i] < [j, j] := by simpa using this
      simp only [List.getD_cons_zero]
      rcases List.cons_lt_cons_iff.1 h2 with h | ⟨h, h'⟩
      · exact h
      · subst h
        exact absurd h' (lt_irrefl _)
  refine ⟨hDS, fun i x hix => ?_⟩
  by_cases hm : ∃ p ∈ T, p.1 = [i, i]
  · obtain ⟨p, hp, hpi⟩ := hm
    have hs := block_shape hT hp hpi
    rw [← hpi, hT.dense_of_mem hp]
    have hq : (i, p.2.diagonal) ∈ D := by
      rw [hDe]
      exact List.mem_map.2 ⟨p, hp, by simp [hpi]⟩
    unfold diagEntry
    rw [lookup_of_mem hDS.sorted hq]
    have hx := hix.2
    rw [Option.getD_some, Blk.diagonal, hs.2, List.getD_eq_getElem?_getD, List.getElem?_map,
      List.getElem?_range (by simpa using hx)]
    rfl
  · rw [dense_of_not_mem (fun p hp he => hm ⟨p, hp, he⟩)]
    have : D.lookup i = none := by
      rw [lookup_none_iff]
      intro q hq hqi
      rw [hDe] at hq
      obtain ⟨p, hp, rfl⟩ := List.mem_map.1 hq
      obtain ⟨k, hpk⟩ := hdiag p hp
      exact hm ⟨p, hp, by simp [hpk] at hqi; rw [hpk, hqi]⟩
    simp [diagEntry, this]

/-- **C36**: `as_SymmetricTensor` and back is the identity. -/
theorem C36_full_round_trip [AddCommMonoid K] (mults : List ℕ) (D : DEnts K) (hD : DSane mults D)
    (small : K → Bool) (h0 : small 0 = true) :
    diagonalFromFull (some small) (fullFromDiagonal D) = some D := by
  unfold diagonalFromFull fullFromDiagonal
  clear hD
  induction D with
  | nil => rfl
  | cons p D ih =>
    rw [List.map_cons, List.mapM_cons, ih]
    have hd : (Blk.fromDiagonal p.2).isDiagonal small = true := by
      refine (isDiagonal_iff small _ p.2.length p.2.length rfl).2 fun x _ y _ hne => ?_
      simp [Blk.fromDiagonal, hne, h0]
    have hg : (Blk.fromDiagonal p.2).diagonal = p.2 := by
      refine List.ext_getElem (by simp [Blk.diagonal, Blk.fromDiagonal]) fun k h1 h2 => ?_
      simp [Blk.diagonal, Blk.fromDiagonal, h2]
    simp [Blk.getDiagonal, hd, hg]

/-! ## A concrete case -/

/-- a diagonal tensor on `denseLeg` with entries in the second sector only -/
def diagExample : DEnts ℤ := [(1, [3, 5])]

theorem dsane_diagExample : DSane denseLeg.mults diagExample :=
  ⟨by intro p hp; have : p = (1, [3, 5]) := by simpa [diagExample] using hp
      subst this; decide, by decide⟩

/-- The public order of the basis differs from the order of the blocks. -/
theorem C36_example :
    diagonalAsBlock exU1 denseLeg diagExample = [3, 5, 0] ∧
    fromDiagBlock exU1 denseLeg [3, 5, (0 : ℤ)] = some [(0, [0]), (1, [3, 5])] ∧
    getItemDiagonal exU1 denseLeg diagExample 1 1 = some 5 ∧
    diagonalMax denseLeg.mults [(1, [-3, (-5 : ℤ)])] = some 0 ∧
    elementwiseBinary denseLeg.mults (List.zipWith (· + ·)) false diagExample [(0, [(7 : ℤ)])] =
      [(0, [7]), (1, [3, 5])] := by
  decide +kernel

end Cyten.Props
