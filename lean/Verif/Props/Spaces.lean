import Verif.Lemmas.Spaces2
import Verif.Props.Tools
import Mathlib.Algebra.Order.Ring.Int

/-!
# C25 (construction of spaces), C26 (`parse_index`)

Specification vocabulary in `Verif.Spec.Spaces`: `multOf` (total multiplicity of a sector),
`totalDim`, `states` (the states of the internal basis), `publicStates` (pairs of public basis index
and state).
-/

namespace Cyten.Props
open Cyten.Tools Cyten.Tables Cyten.Spaces Cyten.Spaces.Spec

set_option linter.unusedSectionVars false

variable {S : Type} [LinearOrder S]

/-- What holds for the dimensions of every symmetry: positive, those of dual sectors agree, and
those of abelian symmetries are 1 (C07, C08, C10, C12). -/
structure DimOK (sym : Sym S) : Prop where
  pos : ∀ s, 0 < sym.dim s
  dual : ∀ s, sym.dim (sym.dual s) = sym.dim s
  abelian : sym.isAbelian = true → ∀ s, sym.dim s = 1

/-- The invariant of spaces (`ElementarySpace::test_sanity`). -/
structure ValidSpace (sym : Sym S) (e : ESpace S) : Prop where
  lengths : e.mults.length = e.defining.length
  sorted : e.defining.Pairwise (· < ·)
  perm : ∀ p, e.perm = some p → p.Perm (List.range (totalDim sym.dim e.defining e.mults))

theorem numStates_sum (sym : Sym S) (sectors : List S) (mults : List ℕ) :
    (numStates sym sectors mults).sum = totalDim sym.dim sectors mults := by
  unfold numStates totalDim
  rw [← List.map_uncurry_zip_eq_zipWith]
  rfl

private theorem totalDim_dual (sym : Sym S) (hd : DimOK sym) (sectors : List S) (mults : List ℕ) :
    numStates sym (sectors.map sym.dual) mults = numStates sym sectors mults := by
  unfold numStates
  rw [List.zipWith_map_left]
  simp only [hd.dual]

private theorem numStates_sectors (sym : Sym S) (hd : DimOK sym) (e : ESpace S) :
    numStates sym (e.sectors sym) e.mults = numStates sym e.defining e.mults := by
  unfold ESpace.sectors
  split
  · exact totalDim_dual sym hd _ _
  · rfl

theorem C25_dim (sym : Sym S) (hd : DimOK sym) (e : ESpace S) :
    e.dim sym = totalDim sym.dim e.defining e.mults := by
  unfold ESpace.dim
  rw [numStates_sectors sym hd, numStates_sum]

private theorem multOf_map {β : Type} (l : List β) (key : β → S) (m : β → ℕ) (s : S) :
    multOf (l.map key) (l.map m) s = (l.map fun x => (if key x = s then 1 else 0) * m x).sum := by
  unfold multOf
  rw [List.zip_map', List.map_map]
  congr 1
  apply List.map_congr_left
  intro x _
  simp only [Function.comp_apply]
  split_ifs <;> simp

private theorem totalDim_map {β : Type} (dim : S → ℕ) (l : List β) (key : β → S) (m : β → ℕ) :
    totalDim dim (l.map key) (l.map m) = (l.map fun x => dim (key x) * m x).sum := by
  unfold totalDim
  rw [List.zip_map', List.map_map]
  rfl

private theorem merged_pairs {β : Type} (key : β → S) (m : β → ℕ) (l : List β) (w : S → ℕ) :
    ((merged key m (runsOf key (sortBy key l))).map fun p => w p.1 * p.2).sum =
      (l.map fun x => w (key x) * m x).sum := by
  rw [merged_sum]
  exact ((sortBy_perm key l).map _).sum_eq

/-- **C25**: `from_defining_sectors` fails exactly if the lengths do not agree or a `basis_perm` is
given for a symmetry without basis. -/
theorem C25_from_defining_sectors_raises (sym : Sym S) (sectors : List S) (mults : Option (List ℕ))
    (isDual : Bool) (perm : Option (List ℕ)) (unique : Bool) :
    ESpace.fromDefiningSectors sym sectors mults isDual perm unique = none ↔
      (∃ m, mults = some m ∧ m.length ≠ sectors.length) ∨ (sym.canDrop = false ∧ perm.isSome) := by
  unfold ESpace.fromDefiningSectors
  cases mults with
  | none =>
    simp only [Option.getD_none, List.length_replicate, ne_eq, not_true, if_false, reduceCtorEq,
      false_and, exists_false, false_or]
    split_ifs with h1 h2
    · simp_all
    · simp_all
    · simp_all
  | some m =>
    simp only [Option.getD_some, Option.some.injEq, exists_eq_left']
    split_ifs with h1 h2
    · simp [h1]
    · simp_all
    · simp_all
    · simp_all

/-- **C25**: what `from_defining_sectors` builds.  The sectors of the result are sorted and
distinct, every sector keeps its total multiplicity and the dimension is kept.  If the symmetry has
a basis, the stored permutation is a permutation and *the public basis is unchanged*: the public
index `j` belongs to the same sector and the same state of the multiplet as in the arguments. -/
theorem C25_from_defining_sectors (sym : Sym S) (hd : DimOK sym) (sectors : List S)
    (mults : Option (List ℕ)) (isDual : Bool) (perm : Option (List ℕ)) (unique : Bool)
    (e : ESpace S) (hu : unique = true → sectors.Nodup)
    (hperm : ∀ p, perm = some p → p.Perm (List.range (totalDim sym.dim sectors
      (mults.getD (List.replicate sectors.length 1)))))
    (h : ESpace.fromDefiningSectors sym sectors mults isDual perm unique = some e) :
    let ms := mults.getD (List.replicate sectors.length 1)
    ValidSpace sym e ∧ e.isDual = isDual ∧
    (∀ s, multOf e.defining e.mults s = multOf sectors ms s) ∧
    totalDim sym.dim e.defining e.mults = totalDim sym.dim sectors ms ∧
    (sym.canDrop = true → ∃ p, e.perm = some p ∧
      (publicStates sym.dim e.defining e.mults p).Perm
        (publicStates sym.dim sectors ms (perm.getD (List.range (totalDim sym.dim sectors ms))))) ∧
    (sym.canDrop = false → e.perm = none) := by
  intro ms
  unfold ESpace.fromDefiningSectors at h
  change (if ms.length ≠ sectors.length then none else _) = _ at h
  by_cases hl : ms.length ≠ sectors.length
  · rw [if_pos hl] at h; cases h
  rw [if_neg hl] at h
  rw [not_not] at hl
  by_cases hc : (!sym.canDrop && perm.isSome) = true
  · rw [if_pos hc] at h; cases h
  rw [if_neg hc] at h
  set P := perm.getD (List.range (totalDim sym.dim sectors ms)) with hP
  have hPp : P.Perm (List.range (totalDim sym.dim sectors ms)) := by
    cases perm with
    | none => exact List.Perm.refl _
    | some p => exact hperm p rfl
  have hPl : P.length = (numStates sym sectors ms).sum := by
    rw [numStates_sum]; simpa using hPp.length_eq
  obtain ⟨E, h1, h2, h3, hok⟩ := exists_entries sym sectors ms P hl hPl
  have hsp : ESpace.sortedPerm sym sectors ms perm (lexsortIndices sectors) =
      (sortBy (·.s) E).flatMap (·.c) := by
    have : ESpace.sortedPerm sym sectors ms perm (lexsortIndices sectors) =
        ESpace.sortedPerm sym sectors ms (some P) (lexsortIndices sectors) := by
      cases perm with
      | none =>
        rw [sortedPerm_none, numStates_sum]; rfl
      | some p => rfl
    rw [this, ← h1, ← h2, ← h3]
    exact sortedPerm_entries sym E hok
  have hok' : ∀ x ∈ sortBy (·.s) E, x.ok sym.dim :=
    fun x hx => hok x ((sortBy_perm _ E).mem_iff.1 hx)
  have hss := sortSectors_map E (·.s) (·.m)
  rw [h1, h2] at hss
  rw [hss] at h
  simp only [show mults.getD (List.replicate sectors.length 1) = ms from rfl, hsp] at h
  have hstates : (entryStates sym.dim (sortBy (·.s) E)).Perm (publicStates sym.dim sectors ms P) := by
    rw [← h1, ← h2, ← h3, publicStates_entries sym.dim E hok]
    unfold entryStates
    exact (sortBy_perm _ E).flatMap_right _
  -- the result: some list of sectors with multiplicities, and some permutation
  have key : ∀ (M : List (S × ℕ)) (Q : List ℕ),
      (∀ w : S → ℕ, (M.map fun p => w p.1 * p.2).sum = (E.map fun x => w x.s * x.m).sum) →
      (M.map Prod.fst).Pairwise (· < ·) →
      (publicStates sym.dim (M.map Prod.fst) (M.map Prod.snd) Q).Perm
        (publicStates sym.dim sectors ms P) → Q.length = P.length →
      e = ⟨M.map Prod.fst, M.map Prod.snd, isDual, if sym.canDrop then some Q else none⟩ →
      ValidSpace sym e ∧ e.isDual = isDual ∧
      (∀ s, multOf e.defining e.mults s = multOf sectors ms s) ∧
      totalDim sym.dim e.defining e.mults = totalDim sym.dim sectors ms ∧
      (sym.canDrop = true → ∃ p, e.perm = some p ∧
        (publicStates sym.dim e.defining e.mults p).Perm (publicStates sym.dim sectors ms P)) ∧
      (sym.canDrop = false → e.perm = none) := by
    intro M Q hw hsort hst hlen he
    subst he
    have hmul : ∀ s, multOf (M.map Prod.fst) (M.map Prod.snd) s = multOf sectors ms s := by
      intro s
      rw [multOf_map, ← h1, ← h2, multOf_map]
      exact hw fun t => if t = s then 1 else 0
    have hdim : totalDim sym.dim (M.map Prod.fst) (M.map Prod.snd) = totalDim sym.dim sectors ms := by
      rw [totalDim_map, ← h1, ← h2, totalDim_map]
      exact hw sym.dim
    refine ⟨⟨by simp, hsort, ?_⟩, rfl, hmul, hdim, ?_, ?_⟩
    · intro p hp
      simp only at hp ⊢
      split_ifs at hp with hcd
      cases hp
      rw [hdim]
      have hst' : (states sym.dim (M.map Prod.fst) (M.map Prod.snd)).length = Q.length := by
        rw [hlen, hPl, numStates_sum, ← hdim]
        unfold states totalDim
        rw [List.length_flatMap]
        simp only [length_block]
      have hst'' : (states sym.dim sectors ms).length = P.length := by
        rw [hPl, numStates_sum]
        unfold states totalDim
        rw [List.length_flatMap]
        simp only [length_block]
      have := hst.map Prod.fst
      unfold publicStates at this
      rw [List.map_fst_zip (by omega), List.map_fst_zip (by omega)] at this
      exact this.trans hPp
    · intro hcd
      exact ⟨Q, by simp [hcd], hst⟩
    · intro hcd
      simp [hcd]
  have hQl : ((sortBy (·.s) E).flatMap (·.c)).length = P.length := by
    rw [← h3]; exact ((sortBy_perm _ E).flatMap_right _).length_eq
  by_cases hun : unique = true
  · rw [if_pos hun] at h
    -- no duplicates: only sorting
    have hnd : (E.map (·.s)).Nodup := by rw [h1]; exact hu hun
    injection h with h
    refine key ((sortBy (·.s) E).map fun x => (x.s, x.m)) ((sortBy (·.s) E).flatMap (·.c)) ?_ ?_ ?_
      hQl ?_
    · intro w
      rw [List.map_map]
      exact ((sortBy_perm (·.s) E).map fun x => w x.s * x.m).sum_eq
    · rw [List.map_map]
      have hs := sortBy_sorted (·.s) E
      have hnd' : ((sortBy (·.s) E).map (·.s)).Nodup := ((sortBy_perm _ E).map _).nodup_iff.2 hnd
      have := List.Pairwise.and (List.pairwise_map.2 hs) hnd'
      exact this.imp fun h => lt_of_le_of_ne h.1 h.2
    · rw [List.map_map, List.map_map]
      exact (publicStates_entries sym.dim _ hok') ▸ hstates
    · rw [← h]
      simp [Function.comp_def]
  · rw [if_neg hun] at h
    injection h with h
    set R := (runsOf (·.s) (sortBy (·.s) E)).flatMap fun g => match g.head? with
        | none => []
        | some e => ESpace.regroup (sym.dim e.s) (g.map fun e => (e.m, e.c)) with hR
    have hreg : ESpace.regroupRuns sym ((sortBy (·.s) E).map (·.s)) ((sortBy (·.s) E).map (·.m))
        ((sortBy (·.s) E).flatMap (·.c)) = R := regroupRuns_entries sym _ hok'
    have hRl : R.length = P.length := by
      rw [← hQl, hR]
      have hfl := runsOf_flatten (·.s) (sortBy (·.s) E)
      conv_rhs => rw [← hfl, List.flatten_eq_flatMap, List.flatMap_assoc]
      rw [List.length_flatMap, List.length_flatMap]
      congr 1
      apply List.map_congr_left
      intro g hg
      cases g with
      | nil => rfl
      | cons x g =>
        simp only [List.head?_cons]
        have hkey := runsOf_key (·.s) (sortBy (·.s) E) _ hg
        have hokg : ∀ y ∈ x :: g, y.ok sym.dim := fun y hy => hok' y (by
          rw [← hfl]; exact List.mem_flatten.2 ⟨_, hg, hy⟩)
        rw [(regroup_states sym.dim x.s (x :: g)
          (fun y hy => hkey y hy x List.mem_cons_self) hokg).1]
        rw [List.length_flatMap]
        rw [← sum_map_mul_nat]
        congr 1
        apply List.map_congr_left
        intro y hy
        show _ = y.c.length
        rw [hokg y hy, hkey y hy x List.mem_cons_self]
    refine key (merged (·.s) (·.m) (runsOf (·.s) (sortBy (·.s) E))) R (merged_pairs _ _ E)
      (merged_sorted _ _ _ (sortBy_sorted _ E)) ?_ hRl ?_
    · exact (regroup_runs_states sym.dim _ hok').trans hstates
    · rw [← h, mergeRuns_merged]
      simp only [ESpace.mk.injEq, true_and]
      by_cases hcd : sym.canDrop = true
      · simp only [hcd, if_true, Option.map_some, hreg]
        split_ifs with hab
        · exact congrArg some (regroup_one sym _ hok' (hd.abelian hab)).symm
        · rfl
      · simp [hcd]

theorem gather_getElem? {α : Type} (l : List α) (idx : List ℕ) (h : ∀ i ∈ idx, i < l.length)
    (k : ℕ) : (gather l idx)[k]? = idx[k]?.bind fun i => l[i]? := by
  induction idx generalizing k with
  | nil => simp [gather]
  | cons i idx ih =>
    have h1 := List.getElem?_eq_getElem (h i List.mem_cons_self)
    simp only [gather, List.filterMap_cons, h1]
    cases k with
    | zero => simp [h1]
    | succ k =>
      simp only [List.getElem?_cons_succ]
      exact ih (fun j hj => h j (List.mem_cons_of_mem _ hj)) k

private theorem block_map_fst (dim : S → ℕ) (s : S) (m : ℕ) :
    (block dim s m).map Prod.fst = List.replicate (dim s * m) s := by
  apply List.eq_replicate_iff.2
  refine ⟨by simp, ?_⟩
  intro t ht
  obtain ⟨p, hp, rfl⟩ := List.mem_map.1 ht
  obtain ⟨k, -, hk⟩ := List.mem_flatMap.1 hp
  rw [(List.mem_replicate.1 hk).2]

private theorem states_map_fst (sym : Sym S) (sectors : List S) (mults : List ℕ)
    (hl : mults.length = sectors.length) :
    (List.zipWith (fun s n => List.replicate n s) sectors (numStates sym sectors mults)).flatten =
      (states sym.dim sectors mults).map Prod.fst := by
  induction sectors generalizing mults with
  | nil => simp [states]
  | cons s sectors ih =>
    cases mults with
    | nil => simp at hl
    | cons m mults =>
      have := ih mults (by simpa using hl)
      simp only [numStates, states, List.zipWith_cons_cons, List.flatten_cons, List.zip_cons_cons,
        List.flatMap_cons, List.map_append, block_map_fst] at this ⊢
      rw [this]

theorem length_states (dim : S → ℕ) (sectors : List S) (mults : List ℕ) :
    (states dim sectors mults).length = totalDim dim sectors mults := by
  unfold states totalDim
  rw [List.length_flatMap]
  simp only [length_block]

private theorem length_sectors (sym : Sym S) (e : ESpace S) :
    (e.sectors sym).length = e.defining.length := by
  unfold ESpace.sectors; split <;> simp

theorem totalDim_sectors (sym : Sym S) (hd : DimOK sym) (e : ESpace S) :
    totalDim sym.dim (e.sectors sym) e.mults = totalDim sym.dim e.defining e.mults := by
  rw [← numStates_sum, ← numStates_sum, numStates_sectors sym hd]

private theorem basisPerm_perm (sym : Sym S) (hd : DimOK sym) (e : ESpace S) (hv : ValidSpace sym e) :
    (e.basisPerm sym).Perm (List.range (totalDim sym.dim e.defining e.mults)) := by
  unfold ESpace.basisPerm
  cases h : e.perm with
  | none => rw [C25_dim sym hd]
  | some p => exact hv.perm p h

theorem basisPerm_isPerm (sym : Sym S) (hd : DimOK sym) (e : ESpace S)
    (hv : ValidSpace sym e) : IsPerm (e.basisPerm sym) ∧
      (e.basisPerm sym).length = totalDim sym.dim e.defining e.mults := by
  have := basisPerm_perm sym hd e hv
  have hl : (e.basisPerm sym).length = totalDim sym.dim e.defining e.mults := by
    simpa using this.length_eq
  exact ⟨by unfold IsPerm; rw [hl]; exact this, hl⟩

/-- position of a public index in the internal basis -/
theorem inverse_lookup (sym : Sym S) (hd : DimOK sym) (e : ESpace S)
    (hv : ValidSpace sym e) (i j : ℕ) (h : (e.basisPerm sym)[i]? = some j) :
    e.internalIndex j = i := by
  obtain ⟨hp, hl⟩ := basisPerm_isPerm sym hd e hv
  unfold ESpace.internalIndex ESpace.inversePerm
  unfold ESpace.basisPerm at h hp
  cases he : e.perm with
  | none =>
    rw [he] at h
    simp only [Option.map_none] at h ⊢
    obtain ⟨h1, h2⟩ := List.getElem?_eq_some_iff.1 h
    simpa using h2.symm
  | some p =>
    rw [he] at h hp
    simp only [Option.map_some] at h ⊢
    have := (C21_inverse_permutation p hp).2.2.1 i j h
    simp [List.getD_eq_getElem?_getD, this]

/-- **C25**: `sectors_of_basis` lists, for every public basis index, the sector of the state
there; it raises exactly if the symmetry has no basis. -/
theorem C25_sectors_of_basis (sym : Sym S) (hd : DimOK sym) (e : ESpace S)
    (hv : ValidSpace sym e) :
    (sym.canDrop = false → e.sectorsOfBasis sym = none) ∧
    (sym.canDrop = true → ∃ L, e.sectorsOfBasis sym = some L ∧ L.length = e.dim sym ∧
      ∀ j st, (j, st) ∈ publicStates sym.dim (e.sectors sym) e.mults (e.basisPerm sym) →
        L[j]? = some st.1) := by
  constructor
  · intro h; simp [ESpace.sectorsOfBasis, h]
  intro hcd
  have hlen : e.mults.length = (e.sectors sym).length := by rw [length_sectors]; exact hv.lengths
  obtain ⟨hbp, hbl⟩ := basisPerm_isPerm sym hd e hv
  unfold ESpace.sectorsOfBasis
  simp only [hcd, if_true]
  rw [states_map_fst sym _ _ hlen]
  set st := states sym.dim (e.sectors sym) e.mults with hst
  have hsl : st.length = totalDim sym.dim e.defining e.mults := by
    rw [hst, length_states, totalDim_sectors sym hd]
  have hmem : ∀ j s, (j, s) ∈ publicStates sym.dim (e.sectors sym) e.mults (e.basisPerm sym) →
      ∃ i : ℕ, (e.basisPerm sym)[i]? = some j ∧ st[i]? = some s := by
    intro j s h
    obtain ⟨i, hi⟩ := List.mem_iff_getElem?.1 h
    exact ⟨i, List.getElem?_zip_eq_some.1 hi⟩
  unfold ESpace.basisPerm at hbp hbl hmem ⊢
  unfold ESpace.inversePerm
  cases he : e.perm with
  | none =>
    rw [he] at hmem
    refine ⟨_, rfl, ?_, ?_⟩
    · rw [List.length_map, hsl, C25_dim sym hd]
    · intro j s h
      obtain ⟨i, h1, h2⟩ := hmem j s h
      obtain ⟨h3, h4⟩ := List.getElem?_eq_some_iff.1 h1
      simp at h4
      subst h4
      simp [h2]
  | some p =>
    rw [he] at hmem hbp hbl
    simp only at hbp hbl hmem
    simp only [Option.map_some]
    obtain ⟨hip, hil, h1, -, -⟩ := C21_inverse_permutation p hbp
    have hrange : ∀ i ∈ inversePermutation p, i < (st.map Prod.fst).length := by
      intro i hi
      have := hip.mem_iff.1 hi
      rw [hil, hbl] at this
      rw [List.length_map, hsl]
      simpa using this
    refine ⟨_, rfl, ?_, ?_⟩
    · rw [C25_dim sym hd, ← hbl, ← hil]
      have : ∀ idx : List ℕ, (∀ i ∈ idx, i < (st.map Prod.fst).length) →
          (gather (st.map Prod.fst) idx).length = idx.length := by
        intro idx
        induction idx with
        | nil => intro _; rfl
        | cons i idx ih =>
          intro h
          have h1 := List.getElem?_eq_getElem (h i List.mem_cons_self)
          simp only [gather, List.filterMap_cons, h1, List.length_cons]
          exact congrArg _ (ih fun j hj => h j (List.mem_cons_of_mem _ hj))
      exact this _ hrange
    · intro j s h
      obtain ⟨i, h2, h3⟩ := hmem j s h
      rw [gather_getElem? _ _ hrange, h1 i j h2]
      simp [h3]

/-! ## `from_basis` -/

private theorem runs_replicate (l : List S) :
    ∀ g ∈ runsOf id l, ∀ s, g.head? = some s → g = List.replicate g.length s := by
  intro g hg s hs
  refine List.eq_replicate_iff.2 ⟨rfl, fun b hb => ?_⟩
  exact runsOf_key id l g hg b hb s (List.mem_of_mem_head? (Option.mem_def.2 hs))

/-- `(sector, number of occurrences)` for each run -/
private def runCounts (l : List S) : List (S × ℕ) :=
  (runsOf id l).filterMap fun g => g.head?.map fun s => (s, g.length)

private theorem runs_counts (l : List S) :
    (consecutive (findRowDifferences l true)).filterMap (fun r => l[r.1]?) =
      (runCounts l).map Prod.fst ∧
    (consecutive (findRowDifferences l true)).map (fun r => r.2 - r.1) =
      (runCounts l).map Prod.snd := by
  have h0 := runsOf_heads id l
  have h1 := slices_eq_runs id l
  rw [List.map_id] at h0 h1
  have hne := runsOf_ne_nil id l
  constructor
  · rw [h0]
    unfold runCounts
    rw [List.map_filterMap]
    congr 1
    funext g
    cases g <;> simp
  · have hl : (consecutive (findRowDifferences l true)).map (fun r => r.2 - r.1) =
        (runsOf id l).map List.length := by
      rw [← h1, List.map_map]
      apply List.map_congr_left
      intro r hr
      have := consecutive_range l id r (by rwa [List.map_id])
      simp only [Function.comp_apply]
      rw [length_slice _ _ _ this.2]
    rw [hl]
    unfold runCounts
    clear h0 h1 hl
    generalize runsOf id l = gs at hne
    induction gs with
    | nil => rfl
    | cons g gs ih =>
      cases g with
      | nil => exact absurd rfl (hne [] List.mem_cons_self)
      | cons x g =>
        simp only [List.filterMap_cons, List.head?_cons, Option.map_some, List.map_cons,
          List.cons.injEq, true_and]
        exact ih fun g hg => hne g (List.mem_cons_of_mem _ hg)

private theorem runCounts_sorted (l : List S) (h : l.Pairwise (· ≤ ·)) :
    ((runCounts l).map Prod.fst).Pairwise (· < ·) := by
  have := merged_sorted id (fun _ : S => 1) l h
  unfold merged at this
  unfold runCounts
  simpa using this

private theorem runCounts_flatten (l : List S) :
    (runCounts l).flatMap (fun p => List.replicate p.2 p.1) = l := by
  have hfl := runsOf_flatten id l
  have hr := runs_replicate l
  have hne := runsOf_ne_nil id l
  conv_rhs => rw [← hfl]
  unfold runCounts
  clear hfl
  generalize runsOf id l = gs at *
  induction gs with
  | nil => rfl
  | cons g gs ih =>
    cases g with
    | nil => exact absurd rfl (hne [] List.mem_cons_self)
    | cons x g =>
      simp only [List.filterMap_cons, List.head?_cons, Option.map_some, List.flatMap_cons,
        List.flatten_cons]
      rw [ih (fun g hg => hr g (List.mem_cons_of_mem _ hg))
        (fun g hg => hne g (List.mem_cons_of_mem _ hg)), ← hr (x :: g) List.mem_cons_self x rfl]

private theorem count_flatMap (L : List (S × ℕ)) (s : S) :
    (L.flatMap fun p => List.replicate p.2 p.1).count s =
      (L.map fun p => if p.1 = s then p.2 else 0).sum := by
  induction L with
  | nil => rfl
  | cons p L ih =>
    simp only [List.flatMap_cons, List.count_append, List.map_cons, List.sum_cons, ih]
    congr 1
    rw [List.count_replicate]
    simp

private theorem count_runs (l : List S) (h : l.Pairwise (· ≤ ·)) :
    ∀ p ∈ runCounts l, p.2 = l.count p.1 := by
  intro p hp
  conv_rhs => rw [← runCounts_flatten l]
  rw [count_flatMap]
  have hs := runCounts_sorted l h
  revert hp hs
  generalize runCounts l = L
  induction L with
  | nil => intro hp; cases hp
  | cons q L ih =>
    intro hp hs
    simp only [List.map_cons, List.pairwise_cons] at hs
    simp only [List.map_cons, List.sum_cons]
    rcases List.mem_cons.1 hp with rfl | hp
    · have : (L.map fun x => if x.1 = p.1 then x.2 else 0) = L.map fun _ => 0 := by
        apply List.map_congr_left
        intro x hx
        have := hs.1 x.1 (List.mem_map.2 ⟨x, hx, rfl⟩)
        exact if_neg (ne_of_gt this)
      rw [this]
      simp
    · have hne := hs.1 p.1 (List.mem_map.2 ⟨p, hp, rfl⟩)
      rw [if_neg (ne_of_lt hne), Nat.zero_add]
      exact ih hp hs.2

private theorem zipWith_runs {β : Type} (l : List S) (f : S → ℕ → β) :
    List.zipWith (fun s (r : ℕ × ℕ) => f s (r.2 - r.1))
      ((consecutive (findRowDifferences l true)).filterMap fun r => l[r.1]?)
      (consecutive (findRowDifferences l true)) = (runCounts l).map fun p => f p.1 p.2 := by
  obtain ⟨h1, h2⟩ := runs_counts l
  have : List.zipWith (fun s (r : ℕ × ℕ) => f s (r.2 - r.1))
      ((consecutive (findRowDifferences l true)).filterMap fun r => l[r.1]?)
      (consecutive (findRowDifferences l true)) =
      List.zipWith f ((consecutive (findRowDifferences l true)).filterMap fun r => l[r.1]?)
        ((consecutive (findRowDifferences l true)).map fun r => r.2 - r.1) := by
    rw [List.zipWith_map_right]
  rw [this, h1, h2, List.zipWith_map_left, List.zipWith_map_right]
  generalize runCounts l = L
  induction L with
  | nil => rfl
  | cons p L ih => simp [ih]

/-- **C25**: `from_basis`.  It raises exactly if the symmetry has no basis or some sector does not
occur in whole multiplets.  Otherwise the sectors are exactly those of the basis, sorted and without
repetition, multiplicity times dimension is the number of occurrences, the dimension is the number
of basis elements, and `sectors_of_basis` gives the argument back. -/
theorem C25_from_basis (sym : Sym S) (hd : DimOK sym) (l : List S) :
    (ESpace.fromBasis sym l = none ↔
      sym.canDrop = false ∨ ∃ s, ¬ sym.dim s ∣ l.count s) ∧
    ∀ e, ESpace.fromBasis sym l = some e →
      ValidSpace sym e ∧ e.isDual = false ∧ (∀ s, s ∈ e.defining ↔ s ∈ l) ∧
      (∀ s, sym.dim s * multOf e.defining e.mults s = l.count s) ∧
      e.dim sym = l.length ∧ e.sectorsOfBasis sym = some l := by
  have hs : (gather l (lexsortIndices l)) = sortBy id l := by
    have := gather_lexsort id l
    rwa [List.map_id] at this
  have hsort : (sortBy id l).Pairwise (· ≤ ·) := sortBy_sorted id l
  have hperm : (sortBy id l).Perm l := sortBy_perm id l
  have hcnt : ∀ p ∈ runCounts (sortBy id l), p.2 = l.count p.1 := by
    intro p hp
    rw [count_runs _ hsort p hp, hperm.count_eq]
  have hmem : ∀ s, s ∈ (runCounts (sortBy id l)).map Prod.fst ↔ s ∈ l := by
    intro s
    rw [← hperm.mem_iff]
    conv_rhs => rw [← runCounts_flatten (sortBy id l)]
    simp only [List.mem_map, List.mem_flatMap]
    constructor
    · rintro ⟨p, hp, rfl⟩
      refine ⟨p, hp, List.mem_replicate.2 ⟨?_, rfl⟩⟩
      rw [hcnt p hp]
      unfold runCounts at hp
      obtain ⟨g, hg, hgp⟩ := List.mem_filterMap.1 hp
      cases g with
      | nil => simp at hgp
      | cons x g =>
        simp only [List.head?_cons, Option.map_some, Option.some.injEq] at hgp
        subst hgp
        have : x ∈ l := by
          rw [← hperm.mem_iff, ← runsOf_flatten id (sortBy id l)]
          exact List.mem_flatten.2 ⟨_, hg, List.mem_cons_self⟩
        simp only
        have := List.count_pos_iff.2 this
        omega
    · rintro ⟨p, hp, h⟩
      exact ⟨p, hp, ((List.mem_replicate.1 h).2).symm⟩
  unfold ESpace.fromBasis
  simp only [hs]
  have hz1 := zipWith_runs (sortBy id l) fun s n => n % sym.dim s == 0
  have hz2 := zipWith_runs (sortBy id l) fun s n => n / sym.dim s
  have hz3 := (runs_counts (sortBy id l)).1
  rw [hz1, hz2, hz3]
  cases hcd : sym.canDrop with
  | false => simp
  | true =>
    simp only [if_true, Bool.true_eq_false, false_or]
    have hall : (((runCounts (sortBy id l)).map fun p => p.2 % sym.dim p.1 == 0).all id) = true ↔
        ∀ s, sym.dim s ∣ l.count s := by
      rw [List.all_eq_true]
      constructor
      · intro h s
        by_cases hsl : s ∈ l
        · obtain ⟨p, hp, rfl⟩ := List.mem_map.1 ((hmem s).2 hsl)
          have := h _ (List.mem_map.2 ⟨p, hp, rfl⟩)
          simp only [id, beq_iff_eq] at this
          rw [← hcnt p hp]
          exact Nat.dvd_of_mod_eq_zero this
        · rw [List.count_eq_zero.2 hsl]; exact Nat.dvd_zero _
      · intro h b hb
        obtain ⟨p, hp, rfl⟩ := List.mem_map.1 hb
        simp only [id, beq_iff_eq]
        rw [hcnt p hp]
        exact Nat.mod_eq_zero_of_dvd (h p.1)
    constructor
    · split_ifs with h
      · simp only [reduceCtorEq, false_iff, not_exists, not_not]
        exact hall.1 h
      · simp only [true_iff]
        by_contra hc
        push Not at hc
        exact h (hall.2 hc)
    · intro e he
      split_ifs at he with h
      have hdvd := hall.1 h
      injection he with he
      set L := runCounts (sortBy id l) with hL
      have hmd : ∀ p ∈ L, sym.dim p.1 * (p.2 / sym.dim p.1) = p.2 := by
        intro p hp
        exact Nat.mul_div_cancel' (by rw [hcnt p hp]; exact hdvd p.1)
      have hcntL : ∀ s, (L.map fun p => if p.1 = s then p.2 else 0).sum = l.count s := by
        intro s
        rw [← count_flatMap, hL, runCounts_flatten, hperm.count_eq]
      have hlenL : (L.map Prod.snd).sum = l.length := by
        rw [← hperm.length_eq]
        conv_rhs => rw [← runCounts_flatten (sortBy id l)]
        rw [List.length_flatMap]
        congr 1
        apply List.map_congr_left
        intro p _
        simp
      have htot : totalDim sym.dim e.defining e.mults = l.length := by
        rw [← he]
        simp only
        rw [totalDim_map, ← hlenL]
        congr 1
        exact List.map_congr_left hmd
      have hv : ValidSpace sym e := by
        refine ⟨by rw [← he]; simp, by rw [← he]; exact runCounts_sorted _ hsort, ?_⟩
        intro p hp
        rw [htot]
        rw [← he] at hp
        cases hp
        exact lexsortIndices_perm l
      refine ⟨hv, by rw [← he], ?_, ?_, ?_, ?_⟩
      · intro s
        rw [← he]
        exact hmem s
      · intro s
        rw [← he]
        simp only
        rw [multOf_map, ← hcntL s, ← sum_map_mul_nat]
        congr 1
        apply List.map_congr_left
        intro p hp
        split_ifs with hps
        · rw [Nat.one_mul, ← hps]; exact hmd p hp
        · simp
      · rw [C25_dim sym hd, htot]
      · obtain ⟨L', h1, h2, h3⟩ := (C25_sectors_of_basis sym hd e hv).2 hcd
        rw [h1]
        congr 1
        apply List.ext_getElem?
        intro j
        have hdim : e.dim sym = l.length := by rw [C25_dim sym hd, htot]
        by_cases hj : j < l.length
        · -- the internal position of `j`
          have hpm : j ∈ lexsortIndices l := (lexsortIndices_perm l).mem_iff.2 (by simpa using hj)
          obtain ⟨i, hi⟩ := List.mem_iff_getElem?.1 hpm
          have hbp : e.basisPerm sym = lexsortIndices l := by
            unfold ESpace.basisPerm; rw [← he]
          have hsec : e.sectors sym = L.map Prod.fst := by
            unfold ESpace.sectors; rw [← he]; rfl
          have hst1 : (states sym.dim (e.sectors sym) e.mults).map Prod.fst = sortBy id l := by
            rw [hsec, ← he]
            simp only
            unfold states
            rw [List.zip_map', List.flatMap_map, List.map_flatMap]
            simp only [block_map_fst]
            rw [← runCounts_flatten (sortBy id l)]
            apply List.flatMap_congr
            intro p hp
            rw [hmd p hp]
          have hil : i < l.length := by
            have := (List.getElem?_eq_some_iff.1 hi).1
            rwa [(lexsortIndices_perm l).length_eq, List.length_range] at this
          have hsl : (states sym.dim (e.sectors sym) e.mults).length = l.length := by
            have := congrArg List.length hst1
            rwa [List.length_map, hperm.length_eq] at this
          have hsi := List.getElem?_eq_getElem (show i < (states sym.dim (e.sectors sym) e.mults).length by omega)
          have := h3 j _ (List.mem_iff_getElem?.2 ⟨i, List.getElem?_zip_eq_some.2
            ⟨by rw [hbp]; exact hi, hsi⟩⟩)
          rw [this]
          have e1 : (sortBy id l)[i]? = some (states sym.dim (e.sectors sym) e.mults)[i].1 := by
            rw [← hst1, List.getElem?_map, hsi]; rfl
          rw [← hs, gather_getElem? _ _ (by
            intro k hk
            have := (lexsortIndices_perm l).mem_iff.1 hk
            simpa using this), hi] at e1
          simpa using e1.symm
        · rw [List.getElem?_eq_none (by omega), List.getElem?_eq_none (by omega)]

/-! ## C26 -/

private theorem bisect_spec (starts : List ℕ) (hs : starts.Pairwise (· ≤ ·)) (idx : ℕ) :
    ∀ (fuel lo hi : ℕ), hi - lo < fuel → lo ≤ hi → hi ≤ starts.length →
      (∀ (i x : ℕ), i < lo → starts[i]? = some x → x ≤ idx) →
      (∀ (i x : ℕ), hi ≤ i → starts[i]? = some x → idx < x) →
      let k := ESpace.bisect starts idx fuel lo hi
      k ≤ starts.length ∧ (∀ (i x : ℕ), i < k → starts[i]? = some x → x ≤ idx) ∧
      (∀ (i x : ℕ), k ≤ i → starts[i]? = some x → idx < x) := by
  intro fuel
  induction fuel with
  | zero => intro lo hi h; omega
  | succ fuel ih =>
    intro lo hi hf hlh hhl h1 h2
    rw [ESpace.bisect]
    split_ifs with hlt
    · have hm : lo + (hi - lo) / 2 < hi := by omega
      have hmid : starts[lo + (hi - lo) / 2]? = some starts[lo + (hi - lo) / 2] :=
        List.getElem?_eq_getElem (by omega)
      have hgd : starts.getD (lo + (hi - lo) / 2) 0 = starts[lo + (hi - lo) / 2] := by
        rw [List.getD_eq_getElem?_getD, hmid]; rfl
      have hmono : ∀ (i j x y : ℕ), i ≤ j → starts[i]? = some x → starts[j]? = some y → x ≤ y := by
        intro i j x y hij hx hy
        obtain ⟨hi', rfl⟩ := List.getElem?_eq_some_iff.1 hx
        obtain ⟨hj', rfl⟩ := List.getElem?_eq_some_iff.1 hy
        rcases Nat.lt_or_eq_of_le hij with h | h
        · exact List.pairwise_iff_getElem.1 hs i j hi' hj' h
        · subst h; exact le_rfl
      simp only
      split_ifs with hle
      · refine ih (lo + (hi - lo) / 2 + 1) hi (by omega) (by omega) hhl ?_ h2
        intro i x hi' hx
        rw [hgd] at hle
        exact (hmono i _ _ _ (by omega) hx hmid).trans hle
      · refine ih lo (lo + (hi - lo) / 2) (by omega) (by omega) (by omega) h1 ?_
        intro i x hi' hx
        rw [hgd] at hle
        exact lt_of_lt_of_le (by omega) (hmono _ i _ _ hi' hmid hx)
    · have : lo = hi := by omega
      subst this
      exact ⟨hhl, h1, h2⟩

theorem take_sum_mono (l : List ℕ) (a b : ℕ) (h : a ≤ b) : (l.take a).sum ≤ (l.take b).sum := by
  have : l.take b = l.take a ++ (l.drop a).take (b - a) := by
    rw [← List.take_add, Nat.add_sub_cancel' h]
  rw [this, List.sum_append]
  omega

theorem take_sum_succ (l : List ℕ) (a x : ℕ) (h : l[a]? = some x) :
    (l.take (a + 1)).sum = (l.take a).sum + x := by
  rw [List.take_add_one, h]
  simp

private theorem numStates_take (sym : Sym S) (sectors : List S) (mults : List ℕ) (b : ℕ) :
    ((numStates sym sectors mults).take b).sum =
      totalDim sym.dim (sectors.take b) (mults.take b) := by
  rw [← numStates_sum]
  unfold numStates
  rw [List.take_zipWith]

/-- `(b, off)` is the position of the public basis index `j`: offset `off` in block `b`. -/
def IsPosition (sym : Sym S) (e : ESpace S) (j : ℕ) (b off : ℕ) : Prop :=
  ∃ s m, (e.sectors sym)[b]? = some s ∧ e.mults[b]? = some m ∧ off < sym.dim s * m ∧
    (e.basisPerm sym)[totalDim sym.dim ((e.sectors sym).take b) (e.mults.take b) + off]? = some j

private theorem numStates_get (sym : Sym S) (sectors : List S) (mults : List ℕ) (b : ℕ) (n : ℕ) :
    (numStates sym sectors mults)[b]? = some n ↔
      ∃ s m, sectors[b]? = some s ∧ mults[b]? = some m ∧ n = sym.dim s * m := by
  unfold numStates
  rw [List.getElem?_zipWith_eq_some]
  constructor
  · rintro ⟨s, m, h1, h2, h3⟩; exact ⟨s, m, h1, h2, h3.symm⟩
  · rintro ⟨s, m, h1, h2, h3⟩; exact ⟨s, m, h1, h2, h3.symm⟩

/-- **C26**: for every integer index, `parse_index` raises if it is out of range; otherwise it
returns the one and only sector block and offset at which the internal basis holds the (wrapped)
public index. -/
theorem C26_parse_index (sym : Sym S) (hd : DimOK sym) (hcd : sym.canDrop = true) (e : ESpace S)
    (hv : ValidSpace sym e) (idx : ℤ) :
    ((idx < -(e.dim sym : ℤ) ∨ (e.dim sym : ℤ) ≤ idx) → e.parseIndex sym idx = none) ∧
    (∀ j : ℕ, j < e.dim sym → (idx = j ∨ idx = (j : ℤ) - e.dim sym) →
      ∃ b off, e.parseIndex sym idx = some (b, off) ∧ IsPosition sym e j b off ∧
        ∀ b' off', IsPosition sym e j b' off' → b' = b ∧ off' = off) := by
  constructor
  · intro h
    unfold ESpace.parseIndex Labels.toValidIdx
    simp [hcd, h]
  intro j hj hidx
  obtain ⟨hbp, hbl⟩ := basisPerm_isPerm sym hd e hv
  have hdim := C25_dim sym hd e
  have hvi : Labels.toValidIdx idx (e.dim sym) = some j := by
    unfold Labels.toValidIdx
    rw [if_neg (by omega)]
    rcases hidx with h | h
    · rw [if_neg (by omega)]; subst h; simp
    · rw [if_pos (by omega)]; subst h; simp
  have hjm : j ∈ e.basisPerm sym := by
    refine hbp.mem_iff.2 ?_
    rw [hbl, ← hdim]; simpa using hj
  obtain ⟨i, hi⟩ := List.mem_iff_getElem?.1 hjm
  have hinv := inverse_lookup sym hd e hv i j hi
  have hil : i < totalDim sym.dim e.defining e.mults := by
    rw [← hbl]; exact (List.getElem?_eq_some_iff.1 hi).1
  set N := numStates sym (e.sectors sym) e.mults with hN
  have hNsum : N.sum = totalDim sym.dim e.defining e.mults := by
    rw [hN, numStates_sum, totalDim_sectors sym hd]
  have hstarts : ∀ (b x : ℕ), ((e.bounds sym).dropLast)[b]? = some x ↔
      b < N.length ∧ x = (N.take b).sum := by
    intro b x
    unfold ESpace.bounds
    rw [← hN, List.getElem?_dropLast, length_sliceBoundaries]
    simp only [Nat.add_sub_cancel]
    by_cases hb : b < N.length
    · rw [if_pos hb, sliceBoundaries_get 0 N b hb.le]
      simp only [Nat.zero_add, Option.some.injEq]
      constructor
      · intro h; exact ⟨hb, h.symm⟩
      · intro h; exact h.2.symm
    · rw [if_neg hb]
      constructor
      · intro h; cases h
      · intro h; exact absurd h.1 hb
  have hslen : ((e.bounds sym).dropLast).length = N.length := by
    unfold ESpace.bounds
    rw [List.length_dropLast, length_sliceBoundaries, ← hN]
    omega
  have hsorted : ((e.bounds sym).dropLast).Pairwise (· ≤ ·) := by
    rw [List.pairwise_iff_getElem]
    intro a b ha hb hab
    have h1 := ((hstarts a _).1 (List.getElem?_eq_getElem ha)).2
    have h2 := ((hstarts b _).1 (List.getElem?_eq_getElem hb)).2
    rw [h1, h2]
    exact take_sum_mono N a b hab.le
  set starts := (e.bounds sym).dropLast with hst
  obtain ⟨hk1, hk2, hk3⟩ := bisect_spec starts hsorted i (starts.length + 1) 0 starts.length
    (by omega) (by omega) le_rfl (by intro a x h; omega) (by
      intro a x ha hx
      have := (List.getElem?_eq_some_iff.1 hx).1
      omega)
  set k := ESpace.bisect starts i (starts.length + 1) 0 starts.length with hk
  have hNne : 0 < N.length := by
    rcases Nat.eq_zero_or_pos N.length with h | h
    · have : N = [] := List.eq_nil_of_length_eq_zero h
      rw [this] at hNsum
      simp at hNsum
      omega
    · exact h
  have hk0 : k ≠ 0 := by
    intro h0
    have := hk3 0 0 (by omega) ((hstarts 0 0).2 ⟨hNne, by simp⟩)
    omega
  have hkb : k - 1 < N.length := by omega
  have hstart : starts.getD (k - 1) 0 = (N.take (k - 1)).sum := by
    rw [List.getD_eq_getElem?_getD, (hstarts (k - 1) _).2 ⟨hkb, rfl⟩]; rfl
  have hle : (N.take (k - 1)).sum ≤ i := hk2 (k - 1) _ (by omega) ((hstarts (k - 1) _).2 ⟨hkb, rfl⟩)
  have hNk := List.getElem?_eq_getElem hkb
  have hlt : i < (N.take (k - 1)).sum + N[k - 1] := by
    rw [← take_sum_succ N (k - 1) _ hNk, show k - 1 + 1 = k by omega]
    rcases Nat.lt_or_ge k N.length with h | h
    · exact hk3 k _ le_rfl ((hstarts k _).2 ⟨h, rfl⟩)
    · rw [List.take_of_length_le h, hNsum]; exact hil
  refine ⟨k - 1, i - (N.take (k - 1)).sum, ?_, ?_, ?_⟩
  · unfold ESpace.parseIndex
    rw [if_pos hcd, hvi]
    simp only
    rw [hinv]
    rw [if_neg hk0, hstart]
  · obtain ⟨s, m, h1, h2, h3⟩ := (numStates_get sym _ _ _ _).1 hNk
    refine ⟨s, m, h1, h2, by omega, ?_⟩
    rw [← numStates_take, ← hN, Nat.add_sub_cancel' hle]
    exact hi
  · rintro b off ⟨s, m, h1, h2, h3, h4⟩
    rw [← numStates_take, ← hN] at h4
    have hb : N[b]? = some (sym.dim s * m) := (numStates_get sym _ _ _ _).2 ⟨s, m, h1, h2, rfl⟩
    have hpos : (N.take b).sum + off = i := by
      obtain ⟨ha1, ha2⟩ := List.getElem?_eq_some_iff.1 h4
      obtain ⟨hb1, hb2⟩ := List.getElem?_eq_some_iff.1 hi
      exact (List.Nodup.getElem_inj_iff (hbp.nodup_iff.2 List.nodup_range)).1 (ha2.trans hb2.symm)
    have hsb := take_sum_succ N b _ hb
    have hsk := take_sum_succ N (k - 1) _ hNk
    rcases Nat.lt_trichotomy b (k - 1) with h | h | h
    · have := take_sum_mono N (b + 1) (k - 1) (by omega)
      omega
    · subst h; omega
    · have := take_sum_mono N (k - 1 + 1) b (by omega)
      omega

/-- **C26**: `idx_to_sector` is the entry of `sectors_of_basis`. -/
theorem C26_idx_to_sector (sym : Sym S) (hd : DimOK sym) (hcd : sym.canDrop = true) (e : ESpace S)
    (hv : ValidSpace sym e) (j : ℕ) (hj : j < e.dim sym) :
    ∃ L, e.sectorsOfBasis sym = some L ∧ e.idxToSector sym j = L[j]? ∧ j < L.length := by
  obtain ⟨L, h1, h2, h3⟩ := (C25_sectors_of_basis sym hd e hv).2 hcd
  refine ⟨L, h1, ?_, by omega⟩
  obtain ⟨b, off, hp, ⟨s, m, hs, hm, hoff, hb⟩, -⟩ :=
    (C26_parse_index sym hd hcd e hv j).2 j hj (Or.inl rfl)
  unfold ESpace.idxToSector
  rw [hp]
  simp only [Option.bind_some, hs]
  -- the state at that position
  have hstate : ∃ t : ℕ, (states sym.dim (e.sectors sym) e.mults)[
      totalDim sym.dim ((e.sectors sym).take b) (e.mults.take b) + off]? = some (s, t) := by
    have hzip : (List.zip (e.sectors sym) e.mults)[b]? = some (s, m) :=
      List.getElem?_zip_eq_some.2 ⟨hs, hm⟩
    obtain ⟨hbl, hbe⟩ := List.getElem?_eq_some_iff.1 hzip
    have hsplit : states sym.dim (e.sectors sym) e.mults =
        states sym.dim ((e.sectors sym).take b) (e.mults.take b) ++ (block sym.dim s m ++
          ((List.zip (e.sectors sym) e.mults).drop (b + 1)).flatMap fun p => block sym.dim p.1 p.2) := by
      unfold states
      conv_lhs => rw [← List.take_append_drop b (List.zip (e.sectors sym) e.mults),
        List.drop_eq_getElem_cons hbl, hbe]
      rw [List.flatMap_append, List.flatMap_cons, List.zip, List.take_zipWith]
    rw [hsplit, List.getElem?_append_right (by rw [length_states]; omega), length_states,
      Nat.add_sub_cancel_left, List.getElem?_append_left (by rw [length_block]; exact hoff)]
    have hlt : off < (block sym.dim s m).length := by rw [length_block]; exact hoff
    refine ⟨((block sym.dim s m)[off]'hlt).2, ?_⟩
    rw [List.getElem?_eq_getElem hlt]
    have : ((block sym.dim s m)[off]'hlt).1 = s := by
      have hm := List.getElem_mem hlt
      have := List.mem_map_of_mem (f := Prod.fst) hm
      rw [block_map_fst] at this
      exact (List.mem_replicate.1 this).2
    exact congrArg some (Prod.ext this rfl)
  obtain ⟨t, ht⟩ := hstate
  have := h3 j (s, t) (List.mem_iff_getElem?.2 ⟨_, List.getElem?_zip_eq_some.2 ⟨hb, ht⟩⟩)
  rw [this]

/-! ## Non-trivial instances -/

/-- A symmetry like SU(2): sector `j` (twice the spin) of dimension `j + 1`, self dual. -/
def exSU2 : Sym ℤ := ⟨fun j => j.toNat + 1, id, false, true⟩

theorem exSU2_ok : DimOK exSU2 := ⟨fun _ => Nat.succ_pos _, fun _ => rfl, by intro h; cases h⟩

/-- A symmetry like U(1). -/
def exU1 : Sym ℤ := ⟨fun _ => 1, fun x => -x, true, true⟩

theorem exU1_ok : DimOK exU1 := ⟨fun _ => Nat.one_pos, fun _ => rfl, fun _ _ => rfl⟩

example : ESpace.fromBasis exU1 [1, 0, 1, -1] = some ⟨[-1, 0, 1], [1, 1, 2], false,
    some [3, 1, 0, 2]⟩ := by decide +kernel
example : ESpace.fromBasis exSU2 [1, 0, 1, 1] = none := by decide +kernel
example : ESpace.fromBasis exSU2 [1, 0, 1, 0] = some ⟨[0, 1], [2, 1], false, some [1, 3, 0, 2]⟩ := by
  decide +kernel
example : ESpace.fromDefiningSectors exSU2 [1, 0, 1] (some [1, 2, 1]) false none false =
    some ⟨[0, 1], [2, 2], false, some [2, 3, 0, 4, 1, 5]⟩ := by decide +kernel
example : (ESpace.mk [0, 1] [2, 1] false (some [1, 3, 0, 2]) : ESpace ℤ).parseIndex exSU2 (-2) =
    some (1, 1) := by decide +kernel
example : ValidSpace exSU2 (ESpace.mk [0, 1] [2, 1] false (some [1, 3, 0, 2])) :=
  ⟨rfl, by decide, by intro p hp; cases hp; decide⟩

end Cyten.Props
