import Verif.Props.AbelianMask2

/-! # Lemmas on the contraction with a mask -/

namespace Cyten.Props
open Cyten.Abelian Cyten.Abelian.Spec Cyten.Tables Cyten.Tools Cyten.ListSum Cyten.Spaces

variable {S K : Type}

theorem single_lt_iff (x y : ℕ) : RowLt [x] [y] ↔ x < y := by
  rw [rowLt_key (n := 1) rfl rfl]
  simp [List.cons_lt_cons_iff]

theorem cmp_single_le (x y : ℕ) : cmpLexsort [x] [y] ≠ .gt ↔ x ≤ y := by
  rw [cmp_le_iff (r := [x]) (s := [y]) rfl]
  rw [← not_lt, ← not_lt]
  simp [List.cons_lt_cons_iff]

/-- The pairs that are combined when the rows of the first table are sorted by their key and those of
the second strictly sorted. -/
theorem common_spec {α β δ : Type} (ka : α → ℕ) (kb : β → ℕ) (g : α → β → δ) (A : List α) (B : List β)
    (aS : Bool)
    (hA : A.Pairwise fun p q => ka p ≤ ka q) (hAs : aS = true → A.Pairwise fun p q => ka p < ka q)
    (hB : B.Pairwise fun p q => kb p < kb q) (L : List δ)
    (hL : L = ((iterCommonSorted cmpLexsort (A.map fun p => [ka p]) (B.map fun r => [kb r]) aS
      true).getD []).filterMap fun ij => A[ij.1]?.bind fun p => B[ij.2]?.map fun r => g p r) :
    (∀ d, d ∈ L ↔ ∃ p ∈ A, ∃ r ∈ B, ka p = kb r ∧ d = g p r) ∧
    (∀ R : δ → δ → Prop, (∀ i j : ℕ, i < j → ∀ p q, A[i]? = some p → A[j]? = some q →
      ∀ r ∈ B, ∀ s ∈ B, ka p = kb r → ka q = kb s → R (g p r) (g q s)) → L.Pairwise R) := by
  obtain ⟨res, hres, hmem, -, -, hst, -⟩ := C20_iter_common_sorted 1 (A.map fun p => [ka p])
    (B.map fun r => [kb r]) aS true (Or.inr rfl)
    (fun r hr => by obtain ⟨p, -, rfl⟩ := List.mem_map.1 hr; rfl)
    (fun r hr => by obtain ⟨p, -, rfl⟩ := List.mem_map.1 hr; rfl)
    (by
      cases aS with
      | true =>
        rw [if_pos rfl]
        unfold StrictlySorted
        rw [List.pairwise_map]
        exact (hAs rfl).imp fun h => (single_lt_iff _ _).2 h
      | false =>
        rw [if_neg (by simp)]
        unfold Sorted
        rw [List.pairwise_map]
        refine hA.imp fun {p q} h => ?_
        rcases Nat.lt_or_eq_of_le h with h | h
        · exact Or.inl ((single_lt_iff _ _).2 h)
        · exact Or.inr (by rw [h]))
    (by
      rw [if_pos rfl]
      unfold StrictlySorted
      rw [List.pairwise_map]
      exact hB.imp fun h => (single_lt_iff _ _).2 h)
  rw [hres, Option.getD_some] at hL
  have hmem' : ∀ i j, (i, j) ∈ res ↔ ∃ p r, A[i]? = some p ∧ B[j]? = some r ∧ ka p = kb r := by
    intro i j
    rw [hmem]
    simp only [List.getElem?_map, Option.map_eq_some_iff]
    constructor
    · rintro ⟨w, ⟨p, hp, rfl⟩, r, hr, he⟩
      exact ⟨p, r, hp, hr, (List.cons.inj he).1.symm⟩
    · rintro ⟨p, r, hp, hr, he⟩
      exact ⟨_, ⟨p, hp, rfl⟩, r, hr, by rw [he]⟩
  refine ⟨fun d => ?_, fun R hR => ?_⟩
  · rw [hL, List.mem_filterMap]
    constructor
    · rintro ⟨⟨i, j⟩, hij, hd⟩
      obtain ⟨p, r, hp, hr, he⟩ := (hmem' i j).1 hij
      simp only [hp, hr, Option.bind_some, Option.map_some, Option.some.injEq] at hd
      exact ⟨p, List.mem_of_getElem? hp, r, List.mem_of_getElem? hr, he, hd.symm⟩
    · rintro ⟨p, hp, r, hr, he, rfl⟩
      obtain ⟨i, hi⟩ := List.mem_iff_getElem?.1 hp
      obtain ⟨j, hj⟩ := List.mem_iff_getElem?.1 hr
      exact ⟨(i, j), (hmem' i j).2 ⟨p, r, hi, hj, he⟩, by simp [hi, hj]⟩
  · rw [hL, List.pairwise_filterMap]
    refine (hst rfl).imp_of_mem fun {ij kl} h1 h2 hlt d hd d' hd' => ?_
    obtain ⟨p, r, hp, hr, he⟩ := (hmem' ij.1 ij.2).1 h1
    obtain ⟨q, s, hq, hs, he'⟩ := (hmem' kl.1 kl.2).1 h2
    simp only [hp, hr, Option.bind_some, Option.map_some, Option.some.injEq] at hd
    simp only [hq, hs, Option.bind_some, Option.map_some, Option.some.injEq] at hd'
    subst hd hd'
    exact hR _ _ hlt p q hp hq r (List.mem_of_getElem? hr) s (List.mem_of_getElem? hs) he he'

theorem set_inj {l l' : List ℕ} {ax a b : ℕ} (hl : ax < l.length) (hl' : ax < l'.length)
    (he : l.set ax a = l'.set ax b) (hk : l.getD ax 0 = l'.getD ax 0) : l = l' ∧ a = b := by
  have hab : a = b := by
    have := congrArg (·[ax]?) he
    simpa [hl, hl'] using this
  refine ⟨?_, hab⟩
  have hlen : l.length = l'.length := by simpa using congrArg List.length he
  refine List.ext_getElem hlen fun i h1 h2 => ?_
  by_cases hi : i = ax
  · subst hi
    rw [List.getD_eq_getElem _ _ h1, List.getD_eq_getElem _ _ h2] at hk
    exact hk
  · have := congrArg (·[i]?) he
    simp only [List.getElem?_set_ne (Ne.symm hi), List.getElem?_eq_getElem h1,
      List.getElem?_eq_getElem h2, Option.some.injEq] at this
    exact this

theorem forall2_set {α β : Type} {R : α → β → Prop} {l : List α} {m : List β} (h : List.Forall₂ R l m)
    (ax : ℕ) {a : α} {b : β} (hab : R a b) : List.Forall₂ R (l.set ax a) (m.set ax b) := by
  induction h generalizing ax with
  | nil => simp
  | cons h1 h2 ih =>
    cases ax with
    | zero => exact .cons hab h2
    | succ ax => exact .cons h1 (ih ax)

theorem shapeOf_set (M : List (List ℕ)) (row : List ℕ) (ax : ℕ) (m : List ℕ) (o : ℕ) :
    shapeOf (M.set ax m) (row.set ax o) = (shapeOf M row).set ax (m.getD o 0) := by
  unfold shapeOf
  induction M generalizing row ax with
  | nil => simp
  | cons m' M ih =>
    cases row with
    | nil => cases ax <;> simp
    | cons r row =>
      cases ax with
      | zero => simp
      | succ ax =>
        simp only [List.set_cons_succ, List.zipWith_cons_cons, ih]

theorem set_getD_self (l : List ℕ) (ax : ℕ) : l.set ax (l.getD ax 0) = l := by
  by_cases h : ax < l.length
  · rw [List.getD_eq_getElem _ _ h, List.set_getElem_self]
  · rw [List.set_eq_of_length_le (by omega)]

/-- The entries of the contraction, for a mask given by its contracted and other column. -/
theorem contract_spec [Zero K] {mults : List (List ℕ)} {T : Ents K} (hT : Sane mults T) {ax : ℕ}
    (hax : ax < mults.length) (dom large : Bool) (D : MEnts)
    (hc : D.Pairwise fun p q => (maskCols dom p.1).1 < (maskCols dom q.1).1)
    (ho : D.Pairwise fun p q => (maskCols dom p.1).2 < (maskCols dom q.1).2)
    (m' : List ℕ)
    (hD : ∀ r ∈ D, (maskCols dom r.1).2 < m'.length ∧
      m'.getD (maskCols dom r.1).2 0 = if large then countTrue r.2 else r.2.length) :
    Sane (mults.set ax m') (maskContract mults.length ax dom large T D) ∧
    ∀ d, d ∈ maskContract mults.length ax dom large T D ↔ ∃ p ∈ T, ∃ r ∈ D,
      p.1.getD ax 0 = (maskCols dom r.1).1 ∧ d = (p.1.set ax (maskCols dom r.1).2,
        if large then p.2.applyMask r.2 ax else p.2.enlargeLeg r.2 ax) := by
  unfold maskContract
  extract_lets T' D'
  have hT' : T'.Perm T := by
    simp only [T']; split
    · exact .refl _
    · exact List.perm_insertionSort _ _
  have hD' : D' = D := by
    simp only [D']; split
    · refine List.Pairwise.insertionSort_eq (hc.imp fun {p q} h => ?_)
      exact (cmp_single_le _ _).2 h.le
    · rfl
  have hTs : T'.Pairwise fun p q => p.1.getD ax 0 ≤ q.1.getD ax 0 := by
    simp only [T']
    by_cases h : ax = mults.length - 1
    · rw [if_pos h]
      have hs := hT.sorted
      unfold StrictlySorted at hs
      rw [List.pairwise_map] at hs
      refine hs.imp_of_mem fun {p q} hp hq hpq => ?_
      have h1 := hT.rowLength hp
      have h2 := hT.rowLength hq
      rw [rowLt_key h1 h2] at hpq
      rcases List.eq_nil_or_concat p.1 with hp' | ⟨u, x, hp'⟩
      · rw [hp'] at h1; simp at h1; omega
      · rcases List.eq_nil_or_concat q.1 with hq' | ⟨v, y, hq'⟩
        · rw [hq'] at h2; simp at h2; omega
        · rw [hp', hq'] at hpq
          rw [hp'] at h1
          rw [hq'] at h2
          simp only [List.concat_eq_append, List.length_append, List.length_singleton] at h1 h2
          simp only [List.concat_eq_append, List.reverse_append, List.reverse_singleton,
            List.singleton_append] at hpq
          rw [hp', hq']
          simp only [List.concat_eq_append, List.getD_eq_getElem?_getD]
          rw [List.getElem?_append_right (by omega), List.getElem?_append_right (by omega),
            show ax - u.length = 0 by omega, show ax - v.length = 0 by omega]
          rcases List.cons_lt_cons_iff.1 hpq with h | h
          · exact h.le
          · exact h.1.le
    · rw [if_neg h]
      exact insertionSort_key_sorted _ (fun p : List ℕ × Blk K => p.1.getD ax 0) T
        fun x _ y _ => cmp_single_le _ _
  rw [hD']
  obtain ⟨h1, h2⟩ := common_spec (fun p : List ℕ × Blk K => p.1.getD ax 0)
    (fun r : (ℕ × ℕ) × List Bool => (maskCols dom r.1).1)
    (fun p r => (p.1.set ax (maskCols dom r.1).2,
      if large then p.2.applyMask r.2 ax else p.2.enlargeLeg r.2 ax)) T' D false hTs (by simp) hc _ rfl
  have hmem : ∀ d, d ∈ mkData (((iterCommonSorted cmpLexsort (T'.map fun p => [p.1.getD ax 0])
      (D.map fun r => [(maskCols dom r.1).1]) false true).getD []).filterMap
      (maskPair ax dom large T' D)) false ↔ ∃ p ∈ T, ∃ r ∈ D,
      p.1.getD ax 0 = (maskCols dom r.1).1 ∧ d = (p.1.set ax (maskCols dom r.1).2,
        if large then p.2.applyMask r.2 ax else p.2.enlargeLeg r.2 ax) := by
    intro d
    rw [mem_mkData]
    refine (h1 d).trans ?_
    constructor
    · rintro ⟨p, hp, r⟩; exact ⟨p, hT'.mem_iff.1 hp, r⟩
    · rintro ⟨p, hp, r⟩; exact ⟨p, hT'.mem_iff.2 hp, r⟩
  have hnd : (T'.map Prod.fst).Nodup := (hT'.map Prod.fst).nodup_iff.2 hT.nodup
  have honD : (D.map fun r => (maskCols dom r.1).2).Nodup := by
    unfold List.Nodup
    rw [List.pairwise_map]
    exact ho.imp fun h => h.ne
  refine ⟨sane_mkData ?_ ?_ ?_, hmem⟩
  · intro d hd
    obtain ⟨p, hp, r, hr, hk, rfl⟩ := (hmem d).1 (mem_mkData.2 hd)
    rw [List.map_set]
    exact forall2_set (hT.inRange p hp) ax (hD r hr).1
  · intro d hd
    obtain ⟨p, hp, r, hr, hk, rfl⟩ := (hmem d).1 (mem_mkData.2 hd)
    simp only
    rw [shapeOf_set, (hD r hr).2, ← hT.shapes p hp]
    cases large <;> rfl
  · unfold List.Nodup
    rw [List.pairwise_map]
    refine h2 _ fun i j hij p q hp hq r hr s hs hk hk' he => ?_
    have hp' := hT'.mem_iff.1 (List.mem_of_getElem? hp)
    have hq' := hT'.mem_iff.1 (List.mem_of_getElem? hq)
    have hlp : ax < p.1.length := by rw [hT.rowLength hp']; exact hax
    have hlq : ax < q.1.length := by rw [hT.rowLength hq']; exact hax
    have hrs : (maskCols dom r.1).2 = (maskCols dom s.1).2 := by
      have := congrArg (·[ax]?) he
      simpa [hlp, hlq] using this
    have hrs' : r = s := List.inj_on_of_nodup_map honD hr hs hrs
    have hpq := (set_inj hlp hlq he (by rw [hk, hk', hrs'])).1
    have : p = q := hT.eq_of_fst hp' hq' hpq
    subst this
    have e1 : (T'.map Prod.fst)[i]? = some p.1 := by rw [List.getElem?_map, hp]; rfl
    have e2 : (T'.map Prod.fst)[j]? = some p.1 := by rw [List.getElem?_map, hq]; rfl
    have := (List.getElem?_inj (List.getElem?_eq_some_iff.1 e1).1 hnd).1 (e1.trans e2.symm)
    omega

/-- Entries of the contraction. -/
theorem contract_dense [AddCommMonoid K] {mults : List (List ℕ)} {T E : Ents K} (hT : Sane mults T) {ax : ℕ}
    (hax : ax < mults.length) (dom large : Bool) (D : MEnts)
    (honD : (D.map fun r => (maskCols dom r.1).2).Nodup) {M' : List (List ℕ)} (hE : Sane M' E)
    (hmem : ∀ d, d ∈ E ↔ ∃ p ∈ T, ∃ r ∈ D,
      p.1.getD ax 0 = (maskCols dom r.1).1 ∧ d = (p.1.set ax (maskCols dom r.1).2,
        if large then p.2.applyMask r.2 ax else p.2.enlargeLeg r.2 ax))
    (row pos : List ℕ) (hrow : row.length = mults.length) (o : ℕ) :
    (∀ r ∈ D, (maskCols dom r.1).2 = o →
      dense E (row.set ax o) pos = if large then
        dense T (row.set ax (maskCols dom r.1).1) (pos.set ax ((nonzero r.2).getD (pos.getD ax 0) 0))
      else if r.2.getD (pos.getD ax 0) false then
        dense T (row.set ax (maskCols dom r.1).1) (pos.set ax (countTrue (r.2.take (pos.getD ax 0))))
      else 0) ∧
    ((∀ r ∈ D, (maskCols dom r.1).2 ≠ o) → dense E (row.set ax o) pos = 0) := by
  have hget : ∀ (l : List ℕ) (c : ℕ), ax < l.length → (l.set ax c).getD ax 0 = c := by
    intro l c hl
    rw [List.getD_eq_getElem?_getD, List.getElem?_set_self hl, Option.getD_some]
  constructor
  · intro r hr hro
    by_cases hp : ∃ p ∈ T, p.1 = row.set ax (maskCols dom r.1).1
    · obtain ⟨p, hp, hpr⟩ := hp
      have hd := (hmem _).2 ⟨p, hp, r, hr, by rw [hpr, hget _ _ (by omega)], rfl⟩
      have hden := hE.dense_of_mem hd pos
      simp only [hpr, List.set_set, hro] at hden
      rw [hden]
      have hT1 := fun pos => hT.dense_of_mem hp pos
      rw [hpr] at hT1
      cases large with
      | true =>
        simp only [if_true, Blk.applyMask]
        rw [hT1]
      | false =>
        simp only [Bool.false_eq_true, if_false, Blk.enlargeLeg]
        rw [hT1]
    · have hz : ∀ pos, dense T (row.set ax (maskCols dom r.1).1) pos = 0 :=
        fun pos => dense_of_not_mem (fun p hp' he => hp ⟨p, hp', he⟩) pos
      rw [hz, hz]
      have : dense E (row.set ax o) pos = 0 := by
        refine dense_of_not_mem (fun d hd he => ?_) pos
        obtain ⟨p, hp', s, hs, hk, rfl⟩ := (hmem d).1 hd
        simp only at he
        have hlp : ax < p.1.length := by rw [hT.rowLength hp']; exact hax
        have hso : (maskCols dom s.1).2 = o := by
          have := congrArg (·[ax]?) he
          simpa [hlp, hrow, hax] using this
        have : s = r := List.inj_on_of_nodup_map honD hs hr (hso.trans hro.symm)
        subst this
        refine hp ⟨p, hp', ?_⟩
        have := congrArg (fun l => l.set ax (p.1.getD ax 0)) he
        simp only [List.set_set, set_getD_self] at this
        rw [this, hk]
      rw [this]
      simp
  · intro hno
    refine dense_of_not_mem (fun d hd he => ?_) pos
    obtain ⟨p, hp', s, hs, hk, rfl⟩ := (hmem d).1 hd
    have hlp : ax < p.1.length := by rw [hT.rowLength hp']; exact hax
    have hso : (maskCols dom s.1).2 = o := by
      have := congrArg (·[ax]?) he
      simpa [hlp, hrow, hax] using this
    exact hno s hs hso

end Cyten.Props
