import Verif.Lemmas.FTMaskOps

/-!
# C92: masks of the fusion tree backend, construction and logical operations
-/

namespace Cyten.FT
open Cyten.Abelian Cyten.Spaces Cyten.Tools Cyten.FT.Spec Cyten.Props Cyten.ListSum
open Cyten.Abelian.Spec (diagEntry IsDiagIndex)

variable {S K : Type} [LinearOrder S]

/-- The booleans of a sector of a diagonal tensor. -/
def bits (co : BLeg S) (D : DEnts Bool) (s : S) : List Bool := (List.range (Spec.mult co s)).map fun m => value co D s m

theorem bits_of_mem {co : BLeg S} (hc : Coupled co) {D : DEnts Bool} (hD : Abelian.Spec.DSane co.mults D) {p : ℕ × List Bool}
    (hp : p ∈ D) {s : S} (hs : co.sectors[p.1]? = some s) : bits co D s = p.2 := by
  have hl := lookup_of_mem hD.sorted hp
  refine List.ext_getElem ?_ fun m h1 h2 => ?_
  · rw [(hD.shapes p hp).2, bits, List.length_map, List.length_range, mult_eq hc hs]
  · simp only [bits, List.getElem_map, List.getElem_range]
    rw [value_eq hc _ hs]
    simp [diagEntry, hl, List.getD_eq_getElem?_getD, h2]

theorem bits_of_not_mem {co : BLeg S} (hc : Coupled co) {D : DEnts Bool} {i : ℕ} {s : S} (hs : co.sectors[i]? = some s)
    (h : ∀ p ∈ D, p.1 ≠ i) : true ∉ bits co D s := by
  intro ht
  obtain ⟨m, _, hm⟩ := List.mem_map.1 ht
  rw [value_eq hc _ hs] at hm
  have : List.lookup i D = none := lookup_none_iff.2 h
  simp [diagEntry, this] at hm

theorem sectors_of_dual (sym : Sym S) (e : ESpace S) (j : ℕ) :
    (e.toSpace sym).sectors[j]? = e.defining[j]?.map fun c => if e.isDual then sym.dual c else c := by
  show (e.sectors sym)[j]? = _
  unfold ESpace.sectors
  cases e.isDual <;> simp

theorem sorted_gather (L : List S) (hn : L.Nodup) : (gather L (lexsortIndices L)).Pairwise (· < ·) := by
  have hg : gather L (lexsortIndices L) = L.insertionSort (· ≤ ·) := by
    have := gather_lexsort (fun x : S => x) L
    simpa using this
  rw [hg]
  have hperm := List.perm_insertionSort (· ≤ ·) L
  have a1 : (L.insertionSort (· ≤ ·)).Pairwise (· ≤ ·) := List.pairwise_insertionSort _ _
  have a2 : (L.insertionSort (· ≤ ·)).Pairwise (· ≠ ·) := hperm.nodup_iff.2 hn
  exact (a1.and a2).imp fun h => lt_of_le_of_ne h.1 h.2

theorem length_gather' {A : Type} (L : List A) (p : List ℕ) (h : ∀ i ∈ p, i < L.length) : (gather L p).length = p.length := by
  unfold gather
  induction p with
  | nil => rfl
  | cons i p ih =>
    rw [List.filterMap_cons, List.getElem?_eq_getElem (h i List.mem_cons_self)]
    simp only [List.length_cons]
    rw [ih fun j hj => h j (List.mem_cons_of_mem _ hj)]

/-- `gather` with a sorting permutation keeps the pairs of two lists together. -/
theorem gather_pairs {A B : Type} (L : List A) (R : List B) (hlen : L.length = R.length) (p : List ℕ)
    (hp : p.Perm (List.range L.length)) :
    (gather L p).length = (gather R p).length ∧
    (∀ (n : ℕ) (x : A) (y : B), L[n]? = some x → R[n]? = some y → ∃ j : ℕ, (gather L p)[j]? = some x ∧ (gather R p)[j]? = some y) ∧
    ∀ x, x ∈ gather L p ↔ x ∈ L := by
  have hl : ∀ i ∈ p, i < L.length := fun i hi => by simpa using hp.mem_iff.1 hi
  have hr : ∀ i ∈ p, i < R.length := fun i hi => hlen ▸ hl i hi
  refine ⟨?_, fun n x y hx hy => ?_, fun x => ?_⟩
  · rw [length_gather' _ _ hl, length_gather' _ _ hr]
  · have hn : n ∈ p := hp.mem_iff.2 (List.mem_range.2 (List.getElem?_eq_some_iff.1 hx).1)
    obtain ⟨j, hj⟩ := List.getElem?_of_mem hn
    refine ⟨j, ?_, ?_⟩
    · rw [gather_getElem? L p hl, hj]; exact hx
    · rw [gather_getElem? R p hr, hj]; exact hy
  · constructor
    · intro h
      obtain ⟨j, hj⟩ := List.getElem?_of_mem h
      rw [gather_getElem? L p hl] at hj
      obtain ⟨i, _, hi⟩ := Option.bind_eq_some_iff.1 hj
      exact List.mem_of_getElem? hi
    · intro h
      obtain ⟨n, hn⟩ := List.getElem?_of_mem h
      have hnp : n ∈ p := hp.mem_iff.2 (List.mem_range.2 (List.getElem?_eq_some_iff.1 hn).1)
      obtain ⟨j, hj⟩ := List.getElem?_of_mem hnp
      refine List.mem_of_getElem? (i := j) ?_
      rw [gather_getElem? L p hl, hj]
      exact hn

/-- **C92** (from diagonal). `Mask.from_DiagonalTensor(D)` keeps exactly the indices at which `D` is true, also if the
leg is dual. -/
theorem C92_from_diagonal (sym : Sym S) (hdd : ∀ s, sym.dual (sym.dual s) = s) (isDual : Bool) {co : BLeg S}
    (hc : Coupled co) (D : DEnts Bool) (hD : Abelian.Spec.DSane co.mults D) :
    Makes sym isDual co (ftMaskFromDiagonal sym isDual co D) fun s => (List.range (mult co s)).map fun m => value co D s m := by
  set kept := D.filter fun p => p.2.any id with hkept
  have hsub : ∀ p ∈ kept, p ∈ D ∧ true ∈ p.2 := fun p hp => by
    rw [hkept, List.mem_filter] at hp
    exact ⟨hp.1, (any_id_iff _).1 hp.2⟩
  have hlt : ∀ p ∈ kept, p.1 < co.sectors.length := fun p hp => by
    rw [hc.len]; exact (hD.shapes p (hsub p hp).1).1
  have hks : (kept.map Prod.fst).Pairwise (· < ·) := hD.sorted.sublist ((List.filter_sublist).map _)
  obtain ⟨L, hL⟩ := exists_sectors (co := co) kept hlt
  have hLlen : L.length = kept.length := by simpa using congrArg List.length hL
  let φ : S → S := fun c => if isDual then sym.dual c else c
  have hφ : ∀ c, (if isDual then sym.dual (φ c) else φ c) = c := by
    intro c
    show (if isDual then sym.dual (if isDual then sym.dual c else c) else (if isDual then sym.dual c else c)) = c
    cases isDual <;> simp [hdd]
  have hφi : Function.Injective φ := fun a b h => by rw [← hφ a, ← hφ b, h]
  have hsec : (kept.filterMap fun p => co.sectors[p.1]?.map φ) = L.map φ := by
    have : (kept.filterMap fun p => co.sectors[p.1]?.map φ) = ((kept.map fun p => co.sectors[p.1]?).filterMap id).map φ := by
      rw [List.filterMap_map, List.map_filterMap]; rfl
    rw [this, ← hL]
    simp
  have hLmem : ∀ s, s ∈ L ↔ ∃ p ∈ kept, co.sectors[p.1]? = some s := by
    intro s
    have : some s ∈ L.map some ↔ some s ∈ kept.map fun p => co.sectors[p.1]? := by rw [hL]
    simpa using this
  have hget : ∀ (n : ℕ) (p : ℕ × List Bool) (s : S), kept[n]? = some p → co.sectors[p.1]? = some s → L[n]? = some s := by
    intro n p s hp hs
    have := congrArg (fun l => l[n]?) hL
    simp only [List.getElem?_map, hp, Option.map_some, hs] at this
    simpa using this
  have hLs : L.Pairwise (· < ·) := by
    rw [List.pairwise_iff_getElem]
    intro i j hi hj hij
    have hi' : i < kept.length := hLlen ▸ hi
    have hj' : j < kept.length := hLlen ▸ hj
    have a1 := hget i _ _ (List.getElem?_eq_getElem hi') (List.getElem?_eq_getElem (hlt _ (List.getElem_mem hi')))
    have a2 := hget j _ _ (List.getElem?_eq_getElem hj') (List.getElem?_eq_getElem (hlt _ (List.getElem_mem hj')))
    rw [List.getElem?_eq_getElem hi] at a1
    rw [List.getElem?_eq_getElem hj] at a2
    rw [Option.some.inj a1, Option.some.inj a2]
    refine (hc.lt_iff (List.getElem?_eq_getElem _) (List.getElem?_eq_getElem _)).1 ?_
    rw [List.pairwise_map] at hks
    exact List.pairwise_iff_getElem.1 hks i j hi' hj' hij
  have hLn : (L.map φ).Nodup := (show L.Nodup from hLs.imp ne_of_lt).map hφi
  set cs := kept.map fun p => countTrue p.2 with hcs
  have hclen : (L.map φ).length = cs.length := by rw [List.length_map, hcs, List.length_map, hLlen]
  -- the small leg
  have hsmall : ∃ (d : List S) (m : List ℕ), (ftMaskFromDiagonal sym isDual co D) = ⟨⟨d, m, isDual, none⟩, maskData kept⟩ ∧
      d.Pairwise (· < ·) ∧ d.length = m.length ∧ (∀ x, x ∈ d ↔ x ∈ L.map φ) ∧
      ∀ (n : ℕ) (x : S) (y : ℕ), (L.map φ)[n]? = some x → cs[n]? = some y → ∃ j : ℕ, d[j]? = some x ∧ m[j]? = some y := by
    unfold ftMaskFromDiagonal
    simp only
    rw [← hkept]
    have hsec' : (kept.filterMap fun p => co.sectors[p.1]?.map fun c => if isDual then sym.dual c else c) = L.map φ := hsec
    rw [hsec', ← hcs]
    by_cases hd : isDual = true
    · obtain ⟨g1, g2, g3⟩ := gather_pairs (L.map φ) cs hclen (lexsortIndices (L.map φ)) (lexsortIndices_perm _)
      refine ⟨gather (L.map φ) (lexsortIndices (L.map φ)), gather cs (lexsortIndices (L.map φ)), ?_, sorted_gather _ hLn, g1, g3, g2⟩
      rw [if_pos hd]
    · refine ⟨L.map φ, cs, by rw [if_neg hd], ?_, hclen, fun x => Iff.rfl, fun n x y h1 h2 => ⟨n, h1, h2⟩⟩
      have : φ = id := by
        funext c
        show (if isDual then sym.dual c else c) = c
        rw [if_neg hd]
      rw [this, List.map_id]
      exact hLs
  obtain ⟨d, m, hr, hds, hdm, hmem, hpair⟩ := hsmall
  rw [hr]
  have hsl : ∀ (j : ℕ) (s : S), ((⟨d, m, isDual, none⟩ : ESpace S).toSpace sym).sectors[j]? = some s ↔ d[j]? = some (φ s) := by
    intro j s
    rw [sectors_of_dual]
    simp only
    constructor
    · intro h
      obtain ⟨c, hc1, hc2⟩ := Option.map_eq_some_iff.1 h
      rw [hc1, ← hc2]
      refine congrArg some ?_
      show c = (if isDual then sym.dual (if isDual then sym.dual c else c) else (if isDual then sym.dual c else c))
      cases isDual <;> simp [hdd]
    · intro h
      rw [h, Option.map_some, hφ]
  refine ⟨hds, rfl, hdm, exists_sortedLeg _ ?_ ?_, fun st hst => ?_⟩
  · show ((⟨d, m, isDual, none⟩ : ESpace S).sectors sym).length = m.length
    unfold ESpace.sectors
    cases isDual <;> simp [hdm]
  · show ((⟨d, m, isDual, none⟩ : ESpace S).sectors sym).Nodup
    unfold ESpace.sectors
    have hdn : d.Nodup := hds.imp ne_of_lt
    by_cases hd : isDual = true
    · simp only [hd, if_true]
      exact hdn.map fun a b h => by rw [← hdd a, ← hdd b, h]
    · simp only [hd]
      exact hdn
  · have hmsl : ∀ s, s ∈ ((⟨d, m, isDual, none⟩ : ESpace S).toSpace sym).sectors ↔ s ∈ L := by
      intro s
      have : s ∈ ((⟨d, m, isDual, none⟩ : ESpace S).toSpace sym).sectors ↔ φ s ∈ d := by
        rw [List.mem_iff_getElem?, List.mem_iff_getElem?]
        exact exists_congr fun j => hsl j s
      rw [this, hmem, List.mem_map_of_injective hφi]
    refine keeps_of_kept hc hst kept _ hks (fun p hp => ?_) (fun s hs => (hLmem s).1 ((hmsl s).1 hs))
      (fun s _ => by simp) fun s hs => ?_
    · have hs := List.getElem?_eq_getElem (hlt p hp)
      refine ⟨_, hs, (bits_of_mem hc hD (hsub p hp).1 hs).symm, ?_⟩
      obtain ⟨n, hn⟩ := List.getElem?_of_mem hp
      obtain ⟨j, j1, j2⟩ := hpair n (φ (co.sectors[p.1]'(hlt p hp))) (countTrue p.2)
        (by rw [List.getElem?_map, hget n p _ hn hs]; rfl) (by rw [hcs, List.getElem?_map, hn]; rfl)
      exact ⟨j, (hsl j _).2 j1, j2⟩
    · rw [hmsl, hLmem]
      constructor
      · rintro ⟨p, hp, h⟩
        have := bits_of_mem hc hD (hsub p hp).1 h
        unfold bits at this
        rw [this]
        exact (hsub p hp).2
      · intro ht
        obtain ⟨i, hi⟩ := List.getElem?_of_mem hs
        by_contra hno
        refine bits_of_not_mem hc (D := D) hi (fun p hp hpi => hno ⟨p, ?_, by rw [hpi]; exact hi⟩) ht
        rw [hkept, List.mem_filter]
        refine ⟨hp, (any_id_iff _).2 ?_⟩
        have := bits_of_mem hc hD hp (by rw [hpi]; exact hi)
        rw [← this]
        exact ht

end Cyten.FT
