import Verif.Props.FTMaskOps

/-!
# C92: logical operations on masks of the fusion tree backend

The operations are right if the sectors of the large leg are sorted (always if the leg is not dual) and wrong otherwise.
-/

namespace Cyten.FT
open Cyten.Abelian Cyten.Spaces Cyten.Tools Cyten.FT.Spec Cyten.Props Cyten.ListSum

variable {S K : Type} [LinearOrder S]

/-- The multiplicities of a leg whose sectors are sorted. -/
theorem mults_of_sorted {leg : SpaceData S} {co : BLeg S} (h : SortedLeg leg co) (hsec : leg.sectors = co.sectors) :
    leg.mults = co.mults := by
  have hl : leg.mults.length = co.mults.length := by rw [← h.len, hsec, h.coupled.len]
  refine List.ext_getElem hl fun i h1 h2 => ?_
  have h3 : i < leg.sectors.length := by rw [h.len]; exact h1
  have hs := List.getElem?_eq_getElem h3
  have := h.mult i _ hs
  rw [mult_eq h.coupled (i := i) (by rw [← hsec]; exact hs), List.getElem?_eq_getElem h1] at this
  rw [Option.some.inj this]
  simp [List.getD_eq_getElem?_getD, h2]

theorem keeps_block {co st : BLeg S} {M : MEnts} {mk : S → List Bool} (hM : KeepsData co st M mk) {i : ℕ} {s : S}
    (hs : co.sectors[i]? = some s) :
    (∀ e ∈ M, e.1.2 = i → e.2 = mk s) ∧ ((∀ e ∈ M, e.1.2 ≠ i) → mk s = zeros1 (co.mults.getD i 0)) := by
  have hsm := List.mem_of_getElem? hs
  refine ⟨fun e he h => ?_, fun h => ?_⟩
  · obtain ⟨t, _, t2, t3⟩ := hM.block e he
    rw [h, hs] at t2
    rw [t3, Option.some.inj t2]
  · have : s ∉ st.sectors := by
      intro hm
      obtain ⟨e, he, h1⟩ := hM.stored s hm
      obtain ⟨t, t1, t2, _⟩ := hM.block e he
      rw [h1] at t1
      rw [← Option.some.inj t1] at t2
      exact h e he (nodup_getElem? hM.coupledLarge.nodup t2 hs)
    rw [hM.kept s hsm] at this
    rw [not_mem_true this, hM.len s hsm, mult_eq hM.coupledLarge hs]
    rfl

/-- The blocks that are read, one for each sector. -/
theorem readBlocks_eq (sym : Sym S) {large : ESpace S} {co st : BLeg S} (h : SortedLeg (large.toSpace sym) co)
    (hsec : large.sectors sym = co.sectors) {M : MEnts} {mk : S → List Bool} (hM : KeepsData co st M mk) :
    readBlocks sym large co M = some (co.sectors.map mk) := by
  have hmult : large.mults = co.mults := mults_of_sorted h hsec
  have hdl : large.defining.length = co.sectors.length := by
    rw [← hsec]
    unfold ESpace.sectors
    cases large.isDual <;> simp
  unfold readBlocks
  by_cases hd : large.isDual = true
  · rw [if_pos hd]
    have hall : ∀ j < large.defining.length, (match (large.sectors sym)[j]? with
        | none => none
        | some c => (blockIndFromCoupled M co c).map fun
          | none => zeros1 (large.mults.getD j 0)
          | some n => (M[n]?.map Prod.snd).getD []) = some ((co.sectors[j]?.map mk).getD []) := by
      intro j hj
      have hs := List.getElem?_eq_getElem (hdl ▸ hj : j < co.sectors.length)
      obtain ⟨b1, b2⟩ := keeps_block hM hs
      rw [hsec, hs]
      simp only [Option.map_some, Option.getD_some]
      unfold blockIndFromCoupled
      rw [if_pos (List.getElem_mem _), hM.coupledLarge.nodup.idxOf_getElem]
      rcases blockIndFromDomain_spec M hM.sorted j with ⟨n, e, e1, e2, e3⟩ | ⟨e1, e2⟩
      · rw [e1]
        simp only [Option.map_some, e2, Option.getD_some]
        rw [b1 e (List.mem_of_getElem? e2) e3]
      · rw [e1]
        simp only [Option.map_some]
        rw [b2 e2, hmult]
    refine Eq.trans (mapM_range_some _ _ (fun j => (co.sectors[j]?.map mk).getD []) hall) ?_
    rw [hdl]
    congr 1
    refine List.ext_getElem (by simp) fun i h1 h2 => ?_
    have : i < co.sectors.length := by simpa using h1
    simp [this]
  · rw [if_neg hd]
    have hF : From 0 (M.map fun e => (e.1.2, e.2)) := ⟨by simp, by rw [List.map_map]; exact hM.sorted⟩
    rw [reduceLoop_eq _ _ _ hF, hmult]
    congr 1
    refine List.ext_getElem (by simp [hM.coupledLarge.len]) fun i h1 h2 => ?_
    have hi : i < co.sectors.length := by simpa using h2
    have hs := List.getElem?_eq_getElem hi
    obtain ⟨b1, b2⟩ := keeps_block hM hs
    have him : i < co.mults.length := by rw [← hM.coupledLarge.len]; exact hi
    simp only [List.getElem_map, List.getElem_zipIdx, Nat.zero_add, blockOr]
    cases hx : List.lookup i (M.map fun e => (e.1.2, e.2)) with
    | none =>
      have := lookup_none_iff.1 hx
      rw [b2 fun e he h => this _ (List.mem_map_of_mem he) h]
      simp [List.getD_eq_getElem?_getD, him]
    | some x =>
      obtain ⟨e, he, hex⟩ := List.mem_map.1 (lookup_mem hx)
      simp only [Prod.mk.injEq] at hex
      simp only [Option.getD_some]
      rw [← hex.2, b1 e he hex.1]

/-- The last part of the operations, if the sectors of the leg are sorted. -/
theorem build_makes (sym : Sym S) (hdd : ∀ s, sym.dual (sym.dual s) = s) {large : ESpace S} {co : BLeg S}
    (hdef : large.defining.Pairwise (· < ·)) (h : SortedLeg (large.toSpace sym) co) (hsec : large.sectors sym = co.sectors)
    (mk : S → List Bool) (hlen : ∀ s ∈ co.sectors, (mk s).length = mult co s) :
    Makes sym large.isDual co (buildFMask large (keepBlocks ((co.sectors.map mk).zipIdx.map fun p => (p.2, p.1)))) mk := by
  set kept := keepBlocks ((co.sectors.map mk).zipIdx.map fun p => (p.2, p.1)) with hkept
  have hdl : large.defining.length = co.sectors.length := by
    rw [← hsec]
    unfold ESpace.sectors
    cases large.isDual <;> simp
  let φ : S → S := fun c => if large.isDual then sym.dual c else c
  have hφ : ∀ (j : ℕ) (c : S), large.defining[j]? = some c → co.sectors[j]? = some (φ c) := by
    intro j c hj
    have := sectors_of_dual sym large j
    rw [hj] at this
    rw [← hsec]
    exact this
  have hφi : Function.Injective φ := by
    intro a b hab
    have hab : (if large.isDual then sym.dual a else a) = if large.isDual then sym.dual b else b := hab
    cases hd : large.isDual with
    | false => rw [hd] at hab; simpa using hab
    | true => rw [hd] at hab; simp only [if_true] at hab; rw [← hdd a, ← hdd b, hab]
  have hmk : ∀ p ∈ kept, (∃ s, co.sectors[p.1]? = some s ∧ p.2 = mk s) ∧ true ∈ p.2 := by
    intro p hp
    rw [hkept, keepBlocks, List.mem_filter] at hp
    obtain ⟨hp, hc⟩ := hp
    obtain ⟨q, hq, rfl⟩ := List.mem_map.1 hp
    have := List.mk_mem_zipIdx_iff_getElem?.1 hq
    rw [List.getElem?_map] at this
    obtain ⟨s, s1, s2⟩ := Option.map_eq_some_iff.1 this
    exact ⟨⟨s, s1, s2.symm⟩, (countTrue_ne _).1 hc⟩
  have hkm : ∀ (i : ℕ) (s : S), co.sectors[i]? = some s → true ∈ mk s → (i, mk s) ∈ kept := by
    intro i s hs ht
    rw [hkept, keepBlocks, List.mem_filter]
    refine ⟨List.mem_map.2 ⟨(mk s, i), List.mk_mem_zipIdx_iff_getElem?.2 (by rw [List.getElem?_map, hs]; rfl), rfl⟩, ?_⟩
    exact (countTrue_ne _).2 ht
  have hks : (kept.map Prod.fst).Pairwise (· < ·) := by
    have hsub : kept.Sublist ((co.sectors.map mk).zipIdx.map fun p => (p.2, p.1)) := List.filter_sublist
    refine List.Pairwise.sublist (hsub.map Prod.fst) ?_
    rw [List.map_map]
    have : (Prod.fst ∘ fun p : List Bool × ℕ => (p.2, p.1)) = Prod.snd := rfl
    rw [this, List.zipIdx_map_snd, ← List.range_eq_range']
    exact List.pairwise_lt_range
  have hlt : ∀ p ∈ kept, p.1 < large.defining.length := fun p hp => by
    obtain ⟨⟨s, hs, _⟩, _⟩ := hmk p hp
    rw [hdl]; exact (List.getElem?_eq_some_iff.1 hs).1
  obtain ⟨L, hL⟩ := exists_sectors (co := ⟨large.defining, []⟩) kept hlt
  have hLlen : L.length = kept.length := by simpa using congrArg List.length hL
  have hsecL : (kept.filterMap fun p => large.defining[p.1]?) = L := by
    have : (kept.filterMap fun p => large.defining[p.1]?) = (kept.map fun p => large.defining[p.1]?).filterMap id := by
      rw [List.filterMap_map]; rfl
    rw [this, ← hL]
    simp
  have hget : ∀ (n : ℕ) (p : ℕ × List Bool), kept[n]? = some p → L[n]? = large.defining[p.1]? := by
    intro n p hp
    have := congrArg (fun l => l[n]?) hL
    simp only [List.getElem?_map, hp, Option.map_some] at this
    have hps := List.getElem?_eq_getElem (hlt p (List.mem_of_getElem? hp))
    rw [hps] at this ⊢
    simpa using this
  have hLs : L.Pairwise (· < ·) := by
    rw [List.pairwise_iff_getElem]
    intro i j hi hj hij
    have hi' : i < kept.length := hLlen ▸ hi
    have hj' : j < kept.length := hLlen ▸ hj
    have a1 := hget i _ (List.getElem?_eq_getElem hi')
    have a2 := hget j _ (List.getElem?_eq_getElem hj')
    have b1 := hlt _ (List.getElem_mem hi')
    have b2 := hlt _ (List.getElem_mem hj')
    rw [List.getElem?_eq_getElem hi, List.getElem?_eq_getElem b1] at a1
    rw [List.getElem?_eq_getElem hj, List.getElem?_eq_getElem b2] at a2
    rw [Option.some.inj a1, Option.some.inj a2]
    rw [List.pairwise_map] at hks
    exact List.pairwise_iff_getElem.1 hdef _ _ b1 b2 (List.pairwise_iff_getElem.1 hks i j hi' hj' hij)
  have hr : buildFMask large kept = ⟨⟨L, kept.map fun p => countTrue p.2, large.isDual, none⟩, maskData kept⟩ := by
    unfold buildFMask
    rw [hsecL]
  rw [hr]
  have hsl : ∀ (j : ℕ), ((⟨L, kept.map fun p => countTrue p.2, large.isDual, none⟩ : ESpace S).toSpace sym).sectors[j]? =
      L[j]?.map φ := fun j => sectors_of_dual sym _ j
  have hslL : ((⟨L, kept.map fun p => countTrue p.2, large.isDual, none⟩ : ESpace S).toSpace sym).sectors = L.map φ := by
    apply List.ext_getElem?
    intro j
    rw [hsl, List.getElem?_map]
  have hmsl : ∀ s, s ∈ L.map φ ↔ ∃ p ∈ kept, co.sectors[p.1]? = some s := by
    intro s
    constructor
    · intro hs
      obtain ⟨c, hc, rfl⟩ := List.mem_map.1 hs
      obtain ⟨n, hn⟩ := List.getElem?_of_mem hc
      have hnl : n < kept.length := hLlen ▸ (List.getElem?_eq_some_iff.1 hn).1
      have := hget n _ (List.getElem?_eq_getElem hnl)
      rw [hn] at this
      exact ⟨_, List.getElem_mem hnl, hφ _ _ this.symm⟩
    · rintro ⟨p, hp, hs⟩
      obtain ⟨n, hn⟩ := List.getElem?_of_mem hp
      have h1 := hget n p hn
      have h2 := List.getElem?_eq_getElem (hlt p hp)
      rw [h2] at h1
      have h3 := hφ _ _ h2
      rw [hs] at h3
      rw [Option.some.inj h3]
      exact List.mem_map_of_mem (List.mem_of_getElem? h1)
  refine ⟨hLs, rfl, by simp [hLlen], exists_sortedLeg _ ?_ ?_, fun st hst => ?_⟩
  · rw [hslL, List.length_map, hLlen]
    show _ = (kept.map fun p => countTrue p.2).length
    rw [List.length_map]
  · rw [hslL]
    exact (show L.Nodup from hLs.imp ne_of_lt).map hφi
  · refine keeps_of_kept h.coupled hst kept mk hks (fun p hp => ?_) (fun s hs => ?_) hlen fun s hs => ?_
    · obtain ⟨⟨s, s1, s2⟩, _⟩ := hmk p hp
      refine ⟨s, s1, s2, ?_⟩
      obtain ⟨n, hn⟩ := List.getElem?_of_mem hp
      have h1 := hget n p hn
      have h2 := List.getElem?_eq_getElem (hlt p hp)
      rw [h2] at h1
      have h3 := hφ _ _ h2
      rw [s1] at h3
      refine ⟨n, ?_, ?_⟩
      · rw [hsl, h1, Option.map_some, h3]
      · show (kept.map fun p => countTrue p.2)[n]? = _
        rw [List.getElem?_map, hn]
        rfl
    · rw [hslL] at hs
      exact (hmsl s).1 hs
    · rw [hslL, hmsl]
      constructor
      · rintro ⟨p, hp, h1⟩
        obtain ⟨⟨t, t1, t2⟩, t3⟩ := hmk p hp
        rw [h1] at t1
        rw [Option.some.inj t1, ← t2]
        exact t3
      · intro ht
        obtain ⟨i, hi⟩ := List.getElem?_of_mem hs
        exact ⟨_, hkm i s hi ht, hi⟩

/-- **C92** (unary operations, partial). `~mask`: the indices of the result are those where the function gives true,
provided the sectors of the large leg are sorted, which is so for a leg that is not dual and for a dual leg with
self-dual sectors.  Missing: other dual legs, for which the code is wrong (`C92_unary_dual_wrong`). -/
theorem C92_unary_partial (sym : Sym S) (hdd : ∀ s, sym.dual (sym.dual s) = s) {large : ESpace S} {co st : BLeg S}
    (hdef : large.defining.Pairwise (· < ·)) (h : SortedLeg (large.toSpace sym) co) (hsec : large.sectors sym = co.sectors)
    (M : MEnts) (mk : S → List Bool) (hM : KeepsData co st M mk) (g : Bool → Bool) :
    ∃ r, ftMaskUnary sym (List.map g) large co M = some r ∧ Makes sym large.isDual co r fun s => (mk s).map g := by
  unfold ftMaskUnary
  rw [readBlocks_eq sym h hsec hM]
  refine ⟨_, rfl, ?_⟩
  have := build_makes sym hdd hdef h hsec (fun s => (mk s).map g) fun s hs => by rw [List.length_map]; exact hM.len s hs
  have e : ((co.sectors.map mk).zipIdx.map fun p => (p.2, List.map g p.1)) =
      (co.sectors.map fun s => (mk s).map g).zipIdx.map fun p => (p.2, p.1) := by
    have : (co.sectors.map fun s => (mk s).map g) = (co.sectors.map mk).map (List.map g) := by rw [List.map_map]; rfl
    rw [this, List.zipIdx_map (f := List.map g), List.map_map]
    rfl
  simp only [e]
  exact this

/-- **C92** (binary operations, partial). `mask1 & mask2` and so on, with the same restriction. -/
theorem C92_binary_partial (sym : Sym S) (hdd : ∀ s, sym.dual (sym.dual s) = s) {large : ESpace S} {co st₁ st₂ : BLeg S}
    (hdef : large.defining.Pairwise (· < ·)) (h : SortedLeg (large.toSpace sym) co) (hsec : large.sectors sym = co.sectors)
    (M₁ M₂ : MEnts) (mk₁ mk₂ : S → List Bool) (h₁ : KeepsData co st₁ M₁ mk₁) (h₂ : KeepsData co st₂ M₂ mk₂)
    (g : Bool → Bool → Bool) :
    ∃ r, ftMaskBinary sym (List.zipWith g) large co M₁ M₂ = some r ∧
      Makes sym large.isDual co r fun s => List.zipWith g (mk₁ s) (mk₂ s) := by
  unfold ftMaskBinary
  rw [readBlocks_eq sym h hsec h₁, readBlocks_eq sym h hsec h₂]
  refine ⟨_, rfl, ?_⟩
  have := build_makes sym hdd hdef h hsec (fun s => List.zipWith g (mk₁ s) (mk₂ s)) fun s hs => by
    rw [List.length_zipWith, h₁.len s hs, h₂.len s hs, min_self]
  have e : List.zipWith (List.zipWith g) (co.sectors.map mk₁) (co.sectors.map mk₂) =
      co.sectors.map fun s => List.zipWith g (mk₁ s) (mk₂ s) := by
    rw [List.zipWith_map, List.zipWith_self]
  simp only [e]
  exact this

end Cyten.FT
