import Verif.Spec.FTMaskOps
import Verif.Props.FTDiag3
import Verif.Lemmas.FTScale2

/-! # Lemmas for masks of the fusion tree backend -/

namespace Cyten.FT
open Cyten.Abelian Cyten.Spaces Cyten.Tools Cyten.FT.Spec Cyten.Props Cyten.ListSum

variable {S K : Type} [LinearOrder S]

/-- The `TensorProduct` of a leg exists. -/
theorem exists_sortedLeg (leg : SpaceData S) (hlen : leg.sectors.length = leg.mults.length) (hn : leg.sectors.Nodup) :
    ∃ co, SortedLeg leg co := by
  let l := leg.sectors.zip leg.mults
  let l' := l.insertionSort fun p q => p.1 ≤ q.1
  have hp : l'.Perm l := List.perm_insertionSort _ _
  have hfst : l.map Prod.fst = leg.sectors := by
    simp [l, List.map_fst_zip, hlen]
  have hn' : (l'.map Prod.fst).Nodup := (hp.map Prod.fst).nodup_iff.2 (hfst ▸ hn)
  have hs : (l'.map Prod.fst).Pairwise (· < ·) := by
    have a1 : (l'.map Prod.fst).Pairwise (· ≤ ·) := by
      haveI : Std.Total (fun p q : S × ℕ => p.1 ≤ q.1) := ⟨fun a b => le_total _ _⟩
      haveI : IsTrans (S × ℕ) (fun p q : S × ℕ => p.1 ≤ q.1) := ⟨fun a b c => le_trans⟩
      rw [List.pairwise_map]
      exact List.pairwise_insertionSort _ l
    exact (a1.and hn').imp fun h => lt_of_le_of_ne h.1 h.2
  refine ⟨⟨l'.map Prod.fst, l'.map Prod.snd⟩, ⟨hs, by simp⟩, hlen, hn, fun s => ?_, fun j s hj => ?_⟩
  · rw [← hfst]
    exact (hp.map Prod.fst).mem_iff
  · have hjl := (List.getElem?_eq_some_iff.1 hj).1
    have hm : leg.mults[j]? = some leg.mults[j] := List.getElem?_eq_getElem (hlen ▸ hjl)
    have hmem : (s, leg.mults[j]) ∈ l := by
      refine List.mem_of_getElem? (i := j) ?_
      rw [List.getElem?_zip_eq_some]
      exact ⟨hj, hm⟩
    obtain ⟨i, hi⟩ := List.getElem?_of_mem (hp.mem_iff.2 hmem)
    rw [hm, mult_eq (t := ⟨l'.map Prod.fst, l'.map Prod.snd⟩) ⟨hs, by simp⟩ (i := i) (by simp [hi])]
    simp [hi]

/-- The sectors of the kept blocks. -/
theorem exists_sectors {co : BLeg S} (kept : DEnts Bool) (h : ∀ p ∈ kept, p.1 < co.sectors.length) :
    ∃ L : List S, L.map some = kept.map fun p => co.sectors[p.1]? := by
  induction kept with
  | nil => exact ⟨[], rfl⟩
  | cons p l ih =>
    obtain ⟨L, hL⟩ := ih fun q hq => h q (List.mem_cons_of_mem _ hq)
    refine ⟨co.sectors[p.1]'(h p List.mem_cons_self) :: L, ?_⟩
    rw [List.map_cons, hL, List.map_cons, List.getElem?_eq_getElem]

theorem mem_maskData {kept : DEnts Bool} {e : (ℕ × ℕ) × List Bool} (he : e ∈ maskData kept) :
    kept[e.1.1]? = some (e.1.2, e.2) := by
  obtain ⟨x, hx, rfl⟩ := List.mem_map.1 he
  exact List.mk_mem_zipIdx_iff_getElem?.1 hx

theorem maskData_mem {kept : DEnts Bool} {n i : ℕ} {b : List Bool} (h : kept[n]? = some (i, b)) :
    ((n, i), b) ∈ maskData kept :=
  List.mem_map.2 ⟨((i, b), n), List.mk_mem_zipIdx_iff_getElem?.2 h, rfl⟩

/-- Data whose blocks are numbered one after another, in the order of the sorted sectors of the large leg. -/
theorem keeps_of_kept {co : BLeg S} (hc : Coupled co) {sl : SpaceData S} {st : BLeg S} (hst : SortedLeg sl st)
    (kept : DEnts Bool) (mk : S → List Bool) (hs : (kept.map Prod.fst).Pairwise (· < ·))
    (hk : ∀ p ∈ kept, ∃ s, co.sectors[p.1]? = some s ∧ p.2 = mk s ∧
      ∃ j : ℕ, sl.sectors[j]? = some s ∧ sl.mults[j]? = some (countTrue p.2))
    (hm : ∀ s ∈ sl.sectors, ∃ p ∈ kept, co.sectors[p.1]? = some s)
    (hlen : ∀ s ∈ co.sectors, (mk s).length = mult co s)
    (hkeep : ∀ s ∈ co.sectors, s ∈ sl.sectors ↔ true ∈ mk s) : KeepsData co st (maskData kept) mk := by
  obtain ⟨L, hL⟩ := exists_sectors (co := co) kept fun p hp => by
    obtain ⟨s, h, _⟩ := hk p hp
    exact (List.getElem?_eq_some_iff.1 h).1
  have hget : ∀ (n : ℕ) (p : ℕ × List Bool) (s : S), kept[n]? = some p → (L[n]? = some s ↔ co.sectors[p.1]? = some s) := by
    intro n p s hp
    have := congrArg (fun l => l[n]?) hL
    simp only [List.getElem?_map, hp, Option.map_some] at this
    constructor
    · intro h
      rw [h] at this
      simpa using this.symm
    · intro h
      rw [h] at this
      simpa using this
  have hLlen : L.length = kept.length := by simpa using congrArg List.length hL
  have hLs : L.Pairwise (· < ·) := by
    rw [List.pairwise_iff_getElem]
    intro i j hi hj hij
    have e1 : kept[i]? = some kept[i] := List.getElem?_eq_getElem (hLlen ▸ hi)
    have e2 : kept[j]? = some kept[j] := List.getElem?_eq_getElem (hLlen ▸ hj)
    have a1 := (hget i _ L[i] e1).1 (List.getElem?_eq_getElem hi)
    have a2 := (hget j _ L[j] e2).1 (List.getElem?_eq_getElem hj)
    refine (hc.lt_iff a1 a2).1 ?_
    rw [List.pairwise_map] at hs
    exact List.pairwise_iff_getElem.1 hs i j (hLlen ▸ hi) (hLlen ▸ hj) hij
  have hmemL : ∀ s, s ∈ L ↔ ∃ p ∈ kept, co.sectors[p.1]? = some s := by
    intro s
    constructor
    · intro h
      obtain ⟨n, hn⟩ := List.getElem?_of_mem h
      have hlt : n < kept.length := hLlen ▸ (List.getElem?_eq_some_iff.1 hn).1
      exact ⟨_, List.getElem_mem hlt, (hget n _ s (List.getElem?_eq_getElem hlt)).1 hn⟩
    · rintro ⟨p, hp, h⟩
      obtain ⟨n, hn⟩ := List.getElem?_of_mem hp
      exact List.mem_of_getElem? ((hget n _ s hn).2 h)
  have hstL : st.sectors = L := by
    refine List.Perm.eq_of_pairwise (le := (· < ·)) ?_ hst.coupled.sorted hLs ?_
    · intro a b _ _ h1 h2
      exact absurd h1 (lt_asymm h2)
    · rw [List.perm_ext_iff_of_nodup hst.coupled.nodup (hLs.imp ne_of_lt)]
      intro x
      rw [hst.mem, hmemL]
      constructor
      · exact hm x
      · rintro ⟨p, hp, h⟩
        obtain ⟨s, h1, _, j, h2, _⟩ := hk p hp
        rw [h] at h1
        obtain rfl := Option.some.inj h1
        exact List.mem_of_getElem? h2
  refine ⟨⟨hc, hst.coupled, ?_, ?_, ?_, hlen, ?_⟩, ?_, fun s hs => by rw [hst.mem, hkeep s hs]⟩
  · intro e he
    have h1 := mem_maskData he
    obtain ⟨s, s1, s2, _⟩ := hk _ (List.mem_of_getElem? h1)
    exact ⟨s, by rw [hstL, hget _ _ s h1]; exact s1, s1, s2⟩
  · have : (maskData kept).map (fun e => e.1.2) = kept.map Prod.fst := by
      unfold maskData
      rw [List.map_map]
      conv_rhs => rw [← List.zipIdx_map_fst 0 kept, List.map_map]
      rfl
    rw [this]
    exact hs
  · intro s h
    rw [hstL] at h
    obtain ⟨n, hn⟩ := List.getElem?_of_mem h
    have hlt : n < kept.length := hLlen ▸ (List.getElem?_eq_some_iff.1 hn).1
    refine ⟨((n, kept[n].1), kept[n].2), maskData_mem (List.getElem?_eq_getElem hlt), ?_⟩
    rw [hstL]
    exact hn
  · intro s h
    rw [hstL, hmemL] at h
    obtain ⟨p, hp, hps⟩ := h
    obtain ⟨s', h1, h2, j, h3, h4⟩ := hk p hp
    rw [hps] at h1
    obtain rfl := Option.some.inj h1
    have := hst.mult j s h3
    rw [h4] at this
    rw [← Option.some.inj this, h2]
    rfl
  · intro s h
    rw [hstL, hmemL] at h
    obtain ⟨p, _, hps⟩ := h
    exact List.mem_of_getElem? hps

theorem any_id_iff (b : List Bool) : b.any id = true ↔ true ∈ b := by simp

theorem countTrue_ne (b : List Bool) : (countTrue b != 0) = true ↔ true ∈ b := by
  unfold countTrue
  rw [bne_iff_ne, ← List.count_pos_iff]
  omega

theorem not_mem_true {b : List Bool} (h : true ∉ b) : b = List.replicate b.length false := by
  refine List.eq_replicate_iff.2 ⟨rfl, fun x hx => ?_⟩
  cases x with
  | false => rfl
  | true => exact absurd hx h

/-- `block_ind_from_domain_sector_ind` finds the block of a number of the domain. -/
theorem blockIndFromDomain_spec {A : Type} (M : List ((ℕ × ℕ) × A)) (hs : (M.map fun e => e.1.2).Pairwise (· < ·)) (i : ℕ) :
    (∃ (n : ℕ) (e : (ℕ × ℕ) × A), blockIndFromDomain M i = some (some n) ∧ M[n]? = some e ∧ e.1.2 = i) ∨
    (blockIndFromDomain M i = some none ∧ ∀ e ∈ M, e.1.2 ≠ i) := by
  obtain ⟨h1, h2⟩ := searchCol_spec M hs i M.length 0 M.length (by omega) le_rfl (by omega) (by omega)
    (fun k e hk he => absurd (List.getElem?_eq_some_iff.1 he).1 (by omega))
  unfold blockIndFromDomain
  simp only
  set n := searchCol M i M.length 0 M.length
  by_cases h : M[n]?.map (fun e => e.1.2) = some i
  · rw [if_neg (by simpa using h)]
    obtain ⟨e, he, hei⟩ := Option.map_eq_some_iff.1 h
    rw [if_neg]
    · exact Or.inl ⟨n, e, rfl, he, hei⟩
    · intro h'
      obtain ⟨f, hf, hfi⟩ := Option.map_eq_some_iff.1 h'
      obtain ⟨l1, e1⟩ := List.getElem?_eq_some_iff.1 he
      obtain ⟨l2, e2⟩ := List.getElem?_eq_some_iff.1 hf
      rw [List.pairwise_map] at hs
      have := List.pairwise_iff_getElem.1 hs n (n + 1) l1 l2 (by omega)
      rw [e1, e2] at this
      omega
  · rw [if_pos (by simpa using h)]
    refine Or.inr ⟨rfl, fun e he hei => h ?_⟩
    obtain ⟨k, hk⟩ := List.getElem?_of_mem he
    have hkn : ¬ k < n := fun hlt => by have := h1 k e hlt hk; omega
    rcases Nat.lt_or_ge n k with hlt | hge
    · -- then the entry at n is smaller, but at least i
      have hnl : n < M.length := lt_trans hlt (List.getElem?_eq_some_iff.1 hk).1
      have hn := List.getElem?_eq_getElem hnl
      have a1 := h2 n _ le_rfl hn
      obtain ⟨l2, e2⟩ := List.getElem?_eq_some_iff.1 hk
      rw [List.pairwise_map] at hs
      have := List.pairwise_iff_getElem.1 hs n k hnl l2 hlt
      rw [e2] at this
      omega
    · have : k = n := by omega
      rw [← this, hk]
      simp [hei]

end Cyten.FT
