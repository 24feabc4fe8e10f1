import Verif.Model.FTCompare
import Verif.Props.FTData

/-!
# C58: comparing tensors (`almost_equal`) with the fusion tree backend
-/

namespace Cyten.FT
open Cyten.Abelian Cyten.FT.Spec Cyten.ListSum

variable {S K : Type} [LinearOrder S]

/-- What the loop over all blocks of two tensors visits. -/
structure Visits (a b : FEnts K) (L : List (Option ((ℕ × ℕ) × Mat K) × Option ((ℕ × ℕ) × Mat K))) : Prop where
  left : ∀ p ∈ a, ∃ o, (some p, o) ∈ L
  right : ∀ q ∈ b, ∃ o, (o, some q) ∈ L
  memLeft : ∀ p o, (some p, o) ∈ L → p ∈ a
  memRight : ∀ q o, (o, some q) ∈ L → q ∈ b
  both : ∀ p q, (some p, some q) ∈ L → p.1.1 = q.1.1
  aloneLeft : ∀ p, (some p, none) ∈ L → ∀ q ∈ b, q.1.1 ≠ p.1.1
  aloneRight : ∀ q, (none, some q) ∈ L → ∀ p ∈ a, p.1.1 ≠ q.1.1

theorem visits_iterAll (a b : FEnts K) (ha : (a.map fun e => e.1.1).Pairwise (· < ·))
    (hb : (b.map fun e => e.1.1).Pairwise (· < ·)) :
    Visits a b (iterAll (fun e : (ℕ × ℕ) × Mat K => e.1.1) (fun e : (ℕ × ℕ) × Mat K => e.1.1) a b) := by
  obtain ⟨g1, g2, g3, g4⟩ := mergeAll_spec (fun e : (ℕ × ℕ) × Mat K => e.1.1)
    (fun e : (ℕ × ℕ) × Mat K => e.1.1) _ a b (le_refl _)
  have hs := mergeAll_sorted (fun e : (ℕ × ℕ) × Mat K => e.1.1) (fun e : (ℕ × ℕ) × Mat K => e.1.1)
    (a.length + b.length) a b ha hb
  unfold iterAll
  generalize mergeAll (fun e : (ℕ × ℕ) × Mat K => e.1.1) (fun e : (ℕ × ℕ) × Mat K => e.1.1) (a.length + b.length) a b = L
    at g1 g2 g3 g4 hs ⊢
  have hinj := fun {o o'} (h : o ∈ L) (h' : o' ∈ L) => List.inj_on_of_nodup_map (nodup_of_lt hs) h h'
  have left : ∀ p ∈ a, ∃ o, (some p, o) ∈ L := fun p hp => by
    rw [← g1] at hp
    obtain ⟨⟨o1, o2⟩, ho, he⟩ := List.mem_filterMap.1 hp
    simp only at he
    subst he
    exact ⟨o2, ho⟩
  have right : ∀ q ∈ b, ∃ o, (o, some q) ∈ L := fun q hq => by
    rw [← g2] at hq
    obtain ⟨⟨o1, o2⟩, ho, he⟩ := List.mem_filterMap.1 hq
    simp only at he
    subst he
    exact ⟨o1, ho⟩
  refine ⟨left, right, fun p o h => ?_, fun q o h => ?_, g4, fun p h q hq he => ?_, fun q h p hp he => ?_⟩
  · rw [← g1]; exact List.mem_filterMap.2 ⟨_, h, rfl⟩
  · rw [← g2]; exact List.mem_filterMap.2 ⟨_, h, rfl⟩
  · obtain ⟨o, ho⟩ := right q hq
    cases o with
    | none => exact absurd (hinj h ho he.symm) (by simp)
    | some x => exact absurd (hinj h ho (he.symm.trans (g4 x q ho).symm)) (by simp)
  · obtain ⟨o, ho⟩ := left p hp
    exact absurd (hinj h ho he.symm) (by simp)

/-- **C58** (fusion tree backend). What `almost_equal(a, b)` decides, for every entry of every coupled sector:
`|a - b| ≤ atol + rtol |b|` where a block of `a` is stored, `|b| ≤ atol` where no block of `a` is stored. -/
theorem C58_ft_almost_equal_iff [NormedRing K] {cod dom : BLeg S} (hc : Coupled cod) (hd : Coupled dom) (a b : FEnts K)
    (rtol atol : ℝ) (ht : 0 ≤ atol) (ha : FSane cod dom a) (hb : FSane cod dom b) :
    ftAlmostEqual a b rtol atol ↔ ∀ (c : S) (m : Fin (mult cod c)) (n : Fin (mult dom c)),
      ((∃ e ∈ a, cod.sectors[e.1.1]? = some c) →
        ‖matrixOf cod dom a c m n - matrixOf cod dom b c m n‖ ≤ atol + rtol * ‖matrixOf cod dom b c m n‖) ∧
      ((∀ e ∈ a, cod.sectors[e.1.1]? ≠ some c) → ‖matrixOf cod dom b c m n‖ ≤ atol) := by
  have hv := visits_iterAll a b (ha.sorted0 hc hd) (hb.sorted0 hc hd)
  have hshape : ∀ {D : FEnts K}, FSane cod dom D → ∀ e ∈ D, ∀ c, cod.sectors[e.1.1]? = some c →
      e.2.rows = mult cod c ∧ e.2.cols = mult dom c := fun {D} h e he c hs => by
    obtain ⟨c', h1, h2⟩ := h.coupled e he
    have : c' = c := by rw [h1] at hs; exact Option.some.inj hs
    subst this
    rw [mult_eq hc h1, mult_eq hd h2]
    exact h.shape e he
  have hkey : ∀ {e e' : (ℕ × ℕ) × Mat K} {c : S}, cod.sectors[e.1.1]? = some c → cod.sectors[e'.1.1]? = some c →
      e.1.1 = e'.1.1 := fun h h' => nodup_getElem? hc.nodup h h'
  unfold ftAlmostEqual
  constructor
  · intro h c m n
    constructor
    · rintro ⟨p, hp, hs⟩
      obtain ⟨o, ho⟩ := hv.left p hp
      obtain ⟨r1, r2⟩ := hshape ha p hp c hs
      rw [matrixOf_mem ha hc hd hp hs]
      cases o with
      | none =>
        rw [matrixOf_none fun q hq hq' => hv.aloneLeft p ho q hq (hkey hq' hs)]
        have := h _ ho m (r1.symm ▸ m.2) n (r2.symm ▸ n.2)
        simpa [matOf] using this
      | some q =>
        rw [matrixOf_mem hb hc hd (hv.memRight q _ ho) (by rw [← hv.both p q ho]; exact hs)]
        exact h _ ho m (r1.symm ▸ m.2) n (r2.symm ▸ n.2)
    · intro hno
      by_cases hq : ∃ q ∈ b, cod.sectors[q.1.1]? = some c
      · obtain ⟨q, hq, hs⟩ := hq
        obtain ⟨r1, r2⟩ := hshape hb q hq c hs
        obtain ⟨o, ho⟩ := hv.right q hq
        rw [matrixOf_mem hb hc hd hq hs]
        cases o with
        | none => exact h _ ho m (r1.symm ▸ m.2) n (r2.symm ▸ n.2)
        | some p => exact absurd (by rw [hv.both p q ho]; exact hs) (hno p (hv.memLeft p _ ho))
      · push Not at hq
        rw [matrixOf_none hq]
        simpa using ht
  · rintro h ⟨o1, o2⟩ ho
    cases o1 with
    | none =>
      cases o2 with
      | none => trivial
      | some q =>
        have hq := hv.memRight q _ ho
        obtain ⟨c, hs, -⟩ := hb.coupled q hq
        obtain ⟨r1, r2⟩ := hshape hb q hq c hs
        intro m hm n hn
        have := (h c ⟨m, r1 ▸ hm⟩ ⟨n, r2 ▸ hn⟩).2 fun e he he' => hv.aloneRight q ho e he (hkey he' hs)
        rwa [matrixOf_mem hb hc hd hq hs] at this
    | some p =>
      have hp := hv.memLeft p _ ho
      obtain ⟨c, hs, -⟩ := ha.coupled p hp
      obtain ⟨r1, r2⟩ := hshape ha p hp c hs
      cases o2 with
      | none =>
        intro m hm n hn
        have := (h c ⟨m, r1 ▸ hm⟩ ⟨n, r2 ▸ hn⟩).1 ⟨p, hp, hs⟩
        rw [matrixOf_mem ha hc hd hp hs, matrixOf_none fun q hq hq' => hv.aloneLeft p ho q hq (hkey hq' hs)] at this
        simpa [matOf] using this
      | some q =>
        intro m hm n hn
        have := (h c ⟨m, r1 ▸ hm⟩ ⟨n, r2 ▸ hn⟩).1 ⟨p, hp, hs⟩
        rw [matrixOf_mem ha hc hd hp hs,
          matrixOf_mem hb hc hd (hv.memRight q _ ho) (by rw [← hv.both p q ho]; exact hs)] at this
        exact this

/-- **C58** (fusion tree backend). If `almost_equal(a, b)` is true, then `|a - b| ≤ atol + rtol |b|` for every entry of every
coupled sector, whatever blocks are stored. -/
theorem C58_ft_almost_equal_sound [NormedRing K] {cod dom : BLeg S} (hc : Coupled cod) (hd : Coupled dom) (a b : FEnts K)
    (rtol atol : ℝ) (ht : 0 ≤ atol) (hr : 0 ≤ rtol) (ha : FSane cod dom a) (hb : FSane cod dom b)
    (h : ftAlmostEqual a b rtol atol) (c : S) (m : Fin (mult cod c)) (n : Fin (mult dom c)) :
    ‖matrixOf cod dom a c m n - matrixOf cod dom b c m n‖ ≤ atol + rtol * ‖matrixOf cod dom b c m n‖ := by
  obtain ⟨h1, h2⟩ := (C58_ft_almost_equal_iff hc hd a b rtol atol ht ha hb).1 h c m n
  by_cases hm : ∃ e ∈ a, cod.sectors[e.1.1]? = some c
  · exact h1 hm
  · push Not at hm
    rw [matrixOf_none hm, Matrix.zero_apply, zero_sub, norm_neg]
    have := mul_nonneg hr (norm_nonneg (matrixOf cod dom b c m n))
    linarith [h2 hm]

/-- **C58** (fusion tree backend). Conversely, if `|a - b| ≤ atol + rtol |b|` for every entry of every coupled sector, then
`almost_equal(a, b)` is true, provided that every block stored in `b` is stored in `a`, or that `rtol` is zero. -/
theorem C58_ft_almost_equal_complete_partial [NormedRing K] {cod dom : BLeg S} (hc : Coupled cod) (hd : Coupled dom)
    (a b : FEnts K) (rtol atol : ℝ) (ht : 0 ≤ atol) (ha : FSane cod dom a) (hb : FSane cod dom b)
    (hs : rtol = 0 ∨ ∀ q ∈ b, ∃ p ∈ a, p.1.1 = q.1.1)
    (h : ∀ (c : S) (m : Fin (mult cod c)) (n : Fin (mult dom c)),
      ‖matrixOf cod dom a c m n - matrixOf cod dom b c m n‖ ≤ atol + rtol * ‖matrixOf cod dom b c m n‖) :
    ftAlmostEqual a b rtol atol := by
  refine (C58_ft_almost_equal_iff hc hd a b rtol atol ht ha hb).2 fun c m n => ⟨fun _ => h c m n, fun hno => ?_⟩
  rcases hs with rfl | hs
  · have := h c m n
    rwa [matrixOf_none hno, Matrix.zero_apply, zero_sub, norm_neg, zero_mul, add_zero] at this
  · rw [matrixOf_none (D := b) fun q hq he => ?_]
    · simpa using ht
    · obtain ⟨p, hp, hpq⟩ := hs q hq
      exact hno p hp (by rw [hpq]; exact he)

/-! ## The finding, and concrete cases -/

namespace CompareExample

def leg : BLeg ℕ := ⟨[0, 3], [1, 2]⟩
theorem leg_coupled : Coupled leg := ⟨by decide, by decide⟩
/-- One stored block, the second sector, all entries `x`. -/
def one (x : ℝ) : FEnts ℝ := [((1, 1), ⟨2, 2, fun _ _ => x⟩)]

theorem one_sane (x : ℝ) : FSane leg leg (one x) := by
  refine ⟨fun e he => ?_, fun e he => ?_, by simp [one]⟩
  · rw [List.mem_singleton.1 he]; exact ⟨3, rfl, rfl⟩
  · rw [List.mem_singleton.1 he]; exact ⟨rfl, rfl⟩

theorem nil_sane : FSane leg leg ([] : FEnts ℝ) := ⟨by simp, by simp, List.Pairwise.nil⟩

end CompareExample

open CompareExample in
/-- **C58** (fusion tree backend), negation: the result depends on whether a zero block is stored. The same tensors, with the
same tolerances, are "almost equal" or not. -/
theorem C58_ft_almost_equal_bug : ∃ a a' b : FEnts ℝ, FSane leg leg a ∧ FSane leg leg a' ∧ FSane leg leg b ∧
    (∀ c, matrixOf leg leg a c = matrixOf leg leg a' c) ∧ ftAlmostEqual a b 1 0 ∧ ¬ ftAlmostEqual a' b 1 0 := by
  refine ⟨one 0, [], one 1, one_sane 0, nil_sane, one_sane 1, fun c => ?_, ?_, ?_⟩
  · ext m n
    simp only [matrixOf, one, List.find?_cons, List.find?_nil]
    split <;> rename_i h
    · split at h <;> simp_all
      rw [← h]
    · rfl
  · refine C58_ft_almost_equal_complete_partial leg_coupled leg_coupled _ _ 1 0 le_rfl (one_sane 0) (one_sane 1)
      (Or.inr fun q hq => ?_) fun c m n => ?_
    · rw [List.mem_singleton.1 hq]
      exact ⟨_, List.mem_singleton_self _, rfl⟩
    · by_cases hs : leg.sectors[1]? = some c
      · rw [matrixOf_mem (one_sane 0) leg_coupled leg_coupled (List.mem_singleton_self _) hs,
          matrixOf_mem (one_sane 1) leg_coupled leg_coupled (List.mem_singleton_self _) hs]
        simp [matOf]
      · have h0 : ∀ x, matrixOf leg leg (one x) c = 0 := fun x => matrixOf_none fun e he => by
          rw [List.mem_singleton.1 he]; exact hs
        rw [h0, h0]
        simp
  · intro h
    have := ((C58_ft_almost_equal_iff leg_coupled leg_coupled _ _ 1 0 le_rfl nil_sane (one_sane 1)).1 h 3
      ⟨0, by decide⟩ ⟨0, by decide⟩).2 (by simp)
    rw [matrixOf_mem (one_sane 1) leg_coupled leg_coupled (List.mem_singleton_self _) rfl] at this
    simp [matOf] at this
    linarith

end Cyten.FT
