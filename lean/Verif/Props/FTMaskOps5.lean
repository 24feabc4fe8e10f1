import Verif.Props.FTMaskOps4
import Verif.Spec.FTMask

/-!
# C92: indexing of masks of the fusion tree backend, wrong results for dual legs, examples
-/

namespace Cyten.FT
open Cyten.Abelian Cyten.Spaces Cyten.Tools Cyten.FT.Spec Cyten.Props Cyten.ListSum

variable {S K : Type} [LinearOrder S]

theorem count_take_lt (a : List Bool) (l : ℕ) (h : a[l]? = some true) : (a.take l).count true < a.count true := by
  obtain ⟨hl, e⟩ := List.getElem?_eq_some_iff.1 h
  have h1 : a.take (l + 1) = a.take l ++ [true] := by rw [List.take_succ, h]; rfl
  have h2 : (a.take (l + 1)).count true ≤ a.count true := (List.take_sublist _ _).count_le _
  rw [h1, List.count_append] at h2
  simp at h2
  omega

/-- One entry of the matrix of a block: the same vector of the sector, and the kept index. -/
theorem blockMaskEntry_spec (a : List Bool) (hl : 0 < a.length) (hc : 0 < a.count true) (wl ws : ℕ) :
    ∃ b, blockMaskEntry a wl ws (a.count true) = some b ∧
      (b = true ↔ wl / a.length = ws / a.count true ∧ MaskIndex a (ws % a.count true) (wl % a.length)) := by
  unfold blockMaskEntry MaskIndex
  rw [if_neg (by omega)]
  have hlt := Nat.mod_lt wl hl
  simp only
  have hg := List.getElem?_eq_getElem hlt
  cases hx : a[wl % a.length] with
  | false =>
    rw [hx] at hg
    refine ⟨false, by rw [if_pos]; simp [List.getD_eq_getElem?_getD, hg], ?_⟩
    simp [hg]
  | true =>
    rw [hx] at hg
    have hr := count_take_lt a _ hg
    refine ⟨_, by rw [if_neg]; simp [List.getD_eq_getElem?_getD, hg], ?_⟩
    unfold countTrue
    rw [beq_iff_eq, hg]
    simp only [true_and]
    set q := wl / a.length
    set n := a.count true
    set r := (a.take (wl % a.length)).count true
    constructor
    · intro h
      subst h
      constructor
      · rw [Nat.mul_comm, Nat.mul_add_div hc, Nat.div_eq_of_lt hr, Nat.add_zero]
      · rw [Nat.mul_comm, Nat.mul_add_mod, Nat.mod_eq_of_lt hr]
    · rintro ⟨h1, h2⟩
      rw [h1, h2, Nat.mul_comm]
      exact (Nat.div_add_mod ws n).symm

/-- **C92** (indexing). `mask[i, j]`, with `i` in the codomain and `j` in the domain (as found by `parse_index`: the number
of the sector and the offset in it) is true exactly if both belong to the same sector, to the same vector of the sector, and
the mask sends the multiplicity index of the large leg to that of the small leg.  `ll` and `sl` are the large and the small
leg, of a projection or an inclusion. -/
theorem C92_get_element {ll sl : SpaceData S} {co st : BLeg S} (hL : SortedLeg ll co) (hS : SortedLeg sl st)
    (isProjection domDual : Bool)
    (hsorted : domDual = false → if isProjection then ll.sectors = co.sectors else sl.sectors = st.sectors)
    (M : MEnts) (mk : S → List Bool) (hM : KeepsData co st (if isProjection then M else ftMaskDagger M) mk)
    (jl wl js ws : ℕ) (s t : S) (hs : ll.sectors[jl]? = some s) (ht : sl.sectors[js]? = some t) (hpos : 0 < mult co s) :
    ∃ b, (if isProjection then ftMaskGetElement true sl ll domDual co M (js, ws) (jl, wl)
        else ftMaskGetElement false ll sl domDual st M (jl, wl) (js, ws)) = some b ∧
      (b = true ↔ s = t ∧ wl / mult co s = ws / mult st s ∧ MaskIndex (mk s) (ws % mult st s) (wl % mult co s)) := by
  by_cases hst : s = t
  swap
  · refine ⟨false, ?_, by simp [hst]⟩
    cases isProjection with
    | true => simp [ftMaskGetElement, hs, ht, hst]
    | false =>
      have : ¬ t = s := fun h => hst h.symm
      simp [ftMaskGetElement, hs, ht, this]
  subst hst
  have hsS : s ∈ st.sectors := (hS.mem s).2 (List.mem_of_getElem? ht)
  have hsL : s ∈ co.sectors := (hL.mem s).2 (List.mem_of_getElem? hs)
  have hlen := hM.len s hsL
  have hcount := hM.count s hsS
  have hcp : 0 < (mk s).count true := List.count_pos_iff.2 ((hM.kept s hsL).1 hsS)
  obtain ⟨b, b1, b2⟩ := blockMaskEntry_spec (mk s) (by rw [hlen]; exact hpos) hcp wl ws
  rw [hlen, ← hcount] at b2
  rw [← hcount] at b1
  refine ⟨b, ?_, by rw [b2]; simp⟩
  have hms : sl.mults.getD js 0 = mult st s := by
    rw [List.getD_eq_getElem?_getD, hS.mult js s ht]; rfl
  have hidx : ∀ {leg : SpaceData S} {tp : BLeg S} {j : ℕ}, SortedLeg leg tp → leg.sectors[j]? = some s →
      (domDual = false → leg.sectors = tp.sectors) →
      (if domDual then (if s ∈ tp.sectors then some (tp.sectors.idxOf s) else none) else some j) =
        some (tp.sectors.idxOf s) := by
    intro leg tp j htp hj hsd
    have hm : s ∈ tp.sectors := (htp.mem s).2 (List.mem_of_getElem? hj)
    cases hd : domDual with
    | true => simp [hm]
    | false =>
      rw [hsd hd] at hj
      have h1 : tp.sectors[tp.sectors.idxOf s]? = some s := by
        rw [List.getElem?_eq_getElem (List.idxOf_lt_length_of_mem hm), List.getElem_idxOf]
      rw [nodup_getElem? htp.coupled.nodup h1 hj]
      simp
  obtain ⟨e, he, e1⟩ := hM.stored s hsS
  obtain ⟨u, u1, u2, u3⟩ := hM.block e he
  have hu : u = s := by rw [e1] at u1; exact (Option.some.inj u1).symm
  subst hu
  have hn1 : st.sectors.idxOf u = e.1.1 := by
    have h1 : st.sectors[st.sectors.idxOf u]? = some u := by
      rw [List.getElem?_eq_getElem (List.idxOf_lt_length_of_mem hsS), List.getElem_idxOf]
    exact nodup_getElem? hM.coupledSmall.nodup h1 u1
  have hn2 : co.sectors.idxOf u = e.1.2 := by
    have h1 : co.sectors[co.sectors.idxOf u]? = some u := by
      rw [List.getElem?_eq_getElem (List.idxOf_lt_length_of_mem hsL), List.getElem_idxOf]
    exact nodup_getElem? hM.coupledLarge.nodup h1 u2
  cases isProjection with
  | true =>
    simp only [if_true] at hM hsorted he ⊢
    unfold ftMaskGetElement
    simp only [hs, ht, ne_eq, not_true_eq_false, if_false, if_true]
    rw [hidx hL hs hsorted, hn2]
    rcases blockIndFromDomain_spec M hM.sorted e.1.2 with ⟨n, f, f1, f2, f3⟩ | ⟨_, f2⟩
    · have : f = e := List.inj_on_of_nodup_map (nodup_of_lt hM.sorted) (List.mem_of_getElem? f2) he f3
      simp only [Option.bind_some, f1, f2, Option.map_some, Option.getD_some]
      rw [this, u3, hms]
      exact b1
    · exact absurd rfl (f2 e he)
  | false =>
    simp only [Bool.false_eq_true, if_false] at hM hsorted he ⊢
    have hs0 : (M.map fun e => e.1.2).Pairwise (· < ·) := by
      have h0 : ((ftMaskDagger M).map fun e => e.1.1).Pairwise (· < ·) := by
        have := hM.sorted
        rw [List.pairwise_map] at this ⊢
        refine this.imp_of_mem fun {x y} hx hy h => ?_
        obtain ⟨v, v1, v2, _⟩ := hM.block x hx
        obtain ⟨w, w1, w2, _⟩ := hM.block y hy
        exact (hM.coupledSmall.lt_iff v1 w1).2 ((hM.coupledLarge.lt_iff v2 w2).1 h)
      unfold ftMaskDagger at h0
      rw [List.map_map] at h0
      exact h0
    obtain ⟨f, hf, rfl⟩ := List.mem_map.1 he
    unfold ftMaskGetElement
    simp only [hs, ht, ne_eq, not_true_eq_false, if_false, Bool.false_eq_true]
    rw [hidx hS ht hsorted, hn1]
    simp only
    rcases blockIndFromDomain_spec M hs0 f.1.2 with ⟨n, g, g1, g2, g3⟩ | ⟨_, g2⟩
    · have : g = f := List.inj_on_of_nodup_map (nodup_of_lt hs0) (List.mem_of_getElem? g2) hf g3
      simp only [Option.bind_some, g1, g2, Option.map_some, Option.getD_some]
      have u3 : f.2 = mk u := u3
      rw [this, u3, hms]
      exact b1
    · exact absurd rfl (g2 f hf)

end Cyten.FT

/-! ## Examples -/

namespace Cyten.FT.MaskExample
open Cyten.Abelian Cyten.Spaces Cyten.Tools Cyten.FT.Spec Cyten.Props

/-- U(1) charges -/
def u1 : Sym ℤ := ⟨fun _ => 1, fun s => -s, true, true⟩

/-- A dual leg with the defining sectors 0, 1, i.e. the sectors 0, -1. -/
def large : ESpace ℤ := ⟨[0, 1], [1, 2], true, none⟩

/-- Its `TensorProduct` -/
def co : BLeg ℤ := ⟨[-1, 0], [2, 1]⟩

/-- Keeps the first index of the sector -1 and nothing else. -/
def mk : ℤ → List Bool := fun s => if s = -1 then [true, false] else [false]

def st : BLeg ℤ := ⟨[-1], [1]⟩
def M : MEnts := [((0, 0), [true, false])]

theorem sorted : SortedLeg (large.toSpace u1) co := by
  refine ⟨⟨by decide, by decide⟩, by decide, by decide, fun s => ?_, fun j s h => ?_⟩
  · show s ∈ [-1, 0] ↔ s ∈ [-0, -1]
    simp only [List.mem_cons, List.not_mem_nil, or_false]; omega
  · obtain ⟨hj, rfl⟩ := List.getElem?_eq_some_iff.1 h
    have : j < 2 := hj
    obtain rfl | rfl : j = 0 ∨ j = 1 := by omega
    all_goals (clear h this; revert hj; decide)

theorem keeps : KeepsData co st M mk := by
  refine ⟨⟨⟨by decide, by decide⟩, ⟨by decide, by decide⟩, ?_, by decide, by decide, by decide, by decide⟩, by decide, by decide⟩
  intro e he
  simp only [M, List.mem_cons, List.not_mem_nil, or_false] at he
  subst he
  exact ⟨-1, by decide, by decide, by decide⟩

/-- The mask comes from a dense vector (in the order 0, -1, -1 of the leg), and back. -/
example : ftMaskFromBlock u1 large co [false, true, false] = ⟨⟨[1], [1], true, none⟩, M⟩ ∧
    ftMaskToBlock u1.dim true true (large.toSpace u1) co M = [false, true, false] := by decide +kernel

example : ftMaskFromDiagonal u1 true co [(0, [true, false]), (1, [true])] =
    ⟨⟨[0, 1], [1, 1], true, none⟩, [((0, 0), [true, false]), ((1, 1), [true])]⟩ := by decide +kernel

/-- **C92** (defect). The negation of a mask on a dual leg: the blocks get the numbers of the sectors in the leg instead of
those in the domain, so that the data belong to no mask at all. -/
theorem C92_unary_dual_wrong :
    KeepsData co st M mk ∧ SortedLeg (large.toSpace u1) co ∧
    ∃ r, ftMaskUnary u1 (List.map not) large co M = some r ∧
      ∀ (st' : BLeg ℤ) (mk' : ℤ → List Bool), ¬ KeepsData co st' r.data mk' := by
  refine ⟨keeps, sorted, ⟨⟨[0, 1], [1, 1], true, none⟩, [((0, 0), [true]), ((1, 1), [false, true])]⟩, by decide +kernel, ?_⟩
  intro st' mk' h
  obtain ⟨s, _, s2, s3⟩ := h.block ((0, 0), [true]) (by simp)
  have hs : s = -1 := by simpa [co] using s2.symm
  have := h.len s (List.mem_of_getElem? s2)
  rw [← s3, hs] at this
  exact absurd this (by decide)

/-- With equal multiplicities the result is a wrong mask: the negation of the mask that keeps the sector 0 only should keep the sector
-1, but its block belongs to the sector 0 of the large leg while the small leg has the sector -1. -/
theorem C92_unary_dual_sector_wrong :
    ftMaskUnary u1 (List.map not) ⟨[0, 1], [1, 1], true, none⟩ ⟨[-1, 0], [1, 1]⟩ [((0, 1), [true])] =
      some ⟨⟨[1], [1], true, none⟩, [((0, 1), [true])]⟩ := by decide +kernel

/-- The conjunction of a mask with itself is not the mask. -/
theorem C92_binary_dual_wrong :
    ∃ r, ftMaskBinary u1 (List.zipWith and) large co M M = some r ∧ r.data = [((0, 1), [true, false])] ∧
      ∀ (st' : BLeg ℤ) (mk' : ℤ → List Bool), ¬ KeepsData co st' r.data mk' := by
  refine ⟨⟨⟨[1], [1], true, none⟩, [((0, 1), [true, false])]⟩, by decide +kernel, rfl, ?_⟩
  intro st' mk' h
  obtain ⟨s, _, s2, s3⟩ := h.block ((0, 1), [true, false]) (by simp)
  have hs : s = 0 := by simpa [co] using s2.symm
  have := h.len s (List.mem_of_getElem? s2)
  rw [← s3, hs] at this
  exact absurd this (by decide)

/-- A leg that is not dual -/
def large' : ESpace ℤ := ⟨[-1, 0], [2, 1], false, none⟩

theorem sorted' : SortedLeg (large'.toSpace u1) co := by
  refine ⟨⟨by decide, by decide⟩, by decide, by decide, fun s => Iff.rfl, fun j s h => ?_⟩
  obtain ⟨hj, rfl⟩ := List.getElem?_eq_some_iff.1 h
  have : j < 2 := hj
  obtain rfl | rfl : j = 0 ∨ j = 1 := by omega
  all_goals (clear h this; revert hj; decide)

/-- The hypotheses of `C92_unary_partial` are met. -/
example : ∃ r, ftMaskUnary u1 (List.map not) large' co M = some r ∧ Makes u1 false co r fun s => (mk s).map not :=
  C92_unary_partial u1 (fun s => neg_neg s) (by decide) sorted' rfl M mk keeps not

example : ftMaskUnary u1 (List.map not) large' co M =
    some ⟨⟨[-1, 0], [1, 1], false, none⟩, [((0, 0), [false, true]), ((1, 1), [true])]⟩ := by decide +kernel

/-- The transpose lives on the legs with the sectors 0, 1. -/
example : ftMaskTranspose (fun s : ℤ => -s) st co M = [((1, 0), [true, false])] := by decide +kernel

/-- Entries: the small leg (sector number 0) against both indices of the sector -1 (number 1 of the dual leg). -/
example : ftMaskGetElement true ⟨[-1], [1], none⟩ (large.toSpace u1) true co M (0, 0) (1, 0) = some true ∧
    ftMaskGetElement true ⟨[-1], [1], none⟩ (large.toSpace u1) true co M (0, 0) (1, 1) = some false ∧
    ftMaskGetElement true ⟨[-1], [1], none⟩ (large.toSpace u1) true co M (0, 0) (0, 0) = some false := by decide +kernel

end Cyten.FT.MaskExample
