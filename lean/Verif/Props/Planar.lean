import Verif.Lemmas.Planar
import Mathlib.Data.List.Zip

/-!
# C74: planar bipartitions and contractions are recognised exactly

The legs of a tensor are on a circle.  `Cut n a b`: the legs `a` and then the legs `b`, in this order, are all legs
`0, …, n - 1` once around the circle (counter-clockwise), from any starting point.
-/

namespace Cyten.Planar.Spec

/-- Once around the circle: first `a`, then `b`. -/
def Cut (n : ℕ) (a b : List ℕ) : Prop := (a ++ b) ~r List.range n

/-- The pairs of legs (a leg of the first tensor with `n1` legs, a leg of the second tensor with `n2` legs) can be
contracted without crossings, such that the remaining legs are `b1` and `b2`, in this order around the result: the
contracted legs are contiguous on both tensors, and counter-clockwise around the first tensor means clockwise
around the second one. -/
def PlanarContraction (n1 n2 : ℕ) (pairs : List (ℕ × ℕ)) (b1 b2 : List ℕ) : Prop :=
  ∃ a1 a2, Cut n1 a1 b1 ∧ Cut n2 a2 b2 ∧ a1.length = a2.length ∧ pairs.Perm (a1.zip a2.reverse)

end Cyten.Planar.Spec

namespace Cyten.Props
open Cyten.Planar Cyten.Planar.Spec Cyten.Tools

theorem jumps_rangeOf (s e : ℕ) : jumps (rangeOf s e) = [] := by
  rw [List.eq_nil_iff_forall_not_mem]
  intro i hi
  obtain ⟨h1, h2⟩ := mem_jumps.1 hi
  rw [length_rangeOf] at h1
  apply h2
  rw [List.getD_eq_getElem?_getD, List.getD_eq_getElem?_getD, getElem?_rangeOf (by omega), getElem?_rangeOf (by omega)]
  simp; omega

theorem getD_two {e s n i : ℕ} (h : i < e + (n - s)) :
    (rangeOf 0 e ++ rangeOf s n).getD i 0 = if i < e then i else s + (i - e) := by
  rw [List.getD_eq_getElem?_getD]
  split_ifs with hi
  · rw [List.getElem?_append_left (by simpa using hi), getElem?_rangeOf (by omega)]; simp
  · rw [List.getElem?_append_right (by simp; omega), length_rangeOf, Nat.sub_zero, getElem?_rangeOf (by omega)]; simp

theorem jumps_two {e s n : ℕ} (h0 : 0 < e) (h1 : e < s) (h2 : s < n) :
    jumps (rangeOf 0 e ++ rangeOf s n) = [e - 1] := by
  have hmem : ∀ i, i ∈ jumps (rangeOf 0 e ++ rangeOf s n) ↔ i = e - 1 := by
    intro i
    rw [mem_jumps]
    simp only [List.length_append, length_rangeOf, Nat.sub_zero]
    constructor
    · rintro ⟨h3, h4⟩
      rw [getD_two h3, getD_two (by omega)] at h4
      split_ifs at h4 <;> omega
    · rintro rfl
      refine ⟨by omega, ?_⟩
      rw [getD_two (by omega), getD_two (by omega), if_neg (by omega), if_pos (by omega)]
      omega
  have hnd : (jumps (rangeOf 0 e ++ rangeOf s n)).Nodup := List.nodup_range.filter _
  have hp : (jumps (rangeOf 0 e ++ rangeOf s n)).Perm [e - 1] :=
    (List.perm_ext_iff_of_nodup hnd (by simp)).2 fun i => by rw [hmem i]; simp
  exact List.perm_singleton.1 hp

/-- **C74**: a bipartition that is returned consists of the given legs and the other legs, sorted around the
circle. -/
theorem C74_bipartition_sound {legs a b : List ℕ} {n : ℕ} (h : parseLegBipartition legs n = .ok (a, b)) :
    Cut n a b ∧ a.Perm legs := by
  unfold parseLegBipartition at h
  split_ifs at h with h1 h2 h3
  · simp only [Except.ok.injEq, Prod.mk.injEq] at h
    obtain ⟨rfl, rfl⟩ := h
    rw [h2]
    exact ⟨by rw [Cut, List.nil_append, rangeOf_zero], List.Perm.refl _⟩
  · simp only [Except.ok.injEq, Prod.mk.injEq] at h
    obtain ⟨rfl, rfl⟩ := h
    rw [Cut, List.append_nil, rangeOf_zero]
    refine ⟨List.IsRotated.refl _, ?_⟩
    rw [← h3] at h1 ⊢
    exact (perm_range_of_nodup h1.1 h1.2).symm
  · skip
    set l := legs.insertionSort (· ≤ ·) with hl
    have hp : l.Perm legs := List.perm_insertionSort _ _
    have hs : l.Pairwise (· < ·) :=
      (List.pairwise_insertionSort _ legs).imp₂ (fun a b h1 h2 => lt_of_le_of_ne h1 h2)
        (hp.nodup_iff.2 h1.1)
    have hne : l ≠ [] := fun hc => h2 (by rw [hc] at hp; exact List.Perm.eq_nil hp.symm)
    have hlast : l.getLastD 0 < n := by
      rw [List.getLastD_eq_getLast?, List.getLast?_eq_getLast_of_ne_nil hne]
      exact h1.2 _ (hp.mem_iff.1 (List.getLast_mem hne))
    simp only at h
    rcases hj : jumps l with _ | ⟨j, _ | ⟨j', js⟩⟩
    · rw [hj] at h
      simp only [Except.ok.injEq, Prod.mk.injEq] at h
      obtain ⟨rfl, rfl⟩ := h
      refine ⟨?_, hp⟩
      have he := jumps_nil hne hj
      have hle : l.headD 0 ≤ l.getLastD 0 + 1 := by
        by_contra hc
        rw [rangeOf_nil (by omega)] at he
        exact hne he
      have := (arcs_cut n (l.headD 0) (l.getLastD 0 + 1) hle hlast).1
      rw [← he] at this
      exact this
    · rw [hj] at h
      simp only at h
      split_ifs at h with h4
      simp only [Except.ok.injEq, Prod.mk.injEq] at h
      obtain ⟨rfl, rfl⟩ := h
      obtain ⟨k1, k2, k3⟩ := jumps_one hj hs
      rw [h4.1, h4.2] at k3
      have k4 : l.getD (j + 1) 0 < n := by
        have : l.getD (j + 1) 0 ∈ l := by
          rw [List.getD_eq_getElem?_getD, List.getElem?_eq_getElem k1]; exact List.getElem_mem k1
        exact h1.2 _ (hp.mem_iff.1 this)
      refine ⟨(arcs_cut n (l.getD j 0 + 1) (l.getD (j + 1) 0) (by omega) k4.le).2, ?_⟩
      refine List.perm_append_comm.trans ?_
      rw [← k3]
      exact hp
    · rw [hj] at h
      simp at h

/-- **C74**: a contiguous set of legs, in any order, is accepted. -/
theorem C74_bipartition_complete {legs a b : List ℕ} {n : ℕ} (h : Cut n a b) (hp : a.Perm legs) :
    ∃ a' b', parseLegBipartition legs n = .ok (a', b') := by
  have hab : (a ++ b).Perm (List.range n) := h.perm
  have hnd : a.Nodup := (List.nodup_append.1 (hab.nodup_iff.2 List.nodup_range)).1
  have hlt : ∀ x ∈ a, x < n := fun x hx => by simpa using hab.mem_iff.1 (List.mem_append_left b hx)
  unfold parseLegBipartition
  rw [if_neg (by push Not; exact ⟨hp.nodup_iff.1 hnd, fun x hx => hlt x (hp.mem_iff.2 hx)⟩)]
  by_cases h2 : legs = []
  · rw [if_pos h2]; exact ⟨_, _, rfl⟩
  rw [if_neg h2]
  by_cases h3 : legs.length = n
  · rw [if_pos h3]; exact ⟨_, _, rfl⟩
  rw [if_neg h3]
  rcases cut_cases h with ⟨s, e, hse, hen, -, rfl, rfl⟩ | ⟨s, e, he, hes, hsn, rfl, rfl⟩
  · rw [sorted_unique hp.symm (rangeOf_pairwise s e)]
    simp only [jumps_rangeOf]
    exact ⟨_, _, rfl⟩
  · have hlen := hp.length_eq
    simp only [List.length_append, length_rangeOf] at hlen
    have hes' : e < s := by
      rcases lt_or_eq_of_le hes with h4 | rfl
      · exact h4
      · omega
    have hsort : legs.insertionSort (· ≤ ·) = rangeOf 0 e ++ rangeOf s n := by
      refine sorted_unique (hp.symm.trans List.perm_append_comm) ?_
      rw [List.pairwise_append]
      refine ⟨rangeOf_pairwise _ _, rangeOf_pairwise _ _, fun x hx y hy => ?_⟩
      rw [mem_rangeOf] at hx hy
      omega
    rw [hsort]
    simp only [jumps_two he hes' hsn]
    rw [if_pos]
    · exact ⟨_, _, rfl⟩
    · rw [headD_getD, getLastD_getD, getD_two (by omega), if_pos he, getD_two (by simp; omega), if_neg (by simp; omega)]
      simp only [List.length_append, length_rangeOf, Nat.sub_zero]
      exact ⟨trivial, by omega⟩

/-- **C74**: `parse_leg_bipartition` accepts exactly the contiguous sets of legs. -/
theorem C74_bipartition (legs : List ℕ) (n : ℕ) :
    (∃ p, parseLegBipartition legs n = .ok p) ↔ ∃ a b, Cut n a b ∧ a.Perm legs := by
  constructor
  · rintro ⟨⟨a, b⟩, h⟩
    exact ⟨a, b, C74_bipartition_sound h⟩
  · rintro ⟨a, b, h, hp⟩
    obtain ⟨a', b', h'⟩ := C74_bipartition_complete h hp
    exact ⟨_, h'⟩

/-- The partner of a leg of the first tensor. -/
def partner (legs1 legs2 : List ℕ) (c : ℕ) : ℕ := legs2.getD (legs1.idxOf c) 0

theorem zip_eq_map {legs1 legs2 : List ℕ} (hl : legs2.length = legs1.length) (hnd : legs1.Nodup) :
    legs1.zip legs2 = legs1.map fun c => (c, partner legs1 legs2 c) := by
  apply List.ext_getElem
  · simp [hl]
  · intro i h1 h2
    simp only [List.length_map] at h2
    rw [List.getElem_zip, List.getElem_map]
    unfold partner
    rw [List.Nodup.idxOf_getElem hnd, List.getD_eq_getElem?_getD, List.getElem?_eq_getElem (by omega)]; rfl

theorem partner_perm {legs1 legs2 c : List ℕ} (hl : legs2.length = legs1.length) (hnd : legs1.Nodup)
    (hc : c.Perm legs1) : (c.map (partner legs1 legs2)).Perm legs2 := by
  refine (hc.map _).trans (List.Perm.of_eq ?_)
  have := congrArg (List.map Prod.snd) (zip_eq_map hl hnd)
  rw [List.map_snd_zip (by omega), List.map_map] at this
  exact this.symm

theorem zip_partner {legs1 legs2 c : List ℕ} (hl : legs2.length = legs1.length) (hnd : legs1.Nodup)
    (hc : c.Perm legs1) : (legs1.zip legs2).Perm (c.zip (c.map (partner legs1 legs2))) := by
  rw [zip_eq_map hl hnd]
  refine (hc.symm.map _).trans (List.Perm.of_eq ?_)
  clear hc
  induction c with
  | nil => rfl
  | cons x c ih => simp only [List.map_cons, List.zip_cons_cons, ih]

theorem getD_reverse {l : List ℕ} {i : ℕ} (h : i < l.length) : l.reverse.getD i 0 = l.getD (l.length - 1 - i) 0 := by
  rw [List.getD_eq_getElem?_getD, List.getElem?_reverse h, ← List.getD_eq_getElem?_getD]

theorem pred_mod {n x y : ℕ} (hx : x < n) (hy : y < n) : y = (x + (n - 1)) % n ↔ x = (y + 1) % n := by
  constructor
  · rintro rfl
    rcases Nat.eq_zero_or_pos x with rfl | h
    · rw [Nat.zero_add, Nat.mod_eq_of_lt (show n - 1 < n by omega), show n - 1 + 1 = n by omega, Nat.mod_self]
    · rw [show x + (n - 1) = (x - 1) + n by omega, Nat.add_mod_right, Nat.mod_eq_of_lt (show x - 1 < n by omega),
        show x - 1 + 1 = x by omega, Nat.mod_eq_of_lt hx]
  · rintro rfl
    by_cases h : y + 1 = n
    · rw [h, Nat.mod_self, Nat.zero_add, Nat.mod_eq_of_lt (by omega)]; omega
    · rw [Nat.mod_eq_of_lt (show y + 1 < n by omega), show y + 1 + (n - 1) = y + n by omega, Nat.add_mod_right,
        Nat.mod_eq_of_lt hy]

/-- **C74**: an accepted contraction is planar; the contracted legs are the requested ones, and the remaining legs
are returned in the order around the result. -/
theorem C74_contraction_sound {n1 n2 : ℕ} {legs1 legs2 c1 o1 c2 o2 : List ℕ}
    (h : contractionLegs n1 n2 legs1 legs2 = .ok (c1, o1, c2, o2)) :
    PlanarContraction n1 n2 (legs1.zip legs2) o1 o2 ∧ (legs1.zip legs2).Perm (c1.zip c2) ∧
      Cut n1 c1 o1 ∧ Cut n2 c2.reverse o2 := by
  unfold contractionLegs at h
  split_ifs at h with hl
  have hl' : legs2.length = legs1.length := by simpa using hl
  simp only [bind, Except.bind] at h
  rcases hp1 : parseLegBipartition legs1 n1 with e | ⟨a1, b1⟩
  · rw [hp1] at h; simp at h
  rcases hp2 : parseLegBipartition legs2 n2 with e | ⟨a2, b2⟩
  · rw [hp1, hp2] at h; simp at h
  rw [hp1, hp2] at h
  simp only at h
  split_ifs at h with hany
  simp only [Except.ok.injEq, Prod.mk.injEq] at h
  obtain ⟨rfl, rfl, rfl, rfl⟩ := h
  obtain ⟨cut1, perm1⟩ := C74_bipartition_sound hp1
  obtain ⟨cut2, perm2⟩ := C74_bipartition_sound hp2
  have hnd1 : legs1.Nodup := perm1.nodup_iff.1
    (List.nodup_append.1 ((List.IsRotated.perm cut1).nodup_iff.2 List.nodup_range)).1
  have hc2 : (a1.map (partner legs1 legs2)).Perm legs2 := partner_perm hl' hnd1 perm1
  have hz := zip_partner hl' hnd1 perm1
  change PlanarContraction n1 n2 (legs1.zip legs2) b1 b2 ∧
    (legs1.zip legs2).Perm (a1.zip (a1.map (partner legs1 legs2))) ∧ Cut n1 a1 b1 ∧
    Cut n2 (a1.map (partner legs1 legs2)).reverse b2
  change ¬ ((List.range ((a1.map (partner legs1 legs2)).length - 1)).any fun i =>
    decide ((a1.map (partner legs1 legs2)).getD (i + 1) 0 ≠
      ((a1.map (partner legs1 legs2)).getD i 0 + (n2 - 1)) % n2)) = true at hany
  have hlen2 : (a1.map (partner legs1 legs2)).length = a1.length := List.length_map _
  generalize a1.map (partner legs1 legs2) = c2 at *
  have hlt2 : ∀ x ∈ c2, x < n2 := fun x hx => by
    have := (List.IsRotated.perm cut2).mem_iff.1 (List.mem_append_left b2 (perm2.mem_iff.2 (hc2.mem_iff.1 hx)))
    simpa using this
  have hgd : ∀ j, j < c2.length → c2.getD j 0 < n2 := fun j hj => by
    rw [List.getD_eq_getElem?_getD, List.getElem?_eq_getElem hj]; exact hlt2 _ (List.getElem_mem hj)
  have hab := congrArg List.length (isRotated_range.1 cut2).choose_spec.2.2
  have hle : c2.length ≤ n2 := by
    have := (List.IsRotated.perm cut2).length_eq
    have h2 := (hc2.trans perm2.symm).length_eq
    simp only [List.length_append, List.length_range] at this
    omega
  have hstep : ∀ i, i + 1 < c2.length → c2.getD (i + 1) 0 = (c2.getD i 0 + (n2 - 1)) % n2 := by
    intro i hi
    by_contra hc
    apply hany
    rw [List.any_eq_true]
    exact ⟨i, by rw [List.mem_range]; omega, by simpa using hc⟩
  obtain ⟨b, hb⟩ := arc_of_steps (n := n2) (a := c2.reverse) (by simpa using hle) (by simpa using hlt2) (by
    intro i hi
    rw [List.length_reverse] at hi
    rw [getD_reverse hi, getD_reverse (by omega)]
    rw [← pred_mod (hgd _ (by omega)) (hgd _ (by omega))]
    have := hstep (c2.length - 1 - (i + 1)) (by omega)
    rw [show c2.length - 1 - (i + 1) + 1 = c2.length - 1 - i by omega] at this
    exact this)
  have hcut : Cut n2 c2.reverse b2 := by
    have hpp : c2.reverse.Perm a2 := (List.reverse_perm _).trans (hc2.trans perm2.symm)
    by_cases hb2 : b2 = []
    · subst hb2
      have hbn : b = [] := by
        have h1 := (List.IsRotated.perm hb).length_eq
        have h2 := (List.IsRotated.perm cut2).length_eq
        have h3 := hpp.length_eq
        simp only [List.length_append, List.length_range, List.length_nil, List.length_reverse] at h1 h2 h3
        exact List.length_eq_zero_iff.1 (by omega)
      subst hbn
      exact hb
    · by_cases ha2 : a2 = []
      · subst ha2
        have : c2.reverse = [] := List.Perm.eq_nil hpp
        rw [this]
        exact cut2
      · obtain ⟨h1, h2⟩ := cut_unique cut2 hb hpp.symm ha2 hb2
        rw [← h1]
        exact cut2
  refine ⟨⟨a1, c2.reverse, cut1, hcut, by rw [List.length_reverse]; exact hlen2.symm, ?_⟩, hz, cut1, hcut⟩
  rw [List.reverse_reverse]
  exact hz

/-- If the legs of the first tensor are visited in the order of the bipartition, the check succeeds. -/
theorem contraction_accept {n1 n2 : ℕ} {legs1 legs2 a1 b1 a2 b2 : List ℕ} (hl : legs2.length = legs1.length)
    (hp1 : parseLegBipartition legs1 n1 = .ok (a1, b1)) (hc2 : Cut n2 a2 b2) (hlen : a1.length = a2.length)
    (hz : (legs1.zip legs2).Perm (a1.zip a2.reverse)) : ∃ r, contractionLegs n1 n2 legs1 legs2 = .ok r := by
  obtain ⟨cut1, perm1⟩ := C74_bipartition_sound hp1
  have hnd1 : legs1.Nodup := perm1.nodup_iff.1
    (List.nodup_append.1 ((List.IsRotated.perm cut1).nodup_iff.2 List.nodup_range)).1
  have hnda : a1.Nodup := perm1.nodup_iff.2 hnd1
  have hsnd : legs2.Perm a2 := by
    have := hz.map Prod.snd
    rw [List.map_snd_zip (by omega), List.map_snd_zip (by simp; omega)] at this
    exact this.trans (List.reverse_perm _)
  obtain ⟨a2', b2', hp2⟩ := C74_bipartition_complete hc2 hsnd.symm
  have hpart : a1.map (partner legs1 legs2) = a2.reverse := by
    apply List.ext_getElem
    · simp [hlen]
    · intro i h1 h2
      simp only [List.length_map] at h1
      rw [List.getElem_map]
      have hmem : (a1[i], a2.reverse[i]) ∈ legs1.zip legs2 := by
        rw [hz.mem_iff]
        have h3 : i < (a1.zip a2.reverse).length := by
          rw [List.length_zip, List.length_reverse]
          simp at h2; omega
        have := List.getElem_mem h3
        rwa [List.getElem_zip] at this
      rw [zip_eq_map hl hnd1, List.mem_map] at hmem
      obtain ⟨c, -, hc⟩ := hmem
      simp only [Prod.mk.injEq] at hc
      rw [← hc.1]; exact hc.2
  unfold contractionLegs
  rw [if_neg (by simpa using hl), hp1, hp2]
  simp only [bind, Except.bind]
  change ∃ r, (if ((List.range ((a1.map (partner legs1 legs2)).length - 1)).any fun i =>
    decide ((a1.map (partner legs1 legs2)).getD (i + 1) 0 ≠
      ((a1.map (partner legs1 legs2)).getD i 0 + (n2 - 1)) % n2)) = true then _ else _) = _
  rw [hpart, if_neg]
  · exact ⟨_, rfl⟩
  · rw [List.any_eq_true]
    rintro ⟨i, hi, h⟩
    rw [List.mem_range, List.length_reverse] at hi
    rw [decide_eq_true_eq] at h
    apply h
    have hlt : ∀ j, j < a2.length → a2.getD j 0 < n2 := fun j hj => by
      rw [List.getD_eq_getElem?_getD, List.getElem?_eq_getElem hj]
      simpa using (List.IsRotated.perm hc2).mem_iff.1 (List.mem_append_left b2 (List.getElem_mem hj))
    rw [getD_reverse (by omega), getD_reverse (by omega), pred_mod (hlt _ (by omega)) (hlt _ (by omega))]
    have := arc_step hc2 (a2.length - 1 - (i + 1)) (by omega)
    rw [show a2.length - 1 - (i + 1) + 1 = a2.length - 1 - i by omega] at this
    exact this

/-- **C74**: a planar contraction is accepted, unless all legs of the first tensor (and not all legs of the second
one) are contracted. -/
theorem C74_contraction_complete {n1 n2 : ℕ} {legs1 legs2 b1 b2 : List ℕ} (hl : legs2.length = legs1.length)
    (h : PlanarContraction n1 n2 (legs1.zip legs2) b1 b2)
    (hfull : legs1.length < n1 ∨ legs2.length = n2) : ∃ r, contractionLegs n1 n2 legs1 legs2 = .ok r := by
  obtain ⟨a1, a2, hc1, hc2, hlen, hz⟩ := h
  have hfst : legs1.Perm a1 := by
    have := hz.map Prod.fst
    rwa [List.map_fst_zip (by omega), List.map_fst_zip (by simp; omega)] at this
  have hlen1 := hfst.length_eq
  have hn1 : a1.length + b1.length = n1 := by simpa using (List.IsRotated.perm hc1).length_eq
  have hn2 : a2.length + b2.length = n2 := by simpa using (List.IsRotated.perm hc2).length_eq
  obtain ⟨a1', b1', hp1⟩ := C74_bipartition_complete hc1 hfst.symm
  obtain ⟨hc1', hperm1⟩ := C74_bipartition_sound hp1
  by_cases hlt : legs1.length < n1
  · by_cases ha : a1 = []
    · subst ha
      have e1 : legs1 = [] := List.Perm.eq_nil hfst
      have e2 : a1' = [] := by rw [e1] at hperm1; exact List.Perm.eq_nil hperm1
      subst e2
      have e3 : a2 = [] := List.length_eq_zero_iff.1 (by simpa using hlen.symm)
      subst e3
      exact contraction_accept hl hp1 hc2 rfl hz
    · have hb : b1 ≠ [] := by
        rintro rfl
        simp at hn1
        omega
      obtain ⟨rfl, rfl⟩ := cut_unique hc1 hc1' (hfst.symm.trans hperm1.symm) ha hb
      exact contraction_accept hl hp1 hc2 hlen hz
  · have hf2 : legs2.length = n2 := by rcases hfull with h1 | h1 <;> omega
    have eb1 : b1 = [] := List.length_eq_zero_iff.1 (by omega)
    have eb2 : b2 = [] := List.length_eq_zero_iff.1 (by omega)
    have eb1' : b1' = [] := by
      have h1 := (List.IsRotated.perm hc1').length_eq
      have h2 := hperm1.length_eq
      simp only [List.length_append, List.length_range] at h1
      exact List.length_eq_zero_iff.1 (by omega)
    subst eb1; subst eb2; subst eb1'
    unfold Cut at hc1 hc1' hc2
    rw [List.append_nil] at hc1 hc1' hc2
    obtain ⟨t, ht⟩ := hc1.trans hc1'.symm
    refine contraction_accept (a2 := (a2.reverse.rotate t).reverse) (b2 := []) hl hp1 ?_ ?_ ?_
    · unfold Cut
      rw [List.append_nil]
      refine List.IsRotated.trans ?_ hc2
      have : a2.reverse.rotate t ~r a2.reverse := List.IsRotated.symm ⟨t, rfl⟩
      have := this.reverse
      rwa [List.reverse_reverse] at this
    · rw [← ht]
      simp [hlen]
    · rw [List.reverse_reverse, ← ht]
      refine hz.trans ?_
      have := List.zipWith_rotate_distrib Prod.mk a1 a2.reverse t (by simp [hlen])
      have e : (a1.rotate t).zip (a2.reverse.rotate t) = (a1.zip a2.reverse).rotate t := this.symm
      rw [e]
      exact (List.IsRotated.perm ⟨t, rfl⟩)

theorem reverse_zip {a b : List ℕ} (h : a.length = b.length) : (a.zip b).reverse = a.reverse.zip b.reverse := by
  apply List.ext_getElem?
  intro i
  have hz : (a.zip b).length = a.length := by simp [h]
  by_cases hi : i < a.length
  · rw [List.getElem?_reverse (by omega), hz, List.getElem?_eq_getElem (by omega), List.getElem_zip,
      List.getElem?_eq_getElem (by simp; omega), List.getElem_zip, List.getElem_reverse, List.getElem_reverse]
    simp only [h]
  · rw [List.getElem?_eq_none (by simp; omega), List.getElem?_eq_none (by simp; omega)]

theorem planar_symm {n1 n2 : ℕ} {legs1 legs2 b1 b2 : List ℕ}
    (h : PlanarContraction n1 n2 (legs1.zip legs2) b1 b2) : PlanarContraction n2 n1 (legs2.zip legs1) b2 b1 := by
  obtain ⟨a1, a2, hc1, hc2, hlen, hz⟩ := h
  refine ⟨a2, a1, hc2, hc1, hlen.symm, ?_⟩
  have h1 := hz.map Prod.swap
  rw [List.zip_swap, List.zip_swap] at h1
  refine h1.trans ?_
  have h2 := List.reverse_perm (a2.reverse.zip a1)
  refine h2.symm.trans (List.Perm.of_eq ?_)
  rw [reverse_zip (by simp [hlen]), List.reverse_reverse]

/-- **C74**: every planar contraction is accepted at least with the tensors in one of the two orders. -/
theorem C74_contraction_one_order {n1 n2 : ℕ} {legs1 legs2 b1 b2 : List ℕ} (hl : legs2.length = legs1.length)
    (h : PlanarContraction n1 n2 (legs1.zip legs2) b1 b2) :
    (∃ r, contractionLegs n1 n2 legs1 legs2 = .ok r) ∨ ∃ r, contractionLegs n2 n1 legs2 legs1 = .ok r := by
  have hb : legs1.length ≤ n1 ∧ legs2.length ≤ n2 := by
    obtain ⟨a1, a2, hc1, hc2, hlen, hz⟩ := h
    have hn1 : a1.length + b1.length = n1 := by simpa using (List.IsRotated.perm hc1).length_eq
    have hn2 : a2.length + b2.length = n2 := by simpa using (List.IsRotated.perm hc2).length_eq
    have := hz.length_eq
    simp at this
    omega
  by_cases hf : legs1.length < n1 ∨ legs2.length = n2
  · exact Or.inl (C74_contraction_complete hl h hf)
  · push Not at hf
    exact Or.inr (C74_contraction_complete hl.symm (planar_symm h) (Or.inl (by omega)))

/-- **C74**, a defect: if all legs of the first tensor are contracted, then the starting point of the circle
matters.  The two legs of the first tensor are contracted with the legs 0 and 1 of a tensor with three legs; this
is planar, but it is rejected, and it is accepted if the two tensors are exchanged. -/
theorem C74_rejected_defect :
    PlanarContraction 2 3 [(1, 1), (0, 0)] [] [2] ∧ contractionLegs 2 3 [1, 0] [1, 0] = .error .nonPlanar ∧
      contractionLegs 3 2 [1, 0] [1, 0] = .ok ([0, 1], [2], [0, 1], []) := by
  refine ⟨⟨[1, 0], [0, 1], ⟨1, by decide⟩, ⟨0, by decide⟩, rfl, by decide⟩, by decide +kernel, by decide +kernel⟩

/-- **C74**: a bipartition that wraps around the circle, one that is rejected, and a contraction. -/
theorem C74_nonvacuous :
    parseLegBipartition [0, 7, 1, 8, 2] 9 = .ok ([7, 8, 0, 1, 2], [3, 4, 5, 6]) ∧
    parseLegBipartition [0, 7, 1, 4] 9 = .error .nonPlanar ∧
    parseLegBipartition [0, 7, 7] 9 = .error .assertion ∧
    contractionLegs 5 5 [2, 3, 4] [1, 0, 4] = .ok ([2, 3, 4], [0, 1], [1, 0, 4], [2, 3]) ∧
    contractionLegs 5 5 [2, 3, 4] [4, 0, 1] = .error .nonPlanar := by
  decide +kernel

end Cyten.Props
