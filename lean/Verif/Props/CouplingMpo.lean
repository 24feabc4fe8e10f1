import Verif.Lemmas.CouplingMpo

/-!
# C67: a coupling as a matrix product operator

For every number of sites, all dimensions, all operators, all positions.
-/

namespace Cyten.CouplingMpo

open Spec

/-- C67 (sanity).  The constructor accepts exactly the consistent matrix product operators: one tensor per
site with legs `wL, p, wR, p*`, physical legs those of the site, matching virtual legs, trivial ends. -/
theorem C67_sanity {K : Type} (sites : List ℕ) (ws : List (Ten K)) (hne : ws ≠ []) :
    (∃ c, mkCoupling sites ws = some c) ↔ Mpo 1 sites ws := by
  constructor
  · rintro ⟨c, hc⟩; exact ((mkCoupling_iff _ _ _).mp hc).2.2
  · intro h; exact ⟨⟨sites, ws⟩, (mkCoupling_iff _ _ _).mpr ⟨rfl, hne, h⟩⟩

/-- C67 (to_tensor).  For every coupling that passes `test_sanity`, `to_tensor` succeeds; its legs are
`p0, p1, ..., ..., p1*, p0*`, half of them in the codomain, and its entries are the matrix products of the
site tensors. -/
theorem C67_to_tensor {K : Type} [CommSemiring K] (sites : List ℕ) (ws : List (Ten K)) (c : Coupling K)
    (hc : mkCoupling sites ws = some c) :
    ∃ t, toTensor c = some t ∧ t.legs = opLegs sites ∧ t.ncod = sites.length ∧
      ∀ ps qs, ps.length = sites.length → qs.length = sites.length →
        t.val (ps ++ qs.reverse) = mpo ws (ps.zip qs) 0 := by
  obtain ⟨rfl, hne, hm⟩ := (mkCoupling_iff _ _ _).mp hc
  exact toTensor_spec sites ws hne hm

/-- C67 (from_tensor).  For every operator on at least one site with the legs of the sites, the
factorisation succeeds, is a consistent matrix product operator for these sites, and `to_tensor` gives
back the operator: same legs, same entries. -/
theorem C67_from_tensor {K : Type} [CommSemiring K] (qr : Qr K) (hq : QrLaw qr) (op : Ten K)
    (sites : List ℕ) (hne : sites ≠ []) (hc : op.ncod = sites.length) (hl : op.legs = opLegs sites) :
    ∃ c t, fromTensor qr op sites = some c ∧ c.sites = sites ∧ Mpo 1 sites c.factorization ∧
      toTensor c = some t ∧ t.legs = op.legs ∧ t.ncod = op.ncod ∧
      ∀ idx, InRange idx (op.legs.map Prod.snd) → t.val idx = op.val idx := by
  obtain ⟨ws, h1, hne', h2, h3⟩ := fromTensor_spec qr hq op sites hne hc hl
  obtain ⟨t, h4, h5, h6, h7⟩ := toTensor_spec sites ws hne' h2
  refine ⟨⟨sites, ws⟩, t, h1, rfl, h2, h4, by rw [h5, hl], by rw [h6, hc], fun idx hi => ?_⟩
  rw [hl, opLegs_eq, List.map_append, List.map_reverse, kets_snd, bras_snd] at hi
  have hlen : idx.length = sites.length + sites.length := by simpa using hi.length_eq
  have e1 : idx = idx.take sites.length ++ (idx.drop sites.length).reverse.reverse := by simp
  have r1 : InRange (idx.take sites.length) sites := by
    have := List.forall₂_take sites.length hi
    rwa [List.take_left' rfl] at this
  have r2 : InRange (idx.drop sites.length).reverse sites := by
    have := List.forall₂_drop sites.length hi
    rw [List.drop_left' rfl] at this
    have := InRange.reverse this
    rwa [List.reverse_reverse] at this
  rw [e1, h7 _ _ r1.length_eq r2.length_eq, h3 _ _ r1 r2]

/-- C67 (from_tensor).  Operators whose legs are not those of the sites, in the expected order and with
the expected labels, are rejected. -/
theorem C67_from_tensor_rejects {K : Type} (qr : Qr K) (op : Ten K) (sites : List ℕ)
    (h : op.ncod ≠ sites.length ∨ op.legs ≠ opLegs sites) : fromTensor qr op sites = none := by
  rw [fromTensor, if_pos h]

/-- C67 (stretch).  For every coupling, every list of strictly ascending positions (one per site) at which
the given sites have the legs of the coupling, the stretched coupling is on all sites from the first to
the last position, and its operator is the operator of the coupling at the positions times the identity
on all sites in between. -/
theorem C67_stretch {K : Type} [CommSemiring K] (sites : List ℕ) (ws : List (Ten K)) (c : Coupling K)
    (hc : mkCoupling sites ws = some c) (allSites positions : List ℕ)
    (hlen : positions.length = sites.length) (hasc : positions.Pairwise (· < ·))
    (hs : ∀ x ∈ sites.zip positions, allSites[x.2]? = some x.1) (start last : ℕ)
    (hstart : positions.head? = some start) (hlast : positions.getLast? = some last) :
    ∃ c' t t', stretch c allSites positions = some c' ∧
      c'.sites = (List.range' start (last + 1 - start)).map (fun k => allSites.getD k 0) ∧
      toTensor c = some t ∧ toTensor c' = some t' ∧ t'.legs = opLegs c'.sites ∧
      ∀ ps qs, ps.length = last + 1 - start → qs.length = last + 1 - start →
        t'.val (ps ++ qs.reverse) = delta positions start (ps.zip qs) *
          t.val ((positions.map fun a => ps.getD (a - start) 0) ++
            (positions.map fun a => qs.getD (a - start) 0).reverse) := by
  obtain ⟨rfl, hne, hm⟩ := (mkCoupling_iff _ _ _).mp hc
  obtain ⟨t, ht, htl, htn, htv⟩ := toTensor_spec sites ws hne hm
  have hge : ∀ a ∈ positions, start ≤ a := by
    rcases positions with _ | ⟨b, bs⟩
    · simp
    · simp only [List.head?_cons, Option.some.injEq] at hstart
      subst hstart
      intro a ha
      rcases List.mem_cons.mp ha with rfl | ha
      · exact le_rfl
      · exact ((List.pairwise_cons.mp hasc).1 a ha).le
  have hsl : start ≤ last := hge last (List.mem_of_getLast? hlast)
  have hs' : ∀ x ∈ sites.zip positions, allSites.getD x.2 0 = x.1 := by
    intro x hx
    rw [List.getD_eq_getElem?_getD, hs x hx]; rfl
  obtain ⟨h1, h2⟩ := stretchLoop_spec allSites (last + 1 - start) start 1 positions sites ws hm hlen hasc hge
    (Or.inr ⟨last, hlast, by omega⟩) hs'
  have h01 : stretchLoop allSites positions ws (last + 1 - start) start 0 =
      stretchLoop allSites positions ws (last + 1 - start) start 1 := by
    obtain ⟨m, hm'⟩ : ∃ m, last + 1 - start = m + 1 := ⟨last - start, by omega⟩
    rw [hm', stretchLoop, stretchLoop]
    rcases positions with _ | ⟨b, bs⟩
    · simp at hstart
    · rcases ws with _ | ⟨W, ws⟩
      · exact absurd rfl hne
      · simp only [List.head?_cons, Option.some.injEq] at hstart
        simp only [byPosition_cons, if_pos hstart]
  set ss := (List.range' start (last + 1 - start)).map (fun k => allSites.getD k 0) with hss
  set ws' := stretchLoop allSites positions ws (last + 1 - start) start 1 with hws'
  have hne' : ws' ≠ [] := by
    intro h
    have := Mpo.length_eq h1
    rw [h, hss] at this
    simp at this
    omega
  obtain ⟨t', ht', htl', htn', htv'⟩ := toTensor_spec ss ws' hne' h1
  refine ⟨⟨ss, ws'⟩, t, t', ?_, rfl, ht, ht', htl', ?_⟩
  · rw [stretch, if_neg (by rw [hlen, Mpo.length_eq hm]; simp), if_neg (by
        rw [not_not]; exact hasc.isChain), if_neg (by
        simp only [List.any_eq_true, not_exists, not_and, decide_eq_true_eq, not_not]
        exact hs)]
    rw [hstart, hlast]
    simp only
    rw [h01]
    exact (mkCoupling_iff _ _ _).mpr ⟨rfl, hne', h1⟩
  · intro ps qs hp hq
    rw [htv' ps qs (by simp [hss, hp]) (by simp [hss, hq]), h2 _ 0 (by simp [hp, hq]) (by omega),
      htv _ _ (by simp [hlen]) (by simp [hlen])]
    congr 2
    rw [List.zip_map']
    refine List.map_congr_left fun a ha => ?_
    have ha1 := hge a ha
    have ha2 : a ≤ last := by
      rcases List.getLast?_eq_some_iff.mp hlast with ⟨ys, rfl⟩
      rcases List.mem_append.mp ha with ha | ha
      · exact ((List.pairwise_append.mp hasc).2.2 a ha last (by simp)).le
      · simp only [List.mem_singleton] at ha; omega
    rw [List.getD_eq_getElem?_getD, List.getElem?_eq_getElem (by simp; omega), Option.getD_some,
      List.getElem_zip, List.getD_eq_getElem?_getD, List.getElem?_eq_getElem (by omega), Option.getD_some,
      List.getD_eq_getElem?_getD, List.getElem?_eq_getElem (by omega), Option.getD_some]

/-- C67 (stretch).  A wrong number of positions, positions that are not strictly ascending, or a site
whose leg differs from that of the coupling are rejected. -/
theorem C67_stretch_rejects {K : Type} [CommSemiring K] (c : Coupling K) (allSites positions : List ℕ)
    (h : positions.length ≠ c.factorization.length ∨ ¬ positions.Pairwise (· < ·) ∨
      ∃ x ∈ c.sites.zip positions, allSites[x.2]? ≠ some x.1) :
    stretch c allSites positions = none := by
  rw [stretch]
  by_cases h1 : positions.length ≠ c.factorization.length
  · rw [if_pos h1]
  rw [if_neg h1]
  by_cases h2 : positions.IsChain (· < ·)
  · rw [if_neg (by simpa using h2), if_pos]
    rcases h with h | h | ⟨x, hx, hx'⟩
    · exact absurd h h1
    · exact absurd (List.isChain_iff_pairwise.mp h2) h
    · rw [List.any_eq_true]
      exact ⟨x, hx, by simpa using hx'⟩
  · rw [if_pos h2]

/-- The stretched operator of a factorised tensor is the tensor itself times identities. -/
theorem C67_stretch_from_tensor {K : Type} [CommSemiring K] (qr : Qr K) (hq : QrLaw qr) (op : Ten K)
    (sites : List ℕ) (hne : sites ≠ []) (hc : op.ncod = sites.length) (hl : op.legs = opLegs sites)
    (allSites positions : List ℕ)
    (hlen : positions.length = sites.length) (hasc : positions.Pairwise (· < ·))
    (hs : ∀ x ∈ sites.zip positions, allSites[x.2]? = some x.1) (start last : ℕ)
    (hstart : positions.head? = some start) (hlast : positions.getLast? = some last) :
    ∃ c c' t', fromTensor qr op sites = some c ∧ stretch c allSites positions = some c' ∧
      c'.sites = (List.range' start (last + 1 - start)).map (fun k => allSites.getD k 0) ∧
      toTensor c' = some t' ∧ t'.legs = opLegs c'.sites ∧
      ∀ ps qs, InRange ps c'.sites → InRange qs c'.sites →
        t'.val (ps ++ qs.reverse) = delta positions start (ps.zip qs) *
          op.val ((positions.map fun a => ps.getD (a - start) 0) ++
            (positions.map fun a => qs.getD (a - start) 0).reverse) := by
  obtain ⟨ws, h1, hne', h2, h3⟩ := fromTensor_spec qr hq op sites hne hc hl
  obtain ⟨c', t, t', e1, e2, e3, e4, e5, e6⟩ := C67_stretch sites ws ⟨sites, ws⟩
    ((mkCoupling_iff _ _ _).mpr ⟨rfl, hne', h2⟩) allSites positions hlen hasc hs start last hstart hlast
  obtain ⟨t0, h4, h5, h6, h7⟩ := toTensor_spec sites ws hne' h2
  obtain rfl : t0 = t := Option.some.inj (h4.symm.trans e3)
  refine ⟨_, c', t', h1, e1, e2, e4, e5, fun ps qs hp hqq => ?_⟩
  have hl1 : c'.sites.length = last + 1 - start := by rw [e2]; simp
  rw [e6 ps qs (by rw [hp.length_eq, hl1]) (by rw [hqq.length_eq, hl1])]
  have hge : ∀ a ∈ positions, start ≤ a ∧ a ≤ last := by
    intro a ha
    constructor
    · rcases positions with _ | ⟨b, bs⟩
      · simp at ha
      · simp only [List.head?_cons, Option.some.injEq] at hstart
        subst hstart
        rcases List.mem_cons.mp ha with rfl | ha
        · exact le_rfl
        · exact ((List.pairwise_cons.mp hasc).1 a ha).le
    · rcases List.getLast?_eq_some_iff.mp hlast with ⟨ys, rfl⟩
      rcases List.mem_append.mp ha with ha | ha
      · exact ((List.pairwise_append.mp hasc).2.2 a ha last (by simp)).le
      · simp only [List.mem_singleton] at ha; omega
  have hr : ∀ x : List ℕ, InRange x c'.sites →
      InRange (positions.map fun a => x.getD (a - start) 0) sites := by
    intro x hx
    have hxl : x.length = last + 1 - start := by rw [hx.length_eq, hl1]
    refine List.forall₂_iff_get.mpr ⟨by simp [hlen], fun i h1 h2 => ?_⟩
    simp only [List.length_map] at h1
    simp only [List.get_eq_getElem, List.getElem_map]
    have hi := hge positions[i] (List.getElem_mem h1)
    rw [List.getD_eq_getElem?_getD, List.getElem?_eq_getElem (by omega), Option.getD_some]
    have := (List.forall₂_iff_get.mp hx).2 (positions[i] - start) (by omega) (by omega)
    simp only [List.get_eq_getElem] at this
    refine lt_of_lt_of_eq this ?_
    simp only [e2, List.getElem_map, List.getElem_range', one_mul]
    have hz := hs (sites[i], positions[i]) (by
      rw [List.mem_iff_getElem]; exact ⟨i, by simp; omega, by simp⟩)
    rw [show start + (positions[i] - start) = positions[i] by omega, List.getD_eq_getElem?_getD, hz]; rfl
  rw [h7 _ _ (by simp [hlen]) (by simp [hlen]), h3 _ _ (hr ps hp) (hr qs hqq)]

/-- `qr` laws are satisfiable for all shapes: the trivial factorisation through the product of all column
indices. -/
def someQr : Qr ℚ := fun _ cols f =>
  (cols.prod, fun x k => f x (dec cols k), fun k y => if dec cols k = y then 1 else 0)
where
  /-- Digits of a number in the mixed radix system `cols`. -/
  dec : List ℕ → ℕ → List ℕ
    | [], _ => []
    | d :: ds, k => (k / ds.prod) :: dec ds (k % ds.prod)

lemma dec_exists : ∀ (cols y : List ℕ), InRange y cols → ∃ k < cols.prod, someQr.dec cols k = y
  | [], _, h => by cases h; exact ⟨0, by simp, rfl⟩
  | d :: ds, _, h => by
    rcases h with _ | ⟨h0, h⟩
    rename_i a y
    obtain ⟨k, hk, e⟩ := dec_exists ds y h
    refine ⟨a * ds.prod + k, ?_, ?_⟩
    · rw [List.prod_cons]
      calc a * ds.prod + k < a * ds.prod + ds.prod := by omega
        _ = (a + 1) * ds.prod := by ring
        _ ≤ d * ds.prod := Nat.mul_le_mul_right _ h0
    · rw [someQr.dec]
      have h1 : (a * ds.prod + k) / ds.prod = a := by
        rw [Nat.add_comm, Nat.add_mul_div_right _ _ (by omega), Nat.div_eq_of_lt hk, zero_add]
      have h2 : (a * ds.prod + k) % ds.prod = k := by
        rw [Nat.add_comm, Nat.add_mul_mod_self_right, Nat.mod_eq_of_lt hk]
      rw [h1, h2, e]

lemma dec_inj : ∀ (cols : List ℕ) (k l : ℕ), k < cols.prod → l < cols.prod →
    someQr.dec cols k = someQr.dec cols l → k = l
  | [], k, l, hk, hl, _ => by simp at hk hl; omega
  | d :: ds, k, l, hk, hl, h => by
    have hpos : 0 < ds.prod := by
      rcases Nat.eq_zero_or_pos ds.prod with h | h
      · rw [List.prod_cons, h] at hk; omega
      · exact h
    simp only [someQr.dec, List.cons.injEq] at h
    have := dec_inj ds _ _ (Nat.mod_lt k hpos) (Nat.mod_lt l hpos) h.2
    rw [← Nat.div_add_mod k ds.prod, ← Nat.div_add_mod l ds.prod, h.1, this]

lemma someQr_law : QrLaw someQr := by
  intro rows cols f x y _ hy
  obtain ⟨k, hk, e⟩ := dec_exists cols y hy
  show ∑ k ∈ Finset.range cols.prod, f x (someQr.dec cols k) * (if someQr.dec cols k = y then 1 else 0) = _
  rw [Finset.sum_eq_single k]
  · rw [e]; simp
  · intro l hl hne
    rw [if_neg, mul_zero]
    intro h
    exact hne (dec_inj cols l k (Finset.mem_range.mp hl) hk (h.trans e.symm))
  · intro h; exact absurd (Finset.mem_range.mpr hk) h

/-- A case that meets the hypotheses: an operator on a two- and a three-dimensional site, stretched to
positions 1 and 3 of four sites. -/
example (f : List ℕ → ℚ) : ∃ c c' t', fromTensor someQr ⟨opLegs [2, 3], 2, f⟩ [2, 3] = some c ∧
    stretch c [5, 2, 4, 3] [1, 3] = some c' ∧ toTensor c' = some t' ∧ c'.sites = [2, 4, 3] ∧
    t'.val [1, 3, 2, 0, 3, 1] = f [1, 2, 0, 1] ∧ t'.val [1, 3, 2, 0, 2, 1] = 0 := by
  obtain ⟨c, c', t', h1, h2, hs, h3, h4, h5⟩ := C67_stretch_from_tensor someQr someQr_law ⟨opLegs [2, 3], 2, f⟩
    [2, 3] (by simp) rfl rfl [5, 2, 4, 3] [1, 3] rfl (by decide) (by decide) 1 3 rfl rfl
  replace hs : c'.sites = [2, 4, 3] := hs
  refine ⟨c, c', t', h1, h2, h3, hs, ?_, ?_⟩
  · have := h5 [1, 3, 2] [1, 3, 0] (by rw [hs]; simp [InRange]) (by rw [hs]; simp [InRange])
    have hd : (delta [1, 3] 1 [(1, 1), (3, 3), (2, 0)] : ℚ) = 1 := by
      rw [delta, if_pos]
      intro k hk hn
      simp only [List.length_cons, List.length_nil] at hk
      have : k = 0 ∨ k = 1 ∨ k = 2 := by omega
      rcases this with rfl | rfl | rfl
      · rfl
      · rfl
      · simp at hn
    simpa [hd] using this
  · have := h5 [1, 3, 2] [1, 2, 0] (by rw [hs]; simp [InRange]) (by rw [hs]; simp [InRange])
    have hd : (delta [1, 3] 1 [(1, 1), (3, 2), (2, 0)] : ℚ) = 0 := by
      rw [delta, if_neg]
      intro h
      exact absurd (h 1 (by simp) (by simp)) (by simp)
    simpa [hd] using this

end Cyten.CouplingMpo
