import Verif.Lemmas.CouplingPermute

/-!
# C66: permuting the sites of a coupling

For every number of sites and every permutation.
-/

namespace Cyten.CouplingPermute

open Spec

/-- C66 (transpositions).  For every permutation `p` of `range(n)`, doing the adjacent exchanges that
`adjacent_transpositions` returns, in order, turns `0, 1, ..., n - 1` into `p`; all positions are
valid; their number is the number of inversions, and no sequence of adjacent exchanges with the same
effect is shorter. -/
theorem C66_adjacent_transpositions (p : List ℕ) (hp : p.Perm (List.range p.length)) :
    applySwaps (adjacentTranspositions p) (List.range p.length) = p ∧
    (∀ i ∈ adjacentTranspositions p, i + 1 < p.length) ∧
    (adjacentTranspositions p).length = inversions p ∧
    (∀ s, applySwaps s (List.range p.length) = p → (adjacentTranspositions p).length ≤ s.length) := by
  obtain ⟨h1, h2, h3⟩ := adjacentTranspositions_spec p hp
  have hl : (adjacentTranspositions p).length = inversions p := by
    rw [← crossings_length _ (List.range p.length), h2.length_eq, invPairs_length]
  refine ⟨h1, h3, hl, fun s hs => ?_⟩
  have := inversions_apply s (List.range p.length)
  rw [hs, inversions_sorted _ List.pairwise_lt_range] at this
  omega

/-- C66 (check).  `is_permutation` accepts exactly the rearrangements of `0, 1, ..., len - 1`. -/
theorem C66_is_permutation (q : List ℤ) :
    isPermutation q = true ↔ q.Perm ((List.range q.length).map Int.ofNat) :=
  isPermutation_iff q

lemma perm_cast (p : List ℕ) (hp : p.Perm (List.range p.length)) :
    isPermutation (p.map Int.ofNat) = true := by
  rw [isPermutation_iff, List.length_map]
  exact hp.map _

lemma map_sites {σ : Type} [Inhabited σ] (l : List σ) :
    l = (List.range l.length).map fun i => l.getD i default := by
  refine List.ext_getElem (by simp) fun i h1 h2 => ?_
  simp [List.getElem?_eq_getElem h1]

/-- C66 (permute).  For every permutation of the sites and levels such that any two sites that change
their order have specified, different levels (with no explicit `over_braid`): the call succeeds; site
`p[k]` ends up at position `k`, with its stored level; the legs of the new tensor are labelled
`p0, p1, ...` in order.  Each pair of sites whose order is reversed braids exactly once, no other pair
braids, and the earlier site goes over the later one exactly if its level is higher. -/
theorem C66_permute {σ : Type} [Inhabited σ] (sites : List σ) (levels0 : List ℤ) (p : List ℕ)
    (levels : List (Option ℤ)) (hlen : p.length = sites.length) (hp : p.Perm (List.range p.length))
    (hlv : levels.length = sites.length)
    (hbr : ∀ a b, a < b → b < sites.length → p.idxOf b < p.idxOf a →
      ∃ x y, levels[a]? = some (some x) ∧ levels[b]? = some (some y) ∧ x ≠ y) :
    ∃ res, permute sites levels0 p (some levels) none = some res ∧
      res.sites = p.map (fun i => sites.getD i default) ∧
      res.levels = p.map (fun i => levels0.getD i 0) ∧
      res.codomain = List.range sites.length ∧ res.domain = List.range sites.length ∧
      (res.log.map fun c => (c.first, c.second)).Nodup ∧
      (∀ a b, (a, b) ∈ (res.log.map fun c => (c.first, c.second)) ↔
        a < b ∧ b < sites.length ∧ p.idxOf b < p.idxOf a) ∧
      (∀ c ∈ res.log, c.isOver = true ↔
        ∃ x y, levels[c.first]? = some (some x) ∧ levels[c.second]? = some (some y) ∧ x > y) := by
  obtain ⟨h1, h2, h3⟩ := adjacentTranspositions_spec p hp
  have hnd : p.Nodup := hp.nodup_iff.mpr List.nodup_range
  have hmem : ∀ x, x ∈ p ↔ x < sites.length := by
    intro x; rw [hp.mem_iff, List.mem_range, hlen]
  let L : ℕ → Option ℤ := fun i => (levels[i]?).join
  have hL : ∀ i x, L i = some x ↔ levels[i]? = some (some x) := by
    intro i x
    show (levels[i]?).join = some x ↔ _
    cases levels[i]? with
    | none => simp
    | some o => simp
  rw [hlen] at h1 h2
  let st : State σ := ⟨List.range sites.length, List.range sites.length, sites, levels⟩
  have hlev : st.levels = st.codomain.map L := by
    refine List.ext_getElem (by simp [st, hlv]) fun i h1 h2 => ?_
    simp only [st, List.getElem_map, List.getElem_range, L]
    rw [List.getElem?_eq_getElem h1]; rfl
  have hcr : ∀ a b, (a, b) ∈ crossings (adjacentTranspositions p) (List.range sites.length) ↔
      a < b ∧ b < sites.length ∧ p.idxOf b < p.idxOf a := by
    intro a b
    rw [h2.mem_iff, mem_invPairs p hnd, hmem, hmem]
    constructor
    · rintro ⟨_, hb, hab, hi⟩; exact ⟨hab, hb, hi⟩
    · rintro ⟨hab, hb, hi⟩; exact ⟨by omega, hb, hab, hi⟩
  obtain ⟨st', log', e, ho⟩ := (permuteLoop_levels L 0 (adjacentTranspositions p) st [] hlev (by
    intro i hi
    simp only [st, List.length_range]
    have := h3 i hi; omega)).1 (by
      rintro ⟨a, b⟩ hc
      obtain ⟨hab, hb, hi⟩ := (hcr a b).mp hc
      obtain ⟨x, y, hx, hy, hxy⟩ := hbr a b hab hb hi
      exact ⟨x, y, (hL a x).mpr hx, (hL b y).mpr hy, hxy⟩)
  rw [List.nil_append] at e
  obtain ⟨s1, s2, s3, s4⟩ := permuteLoop_state none 0 _ st st' [] log' e
  simp only [st] at s1 s2 s3 s4
  rw [h1] at s1 s2
  have hcod : relabel p st'.codomain = List.range sites.length := by
    rw [s1, relabel_self p hnd, hlen]
  have hdom : relabel p st'.domain = List.range sites.length := by
    rw [s2, relabel_self p hnd, hlen]
  have hsites : st'.sites = p.map fun i => sites.getD i default := by
    rw [s3]
    conv_lhs => rw [map_sites sites]
    rw [applySwaps_map, h1]
  rw [List.map_nil, List.nil_append] at s4
  refine ⟨⟨st'.sites, List.range sites.length, List.range sites.length,
    p.map fun i => levels0.getD i 0, log'⟩, ?_, hsites, rfl, rfl, rfl, ?_, ?_, ?_⟩
  · rw [permute]
    simp only [perm_cast p hp, Option.getD_some, hlv, Option.map_none, Option.getD_none, ne_eq,
      not_true, if_false, Bool.true_eq_false]
    have e' : permuteLoop none 0 (adjacentTranspositions p)
        ⟨List.range sites.length, List.range sites.length, sites, levels⟩ [] = some (st', log') := e
    rw [e']
    simp only [hcod, hdom, and_self, if_true]
  · simp only [s4]
    exact h2.nodup_iff.mpr (invPairs_nodup p hnd)
  · intro a b
    simp only [s4]
    exact hcr a b
  · intro c hc
    rw [ho c hc]
    simp only [hL]

/-- C66 (permute).  If some pair of sites that has to braid has no or equal levels, the call raises
instead of choosing a chirality. -/
theorem C66_permute_unspecified {σ : Type} (sites : List σ) (levels0 : List ℤ) (p : List ℕ)
    (levels : List (Option ℤ)) (hlen : p.length = sites.length) (hp : p.Perm (List.range p.length))
    (hlv : levels.length = sites.length) (a b : ℕ) (hab : a < b) (hb : b < sites.length)
    (hi : p.idxOf b < p.idxOf a)
    (hbad : ¬ ∃ x y, levels[a]? = some (some x) ∧ levels[b]? = some (some y) ∧ x ≠ y) :
    permute sites levels0 p (some levels) none = none := by
  obtain ⟨h1, h2, h3⟩ := adjacentTranspositions_spec p hp
  have hnd : p.Nodup := hp.nodup_iff.mpr List.nodup_range
  have hmem : ∀ x, x ∈ p ↔ x < sites.length := by
    intro x; rw [hp.mem_iff, List.mem_range, hlen]
  let L : ℕ → Option ℤ := fun i => (levels[i]?).join
  have hL : ∀ i x, L i = some x ↔ levels[i]? = some (some x) := by
    intro i x
    show (levels[i]?).join = some x ↔ _
    cases levels[i]? with
    | none => simp
    | some o => simp
  rw [hlen] at h1 h2
  let st : State σ := ⟨List.range sites.length, List.range sites.length, sites, levels⟩
  have hlev : st.levels = st.codomain.map L := by
    refine List.ext_getElem (by simp [st, hlv]) fun i h1 h2 => ?_
    simp only [st, List.getElem_map, List.getElem_range, L]
    rw [List.getElem?_eq_getElem h1]; rfl
  have e := (permuteLoop_levels L 0 (adjacentTranspositions p) st [] hlev (by
    intro i hi
    simp only [st, List.length_range]
    have := h3 i hi; omega)).2 ⟨(a, b), by
      show (a, b) ∈ crossings (adjacentTranspositions p) (List.range sites.length)
      rw [h2.mem_iff, mem_invPairs p hnd, hmem, hmem]
      exact ⟨by omega, hb, hab, hi⟩, by
      rintro ⟨x, y, hx, hy, hxy⟩
      exact hbad ⟨x, y, (hL a x).mp hx, (hL b y).mp hy, hxy⟩⟩
  rw [permute]
  simp only [perm_cast p hp, Option.getD_some, hlv, Option.map_none, Option.getD_none, ne_eq,
    not_true, if_false, Bool.true_eq_false]
  have e' : permuteLoop none 0 (adjacentTranspositions p)
      ⟨List.range sites.length, List.range sites.length, sites, levels⟩ [] = none := e
  rw [e']

/-- C66 is false of the code for a `permutation` of the wrong length: `[0]` is accepted for a coupling
on any number of sites (the documented argument is a permutation of all sites), and the result carries
a single level. -/
theorem C66_permute_length_bug {σ : Type} [Inhabited σ] (s0 s1 : σ) :
    ∃ res, permute [s0, s1] [1, 2] [0] none none = some res ∧ res.sites = [s0, s1] ∧
      res.levels.length = 1 := by
  refine ⟨⟨[s0, s1], [0, 1], [0, 1], [1], []⟩, ?_, rfl, rfl⟩
  have h0 : isPermutation (([0] : List ℕ).map Int.ofNat) = true := perm_cast [0] (List.Perm.refl _)
  have h1 : adjacentTranspositions [0] = [] := by decide
  rw [permute]
  simp only [h0, h1, Option.getD_none, Option.map_none]
  rfl

/-- Three sites, cyclic permutation: two braids; the levels decide which goes over. -/
example : adjacentTranspositions [2, 0, 1] = [1, 0] ∧
    inversions [2, 0, 1] = 2 := by decide

/-- A case that meets the hypotheses of `C66_permute`: the levels of sites 0 and 1 may be equal, as
these two do not braid. -/
example : ∃ res, permute ["a", "b", "c"] [1, 2, 3] [2, 0, 1] (some [some 5, some 5, some 4]) none = some res ∧
    res.sites = ["c", "a", "b"] := by
  obtain ⟨res, h, hs, -⟩ := C66_permute ["a", "b", "c"] [1, 2, 3] [2, 0, 1] [some 5, some 5, some 4]
    rfl (by decide) rfl (by
      intro a b hab hb hi
      simp only [List.length_cons, List.length_nil] at hb
      have : (a = 0 ∧ b = 1) ∨ (a = 0 ∧ b = 2) ∨ (a = 1 ∧ b = 2) := by omega
      rcases this with ⟨rfl, rfl⟩ | ⟨rfl, rfl⟩ | ⟨rfl, rfl⟩
      · exact absurd hi (by decide)
      · exact ⟨5, 4, rfl, rfl, by decide⟩
      · exact ⟨5, 4, rfl, rfl, by decide⟩)
  exact ⟨res, h, hs⟩

end Cyten.CouplingPermute
