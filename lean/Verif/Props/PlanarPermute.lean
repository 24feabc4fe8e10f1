import Verif.Lemmas.PlanarCalls

/-!
# C75: planar permutations of legs need no braiding

`Spec.Cut n a b` (Props/Planar.lean): first the legs `a`, then the legs `b`, once around the tensor.
`Spec.runCalls` (Lemmas/PlanarCalls.lean): the effect of a list of calls of `permute_legs` without levels.
-/

namespace Cyten.Props
open Cyten.Planar Cyten.Planar.Spec Cyten.Tools Cyten.Permute

/-- A list of legs that starts at `t` and goes around. -/
def arc (n t m : ℕ) : List ℕ := (List.range m).map fun i => (t + i) % n

theorem length_arc (n t m : ℕ) : (arc n t m).length = m := by simp [arc]

theorem getElem?_arc {n t m i : ℕ} (h : i < m) : (arc n t m)[i]? = some ((t + i) % n) := by
  simp [arc, h]

theorem arc_append {n t t' m m' : ℕ} (h : t' % n = (t + m) % n) : arc n t m ++ arc n t' m' = arc n t (m + m') := by
  apply List.ext_getElem?
  intro i
  by_cases h1 : i < m
  · rw [List.getElem?_append_left (by rw [length_arc]; exact h1), getElem?_arc h1, getElem?_arc (by omega)]
  · rw [List.getElem?_append_right (by rw [length_arc]; omega), length_arc]
    by_cases h2 : i < m + m'
    · rw [getElem?_arc (by omega), getElem?_arc h2]
      congr 1
      rw [Nat.add_mod, h, ← Nat.add_mod]
      congr 1; omega
    · rw [List.getElem?_eq_none (by rw [length_arc]; omega), List.getElem?_eq_none (by rw [length_arc]; omega)]

theorem arc_full {n t : ℕ} (hn : 0 < n) : arc n t n ~r List.range n := by
  rw [isRotated_range]
  refine ⟨t % n, (Nat.mod_lt _ hn).le, fun _ => Nat.mod_lt _ hn, ?_⟩
  have hs := Nat.mod_lt t hn
  apply List.ext_getElem?
  intro i
  by_cases h1 : i < n - t % n
  · rw [getElem?_arc (by omega), List.getElem?_append_left (by simpa using h1), getElem?_rangeOf (by omega),
      ← Nat.mod_add_mod, Nat.mod_eq_of_lt (by omega)]
  · rw [List.getElem?_append_right (by simp; omega), length_rangeOf]
    by_cases h2 : i < n
    · rw [getElem?_arc h2, getElem?_rangeOf (by omega), ← Nat.mod_add_mod,
        show t % n + i = (i - (n - t % n)) + n by omega, Nat.add_mod_right, Nat.mod_eq_of_lt (by omega)]
      congr 1; omega
    · rw [List.getElem?_eq_none (by rw [length_arc]; omega), List.getElem?_eq_none (by simp; omega)]

theorem cut_arc {n : ℕ} {a b : List ℕ} (h : Cut n a b) :
    a.length + b.length = n ∧ ∃ s, a = arc n s a.length ∧ b = arc n (s + a.length) b.length := by
  obtain ⟨s, hs, hs', hab⟩ := isRotated_range.1 h
  have hlen := congrArg List.length hab
  simp only [List.length_append, length_rangeOf] at hlen
  have hl : a.length + b.length = n := by omega
  refine ⟨hl, s, ?_⟩
  have hW : a ++ b = arc n s n := by
    rw [hab]
    apply List.ext_getElem?
    intro i
    by_cases h1 : i < n - s
    · rw [getElem?_arc (by omega), List.getElem?_append_left (by simpa using h1), getElem?_rangeOf (by omega),
        Nat.mod_eq_of_lt (by omega)]
    · rw [List.getElem?_append_right (by simp; omega), length_rangeOf]
      by_cases h2 : i < n
      · rw [getElem?_arc h2, getElem?_rangeOf (by omega),
          show s + i = (i - (n - s)) + n by omega, Nat.add_mod_right, Nat.mod_eq_of_lt (by omega)]
        congr 1; omega
      · rw [List.getElem?_eq_none (by simp; omega), List.getElem?_eq_none (by rw [length_arc]; omega)]
  have h2 : arc n s n = arc n s a.length ++ arc n (s + a.length) b.length := by
    rw [arc_append rfl, hl]
  rw [h2] at hW
  exact List.append_inj hW (by rw [length_arc])

theorem arc_head {n t m : ℕ} (h : 0 < m) : (arc n t m).headD 0 = t % n := by
  rw [headD_getD, List.getD_eq_getElem?_getD, getElem?_arc h]; rfl

theorem arc_last {n t m : ℕ} (h : 0 < m) : (arc n t m).getLastD 0 = (t + (m - 1)) % n := by
  rw [getLastD_getD, List.getD_eq_getElem?_getD, length_arc, getElem?_arc (by omega)]; rfl

theorem arc_mod (n t m : ℕ) : arc n (t % n) m = arc n t m := by
  unfold arc
  refine List.map_congr_left fun i _ => ?_
  rw [Nat.mod_add_mod]

theorem headD_reverse (l : List ℕ) : l.reverse.headD 0 = l.getLastD 0 := by
  rw [List.headD_eq_head?_getD, List.head?_reverse, List.getLastD_eq_getLast?]

theorem getLastD_reverse (l : List ℕ) : l.reverse.getLastD 0 = l.headD 0 := by
  rw [List.headD_eq_head?_getD, List.getLastD_eq_getLast?, List.getLast?_reverse]

/-- `domainStep` in terms of arcs. -/
theorem domainStep_eq {n : ℕ} {c : Option (List ℕ)} {l : List ℕ} (hl : l ≠ []) :
    domainStep n c (some l) = if l.reverse ≠ arc n (l.reverse.headD 0) l.length then .error .nonPlanar
      else match c with
        | none => .ok (some (arc n (l.reverse.getLastD 0 + 1) (n - l.length)))
        | some c => if c ≠ arc n (l.reverse.getLastD 0 + 1) (n - l.length) then .error .inconsistent else .ok (some c) := by
  cases l with
  | nil => exact absurd rfl hl
  | cons d0 ds =>
    have e1 : (d0 :: ds).reverse.getLastD 0 = d0 := by rw [getLastD_reverse]; rfl
    have e2 : ((d0 :: ds) ≠ ((List.range (d0 :: ds).length).map fun i => ((d0 :: ds).getLastD 0 + i) % n).reverse) ↔
        (d0 :: ds).reverse ≠ arc n ((d0 :: ds).reverse.headD 0) (d0 :: ds).length := by
      rw [headD_reverse, ne_eq, ne_eq, not_iff_not]
      exact ⟨fun h => by
        have := congrArg List.reverse h
        rw [List.reverse_reverse] at this
        exact this, fun h => by rw [← List.reverse_inj, h]; simp [arc]⟩
    unfold domainStep
    simp only
    rw [e1]
    by_cases h : (d0 :: ds).reverse ≠ arc n ((d0 :: ds).reverse.headD 0) (d0 :: ds).length
    · rw [if_pos h, if_pos (e2.2 h)]
    · rw [if_neg h, if_neg (fun hc => h (e2.1 hc))]
      rfl

theorem codomainStep_eq {n : ℕ} {d : Option (List ℕ)} {l : List ℕ} (hl : l ≠ []) :
    codomainStep n (some l) d = if l ≠ arc n (l.headD 0) l.length then .error .nonPlanar
      else match d with
        | none => .ok (some (arc n (l.getLastD 0 + 1) (n - l.length)).reverse)
        | some d => if d ≠ (arc n (l.getLastD 0 + 1) (n - l.length)).reverse then .error .inconsistent else .ok (some d) := by
  cases l with
  | nil => exact absurd rfl hl
  | cons c0 cs => rfl

/-- The ways to specify the new codomain and the new domain: both, or one of them if it is not empty. -/
def Given (c d : Option (List ℕ)) (co dom : List ℕ) : Prop :=
  (c = some co ∧ d = some dom) ∨ (c = some co ∧ d = none ∧ co ≠ []) ∨ (c = none ∧ d = some dom ∧ dom ≠ [])

theorem parse_complete {n : ℕ} {c d : Option (List ℕ)} {co dom : List ℕ} (h : Cut n co dom.reverse)
    (hg : Given c d co dom) : parsePermute n c d = .ok (co, dom) := by
  obtain ⟨hl, s, h1, h2⟩ := cut_arc h
  rw [List.length_reverse] at hl h2
  have hco : co ≠ [] → arc n (co.headD 0) co.length = co ∧ (arc n (co.getLastD 0 + 1) (n - co.length)).reverse = dom := by
    intro hne
    have hpos := List.length_pos_iff.2 hne
    constructor
    · conv_rhs => rw [h1]
      conv_lhs => rw [h1]
      rw [arc_head hpos, length_arc, arc_mod]
    · rw [← List.reverse_inj, List.reverse_reverse, h2]
      conv_lhs => rw [h1]
      rw [arc_last hpos, length_arc, show n - co.length = dom.length by omega, ← arc_mod, Nat.mod_add_mod,
        show s + (co.length - 1) + 1 = s + co.length by omega, arc_mod]
  have hdo : dom ≠ [] → arc n (dom.reverse.headD 0) dom.length = dom.reverse ∧
      arc n (dom.reverse.getLastD 0 + 1) (n - dom.length) = co := by
    intro hne
    have hpos := List.length_pos_iff.2 hne
    constructor
    · conv_rhs => rw [h2]
      conv_lhs => rw [h2]
      rw [arc_head hpos, arc_mod]
    · rw [h2, arc_last hpos, ← arc_mod, Nat.mod_add_mod, arc_mod, show n - dom.length = co.length by omega]
      conv_rhs => rw [h1]
      rw [← arc_mod, show s + co.length + (dom.length - 1) + 1 = s + n by omega, Nat.add_mod_right, arc_mod]
  have hd1 : (c = some co ∨ (c = none ∧ dom ≠ [])) → d = some dom → domainStep n c d = .ok (some co) := by
    intro hc hd
    rw [hd]
    by_cases hne : dom = []
    · subst hne
      rcases hc with rfl | ⟨-, hc⟩
      · rfl
      · exact absurd rfl hc
    · obtain ⟨e1, e2⟩ := hdo hne
      rw [domainStep_eq hne, if_neg (by rw [e1]; simp), e2]
      rcases hc with rfl | ⟨rfl, -⟩
      · simp
      · rfl
  have hc1 : (d = some dom ∨ (d = none ∧ co ≠ [])) → codomainStep n (some co) d = .ok (some dom) := by
    intro hd
    by_cases hne : co = []
    · subst hne
      rcases hd with rfl | ⟨-, hc⟩
      · rfl
      · exact absurd rfl hc
    · obtain ⟨e1, e2⟩ := hco hne
      rw [codomainStep_eq hne, if_neg (by rw [e1]; simp), e2]
      rcases hd with rfl | ⟨rfl, -⟩
      · simp
      · rfl
  unfold parsePermute
  rcases hg with ⟨rfl, rfl⟩ | ⟨rfl, rfl, hne⟩ | ⟨rfl, rfl, hne⟩
  · rw [if_neg (by simp), if_neg (by simp), hd1 (Or.inl rfl) rfl]
    simp only [Except.bind]
    rw [hc1 (Or.inl rfl)]
  · rw [if_neg (by simp), if_neg (by simp [hne])]
    simp only [domainStep, Except.bind]
    rw [hc1 (Or.inr ⟨rfl, hne⟩)]
  · rw [if_neg (by simp), if_neg (by simp [hne]), hd1 (Or.inr ⟨rfl, hne⟩) rfl]
    simp only [Except.bind]
    rw [hc1 (Or.inl rfl)]

theorem cod_arc {n : ℕ} {l : List ℕ} (hl : l ≠ []) (hn : l.length ≤ n) (h : l = arc n (l.headD 0) l.length) :
    Cut n l (arc n (l.getLastD 0 + 1) (n - l.length)) := by
  have hpos := List.length_pos_iff.2 hl
  unfold Cut
  have e : l.getLastD 0 = (l.headD 0 + (l.length - 1)) % n := by
    conv_lhs => rw [h]
    exact arc_last hpos
  rw [e]
  conv_lhs => enter [1]; rw [h]
  rw [arc_append (by rw [Nat.mod_add_mod, Nat.add_assoc, Nat.sub_add_cancel hpos]),
    show l.length + (n - l.length) = n by omega]
  exact arc_full (by omega)

theorem dom_arc {n : ℕ} {l : List ℕ} (hl : l ≠ []) (hn : l.length ≤ n) (h : l = arc n (l.headD 0) l.length) :
    Cut n (arc n (l.getLastD 0 + 1) (n - l.length)) l := by
  have := cod_arc hl hn h
  exact List.isRotated_append.trans this

theorem parse_sound {n : ℕ} {c d : Option (List ℕ)} {co dom : List ℕ} (h : parsePermute n c d = .ok (co, dom))
    (hc : ∀ l, c = some l → l.length ≤ n) (hd : ∀ l, d = some l → l.length ≤ n)
    (he : ¬ (c = some [] ∧ d = some [] ∧ 0 < n)) : Cut n co dom.reverse ∧ Given c d co dom := by
  unfold parsePermute at h
  by_cases h1 : c = none ∧ d = none
  · rw [if_pos h1] at h; cases h
  rw [if_neg h1] at h
  by_cases h2 : (c = none ∧ d = some []) ∨ (d = none ∧ c = some [])
  · rw [if_pos h2] at h; cases h
  rw [if_neg h2] at h
  have hcs : ∀ (l : List ℕ) (d' : Option (List ℕ)), l ≠ [] → l.length ≤ n → codomainStep n (some l) d' = .ok (some dom) →
      Cut n l dom.reverse ∧ (d' = none ∨ d' = some dom) := by
    intro l d' hne hll hs
    rw [codomainStep_eq hne] at hs
    by_cases h3 : l ≠ arc n (l.headD 0) l.length
    · rw [if_pos h3] at hs; cases hs
    rw [if_neg h3] at hs
    have h4 := cod_arc hne hll (by simpa using h3)
    cases d' with
    | none =>
      simp only [Except.ok.injEq, Option.some.injEq] at hs
      rw [← hs, List.reverse_reverse]
      exact ⟨h4, Or.inl rfl⟩
    | some d' =>
      simp only at hs
      by_cases h5 : d' ≠ (arc n (l.getLastD 0 + 1) (n - l.length)).reverse
      · rw [if_pos h5] at hs; cases hs
      rw [if_neg h5] at hs
      simp only [Except.ok.injEq, Option.some.injEq] at hs
      rw [ne_eq, not_not] at h5
      refine ⟨?_, Or.inr (by rw [hs])⟩
      rw [← hs, h5, List.reverse_reverse]
      exact h4
  -- the domain is not given, or empty
  have hA : (d = none ∨ d = some []) → Cut n co dom.reverse ∧ Given c d co dom := by
    intro hd0
    have hst : domainStep n c d = .ok c := by rcases hd0 with rfl | rfl <;> rfl
    rw [hst] at h
    simp only [Except.bind] at h
    cases c with
    | none =>
      rcases hd0 with rfl | rfl
      · exact absurd ⟨rfl, rfl⟩ h1
      · exact absurd (Or.inl ⟨rfl, rfl⟩) h2
    | some l =>
      by_cases hne : l = []
      · subst hne
        rcases hd0 with rfl | rfl
        · exact absurd (Or.inr ⟨rfl, rfl⟩) h2
        · simp only [codomainStep, Except.ok.injEq, Prod.mk.injEq] at h
          obtain ⟨rfl, rfl⟩ := h
          have : n = 0 := by
            by_contra hc0
            exact he ⟨rfl, rfl, by omega⟩
          subst this
          exact ⟨List.IsRotated.refl _, Or.inl ⟨rfl, rfl⟩⟩
      · cases hcst : codomainStep n (some l) d with
        | error e => rw [hcst] at h; cases h
        | ok r =>
          rw [hcst] at h
          cases r with
          | none => cases h
          | some r =>
            simp only [Except.ok.injEq, Prod.mk.injEq] at h
            obtain ⟨rfl, rfl⟩ := h
            obtain ⟨h6, h7⟩ := hcs l d hne (hc l rfl) hcst
            refine ⟨h6, ?_⟩
            rcases h7 with rfl | rfl
            · exact Or.inr (Or.inl ⟨rfl, rfl, hne⟩)
            · exact Or.inl ⟨rfl, rfl⟩
  cases d with
  | none => exact hA (Or.inl rfl)
  | some l =>
    by_cases hne : l = []
    · exact hA (Or.inr (by rw [hne]))
    rw [domainStep_eq hne] at h
    by_cases h3 : l.reverse ≠ arc n (l.reverse.headD 0) l.length
    · rw [if_pos h3] at h; cases h
    rw [if_neg h3] at h
    rw [ne_eq, not_not] at h3
    have h4 := dom_arc (n := n) (l := l.reverse) (by simpa using hne) (by simpa using hd l rfl) (by simpa using h3)
    rw [List.length_reverse] at h4
    -- the codomain is the complement
    obtain ⟨hcod, h⟩ : (c = none ∨ c = some (arc n (l.reverse.getLastD 0 + 1) (n - l.length))) ∧
        ((codomainStep n (some (arc n (l.reverse.getLastD 0 + 1) (n - l.length))) (some l)).bind fun dom =>
          match some (arc n (l.reverse.getLastD 0 + 1) (n - l.length)), dom with
          | some c, some d => Except.ok (c, d)
          | _, _ => Except.error PErr.emptyVector) = .ok (co, dom) := by
      cases c with
      | none => exact ⟨Or.inl rfl, h⟩
      | some c =>
        simp only at h
        by_cases h5 : c ≠ arc n (l.reverse.getLastD 0 + 1) (n - l.length)
        · rw [if_pos h5] at h; cases h
        rw [if_neg h5] at h
        rw [ne_eq, not_not] at h5
        subst h5
        exact ⟨Or.inr rfl, h⟩
    have hfin : co = arc n (l.reverse.getLastD 0 + 1) (n - l.length) ∧ dom = l := by
      generalize arc n (l.reverse.getLastD 0 + 1) (n - l.length) = A at h
      by_cases hA0 : A = []
      · subst hA0
        simp only [codomainStep, Except.bind, Except.ok.injEq, Prod.mk.injEq] at h
        exact ⟨h.1.symm, h.2.symm⟩
      · cases hcst : codomainStep n (some A) (some l) with
        | error e => rw [hcst] at h; cases h
        | ok r =>
          rw [hcst] at h
          cases r with
          | none => cases h
          | some r =>
            simp only [Except.bind, Except.ok.injEq, Prod.mk.injEq] at h
            obtain ⟨rfl, rfl⟩ := h
            refine ⟨rfl, ?_⟩
            rw [codomainStep_eq hA0] at hcst
            split_ifs at hcst
            simp only at hcst
            split_ifs at hcst
            simp only [Except.ok.injEq, Option.some.injEq] at hcst
            exact hcst.symm
    rw [hfin.1, hfin.2]
    refine ⟨h4, ?_⟩
    rcases hcod with rfl | rfl
    · exact Or.inr (Or.inr ⟨rfl, rfl, hne⟩)
    · exact Or.inl ⟨rfl, rfl⟩

/-! ## The theorems -/

/-- **C75**: for every tensor and every planar permutation (the new codomain from left to right and then the new
domain from right to left are the legs once around the tensor), given by the codomain, the domain or both,
`planar_permute_legs` succeeds, none of the calls of `permute_legs` complains about missing levels (for no
symmetry), and the legs of the result are the requested ones. -/
theorem C75_planar_permute {K D : ℕ} {co dom : List ℕ} (h : Cut (K + D) co dom.reverse) {c d : Option (List ℕ)}
    (hg : Given c d co dom) :
    ∃ calls, planarPermuteLegs K D c d = .ok ((co, dom), calls) ∧
      ∀ sym, runCalls sym calls (initialLegs K D) = some (co, dom) := by
  have hall : ∀ sym, ∃ calls, permuteCalls K D co dom = .ok calls ∧
      runCalls sym calls (initialLegs K D) = some (co, dom) := by
    intro sym
    rcases cut_cases h with ⟨s, e, h1, h2, h3, rfl, h4⟩ | ⟨s, e, h0, h1, h2, rfl, h4⟩
    · rw [← List.reverse_inj, List.reverse_reverse] at h4
      subst h4
      exact calls_A sym h1 h2 h3
    · rw [← List.reverse_inj, List.reverse_reverse] at h4
      subst h4
      exact calls_B sym h0 h1 h2
  obtain ⟨calls, h1, h2⟩ := hall true
  obtain ⟨calls', h1', h2'⟩ := hall false
  rw [h1] at h1'
  injection h1' with h1'
  subst h1'
  refine ⟨calls, ?_, fun sym => by cases sym <;> assumption⟩
  unfold planarPermuteLegs
  rw [parse_complete h hg]
  simp only [Except.bind]
  rw [h1]
  rfl

/-- **C75**: what is accepted is planar, and it is what was asked for. -/
theorem C75_only_planar {K D : ℕ} {c d : Option (List ℕ)} {co dom : List ℕ} {calls : List Call}
    (h : planarPermuteLegs K D c d = .ok ((co, dom), calls)) (hc : ∀ l, c = some l → l.length ≤ K + D)
    (hd : ∀ l, d = some l → l.length ≤ K + D) (he : ¬ (c = some [] ∧ d = some [] ∧ 0 < K + D)) :
    Cut (K + D) co dom.reverse ∧ Given c d co dom := by
  unfold planarPermuteLegs at h
  cases hp : parsePermute (K + D) c d with
  | error e => rw [hp] at h; cases h
  | ok p =>
    rw [hp] at h
    simp only [Except.bind] at h
    cases hq : permuteCalls K D p.1 p.2 with
    | error e => rw [hq] at h; cases h
    | ok q =>
      rw [hq] at h
      simp only [Except.map, Except.ok.injEq, Prod.mk.injEq] at h
      obtain ⟨rfl, rfl⟩ := h
      exact parse_sound hp hc hd he

/-- **C75**: the decision. -/
theorem C75_planar_permute_iff {K D : ℕ} {co dom : List ℕ} (hc : co.length ≤ K + D) (hd : dom.length ≤ K + D)
    (he : ¬ (co = [] ∧ dom = [] ∧ 0 < K + D)) :
    (∃ calls, planarPermuteLegs K D (some co) (some dom) = .ok ((co, dom), calls)) ↔ Cut (K + D) co dom.reverse := by
  constructor
  · rintro ⟨calls, h⟩
    exact (C75_only_planar h (by rintro l ⟨⟩; exact hc) (by rintro l ⟨⟩; exact hd) (by
      rintro ⟨h1, h2, h3⟩
      injection h1 with h1; injection h2 with h2
      exact he ⟨h1, h2, h3⟩)).1
  · intro h
    obtain ⟨calls, h1, -⟩ := C75_planar_permute h (c := some co) (d := some dom) (Or.inl ⟨rfl, rfl⟩)
    exact ⟨calls, h1⟩

/-- **C75**, a defect: for a tensor with legs in the codomain and in the domain, two empty lists pass the checks
and then an element of an empty vector is accessed. -/
theorem C75_empty_defect {K D : ℕ} (hK : 0 < K) (hD : 0 < D) :
    parsePermute (K + D) (some []) (some []) = .ok ([], []) ∧
    planarPermuteLegs K D (some []) (some []) = .error .emptyVector := by
  refine ⟨rfl, ?_⟩
  have h1 : codStaying K [] = [] := by simp [codStaying]
  have h2 : domStaying K D [] = [] := by simp [domStaying]
  show (permuteCalls K D [] []).map _ = _
  unfold permuteCalls
  have h3 : codWinding K [] = false := by simp [codWinding]
  have h4 : domWinding K D [] = false := by simp [domWinding]
  simp only [h1, h2, h3, h4, ne_eq, not_true_eq_false, and_false, if_false, Bool.false_and, Bool.false_eq_true,
    List.length_nil]
  rw [if_neg (by omega), if_neg (by omega), if_neg (by omega), if_pos trivial]
  simp [codUpBends, h2, Except.map]

/-- **C75**: a tensor with three and two legs: the codomain winds, and two calls are made; a cyclic permutation by
one; a permutation that is not planar. -/
theorem C75_nonvacuous :
    Cut (3 + 2) [2, 3, 4, 0] [1] ∧
    planarPermuteLegs 3 2 (some [2, 3, 4, 0]) none = .ok (([2, 3, 4, 0], [1]),
      [⟨[0], [4, 3, 2, 1], List.replicate 5 (some true)⟩, ⟨[2, 3, 4, 0], [1], List.replicate 5 (some false)⟩]) ∧
    runCalls false [⟨[0], [4, 3, 2, 1], List.replicate 5 (some true)⟩,
      ⟨[2, 3, 4, 0], [1], List.replicate 5 (some false)⟩] (initialLegs 3 2) = some ([2, 3, 4, 0], [1]) ∧
    planarPermuteLegs 3 2 none (some [0, 4]) = .ok (([1, 2, 3], [0, 4]),
      [⟨[1, 2, 3], [0, 4], [some false, none, none, some true, none]⟩]) ∧
    planarPermuteLegs 3 2 (some [0, 2]) none = .error .nonPlanar := by
  refine ⟨⟨3, by decide⟩, by decide +kernel, by decide +kernel, by decide +kernel, by decide +kernel⟩

end Cyten.Props
