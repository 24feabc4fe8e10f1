import Verif.Lemmas.Labels

/-!
# C13, C14, C15: leg labels

`Labels.combine ls off` is the label of the leg obtained by combining legs with labels `ls`,
`Labels.split l num` are the labels after splitting a leg with label `l` into `num` legs
(`none`: exception or abort), `Labels.dual` is the label of the dual leg.
-/

namespace Cyten.Props
open Cyten Cyten.Labels

/-- **C13** (the part of it that is true, sharp): splitting a combined leg recovers the labels
exactly if no label contains a dot or starts with a question mark.  Missing: labels of legs that are themselves
combined (they contain dots), see `C13_nested_wrong`. -/
theorem C13_split_combine_partial (ls : List LegLabel) (hne : ls ≠ []) (off : ℕ) :
    split (some (combine ls off)) ls.length = some ls ↔
      ∀ s, some s ∈ ls → '.' ∉ s ∧ s.head? ≠ some '?' := by
  have h := split_combine_iff ls off hne
  simp only [split]
  constructor
  · intro hs
    apply h.1
    rw [combine_split_raw ls off hne] at hs ⊢
    simp only [bind, Option.bind] at hs
    split_ifs at hs
    exact hs
  · intro hp
    rw [h.2 hp]
    simp [bind, Option.bind]

/-- Non-vacuity. -/
example : split (some (combine [some ['a'], none, some ['b', '*']] 0)) 3 =
    some [some ['a'], none, some ['b', '*']] ∧
    combine [some ['a'], none, some ['b', '*']] 0 = "(a.?1.b*)".toList := by decide

/-- **C13 is false for nested combinations**: if one of the combined legs carries the label of a
leg combined from at least two legs, splitting does not recover the labels; it raises or aborts. -/
theorem C13_nested_wrong (inner outer : List LegLabel) (off off' : ℕ) (hi : 2 ≤ inner.length)
    (ho : some (combine inner off) ∈ outer) :
    split (some (combine outer off')) outer.length = none := by
  have hne : outer ≠ [] := by rintro rfl; simp at ho
  have hdot : '.' ∈ combine inner off := by
    match inner, hi with
    | a :: b :: l, _ =>
      simp only [combine, parts]
      apply List.mem_cons_of_mem
      apply List.mem_append_left
      cases h : parts (0 + 1 + 1) off l <;> simp [List.intercalate, List.intersperse]
  have := flatMap_split_length_dot (parts 0 off' outer)
    ⟨_, parts_mem 0 off' outer _ ho, hdot⟩
  simp only [split]
  rw [combine_split_raw outer off' hne]
  simp only [bind, Option.bind]
  rw [if_neg]
  rw [List.length_map]
  rw [parts_length] at this
  omega

example : split (some (combine [some (combine [some ['a'], some ['b']] 0), some ['c']] 0)) 2 = none := by
  decide

/-- **C14** (proved part): dualising twice gives back every elementary label (no dots, no leading `?`, at most one trailing
star, not parenthesised), starred or not. -/
theorem C14_dual_involutive_partial (s : Str) (h : Simple s) : dual (dual (some s)) = some s := by
  simp only [dual, Option.map_some, dual_simple s h]

/-- **C14** (proved part): the label of a leg combined from elementary legs dualises to the
combination of the dual labels in reversed order... -/
theorem C14_dual_combined (ls : List LegLabel) (off : ℕ) (hne : ls ≠ [])
    (h : ∀ s, some s ∈ ls → Simple s) :
    dual (some (combine ls off)) = some (combine (ls.reverse.map dual) 0) := by
  simp only [dual, Option.map_some]
  rw [dual_combine ls off hne (fun s hs => simple_plain (h s hs))]
  refine congrArg (fun x => some (combine x 0)) ?_
  refine List.map_congr_left fun l hl => ?_
  rw [List.mem_reverse] at hl
  cases l with
  | none => rfl
  | some s =>
    simp only [Option.map_some]
    refine congrArg some ?_
    cases hn : (combine ls off).length with
    | zero => simp [combine] at hn
    | succ n => simp only [dualStr_of_not_paren s (h s hl).paren]

/-- ... and dualising twice gives the combined label back (with offset 0, as for a single combined
group). Missing in general: see `C14_offset_wrong`, `C14_double_star_wrong`. -/
theorem C14_dual_combined_involutive_partial (ls : List LegLabel) (hne : ls ≠ [])
    (h : ∀ s, some s ∈ ls → Simple s) : dual (dual (some (combine ls 0))) = some (combine ls 0) := by
  rw [C14_dual_combined ls 0 hne h]
  simp only [dual, Option.map_some]
  have hp : ∀ s, some s ∈ ls.reverse.map dual → Plain s := by
    intro s hs
    rw [List.mem_map] at hs
    obtain ⟨l, hl, e⟩ := hs
    rw [List.mem_reverse] at hl
    cases l with
    | none => simp [dual] at e
    | some t =>
      simp only [dual, Option.map_some, Option.some.injEq] at e
      rw [← e]
      exact simple_dual t (h t hl)
  have hlen : (combine (ls.reverse.map dual) 0).length ≠ 0 := by simp [combine]
  obtain ⟨n, hn⟩ := Nat.exists_eq_succ_of_ne_zero hlen
  have e := dual_combine (n := (combine (ls.reverse.map dual) 0).length) (ls.reverse.map dual) 0
    (by simpa using hne) hp
  have hk : (dual = fun l : LegLabel => l.map fun s => dualStr (s.length + 1) s) := rfl
  rw [hk] at e hn ⊢
  rw [e]
  refine congrArg (fun x => some (combine x 0)) ?_
  rw [← List.map_reverse, List.reverse_reverse, List.map_map, hn]
  conv_rhs => rw [← List.map_id ls]
  refine List.map_congr_left fun l hl => ?_
  cases l with
  | none => rfl
  | some s =>
    simp only [Function.comp, Option.map_some, id]
    rw [dual_simple s (h s hl)]

example : Simple ['p'] ∧ Simple ['p', '*'] := by
  have : ∀ s : Str, s.length ≤ 2 → ('.' ∉ s) → s.head? = some 'p' → (s.length = 2 → s ≠ ['*', '*']) →
      Simple s := by
    intro s hl hd hh hs
    refine ⟨hd, by rw [hh]; decide, by simp [parenthesised, hh], ?_, ?_⟩
    · rintro t rfl
      have : t = [] := by
        simpa using hl
      subst this; simp at hh
    · rintro t rfl
      match t, hl, hh with
      | [c], _, hh => simp at hh; subst hh; decide
      | [], _, hh => simp at hh
      | _ :: _ :: _, hl, _ => simp at hl
  exact ⟨this _ (by decide) (by decide) rfl (by decide), this _ (by decide) (by decide) rfl (by decide)⟩

example : dual (some "(a.b*)".toList) = some "(b.a*)".toList := by decide

/-- **C14 is false** for valid labels ending in two stars: `a**` ↦ `a*` ↦ `a`. -/
theorem C14_double_star_wrong : isValid (some "a**".toList) = true ∧
    dual (dual (some "a**".toList)) = some "a".toList := by decide

/-- **C14 is false** for combined labels of a second group of unlabelled legs: the placeholder
numbers are lost.  `(?2.a)` is what `combine_legs` produces for `[None, "a"]` after two unlabelled legs have
been combined in an earlier group. -/
theorem C14_offset_wrong : combine [none, some ['a']] 2 = "(?2.a)".toList ∧
    dual (dual (some "(?2.a)".toList)) = some "(?0.a)".toList := by decide

/-- **C14**: for a leg combined from combined legs, the dual label is not the combination of the
dual labels. -/
theorem C14_nested_dual_wrong :
    dual (some (combine [some (combine [some ['a'], some ['b']] 0), some ['c']] 0)) ≠
      some (combine [dual (some ['c']), dual (some (combine [some ['a'], some ['b']] 0))] 0) := by
  decide

/-! ### C15 -/

/-- **C15**: after construction and any history of labelling calls that did not abort the process,
no two legs carry the same label. -/
theorem C15_labels_unique (ls : List LegLabel) (s0 s : Legs) (ops : List Op)
    (h0 : Legs.make ls = some s0) (h : s0.run ops = some s) (i j : ℕ) (l : Str)
    (hi : s.labels[i]? = some (some l)) (hj : s.labels[j]? = some (some l)) : i = j := by
  unfold Legs.make at h0
  split_ifs at h0 with hc
  injection h0 with h0
  subst h0
  exact (run_inv _ s ops (inv_build ls hc) h).uniq i j l hi hj

/-- **C15**: looking up a label returns exactly the leg that carries it, and raises iff there is none. -/
theorem C15_lookup (ls : List LegLabel) (s0 s : Legs) (ops : List Op)
    (h0 : Legs.make ls = some s0) (h : s0.run ops = some s) (l : Str) :
    (∀ i, s.lookup l = some i ↔ s.labels[i]? = some (some l)) ∧
      (s.lookup l = none ↔ some l ∉ s.labels) := by
  unfold Legs.make at h0
  split_ifs at h0 with hc
  injection h0 with h0
  subst h0
  have hI := run_inv _ s ops (inv_build ls hc) h
  refine ⟨fun i => hI.look l i, ?_⟩
  constructor
  · intro hn hm
    obtain ⟨i, hi⟩ := List.getElem?_of_mem hm
    have := (hI.look l i).2 hi
    simp only [Legs.lookup] at hn
    rw [this] at hn; cases hn
  · intro hn
    cases hl : s.lookup l with
    | none => rfl
    | some i => exact absurd (List.mem_of_getElem? ((hI.look l i).1 hl)) hn

/-- **C15**: an index `-n ≤ i < n` denotes the leg `i mod n`, everything else raises. -/
theorem C15_lookup_index (s : Legs) (i : ℤ) :
    s.lookupIdx i = if -(s.labels.length : ℤ) ≤ i ∧ i < s.labels.length then
      some (i % s.labels.length).toNat else none := by
  unfold Legs.lookupIdx
  by_cases h : -(s.labels.length : ℤ) ≤ i ∧ i < s.labels.length
  · rw [if_pos h, toValidIdx_spec]
    have hpos : (0 : ℤ) < s.labels.length := by omega
    have h1 := Int.emod_nonneg i (Int.ne_of_gt hpos)
    have h2 := Int.emod_lt_of_pos i hpos
    refine ⟨by omega, ?_⟩
    by_cases hi : 0 ≤ i
    · left; rw [Int.emod_eq_of_lt hi h.2]; omega
    · right
      have : i % s.labels.length = i + s.labels.length := by
        rw [← Int.add_emod_right, Int.emod_eq_of_lt] <;> omega
      rw [this]; omega
  · rw [if_neg h]
    unfold toValidIdx
    rw [if_pos (by omega)]

/-- **C15**: the number of legs never changes. -/
theorem C15_num_legs (s0 s : Legs) (ops : List Op) (h : s0.run ops = some s) :
    s.labels.length = s0.labels.length := run_length s0 s ops h

/-- **C15**: construction succeeds iff the labels that are not `None` are distinct. -/
theorem C15_construct (ls : List LegLabel) :
    (∃ s, Legs.make ls = some s ∧ s.labels = ls) ↔ (ls.filterMap id).Nodup := by
  unfold Legs.make
  have := noDup_iff ls []
  constructor
  · rintro ⟨s, h, -⟩
    split_ifs at h with hc
    exact (this.1 hc).1
  · intro h
    rw [if_pos (this.2 ⟨h, by simp⟩)]
    exact ⟨_, rfl, rfl⟩

/-- **C15**: `set_label` with a proper label succeeds iff the position exists and no *other* leg has
the label; then it changes only that leg. -/
theorem C15_set_label (s : Legs) (pos : ℤ) (l : Str) :
    (∃ s', s.setLabel pos (some l) = .ok s') ↔
      ∃ p, toValidIdx pos s.labels.length = some p ∧
        ∀ i, i ≠ p → s.labels[i]? ≠ some (some l) := by
  unfold Legs.setLabel
  cases hp : toValidIdx pos s.labels.length with
  | none => simp
  | some p =>
    simp only [Option.some.injEq, exists_eq_left']
    constructor
    · rintro ⟨s', h⟩ i hi hl
      split_ifs at h with hc
      simp only [Bool.or_eq_true, List.contains_eq_mem, decide_eq_true_eq, not_or] at hc
      by_cases hlt : i < p
      · apply hc.1
        have : (s.labels.take p)[i]? = some (some l) := by
          rw [List.getElem?_take_of_lt hlt]; exact hl
        exact List.mem_of_getElem? this
      · apply hc.2
        have : (s.labels.drop (p + 1))[i - (p + 1)]? = some (some l) := by
          rw [List.getElem?_drop, show p + 1 + (i - (p + 1)) = i by omega]; exact hl
        exact List.mem_of_getElem? this
    · intro h
      rw [if_neg]
      · exact ⟨_, rfl⟩
      · simp only [Bool.or_eq_true, List.contains_eq_mem, decide_eq_true_eq, not_or]
        constructor
        · intro hm
          obtain ⟨i, hi⟩ := List.getElem?_of_mem hm
          have hlt : i < p := by
            by_contra hge
            rw [List.getElem?_eq_none (by rw [List.length_take]; omega)] at hi
            cases hi
          rw [List.getElem?_take_of_lt hlt] at hi
          exact h i (by omega) hi
        · intro hm
          obtain ⟨i, hi⟩ := List.getElem?_of_mem hm
          rw [List.getElem?_drop] at hi
          exact h _ (by omega) hi

/-- **C15**: the effect of a successful `set_label`. -/
theorem C15_set_label_effect (s s' : Legs) (pos : ℤ) (label : LegLabel)
    (h : s.setLabel pos label = .ok s') :
    ∃ p, toValidIdx pos s.labels.length = some p ∧ s'.labels = s.labels.set p label := by
  unfold Legs.setLabel at h
  split at h
  · cases h
  · rename_i p hp
    split at h
    · cases h
    · injection h with h
      exact ⟨p, hp, by rw [← h]⟩

/-- Un-labelling a leg **raises** "Duplicate label" if another leg is unlabelled, although
unlabelled legs never clash. -/
theorem C15_set_label_none_wrong (s : Legs) (pos : ℤ) (p i : ℕ)
    (hp : toValidIdx pos s.labels.length = some p) (hi : i ≠ p) (hn : s.labels[i]? = some none) :
    s.setLabel pos none = .throws s := by
  unfold Legs.setLabel
  rw [hp]
  simp only
  rw [if_pos]
  simp only [Bool.or_eq_true, List.contains_eq_mem, decide_eq_true_eq]
  by_cases hlt : i < p
  · left
    have : (s.labels.take p)[i]? = some none := by
      rw [List.getElem?_take_of_lt hlt]; exact hn
    exact List.mem_of_getElem? this
  · right
    have : (s.labels.drop (p + 1))[i - (p + 1)]? = some none := by
      rw [List.getElem?_drop, show p + 1 + (i - (p + 1)) = i by omega]; exact hn
    exact List.mem_of_getElem? this

/-- **C15**: `labels_are(want)` iff `want` is a permutation of the labels (all legs labelled). -/
theorem C15_labels_are (ls : List LegLabel) (s0 s : Legs) (ops : List Op)
    (h0 : Legs.make ls = some s0) (h : s0.run ops = some s) (want : List Str) :
    s.labelsAre want = true ↔ (want.map some).Perm s.labels := by
  have hnd : (s.labels.filterMap id).Nodup := by
    rw [List.nodup_iff_getElem?_ne_getElem?]
    intro i j hij hj he
    have key : ∀ (L : List LegLabel), (∀ (i j : ℕ) (l : Str), L[i]? = some (some l) → L[j]? = some (some l) → i = j) →
        (L.filterMap id).Nodup := by
      intro L
      induction L with
      | nil => simp
      | cons x L ih =>
        intro hu
        have ih' := ih (fun i j l hi hj => by
          have := hu (i + 1) (j + 1) l (by simpa using hi) (by simpa using hj); omega)
        cases x with
        | none => simpa using ih'
        | some y =>
          rw [List.filterMap_cons]
          refine List.nodup_cons.2 ⟨?_, ih'⟩
          intro hm
          rw [List.mem_filterMap] at hm
          obtain ⟨z, hz, e⟩ := hm
          simp only [id] at e; subst e
          obtain ⟨k, hk⟩ := List.getElem?_of_mem hz
          have := hu 0 (k + 1) y (by simp) (by simpa using hk)
          omega
    have hN := key s.labels (C15_labels_unique ls s0 s ops h0 h)
    have := List.nodup_iff_getElem?_ne_getElem?.1 hN i j hij hj
    exact this he
  constructor
  · intro hw
    simp only [Legs.labelsAre, Bool.and_eq_true, List.all_eq_true, beq_iff_eq,
      List.contains_eq_mem, decide_eq_true_eq] at hw
    obtain ⟨⟨⟨h1, h2⟩, h3⟩, h4⟩ := hw
    have hlab : s.labels = (s.labels.filterMap id).map some := by
      clear h0 h hnd h2 h3 h4
      generalize s.labels = L at h1
      induction L with
      | nil => rfl
      | cons x L ih =>
        cases x with
        | none => simpa using h1 none (by simp)
        | some y =>
          rw [List.filterMap_cons]
          show some y :: L = some y :: (L.filterMap id).map some
          rw [← ih (fun z hz => h1 z (by simp [hz]))]
    have hsub : (s.labels.filterMap id) ⊆ want := by
      intro x hx
      rw [List.mem_filterMap] at hx
      obtain ⟨y, hy, e⟩ := hx
      simp only [id] at e; subst e
      have := h4 (some x) hy
      simpa using this
    have hsp := List.subperm_of_subset hnd hsub
    have hlen : want.length ≤ (s.labels.filterMap id).length := by
      have := congrArg List.length hlab
      rw [List.length_map] at this
      omega
    have := hsp.perm_of_length_le hlen
    rw [hlab]
    exact (this.map some).symm
  · intro hp
    simp only [Legs.labelsAre, Bool.and_eq_true, List.all_eq_true, beq_iff_eq,
      List.contains_eq_mem, decide_eq_true_eq]
    refine ⟨⟨⟨?_, ?_⟩, ?_⟩, ?_⟩
    · intro x hx
      have := hp.mem_iff.2 hx
      simp only [List.mem_map] at this
      obtain ⟨y, -, rfl⟩ := this; rfl
    · have := hp.length_eq; simpa using this
    · intro x hx; exact hp.mem_iff.1 (List.mem_map_of_mem hx)
    · intro x hx
      have := hp.mem_iff.2 hx
      simp only [List.mem_map] at this
      obtain ⟨y, hy, rfl⟩ := this
      simpa using hy

/-- Non-vacuity: a history with a caught exception and a relabelling. -/
example : ∃ s0 s, Legs.make [some ['a'], none, some ['b']] = some s0 ∧
    s0.run [.setLabel (-1) (some ['a']), .setLabel 1 (some ['c']),
      .relabel fun x => if x = ['a'] then some ['z'] else none] = some s ∧
    s.labels = [some ['z'], some ['c'], some ['b']] ∧ s.lookup ['z'] = some 0 ∧
    s.lookup ['a'] = none := by
  refine ⟨_, _, rfl, rfl, ?_, ?_, ?_⟩ <;> decide

/-- **C15**: matching two lists of labels keeps a label iff the lists do not contradict each other
there. -/
theorem C15_matching (l1 l2 : List LegLabel) (hlen : l1.length = l2.length) :
    (matching l1 l2).length = l1.length ∧
    ∀ (i : ℕ) (a b : LegLabel), l1[i]? = some a → l2[i]? = some b →
      (matching l1 l2)[i]? = some (match a, b with
        | none, b => b
        | some x, none => some x
        | some x, some y => if x = y then some x else none) := by
  induction l1 generalizing l2 with
  | nil => cases l2 <;> simp [matching] at hlen ⊢
  | cons x l1 ih =>
    cases l2 with
    | nil => simp at hlen
    | cons y l2 =>
      obtain ⟨i1, i2⟩ := ih l2 (by simpa using hlen)
      cases x with
      | none =>
        refine ⟨by simp [matching, i1], ?_⟩
        intro i a b ha hb
        cases i with
        | zero => simp at ha hb; subst ha hb; simp [matching]
        | succ i => simpa [matching] using i2 i a b (by simpa using ha) (by simpa using hb)
      | some x =>
        refine ⟨by simp [matching, i1], ?_⟩
        intro i a b ha hb
        cases i with
        | zero =>
          simp at ha hb; subst ha hb
          cases y with
          | none => simp [matching]
          | some y => by_cases e : x = y <;> simp [matching, e]
        | succ i => simpa [matching] using i2 i a b (by simpa using ha) (by simpa using hb)

end Cyten.Props
