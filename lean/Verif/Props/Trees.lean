import Verif.Lemmas.TreesSurgery
import Mathlib.Data.List.Nodup

/-!
# Properties C01-C05: fusion trees

`Sane R t` is the model of `t.test_sanity()` (all vertices allowed, labels in range).
-/

namespace Cyten.Props
open Cyten Cyten.FusionTree Cyten.FusionTrees

variable {S : Type} [DecidableEq S]

/-- Example fusion rule with a non-trivial multiplicity: `0` is the unit and
`1 × 1 = 0 + 2·1`. Used for the non-vacuity examples. -/
def exRule : FusionRule (Fin 2) where
  unit := 0
  outcomes a b := if a = 0 then [b] else if b = 0 then [a] else [0, 1]
  rawN a b c := if a = 1 ∧ b = 1 ∧ c = 1 then 2 else 1
  isAbelian := false

theorem exRule_lawful : exRule.Lawful := by
  refine ⟨by decide, by decide, by decide⟩

/-- **C01** (soundness and completeness). Iterating `fusion_trees(uncoupled, coupled, are_dual)`
yields exactly the trees with these sectors and flags that pass `test_sanity`. -/
theorem C01_all_trees_exactly_sane (R : FusionRule S) (unc : List S) (c : S) (dual : List Bool)
    (hd : dual.length = unc.length) (t : FusionTree S) :
    t ∈ allTrees R unc c dual ↔
      t.uncoupled = unc ∧ t.coupled = c ∧ t.areDual = dual ∧ t.Sane R := by
  match unc, hd with
  | [], hd =>
    simp at hd; subst hd
    rw [allTrees]
    constructor
    · intro h
      split at h
      · rename_i hc
        simp only [List.mem_singleton] at h; subst h
        exact ⟨rfl, rfl, rfl, (sane_nil_iff R _ rfl).2 ⟨hc, rfl, rfl, rfl⟩⟩
      · simp at h
    · rintro ⟨h1, h2, h3, h4⟩
      obtain ⟨hc, _, hi, hm⟩ := (sane_nil_iff R t h1).1 h4
      obtain ⟨u, co, d, i, m⟩ := t
      simp only at *
      subst h1 h2 h3 hi hm
      simp [hc]
  | [a], hd =>
    rw [allTrees]
    constructor
    · intro h
      split at h
      · rename_i hc
        simp only [List.mem_singleton] at h; subst h
        exact ⟨rfl, rfl, rfl, (sane_one_iff R _ a rfl).2 ⟨hc, hd, rfl, rfl⟩⟩
      · simp at h
    · rintro ⟨h1, h2, h3, h4⟩
      obtain ⟨hc, _, hi, hm⟩ := (sane_one_iff R t a h1).1 h4
      obtain ⟨u, co, d, i, m⟩ := t
      simp only at *
      subst h1 h2 h3 hi hm
      simp [hc]
  | a :: b :: rest, hd =>
    rw [mem_allTrees_chain R a b rest c dual (by simpa using hd)]
    constructor
    · rintro ⟨h1, h2, h3, h4⟩
      refine ⟨h1, h2, h3, (sane_iff_chain R t a b rest h1).2 ⟨by simpa [h3] using hd, ?_⟩⟩
      rw [h2]; exact h4
    · rintro ⟨h1, h2, h3, h4⟩
      refine ⟨h1, h2, h3, ?_⟩
      have := ((sane_iff_chain R t a b rest h1).1 h4).2
      rwa [h2] at this

/-- **C01** (no repetition). No tree is yielded twice. -/
theorem C01_all_trees_nodup (R : FusionRule S) (hR : R.Lawful) (unc : List S) (c : S)
    (dual : List Bool) (hd : dual.length = unc.length) : (allTrees R unc c dual).Nodup := by
  rw [List.nodup_iff_getElem?_ne_getElem?]
  intro i j hij hj heq
  have hi : i < (allTrees R unc c dual).length := by omega
  have h1 := index_getElem R hR unc c dual hd i _ (List.getElem?_eq_getElem hi)
  rw [List.getElem?_eq_getElem hi] at heq
  have h2 := index_getElem R hR unc c dual hd j _ heq.symm
  rw [h1] at h2
  simp at h2
  omega

-- four legs, twelve trees with multiplicities up to 2
example : (allTrees exRule [1, 1, 1, 1] 1 [false, true, false, false]).length = 12 ∧
    exRule.Lawful := ⟨by rw [length_allTrees]; decide +kernel, exRule_lawful⟩

/-- **C02**. `len(fusion_trees(...))` is the number of trees yielded. -/
theorem C02_len_eq_count (R : FusionRule S) (unc : List S) (c : S) (dual : List Bool) :
    size R unc c = (allTrees R unc c dual).length :=
  (length_allTrees R unc c dual).symm

example : size exRule [1, 1, 1] 1 = 5 := by decide +kernel

/-- **C03**. `fusion_trees.index(t)` returns `k` exactly if `t` is the tree yielded at position
`k`; in particular it raises for every (structurally well-formed) tree that is not yielded. -/
theorem C03_index_iff_position (R : FusionRule S) (hR : R.Lawful) (unc : List S) (c : S)
    (dual : List Bool) (hd : dual.length = unc.length) (k : Nat) (t : FusionTree S)
    (hi : t.inner.length = t.uncoupled.length - 2)
    (hm : t.mult.length = t.uncoupled.length - 1) :
    index R unc c dual t = .ok k ↔ (allTrees R unc c dual)[k]? = some t := by
  constructor
  · intro h
    have hmem := mem_of_index_ok R unc c dual hd k t hi hm h
    obtain ⟨k', hk'⟩ := List.mem_iff_getElem?.1 hmem
    have := index_getElem R hR unc c dual hd k' t hk'
    rw [h] at this
    simp at this
    rw [this]; exact hk'
  · exact index_getElem R hR unc c dual hd k t

/-- **C03**, round trip form: every yielded tree is indexed by its position, without any
structural hypothesis. -/
theorem C03_index_of_yielded (R : FusionRule S) (hR : R.Lawful) (unc : List S) (c : S)
    (dual : List Bool) (hd : dual.length = unc.length) (k : Nat)
    (hk : k < (allTrees R unc c dual).length) :
    index R unc c dual (allTrees R unc c dual)[k] = .ok k :=
  index_getElem R hR unc c dual hd k _ (List.getElem?_eq_getElem hk)

example : index exRule [1, 1, 1] 1 [true, false, false]
    ⟨[1, 1, 1], 1, [true, false, false], [1], [1, 1]⟩ = .ok 4 := by decide +kernel

/-- **C04**. Splitting a sane tree at any admissible position gives two sane trees with the
documented sectors, and inserting the first into the second gives the tree back. -/
theorem C04_insert_split (R : FusionRule S) (t : FusionTree S) (h : t.Sane R) (n : Nat)
    (hn : 2 ≤ n) (hN : n < t.uncoupled.length) :
    ∃ t1 t2, t.split n = .ok (t1, t2) ∧ t1.Sane R ∧ t2.Sane R ∧
      t1.uncoupled = t.uncoupled.take n ∧
      t2.uncoupled = t1.coupled :: t.uncoupled.drop n ∧
      t2.coupled = t.coupled ∧ t2.insert t1 = t :=
  split_spec R t h n hn hN

/-- **C04**. Splitting an insertion at the number of legs of the inserted tree recovers both. -/
theorem C04_split_insert (R : FusionRule S) (t1 t2 : FusionTree S) (h1 : t1.Sane R)
    (h2 : t2.Sane R) (hl1 : 2 ≤ t1.uncoupled.length) (hl2 : 2 ≤ t2.uncoupled.length)
    (hc : t2.uncoupled.head? = some t1.coupled) (hdual : t2.areDual.head? = some false) :
    (t2.insert t1).Sane R ∧ (t2.insert t1).split t1.uncoupled.length = .ok (t1, t2) :=
  ⟨insert_sane R t1 t2 h1 h2 hl1 hl2 hc, split_insert_spec R t1 t2 h1 h2 hl1 hl2 hc hdual⟩

/-- **C04**, error branch: `split` raises exactly for the documented positions. -/
theorem C04_split_raises (R : FusionRule S) (t : FusionTree S) (h : t.Sane R) (n : Nat) :
    (∃ e, t.split n = .error e) ↔ n < 2 ∨ t.uncoupled.length ≤ n := by
  constructor
  · rintro ⟨e, he⟩
    by_contra hcon
    push Not at hcon
    obtain ⟨t1, t2, hs, _⟩ := split_spec R t h n hcon.1 hcon.2
    rw [hs] at he; simp at he
  · intro hn
    unfold FusionTree.split
    by_cases h2 : n < 2
    · exact ⟨_, by rw [if_pos h2]⟩
    · exact ⟨_, by rw [if_neg h2, if_pos (by omega)]⟩

/-- a concrete sane tree for the examples -/
def exTree : FusionTree (Fin 2) := ⟨[1, 1, 1, 1], 1, [true, false, false, true], [1, 0], [1, 0, 0]⟩

theorem exTree_sane : exTree.Sane exRule := by
  rw [sane_iff_chain exRule exTree 1 1 [1, 1] rfl]
  exact ⟨rfl, by decide, by decide, by decide, trivial⟩

example : exTree.split 3 = .ok (⟨[1, 1, 1], 0, [true, false, false], [1], [1, 0]⟩,
    ⟨[0, 1], 1, [false, true], [], [0]⟩) := by decide

/-- **C05** (extended). Adding a vertex with an allowed label gives a sane tree. -/
theorem C05_extended_sane (R : FusionRule S) (t : FusionTree S) (h : t.Sane R) (z c : S)
    (mu : Nat) (d : Bool) (hl : 1 ≤ t.uncoupled.length) (hmu : mu < R.nSymbol t.coupled z c) :
    (t.extended z mu c d).Sane R ∧
      (t.extended z mu c d).uncoupled = t.uncoupled ++ [z] ∧ (t.extended z mu c d).coupled = c :=
  ⟨extended_sane_pos R t h z c mu d hl hmu, rfl, rfl⟩

/-- **C05** (extended, empty tree). Extending the empty tree by `z` is sane exactly if the new
coupled sector is `z`. -/
theorem C05_extended_empty (R : FusionRule S) (z c : S) (mu : Nat) (d : Bool) :
    ((fromEmpty R).extended z mu c d).Sane R ↔ z = c := by
  rw [sane_one_iff R _ z (by simp [extended, fromEmpty])]
  simp [extended, fromEmpty]

/-- **C05** (split_bottom_vertex after extended). -/
theorem C05_split_bottom_extended (R : FusionRule S) (t : FusionTree S) (h : t.Sane R) (z c : S)
    (mu : Nat) (d : Bool) (hl : 1 ≤ t.uncoupled.length) :
    (t.extended z mu c d).splitBottomVertex R = .ok (t, c, mu, z) :=
  splitBottom_extended R t h z c mu d hl

/-- **C05** (split_bottom_vertex). It returns a sane tree without the last leg, the labels of the
last vertex, and extending with these gives the tree back; it raises only for the empty tree. -/
theorem C05_extended_split_bottom (R : FusionRule S) (t : FusionTree S) (h : t.Sane R)
    (hl : 1 ≤ t.uncoupled.length) :
    ∃ r mu z d, t.splitBottomVertex R = .ok (r, t.coupled, mu, z) ∧ r.Sane R ∧
      t.uncoupled = r.uncoupled ++ [z] ∧ t.areDual = r.areDual ++ [d] ∧
      r.extended z mu t.coupled d = t :=
  extended_splitBottom R t h hl

/-- **C05** (insert). -/
theorem C05_insert_sane (R : FusionRule S) (t1 t2 : FusionTree S) (h1 : t1.Sane R) (h2 : t2.Sane R)
    (hl1 : 2 ≤ t1.uncoupled.length) (hl2 : 2 ≤ t2.uncoupled.length)
    (hc : t2.uncoupled.head? = some t1.coupled) :
    (t2.insert t1).Sane R ∧ (t2.insert t1).uncoupled = t1.uncoupled ++ t2.uncoupled.tail ∧
      (t2.insert t1).coupled = t2.coupled :=
  ⟨insert_sane R t1 t2 h1 h2 hl1 hl2 hc, by simp [FusionTree.insert], rfl⟩

example : exTree.Sane exRule ∧ (1 : Nat) < exRule.nSymbol exTree.coupled 1 1 :=
  ⟨exTree_sane, by decide⟩

end Cyten.Props
