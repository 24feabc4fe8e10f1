import Verif.Lemmas.Hdf5Load
import Verif.Model.Hdf5Misc
import Mathlib.Tactic.IntervalCases

/-!
# C69: what is saved to HDF5 is loaded again

The specification (`Spec.Iso`, `Spec.Savable`) is in `Lemmas/Hdf5.lean`.
-/

namespace Cyten.Hdf5

open Spec

/-- Every container with savable contents, with any sharing of objects and any cycles of references, is
saved and loaded again, in whatever order h5py lists names, and the loaded object graph is isomorphic to
the saved one: same types and values, and two references are to the same object exactly if they were.
`fuel` only bounds the depth of the recursion. -/
theorem C69_roundtrip (h : Heap) (root : ℕ) (o : Obj) (hS : Savable h root) (ho : h[root]? = some o)
    (hg : isGroup o = true) (fuel : ℕ) (hfuel : h.length + 2 ≤ fuel)
    (order : List (Name × ℕ) → List (Name × ℕ)) (hord : ∀ l, (order l).Perm l) :
    ∃ file h' b, saveFile h fuel root = some file ∧ loadFile file order fuel = some (h', b) ∧
      Iso h root h' b := by
  obtain ⟨file, μ, h1, h2⟩ := saveFile_ok hS ho hg hfuel
  obtain ⟨h', b, h3, h4⟩ := loadFile_ok (order := order) hS h2 hord (fuel := fuel) (by omega)
  exact ⟨file, h', b, h1, h3, h4⟩

/-- The contents of the file: every object is stored at one node, whatever the number of references to it
(the links of `Stored` containers are to the memorised nodes), and different objects at different nodes. -/
theorem C69_file (h : Heap) (root : ℕ) (o : Obj) (hS : Savable h root) (ho : h[root]? = some o)
    (hg : isGroup o = true) (fuel : ℕ) (hfuel : h.length + 2 ≤ fuel) :
    ∃ file memo, saveFile h fuel root = some file ∧ memo root = some 0 ∧
      (∀ b c n, memo b = some n → memo c = some n → b = c) ∧
      ∀ b n, memo b = some n → ∃ o, h[b]? = some o ∧ Stored h file memo 0 n o := by
  obtain ⟨file, μ, h1, h2⟩ := saveFile_ok hS ho hg hfuel
  exact ⟨file, μ, h1, h2.top, h2.inj, fun b n hb => let ⟨o, a, _, c⟩ := h2.stored b n hb; ⟨o, a, c⟩⟩

/-! ### An example that meets the hypotheses -/

lemma reach_closed {h : Heap} {S : ℕ → Prop} (hc : ∀ a b, S a → Refers h a b → S b) {a b : ℕ} (ha : S a)
    (hr : Reach h a b) : S b := by
  induction hr with
  | refl => exact ha
  | tail _ h2 ih => exact hc _ _ ih h2

/-- `l = [None, l, d]`, `d = {'x': t, 'y': l}`, `t = (1, i)`, `i` an instance with the attributes
`{'a/b': 1}`, sharing the integer 1. -/
def exHeap : Heap :=
  [.list [1, 0, 2], .none, .dict [(3, 5), (4, 0)], .data (.str "x"), .data (.str "y"), .tuple [6, 7],
   .data (.prim .int 1), .inst "C" [(8, 6)], .data (.str "a/b")]

lemma exHeap_savable : Savable exHeap 0 := by
  have hs : ∀ a b, a < 9 → Refers exHeap a b → b < 9 := by
    rintro a b ha ⟨o, ho, hb⟩
    have e1 : simpleItems exHeap [(3, 5), (4, 0)] = some [(.key "x", 5), (.key "y", 0)] := by decide +kernel
    have e2 : simpleItems exHeap [(8, 6)] = none := by decide +kernel
    interval_cases a <;> (cases ho; simp [kids, e1, e2] at hb; try omega)
  have lt : ∀ a, Reach exHeap 0 a → a < 9 := fun a => reach_closed (S := fun a => a < 9) hs (by decide)
  refine ⟨?_, ?_, ?_, ?_, ?_, ?_⟩
  · intro a ha
    exact ⟨_, List.getElem?_eq_getElem (lt a ha)⟩
  · intro a ha
    have := lt a ha
    interval_cases a <;> decide
  · intro a kvs items ha hk hi
    have := lt a ha
    interval_cases a <;> (rcases hk with hk | ⟨c, hk⟩ <;> cases hk)
    · have e1 : simpleItems exHeap [(3, 5), (4, 0)] = some [(.key "x", 5), (.key "y", 0)] := by decide +kernel
      rw [e1] at hi
      cases hi
      decide
    · have e2 : simpleItems exHeap [(8, 6)] = none := by decide +kernel
      rw [e2] at hi
      cases hi
  · intro a x y z ha hr
    have := lt a ha
    interval_cases a <;> cases hr
  · intro a b ha hb h1 h2
    have := lt a ha
    have := lt b hb
    interval_cases a <;> cases h1
    interval_cases b <;> first | rfl | cases h2
  · intro a xs ha hx x hxm hr
    have := lt a ha
    have hc : ∀ a b, (6 ≤ a ∧ a < 9) → Refers exHeap a b → 6 ≤ b ∧ b < 9 := by
      rintro a b ⟨h1, h2⟩ ⟨o, ho, hb⟩
      have e2 : simpleItems exHeap [(8, 6)] = none := by decide +kernel
      interval_cases a <;> (cases ho; simp [kids, e2] at hb; try omega)
    interval_cases a <;> cases hx
    have := reach_closed (S := fun a => 6 ≤ a ∧ a < 9) hc (by simp at hxm; omega) hr
    omega

example : ∃ file h' b, saveFile exHeap 20 0 = some file ∧ loadFile file List.reverse 20 = some (h', b) ∧
    Iso exHeap 0 h' b :=
  C69_roundtrip exHeap 0 _ exHeap_savable rfl rfl 20 (by decide) _ fun l => List.reverse_perm l

/-- What is written for it: the list at `/`, the dictionary in it with its two entries, and so on. -/
example : saveFile exHeap 20 0 = some
    [⟨.iter .list 3, [(.idx 0, 1), (.idx 1, 0), (.idx 2, 2)]⟩, ⟨.none, []⟩,
     ⟨.dict .simple, [(.key "x", 3), (.key "y", 0)]⟩, ⟨.iter .tuple 2, [(.idx 0, 4), (.idx 1, 5)]⟩,
     ⟨.data (.prim .int 1), []⟩, ⟨.inst "C" (some .general), [(.keys, 6), (.values, 8)]⟩,
     ⟨.iter .list 1, [(.idx 0, 7)]⟩, ⟨.data (.str "a/b"), []⟩, ⟨.iter .list 1, [(.idx 0, 4)]⟩] := by
  decide +kernel

/-! ### What is not loaded as it was saved -/

/-- `{'': {'a': 1}}` is saved without an error, and loaded as `{'a': 1}`: `''` counts as a valid component
of a path, and the inner dictionary is saved in the group of the outer one. -/
theorem C69_empty_key_lost :
    let h : Heap := [.dict [(1, 2)], .data (.str ""), .dict [(3, 4)], .data (.str "a"), .data (.prim .int 1)]
    ∃ file h' b, saveFile h 9 0 = some file ∧ loadFile file id 9 = some (h', b) ∧
      h'[b]? = some (.dict [(3, 2)]) ∧ h'[3]? = some (.data (.str "a")) ∧
      h'[2]? = some (.data (.prim .int 1)) ∧ ¬ Iso h 0 h' b := by
  intro h
  refine ⟨[⟨.dict .simple, [(.key "a", 1)]⟩, ⟨.data (.prim .int 1), []⟩],
    [.none, .dict [(3, 2)], .data (.prim .int 1), .data (.str "a")], 1, by decide +kernel, by decide +kernel,
    rfl, rfl, rfl, ?_⟩
  rintro ⟨R, h1, -, -, h4⟩
  obtain ⟨o, o', e1, e2, e3⟩ := h4 0 1 h1
  cases e1
  cases e2
  obtain ⟨l, e3, e4⟩ := e3
  rw [List.perm_singleton] at e3
  subst e3
  cases e4 with
  | cons a _ =>
    obtain ⟨o, o', f1, f2, f3⟩ := h4 2 2 a.2
    cases f1
    cases f2
    exact f3

/-- A tuple in a cycle of references, `t = ([t],)`: in the loaded list there is a list in place of the
tuple. -/
theorem C69_recursive_tuple :
    let h : Heap := [.tuple [1], .list [0]]
    ∃ file h' b, saveFile h 9 0 = some file ∧ loadFile file id 9 = some (h', b) ∧
      h'[b]? = some (.tuple [2]) ∧ h'[2]? = some (.list [1]) ∧ h'[1]? = some (.list [2]) ∧ ¬ Iso h 0 h' b := by
  intro h
  refine ⟨[⟨.iter .tuple 1, [(.idx 0, 1)]⟩, ⟨.iter .list 1, [(.idx 0, 0)]⟩],
    [.none, .list [2], .list [1], .tuple [2]], 3, by decide +kernel, by decide +kernel,
    rfl, rfl, rfl, ?_⟩
  rintro ⟨R, h1, -, -, h4⟩
  obtain ⟨o, o', e1, e2, e3⟩ := h4 0 3 h1
  cases e1
  cases e2
  cases e3 with
  | cons a _ =>
    obtain ⟨o, o', f1, f2, f3⟩ := h4 1 2 a
    cases f1
    cases f2
    cases f3 with
    | cons a _ =>
      obtain ⟨o, o', g1, g2, g3⟩ := h4 0 1 a
      cases g1
      cases g2
      exact g3

/-- A list with an `Hdf5Ignored` object is saved without an error, but the file cannot be loaded. -/
theorem C69_ignored_in_list (fuel : ℕ) (order : List (Name × ℕ) → List (Name × ℕ)) :
    ∃ file, saveFile [.list [1], .ignored] 9 0 = some file ∧ loadFile file order fuel = none := by
  refine ⟨[⟨.iter .list 1, []⟩], by decide +kernel, ?_⟩
  rw [loadFile]
  cases fuel with
  | zero => rfl
  | succ k => rfl

/-- Masked arrays: the array is loaded with the mask it had exactly if it is empty, or some element is
masked, or some element is not the fill value. -/
theorem C69_masked_iff {V : Type} [DecidableEq V] (a : Masked V) (hlen : a.data.length = a.mask.length) :
    loadMasked (saveMasked a) = a ↔ a.data = [] ∨ true ∈ a.mask ∨ ∃ x ∈ a.data, x ≠ a.fill := by
  obtain ⟨d, m, v⟩ := a
  simp only at hlen ⊢
  have hneed : (Masked.mk d m v).needsMask = true ↔ true ∈ m ∨ ∃ x ∈ d, x ≠ v := by
    simp only [Masked.needsMask, Masked.filled]
    induction d generalizing m with
    | nil =>
      cases m with
      | nil => simp
      | cons b m => simp at hlen
    | cons x d ih =>
      cases m with
      | nil => simp at hlen
      | cons b m =>
        have := ih m (by simpa using hlen)
        simp only [List.zipWith_cons_cons, List.any_cons, Bool.or_eq_true, this, List.mem_cons,
          exists_eq_or_imp, id]
        cases b <;> simp <;> tauto
  rw [saveMasked]
  by_cases hn : (Masked.mk d m v).needsMask = true
  · rw [if_pos hn]
    exact ⟨fun _ => Or.inr (hneed.mp hn), fun _ => rfl⟩
  · rw [if_neg hn]
    have hn' := fun hc => hn (hneed.mpr hc)
    constructor
    · intro he
      cases d with
      | nil => exact Or.inl rfl
      | cons x d =>
        cases m with
        | nil => simp at hlen
        | cons b m =>
          exfalso
          have hb : b = false := by
            cases b with
            | false => rfl
            | true => exact absurd (Or.inl (by simp)) hn'
          subst hb
          have hx : x = v := by
            by_contra hc
            exact hn' (Or.inr ⟨x, by simp, hc⟩)
          subst hx
          have := congrArg Masked.mask he
          simp [loadMasked, Masked.filled] at this
    · rintro (rfl | hc)
      · cases m with
        | nil => rfl
        | cons b m => simp at hlen
      · exact absurd hc hn'

/-- An array without masked elements, all of them equal to the fill value, is loaded fully masked. -/
theorem C69_masked_lost : (loadMasked (saveMasked (⟨[7, 7], [false, false], 7⟩ : Masked ℕ))).mask = [true, true] := by
  decide

example : loadMasked (saveMasked (⟨[7, 8], [true, false], 7⟩ : Masked ℕ)) = ⟨[7, 8], [true, false], 7⟩ := by
  decide

end Cyten.Hdf5
