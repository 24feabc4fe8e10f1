import Verif.Model.SiteOps
import Mathlib.Data.List.SplitOn

/-!
# C68: operators of a site by name

For every registry of operators, every name, every list of names.
-/

namespace Cyten.SiteOps

namespace Spec

/-- The words of a name: what is between the spaces; one trailing space is ignored. -/
def words (name : Name) : List Name :=
  if name.getLast? = some ' ' then (name.splitOn ' ').dropLast else name.splitOn ' '

/-- Names of operators that can be joined by a space: not empty, no space at the end. -/
def Joinable (name : Name) : Prop := name ≠ [] ∧ name.getLast? ≠ some ' '

end Spec

open Spec

lemma cut_none (name : Name) (h : ' ' ∉ name) : cut name = (name, none) := by
  induction name with
  | nil => rfl
  | cons c r ih =>
    simp only [List.mem_cons, not_or] at h
    rw [cut, ih h.2]
    exact fun e => h.1 e.symm

lemma cut_space (a b : Name) (h : ' ' ∉ a) : cut (a ++ ' ' :: b) = (a, some b) := by
  induction a with
  | nil => rfl
  | cons c r ih =>
    simp only [List.mem_cons, not_or] at h
    rw [List.cons_append, cut, ih h.2]
    exact fun e => h.1 e.symm

lemma split_or (name : Name) : (' ' ∉ name) ∨ ∃ a b, name = a ++ ' ' :: b ∧ ' ' ∉ a := by
  induction name with
  | nil => left; simp
  | cons c r ih =>
    by_cases hc : c = ' '
    · right; exact ⟨[], r, by simp [hc], by simp⟩
    · rcases ih with h | ⟨a, b, rfl, h⟩
      · left; simp only [List.mem_cons, not_or]; exact ⟨fun e => hc e.symm, h⟩
      · right; exact ⟨c :: a, b, by simp, by simp only [List.mem_cons, not_or]; exact ⟨fun e => hc e.symm, h⟩⟩

lemma splitOn_none (a : Name) (h : ' ' ∉ a) : a.splitOn ' ' = [a] := by
  induction a with
  | nil => rfl
  | cons c r ih =>
    simp only [List.mem_cons, not_or] at h
    rw [List.splitOn, List.splitOnP_cons, if_neg (by simpa using fun e => h.1 e.symm)]
    have := ih h.2
    rw [List.splitOn] at this
    rw [this]; rfl

lemma splitOn_space (a b : Name) (h : ' ' ∉ a) : (a ++ ' ' :: b).splitOn ' ' = a :: b.splitOn ' ' := by
  induction a with
  | nil => rw [List.nil_append, List.splitOn, List.splitOnP_cons, if_pos (by simp)]; rfl
  | cons c r ih =>
    simp only [List.mem_cons, not_or] at h
    rw [List.cons_append, List.splitOn, List.splitOnP_cons, if_neg (by simpa using fun e => h.1 e.symm)]
    have := ih h.2
    rw [List.splitOn] at this
    rw [this]; rfl

lemma splitOn_ne (a : Name) : a.splitOn ' ' ≠ [] := List.splitOnP_ne_nil _ _

/-- The product of a list of operators, given by names. -/
def prodNames {M : Type} [Monoid M] (ops : List (Name × M)) (ws : List Name) : Option M :=
  (ws.mapM (lookup ops)).map List.prod

lemma prodNames_cons {M : Type} [Monoid M] (ops : List (Name × M)) (w : Name) (ws : List Name) :
    prodNames ops (w :: ws) = (lookup ops w).bind fun x => (prodNames ops ws).map (x * ·) := by
  rw [prodNames, List.mapM_cons]
  cases lookup ops w <;> simp [prodNames, Function.comp_def]
  cases List.mapM (lookup ops) ws <;> simp

lemma words_single (a : Name) (h : ' ' ∉ a) : words a = [a] := by
  rw [words, if_neg, splitOn_none a h]
  intro e
  exact h (List.mem_of_getLast? e)

lemma words_space_nil (a : Name) (h : ' ' ∉ a) : words (a ++ [' ']) = [a] := by
  rw [words, if_pos (by simp), splitOn_space a [] h]; rfl

lemma words_space (a b : Name) (h : ' ' ∉ a) (hb : b ≠ []) : words (a ++ ' ' :: b) = a :: words b := by
  have hl : (a ++ ' ' :: b).getLast? = b.getLast? := by
    rw [List.getLast?_append_of_ne_nil _ (by simp), List.getLast?_cons_of_ne_nil hb]
  rw [words, words, hl, splitOn_space a b h]
  split_ifs
  · rw [List.dropLast_cons_of_ne_nil (splitOn_ne b)]
  · rfl

lemma opLoop_eq {M : Type} [Monoid M] (ops : List (Name × M)) : ∀ (fuel : ℕ) (rest : Name) (op : M),
    rest.length < fuel →
    opLoop ops fuel rest op = if rest = [] then some op else (prodNames ops (words rest)).map (op * ·)
  | 0, _, _, h => by omega
  | fuel + 1, rest, op, h => by
    rw [opLoop]
    by_cases h0 : rest = []
    · subst h0; rfl
    rw [if_neg (by simpa using h0), if_neg h0]
    rcases split_or rest with hr | ⟨a, b, rfl, ha⟩
    · rw [cut_none rest hr, words_single rest hr, prodNames_cons]
      simp only
      cases lookup ops rest <;> simp [prodNames]
    · rw [cut_space a b ha]
      simp only
      have hlen : b.length < fuel := by simp at h; omega
      by_cases hb : b = []
      · subst hb
        rw [words_space_nil a ha, prodNames_cons]
        cases lookup ops a with
        | none => rfl
        | some x => simp only [opLoop_eq ops fuel [] _ hlen, if_true]; simp [prodNames]
      · rw [words_space a b ha hb, prodNames_cons]
        cases lookup ops a with
        | none => rfl
        | some x =>
          simp only [opLoop_eq ops fuel b _ hlen, if_neg hb, Option.bind_some]
          cases prodNames ops (words b) <;> simp [mul_assoc]

/-- C68 (get_op).  For every name, `get_op` returns the product, in order, of the operators named by its
words, and raises if one of them does not exist. -/
theorem C68_get_op {M : Type} [Monoid M] (s : Site M) (name : Name) :
    getOp s name = ((words name).mapM (lookup s.ops)).map List.prod := by
  show _ = prodNames s.ops (words name)
  rw [getOp]
  rcases split_or name with hr | ⟨a, b, rfl, ha⟩
  · rw [cut_none name hr, words_single name hr, prodNames_cons]
    cases lookup s.ops name <;> simp [prodNames]
  · rw [cut_space a b ha]
    simp only
    by_cases hb : b = []
    · subst hb
      rw [words_space_nil a ha, prodNames_cons]
      cases lookup s.ops a with
      | none => rfl
      | some x => simp [opLoop_eq, prodNames]
    · rw [words_space a b ha hb, prodNames_cons]
      cases lookup s.ops a with
      | none => rfl
      | some x => simp [opLoop_eq, hb]

lemma words_join : ∀ (n : ℕ) (a b : Name), a.length ≤ n → Joinable a → b ≠ [] →
    words (a ++ ' ' :: b) = words a ++ words b
  | 0, a, _, h, ha, _ => absurd (List.length_eq_zero_iff.mp (by omega)) ha.1
  | n + 1, a, b, h, ha, hb => by
    rcases split_or a with hr | ⟨x, y, rfl, hx⟩
    · rw [words_space a b hr hb, words_single a hr]; rfl
    · have hy : y ≠ [] := by
        rintro rfl
        exact ha.2 (by simp)
      have hj : Joinable y := ⟨hy, by
        have := ha.2
        rwa [List.getLast?_append_of_ne_nil _ (by simp), List.getLast?_cons_of_ne_nil hy] at this⟩
      have e : x ++ ' ' :: y ++ ' ' :: b = x ++ ' ' :: (y ++ ' ' :: b) := by simp
      rw [e, words_space x _ hx (by simp), words_space x y hx hy,
        words_join n y b (by simp at h; omega) hj hb, List.cons_append]

lemma multiplyOpNames_ne (n : Name) (ns : List Name) (h : ∀ m ∈ n :: ns, Joinable m) :
    multiplyOpNames (n :: ns) ≠ [] := by
  rcases ns with _ | ⟨m, ns⟩
  · exact (h n (by simp)).1
  · simp [multiplyOpNames]

lemma words_multiply : ∀ (n : Name) (ns : List Name), (∀ m ∈ n :: ns, Joinable m) →
    words (multiplyOpNames (n :: ns)) = (n :: ns).flatMap words
  | n, [], _ => by simp [multiplyOpNames]
  | n, m :: ns, h => by
    have h' : ∀ k ∈ m :: ns, Joinable k := fun k hk => h k (by simp [List.mem_cons.mp hk])
    rw [multiplyOpNames, words_join n.length n _ (Nat.le_refl _) (h n (by simp)) (multiplyOpNames_ne m ns h'),
      words_multiply m ns h', List.flatMap_cons (x := n)]

lemma prodNames_append {M : Type} [Monoid M] (ops : List (Name × M)) (xs ys : List Name) :
    prodNames ops (xs ++ ys) = (prodNames ops xs).bind fun x => (prodNames ops ys).map (x * ·) := by
  induction xs with
  | nil => simp [prodNames]; rfl
  | cons w xs ih =>
    rw [List.cons_append, prodNames_cons, prodNames_cons, ih]
    cases lookup ops w with
    | none => rfl
    | some a =>
      cases prodNames ops xs with
      | none => rfl
      | some b => cases prodNames ops ys <;> simp [mul_assoc]

lemma prodNames_flatMap {M : Type} [Monoid M] (s : Site M) (ns : List Name) :
    prodNames s.ops (ns.flatMap words) = (ns.mapM (getOp s)).map List.prod := by
  induction ns with
  | nil => rfl
  | cons n ns ih =>
    rw [List.flatMap_cons, prodNames_append, ih, List.mapM_cons, C68_get_op]
    show (prodNames s.ops (words n)).bind _ = Option.map List.prod ((prodNames s.ops (words n)).bind _)
    cases prodNames s.ops (words n) with
    | none => rfl
    | some a => cases List.mapM (getOp s) ns <;> simp

/-- C68 (multiply_op_names).  For every nonempty list of names (that may be products themselves), the name
returned by `multiply_op_names` denotes the product of the named operators, in order, and is invalid if
one of the names is; for the empty list it is the name of the identity. -/
theorem C68_multiply_op_names {M : Type} [Monoid M] (s : Site M) (n : Name) (ns : List Name)
    (h : ∀ m ∈ n :: ns, Joinable m) :
    getOp s (multiplyOpNames (n :: ns)) = ((n :: ns).mapM (getOp s)).map List.prod := by
  rw [C68_get_op, words_multiply n ns h]
  exact prodNames_flatMap s (n :: ns)

lemma multiplyLoop_eq {M : Type} [Monoid M] (s : Site M) : ∀ (xs : List (Name ⊕ M)) (op : M),
    multiplyLoop s xs op = (xs.mapM (resolve s)).map fun l => op * l.prod
  | [], op => by simp [multiplyLoop]
  | x :: xs, op => by
    rw [multiplyLoop, List.mapM_cons]
    cases resolve s x with
    | none => rfl
    | some a =>
      simp only [multiplyLoop_eq s xs]
      cases List.mapM (resolve s) xs <;> simp [mul_assoc]

/-- C68 (multiply_operators).  `multiply_operators` of names and operators is the product in order; of
names only, it is the operator of the joined name. -/
theorem C68_multiply_operators {M : Type} [Monoid M] (s : Site M) (x : Name ⊕ M) (xs : List (Name ⊕ M)) :
    multiplyOperators s (x :: xs) = ((x :: xs).mapM (resolve s)).map List.prod ∧
    ∀ (n : Name) (ns : List Name), (∀ m ∈ n :: ns, Joinable m) →
      multiplyOperators s ((n :: ns).map Sum.inl) = getOp s (multiplyOpNames (n :: ns)) := by
  have key : ∀ (x : Name ⊕ M) (xs : List (Name ⊕ M)),
      multiplyOperators s (x :: xs) = ((x :: xs).mapM (resolve s)).map List.prod := by
    intro x xs
    rw [multiplyOperators, List.mapM_cons]
    cases resolve s x with
    | none => rfl
    | some a =>
      simp only [multiplyLoop_eq]
      cases List.mapM (resolve s) xs <;> simp
  refine ⟨key x xs, fun n ns h => ?_⟩
  rw [List.map_cons, key, C68_multiply_op_names s n ns h, ← List.map_cons, List.mapM_map]
  rfl

lemma lookup_append {α : Type} (l l' : List (Name × α)) (n : Name) :
    lookup (l ++ l') n = (lookup l n).or (lookup l' n) := by
  simp only [lookup, List.find?_append]
  cases l.find? fun x => decide (x.1 = n) <;> simp

/-- C68 (add_onsite_operator).  An operator can be added exactly if its name is new and has no space;
then `get_op` returns it under its name, and everything that was available under any name before, products
included, still is. -/
theorem C68_add_onsite_operator {M : Type} [Monoid M] (s : Site M) (name : Name) (op : M) :
    (addOp s name op = none ↔ (lookup s.ops name).isSome ∨ ' ' ∈ name) ∧
    ∀ s', addOp s name op = some s' →
      getOp s' name = some op ∧ s'.dim = s.dim ∧ s'.labels = s.labels ∧
      (∀ n x, getOp s n = some x → getOp s' n = some x) ∧
      (∀ n, lookup s'.ops n = if n = name then some op else lookup s.ops n) := by
  constructor
  · rw [addOp]
    by_cases h1 : (lookup s.ops name).isSome
    · simp [h1]
    · rw [if_neg h1]
      by_cases h2 : ' ' ∈ name <;> simp [h1, h2]
  · intro s' h
    rw [addOp] at h
    by_cases h1 : (lookup s.ops name).isSome
    · rw [if_pos h1] at h; cases h
    rw [if_neg h1] at h
    by_cases h2 : ' ' ∈ name
    · rw [if_pos h2] at h; cases h
    rw [if_neg h2, Option.some.injEq] at h
    subst h
    have hl : ∀ n, lookup (s.ops ++ [(name, op)]) n = if n = name then some op else lookup s.ops n := by
      intro n
      rw [lookup_append]
      by_cases hn : n = name
      · subst hn
        rw [Option.not_isSome_iff_eq_none.mp h1]
        simp [lookup]
      · rw [if_neg hn]
        have : lookup [(name, op)] n = none := by
          have hd : decide (name = n) = false := by simpa using fun e : name = n => hn e.symm
          simp [lookup, List.find?_cons, hd]
        rw [this, Option.or_none]
    refine ⟨?_, rfl, rfl, ?_, hl⟩
    · rw [C68_get_op, words_single name h2]
      simp [hl]
    · intro n x hx
      rw [C68_get_op] at hx ⊢
      change prodNames s.ops (words n) = some x at hx
      change prodNames (s.ops ++ [(name, op)]) (words n) = some x
      generalize words n = ws at hx ⊢
      induction ws generalizing x with
      | nil => exact hx
      | cons w ws ih =>
        rw [prodNames_cons, Option.bind_eq_some_iff] at hx
        obtain ⟨a, ha, hx⟩ := hx
        obtain ⟨b, hb, rfl⟩ := Option.map_eq_some_iff.mp hx
        rw [prodNames_cons, hl, if_neg, ha, Option.bind_some, ih b hb, Option.map_some]
        rintro rfl
        exact h1 (by rw [ha]; rfl)

/-- Sites that can be made with the constructor and `add_onsite_operator`. -/
inductive Reachable {M : Type} [Monoid M] : Site M → Prop
  | mk (dim : ℕ) (labels : List (Name × ℤ)) (ops : List (Name × M)) (s : Site M)
      (h : mkSite dim labels ops = some s) : Reachable s
  | add (s s' : Site M) (name : Name) (op : M) (h : Reachable s) (h' : addOp s name op = some s') :
      Reachable s'

/-- First entry `"Id"`, no repeated names, no spaces. -/
def Inv {M : Type} [Monoid M] (s : Site M) : Prop :=
  ∃ rest, s.ops = (idName, 1) :: rest ∧ (s.ops.map Prod.fst).Nodup ∧ ∀ n ∈ s.ops.map Prod.fst, ' ' ∉ n

lemma lookup_none_iff {α : Type} (l : List (Name × α)) (n : Name) :
    lookup l n = none ↔ n ∉ l.map Prod.fst := by
  rw [lookup, Option.map_eq_none_iff, List.find?_eq_none]
  simp only [decide_eq_true_eq, List.mem_map, not_exists, not_and]

lemma addOp_inv {M : Type} [Monoid M] (s s' : Site M) (name : Name) (op : M) (h : Inv s)
    (h' : addOp s name op = some s') : Inv s' ∧ s'.ops = s.ops ++ [(name, op)] ∧ s'.dim = s.dim ∧
      s'.labels = s.labels := by
  rw [addOp] at h'
  by_cases h1 : (lookup s.ops name).isSome
  · rw [if_pos h1] at h'; cases h'
  rw [if_neg h1] at h'
  by_cases h2 : ' ' ∈ name
  · rw [if_pos h2] at h'; cases h'
  rw [if_neg h2, Option.some.injEq] at h'
  subst h'
  obtain ⟨rest, e, hn, hs⟩ := h
  have hnot := (lookup_none_iff _ _).mp (Option.not_isSome_iff_eq_none.mp h1)
  refine ⟨⟨rest ++ [(name, op)], by simp [e], ?_, ?_⟩, rfl, rfl, rfl⟩
  · rw [List.map_append, List.nodup_append]
    refine ⟨hn, by simp, ?_⟩
    intro a ha b hb
    simp only [List.map_cons, List.map_nil, List.mem_singleton] at hb
    rintro rfl
    exact hnot (hb ▸ ha)
  · intro n hnn
    simp only [List.map_append, List.mem_append, List.map_cons, List.map_nil, List.mem_singleton] at hnn
    rcases hnn with hnn | rfl
    · exact hs n hnn
    · exact h2

lemma addOps_inv {M : Type} [Monoid M] : ∀ (l : List (Name × M)) (s s' : Site M), Inv s →
    addOps s l = some s' → Inv s' ∧ s'.ops = s.ops ++ l ∧ s'.dim = s.dim ∧ s'.labels = s.labels
  | [], s, s', h, h' => by
    rw [addOps, Option.some.injEq] at h'; subst h'; exact ⟨h, by simp, rfl, rfl⟩
  | x :: xs, s, s', h, h' => by
    rw [addOps] at h'
    cases e : addOp s x.1 x.2 with
    | none => rw [e] at h'; cases h'
    | some s1 =>
      rw [e] at h'
      obtain ⟨i1, i2, i3, i4⟩ := addOp_inv s s1 x.1 x.2 h e
      obtain ⟨j1, j2, j3, j4⟩ := addOps_inv xs s1 s' i1 h'
      exact ⟨j1, by rw [j2, i2]; simp, by rw [j3, i3], by rw [j4, i4]⟩

lemma mk_first {M : Type} [Monoid M] (dim : ℕ) (labels : List (Name × ℤ)) :
    addOp (⟨dim, labels, []⟩ : Site M) idName 1 = some ⟨dim, labels, [(idName, 1)]⟩ := by
  rw [addOp, if_neg (by simp [lookup]), if_neg (by decide)]; rfl

lemma first_inv {M : Type} [Monoid M] (dim : ℕ) (labels : List (Name × ℤ)) :
    Inv (⟨dim, labels, [(idName, 1)]⟩ : Site M) :=
  ⟨[], rfl, by simp, by
    intro n hn
    simp only [List.map_cons, List.map_nil, List.mem_singleton] at hn
    subst hn
    decide⟩

lemma reachable_inv {M : Type} [Monoid M] (s : Site M) (h : Reachable s) : Inv s := by
  induction h with
  | mk dim labels ops s h =>
    rw [mkSite, mk_first] at h
    exact (addOps_inv ops _ s (first_inv dim labels) h).1
  | add s s' name op _ h' ih => exact (addOp_inv s s' name op ih h').1

lemma addOps_ok {M : Type} [Monoid M] : ∀ (l : List (Name × M)) (s : Site M),
    ((s.ops ++ l).map Prod.fst).Nodup → (∀ n ∈ l.map Prod.fst, ' ' ∉ n) →
    addOps s l = some { s with ops := s.ops ++ l }
  | [], s, _, _ => by simp [addOps]
  | x :: xs, s, hn, hs => by
    have h1 : ¬ (lookup s.ops x.1).isSome = true := by
      rw [Option.not_isSome_iff_eq_none, lookup_none_iff]
      rw [List.map_append, List.nodup_append] at hn
      intro hm
      exact hn.2.2 _ hm _ (by simp) rfl
    rw [addOps, addOp, if_neg h1, if_neg (hs x.1 (by simp))]
    simp only
    rw [addOps_ok xs _ (by simpa using hn) (fun n h => hs n (by
      rw [List.map_cons]; exact List.mem_cons_of_mem _ h))]
    simp

/-- C68 (saving).  Every site made with the constructor and any number of added operators is equal to the
site constructed from the arguments that are saved for it. -/
theorem C68_reload {M : Type} [Monoid M] (s : Site M) (h : Reachable s) : reload s = some s := by
  obtain ⟨rest, e, hn, hs⟩ := reachable_inv s h
  rw [e, List.map_cons, List.nodup_cons] at hn
  have hf : s.ops.filter (fun x => decide (x.1 ≠ idName)) = rest := by
    rw [e, List.filter_cons, if_neg (by simp), List.filter_eq_self]
    intro x hx
    rw [decide_eq_true_eq]
    intro ex
    exact hn.1 (List.mem_map.mpr ⟨x, hx, ex⟩)
  rw [reload, hf, mkSite, mk_first]
  simp only
  rw [addOps_ok rest _ (by simpa using hn) (fun n hn' => hs n (by rw [e]; exact List.mem_cons_of_mem _ hn'))]
  simp [← e]

/-- C68 (state_index).  For an integer the result is the index modulo the dimension if it is in
`[-dim, dim)`, otherwise the call raises; for a label it is the labelled index, and unknown labels raise. -/
theorem C68_state_index {M : Type} (s : Site M) (i : ℤ) (key : Name) :
    (stateIndex s (.inr i) = if -(s.dim : ℤ) ≤ i ∧ i < s.dim then some (i % s.dim) else none) ∧
    (stateIndex s (.inl key) = none ↔ key ∉ s.labels.map Prod.fst) ∧
    (∀ j, (s.labels.map Prod.fst).Nodup → (stateIndex s (.inl key) = some j ↔ (key, j) ∈ s.labels)) := by
  refine ⟨?_, lookup_none_iff _ _, fun j hn => ?_⟩
  · rw [stateIndex]
    by_cases h : -(s.dim : ℤ) ≤ i ∧ i < s.dim
    · rw [if_neg (not_not.mpr h), if_pos h]
      by_cases h0 : i < 0
      · rw [if_pos h0, ← Int.add_emod_right, Int.emod_eq_of_lt (by omega) (by omega)]
      · rw [if_neg h0, Int.emod_eq_of_lt (by omega) (by omega)]
    · rw [if_pos h, if_neg h]
  · show lookup s.labels key = some j ↔ _
    generalize s.labels = l at hn ⊢
    induction l with
    | nil => simp [lookup]
    | cons x l ih =>
      rw [List.map_cons, List.nodup_cons] at hn
      by_cases hx : x.1 = key
      · have : lookup (x :: l) key = some x.2 := by simp [lookup, List.find?_cons, hx]
        rw [this, Option.some.injEq, List.mem_cons]
        constructor
        · rintro rfl; left; rw [← hx]
        · rintro (h | h)
          · rw [← h]
          · exact absurd (List.mem_map.mpr ⟨_, h, hx.symm⟩) hn.1
      · have : lookup (x :: l) key = lookup l key := by simp [lookup, List.find?_cons, hx]
        rw [this, ih hn.2, List.mem_cons]
        constructor
        · exact Or.inr
        · rintro (h | h)
          · exact absurd (by rw [← h]) hx
          · exact h

/-- C68 fails for names that cannot be joined: the empty string is accepted as the name of an operator, but
then the joined name of two operators silently drops it. -/
theorem C68_empty_name_bug {M : Type} [Monoid M] (a b : M) (d : ℕ) :
    ∃ s, mkSite d [] [(['A'], a), ([], b)] = some s ∧ getOp s ['A'] = some a ∧ getOp s [] = some b ∧
      getOp s (multiplyOpNames [['A'], []]) = some a := by
  refine ⟨⟨d, [], [(idName, 1), (['A'], a), ([], b)]⟩, ?_, ?_, ?_, ?_⟩
  · rw [mkSite, mk_first]
    simp only
    rw [addOps_ok _ _ (by simp [idName]) (by
      intro n hn
      simp only [List.map_cons, List.map_nil, List.mem_cons, List.not_mem_nil, or_false] at hn
      rcases hn with rfl | rfl <;> decide)]
    rfl
  · simp [getOp, cut, lookup, List.find?_cons, idName]
  · simp [getOp, cut, lookup, List.find?_cons, idName]
  · simp [multiplyOpNames, getOp, cut, lookup, List.find?_cons, idName, opLoop]

/-- A case: products of products by name. -/
example {M : Type} [Monoid M] (a b : M) (d : ℕ) :
    ∃ s, mkSite d [] [(['A'], a), (['B'], b)] = some s ∧
      getOp s (multiplyOpNames [['A', ' ', 'B'], ['A']]) = some (a * b * a) := by
  refine ⟨⟨d, [], [(idName, 1), (['A'], a), (['B'], b)]⟩, ?_, ?_⟩
  · rw [mkSite, mk_first]
    simp only
    rw [addOps_ok _ _ (by simp [idName]) (by
      intro n hn
      simp only [List.map_cons, List.map_nil, List.mem_cons, List.not_mem_nil, or_false] at hn
      rcases hn with rfl | rfl <;> decide)]
    rfl
  · rw [C68_multiply_op_names _ _ _ (by
      intro m hm
      simp only [List.mem_cons, List.not_mem_nil, or_false] at hm
      rcases hm with rfl | rfl <;> exact ⟨by decide, by decide⟩)]
    simp [getOp, cut, lookup, List.find?_cons, idName, opLoop]

end Cyten.SiteOps
