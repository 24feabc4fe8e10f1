import Verif.Model.Labels
import Mathlib.Tactic.SplitIfs
import Mathlib.Data.List.Perm.Subperm

namespace Cyten.Labels

theorem dot_not_mem_fmtNat (n : ℕ) : '.' ∉ fmtNat n := by
  intro h
  have := Nat.isDigit_of_mem_toDigits (b := 10) (by decide) (by decide) h
  exact absurd this (by decide)

/-- a label that survives one round of combining -/
def Plain (s : Str) : Prop := '.' ∉ s ∧ s.head? ≠ some '?'

theorem parts_length (n off : ℕ) (ls : List LegLabel) : (parts n off ls).length = ls.length := by
  induction ls generalizing n with
  | nil => rfl
  | cons l ls ih => simp [parts, ih]

theorem splitOn_intercalate_gen (ps : List Str) (h : ps ≠ []) :
    (List.intercalate ['.'] ps).splitOn '.' = ps.flatMap fun p => p.splitOn '.' := by
  induction ps with
  | nil => exact absurd rfl h
  | cons p ps ih =>
    cases ps with
    | nil => simp [List.intercalate]
    | cons q qs =>
      have : List.intercalate ['.'] (p :: q :: qs) = p ++ '.' :: List.intercalate ['.'] (q :: qs) := by
        simp [List.intercalate, List.intersperse]
      rw [this, List.splitOn_append_cons_self, ih (by simp)]
      rfl

theorem combine_split_raw (ls : List LegLabel) (off : ℕ) (h : ls ≠ []) :
    splitStr (combine ls off) =
      some (((parts 0 off ls).flatMap fun p => p.splitOn '.').map unpart) := by
  have hp : parenthesised (combine ls off) = true := by
    have : (combine ls off).getLast? = some ')' := by
      unfold combine
      rw [← List.cons_append, List.getLast?_append]; rfl
    simp only [parenthesised, this]
    simp [combine]
  have hi : ((combine ls off).drop 1).dropLast = List.intercalate ['.'] (parts 0 off ls) := by
    simp [combine]
  unfold splitStr
  rw [if_pos hp, hi, splitOn_intercalate_gen]
  intro e
  have := parts_length 0 off ls
  rw [e] at this
  exact h (List.length_eq_zero_iff.1 this.symm)

theorem splitOn_length_pos (p : Str) : 0 < (p.splitOn '.').length :=
  List.length_pos_iff.2 (List.splitOn_ne_nil '.' p)

theorem splitOn_length_dot (p : Str) (h : '.' ∈ p) : 2 ≤ (p.splitOn '.').length := by
  obtain ⟨s, t, rfl⟩ := List.append_of_mem h
  rw [List.splitOn_append_cons_self, List.length_append]
  have h1 := splitOn_length_pos s
  have h2 := splitOn_length_pos t
  omega

theorem flatMap_split_length (ps : List Str) :
    ps.length ≤ (ps.flatMap fun p => p.splitOn '.').length := by
  induction ps with
  | nil => simp
  | cons p ps ih =>
    have := splitOn_length_pos p
    simp only [List.flatMap_cons, List.length_append, List.length_cons]; omega

theorem flatMap_split_length_dot (ps : List Str) (h : ∃ p ∈ ps, '.' ∈ p) :
    ps.length < (ps.flatMap fun p => p.splitOn '.').length := by
  induction ps with
  | nil => simp at h
  | cons p ps ih =>
    simp only [List.flatMap_cons, List.length_append, List.length_cons]
    by_cases hp : '.' ∈ p
    · have := splitOn_length_dot p hp
      have := flatMap_split_length ps
      omega
    · obtain ⟨q, hq, hd⟩ := h
      rcases List.mem_cons.1 hq with rfl | hq
      · exact absurd hd hp
      · have := ih ⟨q, hq, hd⟩
        have := splitOn_length_pos p
        omega

theorem flatMap_split_nodot (ps : List Str) (h : ∀ p ∈ ps, '.' ∉ p) :
    (ps.flatMap fun p => p.splitOn '.') = ps := by
  induction ps with
  | nil => rfl
  | cons p ps ih =>
    rw [List.flatMap_cons, ih (fun q hq => h q (by simp [hq])),
      List.splitOn_eq_singleton (h p (by simp))]
    rfl

theorem unpart_part (n off : ℕ) (l : LegLabel) (h : ∀ s, l = some s → s.head? ≠ some '?') :
    unpart (part n l off) = l := by
  cases l with
  | none => simp [part, unpart]
  | some s => simp [part, unpart, h s rfl]

theorem map_unpart_parts (n off : ℕ) (ls : List LegLabel)
    (h : ∀ s, some s ∈ ls → s.head? ≠ some '?') : (parts n off ls).map unpart = ls := by
  induction ls generalizing n with
  | nil => rfl
  | cons l ls ih =>
    rw [parts, List.map_cons, unpart_part n off l (fun s e => h s (by simp [e])),
      ih _ (fun s hs => h s (by simp [hs]))]

theorem mem_parts (n off : ℕ) (ls : List LegLabel) (p : Str) (h : p ∈ parts n off ls) :
    some p ∈ ls ∨ ∃ k, p = '?' :: fmtNat k := by
  induction ls generalizing n with
  | nil => simp [parts] at h
  | cons l ls ih =>
    rw [parts] at h
    rcases List.mem_cons.1 h with e | h
    · cases l with
      | none => exact Or.inr ⟨_, e⟩
      | some s => left; simp [part] at e; simp [e]
    · rcases ih _ h with h | h
      · exact Or.inl (by simp [h])
      · exact Or.inr h

theorem parts_mem (n off : ℕ) (ls : List LegLabel) (s : Str) (h : some s ∈ ls) :
    s ∈ parts n off ls := by
  induction ls generalizing n with
  | nil => simp at h
  | cons l ls ih =>
    rw [parts]
    rcases List.mem_cons.1 h with e | h
    · subst e; simp [part]
    · exact List.mem_cons_of_mem _ (ih _ h)

theorem split_combine_iff (ls : List LegLabel) (off : ℕ) (hne : ls ≠ []) :
    splitStr (combine ls off) = some ls ↔ ∀ s, some s ∈ ls → Plain s := by
  rw [combine_split_raw ls off hne]
  constructor
  · intro h s hs
    have h' := Option.some.inj h
    have hlen : ((parts 0 off ls).flatMap fun p => p.splitOn '.').length =
        (parts 0 off ls).length := by
      have := congrArg List.length h'
      rw [List.length_map] at this
      rw [this, parts_length]
    have hnd : ∀ p ∈ parts 0 off ls, '.' ∉ p := by
      intro p hp hd
      have := flatMap_split_length_dot _ ⟨p, hp, hd⟩
      omega
    refine ⟨hnd s (parts_mem 0 off ls s hs), ?_⟩
    intro hq
    have : some s ∈ ((parts 0 off ls).flatMap fun p => p.splitOn '.').map unpart := by
      rw [h']; exact hs
    rw [List.mem_map] at this
    obtain ⟨p, -, hp⟩ := this
    unfold unpart at hp
    split at hp
    · cases hp
    · rename_i h1
      rw [Option.some.inj hp] at h1
      exact h1 hq
  · intro h
    refine congrArg some ?_
    rw [flatMap_split_nodot, map_unpart_parts]
    · exact fun s hs => (h s hs).2
    · intro p hp
      rcases mem_parts 0 off ls p hp with hs | ⟨k, rfl⟩
      · exact (h p hs).1
      · intro hd
        rcases List.mem_cons.1 hd with h0 | h0
        · exact absurd h0 (by decide)
        · exact dot_not_mem_fmtNat k h0

/-! ### duals -/

/-- an elementary leg label: no dots, no leading `?`, not parenthesised, at most one trailing star -/
structure Simple (s : Str) : Prop where
  dot : '.' ∉ s
  quest : s.head? ≠ some '?'
  paren : parenthesised s = false
  star : ∀ t, s ≠ t ++ ['*', '*']
  parenStar : ∀ t, s = t ++ ['*'] → parenthesised t = false

theorem dualStr_of_not_paren {n : ℕ} (s : Str) (h : parenthesised s = false) :
    dualStr (n + 1) s = if s.getLast? = some '*' then s.dropLast else s ++ ['*'] := by
  simp [dualStr, h]

theorem getLast_star_iff (s : Str) : s.getLast? = some '*' ↔ ∃ t, s = t ++ ['*'] := by
  constructor
  · intro h
    exact ⟨_, (List.dropLast_append_getLast? _ h).symm⟩
  · rintro ⟨t, rfl⟩; simp

theorem not_paren_star (s : Str) : parenthesised (s ++ ['*']) = false := by
  simp [parenthesised]

theorem dual_simple {n m : ℕ} (s : Str) (h : Simple s) : 
    dualStr (m + 1) (dualStr (n + 1) s) = s := by
  rw [dualStr_of_not_paren s h.paren]
  split_ifs with hs
  · obtain ⟨t, rfl⟩ := (getLast_star_iff s).1 hs
    rw [List.dropLast_concat, dualStr_of_not_paren t (h.parenStar t rfl), if_neg]
    intro ht
    obtain ⟨u, rfl⟩ := (getLast_star_iff t).1 ht
    exact h.star u (by simp)
  · rw [dualStr_of_not_paren _ (not_paren_star s)]
    simp

theorem simple_dual {n : ℕ} (s : Str) (h : Simple s) : Plain (dualStr (n + 1) s) := by
  rw [dualStr_of_not_paren s h.paren]
  split_ifs with hs
  · obtain ⟨t, rfl⟩ := (getLast_star_iff s).1 hs
    rw [List.dropLast_concat]
    refine ⟨fun hd => h.dot (by simp [hd]), fun hq => h.quest ?_⟩
    cases t with
    | nil => simp at hq
    | cons c t => simpa using hq
  · refine ⟨?_, fun hq => h.quest ?_⟩
    · simp only [List.mem_append, not_or]
      exact ⟨h.dot, by decide⟩
    · cases s with
      | nil => simp at hq
      | cons c t => simpa using hq

theorem simple_plain {s : Str} (h : Simple s) : Plain s := ⟨h.dot, h.quest⟩

theorem combine_paren (ls : List LegLabel) (off : ℕ) : parenthesised (combine ls off) = true := by
  have : (combine ls off).getLast? = some ')' := by
    unfold combine
    rw [← List.cons_append, List.getLast?_append]; rfl
  simp only [parenthesised, this]
  simp [combine]

theorem dual_combine {n : ℕ} (ls : List LegLabel) (off : ℕ) (hne : ls ≠ [])
    (h : ∀ s, some s ∈ ls → Plain s) :
    dualStr (n + 1) (combine ls off) = combine (ls.reverse.map fun l => l.map (dualStr n)) 0 := by
  have := (split_combine_iff ls off hne).2 h
  unfold splitStr at this
  rw [if_pos (combine_paren ls off)] at this
  rw [dualStr, if_pos (combine_paren ls off), Option.some.inj this]

/-- fuel does not matter once it exceeds the length -/
theorem splitOn_part_length (s p : Str) (h : p ∈ s.splitOn '.') : p.length ≤ s.length := by
  induction s generalizing p with
  | nil => simp at h; simp [h]
  | cons c s ih =>
    rw [List.splitOn_cons_eq_if_modifyHead] at h
    split at h
    · rcases List.mem_cons.1 h with rfl | h
      · simp
      · exact Nat.le_trans (ih p h) (by simp)
    · cases hsp : s.splitOn '.' with
      | nil => exact absurd hsp (List.splitOn_ne_nil _ _)
      | cons q qs =>
        rw [hsp, List.modifyHead_cons] at h
        rcases List.mem_cons.1 h with rfl | h
        · have := ih q (by simp [hsp]); simpa using this
        · exact Nat.le_trans (ih p (by simp [hsp, h])) (by simp)

theorem dual_fuel (n m : ℕ) (s : Str) (hn : s.length < n) (hm : s.length < m) :
    dualStr n s = dualStr m s := by
  induction n generalizing m s with
  | zero => omega
  | succ n ih =>
    cases m with
    | zero => omega
    | succ m =>
      rw [dualStr, dualStr]
      by_cases hp : parenthesised s = true
      · rw [if_pos hp, if_pos hp]
        refine congrArg (fun x => combine x 0) ?_
        refine List.map_congr_left ?_
        intro l hl
        rw [List.mem_reverse, List.mem_map] at hl
        obtain ⟨p, hpm, rfl⟩ := hl
        have h1 := splitOn_part_length _ p hpm
        have h2 : ((s.drop 1).dropLast).length + 1 ≤ s.length ∨ s = [] := by
          cases s with
          | nil => right; rfl
          | cons c s => left; simp
        have hne : s ≠ [] := by rintro rfl; simp [parenthesised] at hp
        have h3 : p.length < n ∧ p.length < m := by
          rcases h2 with h2 | h2
          · omega
          · exact absurd h2 hne
        unfold unpart
        split
        · rfl
        · simp only [Option.map_some]
          rw [ih m p h3.1 h3.2]
      · rw [if_neg hp, if_neg hp]

/-! ### LabelledLegs -/

theorem noDup_iff (ls : List LegLabel) (seen : List Str) :
    noDup ls seen = true ↔ (ls.filterMap id).Nodup ∧ ∀ s ∈ ls.filterMap id, s ∉ seen := by
  induction ls generalizing seen with
  | nil => simp [noDup]
  | cons l ls ih =>
    cases l with
    | none => simpa [noDup] using ih seen
    | some s =>
      simp only [noDup, Bool.and_eq_true, Bool.not_eq_true', List.contains_eq_mem, ih,
        List.filterMap_cons, id, List.nodup_cons, List.mem_cons, not_or, decide_eq_false_iff_not]
      constructor
      · rintro ⟨h1, h2, h3⟩
        refine ⟨⟨fun hs => (h3 s hs).1 rfl, h2⟩, ?_⟩
        rintro x (rfl | hx)
        · exact h1
        · exact (h3 x hx).2
      · rintro ⟨⟨h1, h2⟩, h3⟩
        refine ⟨h3 s (Or.inl rfl), h2, fun x hx => ⟨?_, h3 x (Or.inr hx)⟩⟩
        rintro rfl; exact h1 hx

/-- the invariant of `LabelledLegs` -/
structure Inv (s : Legs) : Prop where
  uniq : ∀ (i j : ℕ) (l : Str), s.labels[i]? = some (some l) → s.labels[j]? = some (some l) → i = j
  look : ∀ (l : Str) (i : ℕ), s.map l = some i ↔ s.labels[i]? = some (some l)

theorem uniq_of_nodup (ls : List LegLabel) (h : (ls.filterMap id).Nodup) (i j : ℕ) (l : Str)
    (hi : ls[i]? = some (some l)) (hj : ls[j]? = some (some l)) : i = j := by
  induction ls generalizing i j with
  | nil => simp at hi
  | cons x ls ih =>
    have hm : ∀ k : ℕ, ls[k]? = some (some l) → l ∈ ls.filterMap id := by
      intro k hk
      rw [List.mem_filterMap]
      exact ⟨_, List.mem_of_getElem? hk, rfl⟩
    have h' : (ls.filterMap id).Nodup := by
      cases x with
      | none => simpa using h
      | some y => simp at h; exact (by simpa using h.2)
    cases i with
    | zero =>
      cases j with
      | zero => rfl
      | succ j =>
        simp only [List.getElem?_cons_zero, Option.some.injEq, List.getElem?_cons_succ] at hi hj
        subst hi
        rw [List.filterMap_cons] at h
        exact absurd (hm j hj) (by simpa using (List.nodup_cons.1 h).1)
    | succ i =>
      cases j with
      | zero =>
        simp only [List.getElem?_cons_zero, Option.some.injEq, List.getElem?_cons_succ] at hi hj
        subst hj
        rw [List.filterMap_cons] at h
        exact absurd (hm i hi) (by simpa using (List.nodup_cons.1 h).1)
      | succ j => rw [ih h' i j (by simpa using hi) (by simpa using hj)]

theorem buildMap_spec (ls : List LegLabel) (k : ℕ) (m : Str → Option ℕ)
    (h : (ls.filterMap id).Nodup) (l : Str) (v : ℕ) :
    buildMap k ls m l = some v ↔
      (∃ i, ls[i]? = some (some l) ∧ v = k + i) ∨ (l ∉ ls.filterMap id ∧ m l = some v) := by
  induction ls generalizing k m with
  | nil => simp [buildMap]
  | cons x ls ih =>
    cases x with
    | none =>
      rw [buildMap, ih (k + 1) m (by simpa using h)]
      constructor
      · rintro (⟨i, hi, rfl⟩ | ⟨h1, h2⟩)
        · exact Or.inl ⟨i + 1, by simpa using hi, by omega⟩
        · exact Or.inr ⟨by simpa using h1, h2⟩
      · rintro (⟨i, hi, rfl⟩ | ⟨h1, h2⟩)
        · cases i with
          | zero => simp at hi
          | succ i => exact Or.inl ⟨i, by simpa using hi, by omega⟩
        · exact Or.inr ⟨by simpa using h1, h2⟩
    | some y =>
      have hy : y ∉ ls.filterMap id ∧ (ls.filterMap id).Nodup := by
        rw [List.filterMap_cons] at h
        exact List.nodup_cons.1 h
      rw [buildMap, ih (k + 1) _ hy.2]
      constructor
      · rintro (⟨i, hi, rfl⟩ | ⟨h1, h2⟩)
        · exact Or.inl ⟨i + 1, by simpa using hi, by omega⟩
        · by_cases e : l = y
          · subst e
            left
            refine ⟨0, by simp, ?_⟩
            simp [upd] at h2; omega
          · right
            refine ⟨?_, ?_⟩
            · rw [List.filterMap_cons]
              simp only [id, List.mem_cons, not_or]
              exact ⟨e, h1⟩
            · simpa [upd, e] using h2
      · rintro (⟨i, hi, rfl⟩ | ⟨h1, h2⟩)
        · cases i with
          | zero =>
            simp only [List.getElem?_cons_zero, Option.some.injEq] at hi
            subst hi
            right
            exact ⟨hy.1, by simp [upd]⟩
          | succ i => exact Or.inl ⟨i, by simpa using hi, by omega⟩
        · rw [List.filterMap_cons] at h1
          simp only [id, List.mem_cons, not_or] at h1
          exact Or.inr ⟨h1.2, by simpa [upd, h1.1] using h2⟩

theorem inv_build (ls : List LegLabel) (h : noDup ls [] = true) :
    Inv ⟨ls, buildMap 0 ls fun _ => none⟩ := by
  have hn := ((noDup_iff ls []).1 h).1
  refine ⟨fun i j l => uniq_of_nodup ls hn i j l, ?_⟩
  intro l i
  rw [buildMap_spec ls 0 _ hn]
  simp

theorem toValidIdx_spec (idx : ℤ) (n p : ℕ) :
    toValidIdx idx n = some p ↔ p < n ∧ (idx = p ∨ idx = (p : ℤ) - n) := by
  unfold toValidIdx
  split_ifs with h1 h2
  · simp only [reduceCtorEq, false_iff]; omega
  · simp only [Option.some.injEq]; omega
  · simp only [Option.some.injEq]; omega

theorem setLabel_inv (s s' : Legs) (pos : ℤ) (label : LegLabel) (h : Inv s)
    (hs : s.setLabel pos label = .ok s') : Inv s' := by
  unfold Legs.setLabel at hs
  split at hs
  · cases hs
  · rename_i p hp
    obtain ⟨hpl, -⟩ := (toValidIdx_spec _ _ _).1 hp
    split at hs
    · cases hs
    · rename_i hc
      simp only [Bool.or_eq_true, List.contains_eq_mem, decide_eq_true_eq, not_or] at hc
      injection hs with hs
      subst hs
      have hnot : ∀ l j, label = some l → j ≠ p → s.labels[j]? ≠ some (some l) := by
        rintro l j rfl hj hjl
        by_cases hlt : j < p
        · apply hc.1
          have : (s.labels.take p)[j]? = some (some l) := by
            rw [List.getElem?_take_of_lt hlt]; exact hjl
          exact List.mem_of_getElem? this
        · apply hc.2
          have : (s.labels.drop (p + 1))[j - (p + 1)]? = some (some l) := by
            rw [List.getElem?_drop, show p + 1 + (j - (p + 1)) = j by omega]; exact hjl
          exact List.mem_of_getElem? this
      have hget : ∀ j : ℕ, (s.labels.set p label)[j]? = if j = p then some label else s.labels[j]? := by
        intro j
        rw [List.getElem?_set]
        by_cases hj : j = p
        · subst hj; simp [hpl]
        · simp [hj, Ne.symm hj]
      constructor
      · intro i j l hi hj
        simp only [hget] at hi hj
        split_ifs at hi hj with h1 h2 h2
        · omega
        · exact absurd hj (hnot l j (Option.some.inj hi) h2)
        · exact absurd hi (hnot l i (Option.some.inj hj) h1)
        · exact h.uniq i j l hi hj
      · intro l i
        simp only [hget]
        obtain ⟨old, hold⟩ : ∃ old, s.labels[p]? = some old :=
          ⟨_, List.getElem?_eq_getElem hpl⟩
        rw [hold]
        simp only [Option.join_some]
        have base : ∀ (m : Str → Option ℕ), (∀ x, m x = if s.labels[p]? = some (some x) then none
            else s.map x) → ∀ x i, m x = some i ↔ (i ≠ p ∧ s.labels[i]? = some (some x)) := by
          intro m hm x i
          rw [hm]
          split_ifs with hx
          · simp only [reduceCtorEq, false_iff]
            rintro ⟨h1, h2⟩
            exact h1 (h.uniq i p x h2 hx)
          · rw [h.look]
            refine ⟨fun h1 => ⟨?_, h1⟩, fun h1 => h1.2⟩
            rintro rfl; exact hx h1
        have hm1 : ∀ x, (match old with | some o => upd s.map o none | none => s.map) x =
            if s.labels[p]? = some (some x) then none else s.map x := by
          intro x
          rw [hold]
          cases old with
          | none => simp
          | some o =>
            simp only [upd, Option.some.injEq]
            by_cases e : x = o
            · simp [e]
            · simp [e, Ne.symm e]
        have hb := base _ hm1
        cases label with
        | none =>
          simp only
          refine (hb l i).trans ?_
          by_cases hi : i = p <;> simp [hi]
        | some lab =>
          simp only [upd]
          by_cases e : l = lab
          · subst e
            simp only [if_true]
            by_cases hi : i = p
            · simp [hi]
            · simp only [hi, if_false]
              have := hnot l i rfl hi
              simp only [Option.some.injEq]
              constructor
              · intro h0; exact absurd h0.symm hi
              · intro h0; exact absurd h0 this
          · simp only [e, if_false]
            refine (hb l i).trans ?_
            by_cases hi : i = p
            · simp [hi, Ne.symm e]
            · simp [hi]

theorem step_inv (s s' : Legs) (op : Op) (h : Inv s)
    (hs : s.step op = .ok s' ∨ s.step op = .throws s') : Inv s' := by
  have hset : ∀ ls, (s.setLabels ls = .ok s' ∨ s.setLabels ls = .throws s') → Inv s' := by
    intro ls hs
    unfold Legs.setLabels at hs
    split at hs
    · rename_i hc
      rcases hs with hs | hs
      · injection hs with hs; subst hs; exact inv_build ls hc.1
      · cases hs
    · rcases hs with hs | hs <;> cases hs
  cases op with
  | setLabel p l =>
    rcases hs with hs | hs
    · exact setLabel_inv s s' p l h hs
    · unfold Legs.step Legs.setLabel at hs
      simp only at hs
      split at hs
      · injection hs with hs; subst hs; exact h
      · split at hs
        · injection hs with hs; subst hs; exact h
        · cases hs
  | setLabels ls => exact hset ls hs
  | relabel m => exact hset _ hs

theorem run_inv (s s' : Legs) (ops : List Op) (h : Inv s) (hs : s.run ops = some s') : Inv s' := by
  induction ops generalizing s with
  | nil => simp [Legs.run] at hs; subst hs; exact h
  | cons op ops ih =>
    rw [Legs.run] at hs
    split at hs
    · rename_i t ht; exact ih t (step_inv s t op h (Or.inl ht)) hs
    · rename_i t ht; exact ih t (step_inv s t op h (Or.inr ht)) hs
    · cases hs

theorem step_length (s s' : Legs) (op : Op)
    (hs : s.step op = .ok s' ∨ s.step op = .throws s') : s'.labels.length = s.labels.length := by
  have hset : ∀ ls, (s.setLabels ls = .ok s' ∨ s.setLabels ls = .throws s') →
      s'.labels.length = s.labels.length := by
    intro ls hs
    unfold Legs.setLabels at hs
    split at hs
    · rename_i hc
      rcases hs with hs | hs
      · injection hs with hs; subst hs; exact hc.2
      · cases hs
    · rcases hs with hs | hs <;> cases hs
  cases op with
  | setLabel p l =>
    unfold Legs.step Legs.setLabel at hs
    simp only at hs
    split at hs
    · rcases hs with hs | hs
      · cases hs
      · injection hs with hs; subst hs; rfl
    · split at hs
      · rcases hs with hs | hs
        · cases hs
        · injection hs with hs; subst hs; rfl
      · rcases hs with hs | hs
        · injection hs with hs; subst hs; simp
        · cases hs
  | setLabels ls => exact hset ls hs
  | relabel m => exact hset _ hs

theorem run_length (s s' : Legs) (ops : List Op) (hs : s.run ops = some s') :
    s'.labels.length = s.labels.length := by
  induction ops generalizing s with
  | nil => simp [Legs.run] at hs; subst hs; rfl
  | cons op ops ih =>
    rw [Legs.run] at hs
    split at hs
    · rename_i t ht; rw [ih t hs, step_length s t op (Or.inl ht)]
    · rename_i t ht; rw [ih t hs, step_length s t op (Or.inr ht)]
    · cases hs

end Cyten.Labels
