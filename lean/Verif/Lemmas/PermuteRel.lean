import Verif.Lemmas.PermuteOrder

/-! # The state of the engine that computes the instructions of a permutation of legs -/

namespace Cyten.Permute
open Cyten.Tools

/-- The constant data of a permutation: the final position and the level of each leg, and whether a leg that
bends does so to the right. -/
structure Cfg where
  N : ℕ
  k0 : ℕ
  K : ℕ
  sym : Bool
  tgt : ℕ → ℕ
  dir : ℕ → Bool
  lev : ℕ → Option ℤ

/-- No leg bends to the left. -/
def Cfg.NoLeft (c : Cfg) : Prop := ∀ x, c.dir x = true

/-- A crossing that has the chirality of the levels, and brings two legs into the right order. -/
def Cfg.Cr (c : Cfg) (q : ℕ × ℕ × Bool) : Prop :=
  compareLevels c.sym (c.lev q.1) (c.lev q.2.1) = .ok q.2.2 ∧ c.tgt q.2.1 < c.tgt q.1

/-- Two legs whose levels do not determine a chirality. -/
def Cfg.Bad (c : Cfg) : Prop :=
  c.sym = false ∧ ∃ x y, x < c.N ∧ y < c.N ∧ x ≠ y ∧ (c.lev x = none ∨ c.lev y = none ∨ c.lev x = c.lev y)

/-- The entries for the leg `x` at position `i`, if `k` legs are in the codomain. -/
def Cfg.st (c : Cfg) (k i x : ℕ) : LegSt :=
  ⟨some (c.tgt x), if decide (i < k) = decide (c.tgt x < c.K) then .none else if c.dir x then .right else .left,
    c.lev x⟩

/-- The legs are in the order `L`, the first `k` of them in the codomain. -/
structure Rel (c : Cfg) (e : Eng) (L : List ℕ) (k : ℕ) : Prop where
  num : e.numLegs = c.N
  sym : e.sym = c.sym
  cod : e.nCod = k
  dom : e.nDom = c.N - k
  le : k ≤ c.N
  perm : L.Perm (List.range c.N)
  len : e.legs.length = c.N
  legs : ∀ i x : ℕ, L[i]? = some x → e.legs[i]? = some (c.st k i x)
  run : ∃ tr, execute e.instrs (initialLegs c.k0 (c.N - c.k0)) = some ((L.take k, (L.drop k).reverse), tr) ∧
    (c.NoLeft → ∀ q ∈ tr, c.Cr q)

theorem Rel.length {c : Cfg} {e : Eng} {L : List ℕ} {k : ℕ} (h : Rel c e L k) : L.length = c.N := by
  simpa using h.perm.length_eq

theorem Rel.nodup {c : Cfg} {e : Eng} {L : List ℕ} {k : ℕ} (h : Rel c e L k) : L.Nodup :=
  h.perm.nodup_iff.2 List.nodup_range

theorem Rel.lt {c : Cfg} {e : Eng} {L : List ℕ} {k : ℕ} (h : Rel c e L k) {x : ℕ} (hx : x ∈ L) : x < c.N := by
  simpa using h.perm.mem_iff.1 hx

/-- Success with a property of the result, or an unspecified chirality. -/
def Post {α : Type} (c : Cfg) (r : Except Err α) (Q : α → Prop) : Prop :=
  (∃ a, r = .ok a ∧ Q a) ∨ (r = .error .chirality ∧ c.Bad)

theorem Post.ok {α : Type} {c : Cfg} {r : Except Err α} {Q : α → Prop} {a : α} (h : r = .ok a) (hq : Q a) :
    Post c r Q := Or.inl ⟨a, h, hq⟩

theorem Post.bind {α β : Type} {c : Cfg} {r : Except Err α} {Q : α → Prop} {f : α → Except Err β} {R : β → Prop}
    (h : Post c r Q) (hf : ∀ a, Q a → Post c (f a) R) : Post c (r.bind f) R := by
  rcases h with ⟨a, rfl, ha⟩ | ⟨rfl, hb⟩
  · exact hf a ha
  · exact Or.inr ⟨rfl, hb⟩

theorem Post.map {α β : Type} {c : Cfg} {r : Except Err α} {Q : α → Prop} {f : α → β} {R : β → Prop}
    (h : Post c r Q) (hf : ∀ a, Q a → R (f a)) : Post c (r.map f) R := by
  rcases h with ⟨a, rfl, ha⟩ | ⟨rfl, hb⟩
  · exact Or.inl ⟨f a, rfl, hf a ha⟩
  · exact Or.inr ⟨rfl, hb⟩

theorem Post.mono {α : Type} {c : Cfg} {r : Except Err α} {Q R : α → Prop} (h : Post c r Q)
    (hf : ∀ a, Q a → R a) : Post c r R := by
  rcases h with ⟨a, rfl, ha⟩ | ⟨rfl, hb⟩
  · exact Or.inl ⟨a, rfl, hf a ha⟩
  · exact Or.inr ⟨rfl, hb⟩

theorem execute_append (is : List Instr) (i : Instr) (s : List ℕ × List ℕ) (s' : List ℕ × List ℕ)
    (tr : List (ℕ × ℕ × Bool)) (r : (List ℕ × List ℕ) × Option (ℕ × ℕ × Bool))
    (h : execute is s = some (s', tr)) (h' : i.apply s' = some r) :
    execute (is ++ [i]) s = some (r.1, tr ++ r.2.toList) := by
  induction is generalizing s tr with
  | nil =>
    simp only [execute, Option.some.injEq, Prod.mk.injEq] at h
    obtain ⟨rfl, rfl⟩ := h
    simp [execute, h']
  | cons a is ih =>
    simp only [execute, Option.bind_eq_some_iff, Option.map_eq_some_iff] at h
    obtain ⟨q, hq, p, hp, he⟩ := h
    obtain ⟨p1, p2⟩ := p
    simp only [Prod.mk.injEq] at he
    obtain ⟨rfl, rfl⟩ := he
    have := ih q.1 p2 hp
    simp [execute, hq, this]

theorem toValidIdx_nat (i n : ℕ) (h : i < n) : Labels.toValidIdx (i : ℤ) n = some i := by
  unfold Labels.toValidIdx
  rw [if_neg (by omega), if_neg (by omega)]
  simp

theorem toValidIdx_neg (i n : ℕ) (z : ℤ) (hz : z = (i : ℤ) - n) (h : i < n) : Labels.toValidIdx z n = some i := by
  unfold Labels.toValidIdx
  rw [if_neg (by omega), if_pos (by omega)]
  subst hz
  simp

theorem compareLevels_cases (c : Cfg) {x y : ℕ} (hx : x < c.N) (hy : y < c.N) (hne : x ≠ y) :
    (∃ o, compareLevels c.sym (c.lev x) (c.lev y) = .ok o) ∨
      (compareLevels c.sym (c.lev x) (c.lev y) = .error .chirality ∧ c.Bad) := by
  unfold compareLevels
  cases hs : c.sym with
  | true => exact Or.inl ⟨true, rfl⟩
  | false =>
    rw [if_neg (by simp)]
    cases h1 : c.lev x with
    | none => exact Or.inr ⟨rfl, hs, x, y, hx, hy, hne, Or.inl h1⟩
    | some a =>
      cases h2 : c.lev y with
      | none => exact Or.inr ⟨rfl, hs, x, y, hx, hy, hne, Or.inr (Or.inl h2)⟩
      | some b =>
        by_cases hab : a = b
        · exact Or.inr ⟨by simp [hab], hs, x, y, hx, hy, hne, Or.inr (Or.inr (by rw [h1, h2, hab]))⟩
        · exact Or.inl ⟨decide (b < a), by simp [hab]⟩

theorem take_mid {α : Type} (P Q : List α) (x y : α) (k : ℕ) (h : P.length + 2 ≤ k) :
    (P ++ x :: y :: Q).take k = P ++ x :: y :: Q.take (k - P.length - 2) := by
  rw [List.take_append, List.take_of_length_le (by omega)]
  congr 1
  rw [show k - P.length = (k - P.length - 2) + 2 by omega]
  simp

theorem drop_mid {α : Type} (P Q : List α) (x y : α) (k : ℕ) (h : k ≤ P.length) :
    (P ++ x :: y :: Q).drop k = P.drop k ++ x :: y :: Q := by
  rw [List.drop_append_of_le_length h]

theorem Rel.swap {c : Cfg} {e : Eng} {L : List ℕ} {k j : ℕ} (h : Rel c e L k) {over : Option Bool}
    (hj : j + 2 ≤ k ∨ k ≤ j) {x y : ℕ} (hx : L[j]? = some x) (hy : L[j + 1]? = some y)
    (ho : c.NoLeft → over = none ∧ c.tgt y < c.tgt x) :
    Post c (e.swap j over) fun e' => Rel c e' (swapAdj L j) k := by
  have hl : j + 1 < L.length := (List.getElem?_eq_some_iff.1 hy).1
  have hN := h.length
  have hxN : x < c.N := h.lt (List.mem_of_getElem? hx)
  have hyN : y < c.N := h.lt (List.mem_of_getElem? hy)
  have hne : x ≠ y := by
    rintro rfl
    have := getElem?_inj h.nodup hx hy
    omega
  have hex := h.legs j x hx
  have hey := h.legs (j + 1) y hy
  have hch : Post c (chooseOver e.sym over (c.lev x) (c.lev y)) fun o =>
      c.NoLeft → c.Cr (x, y, o) := by
    unfold chooseOver
    cases hov : over with
    | some o => exact Post.ok rfl fun hn => by simp [hov] at ho; exact absurd hn ho
    | none =>
      rcases compareLevels_cases c hxN hyN hne with ⟨o, h1⟩ | h1
      · rw [h.sym]
        exact Post.ok h1 fun hn => ⟨h1, (ho hn).2⟩
      · rw [h.sym]
        exact Or.inr h1
  unfold Eng.swap
  rw [h.num, toValidIdx_nat j c.N (by omega)]
  simp only [hex, hey]
  refine hch.bind fun o hcr => ?_
  have hsw : ∀ i z : ℕ, (swapAdj L j)[i]? = some z → (swapAdj e.legs j)[i]? = some (c.st k i z) := by
    intro i z hz
    rw [getElem?_swapAdj _ _ _ hl] at hz
    rw [getElem?_swapAdj _ _ _ (by rw [h.len]; omega)]
    by_cases h1 : i = j
    · subst h1
      rw [if_pos rfl] at hz ⊢
      rw [hey]
      rw [hy] at hz
      obtain rfl := Option.some.inj hz
      simp only [Cfg.st]
      rw [show decide (i + 1 < k) = decide (i < k) by simp; omega]
    · rw [if_neg h1] at hz ⊢
      by_cases h2 : i = j + 1
      · subst h2
        rw [if_pos rfl] at hz ⊢
        rw [hex]
        rw [hx] at hz
        obtain rfl := Option.some.inj hz
        simp only [Cfg.st]
        rw [show decide (j + 1 < k) = decide (j < k) by simp; omega]
      · rw [if_neg h2] at hz ⊢
        exact h.legs i z hz
  obtain ⟨tr, hrun, htr⟩ := h.run
  have htr' : c.NoLeft → ∀ q ∈ tr ++ [(x, y, o)], c.Cr q := by
    intro hn q hq
    rcases List.mem_append.1 hq with hq | hq
    · exact htr hn q hq
    · rw [List.mem_singleton] at hq
      subst hq
      exact hcr hn
  obtain ⟨P, Q, hL, hP⟩ := split_two hx hy
  have hsl : swapAdj L j = P ++ y :: x :: Q := by rw [hL, ← hP, swapAdj_mid]
  have hlen : P.length + (Q.length + 2) = c.N := by
    rw [← hN, hL]; simp
  rcases hj with hj | hj
  · rw [if_pos (by rw [h.cod]; omega), if_pos (by rw [h.cod]; omega)]
    refine Post.ok rfl ⟨rfl, h.sym, h.cod, h.dom, h.le, (swapAdj_perm _ _).trans h.perm, ?_, ?_, ?_⟩
    · simp only [swapNext_eq, length_swapAdj]; exact h.len
    · simp only [swapNext_eq]; exact hsw
    · refine ⟨tr ++ [(x, y, o)], ?_, htr'⟩
      rw [execute_append _ _ _ _ _ ((swapAdj (L.take k) j, (L.drop k).reverse), some (x, y, o)) hrun ?_]
      · simp only [Option.toList_some, Option.some.injEq, Prod.mk.injEq, and_true]
        rw [hsl, hL, take_mid _ _ _ _ _ (by omega), take_mid _ _ _ _ _ (by omega), ← hP, swapAdj_mid]
        refine ⟨rfl, ?_⟩
        rw [List.drop_append, List.drop_append, show k - P.length = (k - P.length - 2) + 2 by omega]
        simp
      · simp only [Instr.apply]
        rw [List.getElem?_take_of_lt (by omega), List.getElem?_take_of_lt (by omega), hx, hy]
        simp [swapNext_eq]
  · rw [if_neg (by rw [h.cod]; omega)]
    refine Post.ok rfl ⟨rfl, h.sym, h.cod, h.dom, h.le, (swapAdj_perm _ _).trans h.perm, ?_, ?_, ?_⟩
    · simp only [swapNext_eq, length_swapAdj]; exact h.len
    · simp only [swapNext_eq]; exact hsw
    · refine ⟨tr ++ [(x, y, o)], ?_, htr'⟩
      have hd : (L.drop k).reverse = Q.reverse ++ y :: x :: (P.drop k).reverse := by
        rw [hL, drop_mid _ _ _ _ _ (by omega)]; simp
      have hi : c.N - 2 - j = Q.reverse.length := by simp; omega
      rw [execute_append _ _ _ _ _ ((L.take k, swapAdj (L.drop k).reverse Q.reverse.length), some (x, y, o)) hrun ?_]
      · simp only [Option.toList_some, Option.some.injEq, Prod.mk.injEq, and_true]
        rw [hd, swapAdj_mid, hsl, hL, drop_mid _ _ _ _ _ (by omega), List.take_append_of_le_length (by omega),
          List.take_append_of_le_length (by omega)]
        simp
      · rw [hi, hd]
        simp only [Instr.apply, swapNext_eq]
        simp

theorem Rel.swaps {c : Cfg} {k : ℕ} {over : Option Bool} (js : List ℕ) {e : Eng} {L : List ℕ} (h : Rel c e L k)
    (hj : ∀ j ∈ js, j + 2 ≤ k ∨ k ≤ j)
    (hp : Path (fun x y => c.NoLeft → over = none ∧ c.tgt y < c.tgt x) js L) :
    Post c (e.swaps over js) fun e' => Rel c e' (js.foldl swapAdj L) k := by
  induction js generalizing e L with
  | nil => exact Post.ok rfl h
  | cons j js ih =>
    obtain ⟨⟨x, y, hx, hy, ho⟩, hp⟩ := hp
    refine (h.swap (hj j List.mem_cons_self) hx hy ho).bind fun e' he' => ?_
    exact ih he' (fun j hj' => hj j (List.mem_cons_of_mem _ hj')) hp

theorem Rel.moveRight {c : Cfg} {e : Eng} {k : ℕ} {P M Q : List ℕ} {x : ℕ} {over : Option Bool}
    (h : Rel c e (P ++ x :: (M ++ Q)) k) (hk : P.length + M.length < k ∨ k ≤ P.length) (start goal : ℤ)
    (hs : Labels.toValidIdx start c.N = some P.length)
    (hg : Labels.toValidIdx goal c.N = some (P.length + M.length))
    (ho : c.NoLeft → over = none ∧ ∀ m ∈ M, c.tgt m < c.tgt x) :
    Post c (e.moveLeg start goal over) fun e' => Rel c e' (P ++ M ++ x :: Q) k := by
  unfold Eng.moveLeg
  rw [h.num, hs, hg, h.cod]
  simp only
  rw [if_neg (by simp; omega)]
  have hp := path_right (fun x y => c.NoLeft → over = none ∧ c.tgt y < c.tgt x) P M Q x
    fun m hm hn => ⟨(ho hn).1, (ho hn).2 m hm⟩
  by_cases hM : M = []
  · subst hM
    rw [if_neg (by simp)]
    simp only [List.length_nil, Nat.add_zero, Nat.sub_self]
    exact Post.ok rfl (by simpa using h)
  · have : 0 < M.length := List.length_pos_iff.2 hM
    rw [if_pos (by omega), show P.length + M.length - P.length = M.length by omega]
    rw [← hp.2]
    exact h.swaps _ (by intro j hj; simp at hj; omega) hp.1

theorem Rel.moveLeft {c : Cfg} {e : Eng} {k : ℕ} {P M Q : List ℕ} {x : ℕ} {over : Option Bool}
    (h : Rel c e (P ++ M ++ x :: Q) k) (hk : P.length + M.length < k ∨ k ≤ P.length) (start goal : ℤ)
    (hs : Labels.toValidIdx start c.N = some (P.length + M.length))
    (hg : Labels.toValidIdx goal c.N = some P.length)
    (ho : c.NoLeft → over = none ∧ ∀ m ∈ M, c.tgt x < c.tgt m) :
    Post c (e.moveLeg start goal over) fun e' => Rel c e' (P ++ x :: (M ++ Q)) k := by
  unfold Eng.moveLeg
  rw [h.num, hs, hg, h.cod]
  simp only
  rw [if_neg (by simp; omega), if_neg (by omega)]
  have hp := path_left (fun x y => c.NoLeft → over.map not = none ∧ c.tgt y < c.tgt x) P M Q x
    fun m hm hn => ⟨by rw [(ho hn).1]; rfl, (ho hn).2 m hm⟩
  rw [show P.length + M.length - P.length = M.length by omega, ← hp.2]
  exact h.swaps _ (by intro j hj; simp at hj; omega) hp.1

theorem Rel.bendDown {c : Cfg} {e : Eng} {L : List ℕ} {k x : ℕ} (h : Rel c e L k) (hx : L[k]? = some x)
    (ht : c.tgt x < c.K) : Post c (e.bend true) fun e' => Rel c e' L (k + 1) := by
  have hk : k < L.length := (List.getElem?_eq_some_iff.1 hx).1
  have hN := h.length
  have hl := h.legs k x hx
  unfold Eng.bend
  simp only [if_true, h.cod, hl, h.dom]
  have hb : (c.st k k x).bend ≠ .none := by
    simp only [Cfg.st, lt_irrefl, decide_false]
    rw [if_neg (by simp [ht])]
    split_ifs <;> simp
  rw [if_neg (by rintro (h1 | h1); exacts [hb h1, by omega])]
  refine Post.ok rfl ⟨h.num, h.sym, rfl, by simp only; omega, by omega, h.perm, by simp [h.len], ?_, ?_⟩
  · intro i z hz
    simp only
    by_cases h1 : i = k
    · subst h1
      rw [hx] at hz
      obtain rfl := Option.some.inj hz
      rw [List.getElem?_set_self (by rw [h.len]; omega)]
      simp [Cfg.st, ht]
    · rw [List.getElem?_set_ne (by omega), h.legs i z hz]
      simp only [Cfg.st]
      rw [show decide (i < k + 1) = decide (i < k) by simp; omega]
  · obtain ⟨tr, hrun, htr⟩ := h.run
    refine ⟨tr, ?_, htr⟩
    have e1 : L.drop k = x :: L.drop (k + 1) := by
      rw [List.drop_eq_getElem_cons hk]
      rw [List.getElem?_eq_getElem hk] at hx
      rw [Option.some.inj hx]
    have e2 : L.take (k + 1) = L.take k ++ [x] := by
      rw [List.take_add_one, hx]; rfl
    rw [execute_append _ _ _ _ _ ((L.take k ++ [x], (L.drop (k + 1)).reverse), none) hrun ?_]
    · simp [e2]
    · simp [Instr.apply, e1]

theorem Rel.bendUp {c : Cfg} {e : Eng} {L : List ℕ} {k x : ℕ} (h : Rel c e L (k + 1)) (hx : L[k]? = some x)
    (ht : c.K ≤ c.tgt x) : Post c (e.bend false) fun e' => Rel c e' L k := by
  have hk : k < L.length := (List.getElem?_eq_some_iff.1 hx).1
  have hN := h.length
  have hl := h.legs k x hx
  unfold Eng.bend
  simp only [Bool.false_eq_true, if_false, h.cod, Nat.add_sub_cancel, hl, h.dom]
  have hb : (c.st (k + 1) k x).bend ≠ .none := by
    simp only [Cfg.st]
    rw [if_neg (by simp [ht])]
    split_ifs <;> simp
  rw [if_neg (by rintro (h1 | h1); exacts [hb h1, by omega])]
  refine Post.ok rfl ⟨h.num, h.sym, rfl, by simp only; omega, by omega, h.perm, by simp [h.len], ?_, ?_⟩
  · intro i z hz
    simp only
    by_cases h1 : i = k
    · subst h1
      rw [hx] at hz
      obtain rfl := Option.some.inj hz
      rw [List.getElem?_set_self (by rw [h.len]; omega)]
      simp [Cfg.st, ht]
    · rw [List.getElem?_set_ne (by omega), h.legs i z hz]
      simp only [Cfg.st]
      rw [show decide (i < k + 1) = decide (i < k) by simp; omega]
  · obtain ⟨tr, hrun, htr⟩ := h.run
    refine ⟨tr, ?_, htr⟩
    have e1 : L.drop k = x :: L.drop (k + 1) := by
      rw [List.drop_eq_getElem_cons hk]
      rw [List.getElem?_eq_getElem hk] at hx
      rw [Option.some.inj hx]
    have e2 : L.take (k + 1) = L.take k ++ [x] := by
      rw [List.take_add_one, hx]; rfl
    rw [execute_append _ _ _ _ _ ((L.take k, (L.drop (k + 1)).reverse ++ [x]), none) hrun ?_]
    · simp [e1]
    · simp [Instr.apply, e2]

theorem Rel.twist {c : Cfg} {e : Eng} {L : List ℕ} {k n : ℕ} (h : Rel c e L k) (codomain over : Bool)
    (hn : n ≤ if codomain then k else c.N - k) : Rel c (e.twist codomain n over) L k := by
  unfold Eng.twist
  by_cases h0 : 0 < n
  · rw [if_pos h0]
    refine ⟨h.num, h.sym, h.cod, h.dom, h.le, h.perm, h.len, h.legs, ?_⟩
    obtain ⟨tr, hrun, htr⟩ := h.run
    refine ⟨tr, ?_, htr⟩
    have hN := h.length
    have hk := h.le
    rw [execute_append _ _ _ _ _ ((L.take k, (L.drop k).reverse), none) hrun ?_]
    · simp
    · simp only [Instr.apply]
      rw [if_pos]
      refine ⟨by simp; omega, fun i hi => ?_⟩
      have hi : i < n := by simpa using hi
      cases codomain <;> simp at hn ⊢ <;> omega
  · rw [if_neg h0]; exact h

end Cyten.Permute
