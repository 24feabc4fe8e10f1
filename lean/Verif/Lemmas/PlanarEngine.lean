import Verif.Props.PermuteEngine

/-! # The engine for permutations of legs without crossings -/

namespace Cyten.Permute
open Cyten.Tools

/-- The error is not an unspecified chirality. -/
def NoChir {α : Type} (r : Except Err α) : Prop := r ≠ .error .chirality

theorem NoChir.bind {α β : Type} {r : Except Err α} {f : α → Except Err β} (h : NoChir r)
    (hf : ∀ a, r = .ok a → NoChir (f a)) : NoChir (r.bind f) := by
  cases r with
  | ok a => exact hf a rfl
  | error e => intro hc; exact h (by simpa [Except.bind] using hc)

theorem NoChir.ok {α : Type} (a : α) : NoChir (Except.ok (ε := Err) a) := by simp [NoChir]

theorem NoChir.post {α : Type} {c : Cfg} {r : Except Err α} {Q : α → Prop} (h : NoChir r) (hp : Post c r Q) :
    ∃ a, r = .ok a ∧ Q a := by
  rcases hp with h1 | ⟨h1, -⟩
  · exact h1
  · exact absurd h1 h

theorem swap_noChir (e : Eng) (j : ℤ) (o : Bool) : NoChir (e.swap j (some o)) := by
  unfold Eng.swap NoChir
  cases Labels.toValidIdx j e.numLegs with
  | none => simp
  | some i =>
    simp only
    cases e.legs[i]? with
    | none => simp
    | some x =>
      cases e.legs[i + 1]? with
      | none => simp
      | some y =>
        simp only [chooseOver, Except.bind]
        split_ifs <;> simp

theorem swaps_noChir (e : Eng) (js : List ℕ) (o : Bool) : NoChir (e.swaps (some o) js) := by
  induction js generalizing e with
  | nil => exact NoChir.ok _
  | cons j js ih => exact (swap_noChir e j o).bind fun e' _ => ih e'

theorem moveLeg_noChir (e : Eng) (s g : ℤ) (o : Bool) : NoChir (e.moveLeg s g (some o)) := by
  unfold Eng.moveLeg
  cases Labels.toValidIdx s e.numLegs with
  | none => simp [NoChir]
  | some i =>
    cases Labels.toValidIdx g e.numLegs with
    | none => simp [NoChir]
    | some j =>
      simp only
      split_ifs
      · simp [NoChir]
      · exact swaps_noChir _ _ _
      · exact swaps_noChir _ _ _

theorem bend_noChir (e : Eng) (d : Bool) : NoChir (e.bend d) := by
  unfold Eng.bend NoChir
  simp only
  cases e.legs[if d = true then e.nCod else e.nCod - 1]? with
  | none => simp
  | some l =>
    simp only
    split_ifs <;> simp

theorem bends_noChir (d : Bool) (n : ℕ) (e : Eng) : NoChir (e.bends d n) := by
  induction n generalizing e with
  | zero => exact NoChir.ok _
  | succ n ih => exact (bend_noChir e d).bind fun e' _ => ih e'

theorem codLeftBends_noChir (t n : ℕ) (e : Eng) : NoChir (e.codLeftBends t n) := by
  induction n generalizing e with
  | zero => exact NoChir.ok _
  | succ n ih =>
    exact (moveLeg_noChir _ _ _ _).bind fun e1 _ => (bend_noChir e1 _).bind fun e2 _ =>
      (moveLeg_noChir _ _ _ _).bind fun e3 _ => ih e3

theorem codomainBends_noChir (e : Eng) (l r : ℕ) : NoChir (e.codomainBends l r) :=
  (bends_noChir _ _ _).bind fun _ _ => codLeftBends_noChir _ _ _

theorem domLeftBends_noChir (t n : ℕ) (e : Eng) : NoChir (e.domLeftBends t n) := by
  induction n generalizing e with
  | zero => exact NoChir.ok _
  | succ n ih =>
    exact (moveLeg_noChir _ _ _ _).bind fun e1 _ => (bend_noChir e1 _).bind fun e2 _ =>
      (moveLeg_noChir _ _ _ _).bind fun e3 _ => ih e3

theorem domainBends_noChir (e : Eng) (l r : ℕ) : NoChir (e.domainBends l r) :=
  (bends_noChir _ _ _).bind fun _ _ => domLeftBends_noChir _ _ _

/-- A leg that is moved to its own position. -/
theorem moveLeg_self {e : Eng} {s g : ℤ} {i : ℕ} (hs : Labels.toValidIdx s e.numLegs = some i)
    (hg : Labels.toValidIdx g e.numLegs = some i) (o : Option Bool) : e.moveLeg s g o = .ok e := by
  unfold Eng.moveLeg
  rw [hs, hg]
  simp [Eng.swaps]

/-- The trivial permutation. -/
theorem swapsOf_range (e : Eng) (n : ℕ) : e.swapsOf (List.range n) = .ok e := by
  obtain ⟨js, h1, -, h3⟩ := swaps_path (List.range n) (by simp)
  unfold Eng.swapsOf
  rw [h1]
  cases js with
  | nil => rfl
  | cons j js =>
    exfalso
    obtain ⟨⟨x, y, -, -, h4, h5⟩, -⟩ := h3
    have := before_range h4
    omega

/-- The legs that bend to the left are the first ones. -/
theorem gatherLeft_sorted {e : Eng} {a b : ℕ} (n : ℕ) (h1 : ∀ i, i < a → e.bendAt i = .left)
    (h2 : ∀ i, a ≤ i → i < b → e.bendAt i ≠ .left) (hb : b ≤ e.numLegs) (hn : n ≤ b) :
    e.gatherLeft (List.range' n (b - n)) (min n a) = .ok (e, min b a) := by
  induction hk : b - n generalizing n with
  | zero => rw [show n = b by omega]; rfl
  | succ k ih =>
    rw [List.range'_succ]
    unfold Eng.gatherLeft
    by_cases hna : n < a
    · rw [if_pos (h1 n hna), Nat.min_eq_left hna.le,
        moveLeg_self (i := n) (toValidIdx_nat _ _ (by omega)) (toValidIdx_nat _ _ (by omega))]
      have := ih (n + 1) (by omega) (by omega)
      rw [Nat.min_eq_left (by omega)] at this
      simp only [Except.bind]
      rwa [show k = b - (n + 1) by omega] at this ⊢
    · rw [if_neg (h2 n (by omega) (by omega)), Nat.min_eq_right (by omega)]
      have := ih (n + 1) (by omega) (by omega)
      rw [Nat.min_eq_right (by omega)] at this
      rwa [show k = b - (n + 1) by omega] at this ⊢

/-- The legs that bend to the right are the last ones of the codomain. -/
theorem gatherRight_sorted {e : Eng} {a : ℕ} (m : ℕ) (h1 : ∀ i, a ≤ i → i < e.nCod → e.bendAt i = .right)
    (h2 : ∀ i, i < a → e.bendAt i ≠ .right) (hb : e.nCod ≤ e.numLegs) (ha : a ≤ e.nCod) (hm : m ≤ e.nCod) :
    e.gatherRight (List.range m).reverse (min (e.nCod - m) (e.nCod - a)) = .ok (e, e.nCod - a) := by
  induction m with
  | zero => rw [Nat.min_eq_right (by omega)]; rfl
  | succ m ih =>
    rw [List.range_succ, List.reverse_append]
    simp only [List.reverse_cons, List.reverse_nil, List.nil_append, List.cons_append]
    unfold Eng.gatherRight
    have := ih (by omega)
    by_cases hma : a ≤ m
    · rw [if_pos (h1 m hma (by omega)), Nat.min_eq_left (by omega),
        moveLeg_self (i := m) (toValidIdx_nat _ _ (by omega)) (by
          rw [show (e.nCod : ℤ) - 1 - ((e.nCod - (m + 1) : ℕ) : ℤ) = ((m : ℕ) : ℤ) by omega]
          exact toValidIdx_nat _ _ (by omega))]
      rw [Nat.min_eq_left (by omega), show e.nCod - m = e.nCod - (m + 1) + 1 by omega] at this
      exact this
    · rw [if_neg (h2 m (by omega)), Nat.min_eq_right (by omega)]
      rw [Nat.min_eq_right (by omega)] at this
      exact this

/-- An interval as a filtered range. -/
theorem filter_range {p : ℕ → Bool} {n a b : ℕ} (hb : b ≤ n) (h : ∀ i, i < n → (p i = true ↔ a ≤ i ∧ i < b)) :
    (List.range n).filter p = List.range' a (b - a) := by
  have hs : ((List.range n).filter p).Pairwise (· < ·) := List.pairwise_lt_range.filter _
  have ht : (List.range' a (b - a)).Pairwise (· < ·) := List.pairwise_lt_range'
  refine List.Perm.eq_of_pairwise (le := (· < ·)) (fun x y _ _ h1 h2 => absurd h2 (by omega)) hs ht ?_
  refine (List.perm_ext_iff_of_nodup (List.nodup_range.filter _) List.nodup_range').2 fun i => ?_
  rw [List.mem_filter, List.mem_range, List.mem_range'_1]
  constructor
  · rintro ⟨h1, h2⟩
    have := (h i h1).1 h2
    omega
  · intro h1
    exact ⟨by omega, (h i (by omega)).2 (by omega)⟩

theorem filter_range' {p : ℕ → Bool} {k m a b : ℕ} (ha : k ≤ a) (hb : b ≤ k + m)
    (h : ∀ i, k ≤ i → i < k + m → (p i = true ↔ a ≤ i ∧ i < b)) :
    (List.range' k m).filter p = List.range' a (b - a) := by
  have hs : ((List.range' k m).filter p).Pairwise (· < ·) := List.Pairwise.filter _ List.pairwise_lt_range'
  have ht : (List.range' a (b - a)).Pairwise (· < ·) := List.pairwise_lt_range'
  refine List.Perm.eq_of_pairwise (le := (· < ·)) (fun x y _ _ h1 h2 => absurd h2 (by omega)) hs ht ?_
  refine (List.perm_ext_iff_of_nodup (List.Nodup.filter _ List.nodup_range') List.nodup_range').2 fun i => ?_
  rw [List.mem_filter, List.mem_range'_1, List.mem_range'_1]
  constructor
  · rintro ⟨h1, h2⟩
    have := (h i h1.1 h1.2).1 h2
    omega
  · intro h1
    exact ⟨by omega, (h i (by omega) (by omega)).2 (by omega)⟩

theorem inversePermutation_range (n : ℕ) : inversePermutation (List.range n) = List.range n := by
  apply List.ext_getElem?
  intro i
  by_cases hi : i < n
  · rw [List.getElem?_range hi, inversePermutation_apply (k := i) (by simp) (List.getElem?_range hi)]
  · rw [List.getElem?_eq_none (by rw [length_inversePermutation]; simpa using hi),
      List.getElem?_eq_none (by simpa using hi)]

section
variable {c : Cfg} {e : Eng} {Ls St Rs Rd Sd Ld : List ℕ}

theorem get_part {P M Q : List ℕ} {i x : ℕ} (h : (P ++ M ++ Q)[i]? = some x) (h1 : P.length ≤ i)
    (h2 : i < P.length + M.length) : x ∈ M := by
  rw [List.append_assoc, List.getElem?_append_right h1, List.getElem?_append_left (by omega)] at h
  exact List.mem_of_getElem? h

theorem lookup_lt {L : List ℕ} {i : ℕ} (h : i < L.length) : ∃ x, L[i]? = some x := ⟨L[i], List.getElem?_eq_getElem h⟩

/-- Step 1 does nothing. -/
theorem initialCodomain_planar
    (h : Rel c e (Ls ++ St ++ Rs ++ (Rd ++ Sd ++ Ld)) (Ls.length + St.length + Rs.length))
    (hl : ∀ x ∈ Ls, c.lf x) (hs : ∀ x ∈ St, c.tgt x < c.K) (hr : ∀ x ∈ Rs, c.rt x) :
    e.initialCodomain = .ok (e, Ls.length, Rs.length) := by
  have hN := h.length
  simp only [List.length_append] at hN
  have hnum := h.num
  have hcod := h.cod
  have hL : ∀ i x, i < Ls.length + St.length + Rs.length →
      (Ls ++ St ++ Rs ++ (Rd ++ Sd ++ Ld))[i]? = some x →
      ((c.st (Ls.length + St.length + Rs.length) i x).bend = .left ↔ c.lf x) ∧
      ((c.st (Ls.length + St.length + Rs.length) i x).bend = .right ↔ c.rt x) := by
    intro i x hi hx
    constructor
    · simp [st_left, hi, Cfg.lf]
    · simp [st_right, hi, Cfg.rt]
  have b1 : ∀ i, i < Ls.length → e.bendAt i = .left := by
    intro i hi
    obtain ⟨x, hx⟩ := lookup_lt (L := Ls ++ St ++ Rs ++ (Rd ++ Sd ++ Ld)) (i := i) (by simp; omega)
    rw [h.bendAt hx, (hL i x (by omega) hx).1]
    refine hl x (get_part (P := []) (M := Ls) (Q := St ++ Rs ++ (Rd ++ Sd ++ Ld)) ?_ (by simp) (by simpa using hi))
    simpa using hx
  have b2 : ∀ i, Ls.length ≤ i → i < Ls.length + St.length → e.bendAt i = .none := by
    intro i hi hi'
    obtain ⟨x, hx⟩ := lookup_lt (L := Ls ++ St ++ Rs ++ (Rd ++ Sd ++ Ld)) (i := i) (by simp; omega)
    rw [h.bendAt hx, st_none]
    have := hs x (get_part (P := Ls) (M := St) (Q := Rs ++ (Rd ++ Sd ++ Ld)) (by simpa using hx) hi hi')
    simp [this]; omega
  have b3 : ∀ i, Ls.length + St.length ≤ i → i < Ls.length + St.length + Rs.length → e.bendAt i = .right := by
    intro i hi hi'
    obtain ⟨x, hx⟩ := lookup_lt (L := Ls ++ St ++ Rs ++ (Rd ++ Sd ++ Ld)) (i := i) (by simp; omega)
    rw [h.bendAt hx, (hL i x (by omega) hx).2]
    exact hr x (get_part (P := Ls ++ St) (M := Rs) (Q := (Rd ++ Sd ++ Ld)) (by simpa using hx) (by simpa using hi)
      (by simpa using hi'))
  unfold Eng.initialCodomain
  have g1 := gatherLeft_sorted (e := e) (a := Ls.length) (b := e.nCod) 0 b1 (by
    intro i hi hi'
    by_cases hc : i < Ls.length + St.length
    · rw [b2 i hi hc]; simp
    · rw [b3 i (by omega) (by omega)]; simp) (by omega) (by omega)
  rw [Nat.zero_min, Nat.min_eq_right (by omega), Nat.sub_zero, ← List.range_eq_range'] at g1
  rw [g1]
  have g2 := gatherRight_sorted (e := e) (a := Ls.length + St.length) e.nCod (by
    intro i hi hi'
    exact b3 i hi (by omega)) (by
    intro i hi
    by_cases hc : i < Ls.length
    · rw [b1 i hc]; simp
    · rw [b2 i (by omega) hi]; simp) (by omega) (by omega) le_rfl
  rw [Nat.sub_self, Nat.zero_min, show e.nCod - (Ls.length + St.length) = Rs.length by omega] at g2
  simp only [Except.bind]
  rw [g2]
  rfl

/-- Step 3 does nothing. -/
theorem domainPermutation_planar {M : List ℕ} (h : Rel c e (St ++ Rd ++ M ++ Ld) St.length)
    (hs : ∀ x ∈ St, c.tgt x < c.K) (hr : ∀ x ∈ Rd, c.tgt x < c.K ∧ c.dir x = true) (hm : ∀ x ∈ M, c.K ≤ c.tgt x)
    (hl : ∀ x ∈ Ld, c.tgt x < c.K ∧ c.dir x = false) (hsort : M.Pairwise fun x y => c.tgt x < c.tgt y) :
    e.domainPermutation = .ok (e, Ld.length, Rd.length) := by
  have hN := h.length
  simp only [List.length_append] at hN
  have hnum := h.num
  have hcod := h.cod
  have b1 : ∀ i, i < St.length → e.bendAt i = .none := by
    intro i hi
    obtain ⟨x, hx⟩ := lookup_lt (L := St ++ Rd ++ M ++ Ld) (i := i) (by simp; omega)
    rw [h.bendAt hx, st_none]
    have := hs x (get_part (P := []) (M := St) (Q := Rd ++ M ++ Ld) (by simpa using hx) (by simp) (by simpa using hi))
    simp [this]; omega
  have b2 : ∀ i, St.length ≤ i → i < St.length + Rd.length → e.bendAt i = .right := by
    intro i hi hi'
    obtain ⟨x, hx⟩ := lookup_lt (L := St ++ Rd ++ M ++ Ld) (i := i) (by simp; omega)
    rw [h.bendAt hx, st_right]
    have := hr x (get_part (P := St) (M := Rd) (Q := M ++ Ld) (by simpa using hx) hi hi')
    simp [this]; omega
  have b3 : ∀ i, St.length + Rd.length ≤ i → i < St.length + Rd.length + M.length → e.bendAt i = .none := by
    intro i hi hi'
    obtain ⟨x, hx⟩ := lookup_lt (L := St ++ Rd ++ M ++ Ld) (i := i) (by simp; omega)
    rw [h.bendAt hx, st_none]
    have := hm x (get_part (P := St ++ Rd) (M := M) (Q := Ld) (by simpa using hx) (by simpa using hi) (by simpa using hi'))
    rw [decide_eq_false (by omega), decide_eq_false (by omega)]
  have b4 : ∀ i, St.length + Rd.length + M.length ≤ i → i < c.N → e.bendAt i = .left := by
    intro i hi hi'
    obtain ⟨x, hx⟩ := lookup_lt (L := St ++ Rd ++ M ++ Ld) (i := i) (by simp; omega)
    rw [h.bendAt hx, st_left]
    have := hl x (get_part (P := St ++ Rd ++ M) (M := Ld) (Q := []) (by simpa using hx) (by simpa using by omega)
      (by simp; omega))
    simp [this]; omega
  have cls : ∀ i, i < c.N → (e.bendAt i = .right ↔ St.length ≤ i ∧ i < St.length + Rd.length) ∧
      (e.bendAt i = .left ↔ St.length + Rd.length + M.length ≤ i ∧ i < c.N) ∧
      (St.length ≤ i → (e.bendAt i = .none ↔ St.length + Rd.length ≤ i ∧ i < St.length + Rd.length + M.length)) := by
    intro i hi
    by_cases c1 : i < St.length
    · rw [b1 i c1]; simp; omega
    by_cases c2 : i < St.length + Rd.length
    · rw [b2 i (by omega) c2]; simp; omega
    by_cases c3 : i < St.length + Rd.length + M.length
    · rw [b3 i (by omega) c3]; simp; omega
    · rw [b4 i (by omega) hi]; simp; omega
  have er : e.bending .right = List.range' St.length Rd.length := by
    unfold Eng.bending
    rw [hnum, filter_range (a := St.length) (b := St.length + Rd.length) (by omega)]
    · rw [Nat.add_sub_cancel_left]
    · intro i hi
      rw [decide_eq_true_eq]; exact (cls i hi).1
  have el : e.bending .left = List.range' (St.length + Rd.length + M.length) Ld.length := by
    unfold Eng.bending
    rw [hnum, filter_range (a := St.length + Rd.length + M.length) (b := c.N) le_rfl]
    · congr 1; omega
    · intro i hi
      rw [decide_eq_true_eq]; exact (cls i hi).2.1
  have em : ((List.range' e.nCod (e.numLegs - e.nCod)).filter fun i => e.bendAt i = .none) =
      List.range' (St.length + Rd.length) M.length := by
    rw [hnum, hcod, filter_range' (a := St.length + Rd.length) (b := St.length + Rd.length + M.length) (by omega)
      (by omega)]
    · rw [Nat.add_sub_cancel_left]
    · intro i hi hi'
      rw [decide_eq_true_eq]; exact (cls i (by omega)).2.2 hi
  have hperm : e.domainPerm = List.range c.N := by
    unfold Eng.domainPerm
    rw [em, er, el, List.Pairwise.insertionSort_eq, hcod, List.range_eq_range', List.range_eq_range']
    · rw [show List.range' 0 St.length ++ List.range' St.length Rd.length = List.range' 0 (St.length + Rd.length) by
          simpa using List.range'_append_1 (s := 0) (m := St.length) (n := Rd.length),
        show List.range' 0 (St.length + Rd.length) ++ List.range' (St.length + Rd.length) M.length =
            List.range' 0 (St.length + Rd.length + M.length) by
          simpa using List.range'_append_1 (s := 0) (m := St.length + Rd.length) (n := M.length),
        show List.range' 0 (St.length + Rd.length + M.length) ++
            List.range' (St.length + Rd.length + M.length) Ld.length =
            List.range' 0 (St.length + Rd.length + M.length + Ld.length) by
          simpa using List.range'_append_1 (s := 0) (m := St.length + Rd.length + M.length) (n := Ld.length), hN]
    · rw [List.pairwise_iff_getElem]
      intro i j hi hj hij
      simp only [List.length_range'] at hi hj
      rw [List.getElem_range', List.getElem_range', Nat.one_mul, Nat.one_mul]
      have hi' : (St ++ Rd ++ M ++ Ld)[St.length + Rd.length + i]? = some M[i] := by
        rw [List.append_assoc, List.getElem?_append_right (by simp), List.getElem?_append_left (by simp; omega)]
        simp [List.getElem?_eq_getElem hi]
      have hj' : (St ++ Rd ++ M ++ Ld)[St.length + Rd.length + j]? = some M[j] := by
        rw [List.append_assoc, List.getElem?_append_right (by simp), List.getElem?_append_left (by simp; omega)]
        simp [List.getElem?_eq_getElem hj]
      rw [h.targetAt hi', h.targetAt hj']
      exact (List.pairwise_iff_getElem.1 hsort i j hi hj hij).le
  unfold Eng.domainPermutation
  rw [hperm, swapsOf_range, er, el]
  simp [Except.map]

/-- No chirality has to be specified. -/
theorem evaluate_planar (hN : List.range c.N = Ls ++ St ++ Rs ++ (Rd ++ Sd ++ Ld))
    (hk : c.k0 = Ls.length + St.length + Rs.length) (h : Rel c e (List.range c.N) c.k0)
    (hT : (Ld ++ St ++ Rd ++ (Rs ++ Sd ++ Ls)).map c.tgt = List.range c.N)
    (hK : c.K = Ld.length + St.length + Rd.length)
    (hl : ∀ x ∈ Ls, c.dir x = false) (hr : ∀ x ∈ Rs, c.dir x = true)
    (hld : ∀ x ∈ Ld, c.dir x = false) (hrd : ∀ x ∈ Rd, c.dir x = true)
    (e1 : Rs = [] ∨ Rd = []) (e2 : Ls = [] ∨ Ld = []) : NoChir e.evaluate := by
  have hlen := congrArg List.length hT
  simp only [List.length_map, List.length_append, List.length_range] at hlen
  have tC : (Ld ++ St ++ Rd).map c.tgt = List.range c.K := by
    rw [List.map_append, range_split (show c.K ≤ c.N by omega)] at hT
    exact (List.append_inj hT (by simp; omega)).1
  have tD : (Rs ++ Sd ++ Ls).map c.tgt = List.range' c.K (c.N - c.K) := by
    rw [List.map_append, range_split (show c.K ≤ c.N by omega)] at hT
    exact (List.append_inj hT (by simp; omega)).2
  have hC : ∀ x ∈ Ld ++ St ++ Rd, c.tgt x < c.K := fun x hx => by
    have := List.mem_map_of_mem (f := c.tgt) hx
    rw [tC] at this
    simpa using this
  have hD : ∀ x ∈ Rs ++ Sd ++ Ls, c.K ≤ c.tgt x := fun x hx => by
    have := List.mem_map_of_mem (f := c.tgt) hx
    rw [tD, List.mem_range'_1] at this
    exact this.1
  have hsort : (Rs ++ Sd ++ Ls).Pairwise fun x y => c.tgt x < c.tgt y := by
    have := (List.pairwise_lt_range' (s := c.K) (n := c.N - c.K) (step := 1))
    rw [← tD, List.pairwise_map] at this
    exact this
  rw [hN, hk] at h
  have hlf : ∀ x ∈ Ls, c.lf x := fun x hx => ⟨hD x (by simp [hx]), hl x hx⟩
  have hrt : ∀ x ∈ Rs, c.rt x := fun x hx => ⟨hD x (by simp [hx]), hr x hx⟩
  have hst : ∀ x ∈ St, c.tgt x < c.K := fun x hx => hC x (by simp [hx])
  unfold Eng.evaluate
  rw [initialCodomain_planar h hlf hst hrt]
  simp only [Except.bind]
  change NoChir ((e.codomainBends Ls.length Rs.length).bind _)
  obtain ⟨r2, hr2, h2⟩ := (codomainBends_noChir e Ls.length Rs.length).post (codomainBends_spec Ls St Rs _ e hlf hrt h)
  rw [hr2]
  change NoChir (r2.domainPermutation.bind _)
  have h3 : Rel c r2 (St ++ Rd ++ (Rs ++ Sd ++ Ls) ++ Ld) St.length := by
    have : St ++ (Rs ++ (Rd ++ Sd ++ Ld) ++ Ls) = St ++ Rd ++ (Rs ++ Sd ++ Ls) ++ Ld := by
      rcases e1 with rfl | rfl <;> rcases e2 with rfl | rfl <;> simp
    rw [← this]; exact h2
  rw [domainPermutation_planar h3 hst (fun x hx => ⟨hC x (by simp [hx]), hrd x hx⟩) hD
    (fun x hx => ⟨hC x (by simp [hx]), hld x hx⟩) hsort]
  change NoChir ((r2.domainBends Ld.length Rd.length).bind _)
  obtain ⟨r4, hr4, h4⟩ := (domainBends_noChir r2 Ld.length Rd.length).post
    (domainBends_spec St Rd (Rs ++ Sd ++ Ls) Ld r2 (fun x hx => hC x (by simp [hx]))
      (fun x hx => ⟨hC x (by simp [hx]), hld x hx⟩) h3)
  rw [hr4]
  change NoChir (r4.finalCodomain.bind _)
  have hfin : (List.range r4.nCod).map r4.targetAt = List.range c.K := by
    rw [h4.cod, ← hK]
    refine Eq.trans ?_ tC
    apply List.ext_getElem
    · simp; omega
    · intro i hi hi'
      simp only [List.length_map, List.length_range] at hi hi'
      rw [List.getElem_map, List.getElem_map, List.getElem_range]
      refine h4.targetAt ?_
      rw [List.getElem?_append_left hi', List.getElem?_eq_getElem hi']
  unfold Eng.finalCodomain
  rw [hfin, inversePermutation_range, swapsOf_range]
  change NoChir (if r4.done = true then Except.ok r4.instrs else Except.error Err.other)
  split_ifs <;> simp [NoChir]

end

end Cyten.Permute
