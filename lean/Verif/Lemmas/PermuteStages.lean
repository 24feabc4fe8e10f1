import Verif.Lemmas.PermuteRel

/-! # The five steps of the computation of the instructions of a permutation of legs -/

namespace Cyten.Permute
open Cyten.Tools

variable {c : Cfg}

theorem Rel.bendAt {e : Eng} {L : List ℕ} {k : ℕ} (h : Rel c e L k) {i x : ℕ} (hx : L[i]? = some x) :
    e.bendAt i = (c.st k i x).bend := by
  unfold Eng.bendAt
  rw [h.legs i x hx]
  rfl

theorem Rel.targetAt {e : Eng} {L : List ℕ} {k : ℕ} (h : Rel c e L k) {i x : ℕ} (hx : L[i]? = some x) :
    e.targetAt i = c.tgt x := by
  unfold Eng.targetAt
  rw [h.legs i x hx]
  rfl

theorem st_left {k i x : ℕ} : (c.st k i x).bend = .left ↔
    decide (i < k) ≠ decide (c.tgt x < c.K) ∧ c.dir x = false := by
  simp only [Cfg.st]
  split_ifs with h1 h2 <;> simp_all

theorem st_right {k i x : ℕ} : (c.st k i x).bend = .right ↔
    decide (i < k) ≠ decide (c.tgt x < c.K) ∧ c.dir x = true := by
  simp only [Cfg.st]
  split_ifs with h1 h2 <;> simp_all

theorem st_none {k i x : ℕ} : (c.st k i x).bend = .none ↔ decide (i < k) = decide (c.tgt x < c.K) := by
  simp only [Cfg.st]
  split_ifs with h1 h2 <;> simp_all

/-- A leg of the codomain that bends to the left. -/
abbrev Cfg.lf (c : Cfg) (x : ℕ) : Prop := c.K ≤ c.tgt x ∧ c.dir x = false
/-- A leg of the codomain that bends to the right. -/
abbrev Cfg.rt (c : Cfg) (x : ℕ) : Prop := c.K ≤ c.tgt x ∧ c.dir x = true

theorem gatherLeft_spec {k : ℕ} (R S1 S2 B : List ℕ) (e : Eng) (h : Rel c e (S1 ++ S2 ++ R ++ B) k)
    (hk : k = S1.length + S2.length + R.length) :
    Post c (e.gatherLeft (List.range' (S1.length + S2.length) R.length) S1.length) fun r =>
      r.2 = (S1 ++ R.filter c.lf).length ∧
      Rel c r.1 ((S1 ++ R.filter c.lf) ++ (S2 ++ R.filter (fun x => ¬ c.lf x)) ++ B) k := by
  induction R generalizing S1 S2 e with
  | nil => exact Post.ok rfl (by simpa using h)
  | cons x R ih =>
    rw [List.length_cons, List.range'_succ]
    unfold Eng.gatherLeft
    have hx : (S1 ++ S2 ++ x :: R ++ B)[S1.length + S2.length]? = some x := by
      rw [List.append_assoc, List.getElem?_append_right (by simp)]; simp
    rw [h.bendAt hx]
    have hlt : S1.length + S2.length < k := by simp at hk; omega
    have hcond : (c.st k (S1.length + S2.length) x).bend = .left ↔ c.lf x := by
      simp [st_left, hlt, Cfg.lf]
    by_cases hl : c.lf x
    · rw [if_pos (hcond.2 hl)]
      have hN := h.length
      simp only [List.length_append, List.length_cons] at hN hk
      have h' : Rel c e (S1 ++ S2 ++ x :: (R ++ B)) k := by simpa using h
      have hm := h'.moveLeft (over := none) (Or.inl hlt) ((S1.length + S2.length : ℕ) : ℤ) (S1.length : ℤ)
        (toValidIdx_nat _ _ (by omega)) (toValidIdx_nat _ _ (by omega))
        fun hn => absurd (hn x) (by simp [hl.2])
      refine hm.bind fun e' he' => ?_
      have h2 := ih (S1 ++ [x]) S2 e' (by simpa using he') (by simp; omega)
      simp only [List.length_append, List.length_singleton] at h2
      rw [show S1.length + 1 + S2.length = S1.length + S2.length + 1 by omega] at h2
      refine h2.mono fun r hr => ?_
      rw [List.filter_cons_of_pos (by simp only [decide_eq_true_eq, not_not]; exact hl),
        List.filter_cons_of_neg (by simp only [decide_eq_true_eq, not_not]; exact hl)]
      refine ⟨by rw [hr.1]; simp; omega, by simpa using hr.2⟩
    · rw [if_neg (mt hcond.1 hl)]
      have h2 := ih S1 (S2 ++ [x]) e (by simpa using h) (by simp at hk ⊢; omega)
      rw [List.length_append, List.length_singleton, ← Nat.add_assoc] at h2
      refine h2.mono fun r hr => ?_
      rw [List.filter_cons_of_neg (by simp only [decide_eq_true_eq, not_not]; exact hl),
        List.filter_cons_of_pos (by simp only [decide_eq_true_eq, not_not]; exact hl)]
      exact ⟨hr.1, by simpa using hr.2⟩

theorem gatherRight_spec {k : ℕ} (R S1 S2 B : List ℕ) (e : Eng) (h : Rel c e (R ++ S2 ++ S1 ++ B) k)
    (hk : k = R.length + S2.length + S1.length) (h2 : c.NoLeft → ∀ m ∈ S2, c.tgt m < c.K) :
    Post c (e.gatherRight (List.range R.length).reverse S1.length) fun r =>
      r.2 = (R.filter c.rt ++ S1).length ∧
      Rel c r.1 ((R.filter (fun x => ¬ c.rt x) ++ S2) ++ (R.filter c.rt ++ S1) ++ B) k := by
  induction R using List.reverseRecOn generalizing S1 S2 e with
  | nil => exact Post.ok rfl (by simpa using h)
  | append_singleton R x ih =>
    rw [List.length_append, List.length_singleton, List.range_succ, List.reverse_append, List.reverse_singleton,
      List.singleton_append]
    unfold Eng.gatherRight
    have hx : (R ++ [x] ++ S2 ++ S1 ++ B)[R.length]? = some x := by simp
    rw [h.bendAt hx]
    have hlt : R.length < k := by simp at hk; omega
    have hcond : (c.st k R.length x).bend = .right ↔ c.rt x := by
      simp [st_right, hlt, Cfg.rt]
    by_cases hl : c.rt x
    · rw [if_pos (hcond.2 hl)]
      have hN := h.length
      simp only [List.length_append, List.length_singleton] at hN hk
      have h' : Rel c e (R ++ x :: (S2 ++ (S1 ++ B))) k := by simpa using h
      have hm := h'.moveRight (over := none) (Or.inl (by omega)) (R.length : ℤ)
        ((e.nCod : ℤ) - 1 - (S1.length : ℕ)) (toValidIdx_nat _ _ (by omega))
        (by rw [h.cod, show (k : ℤ) - 1 - (S1.length : ℕ) = ((R.length + S2.length : ℕ) : ℤ) by omega]
            exact toValidIdx_nat _ _ (by omega))
        fun hn => ⟨rfl, fun m hm => lt_of_lt_of_le (h2 hn m hm) hl.1⟩
      refine hm.bind fun e' he' => ?_
      have h3 := ih (x :: S1) S2 e' (by simpa using he') (by simp; omega) h2
      rw [List.length_cons] at h3
      refine h3.mono fun r hr => ?_
      simp only [List.length_append, List.length_cons] at hr
      rw [List.filter_append, List.filter_append, List.filter_cons_of_pos (by simp only [decide_eq_true_eq, not_not]; exact hl),
        List.filter_cons_of_neg (by simp only [decide_eq_true_eq, not_not]; exact hl)]
      refine ⟨by rw [hr.1]; simp, by simpa using hr.2⟩
    · rw [if_neg (mt hcond.1 hl)]
      have h3 := ih S1 (x :: S2) e (by simpa using h) (by simp at hk ⊢; omega) fun hn m hm => by
        rcases List.mem_cons.1 hm with rfl | hm
        · by_contra hc
          exact hl ⟨by omega, hn m⟩
        · exact h2 hn m hm
      refine h3.mono fun r hr => ?_
      rw [List.filter_append, List.filter_append, List.filter_cons_of_neg (by simp only [decide_eq_true_eq, not_not]; exact hl),
        List.filter_cons_of_pos (by simp only [decide_eq_true_eq, not_not]; exact hl)]
      exact ⟨by simpa using hr.1, by simpa using hr.2⟩

/-- Step 1: the codomain is in the order: bend to the left, stay, bend to the right. -/
theorem initialCodomain_spec (A B : List ℕ) (e : Eng) (h : Rel c e (A ++ B) A.length) :
    Post c e.initialCodomain fun r => ∃ Ls St Rs, r.2.1 = Ls.length ∧ r.2.2 = Rs.length ∧
      (∀ x ∈ Ls, c.lf x) ∧ (∀ x ∈ St, c.tgt x < c.K) ∧ (∀ x ∈ Rs, c.rt x) ∧
      Rel c r.1 (Ls ++ St ++ Rs ++ B) (Ls.length + St.length + Rs.length) := by
  unfold Eng.initialCodomain
  have h1 := gatherLeft_spec A [] [] B e (by simpa using h) (by simp)
  simp only [List.length_nil, Nat.add_zero, List.nil_append] at h1
  rw [h.cod, List.range_eq_range']
  refine h1.bind fun r hr => ?_
  have hk : A.length = (A.filter c.lf).length + (A.filter fun x => ¬ c.lf x).length := by
    have := List.length_eq_length_filter_add (l := A) (fun x => decide (c.lf x))
    simpa using this
  have h2 := gatherRight_spec (A.filter c.lf ++ A.filter fun x => ¬ c.lf x) [] [] B r.1
    (by simpa using hr.2) (by simpa using hk) (by simp)
  rw [List.length_append, ← hk, ← hr.2.cod] at h2
  refine h2.map fun r' hr' => ?_
  have hf : (A.filter c.lf).filter (fun x => ¬ c.rt x) = A.filter c.lf := by
    rw [List.filter_eq_self]
    intro x hx
    simp only [List.mem_filter, decide_eq_true_eq] at hx
    simp [Cfg.rt, hx.2.2]
  have hf' : (A.filter c.lf).filter c.rt = [] := by
    rw [List.filter_eq_nil_iff]
    intro x hx
    simp only [List.mem_filter, decide_eq_true_eq] at hx
    simp [Cfg.rt, hx.2.2]
  obtain ⟨h3, h4⟩ := hr'
  rw [List.filter_append, List.filter_append, hf, hf'] at h4
  rw [List.filter_append, hf'] at h3
  refine ⟨A.filter c.lf, (A.filter fun x => ¬ c.lf x).filter fun x => ¬ c.rt x,
    (A.filter fun x => ¬ c.lf x).filter c.rt, hr.1, by simpa using h3, ?_, ?_, ?_, ?_⟩
  · intro x hx; simpa using (List.mem_filter.1 hx).2
  · intro x hx
    simp only [List.mem_filter, decide_eq_true_eq] at hx
    obtain ⟨⟨-, h5⟩, h6⟩ := hx
    by_contra hc
    cases hd : c.dir x
    · exact h5 ⟨by omega, hd⟩
    · exact h6 ⟨by omega, hd⟩
  · intro x hx; simpa using (List.mem_filter.1 hx).2
  · have : (A.filter c.lf).length + ((A.filter fun x => ¬ c.lf x).filter fun x => ¬ c.rt x).length +
        ((A.filter fun x => ¬ c.lf x).filter c.rt).length = A.length := by
      have := List.length_eq_length_filter_add (l := A.filter fun x => ¬ c.lf x) (fun x => decide (c.rt x))
      simp only [decide_not] at this hk ⊢
      omega
    rw [this]
    rw [hr.2.cod] at h4
    simpa using h4

theorem bendsUp_spec (n : ℕ) {k : ℕ} {e : Eng} {L : List ℕ} (h : Rel c e L (k + n))
    (ht : ∀ i x : ℕ, k ≤ i → i < k + n → L[i]? = some x → c.K ≤ c.tgt x) :
    Post c (e.bends false n) fun e' => Rel c e' L k := by
  induction n generalizing e with
  | zero => exact Post.ok rfl h
  | succ n ih =>
    unfold Eng.bends
    have hl : k + n < L.length := by rw [h.length]; have := h.le; omega
    refine (Rel.bendUp (k := k + n) h (List.getElem?_eq_getElem hl)
      (ht _ _ (by omega) (by omega) (List.getElem?_eq_getElem hl))).bind fun e' he' => ?_
    exact ih he' fun i x h1 h2 => ht i x h1 (by omega)

theorem bendsDown_spec (n : ℕ) {k : ℕ} {e : Eng} {L : List ℕ} (h : Rel c e L k) (hn : k + n ≤ c.N)
    (ht : ∀ i x : ℕ, k ≤ i → i < k + n → L[i]? = some x → c.tgt x < c.K) :
    Post c (e.bends true n) fun e' => Rel c e' L (k + n) := by
  induction n generalizing e k with
  | zero => exact Post.ok rfl h
  | succ n ih =>
    unfold Eng.bends
    have hl : k < L.length := by rw [h.length]; omega
    refine (h.bendDown (List.getElem?_eq_getElem hl)
      (ht _ _ (by omega) (by omega) (List.getElem?_eq_getElem hl))).bind fun e' he' => ?_
    rw [show k + (n + 1) = k + 1 + n by omega]
    exact ih he' (by omega) fun i x h1 h2 => ht i x (by omega) (by omega)

theorem codLeftBends_spec (total : ℕ) (Ls St D T : List ℕ) (e : Eng)
    (h : Rel c e (Ls ++ St ++ D ++ T) (Ls.length + St.length)) (hT : T.length + Ls.length = total)
    (hl : ∀ x ∈ Ls, c.lf x) :
    Post c (e.codLeftBends total Ls.length) fun e' => Rel c e' (St ++ D ++ (Ls ++ T)) St.length := by
  induction Ls using List.reverseRecOn generalizing T e with
  | nil => exact Post.ok rfl (by simpa using h)
  | append_singleton Ls x ih =>
    rw [List.length_append, List.length_singleton]
    unfold Eng.codLeftBends
    have hx := hl x (by simp)
    have hno : ¬ c.NoLeft := fun hn => by simpa [hx.2] using hn x
    have hN := h.length
    simp only [List.length_append, List.length_singleton] at hN hT h
    have h1 : Rel c e (Ls ++ x :: (St ++ (D ++ T))) (Ls.length + 1 + St.length) := by simpa using h
    refine (h1.moveRight (over := some true) (Or.inl (by omega)) (Ls.length : ℤ) ((e.nCod : ℤ) - 1)
      (toValidIdx_nat _ _ (by omega)) (by
        rw [h.cod, show ((Ls.length + 1 + St.length : ℕ) : ℤ) - 1 = ((Ls.length + St.length : ℕ) : ℤ) by omega]
        exact toValidIdx_nat _ _ (by omega)) fun hn => absurd hn hno).bind fun e1 he1 => ?_
    rw [show Ls.length + 1 + St.length = Ls.length + St.length + 1 by omega] at he1
    refine (he1.bendUp (x := x) (by rw [List.getElem?_append_right (by simp)]; simp) hx.1).bind fun e2 he2 => ?_
    refine (he2.moveRight (over := some true) (M := D) (Q := T) (P := Ls ++ St) (Or.inr (by simp)) (e2.nCod : ℤ)
      ((Ls.length : ℤ) - total) (by
        rw [he2.cod, List.length_append]; exact toValidIdx_nat _ _ (by omega)) (by
        refine toValidIdx_neg _ _ _ ?_ ?_
        · rw [List.length_append]; omega
        · rw [List.length_append]; omega) fun hn => absurd hn hno).bind fun e3 he3 => ?_
    have h4 := ih (x :: T) e3 (by simpa using he3) (by simp; omega) fun y hy => hl y (by simp [hy])
    refine h4.mono fun e4 he4 => ?_
    simpa using he4

/-- Step 2: the legs of the codomain that change sides are in the domain. -/
theorem codomainBends_spec (Ls St Rs B : List ℕ) (e : Eng) (hl : ∀ x ∈ Ls, c.lf x) (hr : ∀ x ∈ Rs, c.rt x)
    (h : Rel c e (Ls ++ St ++ Rs ++ B) (Ls.length + St.length + Rs.length)) :
    Post c (e.codomainBends Ls.length Rs.length) fun e' => Rel c e' (St ++ (Rs ++ B ++ Ls)) St.length := by
  unfold Eng.codomainBends
  refine (bendsUp_spec Rs.length h ?_).bind fun e1 he1 => ?_
  · intro i x h1 h2 hx
    have : x ∈ Rs := by
      rw [List.append_assoc, List.getElem?_append_right (by simpa using h1), List.length_append,
        List.getElem?_append_left (by omega)] at hx
      exact List.mem_of_getElem? hx
    exact (hr x this).1
  · have h2 := he1.twist (n := Ls.length) true true (by simp)
    refine (codLeftBends_spec Ls.length Ls St (Rs ++ B) [] _ (by simpa using h2) (by simp) hl).mono fun e' he' => ?_
    simpa using he'

theorem domLeftBends_spec (total : ℕ) (Lf C St X : List ℕ) (e : Eng)
    (h : Rel c e (X ++ C ++ St ++ Lf) (X.length + C.length)) (hX : X.length + Lf.length = total)
    (hl : ∀ x ∈ Lf, c.tgt x < c.K ∧ c.dir x = false) :
    Post c (e.domLeftBends total Lf.length) fun e' =>
      Rel c e' (X ++ Lf ++ C ++ St) (X.length + Lf.length + C.length) := by
  induction Lf generalizing X e with
  | nil => exact Post.ok rfl (by simpa using h)
  | cons x Lf ih =>
    rw [List.length_cons]
    unfold Eng.domLeftBends
    have hx := hl x (by simp)
    have hno : ¬ c.NoLeft := fun hn => by simpa [hx.2] using hn x
    have hN := h.length
    simp only [List.length_append, List.length_cons] at hN hX
    have h1 : Rel c e ((X ++ C) ++ St ++ x :: Lf) (X.length + C.length) := by simpa using h
    refine (h1.moveLeft (over := some true) (Or.inr (by simp)) (-1 - (Lf.length : ℤ)) (e.nCod : ℤ)
      (toValidIdx_neg _ _ _ (by rw [List.length_append]; omega) (by rw [List.length_append]; omega)) (by
        rw [h.cod, List.length_append]
        exact toValidIdx_nat _ _ (by omega)) fun hn => absurd hn hno).bind fun e1 he1 => ?_
    refine (he1.bendDown (x := x) (by rw [List.getElem?_append_right (by simp)]; simp) hx.1).bind fun e2 he2 => ?_
    have he2' : Rel c e2 (X ++ C ++ x :: (St ++ Lf)) (X.length + C.length + 1) := he2
    refine (he2'.moveLeft (over := some true) (Or.inl (by omega)) ((e2.nCod : ℤ) - 1)
      ((total : ℤ) - 1 - (Lf.length : ℤ)) (by
        rw [he2.cod, show ((X.length + C.length + 1 : ℕ) : ℤ) - 1 = ((X.length + C.length : ℕ) : ℤ) by omega]
        exact toValidIdx_nat _ _ (by omega)) (by
        rw [show (total : ℤ) - 1 - (Lf.length : ℤ) = ((X.length : ℕ) : ℤ) by omega]
        exact toValidIdx_nat _ _ (by omega)) fun hn => absurd hn hno).bind fun e3 he3 => ?_
    have h4 := ih (X ++ [x]) e3 (by
      rw [List.length_append, List.length_singleton, show X.length + 1 + C.length = X.length + C.length + 1 by omega]
      simpa using he3) (by simp; omega) fun y hy => hl y (by simp [hy])
    refine h4.mono fun e4 he4 => ?_
    rw [List.length_append, List.length_singleton] at he4
    rw [show X.length + (Lf.length + 1) + C.length = X.length + 1 + Lf.length + C.length by omega]
    simpa using he4

/-- Step 4: the legs of the domain that change sides are in the codomain. -/
theorem domainBends_spec (S Rs St Lf : List ℕ) (e : Eng) (hr : ∀ x ∈ Rs, c.tgt x < c.K)
    (hl : ∀ x ∈ Lf, c.tgt x < c.K ∧ c.dir x = false) (h : Rel c e (S ++ Rs ++ St ++ Lf) S.length) :
    Post c (e.domainBends Lf.length Rs.length) fun e' =>
      Rel c e' (Lf ++ S ++ Rs ++ St) (Lf.length + S.length + Rs.length) := by
  unfold Eng.domainBends
  have hN := h.length
  simp only [List.length_append] at hN
  refine (bendsDown_spec Rs.length h (by omega) ?_).bind fun e1 he1 => ?_
  · intro i x h1 h2 hx
    have : x ∈ Rs := by
      rw [List.append_assoc, List.append_assoc, List.getElem?_append_right (by simpa using h1),
        List.getElem?_append_left (by omega)] at hx
      exact List.mem_of_getElem? hx
    exact hr x this
  · have h2 := he1.twist (n := Lf.length) false false (by simp; omega)
    refine (domLeftBends_spec Lf.length Lf (S ++ Rs) St [] _ (by simpa using h2) (by simp) hl).mono
      fun e' he' => ?_
    rw [List.length_nil, Nat.zero_add, List.length_append, ← Nat.add_assoc] at he'
    simpa using he'

end Cyten.Permute
