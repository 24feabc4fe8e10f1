import Verif.Props.PermuteEngine

/-! # Permutations within the codomain and the domain need no bends -/

namespace Cyten.Permute
open Cyten.Permute.Spec Cyten.Tools

/-- An instruction that is a braid -/
def Instr.isBraid : Instr → Bool
  | .braid _ _ _ => true
  | _ => false

/-- No leg has to bend, and there are only braids. -/
structure NoBend (e : Eng) : Prop where
  legs : ∀ l ∈ e.legs, l.bend = .none
  instrs : ∀ i ∈ e.instrs, i.isBraid = true

theorem swap_noBend {e e' : Eng} {idx : ℤ} {o : Option Bool} (h : NoBend e) (hs : e.swap idx o = .ok e') :
    NoBend e' := by
  unfold Eng.swap at hs
  rcases h1 : Labels.toValidIdx idx e.numLegs with _ | i
  · rw [h1] at hs; cases hs
  rw [h1] at hs
  simp only at hs
  rcases h2 : e.legs[i]? with _ | x
  · rw [h2] at hs; cases hs
  rcases h3 : e.legs[i + 1]? with _ | y
  · rw [h2, h3] at hs; cases hs
  rw [h2, h3] at hs
  simp only at hs
  rcases h4 : chooseOver e.sym o x.level y.level with err | ov
  · rw [h4] at hs; cases hs
  rw [h4] at hs
  have hl : ∀ l ∈ swapNext e.legs i, l.bend = .none := by
    intro l hl
    rw [swapNext_eq] at hl
    exact h.legs l ((swapAdj_perm e.legs i).mem_iff.1 hl)
  have hi : ∀ c j, ∀ x ∈ e.instrs ++ [Instr.braid c j ov], x.isBraid = true := by
    intro c j x hx
    rcases List.mem_append.1 hx with hx | hx
    · exact h.instrs x hx
    · obtain rfl := List.mem_singleton.1 hx; rfl
  simp only [Except.bind] at hs
  by_cases hc : i < e.nCod
  · rw [if_pos hc] at hs
    by_cases hc' : i + 1 < e.nCod
    · rw [if_pos hc'] at hs
      obtain rfl := Except.ok.inj hs
      exact ⟨hl, hi _ _⟩
    · rw [if_neg hc'] at hs; cases hs
  · rw [if_neg hc] at hs
    obtain rfl := Except.ok.inj hs
    exact ⟨hl, hi _ _⟩

theorem swaps_noBend {o : Option Bool} (js : List ℕ) {e e' : Eng} (h : NoBend e) (hs : e.swaps o js = .ok e') :
    NoBend e' := by
  induction js generalizing e with
  | nil => obtain rfl := Except.ok.inj hs; exact h
  | cons j js ih =>
    unfold Eng.swaps at hs
    rcases h1 : e.swap j o with err | e1
    · rw [h1] at hs; cases hs
    · rw [h1] at hs
      exact ih (swap_noBend h h1) hs

theorem swapsOf_noBend {perm : List ℕ} {e e' : Eng} (h : NoBend e) (hs : e.swapsOf perm = .ok e') : NoBend e' := by
  unfold Eng.swapsOf at hs
  rcases h1 : permutationAsSwaps perm with _ | js
  · rw [h1] at hs; cases hs
  · rw [h1] at hs
    exact swaps_noBend js h hs

theorem NoBend.at {e : Eng} (h : NoBend e) (i : ℕ) : e.bendAt i = .none := by
  unfold Eng.bendAt
  rcases h1 : e.legs[i]? with _ | l
  · rfl
  · exact h.legs l (List.mem_of_getElem? h1)

theorem gatherLeft_noBend (l : List ℕ) {e : Eng} (h : NoBend e) (n : ℕ) : e.gatherLeft l n = .ok (e, n) := by
  induction l with
  | nil => rfl
  | cons i l ih => unfold Eng.gatherLeft; rw [if_neg (by rw [h.at i]; simp), ih]

theorem gatherRight_noBend (l : List ℕ) {e : Eng} (h : NoBend e) (n : ℕ) : e.gatherRight l n = .ok (e, n) := by
  induction l with
  | nil => rfl
  | cons i l ih => unfold Eng.gatherRight; rw [if_neg (by rw [h.at i]; simp), ih]

theorem evaluate_noBend {e : Eng} (h : NoBend e) {is : List Instr} (he : e.evaluate = .ok is) :
    ∀ i ∈ is, i.isBraid = true := by
  unfold Eng.evaluate at he
  have h1 : e.initialCodomain = .ok (e, 0, 0) := by
    unfold Eng.initialCodomain
    rw [gatherLeft_noBend _ h]
    simp only [Except.bind]
    rw [gatherRight_noBend _ h]; rfl
  rw [h1] at he
  have h2 : e.codomainBends 0 0 = .ok e := rfl
  simp only [Except.bind] at he
  rw [h2] at he
  simp only at he
  have hb : ∀ {e : Eng}, NoBend e → ∀ b, b ≠ Bend.none → e.bending b = [] := by
    intro e h b hb
    unfold Eng.bending
    rw [List.filter_eq_nil_iff]
    intro i _
    rw [h.at i]
    simpa using fun h => hb h.symm
  unfold Eng.domainPermutation at he
  rcases h3 : e.swapsOf e.domainPerm with err | e1
  · rw [h3] at he; cases he
  rw [h3, hb h .left (by decide), hb h .right (by decide)] at he
  have h4 : e1.domainBends 0 0 = .ok e1 := rfl
  simp only [Except.map, List.length_nil] at he
  rw [h4] at he
  simp only at he
  rcases h5 : e1.finalCodomain with err | e2
  · rw [h5] at he; cases he
  rw [h5] at he
  simp only at he
  by_cases hd : e2.done
  · rw [if_pos hd] at he
    obtain rfl := Except.ok.inj he
    exact (swapsOf_noBend (swapsOf_noBend h h3) h5).instrs
  · rw [if_neg hd] at he; cases he

theorem initGen_noBend {br : List (Option Bool)} {new : ℕ → ℕ} {bends : ℕ → Bool} (l : List ℕ)
    (hb : ∀ x ∈ l, bends x = false) {legs legs' : List LegSt} {n : ℕ} (h : ∀ x ∈ legs, x.bend = .none)
    (hi : Cyten.Props.initGen br new bends legs n l = .ok legs') : ∀ x ∈ legs', x.bend = .none := by
  induction l generalizing legs n with
  | nil => obtain rfl := Except.ok.inj hi; exact h
  | cons o l ih =>
    unfold Cyten.Props.initGen initLeg at hi
    rcases h1 : legs[o]? with _ | x
    · rw [h1] at hi; cases hi
    rw [h1] at hi
    simp only [hb o List.mem_cons_self, Bool.false_eq_true, if_false, Except.bind] at hi
    refine ih (fun y hy => hb y (List.mem_cons_of_mem _ hy)) (fun y hy => ?_) hi
    rcases List.mem_or_eq_of_mem_set hy with hy | rfl
    · exact h y hy
    · exact h x (List.mem_of_getElem? h1)

theorem initDom_noBend {nCod N : ℕ} {br : List (Option Bool)} (l : List ℕ) (hb : ∀ x ∈ l, nCod ≤ x)
    {legs legs' : List LegSt} {n : ℕ} (h : ∀ x ∈ legs, x.bend = .none)
    (hi : initDom nCod N br legs n l = .ok legs') : ∀ x ∈ legs', x.bend = .none := by
  induction l generalizing legs n with
  | nil => obtain rfl := Except.ok.inj hi; exact h
  | cons o l ih =>
    unfold initDom initLeg at hi
    rcases h1 : legs[o]? with _ | x
    · rw [h1] at hi; cases hi
    have hno : ¬ o < nCod := by have := hb o List.mem_cons_self; omega
    rw [h1] at hi
    simp only [hno, decide_false, Bool.false_eq_true, if_false, Except.bind] at hi
    refine ih (fun y hy => hb y (List.mem_cons_of_mem _ hy)) (fun y hy => ?_) hi
    rcases List.mem_or_eq_of_mem_set hy with hy | rfl
    · exact h y hy
    · exact h x (List.mem_of_getElem? h1)

/-- If no leg changes between codomain and domain, then there are only braids. -/
theorem instructions_noBend {nCod nDom : ℕ} {cod dom : List ℕ} {levels : List (Option ℤ)} {br : List (Option Bool)}
    {sym : Bool} (hc : ∀ x ∈ cod, x < nCod) (hd : ∀ x ∈ dom, nCod ≤ x) {is : List Instr}
    (h : instructions nCod nDom cod dom levels br sym = .ok is) : ∀ i ∈ is, i.isBraid = true := by
  unfold instructions at h
  rcases hm : Eng.make nCod nDom cod dom levels br sym with err | e
  · rw [hm] at h; cases h
  rw [hm] at h
  refine evaluate_noBend ?_ h
  unfold Eng.make at hm
  simp only at hm
  rw [Cyten.Props.initCod_eq] at hm
  rcases h1 : Cyten.Props.initGen br id (fun o => decide (nCod ≤ o))
    ((List.range (nCod + nDom)).map fun i => (⟨none, .none, (levels[i]?).join⟩ : LegSt)) 0 cod with err | l1
  · rw [h1] at hm; cases hm
  rw [h1] at hm
  simp only [Except.bind] at hm
  rcases h2 : initDom nCod (nCod + nDom) br l1 0 dom with err | l2
  · rw [h2] at hm; cases hm
  rw [h2] at hm
  simp only [Except.map, Except.ok.injEq] at hm
  subst hm
  refine ⟨initDom_noBend dom hd (initGen_noBend cod (fun x hx => ?_) (fun x hx => ?_) h1) h2, by simp⟩
  · simpa using hc x hx
  · obtain ⟨i, -, rfl⟩ := List.mem_map.1 hx; rfl

end Cyten.Permute
