import Verif.Lemmas.PermuteStages2

/-!
# C71: the instructions of a permutation of legs

A tensor with `nCod` legs in the codomain and `nDom` in the domain; the legs are numbered in the order of
`tensor.legs` (codomain from left to right, then domain from right to left).  `cod`, `dom`: the legs of the new
codomain and of the new domain, each from left to right, so that the result has the legs
`cod ++ dom.reverse`.
-/

namespace Cyten.Permute.Spec

/-- The order of the legs of the result. -/
def newLegs (cod dom : List ℕ) : List ℕ := cod ++ dom.reverse

/-- The leg `x` changes between codomain and domain. -/
def Bends (nCod : ℕ) (cod dom : List ℕ) (x : ℕ) : Prop := (x < nCod ∧ x ∈ dom) ∨ (nCod ≤ x ∧ x ∈ cod)

/-- Inputs of `permute_legs`: each leg occurs exactly once, and for a leg that bends the direction is given. -/
structure Valid (nCod nDom : ℕ) (cod dom : List ℕ) (bendRight : List (Option Bool)) : Prop where
  perm : (cod ++ dom).Perm (List.range (nCod + nDom))
  bends : ∀ x, Bends nCod cod dom x → ∃ b, bendRight[x]? = some (some b)

/-- The level of a leg, if there is one. -/
def levelOf (levels : List (Option ℤ)) (x : ℕ) : Option ℤ := (levels[x]?).join

/-- The leg `x` is before the leg `y` and ends up after it. -/
def Reversed (cod dom : List ℕ) (x y : ℕ) : Prop :=
  x < y ∧ (newLegs cod dom).idxOf y < (newLegs cod dom).idxOf x

end Cyten.Permute.Spec

namespace Cyten.Props
open Cyten.Permute Cyten.Permute.Spec Cyten.Tools

/-! ## The constructor -/

/-- The constant data. -/
def cfgOf (nCod nDom : ℕ) (cod dom : List ℕ) (levels : List (Option ℤ)) (bendRight : List (Option Bool))
    (sym : Bool) : Cfg where
  N := nCod + nDom
  k0 := nCod
  K := cod.length
  sym := sym
  tgt := fun x => (newLegs cod dom).idxOf x
  dir := fun x => if decide (x < nCod) = decide ((newLegs cod dom).idxOf x < cod.length) then true
    else bendRight[x]? == some (some true)
  lev := levelOf levels

/-- The loops of the constructor, for arbitrary new positions. -/
def initGen (bendRight : List (Option Bool)) (new : ℕ → ℕ) (bends : ℕ → Bool) :
    List LegSt → ℕ → List ℕ → Except Err (List LegSt)
  | legs, _, [] => .ok legs
  | legs, n, old :: rest => (initLeg bendRight legs old (new n) (bends old)).bind fun legs' =>
      initGen bendRight new bends legs' (n + 1) rest

theorem initCod_eq (nCod : ℕ) (br : List (Option Bool)) (legs : List LegSt) (n : ℕ) (l : List ℕ) :
    initCod nCod br legs n l = initGen br id (fun o => decide (nCod ≤ o)) legs n l := by
  induction l generalizing legs n with
  | nil => rfl
  | cons o l ih => simp only [initCod, initGen, ih, id]

theorem initDom_eq (nCod N : ℕ) (br : List (Option Bool)) (legs : List LegSt) (n : ℕ) (l : List ℕ) :
    initDom nCod N br legs n l = initGen br (fun n => N - 1 - n) (fun o => decide (o < nCod)) legs n l := by
  induction l generalizing legs n with
  | nil => rfl
  | cons o l ih => simp only [initDom, initGen, ih]

theorem initGen_spec (br : List (Option Bool)) (new : ℕ → ℕ) (bends : ℕ → Bool) (lev : ℕ → Option ℤ)
    (l : List ℕ) (legs : List LegSt) (n : ℕ) (hl : ∀ x ∈ l, legs[x]? = some ⟨none, .none, lev x⟩)
    (hnd : l.Nodup) (hb : ∀ x ∈ l, bends x = true → ∃ b, br[x]? = some (some b)) :
    ∃ legs', initGen br new bends legs n l = .ok legs' ∧ legs'.length = legs.length ∧
      (∀ x, x ∉ l → legs'[x]? = legs[x]?) ∧
      ∀ i x : ℕ, l[i]? = some x → legs'[x]? = some ⟨some (new (n + i)),
        if bends x then (if br[x]? == some (some true) then .right else .left) else .none, lev x⟩ := by
  induction l generalizing legs n with
  | nil => exact ⟨legs, rfl, rfl, fun _ _ => rfl, by simp⟩
  | cons o l ih =>
    have ho := hl o List.mem_cons_self
    have holt : o < legs.length := (List.getElem?_eq_some_iff.1 ho).1
    obtain ⟨hnd1, hnd2⟩ := List.nodup_cons.1 hnd
    have h1 : initLeg br legs o (new n) (bends o) = .ok (legs.set o ⟨some (new n),
        if bends o then (if br[o]? == some (some true) then .right else .left) else .none, lev o⟩) := by
      unfold initLeg
      rw [ho]
      simp only
      cases hbo : bends o with
      | false => rfl
      | true =>
        obtain ⟨b, hb'⟩ := hb o List.mem_cons_self hbo
        rw [hb']
        cases b <;> rfl
    obtain ⟨legs', h2, h3, h4, h5⟩ := ih (legs.set o ⟨some (new n),
        if bends o then (if br[o]? == some (some true) then .right else .left) else .none, lev o⟩) (n + 1)
      (fun x hx => by
        rw [List.getElem?_set_ne (by rintro rfl; exact hnd1 hx)]
        exact hl x (List.mem_cons_of_mem _ hx)) hnd2
      (fun x hx => hb x (List.mem_cons_of_mem _ hx))
    refine ⟨legs', ?_, by simpa using h3, ?_, ?_⟩
    · unfold initGen
      rw [h1]
      exact h2
    · intro x hx
      rw [List.mem_cons, not_or] at hx
      rw [h4 x hx.2, List.getElem?_set_ne (by exact fun h => hx.1 h.symm)]
    · intro i x hi
      cases i with
      | zero =>
        simp only [List.getElem?_cons_zero, Option.some.injEq] at hi
        subst hi
        rw [h4 o hnd1, List.getElem?_set_self holt]
        rfl
      | succ i =>
        rw [List.getElem?_cons_succ] at hi
        rw [h5 i x hi, show n + 1 + i = n + (i + 1) by omega]

theorem idxOf_legs {l : List ℕ} (h : l.Nodup) {i x : ℕ} (hi : l[i]? = some x) : l.idxOf x = i := by
  obtain ⟨h1, h2⟩ := List.getElem?_eq_some_iff.1 hi
  rw [← h2]
  exact List.Nodup.idxOf_getElem h _ _

theorem newLegs_perm {nCod nDom : ℕ} {cod dom : List ℕ} (h : (cod ++ dom).Perm (List.range (nCod + nDom))) :
    (newLegs cod dom).Perm (List.range (nCod + nDom)) :=
  (List.Perm.append_left _ (List.reverse_perm dom)).trans h

section
variable {nCod nDom : ℕ} {cod dom : List ℕ} {levels : List (Option ℤ)} {br : List (Option Bool)} {sym : Bool}

theorem make_spec (h : Valid nCod nDom cod dom br) :
    ∃ e, Eng.make nCod nDom cod dom levels br sym = .ok e ∧
      Rel (cfgOf nCod nDom cod dom levels br sym) e (List.range (nCod + nDom)) nCod := by
  have hp := newLegs_perm h.perm
  have hnd : (newLegs cod dom).Nodup := hp.nodup_iff.2 List.nodup_range
  have hnd0 : (cod ++ dom).Nodup := h.perm.nodup_iff.2 List.nodup_range
  have hlen : cod.length + dom.length = nCod + nDom := by simpa using h.perm.length_eq
  obtain ⟨hn1, hn2, hn3⟩ := List.nodup_append.1 hnd0
  have hlt : ∀ x ∈ cod ++ dom, x < nCod + nDom := fun x hx => by simpa using h.perm.mem_iff.1 hx
  have hidC : ∀ i x : ℕ, cod[i]? = some x → (newLegs cod dom).idxOf x = i := fun i x hi =>
    idxOf_legs hnd (by
      unfold newLegs
      rw [List.getElem?_append_left (List.getElem?_eq_some_iff.1 hi).1]; exact hi)
  have hidD : ∀ i x : ℕ, dom[i]? = some x → (newLegs cod dom).idxOf x = nCod + nDom - 1 - i := fun i x hi =>
    idxOf_legs hnd (by
      have hil := (List.getElem?_eq_some_iff.1 hi).1
      unfold newLegs
      rw [List.getElem?_append_right (by omega), List.getElem?_reverse (by omega)]
      rw [show dom.length - 1 - (nCod + nDom - 1 - i - cod.length) = i by omega]
      exact hi)
  set legs0 := (List.range (nCod + nDom)).map fun i => (⟨none, .none, (levels[i]?).join⟩ : LegSt) with hlegs0
  have h0 : ∀ x, x < nCod + nDom → legs0[x]? = some ⟨none, .none, levelOf levels x⟩ := by
    intro x hx
    rw [hlegs0, List.getElem?_map, List.getElem?_range hx]; rfl
  obtain ⟨legs1, h1, h1l, h1n, h1s⟩ := initGen_spec br id (fun o => decide (nCod ≤ o)) (levelOf levels) cod legs0 0
    (fun x hx => h0 x (hlt x (by simp [hx]))) hn1
    (fun x hx hb => h.bends x (Or.inr ⟨by simpa using hb, hx⟩))
  obtain ⟨legs2, h2, h2l, h2n, h2s⟩ := initGen_spec br (fun n => nCod + nDom - 1 - n) (fun o => decide (o < nCod))
    (levelOf levels) dom legs1 0
    (fun x hx => by
      rw [h1n x (fun hc => hn3 x hc x hx rfl)]
      exact h0 x (hlt x (by simp [hx]))) hn2
    (fun x hx hb => h.bends x (Or.inl ⟨by simpa using hb, hx⟩))
  refine ⟨⟨nCod + nDom, sym, nCod, nDom, legs2, []⟩, ?_, ?_⟩
  · unfold Eng.make
    simp only
    rw [← hlegs0, initCod_eq, h1]
    simp only [Except.bind]
    rw [initDom_eq, h2]
    rfl
  · refine ⟨rfl, rfl, rfl, by simp [cfgOf], by simp [cfgOf], List.Perm.refl _, ?_, ?_, ?_⟩
    · show legs2.length = nCod + nDom
      rw [h2l, h1l, hlegs0]; simp
    · intro i x hx
      obtain ⟨hi, hix⟩ := List.getElem?_eq_some_iff.1 hx
      simp only [List.length_range] at hi
      rw [List.getElem_range] at hix
      subst hix
      show legs2[i]? = _
      rcases List.mem_append.1 (h.perm.mem_iff.2 (show i ∈ List.range (nCod + nDom) by simpa using hi)) with hm | hm
      · obtain ⟨j, hj, hji⟩ := List.getElem_of_mem hm
        have hj' : cod[j]? = some i := by rw [List.getElem?_eq_getElem hj, hji]
        have hid := hidC j i hj'
        rw [h2n i (fun hc => hn3 i hm i hc rfl), h1s j i hj']
        simp only [Cfg.st, cfgOf, hid, id, Nat.zero_add, hj]
        by_cases hc : i < nCod
        · simp [hc]
        · have : nCod ≤ i := by omega
          simp [hc, this]
      · obtain ⟨j, hj, hji⟩ := List.getElem_of_mem hm
        have hj' : dom[j]? = some i := by rw [List.getElem?_eq_getElem hj, hji]
        have hid := hidD j i hj'
        rw [h2s j i hj']
        have hno : ¬ nCod + nDom - 1 - j < cod.length := by omega
        simp only [Cfg.st, cfgOf, hid, Nat.zero_add, hno]
        by_cases hc : i < nCod
        · simp [hc]
        · simp [hc]
    · refine ⟨[], ?_, by simp⟩
      simp only [cfgOf, execute, initialLegs, Option.some.injEq, Prod.mk.injEq, and_true]
      refine ⟨?_, ?_⟩
      · rw [List.take_range, Nat.min_eq_left (by omega)]
      · rw [range_split (show nCod ≤ nCod + nDom by omega), List.drop_left' (by simp)]

theorem evaluate_spec {c : Cfg} {e : Eng} (h : Rel c e (List.range c.N) c.k0) (hK : c.K ≤ c.N)
    (ht : ((List.range c.N).map c.tgt).Perm (List.range c.N)) :
    Post c e.evaluate fun is => ∃ (L : List ℕ) (tr : List (ℕ × ℕ × Bool)), L.map c.tgt = List.range c.N ∧ L.Perm (List.range c.N) ∧
      execute is (initialLegs c.k0 (c.N - c.k0)) = some ((L.take c.K, (L.drop c.K).reverse), tr) ∧
      (c.NoLeft → ∀ q ∈ tr, c.Cr q) := by
  have hinj : ∀ x y, x < c.N → y < c.N → c.tgt x = c.tgt y → x = y := by
    intro x y hx hy hxy
    have hnd : ((List.range c.N).map c.tgt).Nodup := ht.nodup_iff.2 List.nodup_range
    exact List.inj_on_of_nodup_map hnd (by simpa using hx) (by simpa using hy) hxy
  unfold Eng.evaluate
  have h1 := initialCodomain_spec (List.range c.k0) (List.range' c.k0 (c.N - c.k0)) e
    (by rw [← range_split h.le, List.length_range]; exact h)
  refine h1.bind ?_
  rintro r ⟨Ls, St, Rs, e1, e2, hl, hs, hr, h2⟩
  rw [e1, e2]
  refine (codomainBends_spec Ls St Rs _ _ hl hr h2).bind fun r2 h3 => ?_
  refine (domainPermutation_spec St _ r2 h3 hs hinj).bind ?_
  rintro r3 ⟨Rs', St', Lf, e3, e4, hr', hst', hlf, hsort, h4⟩
  rw [e3, e4]
  refine (domainBends_spec St Rs' St' Lf r3.1 hr' hlf h4).bind fun r4 h5 => ?_
  have h5' : Rel c r4 ((Lf ++ St ++ Rs') ++ St') (Lf ++ St ++ Rs').length := by
    rw [List.length_append, List.length_append]; exact h5
  refine (finalCodomain_spec _ St' r4 h5' ?_ hst' hsort hK ht).bind ?_
  · intro x hx
    simp only [List.mem_append] at hx
    rcases hx with (hx | hx) | hx
    · exact (hlf x hx).1
    · exact hs x hx
    · exact hr' x hx
  · rintro r5 ⟨hd, L, hL, h6⟩
    rw [if_pos hd]
    obtain ⟨tr, h7, h8⟩ := h6.run
    exact Post.ok rfl ⟨L, tr, hL, h6.perm, h7, h8⟩

theorem tgt_perm (h : Valid nCod nDom cod dom br) :
    ((List.range (nCod + nDom)).map fun x => (newLegs cod dom).idxOf x).Perm (List.range (nCod + nDom)) := by
  have hp := newLegs_perm h.perm
  have hnd : (newLegs cod dom).Nodup := hp.nodup_iff.2 List.nodup_range
  have hlen : (newLegs cod dom).length = nCod + nDom := by simpa using hp.length_eq
  refine (hp.symm.map _).trans ?_
  rw [← hlen]
  refine List.Perm.of_eq ?_
  apply List.ext_getElem?
  intro i
  rw [List.getElem?_map]
  by_cases hi : i < (newLegs cod dom).length
  · rw [List.getElem?_range hi, List.getElem?_eq_getElem hi, Option.map_some, List.Nodup.idxOf_getElem hnd]
  · rw [List.getElem?_eq_none (by simpa using hi), List.getElem?_eq_none (by simpa using hi)]; rfl

/-- The complete result. -/
theorem instructions_spec (h : Valid nCod nDom cod dom br) :
    Post (cfgOf nCod nDom cod dom levels br sym) (instructions nCod nDom cod dom levels br sym) fun is =>
      ∃ tr, execute is (initialLegs nCod nDom) = some ((cod, dom), tr) ∧
        ((cfgOf nCod nDom cod dom levels br sym).NoLeft → ∀ q ∈ tr, (cfgOf nCod nDom cod dom levels br sym).Cr q) := by
  obtain ⟨e, he, hrel⟩ := make_spec (levels := levels) (sym := sym) h
  have hlen : cod.length + dom.length = nCod + nDom := by simpa using h.perm.length_eq
  unfold instructions
  rw [he]
  show Post _ e.evaluate _
  refine (evaluate_spec (c := cfgOf nCod nDom cod dom levels br sym) hrel (by simp only [cfgOf]; omega)
    (tgt_perm h)).mono ?_
  rintro is ⟨L, tr, hL, hLp, h1, h2⟩
  have hF := newLegs_perm h.perm
  have hnd : (newLegs cod dom).Nodup := hF.nodup_iff.2 List.nodup_range
  have hFl : (newLegs cod dom).length = nCod + nDom := by simpa using hF.length_eq
  have hLl : L.length = nCod + nDom := by simpa [cfgOf] using hLp.length_eq
  have hLF : L = newLegs cod dom := by
    apply List.ext_getElem
    · omega
    · intro i hi hi'
      have h3 := congrArg (fun l => l[i]?) hL
      simp only [List.getElem?_map, cfgOf] at h3
      rw [List.getElem?_range (by omega), List.getElem?_eq_getElem hi] at h3
      simp only [Option.map_some, Option.some.injEq] at h3
      have hm : L[i] ∈ newLegs cod dom := hF.mem_iff.2 (hLp.mem_iff.1 (List.getElem_mem hi))
      have h4 := List.getElem_idxOf (List.idxOf_lt_length_of_mem hm)
      rw [← h4]
      simp only [h3]
  refine ⟨tr, ?_, h2⟩
  simp only [cfgOf, Nat.add_sub_cancel_left] at h1
  rw [h1, hLF]
  simp [newLegs]

/-! ## Crossings -/

/-- The order of all legs. -/
def whole (s : List ℕ × List ℕ) : List ℕ := s.1 ++ s.2.reverse

@[simp] theorem whole_mk (c d : List ℕ) : whole (c, d) = c ++ d.reverse := rfl

theorem apply_spec {i : Instr} {s : List ℕ × List ℕ} {r : (List ℕ × List ℕ) × Option (ℕ × ℕ × Bool)}
    (h : i.apply s = some r) :
    (r.2 = none ∧ whole r.1 = whole s) ∨
    ∃ x y o P Q, r.2 = some (x, y, o) ∧ whole s = P ++ x :: y :: Q ∧ whole r.1 = P ++ y :: x :: Q := by
  obtain ⟨c, d⟩ := s
  cases i with
  | braid cod i o =>
    cases cod with
    | true =>
      simp only [Instr.apply] at h
      cases hx : c[i]? with
      | none => rw [hx] at h; simp at h
      | some x =>
        cases hy : c[i + 1]? with
        | none => rw [hx, hy] at h; simp at h
        | some y =>
          rw [hx, hy] at h
          simp only [Option.some.injEq] at h
          subst h
          obtain ⟨P, Q, rfl, rfl⟩ := split_two hx hy
          refine Or.inr ⟨x, y, o, P, Q ++ d.reverse, rfl, by simp, ?_⟩
          simp only [swapNext_eq, swapAdj_mid]
          simp
    | false =>
      simp only [Instr.apply] at h
      cases hx : d[i]? with
      | none => rw [hx] at h; simp at h
      | some x =>
        cases hy : d[i + 1]? with
        | none => rw [hx, hy] at h; simp at h
        | some y =>
          rw [hx, hy] at h
          simp only [Option.some.injEq] at h
          subst h
          obtain ⟨P, Q, rfl, rfl⟩ := split_two hx hy
          refine Or.inr ⟨y, x, o, c ++ Q.reverse, P.reverse, rfl, by simp, ?_⟩
          simp only [swapNext_eq, swapAdj_mid]
          simp
  | bend down =>
    left
    cases down with
    | true =>
      simp only [Instr.apply, Option.map_eq_some_iff] at h
      obtain ⟨x, hx, rfl⟩ := h
      refine ⟨rfl, ?_⟩
      obtain ⟨d', rfl⟩ := List.getLast?_eq_some_iff.1 hx
      simp
    | false =>
      simp only [Instr.apply, Option.map_eq_some_iff] at h
      obtain ⟨x, hx, rfl⟩ := h
      refine ⟨rfl, ?_⟩
      obtain ⟨c', rfl⟩ := List.getLast?_eq_some_iff.1 hx
      simp
  | twist cod idcs o =>
    left
    simp only [Instr.apply] at h
    split_ifs at h
    all_goals
      simp only [Option.some.injEq] at h
      subst h
      exact ⟨rfl, rfl⟩

/-- If all crossings go in one direction (`G`), then each pair crosses at most once, and the pairs that cross are
those whose order changes. -/
theorem crossings {G : ℕ → ℕ → Prop} (hG : ∀ x y, G x y → ¬ G y x) (is : List Instr) (s s' : List ℕ × List ℕ)
    (tr : List (ℕ × ℕ × Bool)) (hs : (whole s).Nodup) (h : execute is s = some (s', tr))
    (ht : ∀ q ∈ tr, G q.1 q.2.1) :
    (tr.map fun q => (q.1, q.2.1)).Nodup ∧
    ∀ x y, G x y → ((x, y) ∈ (tr.map fun q => (q.1, q.2.1)) ↔ Before (whole s) x y ∧ ¬ Before (whole s') x y) ∧
      (Before (whole s') x y → Before (whole s) x y) := by
  induction is generalizing s tr with
  | nil =>
    simp only [execute, Option.some.injEq, Prod.mk.injEq] at h
    obtain ⟨rfl, rfl⟩ := h
    simp
  | cons i is ih =>
    simp only [execute, Option.bind_eq_some_iff, Option.map_eq_some_iff] at h
    obtain ⟨r, hr, p, hp, he⟩ := h
    obtain ⟨p1, p2⟩ := p
    simp only [Prod.mk.injEq] at he
    obtain ⟨rfl, rfl⟩ := he
    rcases apply_spec hr with ⟨h1, h2⟩ | ⟨a, b, o, P, Q, h1, h2, h3⟩
    · rw [h1] at ht ⊢
      simp only [Option.toList_none, List.nil_append] at ht ⊢
      have := ih r.1 p2 (by rw [h2]; exact hs) hp ht
      rw [h2] at this
      exact this
    · rw [h1] at ht ⊢
      simp only [Option.toList_some, List.singleton_append, List.mem_cons, forall_eq_or_imp, List.map_cons] at ht ⊢
      have hsw : whole r.1 = swapAdj (whole s) P.length := by rw [h2, h3, swapAdj_mid]
      have hn1 : (whole r.1).Nodup := by rw [hsw]; exact (swapAdj_perm _ _).nodup_iff.2 hs
      obtain ⟨i1, i2⟩ := ih r.1 p2 hn1 hp ht.2
      have ha : (whole s)[P.length]? = some a := by rw [h2]; simp
      have hb : (whole s)[P.length + 1]? = some b := by
        rw [h2, List.getElem?_append_right (by omega)]; simp
      have hB := before_swapAdj hs ha hb
      rw [← hsw] at hB
      have hab : G a b := ht.1
      have hne : a ≠ b := fun hc => by
        have := getElem?_inj hs ha (hc ▸ hb)
        omega
      have hnab : ¬ Before (whole r.1) a b := by
        rw [hB]
        rintro (⟨-, h4⟩ | ⟨h4, -⟩)
        · exact h4 ⟨rfl, rfl⟩
        · exact hne h4
      have hsab : Before (whole s) a b := ⟨_, _, by omega, ha, hb⟩
      have hstep : ∀ x y, G x y → (Before (whole s) x y ↔ Before (whole r.1) x y ∨ (x = a ∧ y = b)) := by
        intro x y hxy
        rw [hB]
        constructor
        · intro h4
          by_cases h5 : x = a ∧ y = b
          · exact Or.inr h5
          · exact Or.inl (Or.inl ⟨h4, h5⟩)
        · rintro ((h4 | ⟨rfl, rfl⟩) | ⟨rfl, rfl⟩)
          · exact h4.1
          · exact absurd hxy (hG _ _ hab)
          · exact hsab
      refine ⟨List.nodup_cons.2 ⟨fun hm => hnab ((i2 a b hab).1.1 hm).1, i1⟩, fun x y hxy => ⟨?_, ?_⟩⟩
      · rw [(i2 x y hxy).1, hstep x y hxy, Prod.mk.injEq]
        constructor
        · rintro (⟨rfl, rfl⟩ | ⟨h4, h5⟩)
          · exact ⟨Or.inr ⟨rfl, rfl⟩, fun hc => hnab ((i2 _ _ hxy).2 hc)⟩
          · exact ⟨Or.inl h4, h5⟩
        · rintro ⟨h4 | h4, h5⟩
          · exact Or.inr ⟨h4, h5⟩
          · exact Or.inl h4
      · intro h4
        exact (hstep x y hxy).2 (Or.inl ((i2 x y hxy).2 h4))

/-! ## The theorems -/

/-- **C71**: the engine succeeds, or it complains that a chirality is not specified; in the first case the
instructions are executable (the indices of the braids and twists are valid, a leg can be bent) and bring
exactly the requested legs into the requested order.  The complaint requires a braid that is not symmetric and
two legs without or with equal levels. -/
theorem C71_permute_instructions (h : Valid nCod nDom cod dom br) :
    (∃ is tr, instructions nCod nDom cod dom levels br sym = .ok is ∧
      execute is (initialLegs nCod nDom) = some ((cod, dom), tr)) ∨
    (instructions nCod nDom cod dom levels br sym = .error .chirality ∧ sym = false ∧
      ∃ x y, x < nCod + nDom ∧ y < nCod + nDom ∧ x ≠ y ∧
        (levelOf levels x = none ∨ levelOf levels y = none ∨ levelOf levels x = levelOf levels y)) := by
  rcases instructions_spec (levels := levels) (sym := sym) h with ⟨is, h1, tr, h2, -⟩ | ⟨h1, h2⟩
  · exact Or.inl ⟨is, tr, h1, h2⟩
  · exact Or.inr ⟨h1, h2⟩

/-- **C71**: with a symmetric braid no levels are needed. -/
theorem C71_symmetric_braid (h : Valid nCod nDom cod dom br) :
    ∃ is tr, instructions nCod nDom cod dom levels br true = .ok is ∧
      execute is (initialLegs nCod nDom) = some ((cod, dom), tr) := by
  rcases C71_permute_instructions (levels := levels) (sym := true) h with h1 | ⟨-, h1, -⟩
  · exact h1
  · cases h1

/-- **C71**: with different levels the engine always succeeds. -/
theorem C71_levels (h : Valid nCod nDom cod dom br)
    (hl : ∀ x, x < nCod + nDom → ∃ a, levelOf levels x = some a)
    (hd : ∀ x y, x < nCod + nDom → y < nCod + nDom → levelOf levels x = levelOf levels y → x = y) :
    ∃ is tr, instructions nCod nDom cod dom levels br sym = .ok is ∧
      execute is (initialLegs nCod nDom) = some ((cod, dom), tr) := by
  rcases C71_permute_instructions (levels := levels) (sym := sym) h with h1 | ⟨-, -, x, y, hx, hy, hxy, h2⟩
  · exact h1
  · obtain ⟨a, ha⟩ := hl x hx
    obtain ⟨b, hb⟩ := hl y hy
    rcases h2 with h2 | h2 | h2
    · rw [ha] at h2; cases h2
    · rw [hb] at h2; cases h2
    · exact absurd (hd x y hx hy h2) hxy

/-- **C71**: if no leg bends to the left, then two legs cross exactly if the permutation reverses their order, and
exactly once; in this crossing the left leg goes over the right one iff it has the larger level (always, if the
braid is symmetric). -/
theorem C71_crossings (h : Valid nCod nDom cod dom br)
    (hr : ∀ x, Bends nCod cod dom x → br[x]? = some (some true)) (is : List Instr)
    (hi : instructions nCod nDom cod dom levels br sym = .ok is) :
    ∃ tr, execute is (initialLegs nCod nDom) = some ((cod, dom), tr) ∧
      (tr.map fun q => (q.1, q.2.1)).Nodup ∧
      (∀ x y, (∃ o, (x, y, o) ∈ tr) ↔ y < nCod + nDom ∧ Reversed cod dom x y) ∧
      ∀ x y o, (x, y, o) ∈ tr → (sym = true → o = true) ∧ (sym = false →
        ∃ a b, levelOf levels x = some a ∧ levelOf levels y = some b ∧ a ≠ b ∧ (o = true ↔ b < a)) := by
  rcases instructions_spec (levels := levels) (sym := sym) h with ⟨is', h1, tr, h2, h3⟩ | ⟨h1, -⟩
  swap
  · rw [hi] at h1; cases h1
  rw [hi] at h1
  obtain rfl : is = is' := by injection h1
  have hF := newLegs_perm h.perm
  have hnd : (newLegs cod dom).Nodup := hF.nodup_iff.2 List.nodup_range
  have hlen : (newLegs cod dom).length = nCod + nDom := by simpa using hF.length_eq
  have hno : (cfgOf nCod nDom cod dom levels br sym).NoLeft := by
    intro x
    simp only [cfgOf]
    by_cases hb : decide (x < nCod) = decide ((newLegs cod dom).idxOf x < cod.length)
    · rw [if_pos hb]
    · rw [if_neg hb, beq_iff_eq]
      apply hr
      by_cases hx : x < nCod
      · left
        refine ⟨hx, ?_⟩
        have hm : x ∈ newLegs cod dom := hF.mem_iff.2 (by simp; omega)
        rcases List.mem_append.1 hm with hm' | hm'
        · exfalso
          apply hb
          have : (newLegs cod dom).idxOf x < cod.length := by
            unfold newLegs
            rw [List.idxOf_append_of_mem hm']
            exact List.idxOf_lt_length_of_mem hm'
          simp [hx, this]
        · simpa using hm'
      · right
        refine ⟨by omega, ?_⟩
        have h4 : (newLegs cod dom).idxOf x < cod.length := by simpa [hx] using hb
        by_contra hm
        unfold newLegs at h4
        rw [List.idxOf_append_of_notMem hm] at h4
        omega
  have h3' := h3 hno
  have hG : ∀ q ∈ tr, (newLegs cod dom).idxOf q.2.1 < (newLegs cod dom).idxOf q.1 := fun q hq => (h3' q hq).2
  have hw : whole (initialLegs nCod nDom) = List.range (nCod + nDom) := by
    simp only [initialLegs, whole_mk, List.reverse_reverse]
    rw [range_split (show nCod ≤ nCod + nDom by omega), Nat.add_sub_cancel_left]
  obtain ⟨c1, c2⟩ := crossings (G := fun x y => (newLegs cod dom).idxOf y < (newLegs cod dom).idxOf x)
    (fun x y h4 h5 => by omega) is _ _ tr (by rw [hw]; exact List.nodup_range) h2 hG
  have hmem : ∀ x y, (x, y) ∈ (tr.map fun q => (q.1, q.2.1)) ↔ ∃ o, (x, y, o) ∈ tr := by
    intro x y
    simp
  refine ⟨tr, h2, c1, fun x y => ?_, fun x y o hq => ?_⟩
  · rw [← hmem]
    constructor
    · intro hm
      obtain ⟨o, ho⟩ := (hmem x y).1 hm
      have h4 := hG _ ho
      have h5 := ((c2 x y h4).1.1 hm).1
      rw [hw] at h5
      refine ⟨?_, before_range h5, h4⟩
      obtain ⟨i, j, -, -, hj⟩ := h5
      simpa using List.mem_of_getElem? hj
    · rintro ⟨hy, hxy, h4⟩
      refine (c2 x y h4).1.2 ⟨?_, ?_⟩
      · rw [hw]
        exact ⟨x, y, hxy, List.getElem?_range (by omega), List.getElem?_range hy⟩
      · rintro ⟨i, j, hij, hi', hj⟩
        have e1 := idxOf_legs hnd hi'
        have e2 := idxOf_legs hnd hj
        have h4 : (newLegs cod dom).idxOf y < (newLegs cod dom).idxOf x := h4
        omega
  · have h4 : compareLevels sym (levelOf levels x) (levelOf levels y) = .ok o := (h3' _ hq).1
    unfold compareLevels at h4
    constructor
    · intro hs
      rw [if_pos hs] at h4
      injection h4 with h4
      exact h4.symm
    · intro hs
      rw [if_neg (by simp [hs])] at h4
      cases hx : levelOf levels x with
      | none => rw [hx] at h4; cases h4
      | some a =>
        cases hy : levelOf levels y with
        | none => rw [hx, hy] at h4; cases h4
        | some b =>
          rw [hx, hy] at h4
          simp only at h4
          split_ifs at h4 with hab
          refine ⟨a, b, rfl, rfl, hab, ?_⟩
          injection h4 with h4
          rw [← h4, decide_eq_true_eq]

/-- **C71**: two neighbouring legs on different sides of the boundary between the codomain and the domain are never
exchanged: the call raises. -/
theorem C71_swap_boundary (e : Eng) (k : ℕ) (h : e.nCod = k + 1) (over : Option Bool) :
    ∃ err, e.swap k over = .error err := by
  unfold Eng.swap
  rcases h1 : Labels.toValidIdx (k : ℤ) e.numLegs with _ | i
  · exact ⟨_, rfl⟩
  have hi : i = k := by
    unfold Labels.toValidIdx at h1
    split_ifs at h1 <;> simp at h1 <;> omega
  subst hi
  simp only
  rcases e.legs[i]? with _ | x
  · exact ⟨_, rfl⟩
  rcases e.legs[i + 1]? with _ | y
  · exact ⟨_, rfl⟩
  simp only
  rcases chooseOver e.sym over x.level y.level with er | o
  · exact ⟨er, rfl⟩
  refine ⟨.other, ?_⟩
  simp only [Except.bind]
  rw [if_pos (by omega), if_neg (by omega)]

/-- **C71**: a permutation of five legs: leg 1 bends to the right, leg 3 to the left, with levels. -/
theorem C71_nonvacuous : Valid 3 2 [3, 2, 0] [4, 1] [none, some true, none, some false, none] ∧
    instructions 3 2 [3, 2, 0] [4, 1] [some 0, some 1, some 2, some 3, some 4]
      [none, some true, none, some false, none] false =
      .ok [.braid true 1 false, .bend false, .braid false 0 false, .twist false [0] false, .braid false 0 false,
        .braid false 1 false, .bend true, .braid true 1 false, .braid true 0 false, .braid true 1 false] ∧
    (∃ is tr, instructions 3 2 [3, 2, 0] [4, 1] [some 0, some 1, some 2, some 3, some 4]
      [none, some true, none, some true, none] false = .ok is ∧
      execute is (initialLegs 3 2) = some (([3, 2, 0], [4, 1]), tr) ∧
      tr = [(1, 2, false), (1, 3, false), (2, 3, false), (0, 3, false), (0, 2, false)]) ∧
    instructions 3 2 [3, 2, 0] [4, 1] [] [none, some true, none, some false, none] false = .error .chirality := by
  refine ⟨⟨by decide, ?_⟩, by decide +kernel, ⟨_, _, rfl, by decide +kernel, rfl⟩, by decide +kernel⟩
  rintro x (⟨h1, h2⟩ | ⟨h1, h2⟩)
  · simp at h2
    have : x = 1 := by omega
    subst this; exact ⟨true, rfl⟩
  · simp at h2
    have : x = 3 := by omega
    subst this; exact ⟨false, rfl⟩

end

end Cyten.Props
