import Verif.Lemmas.Trees
import Mathlib.Algebra.BigOperators.Group.List.Basic
import Mathlib.Algebra.BigOperators.Ring.List

namespace Cyten
namespace FusionTrees
open FusionTree

variable {S : Type} [DecidableEq S]

theorem getElem?_flatMap_some {α β : Type} (f : α → List β) (l : List α) (k : Nat) (y : β)
    (h : (l.flatMap f)[k]? = some y) :
    ∃ l1 x l2 j, l = l1 ++ x :: l2 ∧ (f x)[j]? = some y ∧
      k = (l1.map fun z => (f z).length).sum + j := by
  induction l generalizing k with
  | nil => simp at h
  | cons a l ih =>
    rw [List.flatMap_cons] at h
    by_cases hk : k < (f a).length
    · rw [List.getElem?_append_left hk] at h
      exact ⟨[], a, l, k, rfl, h, by simp⟩
    · rw [List.getElem?_append_right (by omega)] at h
      obtain ⟨l1, x, l2, j, h1, h2, h3⟩ := ih _ h
      refine ⟨a :: l1, x, l2, j, by simp [h1], h2, ?_⟩
      simp only [List.map_cons, List.sum_cons]
      omega

/-- contribution of the outcomes before the chosen one -/
def preCount (R : FusionRule S) (a b : S) (rest : List S) (c : S) (l1 : List S) : Nat :=
  (l1.map fun z => R.rawN a b z * size R (z :: rest) c).sum

/-- `T`: inner sector part of the index; `rest = uncoupled[1:]` -/
inductive InnerIdx (R : FusionRule S) (c : S) : S → List S → List S → Nat → S → S → List Nat → Prop
  | base (a b : S) : InnerIdx R c a [b] [] 0 a b []
  | step (a b b2 : S) (rest : List S) (x : S) (inner : List S) (l1 l2 : List S) (k : Nat)
      (left last : S) (ms : List Nat)
      (hout : R.outcomes a b = l1 ++ x :: l2) (hx : x ∉ l1)
      (h : InnerIdx R c x (b2 :: rest) inner k left last ms) :
      InnerIdx R c a (b :: b2 :: rest) (x :: inner)
        (preCount R a b (b2 :: rest) c l1 + R.rawN a b x * k) left last (R.rawN a b x :: ms)

theorem scanOutcomes_eq (R : FusionRule S) (a b : S) (rest : List S) (c x : S) (L : Nat)
    (l1 l2 : List S) (hx : x ∉ l1) (idx : Nat) :
    scanOutcomes R a b rest c x L (l1 ++ x :: l2) idx =
      some (idx + L * preCount R a b rest c l1, R.rawN a b x) := by
  induction l1 generalizing idx with
  | nil => simp [scanOutcomes, preCount]
  | cons y l1 ih =>
    simp only [List.mem_cons, not_or] at hx
    simp only [List.cons_append, scanOutcomes]
    rw [if_neg (fun h => hx.1 h.symm), ih hx.2]
    simp only [preCount, List.map_cons, List.sum_cons, Option.some.injEq, Prod.mk.injEq, and_true]
    ring

theorem scanOutcomes_some (R : FusionRule S) (a b : S) (rest : List S) (c x : S) (L : Nat)
    (l : List S) (idx : Nat) (r : Nat × Nat) (h : scanOutcomes R a b rest c x L l idx = some r) :
    x ∈ l ∧ r.2 = R.rawN a b x := by
  induction l generalizing idx with
  | nil => simp [scanOutcomes] at h
  | cons y l ih =>
    simp only [scanOutcomes] at h
    split at h
    · rename_i hy; subst hy; cases h; simp
    · obtain ⟨h1, h2⟩ := ih _ h
      exact ⟨List.mem_cons_of_mem _ h1, h2⟩

theorem indexLoop_eq (R : FusionRule S) (c : S) {a : S} {bs inner : List S} {k : Nat}
    {left last : S} {ms : List Nat} (h : InnerIdx R c a bs inner k left last ms)
    (L idx : Nat) (maxs : List Nat) :
    indexLoop R c a bs inner L idx maxs = .ok (idx + L * k, left, maxs ++ ms) ∧
      bs.getLast? = some last := by
  induction h generalizing L idx maxs with
  | base a b => simp [indexLoop]
  | step a b b2 rest x inner l1 l2 k left last ms hout hx h ih =>
    rw [indexLoop]
    rw [hout, scanOutcomes_eq R a b _ c x L l1 l2 hx]
    simp only
    obtain ⟨ih1, ih2⟩ := ih (L * R.rawN a b x) (idx + L * preCount R a b (b2 :: rest) c l1)
      (maxs ++ [R.rawN a b x])
    rw [ih1]
    refine ⟨?_, ?_⟩
    · simp only [Except.ok.injEq, Prod.mk.injEq, List.append_assoc, List.cons_append,
        List.nil_append, and_true, true_and]
      ring
    · rw [List.getLast?_cons_cons]; exact ih2

theorem multShift_cons (m M : Nat) (ms Ms : List Nat) :
    multShift (m :: ms) (M :: Ms) = m + M * multShift ms Ms := by
  unfold multShift
  rw [List.length_cons, List.range_succ_eq_map]
  simp only [List.map_cons, List.sum_cons, List.map_map, List.getD_cons_zero, List.take_zero,
    List.prod_nil, mul_one, Nat.add_left_cancel_iff]
  rw [← List.sum_map_mul_left]
  congr 1
  apply List.map_congr_left
  intro i _
  simp only [Function.comp, List.getD_cons_succ, List.take_succ_cons, List.prod_cons]
  ring

theorem multShift_nil (Ms : List Nat) : multShift [] Ms = 0 := by simp [multShift]

/-- The tree at position `k` of the enumeration has the index decomposition adding up to `k`. -/
theorem allTrees_getElem_idx (R : FusionRule S) (hR : R.Lawful) (a b : S) (rest : List S) (c : S)
    (dual : List Bool) (hd : dual.length = rest.length + 2) (k : Nat) (t : FusionTree S)
    (h : (allTrees R (a :: b :: rest) c dual)[k]? = some t) :
    ∃ T left last ms, InnerIdx R c a (b :: rest) t.inner T left last ms ∧
      c ∈ R.outcomes left last ∧
      t.mult.length = ms.length + 1 ∧
      (List.zip t.mult (ms ++ [R.rawN left last c])).all (fun p => p.1 < p.2) = true ∧
      k = T + multShift t.mult (ms ++ [R.rawN left last c]) ∧
      (∀ m ∈ ms, ∃ x y z, z ∈ R.outcomes x y ∧ m = R.rawN x y z) := by
  induction rest generalizing a b dual t k with
  | nil =>
    rw [allTrees] at h
    simp only [List.getElem?_map, Option.map_eq_some_iff] at h
    obtain ⟨mu, hmu, rfl⟩ := h
    obtain ⟨hk, hmu⟩ := List.getElem?_eq_some_iff.1 hmu
    simp only [List.length_range, List.getElem_range] at hk hmu
    subst hmu
    have hc : c ∈ R.outcomes a b := mem_of_nSymbol_pos R (by omega)
    refine ⟨0, a, b, [], InnerIdx.base a b, hc, rfl, ?_, ?_, by simp⟩
    · rw [nSymbol_of_mem R hc] at hk
      simp [hk]
    · rw [List.nil_append, multShift_cons, multShift_nil]; simp
  | cons a3 rest ih =>
    rw [allTrees] at h
    obtain ⟨l1, x, l2, j, hout, hj, hk⟩ := getElem?_flatMap_some _ _ _ _ h
    simp only at hj
    obtain ⟨t1, rt, t2, mu, hrts, hmu, hj2⟩ := getElem?_flatMap_some _ _ _ _ hj
    simp only [List.getElem?_map, Option.map_eq_some_iff] at hmu
    obtain ⟨mu', hmu', hteq⟩ := hmu
    obtain ⟨hmulen, hmueq⟩ := List.getElem?_eq_some_iff.1 hmu'
    simp only [List.length_range, List.getElem_range] at hmulen hmueq
    subst hmueq
    have hrt : (allTrees R (x :: a3 :: rest) c (false :: dual.drop 2))[t1.length]? = some rt := by
      rw [hrts]; simp
    obtain ⟨T, left, last, ms, hI, hc, hlen, hall, hkk, hms⟩ :=
      ih x a3 (false :: dual.drop 2) (by simp [hd]) _ _ hrt
    have hmem : rt ∈ allTrees R (x :: a3 :: rest) c (false :: dual.drop 2) := by
      rw [hrts]; simp
    rw [mem_allTrees_chain R x a3 rest c _ (by simp [hd])] at hmem
    obtain ⟨hm1, hm2, hm3, hm4⟩ := hmem
    have hnd : (l1 ++ x :: l2).Nodup := hout ▸ hR.nodup a b
    have hxl : x ∉ l1 := by
      intro hx
      rw [List.nodup_append] at hnd
      exact hnd.2.2 x hx x (by simp) rfl
    have hxo : x ∈ R.outcomes a b := by rw [hout]; simp
    refine ⟨preCount R a b (a3 :: rest) c l1 + R.rawN a b x * T, left, last,
      R.rawN a b x :: ms, ?_, hc, ?_, ?_, ?_, ?_⟩
    · rw [← hteq]
      simp only [FusionTree.insert, hm1, List.nil_append, List.take_succ_cons, List.take_zero,
        List.cons_append]
      exact InnerIdx.step a b a3 rest x rt.inner l1 l2 T left last ms hout hxl hI
    · rw [← hteq]; simp [FusionTree.insert, hlen]
    · rw [← hteq]
      simp [FusionTree.insert, hmulen]
      simpa using hall
    · rw [← hteq]
      simp only [FusionTree.insert, List.cons_append, List.nil_append, List.set_cons_zero]
      rw [multShift_cons, hk, hj2]
      simp only [List.length_map, List.length_range, List.map_const', List.sum_replicate_nat]
      have : (l1.map fun z => ((allTrees R (z :: a3 :: rest) c (false :: dual.drop 2)).flatMap
          fun restTree => (List.range (R.rawN a b z)).map fun mu =>
            ({ uncoupled := (restTree.insert ⟨[a, b], z, dual.take 2, [], [0]⟩).uncoupled
               coupled := (restTree.insert ⟨[a, b], z, dual.take 2, [], [0]⟩).coupled
               areDual := (restTree.insert ⟨[a, b], z, dual.take 2, [], [0]⟩).areDual
               inner := (restTree.insert ⟨[a, b], z, dual.take 2, [], [0]⟩).inner
               mult := (restTree.insert ⟨[a, b], z, dual.take 2, [], [0]⟩).mult.set 0 mu
               : FusionTree S })).length).sum = preCount R a b (a3 :: rest) c l1 := by
        unfold preCount
        congr 1
        apply List.map_congr_left
        intro z _
        simp only [List.length_flatMap, List.length_map, List.length_range, List.map_const',
          List.sum_replicate_nat]
        rw [length_allTrees, mul_comm]
      rw [this, hkk]
      ring
    · intro m hm
      rcases List.mem_cons.1 hm with rfl | hm
      · exact ⟨a, b, x, hxo, rfl⟩
      · exact hms m hm

theorem multShift_zero (mult Ms : List Nat) (h : ∀ m ∈ mult, m = 0) : multShift mult Ms = 0 := by
  unfold multShift
  apply List.sum_eq_zero
  intro x hx
  obtain ⟨i, hi, rfl⟩ := List.mem_map.1 hx
  have hi' := List.mem_range.1 hi
  have : mult.getD i 0 = 0 := by
    rw [List.getD_eq_getElem?_getD, List.getElem?_eq_getElem hi']
    exact h _ (List.getElem_mem hi')
  rw [this]; simp

theorem zip_all_one (mult Ms : List Nat) (hl : mult.length = Ms.length)
    (hM : ∀ m ∈ Ms, m = 1)
    (h : (List.zip mult Ms).all (fun p => p.1 < p.2) = true) : ∀ m ∈ mult, m = 0 := by
  induction mult generalizing Ms with
  | nil => simp
  | cons m mult ih =>
    cases Ms with
    | nil => simp at hl
    | cons M Ms =>
      simp only [List.zip_cons_cons, List.all_cons, Bool.and_eq_true, decide_eq_true_eq] at h
      intro y hy
      rcases List.mem_cons.1 hy with rfl | hy
      · have := hM M (by simp); omega
      · exact ih Ms (by simpa using hl) (fun z hz => hM z (by simp [hz])) h.2 y hy

theorem computeIndex_getElem (R : FusionRule S) (hR : R.Lawful) (a b : S) (rest : List S) (c : S)
    (dual : List Bool) (hd : dual.length = rest.length + 2) (k : Nat) (t : FusionTree S)
    (h : (allTrees R (a :: b :: rest) c dual)[k]? = some t) :
    computeIndex R (a :: b :: rest) c t = .ok k := by
  obtain ⟨T, left, last, ms, hI, hc, hlen, hall, hk, hms⟩ :=
    allTrees_getElem_idx R hR a b rest c dual hd k t h
  obtain ⟨h1, h2⟩ := indexLoop_eq R c hI 1 0 []
  unfold computeIndex
  simp only [h1, h2, List.nil_append]
  rw [if_neg (by simp [(canFuseTo_iff R left last c).2 hc]), if_neg (by simp [hlen]),
    if_neg (by simp [hall])]
  split
  · rename_i hab
    have hz : ∀ m ∈ t.mult, m = 0 := by
      refine zip_all_one t.mult _ (by simp [hlen]) ?_ hall
      intro m hm
      rcases List.mem_append.1 hm with hm | hm
      · obtain ⟨x, y, z, hz, rfl⟩ := hms m hm
        exact hR.abelian_one hab x y z hz
      · simp only [List.mem_singleton] at hm
        rw [hm]; exact hR.abelian_one hab _ _ _ hc
    rw [hk, multShift_zero _ _ hz]; simp
  · rw [hk]; simp

theorem index_getElem (R : FusionRule S) (hR : R.Lawful) (unc : List S) (c : S)
    (dual : List Bool) (hd : dual.length = unc.length) (k : Nat) (t : FusionTree S)
    (h : (allTrees R unc c dual)[k]? = some t) : index R unc c dual t = .ok k := by
  match unc, hd with
  | [], hd =>
    simp at hd; subst hd
    rw [allTrees] at h
    split at h
    · rename_i hc
      have : k = 0 := by
        by_contra hk
        rw [List.getElem?_eq_none (by simp; omega)] at h; simp at h
      subst this
      simp at h; subst h
      simp [index, computeIndex, hc]
    · simp at h
  | [a], hd =>
    rw [allTrees] at h
    split at h
    · rename_i hc
      have : k = 0 := by
        by_contra hk
        rw [List.getElem?_eq_none (by simp; omega)] at h; simp at h
      subst this
      simp at h; subst h
      simp [index, computeIndex, hc]
    · simp at h
  | a :: b :: rest, hd =>
    have hm := (mem_allTrees_chain R a b rest c dual (by simpa using hd) t).1
      (List.mem_of_getElem? h)
    unfold index
    rw [if_neg (by simp [hm.1]), if_neg (by simp [hm.2.1]), if_neg (by simp [hm.2.2.1])]
    exact computeIndex_getElem R hR a b rest c dual (by simpa using hd) k t h

theorem indexLoop_chain (R : FusionRule S) (c : S) (a b : S) (rest : List S) (inner : List S)
    (hi : inner.length = rest.length)
    (L idx : Nat) (maxs : List Nat) (idx' : Nat) (left : S) (maxs' : List Nat)
    (h : indexLoop R c a (b :: rest) inner L idx maxs = .ok (idx', left, maxs')) :
    ∃ ms, maxs' = maxs ++ ms ∧ ∀ (mult : List Nat) (last : S),
      (b :: rest).getLast? = some last → c ∈ R.outcomes left last →
      mult.length = ms.length + 1 →
      (List.zip mult (ms ++ [R.rawN left last c])).all (fun p => p.1 < p.2) = true →
      Chain R a (b :: rest) (inner ++ [c]) mult := by
  induction rest generalizing a b inner L idx maxs with
  | nil =>
    rw [indexLoop] at h
    · simp only [Except.ok.injEq, Prod.mk.injEq] at h
      obtain ⟨rfl, rfl, rfl⟩ := h
      refine ⟨[], by simp, ?_⟩
      intro mult last hl hc hlen hall
      simp at hl; subst hl
      match mult, hlen with
      | [m], _ =>
        simp at hi; subst hi
        simp at hall
        simp [Chain, nSymbol_of_mem R hc, hall]
    · simp
  | cons b2 rest ih =>
    match inner, hi with
    | x :: inner', hi =>
      rw [indexLoop] at h
      split at h
      · simp at h
      · rename_i idx1 multi hscan
        obtain ⟨hx, hmul⟩ := scanOutcomes_some R _ _ _ _ _ _ _ _ _ hscan
        simp only at hmul
        obtain ⟨ms, hms, hch⟩ := ih x b2 inner' (by simpa using hi) _ _ _ h
        refine ⟨multi :: ms, by simp [hms], ?_⟩
        intro mult last hl hc hlen hall
        match mult, hlen with
        | m :: mult', hlen =>
          simp only [List.cons_append, List.zip_cons_cons, List.all_cons, Bool.and_eq_true,
            decide_eq_true_eq] at hall
          simp only [List.cons_append, Chain]
          refine ⟨by rw [nSymbol_of_mem R hx]; omega, ?_⟩
          refine hch mult' last ?_ hc (by simpa using hlen) hall.2
          rw [List.getLast?_cons_cons] at hl; exact hl

theorem mem_of_index_ok (R : FusionRule S) (unc : List S) (c : S)
    (dual : List Bool) (hd : dual.length = unc.length) (k : Nat) (t : FusionTree S)
    (hi : t.inner.length = t.uncoupled.length - 2)
    (hm : t.mult.length = t.uncoupled.length - 1)
    (h : index R unc c dual t = .ok k) : t ∈ allTrees R unc c dual := by
  unfold index at h
  split at h
  · simp at h
  rename_i h1
  split at h
  · simp at h
  rename_i h2
  split at h
  · simp at h
  rename_i h3
  simp only [ne_eq, not_not] at h1 h2 h3
  obtain ⟨u, co, d, inn, mult⟩ := t
  simp only at h1 h2 h3 hi hm
  subst h1 h2 h3
  match unc, hd with
  | [], hd =>
    simp at hd hi hm; subst hd hi hm
    rw [computeIndex] at h
    split at h
    · rename_i hc; simp [allTrees, hc]
    · simp at h
  | [a], hd =>
    simp at hi hm; subst hi hm
    rw [computeIndex] at h
    split at h
    · rename_i hc; simp [allTrees, hc]
    · simp at h
  | a :: b :: rest, hd =>
    rw [mem_allTrees_chain R a b rest c dual (by simpa using hd)]
    refine ⟨rfl, rfl, rfl, ?_⟩
    simp only
    unfold computeIndex at h
    simp only at h
    split at h
    · simp at h
    rename_i idx left maxs hloop
    split at h
    · simp at h
    rename_i last hlast
    split at h
    · simp at h
    rename_i hc
    split at h
    · simp at h
    rename_i hlen
    split at h
    · simp at h
    rename_i hall
    obtain ⟨ms, hms, hch⟩ := indexLoop_chain R c a b rest inn (by simpa using hi) _ _ _ _ _ _ hloop
    simp only [List.nil_append] at hms
    subst hms
    refine hch mult last hlast ?_ ?_ ?_
    · rw [← canFuseTo_iff]; simpa using hc
    · simpa using hlen
    · simpa using hall

end FusionTrees
end Cyten
