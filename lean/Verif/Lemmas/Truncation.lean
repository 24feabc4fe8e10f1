import Verif.Model.Truncation
import Mathlib.Data.List.Basic
import Mathlib.Data.List.GetD
import Mathlib.Data.List.Nodup
import Mathlib.Data.List.Perm.Basic
import Mathlib.Algebra.BigOperators.Group.List.Basic
import Mathlib.Tactic.SplitIfs
import Mathlib.Tactic.Ring

/-! # Lemmas for the truncation model -/

namespace Cyten.Truncation

variable {K : Type} [Field K] [LinearOrder K]

/-- `good[i]` is `True`. -/
def At (g : List Bool) (i : ℕ) : Prop := g.getD i false = true

theorem At.lt {g : List Bool} {i : ℕ} (h : At g i) : i < g.length := by
  unfold At at h
  by_contra hc
  rw [List.getD_eq_default _ _ (by omega)] at h
  exact absurd h (by decide)

theorem at_iff {g : List Bool} {i : ℕ} (h : i < g.length) : At g i ↔ g[i] = true := by
  unfold At; rw [List.getD_eq_getElem _ _ h]

theorem at_zipWith {g1 g2 : List Bool} (hl : g1.length = g2.length) (i : ℕ) :
    At (List.zipWith and g1 g2) i ↔ At g1 i ∧ At g2 i := by
  constructor
  · intro h
    have hi := h.lt
    have hi' : i < g1.length := by simp at hi; omega
    rw [at_iff hi] at h
    rw [at_iff hi', at_iff (hl ▸ hi')]
    simpa using h
  · rintro ⟨h1, h2⟩
    have hi : i < (List.zipWith and g1 g2).length := by
      have := h1.lt; simp; omega
    rw [at_iff hi]
    rw [at_iff h1.lt] at h1
    rw [at_iff h2.lt] at h2
    simp [h1, h2]

theorem any_iff_at (g : List Bool) : g.any id = true ↔ ∃ i, At g i := by
  rw [List.any_eq_true]
  constructor
  · rintro ⟨b, hb, hb'⟩
    obtain ⟨i, hi, rfl⟩ := List.getElem_of_mem hb
    exact ⟨i, (at_iff hi).2 hb'⟩
  · rintro ⟨i, h⟩
    exact ⟨g[i]'h.lt, List.getElem_mem _, (at_iff h.lt).1 h⟩

theorem length_combine {g1 g2 : List Bool} (hl : g1.length = g2.length) :
    (combineConstraints g1 g2).length = g1.length := by
  unfold combineConstraints
  dsimp only
  split_ifs <;> simp <;> omega

theorem combine_cases {g1 g2 : List Bool} (hl : g1.length = g2.length) :
    ((∃ i, At g1 i ∧ At g2 i) ∧ ∀ i, At (combineConstraints g1 g2) i ↔ At g1 i ∧ At g2 i) ∨
    ((¬ ∃ i, At g1 i ∧ At g2 i) ∧ combineConstraints g1 g2 = g1) := by
  have key : (List.zipWith and g1 g2).any id = true ↔ ∃ i, At g1 i ∧ At g2 i := by
    rw [any_iff_at]
    exact exists_congr fun i => at_zipWith hl i
  unfold combineConstraints
  by_cases h : (List.zipWith and g1 g2).any id = true
  · left
    refine ⟨key.1 h, fun i => ?_⟩
    rw [if_pos h]
    exact at_zipWith hl i
  · right
    exact ⟨fun hc => h (key.2 hc), if_neg h⟩

/-- The invariant kept by adding constraints in order of priority. -/
structure Inv (n : ℕ) (con : ℕ → ℕ → Prop) (k : ℕ) (g : List Bool) : Prop where
  len : g.length = n
  ex : ∃ i, At g i
  sat : ∀ j ≤ k, (∃ c < n, ∀ i < j, con i c) → ∀ c, At g c → ∀ i < j, con i c
  all : (∃ c < n, ∀ i < k, con i c) → ∀ c < n, (∀ i < k, con i c) → At g c

theorem Inv.init (n : ℕ) (hn : 0 < n) (con : ℕ → ℕ → Prop) :
    Inv n con 0 (List.replicate n true) where
  len := by simp
  ex := ⟨0, by rw [at_iff (by simpa using hn)]; simp⟩
  sat := by
    intro j hj _ c _ i hi
    omega
  all := by
    intro _ c hc _
    rw [at_iff (by simpa using hc)]; simp

theorem Inv.skip {n k : ℕ} {con : ℕ → ℕ → Prop} {g : List Bool} (h : Inv n con k g)
    (hc : ∀ c < n, con k c) : Inv n con (k + 1) g where
  len := h.len
  ex := h.ex
  sat := by
    intro j hj hex c hgc i hi
    have hcn : c < n := h.len ▸ hgc.lt
    rcases Nat.lt_or_ge k j with hkj | hkj
    · obtain rfl : j = k + 1 := by omega
      rcases Nat.lt_succ_iff_lt_or_eq.1 hi with hi | rfl
      · exact h.sat k (Nat.le_refl _) (by
          obtain ⟨c', h1, h2⟩ := hex
          exact ⟨c', h1, fun i hi => h2 i (by omega)⟩) c hgc i hi
      · exact hc c hcn
    · exact h.sat j hkj hex c hgc i hi
  all := by
    intro hex c hcn hall
    refine h.all ⟨c, hcn, fun i hi => hall i (by omega)⟩ c hcn fun i hi => hall i (by omega)

theorem Inv.step {n k : ℕ} {con : ℕ → ℕ → Prop} {g g2 : List Bool} (h : Inv n con k g)
    (hl : g2.length = n) (hc : ∀ c < n, (At g2 c ↔ con k c)) :
    Inv n con (k + 1) (combineConstraints g g2) := by
  have hl' : g.length = g2.length := by rw [hl, h.len]
  rcases combine_cases hl' with ⟨hex, hat⟩ | ⟨hno, heq⟩
  · refine ⟨by rw [length_combine hl', h.len], ?_, ?_, ?_⟩
    · obtain ⟨i, hi⟩ := hex
      exact ⟨i, (hat i).2 hi⟩
    · intro j hj hex c hgc i hi
      obtain ⟨hg1, hg2⟩ := (hat c).1 hgc
      have hcn : c < n := h.len ▸ hg1.lt
      rcases Nat.lt_or_ge k j with hkj | hkj
      · obtain rfl : j = k + 1 := by omega
        rcases Nat.lt_succ_iff_lt_or_eq.1 hi with hi | rfl
        · exact h.sat k (Nat.le_refl _) (by
            obtain ⟨c', h1, h2⟩ := hex
            exact ⟨c', h1, fun i hi => h2 i (by omega)⟩) c hg1 i hi
        · exact (hc c hcn).1 hg2
      · exact h.sat j hkj hex c hg1 i hi
    · intro hex c hcn hall
      rw [hat]
      exact ⟨h.all ⟨c, hcn, fun i hi => hall i (by omega)⟩ c hcn fun i hi => hall i (by omega),
        (hc c hcn).2 (hall k (by omega))⟩
  · rw [heq]
    have hnot : ¬ ∃ c < n, ∀ i < k + 1, con i c := by
      rintro ⟨c, hcn, hall⟩
      exact hno ⟨c, h.all ⟨c, hcn, fun i hi => hall i (by omega)⟩ c hcn
        fun i hi => hall i (by omega), (hc c hcn).2 (hall k (by omega))⟩
    refine ⟨h.len, h.ex, ?_, fun hex => absurd hex hnot⟩
    intro j hj hex c hgc i hi
    rcases Nat.lt_or_ge k j with hkj | hkj
    · obtain rfl : j = k + 1 := by omega
      exact absurd hex hnot
    · exact h.sat j hkj hex c hgc i hi

@[simp] theorem length_setFrom (g : List Bool) (s : ℤ) (b : Bool) :
    (setFrom g s b).length = g.length := by simp [setFrom]

theorem at_setFrom {n : ℕ} {a b : Bool} {s : ℤ} {c : ℕ} (hc : c < n) :
    At (setFrom (List.replicate n a) s b) c ↔ (if sliceStart s n ≤ c then b else a) = true := by
  rw [at_iff (by simpa using hc)]
  simp [setFrom]

omit [LinearOrder K] in
@[simp] theorem length_cumsumFrom (acc : K) (l : List K) :
    (cumsumFrom acc l).length = l.length := by
  induction l generalizing acc with
  | nil => rfl
  | cons x xs ih => simp [cumsumFrom, ih]

omit [LinearOrder K] in
theorem getElem_cumsumFrom (acc : K) (l : List K) (i : ℕ) (h : i < (cumsumFrom acc l).length) :
    (cumsumFrom acc l)[i] = acc + (l.take (i + 1)).sum := by
  induction l generalizing acc i with
  | nil => simp [cumsumFrom] at h
  | cons x xs ih =>
    cases i with
    | zero => simp [cumsumFrom]
    | succ i =>
      simp only [cumsumFrom, List.getElem_cons_succ, List.take_succ_cons, List.sum_cons]
      rw [ih]
      ring

theorem length_degGood (lg : K → K) (tol : K) (S : List K) (h : 0 < S.length) :
    (degGood lg tol S).length = S.length := by
  simp [degGood, clipped]; omega

theorem mem_chooseCut {m : Bool} {g : List Bool} {cut : ℕ} (h : chooseCut m g = some cut) :
    At g cut := by
  unfold chooseCut at h
  have : cut ∈ (List.range g.length).filter fun i => g.getD i false := by
    cases m <;> simp only [Bool.false_eq_true, if_false, if_true] at h
    · exact List.mem_of_getLast? h
    · exact List.mem_of_head? h
  exact (List.mem_filter.1 this).2

theorem chooseCut_isSome {m : Bool} {g : List Bool} (h : ∃ i, At g i) :
    ∃ cut, chooseCut m g = some cut := by
  obtain ⟨i, hi⟩ := h
  have : i ∈ (List.range g.length).filter fun i => g.getD i false :=
    List.mem_filter.2 ⟨List.mem_range.2 hi.lt, hi⟩
  have hne := List.ne_nil_of_mem this
  unfold chooseCut
  cases m <;> simp only [Bool.false_eq_true, if_false, if_true]
  · exact ⟨_, List.getLast?_eq_some_getLast hne⟩
  · exact ⟨_, List.head?_eq_some_head hne⟩

theorem chooseCut_min {g : List Bool} {cut : ℕ} (h : chooseCut true g = some cut) (c : ℕ)
    (hc : At g c) : cut ≤ c := by
  have hmem : c ∈ (List.range g.length).filter fun i => g.getD i false :=
    List.mem_filter.2 ⟨List.mem_range.2 hc.lt, hc⟩
  unfold chooseCut at h
  simp only [if_true] at h
  have hp : ((List.range g.length).filter fun i => g.getD i false).Pairwise (· < ·) :=
    List.Pairwise.sublist List.filter_sublist List.pairwise_lt_range
  generalize (List.range g.length).filter (fun i => g.getD i false) = l at h hp hmem
  cases l with
  | nil => simp at h
  | cons x xs =>
    simp only [List.head?_cons, Option.some.injEq] at h
    subst h
    rcases List.mem_cons.1 hmem with rfl | hm
    · exact Nat.le_refl _
    · exact Nat.le_of_lt ((List.pairwise_cons.1 hp).1 c hm)

theorem chooseCut_max {g : List Bool} {cut : ℕ} (h : chooseCut false g = some cut) (c : ℕ)
    (hc : At g c) : c ≤ cut := by
  have hmem : c ∈ (List.range g.length).filter fun i => g.getD i false :=
    List.mem_filter.2 ⟨List.mem_range.2 hc.lt, hc⟩
  unfold chooseCut at h
  simp only [Bool.false_eq_true, if_false] at h
  have hp : ((List.range g.length).filter fun i => g.getD i false).Pairwise (· < ·) :=
    List.Pairwise.sublist List.filter_sublist List.pairwise_lt_range
  generalize (List.range g.length).filter (fun i => g.getD i false) = l at h hp hmem
  rw [List.getLast?_eq_some_iff] at h
  obtain ⟨ys, rfl⟩ := h
  rw [List.pairwise_append] at hp
  rcases List.mem_append.1 hmem with hm | hm
  · exact Nat.le_of_lt (hp.2.2 c hm cut (by simp))
  · simp at hm; omega

end Cyten.Truncation
