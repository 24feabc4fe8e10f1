import Verif.Lemmas.Truncation
import Mathlib.Algebra.Order.Field.Basic
import Mathlib.Algebra.Order.BigOperators.Group.List
import Mathlib.Data.Rat.Defs
import Mathlib.Algebra.Order.Ring.Rat
import Mathlib.Tactic.Linarith
import Mathlib.Tactic.NormNum
import Mathlib.Tactic.FieldSimp
import Mathlib.Analysis.Real.Sqrt

/-!
# C18, C19: truncation of singular values

Specification: `weight S q i = q_i * S_i^2`; an `argsort` returns the indices in an order of
non-decreasing weight; a *cut* `c` discards the first `c` indices of that order and keeps the
others.  `constraint` lists the documented constraints in order of priority.
-/

namespace Cyten.Props
open Cyten.Truncation

variable {K : Type} [Field K] [LinearOrder K]

/-- What numpy documents about `argsort`. -/
structure IsArgsort (argsort : List K → List ℕ) : Prop where
  perm : ∀ l, (argsort l).Perm (List.range l.length)
  sorted : ∀ l, (argsort l).Pairwise fun i j => l.getD i 0 ≤ l.getD j 0

/-- The contribution of the `i`-th singular value to the squared norm. -/
def weight (S : List K) (q : Option (List K)) (i : ℕ) : K :=
  match q with
  | none => S.getD i 0 ^ 2
  | some q => q.getD i 0 * S.getD i 0 ^ 2

/-- `qdims` has the length of `S` -/
def QOk (S : List K) : Option (List K) → Prop
  | none => True
  | some q => q.length = S.length

/-- The `k`-th constraint on the cut `c`, for the spectrum in the order `piv`:
0. at most `chi_max` values are kept;
1. at least `chi_min` values are kept;
2. no cut between values whose (clipped) logarithms differ by less than `degeneracy_tol`;
3. the smallest kept value (in the order of the weights) is at least `svd_min`;
4. keeping one value less would give an error above `trunc_cut ^ 2`. -/
def constraint (lg : K → K) (o : Opts K) (S : List K) (q : Option (List K)) (piv : List ℕ) :
    ℕ → ℕ → Prop
  | 0, c => ∀ chi, o.chiMax = some chi → (S.length : ℤ) - c ≤ chi
  | 1, c => o.chiMin ≤ (S.length : ℤ) - c
  | 2, c => 0 < o.degTol → c = 0 ∨
      lg (max (S.getD (piv.getD c 0) 0) (1 / 10 ^ 100)) -
        lg (max (S.getD (piv.getD (c - 1) 0) 0) (1 / 10 ^ 100)) ≥ o.degTol
  | 3, c => ∀ m, o.svdMin = some m → m ≤ S.getD (piv.getD c 0) 0
  | 4, c => o.truncCut ^ 2 < ((piv.take (c + 1)).map (weight S q)).sum
  | _, _ => True

omit [LinearOrder K] in
private theorem marg_len {S : List K} {q : Option (List K)} (hq : QOk S q) :
    (marginalErrs S q).length = S.length := by
  cases q with
  | none => simp [marginalErrs]
  | some q => simp only [QOk] at hq; simp [marginalErrs, hq]

omit [LinearOrder K] in
private theorem marg_getD {S : List K} {q : Option (List K)} (hq : QOk S q) {i : ℕ}
    (hi : i < S.length) : (marginalErrs S q).getD i 0 = weight S q i := by
  have h1 : i < (marginalErrs S q).length := by rw [marg_len hq]; exact hi
  rw [List.getD_eq_getElem _ _ h1]
  cases q with
  | none => simp [marginalErrs, weight, List.getElem?_eq_getElem hi]
  | some q =>
    simp only [QOk] at hq
    have hi' : i < q.length := hq ▸ hi
    simp [marginalErrs, weight, List.getElem?_eq_getElem hi, List.getElem?_eq_getElem hi']

private theorem max_clip (x : K) :
    (if x ≤ 1 / 10 ^ 100 then 1 / 10 ^ 100 else x) = max x (1 / 10 ^ 100) := by
  split_ifs with h
  · rw [max_eq_right h]
  · rw [max_eq_left (le_of_lt (not_le.1 h))]

/-- The admissible cuts of the code against the specification. -/
private theorem goodCuts_inv (lg : K → K) (o : Opts K) (S : List K) (q : Option (List K))
    (hq : QOk S q) (piv : List ℕ) (hp : piv.Perm (List.range S.length)) (hn : 0 < S.length)
    (hchi : ∀ chi, o.chiMax = some chi → 1 ≤ chi) :
    Inv S.length (constraint lg o S q piv) 5
      (goodCuts lg o (piv.map fun i => S.getD i 0)
        (piv.map fun i => (marginalErrs S q).getD i 0)) := by
  have hlen : piv.length = S.length := by simpa using hp.length_eq
  have hpl : ∀ i ∈ piv, i < S.length := fun i hi => by simpa using hp.mem_iff.1 hi
  have hmarg : (piv.map fun i => (marginalErrs S q).getD i 0) = piv.map (weight S q) :=
    List.map_congr_left fun i hi => marg_getD hq (hpl i hi)
  rw [hmarg]
  unfold goodCuts
  simp only [List.length_map, hlen]
  have h0 := Inv.init S.length hn (constraint lg o S q piv)
  -- chi_max
  have h1 : Inv S.length (constraint lg o S q piv) 1 (chiMaxStep o S.length (List.replicate S.length true)) := by
    unfold chiMaxStep
    cases hchi' : o.chiMax with
    | none => exact h0.skip fun c _ chi h => by rw [hchi'] at h; cases h
    | some chi =>
      have h1chi := hchi chi hchi'
      dsimp only
      split_ifs with hlt
      · refine h0.step (by simp) fun c hc => ?_
        rw [at_setFrom hc]
        have hss : sliceStart (-chi) S.length = (-chi + S.length).toNat := by
          unfold sliceStart; rw [if_pos (by omega)]
        simp only [constraint, hchi', Option.some.injEq, forall_eq', hss]
        constructor
        · intro h
          split_ifs at h with h2
          omega
        · intro h
          rw [if_pos (by omega)]
      · refine h0.skip fun c hc chi' h => ?_
        rw [hchi'] at h
        injection h with h
        omega
  generalize (chiMaxStep o S.length (List.replicate S.length true)) = g1 at h1 ⊢
  -- chi_min
  have h2 : Inv S.length (constraint lg o S q piv) 2 (chiMinStep o S.length g1) := by
    unfold chiMinStep
    split_ifs with hlt
    · refine h1.step (by simp) fun c hc => ?_
      rw [at_setFrom hc]
      have hss : sliceStart (-o.chiMin + 1) S.length = (-o.chiMin + 1 + S.length).toNat := by
        unfold sliceStart; rw [if_pos (by omega)]
      simp only [constraint, hss]
      constructor
      · intro h
        split_ifs at h with h2
        omega
      · intro h
        rw [if_neg (by omega)]
    · refine h1.skip fun c hc => ?_
      show o.chiMin ≤ (S.length : ℤ) - c
      omega
  generalize (chiMinStep o S.length g1) = g2 at h2 ⊢
  -- degeneracy
  have h3 : Inv S.length (constraint lg o S q piv) 3 (degStep lg o (piv.map fun i => S.getD i 0) g2) := by
    unfold degStep
    split_ifs with hlt
    · refine h2.step (by rw [length_degGood _ _ _ (by simpa [hlen] using hn)]; simp [hlen])
        fun c hc => ?_
      rw [at_iff (by rw [length_degGood _ _ _ (by simpa [hlen] using hn)]; simpa [hlen] using hc)]
      simp only [constraint, hlt, true_implies]
      cases c with
      | zero => simp [degGood]
      | succ c =>
        have hc1 : c + 1 < piv.length := by omega
        have hc2 : c < piv.length := by omega
        simp only [← max_clip]
        simp [degGood, clipped, List.getElem?_eq_getElem hc1, List.getElem?_eq_getElem hc2]
    · exact h2.skip fun c hc h => absurd h hlt
  generalize (degStep lg o (piv.map fun i => S.getD i 0) g2)
      = g3 at h3 ⊢
  -- svd_min
  have h4 : Inv S.length (constraint lg o S q piv) 4 (svdMinStep o (piv.map fun i => S.getD i 0) g3) := by
    unfold svdMinStep
    cases hm : o.svdMin with
    | none => exact h3.skip fun c _ m h => by rw [hm] at h; cases h
    | some m =>
      refine h3.step (by simp [hlen]) fun c hc => ?_
      have hc1 : c < piv.length := by omega
      rw [at_iff (by simpa [hlen] using hc)]
      simp [constraint, hm, List.getElem?_eq_getElem hc1]
  generalize (svdMinStep o (piv.map fun i => S.getD i 0) g3) = g4 at h4 ⊢
  -- trunc_cut
  have hl5 : ((cumsumFrom 0 (piv.map (weight S q))).map
      fun x => decide (x > o.truncCut * o.truncCut)).length = S.length := by simp [hlen]
  refine h4.step hl5 fun c hc => ?_
  rw [at_iff (by rw [hl5]; exact hc)]
  rw [List.getElem_map, getElem_cumsumFrom]
  simp only [constraint, decide_eq_true_eq, zero_add,
    ← List.map_take, gt_iff_lt, pow_two]

/-- Everything the code computes is determined by the chosen cut. -/
private theorem select_spec {argsort : List K → List ℕ} (ha : IsArgsort argsort) (lg : K → K)
    (S : List K) (q : Option (List K)) (hq : QOk S q) (o : Opts K) (hn : 0 < S.length)
    (hchi : ∀ chi, o.chiMax = some chi → 1 ≤ chi) :
    ∃ piv, piv = argsort (marginalErrs S q) ∧ piv.Perm (List.range S.length) ∧
      piv.Pairwise (fun i j => weight S q i ≤ weight S q j) ∧
    ∃ g, Inv S.length (constraint lg o S q piv) 5 g ∧
    ∃ cut, cut < S.length ∧ chooseCut o.minimizeError g = some cut ∧
      select argsort lg S q o = some ((List.range S.length).map (fun i => decide (i ∈ piv.drop cut)),
        ((piv.take cut).map (weight S q)).sum, ((piv.drop cut).map (weight S q)).sum) := by
  set piv := argsort (marginalErrs S q) with hpiv
  have hp : piv.Perm (List.range S.length) := by
    have := ha.perm (marginalErrs S q)
    rwa [marg_len hq] at this
  have hpl : ∀ i ∈ piv, i < S.length := fun i hi => by simpa using hp.mem_iff.1 hi
  have hs : piv.Pairwise (fun i j => weight S q i ≤ weight S q j) := by
    refine List.Pairwise.imp_of_mem ?_ (ha.sorted (marginalErrs S q))
    intro i j hi hj h
    rwa [marg_getD hq (hpl i hi), marg_getD hq (hpl j hj)] at h
  have hinv := goodCuts_inv lg o S q hq piv hp hn hchi
  obtain ⟨cut, hcut⟩ := chooseCut_isSome (m := o.minimizeError) hinv.ex
  refine ⟨piv, rfl, hp, hs, _, hinv, cut, ?_, hcut, ?_⟩
  · have := (mem_chooseCut hcut).lt
    rwa [hinv.len] at this
  · have hmarg : (piv.map fun i => (marginalErrs S q).getD i 0) = piv.map (weight S q) :=
      List.map_congr_left fun i hi => marg_getD hq (hpl i hi)
    unfold select
    simp only [← hpiv]
    rw [if_neg (by rw [marg_len hq]; simp)]
    rw [hmarg] at hcut
    simp only [Option.bind_eq_bind, pure, hcut, Option.bind_some, hmarg, ← List.map_take,
      ← List.map_drop]

/-- The value at index `i` is kept. -/
def Kept (mask : List Bool) (i : ℕ) : Prop := mask.getD i false = true

instance (mask : List Bool) (i : ℕ) : Decidable (Kept mask i) :=
  inferInstanceAs (Decidable (_ = true))

omit [Field K] [LinearOrder K] in
private theorem kept_iff {n : ℕ} {l : List ℕ} (hl : ∀ i ∈ l, i < n) (i : ℕ) :
    Kept ((List.range n).map (fun i => decide (i ∈ l))) i ↔ i ∈ l := by
  unfold Kept
  by_cases hi : i < n
  · rw [List.getD_eq_getElem _ _ (by simpa using hi)]; simp
  · rw [List.getD_eq_default _ _ (by simpa using hi)]
    simp only [Bool.false_eq_true, false_iff]
    exact fun h => hi (hl i h)

omit [LinearOrder K] in
private theorem sum_filter_perm {l l' : List ℕ} (hp : l.Perm l') (f : ℕ → K) (p : ℕ → Prop)
    [DecidablePred p] :
    ((l.filter fun i => p i).map f).sum = ((l'.filter fun i => p i).map f).sum :=
  ((hp.filter _).map f).sum_eq

/-- **C18**: for every non-empty spectrum, every quantum dimensions and all options with
`chi_max ≥ 1`: the selection succeeds; at least one value is kept and at most `chi_max`; no
discarded value weighs more than a kept one; the reported error is exactly the weight of the
discarded values and the reported new norm exactly that of the kept ones. -/
theorem C18_selection {argsort : List K → List ℕ} (ha : IsArgsort argsort) (lg : K → K)
    (S : List K) (q : Option (List K)) (hq : QOk S q) (o : Opts K) (hn : S ≠ [])
    (hchi : ∀ chi, o.chiMax = some chi → 1 ≤ chi) :
    ∃ mask err newNorm, select argsort lg S q o = some (mask, err, newNorm) ∧
      mask.length = S.length ∧
      (∃ i < S.length, Kept mask i) ∧
      (∀ chi, o.chiMax = some chi → (mask.count true : ℤ) ≤ chi) ∧
      (∀ i < S.length, ∀ j < S.length, Kept mask i → ¬ Kept mask j →
        weight S q j ≤ weight S q i) ∧
      err = (((List.range S.length).filter fun i => ¬ Kept mask i).map (weight S q)).sum ∧
      newNorm = (((List.range S.length).filter fun i => Kept mask i).map (weight S q)).sum := by
  have hn' : 0 < S.length := List.length_pos_of_ne_nil hn
  obtain ⟨piv, -, hp, hs, g, hinv, cut, hlt, hcut, hsel⟩ :=
    select_spec ha lg S q hq o hn' hchi
  have hlen : piv.length = S.length := by simpa using hp.length_eq
  have hpl : ∀ i ∈ piv, i < S.length := fun i hi => by simpa using hp.mem_iff.1 hi
  have hk := kept_iff (l := piv.drop cut) (fun i hi => hpl i (List.mem_of_mem_drop hi))
  have hnd : piv.Nodup := hp.nodup_iff.2 List.nodup_range
  have hsplit : piv = piv.take cut ++ piv.drop cut := (List.take_append_drop _ _).symm
  have hdis : ∀ i ∈ piv.take cut, i ∉ piv.drop cut := by
    rw [hsplit, List.nodup_append] at hnd
    exact fun i hi hi' => hnd.2.2 i hi i hi' rfl
  have hin : ∀ i < S.length, i ∉ piv.drop cut → i ∈ piv.take cut := fun i hi h => by
    have : i ∈ piv := hp.mem_iff.2 (by simpa using hi)
    rw [hsplit] at this
    exact (List.mem_append.1 this).resolve_right h
  refine ⟨_, _, _, hsel, by simp, ?_, ?_, ?_, ?_, ?_⟩
  · have hc : cut < piv.length := by omega
    refine ⟨piv[cut], hpl _ (List.getElem_mem _), (hk _).2 ?_⟩
    rw [List.drop_eq_getElem_cons hc]
    exact List.mem_cons_self
  · intro chi h
    have hcon := hinv.sat 1 (by omega) ⟨S.length - 1, by omega, fun i hi => by
      obtain rfl : i = 0 := by omega
      intro chi' h'
      have := hchi chi' h'
      omega⟩ cut (mem_chooseCut hcut) 0 (by omega) chi h
    have : List.count true ((List.range S.length).map fun i => decide (i ∈ piv.drop cut))
        = (piv.drop cut).length := by
      rw [List.count, List.countP_map, ← List.Perm.countP_eq _ hp, hsplit, List.countP_append]
      have e1 : List.countP ((fun x => x == true) ∘ fun i => decide (i ∈ piv.drop cut))
          (piv.take cut) = 0 := by
        rw [List.countP_eq_zero]
        intro i hi
        simpa using hdis i hi
      have e2 : List.countP ((fun x => x == true) ∘ fun i => decide (i ∈ piv.drop cut))
          (piv.drop cut) = (piv.drop cut).length := by
        rw [List.countP_eq_length]
        intro i hi
        simpa using hi
      rw [← hsplit, e1, e2, Nat.zero_add]
    rw [this, List.length_drop, hlen]
    omega
  · intro i _ j hj hki hkj
    rw [hk] at hki hkj
    have := hin j hj hkj
    rw [hsplit, List.pairwise_append] at hs
    exact hs.2.2 j this i hki
  · rw [sum_filter_perm hp.symm]
    conv_rhs => rw [hsplit]
    rw [List.filter_append]
    have e1 : (piv.take cut).filter (fun i => decide (¬ Kept ((List.range S.length).map
        fun i => decide (i ∈ piv.drop cut)) i)) = piv.take cut := by
      rw [List.filter_eq_self]
      intro i hi
      simp only [hk]
      simpa using hdis i hi
    have e2 : (piv.drop cut).filter (fun i => decide (¬ Kept ((List.range S.length).map
        fun i => decide (i ∈ piv.drop cut)) i)) = [] := by
      rw [List.filter_eq_nil_iff]
      intro i hi
      simp only [hk]
      simpa using hi
    rw [← hsplit, e1, e2, List.append_nil]
  · rw [sum_filter_perm hp.symm]
    conv_rhs => rw [hsplit]
    rw [List.filter_append]
    have e1 : (piv.take cut).filter (fun i => decide (Kept ((List.range S.length).map
        fun i => decide (i ∈ piv.drop cut)) i)) = [] := by
      rw [List.filter_eq_nil_iff]
      intro i hi
      simp only [hk]
      simpa using hdis i hi
    have e2 : (piv.drop cut).filter (fun i => decide (Kept ((List.range S.length).map
        fun i => decide (i ∈ piv.drop cut)) i)) = piv.drop cut := by
      rw [List.filter_eq_self]
      intro i hi
      simp only [hk]
      simpa using hi
    rw [← hsplit, e1, e2, List.nil_append]

private theorem count_kept {n : ℕ} {piv : List ℕ} (hp : piv.Perm (List.range n)) (cut : ℕ) :
    List.count true ((List.range n).map fun i => decide (i ∈ piv.drop cut)) = n - cut := by
  have hlen : piv.length = n := by simpa using hp.length_eq
  have hnd : piv.Nodup := hp.nodup_iff.2 List.nodup_range
  have hsplit : piv = piv.take cut ++ piv.drop cut := (List.take_append_drop _ _).symm
  have hdis : ∀ i ∈ piv.take cut, i ∉ piv.drop cut := by
    rw [hsplit, List.nodup_append] at hnd
    exact fun i hi hi' => hnd.2.2 i hi i hi' rfl
  rw [List.count, List.countP_map, ← List.Perm.countP_eq _ hp]
  conv_lhs => rw [hsplit]
  rw [List.countP_append]
  have e1 : List.countP ((fun x => x == true) ∘ fun i => decide (i ∈ piv.drop cut))
      (piv.take cut) = 0 := by
    rw [List.countP_eq_zero]
    intro i hi
    simpa using hdis i hi
  have e2 : List.countP ((fun x => x == true) ∘ fun i => decide (i ∈ piv.drop cut))
      (piv.drop cut) = (piv.drop cut).length := by
    rw [List.countP_eq_length]
    intro i hi
    simpa using hi
  rw [← hsplit, e1, e2, Nat.zero_add, List.length_drop, hlen]

/-- **C18**: the constraints are honoured in the documented order of priority `chi_max`,
`chi_min`, `degeneracy_tol`, `svd_min`, `trunc_cut`: whenever *some* cut satisfies the first `k`
of them, the chosen one does.  If all five can be satisfied, the chosen cut discards as little as
possible (`minimize_error`) or as much as possible among the cuts that satisfy them all. -/
theorem C18_priority {argsort : List K → List ℕ} (ha : IsArgsort argsort) (lg : K → K)
    (S : List K) (q : Option (List K)) (hq : QOk S q) (o : Opts K) (hn : S ≠ [])
    (hchi : ∀ chi, o.chiMax = some chi → 1 ≤ chi) :
    ∃ mask err newNorm piv cut, select argsort lg S q o = some (mask, err, newNorm) ∧
      piv.Perm (List.range S.length) ∧ piv.Pairwise (fun i j => weight S q i ≤ weight S q j) ∧
      cut < S.length ∧ (∀ i < S.length, Kept mask i ↔ i ∈ piv.drop cut) ∧
      mask.count true = S.length - cut ∧
      (∀ k ≤ 5, (∃ c < S.length, ∀ i < k, constraint lg o S q piv i c) →
        ∀ i < k, constraint lg o S q piv i cut) ∧
      (∀ c < S.length, (∀ i < 5, constraint lg o S q piv i c) →
        if o.minimizeError then cut ≤ c else c ≤ cut) := by
  have hn' : 0 < S.length := List.length_pos_of_ne_nil hn
  obtain ⟨piv, -, hp, hs, g, hinv, cut, hlt, hcut, hsel⟩ :=
    select_spec ha lg S q hq o hn' hchi
  have hpl : ∀ i ∈ piv, i < S.length := fun i hi => by simpa using hp.mem_iff.1 hi
  refine ⟨_, _, _, piv, cut, hsel, hp, hs, hlt,
    fun i _ => kept_iff (fun i hi => hpl i (List.mem_of_mem_drop hi)) i,
    count_kept hp cut, fun k hk hex => hinv.sat k hk hex cut (mem_chooseCut hcut), ?_⟩
  intro c hc hall
  have hat := hinv.all ⟨c, hc, hall⟩ c hc hall
  cases hm : o.minimizeError with
  | true => rw [hm] at hcut; exact chooseCut_min hcut c hat
  | false => rw [hm] at hcut; exact chooseCut_max hcut c hat

/-- **C18**: with `chi_min` at most the number of singular values and at most `chi_max`, at least
`chi_min` values are kept, whatever the other options. -/
theorem C18_chi_min {argsort : List K → List ℕ} (ha : IsArgsort argsort) (lg : K → K)
    (S : List K) (q : Option (List K)) (hq : QOk S q) (o : Opts K) (hn : S ≠ [])
    (hchi : ∀ chi, o.chiMax = some chi → 1 ≤ chi ∧ o.chiMin ≤ chi)
    (hmin : o.chiMin ≤ S.length) :
    ∃ mask err newNorm, select argsort lg S q o = some (mask, err, newNorm) ∧
      o.chiMin ≤ (mask.count true : ℤ) := by
  have hn' : 0 < S.length := List.length_pos_of_ne_nil hn
  obtain ⟨mask, err, nn, piv, cut, hsel, -, -, hcut, -, hcount, hpri, -⟩ :=
    C18_priority ha lg S q hq o hn fun chi h => (hchi chi h).1
  refine ⟨mask, err, nn, hsel, ?_⟩
  have := hpri 2 (by omega) (by
    rcases le_or_gt o.chiMin 1 with h1 | h1
    · refine ⟨S.length - 1, by omega, fun i hi => ?_⟩
      obtain rfl | rfl : i = 0 ∨ i = 1 := by omega
      · intro chi h; have := (hchi chi h).1; omega
      · show o.chiMin ≤ (S.length : ℤ) - _; omega
    · refine ⟨S.length - o.chiMin.toNat, by omega, fun i hi => ?_⟩
      obtain rfl | rfl : i = 0 ∨ i = 1 := by omega
      · intro chi h; have := (hchi chi h).2; omega
      · show o.chiMin ≤ (S.length : ℤ) - _; omega) 1 (by omega)
  have this : o.chiMin ≤ (S.length : ℤ) - cut := this
  rw [hcount]
  omega

/-- **C18**, the defect: `chi_max = 0` is silently ignored -- it gives the same selection as
no `chi_max` at all, for every spectrum and all other options -- because the slice `[-0:]`
selects everything. -/
theorem C18_chi_max_zero_is_ignored (argsort : List K → List ℕ) (lg : K → K) (S : List K)
    (q : Option (List K)) (o : Opts K) (h : o.chiMax = some 0) :
    select argsort lg S q o = select argsort lg S q { o with chiMax := none } := by
  have key : ∀ S' marg, goodCuts lg o S' marg = goodCuts lg { o with chiMax := none } S' marg := by
    intro S' marg
    unfold goodCuts
    unfold chiMaxStep
    simp only [h]
    by_cases hn : (0 : ℤ) < S'.length
    · rw [if_pos hn]
      have : combineConstraints (List.replicate S'.length true)
          (setFrom (List.replicate S'.length false) (-0) true) =
          List.replicate S'.length true := by
        have e : setFrom (List.replicate S'.length false) (-0) true
            = List.replicate S'.length true := by
          apply List.ext_getElem
          · simp
          · intro i h1 h2
            simp [setFrom, sliceStart]
        rw [e]
        unfold combineConstraints
        simp
      rw [this]; rfl
    · rw [if_neg hn]; rfl
  unfold select
  simp only [key]

/-- A witness of the defect: three values, `chi_max = 0`, all three are kept. -/
theorem C18_chi_max_zero_witness :
    ∃ mask err nn, select stableArgsort id ([1, 2, 3] : List ℚ) none
      { chiMax := some 0, chiMin := 1, degTol := 0, truncCut := 0, svdMin := none,
        minimizeError := true } = some (mask, err, nn) ∧ mask.count true = 3 := by
  exact ⟨[true, true, true], 0, 14, by decide +kernel, by decide⟩

/-- The stable sort is an `argsort` (the hypotheses on `argsort` can be met). -/
theorem stableArgsort_isArgsort : IsArgsort (stableArgsort (K := K)) where
  perm l := List.perm_insertionSort _ _
  sorted l := by
    have : Std.Total (fun i j : ℕ => l.getD i 0 ≤ l.getD j 0) := ⟨fun a b => le_total _ _⟩
    have : IsTrans ℕ (fun i j : ℕ => l.getD i 0 ≤ l.getD j 0) := ⟨fun a b c => le_trans⟩
    exact List.pairwise_insertionSort _ _

-- a truncation in which several constraints are active
example : select stableArgsort id ([4, 1, 3, 2] : List ℚ) (some [1, 1, 1, 2])
    { chiMax := some 3, chiMin := 2, degTol := 0, truncCut := 0, svdMin := some 2,
      minimizeError := true } = some ([true, false, true, true], 1, 33) := by decide +kernel

/-! ## C19 -/

/-- The squared norm of a list of singular values with quantum dimensions. -/
def sqNorm (S : List K) (q : Option (List K)) : K :=
  ((List.range S.length).map (weight S q)).sum

omit [LinearOrder K] in
private theorem sum_range_filter (n : ℕ) (p : ℕ → Bool) (f : ℕ → K) :
    (((List.range (n + 1)).filter p).map f).sum =
      (if p 0 then f 0 else 0) + (((List.range n).filter (p ∘ Nat.succ)).map (f ∘ Nat.succ)).sum := by
  rw [List.range_succ_eq_map, List.filter_cons]
  split_ifs with h <;> simp [List.filter_map, Function.comp_def]

private theorem applyMask_cons (α : Type) (s : α) (S : List α) (b : Bool) (m : List Bool) :
    applyMask (s :: S) (b :: m) = if b then s :: applyMask S m else applyMask S m := by
  unfold applyMask
  cases b <;> simp

omit [Field K] [LinearOrder K] in
private theorem applyMask_len {S q : List K} (h : q.length = S.length) (m : List Bool) :
    (applyMask q m).length = (applyMask S m).length := by
  induction S generalizing q m with
  | nil => simp at h; subst h; rfl
  | cons s S ih =>
    cases q with
    | nil => simp at h
    | cons a q =>
      cases m with
      | nil => simp [applyMask]
      | cons b m =>
        simp only [applyMask_cons]
        have := ih (q := q) (by simpa using h) m
        split_ifs <;> simp [this]

omit [LinearOrder K] in
private theorem sqNorm_none (S : List K) : sqNorm S none = (S.map (· ^ 2)).sum := by
  unfold sqNorm
  congr 1
  apply List.ext_getElem
  · simp
  · intro i h1 h2
    simp at h2
    simp [weight, List.getElem?_eq_getElem h2]

omit [LinearOrder K] in
private theorem sqNorm_some (S q : List K) (h : q.length = S.length) :
    sqNorm S (some q) = (List.zipWith (fun a s => a * s ^ 2) q S).sum := by
  unfold sqNorm
  congr 1
  apply List.ext_getElem
  · simp [h]
  · intro i h1 h2
    simp [h] at h2
    have h2' : i < q.length := by omega
    simp [weight, List.getElem?_eq_getElem h2, List.getElem?_eq_getElem h2']

omit [LinearOrder K] in
private theorem sqNorm_applyMask (S : List K) (q : Option (List K)) (hq : QOk S q)
    (m : List Bool) (hm : m.length = S.length) (r : K) :
    sqNorm ((applyMask S m).map (· * r)) (q.map fun q => applyMask q m) =
      r ^ 2 * (((List.range S.length).filter fun i => Kept m i).map (weight S q)).sum := by
  cases q with
  | none =>
    simp only [Option.map_none, sqNorm_none]
    clear hq
    induction S generalizing m with
    | nil => simp [applyMask]
    | cons s S ih =>
      cases m with
      | nil => simp at hm
      | cons b m =>
        have := ih m (by simpa using hm)
        rw [applyMask_cons, List.length_cons, sum_range_filter]
        have e : ((fun i => decide (Kept (b :: m) i)) ∘ Nat.succ) = fun i => decide (Kept m i) := by
          funext i; simp [Kept]
        have e' : weight (s :: S) none ∘ Nat.succ = weight S none := by
          funext i; simp [weight]
        rw [e, e', mul_add, ← this]
        cases b <;> simp [Kept, weight, mul_pow] <;> ring
  | some q =>
    simp only [QOk] at hq
    simp only [Option.map_some]
    rw [sqNorm_some _ _ (by simp [applyMask_len hq])]
    induction S generalizing m q with
    | nil => simp at hq; subst hq; simp [applyMask]
    | cons s S ih =>
      cases m with
      | nil => simp at hm
      | cons b m =>
        cases q with
        | nil => simp at hq
        | cons a q =>
          have := ih m (by simpa using hm) q (by simpa using hq)
          rw [applyMask_cons, applyMask_cons, List.length_cons, sum_range_filter]
          have e : ((fun i => decide (Kept (b :: m) i)) ∘ Nat.succ)
              = fun i => decide (Kept m i) := by
            funext i; simp [Kept]
          have e' : weight (s :: S) (some (a :: q)) ∘ Nat.succ = weight S (some q) := by
            funext i; simp [weight]
          rw [e, e', mul_add, ← this]
          cases b <;> simp [Kept, weight, mul_pow] <;> ring

omit [LinearOrder K] in
private theorem weight_div (S : List K) (q : Option (List K)) (N : K) :
    weight (S.map (· / N)) q = fun i => weight S q i / N ^ 2 := by
  funext i
  have : (S.map (· / N)).getD i 0 = S.getD i 0 / N := by
    by_cases h : i < S.length
    · rw [List.getD_eq_getElem _ _ (by simpa using h), List.getD_eq_getElem _ _ h]; simp
    · rw [List.getD_eq_default _ _ (by simpa using h), List.getD_eq_default _ _ (by simpa using h)]
      simp
  cases q <;> simp only [weight, this] <;> ring

omit [LinearOrder K] in
private theorem sum_div (l : List ℕ) (f : ℕ → K) (c : K) :
    (l.map fun i => f i / c).sum = (l.map f).sum / c := by
  induction l with
  | nil => simp
  | cons x xs ih => simp [ih, add_div]

omit [LinearOrder K] in
private theorem sum_filter_split (l : List ℕ) (f : ℕ → K) (p : ℕ → Prop) [DecidablePred p] :
    ((l.filter fun i => ¬ p i).map f).sum + ((l.filter fun i => p i).map f).sum
      = (l.map f).sum := by
  induction l with
  | nil => simp
  | cons x xs ih =>
    by_cases h : p x <;> simp [h] at ih ⊢ <;> rw [← ih] <;> ring

private theorem kept_weight_ne_zero [IsStrictOrderedRing K] (S : List K) (q : Option (List K))
    (mask : List Bool) (h0 : ∀ i < S.length, 0 ≤ weight S q i) (hne : sqNorm S q ≠ 0)
    (hex : ∃ i < S.length, Kept mask i)
    (hup : ∀ i < S.length, ∀ j < S.length, Kept mask i → ¬ Kept mask j →
        weight S q j ≤ weight S q i) :
    (((List.range S.length).filter fun i => Kept mask i).map (weight S q)).sum ≠ 0 := by
  intro hz
  apply hne
  have hall : ∀ i < S.length, Kept mask i → weight S q i = 0 := by
    intro i hi hk
    refine (List.all_zero_of_le_zero_le_of_sum_eq_zero (l := ((List.range S.length).filter
      fun i => Kept mask i).map (weight S q)) ?_ hz) ?_
    · intro y hy
      obtain ⟨j, hj, rfl⟩ := List.mem_map.1 hy
      exact h0 j (by simpa using (List.mem_filter.1 hj).1)
    · exact List.mem_map.2 ⟨i, List.mem_filter.2 ⟨by simpa using hi, by simpa using hk⟩, rfl⟩
  obtain ⟨i, hi, hk⟩ := hex
  unfold sqNorm
  apply List.sum_eq_zero
  intro y hy
  obtain ⟨j, hj, rfl⟩ := List.mem_map.1 hy
  have hj : j < S.length := by simpa using hj
  by_cases hkj : Kept mask j
  · exact hall j hj hkj
  · exact le_antisymm (le_of_le_of_eq (hup i hi j hj hk hkj) (hall i hi hk)) (h0 j hj)

/-- **C19** (partial): for every non-zero spectrum, `truncated_svd(..., normalize_to=x)` returns
singular values `S'` with `norm(S')^2 * (1 - err) = x^2`, where `err` is the reported (relative,
squared) truncation error, which is not `1`.  The property asks for `norm(S')^2 = x^2`. -/
theorem C19_norm_partial [IsStrictOrderedRing K] {argsort : List K → List ℕ}
    (ha : IsArgsort argsort) (lg : K → K)
    (N : K) (S : List K) (q : Option (List K)) (hq : QOk S q)
    (h0 : ∀ i < S.length, 0 ≤ weight S q i) (o : Opts K) (hn : S ≠ [])
    (hchi : ∀ chi, o.chiMax = some chi → 1 ≤ chi) (hN : N ≠ 0) (hN2 : N ^ 2 = sqNorm S q) (x : K) :
    ∃ S' q' err r, truncatedSvd argsort lg N S q o (some x) = some (S', q', err, r) ∧
      err ≠ 1 ∧ sqNorm S' q' * (1 - err) = x ^ 2 := by
  obtain ⟨mask, err, nn, hsel, hlen, hex, -, hup, herr, hnn⟩ :=
    C18_selection ha lg (S.map (· / N)) q (by cases q <;> simpa [QOk] using hq) o (by simpa using hn)
      hchi
  have hN2pos : 0 < N ^ 2 := by positivity
  refine ⟨_, _, err, _, by simp only [truncatedSvd, hsel]; rfl, ?_⟩
  rw [sqNorm_applyMask S q hq mask (by simpa using hlen)]
  simp only [weight_div] at herr hnn hup
  rw [sum_div] at herr hnn
  simp only [List.length_map] at herr hnn hex hup
  have hsum : err + nn = 1 := by
    rw [herr, hnn, ← add_div, sum_filter_split]
    change sqNorm S q / N ^ 2 = 1
    rw [← hN2]
    exact div_self (pow_ne_zero 2 hN)
  have hk := kept_weight_ne_zero S q mask h0 (by rw [← hN2]; exact pow_ne_zero 2 hN) hex
    (fun i hi j hj h1 h2 => (div_le_div_iff_of_pos_right hN2pos).1 (hup i hi j hj h1 h2))
  have hnn0 : nn ≠ 0 := by
    rw [hnn]
    exact div_ne_zero hk hN2pos.ne'
  refine ⟨fun h => hnn0 (by rw [h] at hsum; exact add_eq_left.1 hsum), ?_⟩
  have : 1 - err = nn := by rw [← hsum]; ring
  rw [this]
  have h2 : (((List.range S.length).filter fun i => Kept mask i).map (weight S q)).sum
      = nn * N ^ 2 := by
    rw [hnn]; field_simp
  rw [h2]
  field_simp

/-- **C19**, the defect: for `x ≠ 0` the documented normalisation `norm(S') = x` holds *exactly*
if the truncation error is zero. -/
theorem C19_normalised_iff_no_truncation [IsStrictOrderedRing K] {argsort : List K → List ℕ}
    (ha : IsArgsort argsort) (lg : K → K) (N : K) (S : List K) (q : Option (List K)) (hq : QOk S q)
    (h0 : ∀ i < S.length, 0 ≤ weight S q i) (o : Opts K)
    (hn : S ≠ []) (hchi : ∀ chi, o.chiMax = some chi → 1 ≤ chi) (hN : N ≠ 0)
    (hN2 : N ^ 2 = sqNorm S q) (x : K) (hx : x ≠ 0) :
    ∃ S' q' err r, truncatedSvd argsort lg N S q o (some x) = some (S', q', err, r) ∧
      (sqNorm S' q' = x ^ 2 ↔ err = 0) := by
  obtain ⟨S', q', err, r, h1, -, this⟩ := C19_norm_partial ha lg N S q hq h0 o hn hchi hN hN2 x
  refine ⟨S', q', err, r, h1, ?_⟩
  constructor
  · intro h
    rw [h] at this
    have hx2 : x ^ 2 ≠ 0 := pow_ne_zero 2 hx
    have : 1 - err = 1 := by
      have h3 : x ^ 2 * (1 - err) = x ^ 2 * 1 := by rw [this, mul_one]
      exact mul_left_cancel₀ hx2 h3
    have h4 : err = 1 - (1 - err) := by ring
    rw [h4, this, sub_self]
  · intro h
    rw [h, sub_zero, mul_one] at this
    exact this

/-- A witness of the defect: `S = [3, 4]` (norm 5), `chi_max = 1`, `normalize_to = 1`: the
returned singular value is `5/4`, not `1`. -/
theorem C19_witness :
    truncatedSvd stableArgsort id 5 ([3, 4] : List ℚ) none
      { chiMax := some 1, chiMin := 1, degTol := 0, truncCut := 0, svdMin := none,
        minimizeError := true } (some 1) = some ([5 / 4], none, 9 / 25, 5 / 16) ∧
    sqNorm ([5 / 4] : List ℚ) none ≠ 1 ^ 2 ∧ (5 : ℚ) ^ 2 = sqNorm ([3, 4] : List ℚ) none := by
  refine ⟨by decide +kernel, by decide +kernel, by decide +kernel⟩

end Cyten.Props
