import Verif.Lemmas.Planar
import Verif.Lemmas.PlanarEngine

/-! # The calls of `permute_legs` made by `planar_permute_legs` -/

namespace Cyten.Planar
open Cyten.Permute Cyten.Permute.Spec Cyten.Props Cyten.Tools

/-! ## Renaming the legs -/

theorem swapNext_map (f : ℕ → ℕ) (l : List ℕ) (i : ℕ) : swapNext (l.map f) i = (swapNext l i).map f := by
  rw [swapNext_eq, swapNext_eq]
  unfold swapAdj
  rw [List.getElem?_map, List.getElem?_map]
  cases l[i]? with
  | none => rfl
  | some x => cases l[i + 1]? <;> simp [List.map_set]

theorem apply_map (f : ℕ → ℕ) {i : Instr} {s : List ℕ × List ℕ} {r : (List ℕ × List ℕ) × Option (ℕ × ℕ × Bool)}
    (h : i.apply s = some r) : ∃ q, i.apply (s.1.map f, s.2.map f) = some ((r.1.1.map f, r.1.2.map f), q) := by
  obtain ⟨c, d⟩ := s
  cases i with
  | braid cod i o =>
    cases cod with
    | true =>
      simp only [Instr.apply] at h ⊢
      rw [List.getElem?_map, List.getElem?_map, swapNext_map]
      cases hx : c[i]? with
      | none => rw [hx] at h; simp at h
      | some x =>
        cases hy : c[i + 1]? with
        | none => rw [hx, hy] at h; simp at h
        | some y =>
          rw [hx, hy] at h
          simp only [Option.some.injEq] at h
          subst h
          exact ⟨_, rfl⟩
    | false =>
      simp only [Instr.apply] at h ⊢
      rw [List.getElem?_map, List.getElem?_map, swapNext_map]
      cases hx : d[i]? with
      | none => rw [hx] at h; simp at h
      | some x =>
        cases hy : d[i + 1]? with
        | none => rw [hx, hy] at h; simp at h
        | some y =>
          rw [hx, hy] at h
          simp only [Option.some.injEq] at h
          subst h
          exact ⟨_, rfl⟩
  | bend down =>
    cases down with
    | true =>
      simp only [Instr.apply, Option.map_eq_some_iff] at h ⊢
      obtain ⟨x, hx, rfl⟩ := h
      exact ⟨none, f x, by rw [List.getLast?_map, hx]; rfl, by simp⟩
    | false =>
      simp only [Instr.apply, Option.map_eq_some_iff] at h ⊢
      obtain ⟨x, hx, rfl⟩ := h
      exact ⟨none, f x, by rw [List.getLast?_map, hx]; rfl, by simp⟩
  | twist cod idcs o =>
    refine ⟨none, ?_⟩
    have hl : (if cod = true then c.map f else d.map f).length = (if cod = true then c else d).length := by
      cases cod <;> simp
    simp only [Instr.apply] at h ⊢
    by_cases hc : idcs ≠ [] ∧ ∀ i ∈ idcs, i < (if cod = true then c else d).length
    · rw [if_pos hc] at h
      simp only [Option.some.injEq] at h
      subst h
      rw [hl, if_pos hc]
    · rw [if_neg hc] at h
      cases h

theorem execute_map (f : ℕ → ℕ) {is : List Instr} {s : List ℕ × List ℕ} {r : (List ℕ × List ℕ) × List (ℕ × ℕ × Bool)}
    (h : execute is s = some r) : ∃ q, execute is (s.1.map f, s.2.map f) = some ((r.1.1.map f, r.1.2.map f), q) := by
  induction is generalizing s r with
  | nil =>
    simp only [execute, Option.some.injEq] at h
    subst h
    exact ⟨[], rfl⟩
  | cons i is ih =>
    simp only [execute, Option.bind_eq_some_iff, Option.map_eq_some_iff] at h
    obtain ⟨r1, h1, r2, h2, rfl⟩ := h
    obtain ⟨q1, h3⟩ := apply_map f h1
    obtain ⟨q2, h4⟩ := ih h2
    exact ⟨q1.toList ++ q2, by simp only [execute, h3, Option.bind_some, h4, Option.map_some]⟩

/-! ## One call -/

theorem rangeOf_all (K D : ℕ) : (List.range K, (List.range' K D).reverse) = initialLegs K D := rfl

/-- A call without crossings. -/
theorem call_ok {K D p1 p2 q1 q2 : ℕ} (h1 : p1 ≤ p2) (h2 : p2 ≤ K) (h3 : K ≤ q1) (h4 : q1 ≤ q2) (h5 : q2 ≤ K + D)
    (e1 : p2 = K ∨ q1 = K) (e2 : p1 = 0 ∨ q2 = K + D) {cod dom : List ℕ} {br : List (Option Bool)}
    (hc : cod = rangeOf q2 (K + D) ++ rangeOf p1 p2 ++ rangeOf K q1)
    (hd : dom = (rangeOf p2 K ++ rangeOf q1 q2 ++ rangeOf 0 p1).reverse)
    (b1 : ∀ x, x < p1 → br[x]? = some (some false)) (b2 : ∀ x, p2 ≤ x → x < K → br[x]? = some (some true))
    (b3 : ∀ x, K ≤ x → x < q1 → br[x]? = some (some true))
    (b4 : ∀ x, q2 ≤ x → x < K + D → br[x]? = some (some false)) (levels : List (Option ℤ)) (sym : Bool) :
    ∃ is tr, instructions K D cod dom levels br sym = .ok is ∧ execute is (initialLegs K D) = some ((cod, dom), tr) := by
  have hnew : newLegs cod dom = rangeOf q2 (K + D) ++ rangeOf p1 p2 ++ rangeOf K q1 ++
      (rangeOf p2 K ++ rangeOf q1 q2 ++ rangeOf 0 p1) := by
    rw [newLegs, hc, hd, List.reverse_reverse]
  have hN : List.range (K + D) = rangeOf 0 p1 ++ rangeOf p1 p2 ++ rangeOf p2 K ++
      (rangeOf K q1 ++ rangeOf q1 q2 ++ rangeOf q2 (K + D)) := by
    rw [rangeOf_append (by omega) h1, rangeOf_append (by omega) h2, rangeOf_append h3 h4,
      rangeOf_append (by omega) h5, rangeOf_append (by omega) (by omega), rangeOf_zero]
  have hperm : (newLegs cod dom).Perm (List.range (K + D)) := by
    rw [hnew, hN]
    rw [List.perm_iff_count]
    intro x
    simp only [List.count_append]
    omega
  have hnd : (newLegs cod dom).Nodup := hperm.nodup_iff.2 List.nodup_range
  have hlen : (newLegs cod dom).length = K + D := by simpa using hperm.length_eq
  have hcl : cod.length = K + D - q2 + (p2 - p1) + (q1 - K) := by rw [hc]; simp; omega
  have hv : Valid K D cod dom br := by
    refine ⟨?_, ?_⟩
    · refine (List.Perm.append_left _ (List.reverse_perm dom).symm).trans hperm
    · rintro x (⟨hx, hx'⟩ | ⟨hx, hx'⟩)
      · rw [hd] at hx'
        simp only [List.mem_reverse, List.mem_append, mem_rangeOf] at hx'
        by_cases hp : x < p1
        · exact ⟨_, b1 x hp⟩
        · exact ⟨_, b2 x (by omega) hx⟩
      · rw [hc] at hx'
        simp only [List.mem_append, mem_rangeOf] at hx'
        by_cases hp : x < q1
        · exact ⟨_, b3 x hx hp⟩
        · exact ⟨_, b4 x (by omega) (by omega)⟩
  obtain ⟨e, he, hrel⟩ := make_spec (levels := levels) (sym := sym) hv
  have hidx : ∀ x, x < K + D → ((newLegs cod dom).idxOf x < cod.length ↔ x ∈ cod) := by
    intro x hx
    constructor
    · intro hi
      by_contra hm
      unfold newLegs at hi
      rw [List.idxOf_append_of_notMem hm] at hi
      omega
    · intro hm
      unfold newLegs
      rw [List.idxOf_append_of_mem hm]
      exact List.idxOf_lt_length_of_mem hm
  have hcm : ∀ x, x ∈ cod ↔ (q2 ≤ x ∧ x < K + D) ∨ (p1 ≤ x ∧ x < p2) ∨ (K ≤ x ∧ x < q1) := by
    intro x
    rw [hc]
    simp only [List.mem_append, mem_rangeOf, or_assoc]
  have hdir : ∀ x b, x < K + D → ¬ (x < K ↔ x ∈ cod) → br[x]? = some (some b) →
      (cfgOf K D cod dom levels br sym).dir x = b := by
    intro x b hx hne hb
    simp only [cfgOf]
    rw [if_neg (by rw [decide_eq_decide, hidx x hx]; exact hne), hb]
    cases b <;> rfl
  have hno : NoChir e.evaluate := by
    refine evaluate_planar (c := cfgOf K D cod dom levels br sym) (Ls := rangeOf 0 p1) (St := rangeOf p1 p2)
      (Rs := rangeOf p2 K) (Rd := rangeOf K q1) (Sd := rangeOf q1 q2) (Ld := rangeOf q2 (K + D)) hN ?_ hrel ?_ ?_
      ?_ ?_ ?_ ?_ ?_ ?_
    · simp [cfgOf]; omega
    · rw [← hnew]
      simp only [cfgOf]
      rw [← hlen]
      apply List.ext_getElem
      · simp
      · intro i hi hi'
        rw [List.getElem_map, List.getElem_range, List.Nodup.idxOf_getElem hnd]
    · simp only [cfgOf, length_rangeOf]; omega
    · intro x hx
      rw [mem_rangeOf] at hx
      exact hdir x _ (by omega) (by rw [hcm]; omega) (b1 x hx.2)
    · intro x hx
      rw [mem_rangeOf] at hx
      exact hdir x _ (by omega) (by rw [hcm]; omega) (b2 x hx.1 hx.2)
    · intro x hx
      rw [mem_rangeOf] at hx
      exact hdir x _ (by omega) (by rw [hcm]; omega) (b4 x hx.1 hx.2)
    · intro x hx
      rw [mem_rangeOf] at hx
      exact hdir x _ (by omega) (by rw [hcm]; omega) (b3 x hx.1 hx.2)
    · exact e1.imp (fun h => rangeOf_nil (by omega)) (fun h => rangeOf_nil (by omega))
    · exact e2.imp (fun h => rangeOf_nil (by omega)) (fun h => rangeOf_nil (by omega))
  have hi : instructions K D cod dom levels br sym = e.evaluate := by
    unfold instructions
    rw [he]; rfl
  rcases instructions_spec (levels := levels) (sym := sym) hv with ⟨is, i1, tr, i2, -⟩ | ⟨i1, -⟩
  · exact ⟨is, tr, i1, i2⟩
  · rw [hi] at i1
    exact absurd i1 hno

end Cyten.Planar
