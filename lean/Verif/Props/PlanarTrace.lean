import Verif.Model.PlanarTrace
import Verif.Props.PlanarContract

/-!
# C77: `planar_partial_trace` accepts exactly the planar traces
-/

namespace Cyten.Planar.Spec

/-- The leg `x` is between the two legs of the pair, in the order of `tensor.legs`. -/
def Between (x : ℕ) (p : ℕ × ℕ) : Prop := min p.1 p.2 < x ∧ x < max p.1 p.2

/-- The leg `x` belongs to a pair. -/
def Traced (pairs : List (ℕ × ℕ)) (x : ℕ) : Prop := ∃ p ∈ pairs, x = p.1 ∨ x = p.2

/-- No two loops cross: both legs of a pair are on the same side of any other pair. -/
def NonCrossing (pairs : List (ℕ × ℕ)) : Prop := ∀ p ∈ pairs, ∀ q ∈ pairs, (Between q.1 p ↔ Between q.2 p)

/-- The loop of the pair `p` can be closed around legs that are traced themselves: the legs between, or all the
other legs. -/
def Closes (n : ℕ) (pairs : List (ℕ × ℕ)) (p : ℕ × ℕ) : Prop :=
  (∀ x, Between x p → Traced pairs x) ∨ ∀ x < n, x ≠ p.1 → x ≠ p.2 → ¬ Between x p → Traced pairs x

/-- The pairs of legs of a tensor with `n` legs can be connected in the plane. -/
def PlanarTrace (n : ℕ) (pairs : List (ℕ × ℕ)) : Prop :=
  (pairs.flatMap fun p => [p.1, p.2]).Nodup ∧ NonCrossing pairs ∧ ∀ p ∈ pairs, Closes n pairs p

end Cyten.Planar.Spec

namespace Cyten.Planar
open Cyten.Planar.Spec Cyten.Props

theorem mem_traced {pairs : List (ℕ × ℕ)} {x : ℕ} : x ∈ (pairs.flatMap fun p => [p.1, p.2]) ↔ Traced pairs x := by
  simp [Traced, List.mem_flatMap]

theorem partners_nil {pairs : List (ℕ × ℕ)} {x : ℕ} (h : ¬ Traced pairs x) : partners pairs x = [] := by
  unfold partners
  rw [List.flatMap_eq_nil_iff]
  intro p hp
  have h1 : ¬ (x = p.1 ∨ x = p.2) := fun hc => h ⟨p, hp, hc⟩
  push Not at h1
  rw [if_neg (Ne.symm h1.2), if_neg (Ne.symm h1.1)]; rfl

theorem partners_of_mem {pairs : List (ℕ × ℕ)} (hnd : (pairs.flatMap fun p => [p.1, p.2]).Nodup) {p : ℕ × ℕ}
    (hp : p ∈ pairs) : partners pairs p.1 = [p.2] ∧ partners pairs p.2 = [p.1] := by
  induction pairs with
  | nil => simp at hp
  | cons q qs ih =>
    rw [List.flatMap_cons] at hnd
    obtain ⟨h1, h2, h3⟩ := List.nodup_append.1 hnd
    have hq : q.1 ≠ q.2 := by simpa using h1
    have hu : ∀ l, partners (q :: qs) l = ((if q.2 = l then [q.1] else []) ++ (if q.1 = l then [q.2] else [])) ++
      partners qs l := fun l => by simp [partners]
    rcases List.mem_cons.1 hp with rfl | hp
    · have n1 : partners qs p.1 = [] := partners_nil fun hc =>
        h3 p.1 (by simp) p.1 (mem_traced.2 hc) rfl
      have n2 : partners qs p.2 = [] := partners_nil fun hc =>
        h3 p.2 (by simp) p.2 (mem_traced.2 hc) rfl
      rw [hu, hu, n1, n2, if_neg (Ne.symm hq), if_pos rfl, if_pos rfl, if_neg hq]
      exact ⟨rfl, rfl⟩
    · obtain ⟨i1, i2⟩ := ih h2 hp
      have t1 : Traced qs p.1 := ⟨p, hp, Or.inl rfl⟩
      have t2 : Traced qs p.2 := ⟨p, hp, Or.inr rfl⟩
      have a1 : ∀ y ∈ [q.1, q.2], ∀ x, Traced qs x → y ≠ x := fun y hy x hx => h3 y hy x (mem_traced.2 hx)
      rw [hu, hu, i1, i2, if_neg (a1 _ (by simp) _ t1), if_neg (a1 _ (by simp) _ t1),
        if_neg (a1 _ (by simp) _ t2), if_neg (a1 _ (by simp) _ t2)]
      exact ⟨rfl, rfl⟩

/-- What the loop over one half does. -/
theorem halfTraced_spec {pairs : List (ℕ × ℕ)} (hnd : (pairs.flatMap fun p => [p.1, p.2]).Nodup) (inside : Bool)
    (l1 l2 : ℕ) (ls : List ℕ) :
    ((∀ p ∈ pairs, (p.1 ∈ ls → decide (l1 < p.2 ∧ p.2 < l2) = inside) ∧
        (p.2 ∈ ls → decide (l1 < p.1 ∧ p.1 < l2) = inside)) →
      ∃ b, halfTraced pairs inside l1 l2 ls = .ok b ∧ (b = true ↔ ∀ x ∈ ls, Traced pairs x)) ∧
    ((∃ b, halfTraced pairs inside l1 l2 ls = .ok b) → ∀ p ∈ pairs,
      (p.1 ∈ ls → decide (l1 < p.2 ∧ p.2 < l2) = inside) ∧ (p.2 ∈ ls → decide (l1 < p.1 ∧ p.1 < l2) = inside)) := by
  induction ls with
  | nil => exact ⟨fun _ => ⟨true, rfl, by simp⟩, fun _ p _ => by simp⟩
  | cons l ls ih =>
    unfold halfTraced
    by_cases hm : l ∈ pairs.flatMap fun p => [p.1, p.2]
    · rw [if_pos hm]
      obtain ⟨p, hp, hor⟩ := mem_traced.1 hm
      obtain ⟨q1, q2⟩ := partners_of_mem hnd hp
      obtain ⟨o, ho, hpo⟩ : ∃ o, partners pairs l = [o] ∧ ((l = p.1 ∧ o = p.2) ∨ (l = p.2 ∧ o = p.1)) := by
        rcases hor with rfl | rfl
        · exact ⟨_, q1, Or.inl ⟨rfl, rfl⟩⟩
        · exact ⟨_, q2, Or.inr ⟨rfl, rfl⟩⟩
      rw [ho]
      simp only
      have hown : ∀ p' ∈ pairs, (p'.1 = l → p'.2 = o) ∧ (p'.2 = l → p'.1 = o) := by
        intro p' hp'
        obtain ⟨r1, r2⟩ := partners_of_mem hnd hp'
        refine ⟨?_, ?_⟩
        · rintro rfl; rw [ho] at r1; simpa using r1.symm
        · rintro rfl; rw [ho] at r2; simpa using r2.symm
      constructor
      · intro h
        have hd : decide (l1 < o ∧ o < l2) = inside := by
          rcases hpo with ⟨rfl, rfl⟩ | ⟨rfl, rfl⟩
          · exact (h p hp).1 (by simp)
          · exact (h p hp).2 (by simp)
        rw [if_pos hd]
        obtain ⟨b, hb1, hb2⟩ := ih.1 fun p' hp' =>
          ⟨fun hc => (h p' hp').1 (List.mem_cons_of_mem _ hc), fun hc => (h p' hp').2 (List.mem_cons_of_mem _ hc)⟩
        refine ⟨b, hb1, hb2.trans ⟨fun hx x hxl => ?_, fun hx x hxl => hx x (List.mem_cons_of_mem _ hxl)⟩⟩
        rcases List.mem_cons.1 hxl with rfl | hxl
        · exact mem_traced.1 hm
        · exact hx x hxl
      · rintro ⟨b, hb⟩
        by_cases hd : decide (l1 < o ∧ o < l2) = inside
        · rw [if_pos hd] at hb
          have := ih.2 ⟨b, hb⟩
          intro p' hp'
          refine ⟨fun hc => ?_, fun hc => ?_⟩
          · rcases List.mem_cons.1 hc with hc | hc
            · rw [(hown p' hp').1 hc]; exact hd
            · exact (this p' hp').1 hc
          · rcases List.mem_cons.1 hc with hc | hc
            · rw [(hown p' hp').2 hc]; exact hd
            · exact (this p' hp').2 hc
        · rw [if_neg hd] at hb; simp at hb
    · rw [if_neg hm]
      have hnt : ∀ p' ∈ pairs, p'.1 ≠ l ∧ p'.2 ≠ l := fun p' hp' =>
        ⟨fun hc => hm (mem_traced.2 ⟨p', hp', Or.inl hc.symm⟩), fun hc => hm (mem_traced.2 ⟨p', hp', Or.inr hc.symm⟩)⟩
      constructor
      · intro h
        obtain ⟨b, hb1, hb2⟩ := ih.1 fun p' hp' =>
          ⟨fun hc => (h p' hp').1 (List.mem_cons_of_mem _ hc), fun hc => (h p' hp').2 (List.mem_cons_of_mem _ hc)⟩
        refine ⟨false, by rw [hb1]; rfl, ⟨fun hc => by simp at hc, fun hc => ?_⟩⟩
        exact absurd (mem_traced.2 (hc l (by simp))) hm
      · rintro ⟨b, hb⟩
        rcases hr : halfTraced pairs inside l1 l2 ls with e | b'
        · rw [hr] at hb; simp [Except.map] at hb
        · have := ih.2 ⟨b', hr⟩
          intro p' hp'
          refine ⟨fun hc => ?_, fun hc => ?_⟩
          · rcases List.mem_cons.1 hc with hc | hc
            · exact absurd hc (hnt p' hp').1
            · exact (this p' hp').1 hc
          · rcases List.mem_cons.1 hc with hc | hc
            · exact absurd hc (hnt p' hp').2
            · exact (this p' hp').2 hc

section
variable {n : ℕ} {pairs : List (ℕ × ℕ)}

/-- The conditions for one pair. -/
theorem checkPair_spec (hnd : (pairs.flatMap fun p => [p.1, p.2]).Nodup) (hlt : ∀ x, Traced pairs x → x < n)
    {p : ℕ × ℕ} (hp : p ∈ pairs) :
    checkPair n pairs p = .ok () ↔ (∀ q ∈ pairs, (Between q.1 p ↔ Between q.2 p)) ∧ Closes n pairs p := by
  have hne : p.1 ≠ p.2 := by
    intro hc
    obtain ⟨r1, r2⟩ := partners_of_mem hnd hp
    obtain ⟨s, t, hs⟩ := List.append_of_mem hp
    rw [hs, List.flatMap_append, List.flatMap_cons] at hnd
    have := (List.nodup_append.1 (List.nodup_append.1 hnd).2.1).1
    simp [hc] at this
  have hl1 : p.1 < n := hlt _ ⟨p, hp, Or.inl rfl⟩
  have hl2 : p.2 < n := hlt _ ⟨p, hp, Or.inr rfl⟩
  unfold checkPair
  simp only
  rw [if_neg (by omega)]
  obtain ⟨i1, i2⟩ := halfTraced_spec hnd true (min p.1 p.2) (max p.1 p.2) (rangeOf (min p.1 p.2 + 1) (max p.1 p.2))
  obtain ⟨o1, o2⟩ := halfTraced_spec hnd false (min p.1 p.2) (max p.1 p.2) (rangeOf (max p.1 p.2 + 1) n)
  obtain ⟨u1, u2⟩ := halfTraced_spec hnd false (min p.1 p.2) (max p.1 p.2) (rangeOf 0 (min p.1 p.2))
  simp only [mem_rangeOf, decide_eq_true_eq, decide_eq_false_iff_not] at i1 i2 o1 o2 u1 u2
  have key : ∀ b1 b2 b3 : Bool,
      (b1 = true ↔ ∀ x, min p.1 p.2 + 1 ≤ x ∧ x < max p.1 p.2 → Traced pairs x) →
      (b2 = true ↔ ∀ x, max p.1 p.2 + 1 ≤ x ∧ x < n → Traced pairs x) →
      (b3 = true ↔ ∀ x, 0 ≤ x ∧ x < min p.1 p.2 → Traced pairs x) →
      ((b1 || (b2 && b3)) = true ↔ Closes n pairs p) := by
    intro b1 b2 b3 h1 h2 h3
    rw [Bool.or_eq_true, Bool.and_eq_true, h1, h2, h3]
    unfold Closes Between
    constructor
    · rintro (h | ⟨ha, hb⟩)
      · left; intro x hx; exact h x ⟨by omega, hx.2⟩
      · right
        intro x hx hx1 hx2 hx3
        by_cases hc : x < min p.1 p.2
        · exact hb x ⟨by omega, hc⟩
        · exact ha x ⟨by omega, hx⟩
    · rintro (h | h)
      · left; intro x hx; exact h x ⟨by omega, hx.2⟩
      · right
        exact ⟨fun x hx => h x hx.2 (by omega) (by omega) (by omega),
          fun x hx => h x (by omega) (by omega) (by omega) (by omega)⟩
  constructor
  · intro h
    rcases e1 : halfTraced pairs true (min p.1 p.2) (max p.1 p.2) (rangeOf (min p.1 p.2 + 1) (max p.1 p.2)) with e | b1
    · rw [e1] at h; simp [Except.bind] at h
    rcases e2 : halfTraced pairs false (min p.1 p.2) (max p.1 p.2) (rangeOf (max p.1 p.2 + 1) n) with e | b2
    · rw [e1, e2] at h; simp [Except.bind] at h
    rcases e3 : halfTraced pairs false (min p.1 p.2) (max p.1 p.2) (rangeOf 0 (min p.1 p.2)) with e | b3
    · rw [e1, e2, e3] at h; simp [Except.bind] at h
    rw [e1, e2, e3] at h
    simp only [Except.bind] at h
    have c1 := i2 ⟨b1, e1⟩
    obtain ⟨b1', f1, g1⟩ := i1 c1
    obtain ⟨b2', f2, g2⟩ := o1 (o2 ⟨b2, e2⟩)
    obtain ⟨b3', f3, g3⟩ := u1 (u2 ⟨b3, e3⟩)
    rw [e1] at f1; rw [e2] at f2; rw [e3] at f3
    simp only [Except.ok.injEq] at f1 f2 f3
    subst f1 f2 f3
    refine ⟨fun q hq => ?_, (key _ _ _ g1 g2 g3).1 (by_contra fun hc => by rw [if_neg hc] at h; simp at h)⟩
    have := c1 q hq
    unfold Between
    constructor
    · intro hb; exact this.1 ⟨by omega, hb.2⟩
    · intro hb; exact this.2 ⟨by omega, hb.2⟩
  · rintro ⟨h1, h2⟩
    unfold Between at h1
    obtain ⟨b1, f1, g1⟩ := i1 fun q hq => ⟨fun hc => (h1 q hq).1 ⟨by omega, hc.2⟩, fun hc => (h1 q hq).2 ⟨by omega, hc.2⟩⟩
    obtain ⟨b2, f2, g2⟩ := o1 fun q hq => ⟨fun hc hd => by have := (h1 q hq).2 hd; omega,
      fun hc hd => by have := (h1 q hq).1 hd; omega⟩
    obtain ⟨b3, f3, g3⟩ := u1 fun q hq => ⟨fun hc hd => by have := (h1 q hq).2 hd; omega,
      fun hc hd => by have := (h1 q hq).1 hd; omega⟩
    rw [f1, f2, f3]
    simp only [Except.bind]
    rw [if_pos ((key _ _ _ g1 g2 g3).2 h2)]

theorem checkPairs_spec (ps : List (ℕ × ℕ)) :
    checkPairs n pairs ps = .ok () ↔ ∀ p ∈ ps, checkPair n pairs p = .ok () := by
  induction ps with
  | nil => simp [checkPairs]
  | cons p ps ih =>
    unfold checkPairs
    rcases hc : checkPair n pairs p with e | ⟨⟩
    · simp [Except.bind, hc]
    · simp only [Except.bind, ih, List.mem_cons, forall_eq_or_imp, hc, true_and]

/-- The bends: the maximum over the pairs that have to be closed over the left side. -/
theorem bends_fold (T : List ℕ) (ps : List (ℕ × ℕ)) (acc : ℕ × ℕ) :
    let r := ps.foldl (fun acc p =>
      let l1 := min p.1 p.2
      let l2 := max p.1 p.2
      if (rangeOf (l1 + 1) l2).all fun l => decide (l ∈ T) then acc
      else (max acc.1 (l1 + 1), max acc.2 (n - l2))) acc
    (∀ p ∈ ps, ¬ (∀ x, Between x p → x ∈ T) → min p.1 p.2 + 1 ≤ r.1 ∧ n - max p.1 p.2 ≤ r.2) ∧
      acc.1 ≤ r.1 ∧ acc.2 ≤ r.2 ∧
      (r.1 = acc.1 ∨ ∃ p ∈ ps, ¬ (∀ x, Between x p → x ∈ T) ∧ r.1 = min p.1 p.2 + 1) ∧
      (r.2 = acc.2 ∨ ∃ p ∈ ps, ¬ (∀ x, Between x p → x ∈ T) ∧ r.2 = n - max p.1 p.2) := by
  induction ps generalizing acc with
  | nil => simp
  | cons p ps ih =>
    simp only [List.foldl_cons]
    have hall : ((rangeOf (min p.1 p.2 + 1) (max p.1 p.2)).all fun l => decide (l ∈ T)) = true ↔
        ∀ x, Between x p → x ∈ T := by
      rw [List.all_eq_true]
      simp only [mem_rangeOf, decide_eq_true_eq, Between]
      exact ⟨fun h x hx => h x ⟨by omega, hx.2⟩, fun h x hx => h x ⟨by omega, hx.2⟩⟩
    by_cases hc : ∀ x, Between x p → x ∈ T
    · rw [if_pos (hall.2 hc)]
      obtain ⟨h1, h2, h3, h4, h5⟩ := ih acc
      refine ⟨fun q hq hn => ?_, h2, h3, ?_, ?_⟩
      · rcases List.mem_cons.1 hq with rfl | hq
        · exact absurd hc hn
        · exact h1 q hq hn
      · exact h4.imp id fun ⟨q, hq, h⟩ => ⟨q, List.mem_cons_of_mem _ hq, h⟩
      · exact h5.imp id fun ⟨q, hq, h⟩ => ⟨q, List.mem_cons_of_mem _ hq, h⟩
    · rw [if_neg (fun h => hc (hall.1 h))]
      obtain ⟨h1, h2, h3, h4, h5⟩ := ih (max acc.1 (min p.1 p.2 + 1), max acc.2 (n - max p.1 p.2))
      simp only at h2 h3 h4 h5
      refine ⟨fun q hq hn => ?_, le_trans (le_max_left _ _) h2, le_trans (le_max_left _ _) h3, ?_, ?_⟩
      · rcases List.mem_cons.1 hq with rfl | hq
        · exact ⟨le_trans (le_max_right _ _) h2, le_trans (le_max_right _ _) h3⟩
        · exact h1 q hq hn
      · rcases h4 with h4 | ⟨q, hq, h⟩
        · by_cases hm : min p.1 p.2 + 1 ≤ acc.1
          · left; rw [h4, max_eq_left hm]
          · right; exact ⟨p, by simp, hc, by rw [h4, max_eq_right (Nat.le_of_lt (Nat.lt_of_not_le hm))]⟩
        · right; exact ⟨q, List.mem_cons_of_mem _ hq, h⟩
      · rcases h5 with h5 | ⟨q, hq, h⟩
        · by_cases hm : n - max p.1 p.2 ≤ acc.2
          · left; rw [h5, max_eq_left hm]
          · right; exact ⟨p, by simp, hc, by rw [h5, max_eq_right (Nat.le_of_lt (Nat.lt_of_not_le hm))]⟩
        · right; exact ⟨q, List.mem_cons_of_mem _ hq, h⟩

theorem traceBends_spec (n : ℕ) (pairs : List (ℕ × ℕ)) :
    (∀ p ∈ pairs, ¬ (∀ x, Between x p → Traced pairs x) →
      min p.1 p.2 + 1 ≤ (traceBends n pairs).1 ∧ n - max p.1 p.2 ≤ (traceBends n pairs).2) ∧
    ((traceBends n pairs).1 = 0 ∨
      ∃ p ∈ pairs, ¬ (∀ x, Between x p → Traced pairs x) ∧ (traceBends n pairs).1 = min p.1 p.2 + 1) ∧
    ((traceBends n pairs).2 = 0 ∨
      ∃ p ∈ pairs, ¬ (∀ x, Between x p → Traced pairs x) ∧ (traceBends n pairs).2 = n - max p.1 p.2) := by
  have hT : ∀ p : ℕ × ℕ, (∀ x, Between x p → x ∈ tracedLegs pairs) ↔ ∀ x, Between x p → Traced pairs x :=
    fun p => forall_congr' fun x => by unfold tracedLegs; rw [mem_traced]
  obtain ⟨h1, -, -, h4, h5⟩ := bends_fold (n := n) (tracedLegs pairs) pairs (0, 0)
  simp only [hT] at h1 h4 h5
  exact ⟨h1, h4, h5⟩

theorem share_leg (hnd : (pairs.flatMap fun p => [p.1, p.2]).Nodup) {p q : ℕ × ℕ} (hp : p ∈ pairs) (hq : q ∈ pairs)
    (h : p.1 = q.1 ∨ p.1 = q.2 ∨ p.2 = q.1 ∨ p.2 = q.2) :
    min p.1 p.2 = min q.1 q.2 ∧ max p.1 p.2 = max q.1 q.2 := by
  obtain ⟨a1, a2⟩ := partners_of_mem hnd hp
  obtain ⟨b1, b2⟩ := partners_of_mem hnd hq
  rcases h with h | h | h | h
  · rw [h, b1] at a1; simp at a1; omega
  · rw [h, b2] at a1; simp at a1; omega
  · rw [h, b1] at a2; simp at a2; omega
  · rw [h, b2] at a2; simp at a2; omega

/-- The place where the circle is cut, such that every loop can be closed over the right side. -/
def GoodCut (n : ℕ) (pairs : List (ℕ × ℕ)) (m : ℕ) : Prop :=
  0 < m ∧ m < n ∧ ∀ p ∈ pairs, (min p.1 p.2 < m ∧ m ≤ max p.1 p.2) ↔ ¬ (∀ x, Between x p → Traced pairs x)

theorem good_cut (h : PlanarTrace n pairs) (hlt : ∀ x, Traced pairs x → x < n) {m : ℕ} {p0 : ℕ × ℕ}
    (hp0 : p0 ∈ pairs) (hL : ¬ (∀ x, Between x p0 → Traced pairs x))
    (hm : m = min p0.1 p0.2 + 1 ∨ m = max p0.1 p0.2)
    (hall : ∀ p ∈ pairs, ¬ (∀ x, Between x p → Traced pairs x) →
      (m = min p0.1 p0.2 + 1 ∧ min p.1 p.2 < m) ∨ (m = max p0.1 p0.2 ∧ m ≤ max p.1 p.2)) :
    GoodCut n pairs m := by
  obtain ⟨hnd, hnc, hcl⟩ := h
  have b1 := hlt _ ⟨p0, hp0, Or.inl rfl⟩
  have b2 := hlt _ ⟨p0, hp0, Or.inr rfl⟩
  have hne : p0.1 ≠ p0.2 := by
    intro hc
    apply hL
    intro x hx
    unfold Between at hx
    omega
  have hout : ∀ x < n, x ≠ p0.1 → x ≠ p0.2 → ¬ Between x p0 → Traced pairs x := by
    rcases hcl p0 hp0 with h | h
    · exact absurd h hL
    · exact h
  refine ⟨by omega, by omega, fun p hp => ⟨fun hs hbt => ?_, fun hl => ?_⟩⟩
  · -- a pair that is closed over the right side
    apply hL
    intro x hx
    have hshare : ¬ (p.1 = p0.1 ∨ p.1 = p0.2 ∨ p.2 = p0.1 ∨ p.2 = p0.2) := by
      intro hc
      have := share_leg hnd hp hp0 hc
      apply hL
      intro y hy
      apply hbt
      unfold Between at *
      omega
    have hnc' := hnc p hp p0 hp0
    apply hbt
    unfold Between at *
    omega
  · by_cases hsh : p.1 = p0.1 ∨ p.1 = p0.2 ∨ p.2 = p0.1 ∨ p.2 = p0.2
    · have := share_leg hnd hp hp0 hsh
      omega
    have hsep : ¬ (max p.1 p.2 < min p0.1 p0.2 ∨ max p0.1 p0.2 < min p.1 p.2) := by
      intro hc
      apply hl
      intro x hx
      have := hlt _ ⟨p, hp, Or.inl rfl⟩
      have := hlt _ ⟨p, hp, Or.inr rfl⟩
      unfold Between at hx
      refine hout x (by omega) (by omega) (by omega) ?_
      unfold Between
      omega
    have := hall p hp hl
    omega

/-- The new index of a leg. -/
theorem rot_index {n m x : ℕ} (h0 : 0 < m) (h1 : m < n) (hx : x < n) :
    (x + (n - m)) % n = if x < m then x + (n - m) else x - m := by
  by_cases h : x < m
  · rw [if_pos h, Nat.mod_eq_of_lt (by omega)]
  · rw [if_neg h, show x + (n - m) = (x - m) + n by omega, Nat.add_mod_right, Nat.mod_eq_of_lt (by omega)]

theorem rot_get {n m x : ℕ} (h0 : 0 < m) (h1 : m < n) (hx : x < n) :
    (rangeOf m n ++ rangeOf 0 m).getD ((x + (n - m)) % n) 0 = x := by
  rw [rot_index h0 h1 hx]
  by_cases h : x < m
  · rw [if_pos h, List.getD_append_right _ _ _ _ (by simp)]
    simp [rangeOf, List.getD_eq_getElem?_getD, List.getElem?_range', h]
  · rw [if_neg h, List.getD_append _ _ _ _ (by simp; omega)]
    unfold rangeOf
    rw [List.getD_eq_getElem?_getD, List.getElem?_range' (by omega)]
    simp; omega

theorem rotated_trace (h : PlanarTrace n pairs) (hlt : ∀ x, Traced pairs x → x < n) {m : ℕ} (hg : GoodCut n pairs m) :
    (tracedLegs (pairs.map fun p => ((p.1 + (n - m)) % n, (p.2 + (n - m)) % n))).Nodup ∧
    ((pairs.map fun p => ((p.1 + (n - m)) % n, (p.2 + (n - m)) % n)).map fun p =>
      ((rangeOf m n ++ rangeOf 0 m).getD p.1 0, (rangeOf m n ++ rangeOf 0 m).getD p.2 0)) = pairs ∧
    ∀ p ∈ (pairs.map fun p => ((p.1 + (n - m)) % n, (p.2 + (n - m)) % n)), ∀ x, Between x p →
      Traced (pairs.map fun p => ((p.1 + (n - m)) % n, (p.2 + (n - m)) % n)) x := by
  obtain ⟨h0, h1, hst⟩ := hg
  obtain ⟨hnd, hnc, hcl⟩ := h
  have hl : ∀ p ∈ pairs, p.1 < n ∧ p.2 < n := fun p hp =>
    ⟨hlt _ ⟨p, hp, Or.inl rfl⟩, hlt _ ⟨p, hp, Or.inr rfl⟩⟩
  refine ⟨?_, ?_, ?_⟩
  · have e : tracedLegs (pairs.map fun p => ((p.1 + (n - m)) % n, (p.2 + (n - m)) % n)) =
        (pairs.flatMap fun p => [p.1, p.2]).map fun x => (x + (n - m)) % n := by
      unfold tracedLegs
      rw [List.flatMap_map, List.map_flatMap]
      rfl
    rw [e]
    refine List.Nodup.map_on ?_ hnd
    intro x hx y hy hxy
    have hx' := hlt _ (mem_traced.1 hx)
    have hy' := hlt _ (mem_traced.1 hy)
    have h2 := rot_get h0 h1 hx'
    rw [hxy, rot_get h0 h1 hy'] at h2
    exact h2.symm
  · rw [List.map_map]
    conv_rhs => rw [← List.map_id pairs]
    refine List.map_congr_left fun p hp => ?_
    simp only [Function.comp_apply, id]
    rw [rot_get h0 h1 (hl p hp).1, rot_get h0 h1 (hl p hp).2]
  · intro p' hp' x hx
    obtain ⟨p, hp, rfl⟩ := List.mem_map.1 hp'
    obtain ⟨hl1, hl2⟩ := hl p hp
    have htr : ∀ y, Traced pairs y → x = (y + (n - m)) % n →
        Traced (pairs.map fun p => ((p.1 + (n - m)) % n, (p.2 + (n - m)) % n)) x := by
      rintro y ⟨q, hq, hy⟩ rfl
      refine ⟨_, List.mem_map.2 ⟨q, hq, rfl⟩, ?_⟩
      rcases hy with rfl | rfl
      · exact Or.inl rfl
      · exact Or.inr rfl
    unfold Between at hx
    simp only [rot_index h0 h1 hl1, rot_index h0 h1 hl2] at hx
    have hxn : x < n := by split_ifs at hx <;> omega
    -- the old index of the leg
    obtain ⟨y, hyn, hy⟩ : ∃ y < n, x = (y + (n - m)) % n ∧ y = if x < n - m then x + m else x - (n - m) := by
      by_cases hc : x < n - m
      · refine ⟨x + m, by omega, ?_, by rw [if_pos hc]⟩
        rw [rot_index h0 h1 (by omega), if_neg (by omega)]; omega
      · refine ⟨x - (n - m), by omega, ?_, by rw [if_neg hc]⟩
        rw [rot_index h0 h1 (by omega), if_pos (by omega)]; omega
    refine htr y ?_ hy.1
    by_cases hs : min p.1 p.2 < m ∧ m ≤ max p.1 p.2
    · rcases hcl p hp with hc | hc
      · exact absurd hc ((hst p hp).1 hs)
      · have hy2 := hy.2
        refine hc y hyn ?_ ?_ ?_
        · split_ifs at hx hy2 <;> omega
        · split_ifs at hx hy2 <;> omega
        · unfold Between; split_ifs at hx hy2 <;> omega
    · have hc : ∀ x, Between x p → Traced pairs x := by
        by_contra hc
        exact hs ((hst p hp).2 hc)
      apply hc
      have hy2 := hy.2
      unfold Between
      split_ifs at hx hy2 <;> omega

/-- The tensor after the bends. -/
theorem traceBent_ok {K D : ℕ} (h : PlanarTrace (K + D) pairs) (hlt : ∀ x, Traced pairs x → x < K + D) :
    (traceBent K D pairs = .ok (Diag.numbered K D, pairs) ∧ ∀ p ∈ pairs, ∀ x, Between x p → Traced pairs x) ∨
    ∃ m t, GoodCut (K + D) pairs m ∧ t.legs = rangeOf m (K + D) ++ rangeOf 0 m ∧
      traceBent K D pairs = .ok (t, pairs.map fun p =>
        ((p.1 + (K + D - m)) % (K + D), (p.2 + (K + D - m)) % (K + D))) := by
  obtain ⟨h1, h2, h3⟩ := traceBends_spec (K + D) pairs
  have hpos : ∀ p ∈ pairs, 0 < K + D - max p.1 p.2 := fun p hp => by
    have := hlt _ ⟨p, hp, Or.inl rfl⟩
    have := hlt _ ⟨p, hp, Or.inr rfl⟩
    omega
  unfold traceBent
  simp only
  by_cases hd : (traceBends (K + D) pairs).2 = 0
  · left
    have hall : ∀ p ∈ pairs, ∀ x, Between x p → Traced pairs x := by
      intro p hp
      by_contra hc
      have := h1 p hp hc
      have := hpos p hp
      omega
    rw [if_pos hd, if_neg]
    · exact ⟨rfl, hall⟩
    · rw [not_not]
      rcases h2 with h2 | ⟨p, hp, hc, -⟩
      · exact h2
      · exact absurd (hall p hp) hc
  · right
    rw [if_neg hd]
    rcases h3 with h3 | ⟨p0, hp0, hL, h3⟩
    · exact absurd h3 hd
    have := hpos p0 hp0
    by_cases hud : (traceBends (K + D) pairs).2 < (traceBends (K + D) pairs).1
    · rw [if_pos hud]
      have hb1 := hlt _ ⟨p0, hp0, Or.inl rfl⟩
      have hb2 := hlt _ ⟨p0, hp0, Or.inr rfl⟩
      have hg : GoodCut (K + D) pairs (K + D - (traceBends (K + D) pairs).2) := by
        refine good_cut h hlt hp0 hL (Or.inr (by omega)) fun p hp hc => Or.inr ⟨by omega, ?_⟩
        have := (h1 p hp hc).2
        have := hpos p hp
        omega
      generalize hdn : (traceBends (K + D) pairs).2 = down at *
      have hg' := hg
      obtain ⟨g1, g2, -⟩ := hg'
      refine ⟨K + D - down, ⟨rangeOf (K + D - down) (K + D) ++ rangeOf 0 (K - if D ≤ down then down - D else 0),
        reversedRange K (K + D - down)⟩, hg, ?_, ?_⟩
      · unfold Diag.legs reversedRange
        rw [List.reverse_reverse, List.append_assoc]
        congr 1
        by_cases hD : D ≤ down
        · rw [if_pos hD, (rangeOf_eq_nil (a := K)).2 (by omega), List.append_nil]
          congr 1; omega
        · rw [if_neg hD, Nat.sub_zero, rangeOf_append (by omega) (by omega)]
      · rw [show K + D - (K + D - down) = down by omega]
        rw [permuted_ok (co := rangeOf (K + D - down) (K + D) ++ rangeOf 0 (K - if D ≤ down then down - D else 0))
          (dom := reversedRange K (K + D - down)) ?_ (Or.inl ⟨rfl, rfl⟩)]
        · rfl
        · unfold reversedRange
          rw [List.reverse_reverse]
          by_cases hD : D ≤ down
          · rw [if_pos hD, (rangeOf_eq_nil (a := K)).2 (by omega), show K - (down - D) = K + D - down by omega]
            have := cut_split' (n := K + D) (s := K + D - down) (e := K + D - down) le_rfl (by omega)
            rwa [rangeOf_self] at this
          · rw [if_neg hD, Nat.sub_zero]
            exact cut_split' (by omega) (by omega)
    · rw [if_neg hud]
      rcases h2 with h2 | ⟨p1, hp1, hL1, h2⟩
      · have := (h1 p0 hp0 hL).1
        omega
      have hb1 := hlt _ ⟨p1, hp1, Or.inl rfl⟩
      have hb2 := hlt _ ⟨p1, hp1, Or.inr rfl⟩
      have hg : GoodCut (K + D) pairs (traceBends (K + D) pairs).1 := by
        refine good_cut h hlt hp1 hL1 (Or.inl (by omega)) fun p hp hc => Or.inl ⟨by omega, ?_⟩
        have := (h1 p hp hc).1
        omega
      generalize hdn : (traceBends (K + D) pairs).1 = up at *
      have hg' := hg
      obtain ⟨g1, g2, -⟩ := hg'
      have hrev : (reversedRange 0 up ++ reversedRange (K + if K ≤ up then up - K else 0) (K + D)).reverse =
          rangeOf (K + if K ≤ up then up - K else 0) (K + D) ++ rangeOf 0 up := by
        unfold reversedRange; simp
      refine ⟨up, ⟨rangeOf up K, reversedRange 0 up ++ reversedRange (K + if K ≤ up then up - K else 0) (K + D)⟩,
        hg, ?_, ?_⟩
      · unfold Diag.legs
        rw [hrev, ← List.append_assoc]
        congr 1
        by_cases hK : K ≤ up
        · rw [if_pos hK, (rangeOf_eq_nil (a := up)).2 (by omega), List.nil_append]
          congr 1; omega
        · rw [if_neg hK, Nat.add_zero, rangeOf_append (by omega) (by omega)]
      · rw [permuted_ok (co := rangeOf up K)
          (dom := reversedRange 0 up ++ reversedRange (K + if K ≤ up then up - K else 0) (K + D)) ?_ (Or.inl ⟨rfl, rfl⟩)]
        · rfl
        · rw [hrev]
          by_cases hK : K ≤ up
          · rw [if_pos hK, (rangeOf_eq_nil (a := up)).2 (by omega), show K + (up - K) = up by omega]
            have := cut_split (n := K + D) (s := up) (e := up) le_rfl (by omega)
            rwa [rangeOf_self] at this
          · rw [if_neg hK, Nat.add_zero]
            exact cut_split (by omega) (by omega)

end

end Cyten.Planar

namespace Cyten.Props
open Cyten.Planar Cyten.Planar.Spec

theorem traceBent_map {K D : ℕ} {pairs : List (ℕ × ℕ)} {r : Diag ℕ × List (ℕ × ℕ)} (h : traceBent K D pairs = .ok r) :
    ∃ f : ℕ → ℕ, r.2 = pairs.map fun p => (f p.1, f p.2) := by
  unfold traceBent at h
  simp only at h
  have aux : ∀ (f : ℕ → ℕ) {x : Except PErr (Diag ℕ)},
      (x.map fun t => (t, pairs.map fun p => (f p.1, f p.2))) = .ok r → r.2 = pairs.map fun p => (f p.1, f p.2) := by
    intro f x hx
    rcases x with e | t
    · simp [Except.map] at hx
    · simp only [Except.map, Except.ok.injEq] at hx
      rw [← hx]
  split_ifs at h
  · refine ⟨id, ?_⟩
    simp only [Except.ok.injEq] at h
    rw [← h]; simp
  · exact ⟨fun x => (x + (traceBends (K + D) pairs).2) % (K + D), aux (fun x => (x + (traceBends (K + D) pairs).2) % (K + D)) h⟩
  · exact ⟨fun x => (x + (traceBends (K + D) pairs).2) % (K + D), aux (fun x => (x + (traceBends (K + D) pairs).2) % (K + D)) h⟩
  · exact ⟨fun x => (x + (K + D - (traceBends (K + D) pairs).1)) % (K + D), aux (fun x => (x + (K + D - (traceBends (K + D) pairs).1)) % (K + D)) h⟩
  · exact ⟨fun x => (x + (K + D - (traceBends (K + D) pairs).1)) % (K + D), aux (fun x => (x + (K + D - (traceBends (K + D) pairs).1)) % (K + D)) h⟩

/-- **C77**: the checks of `planar_partial_trace` (for tensors and for placeholders) accept pairs of distinct legs
if and only if the pairs can be connected in the plane. -/
theorem C77_checks {n : ℕ} {pairs : List (ℕ × ℕ)} (hnd : (pairs.flatMap fun p => [p.1, p.2]).Nodup)
    (hlt : ∀ p ∈ pairs, p.1 < n ∧ p.2 < n) : checkPairs n pairs pairs = .ok () ↔ PlanarTrace n pairs := by
  have hlt' : ∀ x, Traced pairs x → x < n := by
    rintro x ⟨p, hp, rfl | rfl⟩
    · exact (hlt p hp).1
    · exact (hlt p hp).2
  rw [checkPairs_spec]
  constructor
  · intro h
    have := fun p hp => (checkPair_spec hnd hlt' hp).1 (h p hp)
    exact ⟨hnd, fun p hp => (this p hp).1, fun p hp => (this p hp).2⟩
  · rintro ⟨-, h1, h2⟩ p hp
    exact (checkPair_spec hnd hlt' hp).2 ⟨h1 p hp, h2 p hp⟩

/-- **C77**: `planar_partial_trace` of a tensor succeeds (up to the check of the spaces in `partial_trace`) if and
only if the legs are distinct and the pairs can be connected in the plane.  In the fusion tree backend, the legs
are bent before (`t` has the same legs in the same order around the tensor); the pairs that are traced are the
given pairs, and the legs between the two legs of a pair are traced, such that every loop is closed over the right
side. -/
theorem C77_planar_trace (ft : Bool) {K D : ℕ} {pairs : List (ℕ × ℕ)}
    (hlt : ∀ p ∈ pairs, p.1 < K + D ∧ p.2 < K + D) :
    (PlanarTrace (K + D) pairs → ∃ t pairs', planarPartialTrace ft K D pairs = .ok (t, pairs') ∧
      t.legs ~r List.range (K + D) ∧
      (pairs'.map fun p => (t.legs.getD p.1 0, t.legs.getD p.2 0)) = pairs ∧
      (ft = true → ∀ p ∈ pairs', ∀ x, Between x p → Traced pairs' x)) ∧
    (¬ PlanarTrace (K + D) pairs → ∃ e, planarPartialTrace ft K D pairs = .error e) := by
  have hlt' : ∀ x, Traced pairs x → x < K + D := by
    rintro x ⟨p, hp, rfl | rfl⟩
    · exact (hlt p hp).1
    · exact (hlt p hp).2
  have hnum : (Diag.numbered K D).legs = List.range (K + D) := by
    rw [numbered_eq]
    unfold Diag.legs
    rw [List.reverse_reverse, rangeOf_append (by omega) (by omega), rangeOf_zero]
  have hid : (pairs.map fun p => ((List.range (K + D)).getD p.1 0, (List.range (K + D)).getD p.2 0)) = pairs := by
    conv_rhs => rw [← List.map_id pairs]
    refine List.map_congr_left fun p hp => ?_
    rw [List.getD_eq_getElem?_getD, List.getD_eq_getElem?_getD, List.getElem?_range (hlt p hp).1,
      List.getElem?_range (hlt p hp).2]
    rfl
  constructor
  · intro h
    unfold planarPartialTrace
    rw [(C77_checks h.1 hlt).2 h]
    simp only [Except.bind]
    cases ft with
    | false =>
      simp only [Bool.false_eq_true, if_false]
      rw [if_neg (by rw [not_not]; exact h.1)]
      exact ⟨_, _, rfl, by rw [hnum], by rw [hnum, hid], by simp⟩
    | true =>
      simp only [if_true]
      rcases traceBent_ok h hlt' with ⟨e, hall⟩ | ⟨m, t, hg, ht, e⟩
      · rw [e]
        simp only
        rw [if_neg (by rw [not_not]; exact h.1)]
        exact ⟨_, _, rfl, by rw [hnum], by rw [hnum, hid], fun _ => hall⟩
      · rw [e]
        simp only
        obtain ⟨r1, r2, r3⟩ := rotated_trace h hlt' hg
        rw [if_neg (by rw [not_not]; exact r1)]
        refine ⟨_, _, rfl, ?_, by rw [ht]; exact r2, fun _ => r3⟩
        rw [ht]
        have := cut_split' (n := K + D) (s := m) (e := m) le_rfl (by have := hg.2.1; omega)
        rw [rangeOf_self] at this
        have h2 : _ ~r _ := this
        rwa [List.append_nil] at h2
  · intro h
    unfold planarPartialTrace
    rcases hc : checkPairs (K + D) pairs pairs with e | ⟨⟩
    · exact ⟨e, rfl⟩
    simp only [Except.bind]
    have hnd : ¬ (pairs.flatMap fun p => [p.1, p.2]).Nodup := fun hnd => h ((C77_checks hnd hlt).1 hc)
    cases ft with
    | false =>
      simp only [Bool.false_eq_true, if_false]
      rw [if_pos (show ¬ (tracedLegs pairs).Nodup from hnd)]
      exact ⟨_, rfl⟩
    | true =>
      simp only [if_true]
      rcases hb : traceBent K D pairs with e | r
      · exact ⟨e, rfl⟩
      · simp only
        obtain ⟨f, hf⟩ := traceBent_map hb
        rw [if_pos]
        · exact ⟨_, rfl⟩
        · intro hc2
          apply hnd
          rw [hf] at hc2
          unfold tracedLegs at hc2
          rw [List.flatMap_map] at hc2
          have e : (pairs.flatMap fun p => [f p.1, f p.2]) = (pairs.flatMap fun p => [p.1, p.2]).map f := by
            rw [List.map_flatMap]; rfl
          have hc3 : (pairs.flatMap fun p => [f p.1, f p.2]).Nodup := hc2
          rw [e] at hc3
          exact List.Nodup.of_map f hc3

/-- **C77**: the placeholders of `planar_partial_trace` accept a leg that belongs to two pairs; `partial_trace`
rejects it. -/
theorem C77_placeholder_defect :
    partialTraceLegs 3 [(0, 1), (1, 2)] = .ok [] ∧
    (∃ e, planarPartialTrace false 2 1 [(0, 1), (1, 2)] = .error e) ∧
    ∃ e, planarPartialTrace true 2 1 [(0, 1), (1, 2)] = .error e := by
  refine ⟨by decide +kernel, (C77_planar_trace false (by decide)).2 ?_, (C77_planar_trace true (by decide)).2 ?_⟩
  all_goals
    rintro ⟨h, -⟩
    revert h
    decide

/-- **C77**: the example in the documentation of `planar_partial_trace`, which needs a loop over the left side, and
a crossing. -/
theorem C77_nonvacuous :
    PlanarTrace 8 [(0, 1), (2, 7), (3, 4)] ∧
    planarPartialTrace true 4 4 [(0, 1), (2, 7), (3, 4)] = .ok
      (⟨[7, 0, 1, 2, 3], [6, 5, 4]⟩, [(1, 2), (3, 0), (4, 5)]) ∧
    (∃ e, planarPartialTrace true 4 4 [(0, 2), (1, 7)] = .error e) ∧
    ∃ e, planarPartialTrace true 4 4 [(0, 2), (5, 7)] = .error e := by
  refine ⟨(C77_checks (by decide) (by decide)).1 (by decide +kernel), by decide +kernel,
    ⟨.nonPlanar, by decide +kernel⟩, ⟨.nonPlanar, by decide +kernel⟩⟩

end Cyten.Props
