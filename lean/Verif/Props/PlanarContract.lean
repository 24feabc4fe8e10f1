import Verif.Lemmas.PlanarContract

/-!
# C76: `planar_contraction` contracts the requested pairs of legs

The legs of the first tensor are called `(false, i)`, those of the second one `(true, i)`.
-/

namespace Cyten.Planar.Spec

/-- The first tensor first. -/
def orient (p : (Bool × ℕ) × (Bool × ℕ)) : (Bool × ℕ) × (Bool × ℕ) := if p.1.1 then p.swap else p

/-- The pair of a leg of the first tensor and a leg of the second one. -/
def named (p : ℕ × ℕ) : (Bool × ℕ) × (Bool × ℕ) := ((false, p.1), (true, p.2))

/-- The contraction of tensors with `n1` and `n2` legs that connects exactly the pairs in `requested` (a leg of the
first and a leg of the second tensor), without crossings, and whose result has the other legs in their order around
the diagram. -/
def IsContraction (n1 n2 : ℕ) (requested : List (ℕ × ℕ)) (pairs : List ((Bool × ℕ) × (Bool × ℕ)))
    (res : Diag (Bool × ℕ)) : Prop :=
  (pairs.map orient).Perm (requested.map named) ∧
    ∃ o1 o2, PlanarContraction n1 n2 requested o1 o2 ∧
      res.legs ~r o1.map (Prod.mk false) ++ o2.map (Prod.mk true)

/-- The number of bends that make room in `tensor1` exceeds the number for `tensor2`: `tensor1` is the tensor that
keeps its uncontracted legs (src/tensors/planar.cpp:2108-2110, 2129-2131). -/
def KeepsFirst (K1 D1 K2 D2 : ℕ) (legs1 legs2 : List ℕ) : Prop :=
  if goesUp K1 K2 legs1 legs2 then
    K2 + (legs2.length - bendUp K2 legs2) - legs2.length < D1 + bendUp K1 legs1 - legs1.length
  else D2 + bendUp K2 legs2 - legs2.length < K1 + (legs1.length - bendUp K1 legs1) - legs1.length

end Cyten.Planar.Spec

namespace Cyten.Planar
open Cyten.Planar.Spec Cyten.Props

theorem zip_reverse' {α : Type} {a b : List α} (h : a.length = b.length) :
    a.reverse.zip b.reverse = (a.zip b).reverse := by
  apply List.ext_getElem?
  intro i
  have hz : (a.zip b).length = a.length := by simp [h]
  by_cases hi : i < a.length
  · rw [List.getElem?_reverse (by omega), hz, List.getElem?_eq_getElem (by simp; omega), List.getElem_zip,
      List.getElem?_eq_getElem (by omega), List.getElem_zip, List.getElem_reverse, List.getElem_reverse]
    simp only [h]
  · rw [List.getElem?_eq_none (by simp; omega), List.getElem?_eq_none (by simp; omega)]

/-- The contracted legs `a` are in the domain of the first factor. -/
theorem leaf_dom {α : Type} {C P a Q b o : List α} {leg : Option ℕ} {num : ℕ} (hl : a.length = b.length)
    (hn : num = a.length) (hleg : P ++ Q ≠ [] → leg = some (C.length + P.length) ∧ a ≠ []) :
    ∃ res, (if num < (P ++ a ++ Q).reverse.length then
        (deref leg).bind fun l => partialCompose ⟨C, (P ++ a ++ Q).reverse⟩ ⟨b.reverse, o.reverse⟩ l
      else compose ⟨C, (P ++ a ++ Q).reverse⟩ ⟨b.reverse, o.reverse⟩) = .ok ((a.zip b).reverse, res) ∧
      res.legs = C ++ P ++ o ++ Q := by
  subst hn
  by_cases hPQ : P ++ Q = []
  · obtain ⟨rfl, rfl⟩ := List.append_eq_nil_iff.1 hPQ
    rw [if_neg (by simp)]
    unfold compose
    rw [if_neg (by simp [hl])]
    refine ⟨⟨C, o.reverse⟩, ?_, by simp [Diag.legs]⟩
    simp only [List.nil_append, List.append_nil]
    rw [zip_reverse' hl]
  · obtain ⟨rfl, ha⟩ := hleg hPQ
    have hpos : 0 < P.length + Q.length := by
      have := List.length_pos_of_ne_nil hPQ
      simpa using this
    have hal : 0 < a.length := List.length_pos_of_ne_nil ha
    rw [if_pos (by simp; omega)]
    simp only [deref, Except.bind]
    unfold partialCompose
    rw [if_neg (by simp)]
    simp only [Diag.legs, List.length_append, List.length_reverse]
    rw [if_neg (by simp; omega)]
    rw [show C.length + (P.length + a.length + Q.length) - (C.length + P.length + b.length) = Q.length by omega]
    have e1 : (P ++ a ++ Q).reverse = Q.reverse ++ (a.reverse ++ P.reverse) := by simp
    refine ⟨⟨C, Q.reverse ++ o.reverse ++ P.reverse⟩, ?_, ?_⟩
    · have e2 : b.length = a.reverse.length := by rw [List.length_reverse, hl]
      have e3 : Q.length = Q.reverse.length := by simp
      rw [e1, ← List.drop_drop, e2, e3]
      rw [List.drop_left, List.take_left, List.take_left, List.drop_left, zip_reverse' hl]
    · simp

/-- The contracted legs `a` are in the codomain of the first factor. -/
theorem leaf_cod {α : Type} {P a Q R b o : List α} {leg : Option ℕ} {num : ℕ} (hl : a.length = b.length)
    (hn : num = a.length) (hleg : P ++ Q ≠ [] → leg = some P.length ∧ a ≠ []) :
    ∃ pairs res, (if num < (P ++ a ++ Q).length then
        (deref leg).bind fun l => partialCompose ⟨P ++ a ++ Q, R.reverse⟩ ⟨o, b⟩ l
      else compose ⟨o, b⟩ ⟨P ++ a ++ Q, R.reverse⟩) = .ok (pairs, res) ∧
      (pairs = a.zip b ∨ pairs = b.zip a) ∧ res.legs = P ++ o ++ Q ++ R := by
  subst hn
  by_cases hPQ : P ++ Q = []
  · obtain ⟨rfl, rfl⟩ := List.append_eq_nil_iff.1 hPQ
    rw [if_neg (by simp)]
    unfold compose
    rw [if_neg (by simp [hl])]
    exact ⟨_, ⟨o, R.reverse⟩, rfl, Or.inr (by simp), by simp [Diag.legs]⟩
  · obtain ⟨rfl, ha⟩ := hleg hPQ
    have hpos : 0 < P.length + Q.length := by
      have := List.length_pos_of_ne_nil hPQ
      simpa using this
    have hal : 0 < a.length := List.length_pos_of_ne_nil ha
    rw [if_pos (by simp; omega)]
    simp only [deref, Except.bind]
    unfold partialCompose
    rw [if_pos (by simp; omega)]
    simp only [List.length_append]
    rw [if_neg (by omega)]
    have e1 : P ++ a ++ Q = P ++ (a ++ Q) := by simp
    refine ⟨a.zip b, ⟨P ++ o ++ Q, R.reverse⟩, ?_, Or.inl rfl, by simp [Diag.legs]⟩
    rw [e1, List.drop_left' rfl, List.take_left' rfl, List.take_left' hl,
        ← List.drop_drop, List.drop_left' rfl, List.drop_left' hl]

/-- The rest of the circle, up to a rotation. -/
theorem rest_rotated {n : ℕ} {a o r : List ℕ} (h : Cut n a o) (h' : Cut n a r) : ∃ o', o' ~r o ∧ r = o' ∧ Cut n a r := by
  refine ⟨r, ?_, rfl, h'⟩
  by_cases ha : a = []
  · subst ha
    have h1 : o ~r _ := h
    have h2 : r ~r _ := h'
    exact h2.trans h1.symm
  by_cases ho : o = []
  · subst ho
    have h1 := (List.IsRotated.perm h).length_eq
    have h2 := (List.IsRotated.perm h').length_eq
    simp only [List.length_append, List.length_nil] at h1 h2
    have : r = [] := List.length_eq_zero_iff.1 (by omega)
    rw [this]
  · rw [(cut_unique h h' (List.Perm.refl _) ha ho).2]

theorem orient_fst (l : List (ℕ × ℕ)) : (l.map fun p => ((false, p.1), (true, p.2))).map orient = l.map named := by
  simp [orient, named, Function.comp_def]

theorem zip_ft (a b : List ℕ) : ((a.map (Prod.mk false)).zip (b.map (Prod.mk true))).map orient = (a.zip b).map named := by
  rw [List.zip_map, List.map_map]
  rfl

theorem zip_tf (a b : List ℕ) : ((b.map (Prod.mk true)).zip (a.map (Prod.mk false))).map orient = (a.zip b).map named := by
  rw [List.zip_map, List.map_map, ← List.zip_swap, List.map_map]
  rfl

/-- A part `x` of a circle that is cut out of another order. -/
theorem cut_middle {n : ℕ} {C P a Q : List ℕ} (h : Cut n C (P ++ a ++ Q)) : Cut n a (Q ++ C ++ P) := by
  unfold Cut at *
  refine List.IsRotated.trans ?_ h
  have : (C ++ P) ++ (a ++ Q) ~r (a ++ Q) ++ (C ++ P) := List.isRotated_append
  have h2 := this.symm
  simpa [List.append_assoc] using h2

theorem cut_middle' {n : ℕ} {P a Q R : List ℕ} (h : Cut n (P ++ a ++ Q) R) : Cut n a (Q ++ R ++ P) := by
  unfold Cut at *
  refine List.IsRotated.trans ?_ h
  have : P ++ (a ++ Q ++ R) ~r (a ++ Q ++ R) ++ P := List.isRotated_append
  have h2 := this.symm
  simpa [List.append_assoc] using h2

theorem cut_swap {n : ℕ} {a b : List ℕ} (h : Cut n a b) : Cut n b a :=
  List.IsRotated.trans List.isRotated_append h

theorem planar_of_cuts {n1 n2 : ℕ} {legs1 legs2 c1 c2 o1 o2 : List ℕ} (hp : (legs1.zip legs2).Perm (c1.zip c2))
    (h1 : Cut n1 c1 o1) (h2 : Cut n2 c2.reverse o2) (hl : c1.length = c2.length) :
    PlanarContraction n1 n2 (legs1.zip legs2) o1 o2 :=
  ⟨c1, c2.reverse, h1, h2, by simp [hl], by rwa [List.reverse_reverse]⟩


theorem bendUp_perm {K : ℕ} {a b : List ℕ} (h : a.Perm b) : bendUp K a = bendUp K b :=
  (h.filter _).length_eq

theorem map_reverse_mk (x : Bool) (l : List ℕ) : (l.map (Prod.mk x)).reverse = l.reverse.map (Prod.mk x) :=
  List.map_reverse.symm

end Cyten.Planar

namespace Cyten.Props
open Cyten.Planar Cyten.Planar.Spec

section
variable {K1 D1 K2 D2 : ℕ} {legs1 legs2 : List ℕ}

theorem rot_dom {x y : Bool} {C P Q o : List ℕ} {res : Diag (Bool × ℕ)}
    (h : res.legs = C.map (Prod.mk x) ++ P.map (Prod.mk x) ++ o.map (Prod.mk y) ++ Q.map (Prod.mk x)) :
    res.legs ~r (Q ++ C ++ P).map (Prod.mk x) ++ o.map (Prod.mk y) ∧
    res.legs ~r o.map (Prod.mk y) ++ (Q ++ C ++ P).map (Prod.mk x) := by
  have h1 : res.legs ~r (Q ++ C ++ P).map (Prod.mk x) ++ o.map (Prod.mk y) := by
    rw [h]
    refine List.IsRotated.trans List.isRotated_append ?_
    simp [List.IsRotated.refl]
  exact ⟨h1, h1.trans List.isRotated_append⟩

theorem rot_cod {x y : Bool} {R P Q o : List ℕ} {res : Diag (Bool × ℕ)}
    (h : res.legs = P.map (Prod.mk x) ++ o.map (Prod.mk y) ++ Q.map (Prod.mk x) ++ R.map (Prod.mk x)) :
    res.legs ~r (Q ++ R ++ P).map (Prod.mk x) ++ o.map (Prod.mk y) ∧
    res.legs ~r o.map (Prod.mk y) ++ (Q ++ R ++ P).map (Prod.mk x) := by
  have h1 : res.legs ~r o.map (Prod.mk y) ++ (Q ++ R ++ P).map (Prod.mk x) := by
    rw [h, List.append_assoc, List.append_assoc]
    refine List.IsRotated.trans List.isRotated_append ?_
    simp [List.IsRotated.refl]
  exact ⟨h1.trans List.isRotated_append, h1⟩

theorem finish {n1 n2 : ℕ} {c1 c2 r1 r2 : List ℕ} {pairs res} (hz : (legs1.zip legs2).Perm (c1.zip c2))
    (h1 : Cut n1 c1 r1) (h2 : Cut n2 c2.reverse r2) (hl : c1.length = c2.length)
    (hp : (pairs.map orient).Perm ((c1.zip c2).map named))
    (hr : res.legs ~r r1.map (Prod.mk false) ++ r2.map (Prod.mk true)) :
    IsContraction n1 n2 (legs1.zip legs2) pairs res :=
  ⟨hp.trans (hz.symm.map _), r1, r2, planar_of_cuts hz h1 h2 hl, hr⟩

theorem contraction_lengths {n1 n2 : ℕ} {c1 o1 c2 o2 : List ℕ}
    (h : contractionLegs n1 n2 legs1 legs2 = .ok (c1, o1, c2, o2)) :
    legs2.length = legs1.length ∧ c1.length = c2.length := by
  unfold contractionLegs at h
  split_ifs at h with hl
  have hl' : legs2.length = legs1.length := by simpa using hl
  simp only [bind, Except.bind] at h
  rcases hp1 : parseLegBipartition legs1 n1 with e | ⟨a1, b1⟩
  · rw [hp1] at h; simp at h
  rcases hp2 : parseLegBipartition legs2 n2 with e | ⟨a2, b2⟩
  · rw [hp1, hp2] at h; simp at h
  rw [hp1, hp2] at h
  simp only at h
  split_ifs at h with hany
  simp only [Except.ok.injEq, Prod.mk.injEq] at h
  obtain ⟨rfl, rfl, rfl, rfl⟩ := h
  exact ⟨hl', by simp⟩

/-- **C76**: `planar_contraction` contracts exactly the requested pairs of legs, and the legs of the result are the
open legs in their order around the diagram; unless
* the contracted legs of the tensor that keeps its uncontracted legs cross both sides of the tensor,
* or all (at least two) legs of `tensor2` are contracted, mainly downwards, with all legs in the domain of
  `tensor1`,
* or `tensor2` has no legs. -/
theorem C76_planar_contraction_partial (hacc : ∃ r, contractionLegs (K1 + D1) (K2 + D2) legs1 legs2 = .ok r)
    (hn : 0 < K2 + D2)
    (hb1 : KeepsFirst K1 D1 K2 D2 legs1 legs2 → legs1.length < K1 + D1 → ¬ BothSides K1 D1 legs1)
    (hb2 : ¬ KeepsFirst K1 D1 K2 D2 legs1 legs2 → legs2.length < K2 + D2 → ¬ BothSides K2 D2 legs2)
    (hf : goesUp K1 K2 legs1 legs2 → legs2.length = K2 + D2 → 2 ≤ legs2.length →
      KeepsFirst K1 D1 K2 D2 legs1 legs2) :
    ∃ pairs res, planarContraction K1 D1 K2 D2 legs1 legs2 = .ok (pairs, res) ∧
      IsContraction (K1 + D1) (K2 + D2) (legs1.zip legs2) pairs res := by
  obtain ⟨⟨c1, o1, c2, o2⟩, h⟩ := hacc
  obtain ⟨hpl, hz, hc1, hc2⟩ := C74_contraction_sound h
  obtain ⟨hl, hlc⟩ := contraction_lengths h
  have hp1 : legs1.Perm c1 := by
    have := hz.map Prod.fst
    rwa [List.map_fst_zip (by omega), List.map_fst_zip (by omega)] at this
  have hp2 : legs2.Perm c2 := by
    have := hz.map Prod.snd
    rwa [List.map_snd_zip (by omega), List.map_snd_zip (by omega)] at this
  have hl1 := hp1.length_eq
  have hl2 := hp2.length_eq
  have hgo : goesUp K1 K2 legs1 legs2 = goesUp K1 K2 c1 c2 := by
    unfold goesUp
    rw [bendUp_perm hp1, bendUp_perm hp2, hl1]
  have hbs1 : BothSides K1 D1 legs1 ↔ BothSides K1 D1 c1 := by
    unfold BothSides; simp only [hp1.mem_iff]
  have hbs2 : BothSides K2 D2 legs2 ↔ BothSides K2 D2 c2.reverse := by
    unfold BothSides; simp only [List.mem_reverse, hp2.mem_iff]
  unfold KeepsFirst at hb1 hb2 hf
  rw [hgo, bendUp_perm hp1, bendUp_perm hp2, hbs1, hl1, hl2] at hb1
  rw [hgo, bendUp_perm hp1, bendUp_perm hp2, hbs2, hl1, hl2] at hb2
  rw [hgo, bendUp_perm hp1, bendUp_perm hp2, hl1, hl2] at hf
  have hup1 : bendUp K1 c1 ≤ c1.length := List.length_filter_le _ _
  have hup2 : bendUp K2 c2 ≤ c2.length := List.length_filter_le _ _
  unfold planarContraction
  rw [h]
  simp only [Except.bind]
  rw [hlc] at hb1 hf ⊢
  have hn1 : c1.length + o1.length = K1 + D1 := by simpa using (List.IsRotated.perm hc1).length_eq
  have hn2 : c2.length + o2.length = K2 + D2 := by simpa using (List.IsRotated.perm hc2).length_eq
  have hD1 : K1 + D1 - K1 = D1 := by omega
  -- all legs of `tensor1` are contracted: nothing remains in the domain
  have hful : c1.length = K1 + D1 → D1 + bendUp K1 c1 = c1.length := by
    intro hc
    have hperm : c1.Perm (List.range (K1 + D1)) := by
      have ho : o1 = [] := List.length_eq_zero_iff.1 (by omega)
      have := List.IsRotated.perm hc1
      rwa [ho, List.append_nil] at this
    have hK : bendUp K1 c1 = K1 := by
      rw [bendUp_perm hperm]
      unfold bendUp
      rw [List.range_add, List.filter_append]
      have a1 : (List.range K1).filter (fun l => decide (l < K1)) = List.range K1 :=
        List.filter_eq_self.2 (by intro x hx; rw [List.mem_range] at hx; simpa using hx)
      have a2 : ((List.range D1).map (K1 + ·)).filter (fun l => decide (l < K1)) = [] :=
        List.filter_eq_nil_iff.2 (by intro x hx; simp at hx; obtain ⟨a, -, rfl⟩ := hx; simp)
      rw [a1, a2]; simp
    omega
  by_cases hg : goesUp K1 K2 c1 c2 = true
  · rw [if_pos hg]
    rw [if_pos hg] at hb1 hb2 hf
    by_cases ha : K2 + (c2.length - bendUp K2 c2) - c2.length < D1 + bendUp K1 c1 - c2.length
    · rw [if_pos ha]
      obtain ⟨C, P, Q, leg, e1, e2, e3⟩ := helper_dom hc1 (List.Perm.refl _) (by omega) (by rw [hlc]; exact hb1 ha)
        (by intro hc; have := hful hc; omega)
      rw [e1]
      simp only
      rw [permuted_two hc2]
      simp only [Diag.map]
      obtain ⟨res, e4, e5⟩ := leaf_dom (C := C.map (Prod.mk false)) (P := P.map (Prod.mk false))
        (a := c1.map (Prod.mk false)) (Q := Q.map (Prod.mk false)) (b := c2.map (Prod.mk true))
        (o := o2.map (Prod.mk true)) (leg := leg) (num := c2.length) (by simpa using hlc) (by simp [hlc])
        (by simpa using e3)
      obtain ⟨-, -, -, hC⟩ := rest_rotated hc1 (cut_middle e2)
      refine ⟨_, res, Eq.trans ?_ e4, finish hz hC hc2 hlc ?_ (rot_dom e5).1⟩
      · simp [Except.bind]
      · rw [List.map_reverse, zip_ft]; exact List.reverse_perm _
    · rw [if_neg ha]
      obtain ⟨P, Q, R, leg, e1, e2, e3⟩ := helper_cod hc2 (List.reverse_perm _).symm hn
        (by rw [List.length_reverse]; exact hb2 (by rw [hlc]; exact ha))
        (by
          intro hc
          rw [List.length_reverse] at hc
          have : ¬ 2 ≤ c2.length := fun h2 => ha (hf hg hc h2)
          rcases c2 with _ | ⟨x, _ | ⟨y, l⟩⟩
          · rfl
          · rfl
          · simp at this)
      rw [e1]
      simp only
      rw [permuted_two (cut_swap hc1)]
      simp only [Diag.map]
      obtain ⟨pairs, res, e4, e6, e5⟩ := leaf_cod (R := R.map (Prod.mk true)) (P := P.map (Prod.mk true))
        (a := c2.reverse.map (Prod.mk true)) (Q := Q.map (Prod.mk true)) (b := c1.reverse.map (Prod.mk false))
        (o := o1.map (Prod.mk false)) (leg := leg) (num := c2.length) (by simpa using hlc.symm) (by simp)
        (by simpa using e3)
      have hC := cut_middle' e2
      refine ⟨pairs, res, Eq.trans ?_ e4, finish hz hc1 hC hlc ?_ (rot_cod e5).2⟩
      · simp [Except.bind]
      · rcases e6 with rfl | rfl
        · rw [zip_tf, zip_reverse' hlc, List.map_reverse]; exact List.reverse_perm _
        · rw [zip_ft, zip_reverse' hlc, List.map_reverse]; exact List.reverse_perm _
  · rw [if_neg hg]
    rw [if_neg hg] at hb1 hb2
    by_cases ha : D2 + bendUp K2 c2 - c2.length < K1 + (c2.length - bendUp K1 c1) - c2.length
    · rw [if_pos ha]
      obtain ⟨P, Q, R, leg, e1, e2, e3⟩ := helper_cod hc1 (List.Perm.refl _) (by omega)
        (by rw [hlc]; exact hb1 ha) (fun _ => rfl)
      rw [e1]
      simp only
      have e7 := permuted_two (cut_swap hc2)
      rw [List.reverse_reverse] at e7
      rw [e7]
      simp only [Diag.map]
      obtain ⟨pairs, res, e4, e6, e5⟩ := leaf_cod (R := R.map (Prod.mk false)) (P := P.map (Prod.mk false))
        (a := c1.map (Prod.mk false)) (Q := Q.map (Prod.mk false)) (b := c2.map (Prod.mk true))
        (o := o2.map (Prod.mk true)) (leg := leg) (num := c2.length) (by simpa using hlc) (by simp [hlc])
        (by simpa using e3)
      have hC := cut_middle' e2
      refine ⟨pairs, res, Eq.trans ?_ e4, finish hz hC hc2 hlc ?_ (rot_cod e5).1⟩
      · simp [Except.bind]
      · rcases e6 with rfl | rfl
        · rw [zip_ft]
        · rw [zip_tf]
    · rw [if_neg ha]
      obtain ⟨C, P, Q, leg, e1, e2, e3⟩ := helper_dom hc2 (List.reverse_perm _).symm hn
        (by rw [List.length_reverse]; exact hb2 (by rw [hlc]; exact ha)) (fun _ => by simp)
      rw [e1]
      simp only
      rw [permuted_two hc1]
      simp only [Diag.map]
      obtain ⟨res, e4, e5⟩ := leaf_dom (C := C.map (Prod.mk true)) (P := P.map (Prod.mk true))
        (a := c2.reverse.map (Prod.mk true)) (Q := Q.map (Prod.mk true)) (b := c1.reverse.map (Prod.mk false))
        (o := o1.map (Prod.mk false)) (leg := leg) (num := c2.length) (by simpa using hlc.symm) (by simp)
        (by simpa using e3)
      refine ⟨_, res, Eq.trans ?_ e4, finish hz hc1 (cut_middle e2) hlc ?_ (rot_dom e5).2⟩
      · simp [Except.bind]
      · rw [List.map_reverse, zip_tf, zip_reverse' hlc, List.map_reverse, List.reverse_reverse]

/-- **C76**: the legs of the result are the legs that are not contracted, each of them once. -/
theorem C76_open_legs {pairs : List ((Bool × ℕ) × (Bool × ℕ))} {res : Diag (Bool × ℕ)} {n1 n2 : ℕ}
    (hl : legs2.length = legs1.length) (h : IsContraction n1 n2 (legs1.zip legs2) pairs res) :
    res.legs.Perm (((List.range n1).filter (fun i => i ∉ legs1)).map (Prod.mk false) ++
      ((List.range n2).filter (fun i => i ∉ legs2)).map (Prod.mk true)) := by
  obtain ⟨-, o1, o2, ⟨a1, a2, h1, h2, hlen, hz⟩, hr⟩ := h
  have aux : ∀ {n : ℕ} {a o legs : List ℕ}, Cut n a o → legs.Perm a →
      o.Perm ((List.range n).filter (fun i => i ∉ legs)) := by
    intro n a o legs hc hp
    have hperm := List.IsRotated.perm hc
    have hnd := hperm.nodup_iff.2 List.nodup_range
    refine List.Perm.trans ?_ (hperm.filter _)
    rw [List.filter_append, List.filter_eq_nil_iff.2, List.filter_eq_self.2, List.nil_append]
    · intro x hx
      simp only [decide_eq_true_eq, hp.mem_iff]
      exact fun hc => (List.nodup_append.1 hnd).2.2 x hc x hx rfl
    · intro x hx
      simp [hp.mem_iff, hx]
  have hp1 : legs1.Perm a1 := by
    have := hz.map Prod.fst
    rwa [List.map_fst_zip (by omega), List.map_fst_zip (by simp; omega)] at this
  have hp2 : legs2.Perm a2 := by
    have := hz.map Prod.snd
    rw [List.map_snd_zip (by omega), List.map_snd_zip (by simp; omega)] at this
    exact this.trans (List.reverse_perm _)
  exact (List.IsRotated.perm hr).trans (((aux h1 hp1).map _).append ((aux h2 hp2).map _))

/-- **C76**, a defect: two vectors (all legs in the codomain), contracted with a tensor with all legs in its domain.
The contraction is accepted, but the wrong pairs of legs are connected. -/
theorem C76_full_defect :
    (∃ r, contractionLegs 2 2 [0, 1] [1, 0] = .ok r) ∧
    (∃ res, planarContraction 0 2 2 0 [0, 1] [1, 0] =
      .ok ([((false, 1), (true, 1)), ((false, 0), (true, 0))], res)) ∧
    ¬ ∃ pairs res, planarContraction 0 2 2 0 [0, 1] [1, 0] = .ok (pairs, res) ∧
      IsContraction 2 2 [(0, 1), (1, 0)] pairs res := by
  have h : planarContraction 0 2 2 0 [0, 1] [1, 0] =
      .ok ([((false, 1), (true, 1)), ((false, 0), (true, 0))], ⟨[], []⟩) := by decide +kernel
  refine ⟨⟨_, show _ = Except.ok ([0, 1], [], [1, 0], []) by decide +kernel⟩, ⟨_, h⟩, ?_⟩
  rintro ⟨pairs, res, h1, h2, -⟩
  rw [h] at h1
  simp only [Except.ok.injEq, Prod.mk.injEq] at h1
  rw [← h1.1] at h2
  revert h2
  decide +kernel

/-- **C76**, a defect: with three legs, the same contraction raises an error. -/
theorem C76_full_error_defect :
    (∃ r, contractionLegs 3 3 [0, 1, 2] [2, 1, 0] = .ok r) ∧
    planarContraction 0 3 3 0 [0, 1, 2] [2, 1, 0] = .error .nonPlanar :=
  ⟨⟨_, show _ = Except.ok ([0, 1, 2], [], [2, 1, 0], []) by decide +kernel⟩, by decide +kernel⟩

/-- **C76**, a defect: the contracted legs of a tensor with all legs in the domain contain the first and the last
leg, but not all legs; the wrong pairs of legs are connected. -/
theorem C76_wrap_defect :
    (∃ r, contractionLegs 3 3 [2, 0] [1, 0] = .ok r) ∧
    ¬ ∃ pairs res, planarContraction 0 3 2 1 [2, 0] [1, 0] = .ok (pairs, res) ∧
      IsContraction 3 3 [(2, 1), (0, 0)] pairs res := by
  refine ⟨⟨_, show _ = Except.ok ([2, 0], [1], [1, 0], [2]) by decide +kernel⟩, ?_⟩
  rintro ⟨pairs, res, h1, h2, -⟩
  have h : (planarContraction 0 3 2 1 [2, 0] [1, 0]).toOption.map Prod.fst =
      some [((false, 1), (true, 0)), ((false, 0), (true, 1))] := by decide +kernel
  rw [h1] at h
  simp only [Except.toOption, Option.map_some, Option.some.injEq] at h
  rw [h] at h2
  revert h2
  decide +kernel

/-- **C76**, a defect: contracted legs that cross both sides of a tensor with codomain and domain; the wrong pairs
of legs are connected. -/
theorem C76_both_sides_defect :
    (∃ r, contractionLegs 5 4 [4, 0, 1, 2] [3, 2, 1, 0] = .ok r) ∧
    ¬ ∃ pairs res, planarContraction 2 3 4 0 [4, 0, 1, 2] [3, 2, 1, 0] = .ok (pairs, res) ∧
      IsContraction 5 4 [(4, 3), (0, 2), (1, 1), (2, 0)] pairs res := by
  refine ⟨⟨_, show _ = Except.ok ([4, 0, 1, 2], [3], [3, 2, 1, 0], []) by decide +kernel⟩, ?_⟩
  rintro ⟨pairs, res, h1, h2, -⟩
  have h : (planarContraction 2 3 4 0 [4, 0, 1, 2] [3, 2, 1, 0]).toOption.map Prod.fst =
      some [((false, 3), (true, 0)), ((false, 2), (true, 1)), ((false, 1), (true, 2)), ((false, 0), (true, 3))] := by
    decide +kernel
  rw [h1] at h
  simp only [Except.toOption, Option.map_some, Option.some.injEq] at h
  rw [h] at h2
  revert h2
  decide +kernel

theorem accepted {n1 n2 : ℕ} {l1 l2 : List ℕ} (h : (contractionLegs n1 n2 l1 l2).toOption.isSome = true) :
    ∃ r, contractionLegs n1 n2 l1 l2 = .ok r := by
  rcases hc : contractionLegs n1 n2 l1 l2 with e | r
  · rw [hc] at h; simp [Except.toOption] at h
  · exact ⟨r, rfl⟩

/-- **C76**: contractions in all four cases (up and down, for the first and for the second tensor) meet the
hypotheses. -/
theorem C76_nonvacuous :
    (∃ pairs res, planarContraction 1 3 2 1 [2, 3] [1, 0] = .ok (pairs, res) ∧
      IsContraction 4 3 [(2, 1), (3, 0)] pairs res) ∧
    (∃ pairs res, planarContraction 2 3 3 1 [3, 2] [1, 2] = .ok (pairs, res) ∧
      IsContraction 5 4 [(3, 1), (2, 2)] pairs res) ∧
    (∃ pairs res, planarContraction 3 1 1 2 [0, 1] [2, 1] = .ok (pairs, res) ∧
      IsContraction 4 3 [(0, 2), (1, 1)] pairs res) ∧
    (∃ pairs res, planarContraction 2 1 2 3 [0, 1] [3, 2] = .ok (pairs, res) ∧
      IsContraction 3 5 [(0, 3), (1, 2)] pairs res) ∧
    planarContraction 2 3 3 1 [3, 2] [1, 2] = .ok ([((true, 1), (false, 3)), ((true, 2), (false, 2))],
      ⟨[(true, 0), (false, 4), (false, 0), (false, 1)], [(true, 3)]⟩) := by
  refine ⟨?_, ?_, ?_, ?_, by decide +kernel⟩
  · exact C76_planar_contraction_partial (legs1 := [2, 3]) (legs2 := [1, 0]) (K1 := 1) (D1 := 3) (K2 := 2) (D2 := 1)
      (accepted (by decide +kernel)) (by decide)
      (fun _ _ => by unfold BothSides; decide) (fun _ _ => by unfold BothSides; decide) (by unfold KeepsFirst; decide)
  · exact C76_planar_contraction_partial (legs1 := [3, 2]) (legs2 := [1, 2]) (K1 := 2) (D1 := 3) (K2 := 3) (D2 := 1)
      (accepted (by decide +kernel)) (by decide)
      (fun _ _ => by unfold BothSides; decide) (fun _ _ => by unfold BothSides; decide) (by unfold KeepsFirst; decide)
  · exact C76_planar_contraction_partial (legs1 := [0, 1]) (legs2 := [2, 1]) (K1 := 3) (D1 := 1) (K2 := 1) (D2 := 2)
      (accepted (by decide +kernel)) (by decide)
      (fun _ _ => by unfold BothSides; decide) (fun _ _ => by unfold BothSides; decide) (by unfold KeepsFirst; decide)
  · exact C76_planar_contraction_partial (legs1 := [0, 1]) (legs2 := [3, 2]) (K1 := 2) (D1 := 1) (K2 := 2) (D2 := 3)
      (accepted (by decide +kernel)) (by decide)
      (fun _ _ => by unfold BothSides; decide) (fun _ _ => by unfold BothSides; decide) (by unfold KeepsFirst; decide)

end

end Cyten.Props
