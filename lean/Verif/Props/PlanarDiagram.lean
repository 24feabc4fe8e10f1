import Verif.Props.PlanarContract
import Verif.Props.ContractionTree
import Mathlib.Data.Sym.Sym2
import Mathlib.Data.List.Perm.Subperm

/-!
# C79: verified planar diagrams contract what the definition says
-/

namespace Cyten.Planar.Spec

/-- All legs of the tensors of a diagram. -/
def allLegs (tensors : List (String × List String)) : List Leg := tensors.flatMap fun t => t.2.map fun l => (t.1, l)

/-- The pairs of legs that the definition connects. -/
def connected (definition : List DInstr) : List (Leg × Leg) :=
  definition.flatMap fun d => match d.t2 with | none => [] | some t2 => [((d.t1, d.l1), (t2, d.l2))]

/-- The open legs of the definition with their names in the result. -/
def opened (definition : List DInstr) : List (Leg × String) :=
  definition.flatMap fun d => match d.t2 with | none => [((d.t1, d.l1), d.l2)] | some _ => []

end Cyten.Planar.Spec

namespace Cyten.Planar
open Cyten.Planar.Spec

theorem legIndices_ok {A la : List Leg} {i : List ℕ} (h : legIndices A la = .ok i) :
    i = la.map A.idxOf ∧ ∀ x ∈ la, x ∈ A := by
  induction la generalizing i with
  | nil => simp [legIndices] at h; subst h; simp
  | cons x xs ih =>
    rw [legIndices] at h
    split_ifs at h with hx
    rcases he : legIndices A xs with e | r
    · rw [he] at h; simp [Except.map] at h
    · rw [he] at h
      simp only [Except.map, Except.ok.injEq] at h
      obtain ⟨h1, h2⟩ := ih he
      subst h
      exact ⟨by rw [h1]; rfl, fun y hy => (List.mem_cons.1 hy).elim (fun q => q ▸ hx) (h2 y)⟩

theorem mem_of_idxOf {A la : List Leg} (hla : ∀ x ∈ la, x ∈ A) {k : ℕ} (hk : k < A.length)
    (hi : k ∈ la.map A.idxOf) : A[k] ∈ la := by
  obtain ⟨y, hy, rfl⟩ := List.mem_map.1 hi
  rw [List.getElem_idxOf]; exact hy

theorem contractLabels_cover {A B la lb res : List Leg} (h : contractLabels A B la lb = .ok res) :
    (∀ x ∈ A, x ∈ la ∨ x ∈ res) ∧ (∀ x ∈ B, x ∈ lb ∨ x ∈ res) := by
  unfold contractLabels at h
  rcases h1 : legIndices A la with e | i1
  · rw [h1] at h; simp [Except.bind] at h
  rcases h2 : legIndices B lb with e | i2
  · rw [h1, h2] at h; simp [Except.bind] at h
  rw [h1, h2] at h
  simp only [Except.bind] at h
  rcases h3 : contractionLegs A.length B.length i1 i2 with e | ⟨c1, o1, c2, o2⟩
  · rw [h3] at h; simp at h
  rw [h3] at h
  simp only [Except.ok.injEq] at h
  obtain ⟨_, hz, k1, k2⟩ := Props.C74_contraction_sound h3
  obtain ⟨l1, l2⟩ := Props.contraction_lengths h3
  obtain ⟨e1, m1⟩ := legIndices_ok h1
  obtain ⟨e2, m2⟩ := legIndices_ok h2
  have p1 : i1.Perm c1 := by
    have := hz.map Prod.fst
    rwa [List.map_fst_zip (by omega), List.map_fst_zip (by omega)] at this
  have p2 : i2.Perm c2 := by
    have := hz.map Prod.snd
    rwa [List.map_snd_zip (by omega), List.map_snd_zip (by omega)] at this
  subst h
  constructor
  · intro x hx
    obtain ⟨k, hk, rfl⟩ := List.mem_iff_getElem.1 hx
    have : k ∈ c1 ++ o1 := k1.perm.mem_iff.2 (List.mem_range.2 hk)
    rcases List.mem_append.1 this with hc | ho
    · left
      refine mem_of_idxOf m1 hk ?_
      rw [← e1]; exact p1.mem_iff.2 hc
    · right
      refine List.mem_append_left _ (List.mem_map.2 ⟨k, ho, ?_⟩)
      rw [List.getD_eq_getElem?_getD, List.getElem?_eq_getElem hk]; rfl
  · intro x hx
    obtain ⟨k, hk, rfl⟩ := List.mem_iff_getElem.1 hx
    have : k ∈ c2.reverse ++ o2 := k2.perm.mem_iff.2 (List.mem_range.2 hk)
    rcases List.mem_append.1 this with hc | ho
    · left
      refine mem_of_idxOf m2 hk ?_
      rw [← e2]; exact p2.mem_iff.2 (List.mem_reverse.1 hc)
    · right
      refine List.mem_append_right _ (List.mem_map.2 ⟨k, ho, ?_⟩)
      rw [List.getD_eq_getElem?_getD, List.getElem?_eq_getElem hk]; rfl

theorem traceLabels_cover {labels r : List Leg} {pairs : List (Leg × Leg)} (h : traceLabels labels pairs = .ok r) :
    ∀ x ∈ labels, x ∈ r ∨ ∃ p ∈ pairs, x = p.1 ∨ x = p.2 := by
  unfold traceLabels at h
  rcases h1 : legIndices labels (pairs.map Prod.fst) with e | i1
  · rw [h1] at h; simp [Except.bind] at h
  rcases h2 : legIndices labels (pairs.map Prod.snd) with e | i2
  · rw [h1, h2] at h; simp [Except.bind] at h
  rw [h1, h2] at h
  simp only [Except.bind] at h
  rcases h3 : partialTraceLegs labels.length (i1.zip i2) with e | s
  · rw [h3] at h; simp at h
  rw [h3] at h
  simp only [Except.ok.injEq] at h
  obtain ⟨e1, m1⟩ := legIndices_ok h1
  obtain ⟨e2, m2⟩ := legIndices_ok h2
  have hs : s = (List.range labels.length).filter fun l => l ∉ (i1.zip i2).flatMap fun p => [p.1, p.2] := by
    unfold partialTraceLegs at h3
    rcases h4 : checkPairs labels.length (i1.zip i2) (i1.zip i2) with e | u
    · rw [h4] at h3; simp [Except.map] at h3
    · rw [h4] at h3; simpa [Except.map] using h3.symm
  subst h
  intro x hx
  obtain ⟨k, hk, rfl⟩ := List.mem_iff_getElem.1 hx
  by_cases hm : k ∈ (i1.zip i2).flatMap fun p => [p.1, p.2]
  · right
    obtain ⟨q, hq, hkq⟩ := List.mem_flatMap.1 hm
    simp only [List.mem_cons, List.not_mem_nil, or_false] at hkq
    rcases hkq with rfl | rfl
    · have := mem_of_idxOf m1 hk (by rw [← e1]; exact (List.of_mem_zip hq).1)
      obtain ⟨p, hp, he⟩ := List.mem_map.1 this
      exact ⟨p, hp, Or.inl he.symm⟩
    · have := mem_of_idxOf m2 hk (by rw [← e2]; exact (List.of_mem_zip hq).2)
      obtain ⟨p, hp, he⟩ := List.mem_map.1 this
      exact ⟨p, hp, Or.inr he.symm⟩
  · left
    refine List.mem_map.2 ⟨k, ?_, ?_⟩
    · rw [hs, List.mem_filter]; exact ⟨List.mem_range.2 hk, by simpa using hm⟩
    · rw [List.getD_eq_getElem?_getD, List.getElem?_eq_getElem hk]; rfl

theorem doTraces_spec {traces : List (String × Leg × Leg)} {ts : List (String × List Leg)}
    {r : List (TName × List Leg)} (h : doTraces traces ts = .ok r) :
    r.map Prod.fst = ts.map (fun t => [t.1]) ∧
    ∀ x ∈ ts.flatMap Prod.snd, x ∈ r.flatMap Prod.snd ∨ ∃ p ∈ traces, x = p.2.1 ∨ x = p.2.2 := by
  induction ts generalizing r with
  | nil => simp only [doTraces, Except.ok.injEq] at h; subst h; simp
  | cons t ts ih =>
    obtain ⟨name, labels⟩ := t
    rw [doTraces] at h
    set pairs := traces.filterMap fun x => if x.1 = name then some x.2 else none with hpairs
    rcases h1 : (if pairs = [] then .ok labels else traceLabels labels pairs : Except DErr (List Leg)) with e | s
    · rw [h1] at h; simp [Except.bind] at h
    rw [h1] at h
    rcases h2 : doTraces traces ts with e | rs
    · rw [h2] at h; simp [Except.bind, Except.map] at h
    rw [h2] at h
    simp only [Except.bind, Except.map, Except.ok.injEq] at h
    subst h
    obtain ⟨i1, i2⟩ := ih h2
    refine ⟨by simp [i1], fun x hx => ?_⟩
    rw [List.flatMap_cons, List.mem_append] at hx
    rcases hx with hx | hx
    · have hc : x ∈ s ∨ ∃ p ∈ pairs, x = p.1 ∨ x = p.2 := by
        split_ifs at h1 with hn
        · simp only [Except.ok.injEq] at h1; subst h1; exact Or.inl hx
        · exact traceLabels_cover h1 x hx
      rcases hc with hc | ⟨p, hp, hxp⟩
      · exact Or.inl (by rw [List.flatMap_cons]; exact List.mem_append_left _ hc)
      · right
        rw [hpairs, List.mem_filterMap] at hp
        obtain ⟨q, hq, he⟩ := hp
        split_ifs at he with hqn
        simp only [Option.some.injEq] at he
        subst he
        exact ⟨q, hq, hxp⟩
    · rcases i2 x hx with h3 | h3
      · exact Or.inl (by rw [List.flatMap_cons]; exact List.mem_append_right _ h3)
      · exact Or.inr h3

/-- `pop` removes two neighbouring leaves and inserts the new leaf. -/
theorem pop_spec {t t' : CTree} {a b : TName} (h : t.pop = some (a, b, t')) :
    ∃ u v, t.leaves = u ++ a :: b :: v ∧ t'.leaves = u ++ (a ++ b) :: v := by
  induction t generalizing t' with
  | leaf => simp [CTree.pop] at h
  | node l r ihl ihr =>
    cases l with
    | node x y =>
      rw [CTree.pop, Option.map_eq_some_iff] at h
      obtain ⟨⟨a', b', s⟩, hs, he⟩ := h
      simp only [Prod.mk.injEq] at he
      obtain ⟨rfl, rfl, rfl⟩ := he
      obtain ⟨u, v, h1, h2⟩ := ihl hs
      exact ⟨u, v ++ r.leaves, by rw [CTree.leaves, h1]; simp, by rw [CTree.leaves, h2]; simp⟩
    | leaf x =>
      cases r with
      | node y z =>
        rw [CTree.pop, Option.map_eq_some_iff] at h
        obtain ⟨⟨a', b', s⟩, hs, he⟩ := h
        simp only [Prod.mk.injEq] at he
        obtain ⟨rfl, rfl, rfl⟩ := he
        obtain ⟨u, v, h1, h2⟩ := ihr hs
        exact ⟨x :: u, v, by rw [CTree.leaves, h1]; simp [CTree.leaves], by rw [CTree.leaves, h2]; simp [CTree.leaves]⟩
      | leaf y =>
        simp only [CTree.pop, Option.some.injEq, Prod.mk.injEq] at h
        obtain ⟨rfl, rfl, rfl⟩ := h
        exact ⟨[], [], rfl, rfl⟩

/-- Names that are distinct and remain distinct when they are joined. -/
def Names (l : List TName) : Prop := l.flatten.Nodup ∧ ∀ v ∈ l, v ≠ []

theorem Names.nodup {l : List TName} (h : Names l) : l.Nodup := by
  have h2 := (List.nodup_flatten.1 h.1).2
  refine (List.Pairwise.imp_of_mem (S := (· ≠ ·)) ?_ h2)
  intro a b ha _ hd hab
  subst hab
  obtain ⟨x, hx⟩ := List.exists_mem_of_ne_nil _ (h.2 a ha)
  exact hd hx hx

theorem Names.perm {l l' : List TName} (h : Names l) (hp : l.Perm l') : Names l' :=
  ⟨hp.flatten.nodup_iff.1 h.1, fun v hv => h.2 v (hp.mem_iff.2 hv)⟩

theorem Names.join {a b : TName} {l : List TName} (h : Names (a :: b :: l)) : Names ((a ++ b) :: l) := by
  refine ⟨by simpa [List.append_assoc] using h.1, ?_⟩
  intro v hv
  rcases List.mem_cons.1 hv with rfl | hv
  · intro hc
    exact h.2 a (by simp) (List.append_eq_nil_iff.1 hc).1
  · exact h.2 v (by simp [hv])

theorem Names.fresh {a b : TName} {l : List TName} (h : Names (a :: b :: l)) : (a ++ b) ∉ l := by
  have := h.join.nodup
  exact (List.nodup_cons.1 this).1

/-- The pair of legs of a contraction, without an order. -/
def Contr.sym (c : Contr) : Sym2 Leg := s(c.l1, c.l2)

theorem step_pairs (ta tb : TName) (C : List Contr) :
    ((C.filterMap (Contr.between ta tb)).map (fun p => s(p.1, p.2)) ++
      ((C.filter fun c => (c.between ta tb).isNone).map (Contr.rename ta tb)).map Contr.sym).Perm (C.map Contr.sym) := by
  induction C with
  | nil => simp
  | cons c C ih =>
    rcases hc : c.between ta tb with _ | p
    · rw [List.filterMap_cons_none hc, List.filter_cons_of_pos (by simp [hc])]
      simp only [List.map_cons]
      refine List.perm_middle.trans ?_
      exact ih.cons _
    · rw [List.filterMap_cons_some hc, List.filter_cons_of_neg (by simp [hc])]
      simp only [List.map_cons, List.cons_append]
      have : s(p.1, p.2) = c.sym := by
        unfold Contr.between at hc
        split_ifs at hc with h1 h2
        · simp only [Option.some.injEq] at hc; subst hc; rfl
        · simp only [Option.some.injEq] at hc; subst hc; exact Sym2.eq_swap
      rw [this]
      exact ih.cons _

theorem mem_of_lookup {T : List (TName × List Leg)} {k : TName} {A : List Leg} (h : T.lookup k = some A) :
    (k, A) ∈ T := by
  induction T with
  | nil => simp at h
  | cons t T ih =>
    obtain ⟨k', A'⟩ := t
    rw [List.lookup_cons] at h
    by_cases hk : k = k'
    · subst hk; simp at h; subst h; simp
    · rw [show (k == k') = false by simpa using hk] at h
      exact List.mem_cons_of_mem _ (ih h)

theorem lookup_unique {T : List (TName × List Leg)} (hn : (T.map Prod.fst).Nodup) {k : TName} {A B : List Leg}
    (h1 : (k, A) ∈ T) (h2 : (k, B) ∈ T) : A = B := by
  induction T with
  | nil => simp at h1
  | cons t T ih =>
    rw [List.map_cons, List.nodup_cons] at hn
    rcases List.mem_cons.1 h1 with r1 | r1 <;> rcases List.mem_cons.1 h2 with r2 | r2
    · have := r1.trans r2.symm; simpa using this
    · exact absurd (List.mem_map.2 ⟨_, r2, rfl⟩) (by rw [← r1] at hn; exact hn.1)
    · exact absurd (List.mem_map.2 ⟨_, r1, rfl⟩) (by rw [← r2] at hn; exact hn.1)
    · exact ih hn.2 r1 r2

/-- The tensors after one contraction. -/
def stepTensors (T : List (TName × List Leg)) (ta tb : TName) (res : List Leg) : List (TName × List Leg) :=
  ((T.filter fun x => x.1 ≠ ta ++ tb) ++ [(ta ++ tb, res)]).filter fun x => x.1 ≠ ta ∧ x.1 ≠ tb

theorem names_cons_perm {T : List TName} (hn : T.Nodup) {a b : TName} (ha : a ∈ T) (hb : b ∈ T) (hab : a ≠ b) :
    T.Perm (a :: b :: T.filter fun x => x ≠ a ∧ x ≠ b) := by
  refine (List.perm_ext_iff_of_nodup hn ?_).2 ?_
  · simp only [List.nodup_cons, List.mem_cons, List.mem_filter]
    refine ⟨?_, ?_, hn.filter _⟩
    · rintro (h | ⟨_, h⟩)
      · exact hab h
      · simp at h
    · rintro ⟨_, h⟩; simp at h
  · intro x
    simp only [List.mem_cons, List.mem_filter, decide_eq_true_eq]
    constructor
    · intro hx
      by_cases h1 : x = a
      · exact Or.inl h1
      by_cases h2 : x = b
      · exact Or.inr (Or.inl h2)
      · exact Or.inr (Or.inr ⟨hx, h1, h2⟩)
    · rintro (rfl | rfl | h)
      · exact ha
      · exact hb
      · exact h.1

theorem doContractions_spec {fuel : ℕ} {T R : List (TName × List Leg)} {C : List Contr} {order : CTree}
    {P : List (Leg × Leg)} (h : doContractions fuel T C order = .ok (R, P)) (hT : Names (T.map Prod.fst))
    (hL : Names order.leaves)
    (hC : ∀ c ∈ C, c.t1 ≠ c.t2 ∧ c.t1 ∈ T.map Prod.fst ∧ c.t2 ∈ T.map Prod.fst) :
    R.length ≤ 1 ∧ (P.map fun p => s(p.1, p.2)).Perm (C.map Contr.sym) ∧
    ∀ x ∈ T.flatMap Prod.snd, x ∈ R.flatMap Prod.snd ∨ ∃ p ∈ P, x = p.1 ∨ x = p.2 := by
  induction fuel generalizing T C order R P with
  | zero =>
    rw [doContractions] at h
    split_ifs at h with hl
    simp only [Except.ok.injEq, Prod.mk.injEq] at h
    obtain ⟨rfl, rfl⟩ := h
    refine ⟨hl, ?_, fun x hx => Or.inl hx⟩
    have : C = [] := by
      rw [List.eq_nil_iff_forall_not_mem]
      intro c hc
      obtain ⟨h1, h2, h3⟩ := hC c hc
      match T, hl with
      | [], _ => simp at h2
      | [t], _ => simp only [List.map_cons, List.map_nil, List.mem_singleton] at h2 h3; exact h1 (h2.trans h3.symm)
    subst this; exact List.Perm.refl _
  | succ fuel ih =>
    rw [doContractions] at h
    split_ifs at h with hl
    · simp only [Except.ok.injEq, Prod.mk.injEq] at h
      obtain ⟨rfl, rfl⟩ := h
      refine ⟨hl, ?_, fun x hx => Or.inl hx⟩
      have : C = [] := by
        rw [List.eq_nil_iff_forall_not_mem]
        intro c hc
        obtain ⟨h1, h2, h3⟩ := hC c hc
        match T, hl with
        | [], _ => simp at h2
        | [t], _ => simp only [List.map_cons, List.map_nil, List.mem_singleton] at h2 h3; exact h1 (h2.trans h3.symm)
      subst this; exact List.Perm.refl _
    rcases hp : order.pop with _ | ⟨ta, tb, order'⟩
    · rw [hp] at h; simp at h
    rw [hp] at h
    simp only at h
    rcases hA : T.lookup ta with _ | A
    · rw [hA] at h; simp at h
    rcases hB : T.lookup tb with _ | B
    · rw [hA, hB] at h; simp at h
    rw [hA, hB] at h
    simp only at h
    set pairs := C.filterMap (Contr.between ta tb) with hpairs
    rcases hr : contractLabels A B (pairs.map Prod.fst) (pairs.map Prod.snd) with e | res
    · rw [hr] at h; simp [Except.bind] at h
    rw [hr] at h
    simp only [Except.bind] at h
    change ((doContractions fuel (stepTensors T ta tb res)
      ((C.filter fun c => (c.between ta tb).isNone).map (Contr.rename ta tb)) order').map fun r => (r.1, pairs ++ r.2)) =
      .ok (R, P) at h
    rcases hd : doContractions fuel (stepTensors T ta tb res)
      ((C.filter fun c => (c.between ta tb).isNone).map (Contr.rename ta tb)) order' with e | ⟨R', P'⟩
    · rw [hd] at h; simp [Except.map] at h
    rw [hd] at h
    simp only [Except.map, Except.ok.injEq, Prod.mk.injEq] at h
    obtain ⟨rfl, rfl⟩ := h
    obtain ⟨u, v, lv, lv'⟩ := pop_spec hp
    have hlp : order.leaves.Perm (ta :: tb :: (u ++ v)) := by
      rw [lv]; exact List.perm_middle.trans ((List.perm_middle).cons _)
    have hL2 := hL.perm hlp
    have hab : ta ≠ tb := by
      have := hL2.nodup; rw [List.nodup_cons] at this
      exact fun hc => this.1 (by simp [hc])
    have hL' : Names order'.leaves := by
      refine hL2.join.perm ?_
      rw [lv']; exact List.perm_middle.symm
    have mA := mem_of_lookup hA
    have mB := mem_of_lookup hB
    have ka : ta ∈ T.map Prod.fst := List.mem_map.2 ⟨_, mA, rfl⟩
    have kb : tb ∈ T.map Prod.fst := List.mem_map.2 ⟨_, mB, rfl⟩
    have hperm := names_cons_perm hT.nodup ka kb hab
    have hT2 := hT.perm hperm
    have hfresh := hT2.fresh
    have hna : ta ++ tb ≠ ta := by
      intro hc; exact hT.2 tb kb (List.append_right_eq_self.1 hc)
    have hnb : ta ++ tb ≠ tb := by
      intro hc; exact hT.2 ta ka (List.append_left_eq_self.1 hc)
    have hnot : ta ++ tb ∉ T.map Prod.fst := by
      intro hc
      exact hfresh (List.mem_filter.2 ⟨hc, decide_eq_true ⟨hna, hnb⟩⟩)
    have hst : stepTensors T ta tb res = (T.filter fun x => x.1 ≠ ta ∧ x.1 ≠ tb) ++ [(ta ++ tb, res)] := by
      have : (T.filter fun x => x.1 ≠ ta ++ tb) = T := by
        rw [List.filter_eq_self]
        intro x hx
        simp only [decide_eq_true_eq]
        exact fun hc => hnot (List.mem_map.2 ⟨x, hx, hc⟩)
      rw [stepTensors, this, List.filter_append]
      congr 1
      simp [hna, hnb]
    have hkeys : (stepTensors T ta tb res).map Prod.fst =
        ((T.map Prod.fst).filter fun x => x ≠ ta ∧ x ≠ tb) ++ [ta ++ tb] := by
      rw [hst, List.map_append, List.filter_map]; rfl
    have hT' : Names ((stepTensors T ta tb res).map Prod.fst) := by
      rw [hkeys]; exact hT2.join.perm (List.perm_append_singleton _ _).symm
    have hmem : ∀ k ∈ T.map Prod.fst, (if k = ta ∨ k = tb then ta ++ tb else k) ∈
        (stepTensors T ta tb res).map Prod.fst := by
      intro k hk
      rw [hkeys]
      split_ifs with hc
      · simp
      · push Not at hc
        exact List.mem_append_left _ (List.mem_filter.2 ⟨hk, by simpa using hc⟩)
    have hC' : ∀ c ∈ (C.filter fun c => (c.between ta tb).isNone).map (Contr.rename ta tb),
        c.t1 ≠ c.t2 ∧ c.t1 ∈ (stepTensors T ta tb res).map Prod.fst ∧
          c.t2 ∈ (stepTensors T ta tb res).map Prod.fst := by
      intro c' hc'
      obtain ⟨c, hc, rfl⟩ := List.mem_map.1 hc'
      obtain ⟨hc, hbt⟩ := List.mem_filter.1 hc
      obtain ⟨h1, h2, h3⟩ := hC c hc
      refine ⟨?_, hmem _ h2, hmem _ h3⟩
      simp only [Contr.rename]
      by_cases c1 : c.t1 = ta ∨ c.t1 = tb <;> by_cases c2 : c.t2 = ta ∨ c.t2 = tb
      · exfalso
        unfold Contr.between at hbt
        rcases c1 with c1 | c1 <;> rcases c2 with c2 | c2
        · exact h1 (c1.trans c2.symm)
        · simp [c1, c2] at hbt
        · rw [if_neg (by rw [c1, c2]; simp [hab.symm]), if_pos ⟨c1, c2⟩] at hbt
          simp at hbt
        · exact h1 (c1.trans c2.symm)
      · rw [if_pos c1, if_neg c2]; exact fun hc => hnot (hc ▸ h3)
      · rw [if_neg c1, if_pos c2]; exact fun hc => hnot (hc ▸ h2)
      · rw [if_neg c1, if_neg c2]; exact h1
    obtain ⟨r1, r2, r3⟩ := ih hd hT' hL' hC'
    refine ⟨r1, ?_, ?_⟩
    · rw [List.map_append]
      exact (r2.append_left _).trans (step_pairs ta tb C)
    · intro x hx
      obtain ⟨⟨k, L⟩, hkL, hxL⟩ := List.mem_flatMap.1 hx
      obtain ⟨v1, v2⟩ := contractLabels_cover hr
      have hgo : x ∈ (stepTensors T ta tb res).flatMap Prod.snd →
          x ∈ R'.flatMap Prod.snd ∨ ∃ p ∈ pairs ++ P', x = p.1 ∨ x = p.2 := by
        intro h1
        rcases r3 x h1 with h2 | ⟨p, hp, h2⟩
        · exact Or.inl h2
        · exact Or.inr ⟨p, List.mem_append_right _ hp, h2⟩
      have hres : x ∈ res → x ∈ (stepTensors T ta tb res).flatMap Prod.snd := by
        intro h1; rw [hst]; simp [h1]
      by_cases hka : k = ta
      · subst hka
        have : L = A := lookup_unique hT.nodup hkL mA
        subst this
        rcases v1 x hxL with h1 | h1
        · obtain ⟨p, hp, he⟩ := List.mem_map.1 h1
          exact Or.inr ⟨p, List.mem_append_left _ hp, Or.inl he.symm⟩
        · exact hgo (hres h1)
      by_cases hkb : k = tb
      · subst hkb
        have : L = B := lookup_unique hT.nodup hkL mB
        subst this
        rcases v2 x hxL with h1 | h1
        · obtain ⟨p, hp, he⟩ := List.mem_map.1 h1
          exact Or.inr ⟨p, List.mem_append_left _ hp, Or.inr he.symm⟩
        · exact hgo (hres h1)
      · refine hgo ?_
        rw [hst, List.flatMap_append]
        refine List.mem_append_left _ (List.mem_flatMap.2 ⟨(k, L), ?_, hxL⟩)
        exact List.mem_filter.2 ⟨hkL, by simpa using ⟨hka, hkb⟩⟩

theorem openLegs_eq (definition : List DInstr) : openLegs definition = opened definition := by
  unfold openLegs opened
  induction definition with
  | nil => rfl
  | cons d ds ih =>
    rw [List.flatMap_cons, ← ih]
    rcases h : d.t2 with _ | t2
    · rw [List.filterMap_cons_some (b := ((d.t1, d.l1), d.l2)) (by rw [h])]; rfl
    · rw [List.filterMap_cons_none (by rw [h])]; rfl

theorem pairs_split (definition : List DInstr) :
    ((tracesOf definition).map Prod.snd ++ (contractionsOf definition).map fun c => (c.l1, c.l2)).Perm
      (connected definition) := by
  unfold tracesOf contractionsOf connected
  induction definition with
  | nil => exact List.Perm.refl _
  | cons d ds ih =>
    rw [List.flatMap_cons]
    rcases h : d.t2 with _ | t2
    · rw [List.filterMap_cons_none (by rw [h]), List.filterMap_cons_none (by rw [h])]
      exact ih
    · by_cases ht : d.t1 = t2
      · rw [List.filterMap_cons_some (b := (d.t1, (d.t1, d.l1), (t2, d.l2))) (by rw [h]; simp [ht]),
          List.filterMap_cons_none (by rw [h]; simp [ht])]
        exact ih.cons _
      · rw [List.filterMap_cons_none (by rw [h]; simp [ht]),
          List.filterMap_cons_some (b := ⟨[d.t1], (d.t1, d.l1), [t2], (t2, d.l2)⟩) (by rw [h]; simp [ht])]
        exact List.perm_middle.trans (ih.cons _)

theorem legs_split (definition : List DInstr) :
    (definition.flatMap DInstr.legs).Perm
      ((opened definition).map Prod.fst ++ (connected definition).flatMap fun p => [p.1, p.2]) := by
  unfold opened connected
  induction definition with
  | nil => exact List.Perm.refl _
  | cons d ds ih =>
    rw [List.flatMap_cons, List.flatMap_cons, List.flatMap_cons]
    rcases h : d.t2 with _ | t2
    · have e : d.legs = [(d.t1, d.l1)] := by rw [DInstr.legs, h]
      rw [e]; exact ih.cons _
    · have e : d.legs = [(d.t1, d.l1), (t2, d.l2)] := by rw [DInstr.legs, h]
      rw [e]
      simp only [List.nil_append, List.cons_append, List.flatMap_cons]
      refine List.Perm.trans ?_ List.perm_middle.symm
      refine List.Perm.cons _ ?_
      refine List.Perm.trans ?_ List.perm_middle.symm
      exact ih.cons _

theorem lookup_nodup {L : List (Leg × String)} (hn : (L.map Prod.fst).Nodup) {l : Leg} {s : String}
    (h : (l, s) ∈ L) : L.lookup l = some s := by
  induction L with
  | nil => simp at h
  | cons t L ih =>
    obtain ⟨l', s'⟩ := t
    rw [List.map_cons, List.nodup_cons] at hn
    rw [List.lookup_cons]
    rcases List.mem_cons.1 h with h | h
    · simp only [Prod.mk.injEq] at h; obtain ⟨rfl, rfl⟩ := h; simp
    · have : l ≠ l' := fun hc => hn.1 (List.mem_map.2 ⟨_, h, hc⟩)
      rw [show (l == l') = false by simpa using this]
      exact ih hn.2 h

/-- C79: if a diagram is accepted (and evaluates), then every leg of every tensor occurs exactly once in the definition;
the pairs of legs that are connected are exactly the pairs of the definition; the legs of the result are exactly the
open legs, with the labels of the definition. -/
theorem C79_diagram {tensors : List (String × List String)} {definition : List DInstr} {order : CTree}
    {names : List String} (hn : (tensors.map Prod.fst).Nodup) (hl : ∀ t ∈ tensors, t.2.Nodup)
    (ho : order.leaves = names.map fun s => [s]) (hno : names.Nodup)
    {res : List (Leg × String)} {pairs : List (Leg × Leg)}
    (h : verifyDiagram tensors definition order = .ok (res, pairs)) :
    (definition.flatMap DInstr.legs).Perm (allLegs tensors) ∧
    (pairs.map fun p => s(p.1, p.2)).Perm ((connected definition).map fun p => s(p.1, p.2)) ∧
    res.Perm (opened definition) := by
  unfold verifyDiagram at h
  split_ifs at h with _ h2 h3
  push Not at h3
  unfold evaluate at h
  simp only at h
  set prepared := tensors.map fun t => (t.1, t.2.map fun l => (t.1, l)) with hprep
  rcases e1 : doTraces (tracesOf definition) prepared with e | traced
  · rw [e1] at h; simp [Except.bind] at h
  rw [e1] at h
  simp only [Except.bind] at h
  rcases e2 : doContractions order.numInner traced (contractionsOf definition) order with e | ⟨R, P⟩
  · rw [e2] at h; simp at h
  rw [e2] at h
  simp only at h
  rcases e3 : extractResult R (openLegs definition) with e | res'
  · rw [e3] at h; simp [Except.map] at h
  rw [e3] at h
  simp only [Except.map, Except.ok.injEq, Prod.mk.injEq] at h
  obtain ⟨rfl, hpairs⟩ := h
  obtain ⟨t1, t2⟩ := doTraces_spec e1
  have hsingle : ∀ l : List String, (l.map fun s => [s]).flatten = l := by
    intro l; induction l with
    | nil => rfl
    | cons a l ih => simp [ih]
  have hkeys : traced.map Prod.fst = (tensors.map Prod.fst).map fun s => [s] := by
    rw [t1, hprep, List.map_map, List.map_map]; rfl
  have hT : Names (traced.map Prod.fst) := by
    rw [hkeys]
    exact ⟨by rw [hsingle]; exact hn, by intro v hv; obtain ⟨s, _, rfl⟩ := List.mem_map.1 hv; simp⟩
  have hL : Names order.leaves := by
    rw [ho]; exact ⟨by rw [hsingle]; exact hno, by intro v hv; obtain ⟨s, _, rfl⟩ := List.mem_map.1 hv; simp⟩
  have hC : ∀ c ∈ contractionsOf definition, c.t1 ≠ c.t2 ∧ c.t1 ∈ traced.map Prod.fst ∧
      c.t2 ∈ traced.map Prod.fst := by
    intro c hc
    obtain ⟨d, hd, he⟩ := List.mem_filterMap.1 hc
    rcases hd2 : d.t2 with _ | s2
    · rw [hd2] at he; simp at he
    rw [hd2] at he
    simp only at he
    split_ifs at he with hne
    simp only [Option.some.injEq] at he
    subst he
    have hlegs : d.legs = [(d.t1, d.l1), (s2, d.l2)] := by rw [DInstr.legs, hd2]
    have q : ∀ x ∈ d.legs, [x.1] ∈ traced.map Prod.fst := by
      intro x hx
      obtain ⟨t, ht, hx1, _⟩ := h2 x (List.mem_flatMap.2 ⟨d, hd, hx⟩)
      rw [hkeys, List.mem_map]
      exact ⟨x.1, List.mem_map.2 ⟨t, ht, hx1⟩, rfl⟩
    rw [hlegs] at q
    exact ⟨by simpa using hne, q (d.t1, d.l1) (by simp), q (s2, d.l2) (by simp)⟩
  obtain ⟨r1, r2, r3⟩ := doContractions_spec e2 hT hL hC
  -- the connected pairs
  have hconn : (pairs.map fun p => s(p.1, p.2)).Perm ((connected definition).map fun p => s(p.1, p.2)) := by
    rw [← hpairs, List.map_append]
    refine (r2.append_left _).trans ?_
    have := (pairs_split definition).map fun p => s(p.1, p.2)
    rw [List.map_append, List.map_map (g := fun p : Leg × Leg => s(p.1, p.2)) (f := fun c : Contr => (c.l1, c.l2))] at this
    exact this
  have hmemc : ∀ x : Leg, (∃ p ∈ pairs, x = p.1 ∨ x = p.2) → x ∈ (connected definition).flatMap fun p => [p.1, p.2] := by
    rintro x ⟨p, hp, hx⟩
    have : s(p.1, p.2) ∈ (connected definition).map fun p => s(p.1, p.2) :=
      hconn.mem_iff.1 (List.mem_map.2 ⟨p, hp, rfl⟩)
    obtain ⟨q, hq, he⟩ := List.mem_map.1 this
    have hxq : x ∈ s(q.1, q.2) := by rw [he]; exact Sym2.mem_iff.2 hx
    exact List.mem_flatMap.2 ⟨q, hq, by simpa using Sym2.mem_iff.1 hxq⟩
  -- all legs occur in the definition
  obtain ⟨nm, labels, hR, hlen, hset⟩ : ∃ nm labels, R = [(nm, labels)] ∧ (openLegs definition).length = labels.length ∧
      ((∀ l ∈ labels, l ∈ (openLegs definition).map Prod.fst) ∧ ∀ l ∈ (openLegs definition).map Prod.fst, l ∈ labels) := by
    rcases R with _ | ⟨⟨nm, labels⟩, _ | ⟨y, ys⟩⟩
    · simp [extractResult] at e3
    · rw [extractResult] at e3
      split_ifs at e3 with c1 c2
      exact ⟨nm, labels, rfl, not_not.1 c1, c2⟩
    · simp [extractResult] at e3
  have hres : res' = labels.map fun l => (l, ((openLegs definition).reverse.lookup l).getD "") := by
    rw [hR, extractResult, if_neg (not_not.2 hlen), if_neg (not_not.2 hset)] at e3
    simpa using e3.symm
  have hall : prepared.flatMap Prod.snd = allLegs tensors := by
    rw [hprep, List.flatMap_map]; rfl
  have hsub : ∀ x ∈ allLegs tensors, x ∈ definition.flatMap DInstr.legs := by
    intro x hx
    rw [(legs_split definition).mem_iff, List.mem_append]
    have htr : (∃ p ∈ tracesOf definition, x = p.2.1 ∨ x = p.2.2) → x ∈ (connected definition).flatMap fun p => [p.1, p.2] := by
      rintro ⟨p, hp, hxp⟩
      refine hmemc x ⟨p.2, ?_, hxp⟩
      rw [← hpairs]; exact List.mem_append_left _ (List.mem_map.2 ⟨p, hp, rfl⟩)
    rcases t2 x (by rw [hall]; exact hx) with q | q
    · rcases r3 x q with q | ⟨p, hp, hxp⟩
      · left
        rw [← openLegs_eq]
        rw [hR] at q
        exact hset.1 x (by simpa using q)
      · right
        refine hmemc x ⟨p, ?_, hxp⟩
        rw [← hpairs]; exact List.mem_append_right _ hp
    · exact Or.inr (htr q)
  have hnd : (allLegs tensors).Nodup := by
    unfold allLegs
    rw [List.nodup_flatMap]
    refine ⟨fun t ht => (hl t ht).map (fun a b hab => (Prod.mk.inj hab).2), ?_⟩
    have := List.pairwise_map.1 hn
    refine this.imp ?_
    intro a b hab x hx hy
    obtain ⟨_, _, rfl⟩ := List.mem_map.1 hx
    obtain ⟨_, _, hc⟩ := List.mem_map.1 hy
    simp only [Prod.mk.injEq] at hc
    exact hab hc.1.symm
  have hlen2 : (definition.flatMap DInstr.legs).length = (allLegs tensors).length := by
    rw [← h3, allLegs, List.length_flatMap]
    congr 1
    simp
  have hperm : (definition.flatMap DInstr.legs).Perm (allLegs tensors) :=
    ((List.subperm_of_subset hnd hsub).perm_of_length_le hlen2.le).symm
  refine ⟨hperm, hconn, ?_⟩
  -- the open legs
  have hnd2 : ((openLegs definition).map Prod.fst).Nodup := by
    have := hperm.nodup_iff.2 hnd
    rw [(legs_split definition).nodup_iff, List.nodup_append'] at this
    rw [openLegs_eq]; exact this.1
  have hlp : ((openLegs definition).map Prod.fst).Perm labels :=
    (List.subperm_of_subset hnd2 hset.2).perm_of_length_le (by rw [List.length_map, hlen])
  rw [← openLegs_eq, hres]
  refine (hlp.symm.map _).trans ?_
  rw [List.map_map]
  refine List.Perm.of_eq ?_
  conv_rhs => rw [← List.map_id (openLegs definition)]
  refine List.map_congr_left ?_
  intro p hp
  have : (openLegs definition).reverse.lookup p.1 = some p.2 := by
    refine lookup_nodup ?_ (List.mem_reverse.2 hp)
    rw [List.map_reverse, List.nodup_reverse]; exact hnd2
  simp [this]

/-- C79 for the contraction order of any order string, also `"definition"` (`from_contraction_order`), or for a single
tensor. -/
theorem C79_order_string {tensors : List (String × List String)} {definition : List DInstr} {order : CTree}
    (hn : (tensors.map Prod.fst).Nodup) (hl : ∀ t ∈ tensors, t.2.Nodup)
    (ho : (∃ list, fromContractionOrder list = .ok order) ∨ ∃ s, order = .leaf [s])
    {res : List (Leg × String)} {pairs : List (Leg × Leg)}
    (h : verifyDiagram tensors definition order = .ok (res, pairs)) :
    (definition.flatMap DInstr.legs).Perm (allLegs tensors) ∧
    (pairs.map fun p => s(p.1, p.2)).Perm ((connected definition).map fun p => s(p.1, p.2)) ∧
    res.Perm (opened definition) := by
  rcases ho with ⟨list, ho⟩ | ⟨s, rfl⟩
  · obtain ⟨⟨names, h1, h2, _⟩, _⟩ := (C78_from_contraction_order list).1 order ho
    exact C79_diagram hn hl h1 h2 h
  · exact C79_diagram (names := [s]) hn hl rfl (by simp) h

/-- C79 on a concrete diagram: three tensors with a trace, a double contraction and three open legs; the same diagram
with a crossing is rejected. -/
theorem C79_nonvacuous :
    verifyDiagram [("A", ["a", "b", "c"]), ("B", ["x", "y", "p", "q", "z"]), ("C", ["u", "v"])]
      [⟨"A", "b", some "B", "y"⟩, ⟨"B", "p", some "B", "q"⟩, ⟨"A", "c", some "B", "x"⟩, ⟨"C", "u", some "B", "z"⟩,
        ⟨"A", "a", none, "out"⟩, ⟨"C", "v", none, "in"⟩]
      (.node (.node (.leaf ["A"]) (.leaf ["B"])) (.leaf ["C"])) =
      .ok ([(("A", "a"), "out"), (("C", "v"), "in")],
        [(("B", "p"), ("B", "q")), (("A", "b"), ("B", "y")), (("A", "c"), ("B", "x")), (("B", "z"), ("C", "u"))]) ∧
    fromContractionOrder [("A", "B"), ("C", "B")] = .ok (.node (.leaf ["C"]) (.node (.leaf ["A"]) (.leaf ["B"]))) ∧
    (verifyDiagram [("A", ["a", "b", "c"]), ("B", ["x", "y", "z"])]
      [⟨"A", "b", some "B", "x"⟩, ⟨"A", "c", some "B", "y"⟩, ⟨"A", "a", none, "out"⟩, ⟨"B", "z", none, "in"⟩]
      (.node (.leaf ["A"]) (.leaf ["B"]))) = .error (.planar .nonPlanar) := by
  refine ⟨by decide +kernel, by decide +kernel, by decide +kernel⟩

end Cyten.Planar
