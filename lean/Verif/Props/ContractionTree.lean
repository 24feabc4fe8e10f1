import Verif.Model.PlanarDiagram
import Mathlib.Data.List.Nodup
import Mathlib.Data.List.Perm.Basic
import Mathlib.Data.List.Pairwise
import Mathlib.Logic.Relation

/-!
# C78: contraction trees from a contraction order
-/

namespace Cyten.Planar.Spec

/-- Two tensors are connected by a chain of contractions. -/
def Linked (order : List (String × String)) : String → String → Prop :=
  Relation.EqvGen fun a b => (a, b) ∈ order

/-- The tensor takes part in a contraction with another tensor. -/
def Occurs (order : List (String × String)) (s : String) : Prop := ∃ p ∈ order, p.1 ≠ p.2 ∧ (s = p.1 ∨ s = p.2)

/-- Every contraction of the tree is between two parts with a tensor of the left and a tensor of the right part
that are contracted with each other. -/
def Adjacent (order : List (String × String)) : CTree → Prop
  | .leaf _ => True
  | .node l r => Adjacent order l ∧ Adjacent order r ∧ ∃ p ∈ order, [p.1] ∈ l.leaves ∧ [p.2] ∈ r.leaves

end Cyten.Planar.Spec

namespace Cyten.Planar
open Cyten.Planar.Spec

/-- The invariant of the loop. -/
structure OInv (E : List (String × String)) (cs : List (CTree × List String)) : Prop where
  leaves : ∀ c ∈ cs, c.1.leaves = c.2.map fun s => [s]
  ne : ∀ c ∈ cs, c.2 ≠ []
  nodup : (cs.flatMap Prod.snd).Nodup
  occ : ∀ s, s ∈ cs.flatMap Prod.snd ↔ Occurs E s
  same : ∀ p ∈ E, p.1 ≠ p.2 → ∃ c ∈ cs, p.1 ∈ c.2 ∧ p.2 ∈ c.2
  linked : ∀ c ∈ cs, ∀ a ∈ c.2, ∀ b ∈ c.2, Linked E a b
  adj : ∀ c ∈ cs, Adjacent E c.1

theorem OInv.perm {E cs cs'} (h : OInv E cs) (hp : cs.Perm cs') : OInv E cs' where
  leaves := fun c hc => h.leaves c (hp.mem_iff.2 hc)
  ne := fun c hc => h.ne c (hp.mem_iff.2 hc)
  nodup := (hp.flatMap_right _).nodup_iff.1 h.nodup
  occ := fun s => by rw [← (hp.flatMap_right _).mem_iff]; exact h.occ s
  same := fun p hp' hne => by
    obtain ⟨c, hc, h1⟩ := h.same p hp' hne
    exact ⟨c, hp.mem_iff.1 hc, h1⟩
  linked := fun c hc => h.linked c (hp.mem_iff.2 hc)
  adj := fun c hc => h.adj c (hp.mem_iff.2 hc)

theorem Linked.mono {E E' : List (String × String)} (h : ∀ p ∈ E, p ∈ E') {a b : String} (hl : Linked E a b) :
    Linked E' a b := by
  induction hl with
  | rel x y hx => exact Relation.EqvGen.rel _ _ (h _ hx)
  | refl x => exact Relation.EqvGen.refl _
  | symm x y _ ih => exact Relation.EqvGen.symm _ _ ih
  | trans x y z _ _ i1 i2 => exact Relation.EqvGen.trans _ _ _ i1 i2

theorem Adjacent.mono {E E' : List (String × String)} (h : ∀ p ∈ E, p ∈ E') {t : CTree} (ha : Adjacent E t) :
    Adjacent E' t := by
  induction t with
  | leaf => trivial
  | node l r ihl ihr =>
    obtain ⟨h1, h2, p, hp, h3⟩ := ha
    exact ⟨ihl h1, ihr h2, p, h p hp, h3⟩

theorem occurs_append {E : List (String × String)} {p : String × String} {s : String} :
    Occurs (E ++ [p]) s ↔ Occurs E s ∨ (p.1 ≠ p.2 ∧ (s = p.1 ∨ s = p.2)) := by
  unfold Occurs
  constructor
  · rintro ⟨q, hq, h⟩
    rcases List.mem_append.1 hq with hq | hq
    · exact Or.inl ⟨q, hq, h⟩
    · rw [List.mem_singleton] at hq; subst hq; exact Or.inr h
  · rintro (⟨q, hq, h⟩ | h)
    · exact ⟨q, List.mem_append_left _ hq, h⟩
    · exact ⟨p, by simp, h⟩

theorem mem_E {E : List (String × String)} (p : String × String) : ∀ q ∈ E, q ∈ E ++ [p] :=
  fun _ hq => List.mem_append_left _ hq

/-- A pair that connects two tensors of the same component, or the same tensor. -/
theorem OInv.skip {E cs} (h : OInv E cs) {p : String × String}
    (hp : p.1 = p.2 ∨ ∃ c ∈ cs, p.1 ∈ c.2 ∧ p.2 ∈ c.2) : OInv (E ++ [p]) cs where
  leaves := h.leaves
  ne := h.ne
  nodup := h.nodup
  occ := fun s => by
    rw [h.occ, occurs_append]
    refine ⟨Or.inl, ?_⟩
    rintro (h1 | ⟨hne, h1⟩)
    · exact h1
    · rcases hp with hp | ⟨c, hc, h2, h3⟩
      · exact absurd hp hne
      · rw [← h.occ, List.mem_flatMap]
        rcases h1 with rfl | rfl
        · exact ⟨c, hc, h2⟩
        · exact ⟨c, hc, h3⟩
  same := fun q hq hne => by
    rcases List.mem_append.1 hq with hq | hq
    · exact h.same q hq hne
    · rw [List.mem_singleton] at hq; subst hq
      rcases hp with hp | hp
      · exact absurd hp hne
      · exact hp
  linked := fun c hc a ha b hb => Linked.mono (mem_E p) (h.linked c hc a ha b hb)
  adj := fun c hc => Adjacent.mono (mem_E p) (h.adj c hc)

/-- Two parts (components, or new tensors) are joined. -/
theorem OInv.join {E rest} {c1 c2 : CTree × List String} {p : String × String} (hne : p.1 ≠ p.2)
    (l1 : c1.1.leaves = c1.2.map fun s => [s]) (l2 : c2.1.leaves = c2.2.map fun s => [s])
    (m1 : p.1 ∈ c1.2) (m2 : p.2 ∈ c2.2)
    (hlv : ∀ c ∈ rest, c.1.leaves = c.2.map fun s => [s]) (hn : ∀ c ∈ rest, c.2 ≠ [])
    (hnd : ((c1 :: c2 :: rest).flatMap Prod.snd).Nodup)
    (hocc : ∀ s, s ∈ (c1 :: c2 :: rest).flatMap Prod.snd ↔ Occurs E s ∨ s = p.1 ∨ s = p.2)
    (hsame : ∀ q ∈ E, q.1 ≠ q.2 → ∃ c ∈ c1 :: c2 :: rest, q.1 ∈ c.2 ∧ q.2 ∈ c.2)
    (hl : ∀ c ∈ c1 :: c2 :: rest, ∀ a ∈ c.2, ∀ b ∈ c.2, Linked E a b)
    (ha : ∀ c ∈ c1 :: c2 :: rest, Adjacent E c.1) :
    OInv (E ++ [p]) ((CTree.node c1.1 c2.1, c1.2 ++ c2.2) :: rest) := by
  have hflat : (((CTree.node c1.1 c2.1, c1.2 ++ c2.2) :: rest).flatMap Prod.snd) =
      (c1 :: c2 :: rest).flatMap Prod.snd := by simp
  have hpl : Linked (E ++ [p]) p.1 p.2 := Relation.EqvGen.rel _ _ (by simp)
  constructor
  · intro c hc
    rcases List.mem_cons.1 hc with rfl | hc
    · simp [CTree.leaves, l1, l2]
    · exact hlv c hc
  · intro c hc
    rcases List.mem_cons.1 hc with rfl | hc
    · intro hc
      have := (List.append_eq_nil_iff.1 hc).1
      rw [this] at m1; simp at m1
    · exact hn c hc
  · rw [hflat]; exact hnd
  · intro s
    rw [hflat, hocc, occurs_append]
    simp [hne]
  · intro q hq hqne
    rcases List.mem_append.1 hq with hq | hq
    · obtain ⟨c, hc, h1, h2⟩ := hsame q hq hqne
      rcases List.mem_cons.1 hc with rfl | hc
      · exact ⟨_, List.mem_cons_self .., List.mem_append_left _ h1, List.mem_append_left _ h2⟩
      rcases List.mem_cons.1 hc with rfl | hc
      · exact ⟨_, List.mem_cons_self .., List.mem_append_right _ h1, List.mem_append_right _ h2⟩
      · exact ⟨c, List.mem_cons_of_mem _ hc, h1, h2⟩
    · rw [List.mem_singleton] at hq; subst hq
      exact ⟨_, List.mem_cons_self .., List.mem_append_left _ m1, List.mem_append_right _ m2⟩
  · intro c hc a haa b hbb
    rcases List.mem_cons.1 hc with rfl | hc
    · have q1 : ∀ x ∈ c1.2, Linked (E ++ [p]) x p.1 := fun x hx =>
        Linked.mono (mem_E p) (hl c1 (by simp) x hx _ m1)
      have q2 : ∀ x ∈ c2.2, Linked (E ++ [p]) x p.1 := fun x hx =>
        Relation.EqvGen.trans _ _ _ (Linked.mono (mem_E p) (hl c2 (by simp) x hx _ m2)) (Relation.EqvGen.symm _ _ hpl)
      have q3 : ∀ x ∈ c1.2 ++ c2.2, Linked (E ++ [p]) x p.1 := fun x hx =>
        (List.mem_append.1 hx).elim (q1 x) (q2 x)
      exact Relation.EqvGen.trans _ _ _ (q3 a haa) (Relation.EqvGen.symm _ _ (q3 b hbb))
    · exact Linked.mono (mem_E p) (hl c (by simp [hc]) a haa b hbb)
  · intro c hc
    rcases List.mem_cons.1 hc with rfl | hc
    · refine ⟨Adjacent.mono (mem_E p) (ha c1 (by simp)), Adjacent.mono (mem_E p) (ha c2 (by simp)), p, by simp, ?_, ?_⟩
      · rw [l1]; exact List.mem_map.2 ⟨_, m1, rfl⟩
      · rw [l2]; exact List.mem_map.2 ⟨_, m2, rfl⟩
    · exact Adjacent.mono (mem_E p) (ha c (by simp [hc]))

/-- The positions of the components that contain a tensor. -/
theorem matches_spec {E cs} (h : OInv E cs) (s : String) :
    (((List.range cs.length).filter fun n => s ∈ (cs.getD n (.leaf [], [])).2) = [] ∧ ¬ Occurs E s) ∨
    ∃ n, ∃ hn : n < cs.length, ((List.range cs.length).filter fun n => s ∈ (cs.getD n (.leaf [], [])).2) = [n] ∧
      s ∈ cs[n].2 := by
  have hpw : List.Pairwise (Function.onFun List.Disjoint Prod.snd) cs := (List.nodup_flatMap.1 h.nodup).2
  have hget : ∀ n (hn : n < cs.length), cs.getD n (.leaf [], []) = cs[n] := fun n hn => by
    rw [List.getD_eq_getElem?_getD, List.getElem?_eq_getElem hn]; rfl
  by_cases hs : ∃ n, ∃ hn : n < cs.length, s ∈ cs[n].2
  · right
    obtain ⟨n, hn, hs⟩ := hs
    refine ⟨n, hn, ?_, hs⟩
    rw [List.filter_eq_cons_iff]
    refine ⟨List.range' 0 n, List.range' (n + 1) (cs.length - (n + 1)), ?_, ?_, ?_, ?_⟩
    · obtain ⟨k, hk⟩ : ∃ k, cs.length = n + (k + 1) := ⟨cs.length - (n + 1), by omega⟩
      rw [hk, List.range_eq_range', ← List.range'_append_1, List.range'_succ, show n + (k + 1) - (n + 1) = k by omega]
      simp
    · intro x hx
      simp only [List.mem_range'_1] at hx
      rw [hget x (by omega)]
      simp only [decide_eq_true_eq]
      exact fun hc => (List.pairwise_iff_getElem.1 hpw x n (by omega) hn (by omega)) hc hs
    · rw [hget n hn]; simpa using hs
    · rw [List.filter_eq_nil_iff]
      intro x hx
      simp only [List.mem_range'_1] at hx
      rw [hget x (by omega)]
      simp only [decide_eq_true_eq]
      exact fun hc => (List.pairwise_iff_getElem.1 hpw n x hn (by omega) (by omega)) hs hc
  · left
    push Not at hs
    refine ⟨?_, ?_⟩
    · rw [List.filter_eq_nil_iff]
      intro n hn
      rw [List.mem_range] at hn
      rw [hget n hn]
      simpa using hs n hn
    · rw [← h.occ, List.mem_flatMap]
      rintro ⟨c, hc, hsc⟩
      obtain ⟨n, hn, rfl⟩ := List.mem_iff_getElem.1 hc
      exact hs n hn hsc

/-- A tensor that is not part of a component yet. -/
def single (s : String) : CTree × List String := (.leaf [s], [s])

theorem OInv.join_fresh {E cs rest} (h : OInv E cs) {c1 c2 : CTree × List String} {p : String × String}
    (hne : p.1 ≠ p.2) (fresh : List String) (hfn : fresh.Nodup)
    (hf : ∀ s ∈ fresh, ¬ Occurs E s ∧ (s = p.1 ∨ s = p.2))
    (hp : (c1 :: c2 :: rest).Perm (fresh.map single ++ cs)) (m1 : p.1 ∈ c1.2) (m2 : p.2 ∈ c2.2) :
    OInv (E ++ [p]) ((CTree.node c1.1 c2.1, c1.2 ++ c2.2) :: rest) := by
  have hfl : (fresh.map single ++ cs).flatMap Prod.snd = fresh ++ cs.flatMap Prod.snd := by
    rw [List.flatMap_append]; congr 1
    clear hp hf hfn
    induction fresh with
    | nil => rfl
    | cons a l ih => simp only [List.map_cons, List.flatMap_cons, ih]; rfl
  have hcase : ∀ c ∈ c1 :: c2 :: rest, (∃ s ∈ fresh, c = single s) ∨ c ∈ cs := fun c hc => by
    rcases List.mem_append.1 (hp.mem_iff.1 hc) with h1 | h1
    · obtain ⟨s, hs, rfl⟩ := List.mem_map.1 h1; exact Or.inl ⟨s, hs, rfl⟩
    · exact Or.inr h1
  have hlv : ∀ c ∈ c1 :: c2 :: rest, c.1.leaves = c.2.map fun s => [s] := fun c hc => by
    rcases hcase c hc with ⟨s, _, rfl⟩ | h1
    · rfl
    · exact h.leaves c h1
  have hmem : ∀ s, s ∈ (c1 :: c2 :: rest).flatMap Prod.snd ↔ s ∈ fresh ∨ Occurs E s := fun s => by
    rw [(hp.flatMap_right _).mem_iff, hfl, List.mem_append, h.occ]
  refine OInv.join hne (hlv c1 (by simp)) (hlv c2 (by simp)) m1 m2 (fun c hc => hlv c (by simp [hc])) ?_ ?_ ?_ ?_ ?_ ?_
  · intro c hc
    rcases hcase c (by simp [hc]) with ⟨s, _, rfl⟩ | h1
    · simp [single]
    · exact h.ne c h1
  · rw [(hp.flatMap_right _).nodup_iff, hfl, List.nodup_append']
    exact ⟨hfn, h.nodup, fun s h1 h2 => (hf s h1).1 ((h.occ s).1 h2)⟩
  · intro s
    constructor
    · intro hs
      rcases (hmem s).1 hs with h1 | h1
      · exact Or.inr (hf s h1).2
      · exact Or.inl h1
    · rintro (h1 | rfl | rfl)
      · exact (hmem s).2 (Or.inr h1)
      · exact List.mem_flatMap.2 ⟨c1, by simp, m1⟩
      · exact List.mem_flatMap.2 ⟨c2, by simp, m2⟩
  · intro q hq hqne
    obtain ⟨c, hc, h1⟩ := h.same q hq hqne
    exact ⟨c, hp.mem_iff.2 (List.mem_append_right _ hc), h1⟩
  · intro c hc a ha b hb
    rcases hcase c hc with ⟨s, _, rfl⟩ | h1
    · simp only [single, List.mem_singleton] at ha hb
      subst ha; subst hb; exact Relation.EqvGen.refl _
    · exact h.linked c h1 a ha b hb
  · intro c hc
    rcases hcase c hc with ⟨s, _, rfl⟩ | h1
    · trivial
    · exact h.adj c h1

theorem orderStep_spec {E cs} (h : OInv E cs) (p : String × String) :
    ∃ cs', orderStep cs p = .ok cs' ∧ OInv (E ++ [p]) cs' := by
  by_cases hne : p.1 = p.2
  · exact ⟨cs, by rw [orderStep, if_pos hne], h.skip (Or.inl hne)⟩
  have hget : ∀ n (hn : n < cs.length), cs.getD n (.leaf [], []) = cs[n] := fun n hn => by
    rw [List.getD_eq_getElem?_getD, List.getElem?_eq_getElem hn]; rfl
  rcases matches_spec h p.1 with ⟨e1, o1⟩ | ⟨n1, hn1, e1, o1⟩ <;>
    rcases matches_spec h p.2 with ⟨e2, o2⟩ | ⟨n2, hn2, e2, o2⟩
  · refine ⟨_, by rw [orderStep, if_neg hne]; simp only [e1, e2]; rfl, ?_⟩
    refine OInv.perm ?_ (List.perm_append_singleton _ _).symm
    exact h.join_fresh (c1 := single p.1) (c2 := single p.2) (rest := cs) hne [p.1, p.2] (by simpa using hne)
      (by simp only [List.mem_cons, List.not_mem_nil, or_false]; rintro s (rfl | rfl); exacts [⟨o1, Or.inl rfl⟩, ⟨o2, Or.inr rfl⟩])
      (List.Perm.refl _) (by simp [single]) (by simp [single])
  · refine ⟨_, by rw [orderStep, if_neg hne]; simp only [e1, e2]; rfl, ?_⟩
    rw [hget _ hn2]
    refine OInv.perm ?_ (List.set_perm_cons_eraseIdx hn2 _).symm
    exact h.join_fresh (c1 := single p.1) (c2 := cs[n2]) (rest := cs.eraseIdx n2) hne [p.1] (by simp)
      (by simp only [List.mem_singleton]; rintro s rfl; exact ⟨o1, Or.inl rfl⟩)
      ((List.getElem_cons_eraseIdx_perm hn2).cons _) (by simp [single]) o2
  · refine ⟨_, by rw [orderStep, if_neg hne]; simp only [e1, e2]; rfl, ?_⟩
    rw [hget _ hn1]
    refine OInv.perm ?_ (List.set_perm_cons_eraseIdx hn1 _).symm
    exact h.join_fresh (c1 := cs[n1]) (c2 := single p.2) (rest := cs.eraseIdx n1) hne [p.2] (by simp)
      (by simp only [List.mem_singleton]; rintro s rfl; exact ⟨o2, Or.inr rfl⟩)
      ((List.Perm.swap _ _ _).trans ((List.getElem_cons_eraseIdx_perm hn1).cons _)) o1 (by simp [single])
  · by_cases hnn : n1 = n2
    · subst hnn
      exact ⟨cs, by rw [orderStep, if_neg hne]; simp only [e1, e2]; rw [if_neg (by simp)]; simp, h.skip (Or.inr ⟨cs[n1], List.getElem_mem _, o1, o2⟩)⟩
    · refine ⟨_, by rw [orderStep, if_neg hne]; simp only [e1, e2]; rw [if_neg (by simp)]; simp only [List.cons.injEq, and_true]; rw [if_neg hnn], ?_⟩
      rw [hget _ hn1, hget _ hn2]
      set x : CTree × List String := (.node cs[n1].1 cs[n2].1, cs[n1].2 ++ cs[n2].2) with hx
      have hpw : List.Pairwise (Function.onFun List.Disjoint Prod.snd) cs := (List.nodup_flatMap.1 h.nodup).2
      have hc : cs[n2] ≠ cs[n1] := by
        intro hc
        rcases Nat.lt_or_gt_of_ne hnn with hlt | hlt
        · exact (List.pairwise_iff_getElem.1 hpw n1 n2 hn1 hn2 hlt) o1 (hc ▸ o1)
        · exact (List.pairwise_iff_getElem.1 hpw n2 n1 hn2 hn1 hlt) (hc ▸ o1) o1
      have q1 := List.getElem_cons_eraseIdx_perm hn1
      have hm : cs[n2] ∈ cs.eraseIdx n1 := by
        rcases List.mem_cons.1 (q1.mem_iff.2 (List.getElem_mem hn2)) with h1 | h1
        · exact absurd h1 hc
        · exact h1
      have q2 := List.perm_cons_erase hm
      have hlen : n2 < (cs.set n1 x).length := by simpa using hn2
      have q3 := List.getElem_cons_eraseIdx_perm hlen
      rw [List.getElem_set_ne hnn] at q3
      have q4 : (x :: (cs.eraseIdx n1).erase cs[n2]).Perm ((cs.set n1 x).eraseIdx n2) := by
        refine List.Perm.cons_inv (a := cs[n2]) ?_
        refine List.Perm.trans ?_ (q3.trans (List.set_perm_cons_eraseIdx hn1 x)).symm
        exact (List.Perm.swap _ _ _).trans (q2.symm.cons _)
      refine OInv.perm ?_ q4
      exact h.join_fresh hne [] (by simp) (by simp) ((q2.symm.cons _).trans q1) o1 o2

theorem orderFold_spec (order : List (String × String)) {E cs} (h : OInv E cs) :
    ∃ cs', order.foldlM orderStep cs = .ok cs' ∧ OInv (E ++ order) cs' := by
  induction order generalizing E cs with
  | nil => exact ⟨cs, rfl, by simpa using h⟩
  | cons p ps ih =>
    obtain ⟨c1, e1, h1⟩ := orderStep_spec h p
    obtain ⟨c2, e2, h2⟩ := ih h1
    refine ⟨c2, ?_, by simpa using h2⟩
    rw [List.foldlM_cons, e1]; exact e2

theorem oinv_nil : OInv [] [] := by
  constructor <;> simp [Occurs]

/-- Tensors that are linked are in the same component. -/
theorem OInv.same_linked {E cs} (h : OInv E cs) {a b : String} (hl : Linked E a b) :
    ∀ c ∈ cs, (a ∈ c.2 ↔ b ∈ c.2) := by
  have huniq : ∀ c ∈ cs, ∀ d ∈ cs, ∀ s, s ∈ c.2 → s ∈ d.2 → c = d := by
    intro c hc d hd s h1 h2
    by_contra hcd
    have hpw := (List.nodup_flatMap.1 h.nodup).2
    haveI : Std.Symm (Function.onFun List.Disjoint (Prod.snd : CTree × List String → List String)) :=
      ⟨fun _ _ hxy _ h1 h2 => hxy h2 h1⟩
    exact (hpw.forall hc hd hcd) h1 h2
  induction hl with
  | rel x y hx =>
    intro c hc
    by_cases hxy : x = y
    · rw [hxy]
    · obtain ⟨d, hd, h1, h2⟩ := h.same _ hx hxy
      constructor
      · intro h3; rw [huniq c hc d hd x h3 h1]; exact h2
      · intro h3; rw [huniq c hc d hd y h3 h2]; exact h1
  | refl x => exact fun _ _ => Iff.rfl
  | symm x y _ ih => exact fun c hc => (ih c hc).symm
  | trans x y z _ _ i1 i2 => exact fun c hc => (i1 c hc).trans (i2 c hc)

theorem leaves_pos (t : CTree) : 0 < t.leaves.length := by
  induction t with
  | leaf => simp [CTree.leaves]
  | node l r ihl ihr => simp only [CTree.leaves, List.length_append]; omega

theorem numNodes_eq (t : CTree) : t.numNodes + 1 = 2 * t.leaves.length := by
  induction t with
  | leaf => rfl
  | node l r ihl ihr =>
    simp only [CTree.numNodes, CTree.nodesBelow, CTree.leaves, List.length_append] at *
    omega

/-- The last step of `from_contraction_order`. -/
def finish (cs : List (CTree × List String)) : Except DErr CTree :=
  match cs with | [c] => .ok c.1 | _ => .error .disconnected

/-- C78: a contraction order gives a tree if and only if it contracts at least two different tensors and connects all
tensors; the tensors of the tree are exactly the tensors of the order, each of them once; every contraction of the tree
is between parts that the order connects directly; the number of nodes is as expected. -/
theorem C78_from_contraction_order (order : List (String × String)) :
    (∀ t, fromContractionOrder order = .ok t →
      (∃ names : List String, t.leaves = names.map (fun s => [s]) ∧ names.Nodup ∧ (∀ s, s ∈ names ↔ Occurs order s) ∧
        2 ≤ names.length ∧ t.numInner + 1 = names.length) ∧
      (∀ a b, Occurs order a → Occurs order b → Linked order a b) ∧ Adjacent order t) ∧
    ((∃ s, Occurs order s) → (∀ a b, Occurs order a → Occurs order b → Linked order a b) →
      ∃ t, fromContractionOrder order = .ok t) ∧
    (∀ e, fromContractionOrder order = .error e → e = .empty ∧ order = [] ∨ e = .disconnected ∧ order ≠ []) := by
  obtain ⟨cs, e, h⟩ := orderFold_spec order oinv_nil
  rw [List.nil_append] at h
  by_cases ho : order = []
  · subst ho
    refine ⟨fun t ht => ?_, ?_, ?_⟩
    · simp [fromContractionOrder] at ht
    · rintro ⟨s, p, hp, _⟩; simp at hp
    · intro e' he
      simp only [fromContractionOrder, if_pos, Except.error.injEq] at he
      exact Or.inl ⟨he.symm, rfl⟩
  have hdef : fromContractionOrder order = finish cs := by
    rw [fromContractionOrder, if_neg ho, e]; rfl
  clear e
  refine ⟨?_, ?_, ?_⟩
  · intro t ht
    rw [hdef] at ht
    match cs, ht, h with
    | [c], ht, h =>
      simp only [finish, Except.ok.injEq] at ht
      subst ht
      have hocc : ∀ s, s ∈ c.2 ↔ Occurs order s := fun s => by rw [← h.occ]; simp
      have hnd : c.2.Nodup := by simpa using h.nodup
      have hlv := h.leaves c (by simp)
      have hlen : 2 ≤ c.2.length := by
        have hne := h.ne c (by simp)
        match hc : c.2, hne with
        | [a], _ =>
          exfalso
          have ha : Occurs order a := by rw [← hocc, hc]; simp
          obtain ⟨p, hp, hpne, _⟩ := ha
          have h1 : p.1 ∈ c.2 := (hocc _).2 ⟨p, hp, hpne, Or.inl rfl⟩
          have h2 : p.2 ∈ c.2 := (hocc _).2 ⟨p, hp, hpne, Or.inr rfl⟩
          rw [hc, List.mem_singleton] at h1 h2
          exact hpne (h1.trans h2.symm)
        | _ :: _ :: _, _ => simp
      refine ⟨⟨c.2, hlv, hnd, hocc, hlen, ?_⟩, fun a b ha hb => h.linked c (by simp) a ((hocc a).2 ha) b ((hocc b).2 hb),
        h.adj c (by simp)⟩
      have h1 := numNodes_eq c.1
      have h2 : c.1.leaves.length = c.2.length := by rw [hlv, List.length_map]
      simp only [CTree.numNodes, CTree.numInner] at *
      omega
  · rintro ⟨s, hs⟩ hall
    rw [hdef]
    have hs' := (h.occ s).2 hs
    match cs, h, hs' with
    | [c], _, _ => exact ⟨_, rfl⟩
    | c :: d :: r, h, _ =>
      exfalso
      obtain ⟨a, ha⟩ := List.exists_mem_of_ne_nil _ (h.ne c (by simp))
      obtain ⟨b, hb⟩ := List.exists_mem_of_ne_nil _ (h.ne d (by simp))
      have oa : Occurs order a := (h.occ a).1 (List.mem_flatMap.2 ⟨c, by simp, ha⟩)
      have ob : Occurs order b := (h.occ b).1 (List.mem_flatMap.2 ⟨d, by simp, hb⟩)
      have hbc := (h.same_linked (hall a b oa ob) c (by simp)).1 ha
      have hpw := (List.nodup_flatMap.1 h.nodup).2
      exact (List.pairwise_cons.1 hpw).1 d (by simp) hbc hb
  · intro e' he
    rw [hdef] at he
    right
    refine ⟨?_, ho⟩
    match cs, he with
    | [], he => simpa [finish] using he.symm
    | _ :: _ :: _, he => simpa [finish] using he.symm

/-- C78 on concrete orders: four tensors; an order with two parts is rejected; an order with only a trace is
rejected. -/
theorem C78_nonvacuous :
    fromContractionOrder [("a", "b"), ("c", "d"), ("a", "a"), ("d", "b"), ("a", "c")] =
      .ok (.node (.node (.leaf ["c"]) (.leaf ["d"])) (.node (.leaf ["a"]) (.leaf ["b"]))) ∧
    Occurs [("a", "b")] "a" ∧ Linked [("a", "b"), ("c", "b")] "a" "c" ∧
    fromContractionOrder [("a", "b"), ("c", "d")] = .error .disconnected ∧
    fromContractionOrder [("a", "a")] = .error .disconnected := by
  refine ⟨by decide +kernel, ⟨("a", "b"), by simp, by decide, by simp⟩, ?_, by decide +kernel, by decide +kernel⟩
  exact Relation.EqvGen.trans _ "b" _ (Relation.EqvGen.rel _ _ (by simp))
    (Relation.EqvGen.symm _ _ (Relation.EqvGen.rel _ _ (by simp)))

end Cyten.Planar
