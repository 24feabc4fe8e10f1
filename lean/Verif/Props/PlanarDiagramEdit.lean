import Verif.Props.PlanarDiagram

/-!
# C80: adding and removing a tensor of a planar diagram
-/

namespace Cyten.Planar.Spec

/-- The legs of other tensors that are connected with legs of the tensor `name`. -/
def partners (name : String) (definition : List DInstr) : List Leg :=
  (connected definition).flatMap fun p =>
    (if p.1.1 = name ∧ p.2.1 ≠ name then [p.2] else []) ++ (if p.2.1 = name ∧ p.1.1 ≠ name then [p.1] else [])

end Cyten.Planar.Spec

namespace Cyten.Planar
open Cyten.Planar.Spec

theorem freed_eq (name : String) (definition : List DInstr) :
    definition.filterMap (freed name) = Spec.partners name definition := by
  unfold Spec.partners connected
  induction definition with
  | nil => rfl
  | cons d ds ih =>
    rw [List.flatMap_cons, List.flatMap_append, ← ih]
    rcases h : d.t2 with _ | t2
    · rw [List.filterMap_cons_none (by rw [freed, h])]; rfl
    · have hf : freed name d = if d.t1 = name ∧ t2 = name then none
        else if d.t1 = name then some (t2, d.l2) else if t2 = name then some (d.t1, d.l1) else none := by
        rw [freed, h]
      by_cases h1 : d.t1 = name <;> by_cases h2 : t2 = name
      · rw [List.filterMap_cons_none (by rw [hf]; simp [h1, h2])]; simp [h1, h2]
      · rw [List.filterMap_cons_some (b := (t2, d.l2)) (by rw [hf]; simp [h1, h2])]; simp [h1, h2]
      · rw [List.filterMap_cons_some (b := (d.t1, d.l1)) (by rw [hf]; simp [h1, h2])]; simp [h1, h2]
      · rw [List.filterMap_cons_none (by rw [hf]; simp [h1, h2])]; simp [h1, h2]

theorem connected_append (a b : List DInstr) : connected (a ++ b) = connected a ++ connected b := by
  simp [connected]

theorem opened_append (a b : List DInstr) : opened (a ++ b) = opened a ++ opened b := by
  simp [opened]

theorem takeOpen_spec {legs : List Leg} {extra used : List DInstr} {rest : List Leg}
    (h : takeOpen legs extra = .ok (used, rest)) :
    used = extra ∧ connected extra = [] ∧ legs.Perm ((opened extra).map Prod.fst ++ rest) := by
  induction extra generalizing legs used with
  | nil =>
    simp only [takeOpen, Except.ok.injEq, Prod.mk.injEq] at h
    obtain ⟨rfl, rfl⟩ := h
    exact ⟨rfl, rfl, by simp [opened]⟩
  | cons d ds ih =>
    rw [takeOpen] at h
    split_ifs at h with h1 h2
    have h1 : d.t2 = none := not_not.1 h1
    rcases h3 : takeOpen (legs.erase (d.t1, d.l1)) ds with e | ⟨u, r⟩
    · rw [h3] at h; simp [Except.map] at h
    rw [h3] at h
    simp only [Except.map, Except.ok.injEq, Prod.mk.injEq] at h
    obtain ⟨rfl, rfl⟩ := h
    obtain ⟨q1, q2, q3⟩ := ih h3
    refine ⟨by rw [q1], ?_, ?_⟩
    · rw [connected, List.flatMap_cons, h1]; exact q2
    · have : opened (d :: ds) = ((d.t1, d.l1), d.l2) :: opened ds := by
        rw [opened, List.flatMap_cons, h1]; rfl
      rw [this]
      exact (List.perm_cons_erase h2).trans (q3.cons _)

theorem connected_filter (definition : List DInstr) (name : String) :
    connected (definition.filter fun d => decide (d.t1 ≠ name ∧ d.t2 ≠ some name)) =
      (connected definition).filter fun p => decide (p.1.1 ≠ name ∧ p.2.1 ≠ name) := by
  unfold connected
  induction definition with
  | nil => rfl
  | cons d ds ih =>
    rw [List.flatMap_cons, List.filter_append, ← ih, List.filter_cons]
    rcases h : d.t2 with _ | t2
    · split_ifs
      · rw [List.flatMap_cons, h]; rfl
      · rfl
    · by_cases h1 : d.t1 = name <;> by_cases h2 : t2 = name <;> simp [h1, h2, h]

theorem opened_filter (definition : List DInstr) (name : String) :
    opened (definition.filter fun d => decide (d.t1 ≠ name ∧ d.t2 ≠ some name)) =
      (opened definition).filter fun p => decide (p.1.1 ≠ name) := by
  unfold opened
  induction definition with
  | nil => rfl
  | cons d ds ih =>
    rw [List.flatMap_cons, List.filter_append, ← ih, List.filter_cons]
    rcases h : d.t2 with _ | t2
    · by_cases h1 : d.t1 = name <;> simp [h1, h]
    · split_ifs
      · rw [List.flatMap_cons, h]; rfl
      · rfl

theorem keep_legs (l : List (Leg × Leg)) (name : String) :
    ((l.flatMap fun p => [p.1, p.2]).filter fun x => decide (x.1 ≠ name)).Perm
      (((l.filter fun p => decide (p.1.1 ≠ name ∧ p.2.1 ≠ name)).flatMap fun p => [p.1, p.2]) ++
        l.flatMap fun p => (if p.1.1 = name ∧ p.2.1 ≠ name then [p.2] else []) ++
          (if p.2.1 = name ∧ p.1.1 ≠ name then [p.1] else [])) := by
  induction l with
  | nil => exact List.Perm.refl _
  | cons p l ih =>
    rw [List.flatMap_cons, List.filter_append, List.flatMap_cons, List.filter_cons (xs := l)]
    by_cases h1 : p.1.1 = name <;> by_cases h2 : p.2.1 = name
    · simpa [h1, h2] using ih
    · have := (ih.cons p.2).trans List.perm_middle.symm
      simpa [h1, h2] using this
    · have := (ih.cons p.1).trans List.perm_middle.symm
      simpa [h1, h2] using this
    · simpa [h1, h2] using ih

/-- C80: `remove_tensor` keeps all other connections and open legs; the legs that were connected with the removed tensor
become open legs, with the labels of the extra definition, or else with their own label.  Every other leg still occurs
as often as before. -/
theorem C80_remove {definition extra r : List DInstr} {name : String} (h : removeTensor definition name extra = .ok r) :
    connected r = (connected definition).filter (fun p => decide (p.1.1 ≠ name ∧ p.2.1 ≠ name)) ∧
    connected extra = [] ∧
    (∃ rest : List Leg, (Spec.partners name definition).Perm ((opened extra).map Prod.fst ++ rest) ∧
      opened r = (opened definition).filter (fun x => decide (x.1.1 ≠ name)) ++ opened extra ++
        rest.map fun x => (x, x.2)) ∧
    (r.flatMap DInstr.legs).Perm ((definition.flatMap DInstr.legs).filter fun x => decide (x.1 ≠ name)) := by
  unfold removeTensor at h
  rw [freed_eq] at h
  rcases h1 : takeOpen (Spec.partners name definition) extra with e | ⟨used, rest⟩
  · rw [h1] at h; simp [Except.map] at h
  rw [h1] at h
  simp only [Except.map, Except.ok.injEq] at h
  obtain ⟨rfl, q2, q3⟩ := takeOpen_spec h1
  have hc : connected (rest.map fun l => (⟨l.1, l.2, none, l.2⟩ : DInstr)) = [] := by
    unfold connected
    rw [List.flatMap_map]
    exact List.flatMap_eq_nil_iff.2 fun _ _ => rfl
  have hop : opened (rest.map fun l => (⟨l.1, l.2, none, l.2⟩ : DInstr)) = rest.map fun x => (x, x.2) := by
    unfold opened
    rw [List.flatMap_map]
    clear h h1 q3 hc
    induction rest with
    | nil => rfl
    | cons a l ih => rw [List.flatMap_cons, ih]; rfl
  have e1 : connected r = (connected definition).filter (fun p => decide (p.1.1 ≠ name ∧ p.2.1 ≠ name)) := by
    rw [← h, connected_append, connected_append, connected_filter, q2, hc]; simp
  have e2 : opened r = (opened definition).filter (fun x => decide (x.1.1 ≠ name)) ++ opened used ++
      rest.map fun x => (x, x.2) := by
    rw [← h, opened_append, opened_append, opened_filter, hop]
  refine ⟨e1, q2, ⟨rest, q3, e2⟩, ?_⟩
  refine (legs_split r).trans ?_
  refine List.Perm.trans ?_ ((legs_split definition).filter _).symm
  rw [e1, e2, List.filter_append, List.map_append, List.map_append, List.append_assoc, List.append_assoc,
    List.filter_map]
  refine List.Perm.append_left _ ?_
  refine List.Perm.trans ?_ (keep_legs _ _).symm
  refine List.Perm.trans ?_ (List.Perm.append_left _ q3.symm)
  refine List.Perm.trans ?_ List.perm_append_comm
  rw [List.map_map, show (Prod.fst ∘ fun x : Leg => (x, x.2)) = id from rfl, List.map_id, List.append_assoc]

theorem takeOpen_complete {legs rest : List Leg} {extra : List DInstr} (h1 : connected extra = [])
    (h2 : legs.Perm ((opened extra).map Prod.fst ++ rest)) :
    ∃ rest', takeOpen legs extra = .ok (extra, rest') ∧ rest'.Perm rest := by
  induction extra generalizing legs with
  | nil => exact ⟨legs, rfl, h2⟩
  | cons d ds ih =>
    rcases h : d.t2 with _ | t2
    · have e1 : connected ds = [] := by rw [connected, List.flatMap_cons, h] at h1; exact h1
      have e2 : opened (d :: ds) = ((d.t1, d.l1), d.l2) :: opened ds := by
        rw [opened, List.flatMap_cons, h]; rfl
      rw [e2] at h2
      have hm : (d.t1, d.l1) ∈ legs := h2.mem_iff.2 (by simp)
      have h3 : (legs.erase (d.t1, d.l1)).Perm ((opened ds).map Prod.fst ++ rest) :=
        List.Perm.cons_inv ((List.perm_cons_erase hm).symm.trans h2)
      obtain ⟨rest', q1, q2⟩ := ih e1 h3
      refine ⟨rest', ?_, q2⟩
      rw [takeOpen, if_neg (by simpa using h), if_pos hm, q1]; rfl
    · rw [connected, List.flatMap_cons, h] at h1
      simp at h1

theorem outdatedOf_spec {definition extra : List DInstr} {new : String} {out : List ℕ}
    (h : outdatedOf definition new extra = .ok out) :
    (∀ p ∈ connected extra, p.1.1 = new ∨ p.2.1 = new) ∧
    out.map some = (Spec.partners new extra).map fun l => findOpen definition l.1 l.2 := by
  rw [← freed_eq]
  induction extra generalizing out with
  | nil =>
    simp only [outdatedOf, Except.ok.injEq] at h
    subst h; simp [connected]
  | cons d ds ih =>
    rw [outdatedOf] at h
    rcases h0 : d.t2 with _ | t2
    · rw [h0] at h
      obtain ⟨q1, q2⟩ := ih h
      refine ⟨?_, ?_⟩
      · rw [connected, List.flatMap_cons, h0]; exact q1
      · rw [List.filterMap_cons_none (by rw [freed, h0])]; exact q2
    · rw [h0] at h
      simp only at h
      have hf : freed new d = if d.t1 = new ∧ t2 = new then none
        else if d.t1 = new then some (t2, d.l2) else if t2 = new then some (d.t1, d.l1) else none := by
        rw [freed, h0]
      have hcon : connected (d :: ds) = ((d.t1, d.l1), (t2, d.l2)) :: connected ds := by
        rw [connected, List.flatMap_cons, h0]; rfl
      have fin : ∀ (l : Leg) (hl : freed new d = some l) (hp : d.t1 = new ∨ t2 = new)
          (h : (match findOpen definition l.1 l.2 with
            | none => .error .noLeg
            | some n => (outdatedOf definition new ds).map (n :: ·) : Except DErr (List ℕ)) = .ok out),
          (∀ p ∈ connected (d :: ds), p.1.1 = new ∨ p.2.1 = new) ∧
            out.map some = ((d :: ds).filterMap (freed new)).map fun l => findOpen definition l.1 l.2 := by
        intro l hl hp h
        rcases hn : findOpen definition l.1 l.2 with _ | n
        · rw [hn] at h; simp at h
        rw [hn] at h
        rcases ho : outdatedOf definition new ds with e | o
        · rw [ho] at h; simp [Except.map] at h
        rw [ho] at h
        simp only [Except.map, Except.ok.injEq] at h
        subst h
        obtain ⟨q1, q2⟩ := ih ho
        refine ⟨?_, ?_⟩
        · rw [hcon]; simp only [List.mem_cons]; rintro p (rfl | hp'); exacts [hp, q1 p hp']
        · rw [List.filterMap_cons_some hl, List.map_cons, List.map_cons, q2, hn]
      split_ifs at h with h1 h2 h3
      · obtain ⟨q1, q2⟩ := ih h
        refine ⟨?_, ?_⟩
        · rw [hcon]; simp only [List.mem_cons]; rintro p (rfl | hp'); exacts [Or.inl h1.1, q1 p hp']
        · rw [List.filterMap_cons_none (by rw [hf, if_pos h1])]; exact q2
      · exact fin (t2, d.l2) (by rw [hf, if_neg h1, if_pos h2]) (Or.inl h2) h
      · exact fin (d.t1, d.l1) (by rw [hf, if_neg h1, if_neg h2, if_pos h3]) (Or.inr h3) h

theorem filter_zipIdx {α : Type} (l : List α) (p : ℕ → Bool) (q : α → Bool)
    (h : ∀ n (hn : n < l.length), p n = q l[n]) : (l.zipIdx.filter fun x => p x.2).map Prod.fst = l.filter q := by
  have : (l.zipIdx.filter fun x => p x.2) = l.zipIdx.filter (q ∘ Prod.fst) := by
    refine List.filter_congr ?_
    rintro ⟨a, n⟩ hx
    obtain ⟨h1, h2⟩ := List.mk_mem_zipIdx_iff_getElem?.1 hx |> List.getElem?_eq_some_iff.1
    simp only [Function.comp]
    rw [h n h1, h2]
  rw [this, ← List.filter_map, List.zipIdx_map_fst]

/-- The definition of an open leg that is contracted with the new tensor. -/
def Dropped (K : List Leg) (d : DInstr) : Prop := d.t2 = none ∧ (d.t1, d.l1) ∈ K

instance (K : List Leg) (d : DInstr) : Decidable (Dropped K d) := by unfold Dropped; infer_instance

theorem addTensor_eq {definition extra r : List DInstr} {new : String} (hd : (definition.flatMap DInstr.legs).Nodup)
    (h : addTensor definition new extra = .ok r) :
    (∀ p ∈ connected extra, p.1.1 = new ∨ p.2.1 = new) ∧
    (∀ l ∈ Spec.partners new extra, l ∈ (opened definition).map Prod.fst) ∧
    r = (definition.filter fun d => decide (¬ Dropped (Spec.partners new extra) d)) ++ extra := by
  unfold addTensor at h
  rcases h1 : outdatedOf definition new extra with e | out
  · rw [h1] at h; simp [Except.map] at h
  rw [h1] at h
  simp only [Except.map, Except.ok.injEq] at h
  obtain ⟨q1, q2⟩ := outdatedOf_spec h1
  have hfound : ∀ l ∈ Spec.partners new extra, ∃ n ∈ out, findOpen definition l.1 l.2 = some n := by
    intro l hl
    have : findOpen definition l.1 l.2 ∈ out.map some := by rw [q2]; exact List.mem_map.2 ⟨l, hl, rfl⟩
    obtain ⟨n, hn, he⟩ := List.mem_map.1 this
    exact ⟨n, hn, he.symm⟩
  have hspec : ∀ (l : Leg) n, findOpen definition l.1 l.2 = some n → ∃ hn : n < definition.length,
      definition[n].t2 = none ∧ (definition[n].t1, definition[n].l1) = l := by
    intro l n hn
    obtain ⟨hlt, hp, _⟩ := List.findIdx?_eq_some_iff_getElem.1 hn
    simp only [decide_eq_true_eq] at hp
    exact ⟨hlt, hp.1, Prod.ext hp.2.1 hp.2.2⟩
  refine ⟨q1, ?_, ?_⟩
  · intro l hl
    obtain ⟨n, _, hn⟩ := hfound l hl
    obtain ⟨hlt, h2, h3⟩ := hspec l n hn
    refine List.mem_map.2 ⟨(l, definition[n].l2), ?_, rfl⟩
    refine List.mem_flatMap.2 ⟨definition[n], List.getElem_mem _, ?_⟩
    rw [h2, ← h3]; simp
  · rw [← h]
    congr 1
    refine filter_zipIdx definition (fun n => decide (n ∉ out)) _ ?_
    intro n hn
    refine decide_eq_decide.2 (not_congr ?_)
    constructor
    · intro hno
      have : some n ∈ (Spec.partners new extra).map fun l => findOpen definition l.1 l.2 := by
        rw [← q2]; exact List.mem_map.2 ⟨n, hno, rfl⟩
      obtain ⟨l, hl, he⟩ := List.mem_map.1 this
      obtain ⟨_, h2, h3⟩ := hspec l n he
      exact ⟨h2, h3 ▸ hl⟩
    · rintro ⟨h2, h3⟩
      obtain ⟨m, hm, he⟩ := hfound _ h3
      obtain ⟨hlt, h4, h5⟩ := hspec _ m he
      have hpw := (List.nodup_flatMap.1 hd).2
      have hl1 : (definition[n].t1, definition[n].l1) ∈ definition[n].legs := by rw [DInstr.legs, h2]; simp
      have hl2 : (definition[n].t1, definition[n].l1) ∈ definition[m].legs := by rw [DInstr.legs, h4, h5]; simp
      rcases Nat.lt_trichotomy m n with hmn | hmn | hmn
      · exact absurd hl1 ((List.pairwise_iff_getElem.1 hpw m n hlt hn hmn) hl2)
      · exact hmn ▸ hm
      · exact absurd hl2 ((List.pairwise_iff_getElem.1 hpw n m hn hlt hmn) hl1)

theorem connected_kept (definition : List DInstr) (K : List Leg) :
    connected (definition.filter fun d => decide (¬ Dropped K d)) = connected definition := by
  unfold connected
  induction definition with
  | nil => rfl
  | cons d ds ih =>
    rw [List.flatMap_cons, ← ih, List.filter_cons]
    rcases h : d.t2 with _ | t2
    · split_ifs
      · rw [List.flatMap_cons, h]
      · rfl
    · rw [if_pos (by simp [Dropped, h]), List.flatMap_cons, h]

theorem opened_kept (definition : List DInstr) (K : List Leg) :
    opened (definition.filter fun d => decide (¬ Dropped K d)) =
      (opened definition).filter fun x => decide (x.1 ∉ K) := by
  unfold opened
  induction definition with
  | nil => rfl
  | cons d ds ih =>
    rw [List.flatMap_cons, List.filter_append, ← ih, List.filter_cons]
    rcases h : d.t2 with _ | t2
    · by_cases h1 : (d.t1, d.l1) ∈ K
      · rw [if_neg (by simp [Dropped, h, h1])]; simp [h1]
      · rw [if_pos (by simp [Dropped, h1]), List.flatMap_cons, h]; simp [h1]
    · rw [if_pos (by simp [Dropped, h]), List.flatMap_cons, h]; rfl

theorem opened_dropped (definition : List DInstr) (K : List Leg) :
    opened (definition.filter fun d => decide (Dropped K d)) =
      (opened definition).filter fun x => decide (x.1 ∈ K) := by
  unfold opened
  induction definition with
  | nil => rfl
  | cons d ds ih =>
    rw [List.flatMap_cons, List.filter_append, ← ih, List.filter_cons]
    rcases h : d.t2 with _ | t2
    · by_cases h1 : (d.t1, d.l1) ∈ K
      · rw [if_pos (by simp [Dropped, h, h1]), List.flatMap_cons, h]; simp [h1]
      · rw [if_neg (by simp [Dropped, h1])]; simp [h1]
    · rw [if_neg (by simp [Dropped, h])]; rfl

theorem new_legs (l : List (Leg × Leg)) (new : String) (h : ∀ p ∈ l, p.1.1 = new ∨ p.2.1 = new) :
    (l.flatMap fun p => [p.1, p.2]).Perm
      ((l.flatMap fun p => (if p.1.1 = new ∧ p.2.1 ≠ new then [p.2] else []) ++
          (if p.2.1 = new ∧ p.1.1 ≠ new then [p.1] else [])) ++
        (l.flatMap fun p => [p.1, p.2]).filter fun x => decide (x.1 = new)) := by
  induction l with
  | nil => exact List.Perm.refl _
  | cons p l ih =>
    have ih := ih fun q hq => h q (List.mem_cons_of_mem _ hq)
    have hp := h p (by simp)
    rw [List.flatMap_cons, List.flatMap_cons, List.filter_append]
    by_cases h1 : p.1.1 = new <;> by_cases h2 : p.2.1 = new
    · have := ((ih.cons p.2).cons p.1).trans (((List.perm_middle.symm).cons p.1).trans List.perm_middle.symm)
      simpa [h1, h2] using this
    · have := ((ih.cons p.2).cons p.1).trans (((List.Perm.refl _).cons p.1).trans (List.Perm.swap _ _ _))
      refine List.Perm.trans ?_ (List.Perm.trans this ?_)
      · simp
      · have e := (List.perm_middle (a := p.1) (l₁ := l.flatMap fun p => (if p.1.1 = new ∧ p.2.1 ≠ new then [p.2] else []) ++
          (if p.2.1 = new ∧ p.1.1 ≠ new then [p.1] else []))
          (l₂ := (l.flatMap fun p => [p.1, p.2]).filter fun x => decide (x.1 = new))).symm.cons p.2
        simpa [h1, h2] using e
    · have e := ((ih.cons p.2).trans List.perm_middle.symm).cons p.1
      simpa [h1, h2] using e
    · exact absurd hp (by simp [h1, h2])

/-- C80: `add_tensor` keeps all connections of the diagram and adds the extra definition; the open legs that are connected
with the new tensor are not open any more.  All legs of the diagram still occur as often as before. -/
theorem C80_add {definition extra r : List DInstr} {new : String} (hd : (definition.flatMap DInstr.legs).Nodup)
    (h : addTensor definition new extra = .ok r) :
    connected r = connected definition ++ connected extra ∧
    opened r = (opened definition).filter (fun x => decide (x.1 ∉ Spec.partners new extra)) ++ opened extra ∧
    (∀ p ∈ connected extra, p.1.1 = new ∨ p.2.1 = new) ∧
    (∀ l ∈ Spec.partners new extra, l ∈ (opened definition).map Prod.fst) ∧
    ((Spec.partners new extra).Nodup → (r.flatMap DInstr.legs).Perm (definition.flatMap DInstr.legs ++
      ((opened extra).map Prod.fst ++
        ((connected extra).flatMap fun p => [p.1, p.2]).filter fun x => decide (x.1 = new)))) := by
  obtain ⟨q1, q2, q3⟩ := addTensor_eq hd h
  have e1 : connected r = connected definition ++ connected extra := by rw [q3, connected_append, connected_kept]
  have e2 : opened r = (opened definition).filter (fun x => decide (x.1 ∉ Spec.partners new extra)) ++ opened extra := by
    rw [q3, opened_append, opened_kept]
  refine ⟨e1, e2, q1, q2, fun hK => ?_⟩
  have hO : ((opened definition).map Prod.fst).Nodup := by
    have := (legs_split definition).nodup_iff.1 hd
    exact (List.nodup_append'.1 this).1
  have hsplit : ((opened definition).map Prod.fst).Perm
      (((opened definition).filter fun x => decide (x.1 ∉ Spec.partners new extra)).map Prod.fst ++
        Spec.partners new extra) := by
    have hfm : ((opened definition).filter fun x => decide (x.1 ∉ Spec.partners new extra)).map Prod.fst =
        ((opened definition).map Prod.fst).filter fun x => decide (x ∉ Spec.partners new extra) := by
      rw [List.filter_map]; rfl
    rw [hfm]
    refine (List.perm_ext_iff_of_nodup hO ?_).2 ?_
    · rw [List.nodup_append']
      refine ⟨hO.filter _, hK, ?_⟩
      intro x hx hy
      have := (List.mem_filter.1 hx).2
      simp only [decide_eq_true_eq] at this
      exact this hy
    · intro x
      rw [List.mem_append, List.mem_filter]
      constructor
      · intro hx
        by_cases hk : x ∈ Spec.partners new extra
        · exact Or.inr hk
        · exact Or.inl ⟨hx, by simpa using hk⟩
      · rintro (hx | hx)
        · exact hx.1
        · exact q2 x hx
  have hnew := new_legs (connected extra) new q1
  refine (legs_split r).trans ?_
  rw [e1, e2]
  refine List.Perm.trans ?_ ((legs_split definition).append_right _).symm
  rw [List.flatMap_append, List.map_append]
  -- kept opens, new opens, old pairs, new pairs
  set F := ((opened definition).filter fun x => decide (x.1 ∉ Spec.partners new extra)).map Prod.fst with hF
  set O := (opened extra).map Prod.fst with hO'
  set C := (connected definition).flatMap fun p : Leg × Leg => [p.1, p.2] with hCd
  set N := ((connected extra).flatMap fun p : Leg × Leg => [p.1, p.2]).filter fun x => decide (x.1 = new) with hN
  set K := Spec.partners new extra with hKd
  have s1 : (F ++ O ++ (C ++ (connected extra).flatMap fun p : Leg × Leg => [p.1, p.2])).Perm (F ++ O ++ (C ++ (K ++ N))) :=
    (hnew.append_left _).append_left _
  refine s1.trans ?_
  refine List.Perm.trans ?_ ((hsplit.append_right _).append_right _).symm
  rw [List.perm_iff_count]
  intro x
  simp only [List.count_append]
  omega

/-- C80: removing the tensor that was just added, with the old definitions of the open legs, gives the old definition, up
to the order of the instructions. -/
theorem C80_add_remove {definition extra r : List DInstr} {new : String} (hd : (definition.flatMap DInstr.legs).Nodup)
    (hnew : ∀ x ∈ definition.flatMap DInstr.legs, x.1 ≠ new) (hopen : ∀ x ∈ opened extra, x.1.1 = new)
    (hK : (Spec.partners new extra).Nodup) (h : addTensor definition new extra = .ok r) :
    ∃ r', removeTensor r new (definition.filter fun d => decide (Dropped (Spec.partners new extra) d)) = .ok r' ∧
      r'.Perm definition := by
  obtain ⟨q1, q2, q3⟩ := addTensor_eq hd h
  set K := Spec.partners new extra with hKd
  have hlegs : ∀ d ∈ definition, d.t1 ≠ new ∧ d.t2 ≠ some new := by
    intro d hdm
    constructor
    · refine hnew (d.t1, d.l1) (List.mem_flatMap.2 ⟨d, hdm, ?_⟩)
      rw [DInstr.legs]; split <;> simp
    · intro hc
      exact hnew (new, d.l2) (List.mem_flatMap.2 ⟨d, hdm, by rw [DInstr.legs, hc]; simp⟩) rfl
  have hkeep : (r.filter fun d => decide (d.t1 ≠ new ∧ d.t2 ≠ some new)) =
      definition.filter fun d => decide (¬ Dropped K d) := by
    rw [q3, List.filter_append]
    have a1 : ((definition.filter fun d => decide (¬ Dropped K d)).filter fun d => decide (d.t1 ≠ new ∧ d.t2 ≠ some new)) =
        definition.filter fun d => decide (¬ Dropped K d) := by
      rw [List.filter_eq_self]
      intro d hdm
      exact decide_eq_true (hlegs d (List.mem_filter.1 hdm).1)
    have a2 : (extra.filter fun d => decide (d.t1 ≠ new ∧ d.t2 ≠ some new)) = [] := by
      rw [List.filter_eq_nil_iff]
      intro d hdm
      simp only [decide_eq_true_eq]
      rintro ⟨c1, c2⟩
      rcases h0 : d.t2 with _ | t2
      · exact c1 (hopen ((d.t1, d.l1), d.l2) (List.mem_flatMap.2 ⟨d, hdm, by rw [h0]; simp⟩))
      · rcases q1 ((d.t1, d.l1), (t2, d.l2)) (List.mem_flatMap.2 ⟨d, hdm, by rw [h0]; simp⟩) with c | c
        · exact c1 c
        · exact c2 (by rw [h0]; exact congrArg some c)
    rw [a1, a2, List.append_nil]
  have hfreed : r.filterMap (freed new) = K := by
    rw [q3, List.filterMap_append, freed_eq new extra, ← hKd]
    have : (definition.filter fun d => decide (¬ Dropped K d)).filterMap (freed new) = [] := by
      rw [List.filterMap_eq_nil_iff]
      intro d hdm
      obtain ⟨c1, c2⟩ := hlegs d (List.mem_filter.1 hdm).1
      rw [freed]
      rcases h0 : d.t2 with _ | t2
      · rfl
      · have : t2 ≠ new := fun hc => c2 (by rw [h0, hc])
        simp [c1, this]
    rw [this, List.nil_append]
  have hO : ((opened definition).map Prod.fst).Nodup := by
    have := (legs_split definition).nodup_iff.1 hd
    exact (List.nodup_append'.1 this).1
  have hcn : connected (definition.filter fun d => decide (Dropped K d)) = [] := by
    unfold connected
    rw [List.flatMap_eq_nil_iff]
    intro d hdm
    have := (List.mem_filter.1 hdm).2
    simp only [decide_eq_true_eq] at this
    rw [this.1]
  have hKp : K.Perm ((opened (definition.filter fun d => decide (Dropped K d))).map Prod.fst ++ []) := by
    rw [opened_dropped, List.append_nil]
    have hfm : ((opened definition).filter fun x => decide (x.1 ∈ K)).map Prod.fst =
        ((opened definition).map Prod.fst).filter fun x => decide (x ∈ K) := by
      rw [List.filter_map]; rfl
    rw [hfm]
    refine (List.perm_ext_iff_of_nodup hK (hO.filter _)).2 ?_
    intro x
    rw [List.mem_filter]
    constructor
    · exact fun hx => ⟨q2 x hx, by simpa using hx⟩
    · intro hx; simpa using hx.2
  obtain ⟨rest, t1, t2⟩ := takeOpen_complete hcn hKp
  have hrest : rest = [] := List.perm_nil.1 t2
  subst hrest
  refine ⟨_, by rw [removeTensor, hfreed, t1]; rfl, ?_⟩
  simp only [List.map_nil, List.append_nil]
  rw [hkeep]
  have := List.filter_append_perm (fun d => decide (Dropped K d)) definition
  refine List.perm_append_comm.trans ?_
  convert this using 3
  simp

/-- C80 on a concrete diagram. -/
theorem C80_nonvacuous :
    addTensor [⟨"A", "b", some "B", "y"⟩, ⟨"A", "a", none, "out"⟩, ⟨"B", "x", none, "in"⟩] "C"
      [⟨"C", "u", some "B", "x"⟩, ⟨"C", "v", none, "new"⟩] =
      .ok [⟨"A", "b", some "B", "y"⟩, ⟨"A", "a", none, "out"⟩, ⟨"C", "u", some "B", "x"⟩, ⟨"C", "v", none, "new"⟩] ∧
    removeTensor [⟨"A", "b", some "B", "y"⟩, ⟨"A", "a", none, "out"⟩, ⟨"B", "x", some "A", "c"⟩] "B"
      [⟨"A", "c", none, "free"⟩] =
      .ok [⟨"A", "a", none, "out"⟩, ⟨"A", "c", none, "free"⟩, ⟨"A", "b", none, "b"⟩] ∧
    removeTensor [⟨"A", "b", some "B", "y"⟩, ⟨"A", "a", none, "out"⟩] "B" [⟨"A", "a", none, "free"⟩] = .error .openLegs := by
  refine ⟨by decide +kernel, by decide +kernel, by decide +kernel⟩

end Cyten.Planar
