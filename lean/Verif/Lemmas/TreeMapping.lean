import Verif.Lemmas.TreeBend

/-! # The mapping of pairs of fusion trees -/

namespace Cyten.FT
open Cyten.FT.Spec Cyten.Tools Cyten.ListSum Cyten.Props Cyten.Permute Cyten.Mappings

variable {S K : Type} [LinearOrder S] [CommRing K] [StarRing K]

/-! ## Columns -/

section
variable {A : Type} [DecidableEq A]

/-- A linear functional on a column -/
def colSum (col : UMap A K) (g : A → K) : K := (col.map fun p => p.2 * g p.1).sum

omit [StarRing K] in
theorem colSum_addTo (m : UMap A K) (k : A) (v : K) (g : A → K) :
    colSum (m.addTo k v) g = colSum m g + v * g k := by
  induction m with
  | nil => simp [colSum, UMap.addTo]
  | cons p m ih =>
    obtain ⟨k', w⟩ := p
    unfold UMap.addTo
    by_cases h : k' = k
    · subst h
      simp only [if_true, colSum, List.map_cons, List.sum_cons]; ring
    · simp only [h, if_false]
      simp only [colSum, List.map_cons, List.sum_cons] at ih ⊢
      rw [ih]; ring

omit [StarRing K] in
theorem keys_addTo (m : UMap A K) (k : A) (v : K) (x : A) :
    x ∈ (m.addTo k v).map Prod.fst ↔ x = k ∨ x ∈ m.map Prod.fst := by
  induction m with
  | nil => simp [UMap.addTo]
  | cons p m ih =>
    obtain ⟨k', w⟩ := p
    unfold UMap.addTo
    by_cases h : k' = k
    · subst h; simp
    · simp only [h, if_false, List.map_cons, List.mem_cons, ih]; tauto

omit [StarRing K] in
theorem nodup_addTo (m : UMap A K) (k : A) (v : K) (h : (m.map Prod.fst).Nodup) :
    ((m.addTo k v).map Prod.fst).Nodup := by
  induction m with
  | nil => simp [UMap.addTo]
  | cons p m ih =>
    obtain ⟨k', w⟩ := p
    simp only [List.map_cons, List.nodup_cons] at h
    unfold UMap.addTo
    by_cases hk : k' = k
    · subst hk; simpa using h
    · simp only [hk, if_false, List.map_cons, List.nodup_cons]
      exact ⟨fun hm => ((keys_addTo m k v k').1 hm).elim hk h.1, ih h.2⟩

/-- The new column if each entry is replaced by a linear combination -/
def bindCol (col : UMap A K) (F : A → UMap A K) : UMap A K :=
  col.foldl (fun res p => (F p.1).foldl (fun res q => res.addTo q.1 (q.2 * p.2)) res) []

omit [StarRing K] in
theorem fold_addTo (l : UMap A K) (v : K) (res : UMap A K) (hn : (res.map Prod.fst).Nodup) (g : A → K) :
    let r := l.foldl (fun res q => res.addTo q.1 (q.2 * v)) res
    (r.map Prod.fst).Nodup ∧ (∀ x, x ∈ r.map Prod.fst → x ∈ l.map Prod.fst ∨ x ∈ res.map Prod.fst) ∧
      colSum r g = colSum res g + v * colSum l g := by
  induction l generalizing res with
  | nil => exact ⟨hn, fun x hx => Or.inr hx, by simp [colSum]⟩
  | cons q l ih =>
    obtain ⟨h1, h2, h3⟩ := ih (res.addTo q.1 (q.2 * v)) (nodup_addTo res _ _ hn)
    refine ⟨h1, fun x hx => ?_, ?_⟩
    · rcases h2 x hx with h | h
      · exact Or.inl (List.mem_cons_of_mem _ h)
      · rcases (keys_addTo _ _ _ _).1 h with h | h
        · exact Or.inl (h ▸ List.mem_cons_self)
        · exact Or.inr h
    · refine h3.trans ?_
      rw [colSum_addTo]
      simp only [colSum, List.map_cons, List.sum_cons]
      ring

omit [StarRing K] in
theorem bindCol_spec (col : UMap A K) (F : A → UMap A K) :
    ((bindCol col F).map Prod.fst).Nodup ∧
      (∀ x, x ∈ (bindCol col F).map Prod.fst → ∃ p ∈ col, x ∈ (F p.1).map Prod.fst) ∧
      ∀ g, colSum (bindCol col F) g = colSum col fun a => colSum (F a) g := by
  suffices H : ∀ res : UMap A K, (res.map Prod.fst).Nodup →
      let r := col.foldl (fun res p => (F p.1).foldl (fun res q => res.addTo q.1 (q.2 * p.2)) res) res
      (r.map Prod.fst).Nodup ∧
        (∀ x, x ∈ r.map Prod.fst → (∃ p ∈ col, x ∈ (F p.1).map Prod.fst) ∨ x ∈ res.map Prod.fst) ∧
        ∀ g, colSum r g = colSum res g + colSum col fun a => colSum (F a) g by
    obtain ⟨h1, h2, h3⟩ := H [] (by simp)
    refine ⟨h1, fun x hx => (h2 x hx).resolve_right (by simp), fun g => (h3 g).trans (by simp [colSum])⟩
  induction col with
  | nil => exact fun res hn => ⟨hn, fun x hx => Or.inr hx, fun g => by simp [colSum]⟩
  | cons p col ih =>
    intro res hn
    have hs := fun g => fold_addTo (F p.1) p.2 res hn g
    obtain ⟨h1, h2, h3⟩ := ih _ (hs fun _ => 0).1
    refine ⟨h1, fun x hx => ?_, fun g => ?_⟩
    · rcases h2 x hx with ⟨q, hq, h⟩ | h
      · exact Or.inl ⟨q, List.mem_cons_of_mem _ hq, h⟩
      · rcases (hs fun _ => 0).2.1 x h with h | h
        · exact Or.inl ⟨p, List.mem_cons_self, h⟩
        · exact Or.inr h
    · refine (h3 g).trans ?_
      rw [(hs g).2.2]
      simp only [colSum, List.map_cons, List.sum_cons]
      ring

omit [StarRing K] in
theorem find_mapM {B : Type} (f : A → Option B) (keys : List A) (hf : ∀ k ∈ keys, (f k).isSome) :
    ∃ tm : UMap A B, (keys.mapM fun k => (f k).map fun l => (k, l)) = some tm ∧ ∀ k ∈ keys, tm.find k = f k := by
  induction keys with
  | nil => exact ⟨[], rfl, by simp⟩
  | cons k keys ih =>
    obtain ⟨tm, h1, h2⟩ := ih fun k' hk' => hf k' (List.mem_cons_of_mem _ hk')
    obtain ⟨l, hl⟩ := Option.isSome_iff_exists.1 (hf k List.mem_cons_self)
    refine ⟨(k, l) :: tm, ?_, ?_⟩
    · rw [List.mapM_cons, hl, h1]; rfl
    · intro k' hk'
      unfold UMap.find
      by_cases h : k = k'
      · subst h; rw [if_pos rfl, hl]
      · rw [if_neg h]
        exact h2 k' ((List.mem_cons.1 hk').resolve_left (Ne.symm h))

end

/-! ## Labels -/

/-- A pair of trees whose legs are those of the lists of labels -/
structure Good (R : FusionRule S) (T : FTensors S K) (sec : ℕ → S) (flag : ℕ → Bool) (c d : List ℕ)
    (J : FusionTree S × FusionTree S) : Prop where
  left : J.1.Sane R
  right : J.2.Sane R
  coupled : J.1.coupled = J.2.coupled
  leftU : J.1.uncoupled = c.map sec
  leftD : J.1.areDual = c.map flag
  rightU : J.2.uncoupled = d.map fun x => T.dual (sec x)
  rightD : J.2.areDual = d.map fun x => !flag x

/-- Indices of states of all legs -/
def IdxOK (T : FTensors S K) (sec : ℕ → S) (c d : List ℕ) (idx : ℕ → ℕ) : Prop := ∀ x ∈ c ++ d, idx x < T.dim (sec x)

/-- The dense entry of a pair of trees for indices of the legs -/
def pairVal (T : FTensors S K) (c d : List ℕ) (idx : ℕ → ℕ) (J : FusionTree S × FusionTree S) : K :=
  pairTensor T J (c.map idx) (d.map idx)

theorem map_swapNext {α β : Type} (f : α → β) (l : List α) (j : ℕ) : swapNext (l.map f) j = (swapNext l j).map f := by
  unfold swapNext
  simp only [List.getElem?_map]
  rcases l[j]? with _ | x
  · rfl
  rcases l[j + 1]? with _ | y
  · rfl
  simp [List.map_set]

theorem inDims_left {T : FTensors S K} {sec : ℕ → S} {c d : List ℕ} {idx : ℕ → ℕ} (h : IdxOK T sec c d idx) :
    InDims T (c.map sec) (c.map idx) := by
  rw [InDims, List.forall₂_map_left_iff, List.forall₂_map_right_iff, List.forall₂_same]
  exact fun x hx => h x (List.mem_append_left _ hx)

theorem inDims_right {R : FusionRule S} {T : FTensors S K} {D : Topo S K} (hL : GroupLaws R T D) {sec : ℕ → S}
    {c d : List ℕ} {idx : ℕ → ℕ} (h : IdxOK T sec c d idx) :
    InDims T (d.map fun x => T.dual (sec x)) (d.map idx) := by
  rw [InDims, List.forall₂_map_left_iff, List.forall₂_map_right_iff, List.forall₂_same]
  exact fun x hx => by rw [hL.dim_dual]; exact h x (List.mem_append_right _ hx)

theorem idxOK_perm {T : FTensors S K} {sec : ℕ → S} {c d c' d' : List ℕ} {idx : ℕ → ℕ} (h : IdxOK T sec c' d' idx)
    (hp : ∀ x, x ∈ c ++ d → x ∈ c' ++ d') : IdxOK T sec c d idx := fun x hx => h x (hp x hx)

/-- A linear combination of pairs of trees with other legs and the same dense entries -/
structure MoveOK (R : FusionRule S) (T : FTensors S K) (sec : ℕ → S) (flag : ℕ → Bool) (c d c' d' : List ℕ)
    (J : FusionTree S × FusionTree S) (l : UMap (FusionTree S × FusionTree S) K) : Prop where
  good : ∀ p ∈ l, Good R T sec flag c' d' p.1
  sum : ∀ idx, IdxOK T sec c d idx → colSum l (pairVal T c' d' idx) = pairVal T c d idx J

/-- The invariant of a column -/
structure ColOK (R : FusionRule S) (T : FTensors S K) (sec : ℕ → S) (flag : ℕ → Bool) (c d : List ℕ)
    (v : (ℕ → ℕ) → K) (col : UMap (FusionTree S × FusionTree S) K) : Prop where
  nodup : (col.map Prod.fst).Nodup
  good : ∀ p ∈ col, Good R T sec flag c d p.1
  sum : ∀ idx, IdxOK T sec c d idx → colSum col (pairVal T c d idx) = v idx

theorem bindCol_ok {R : FusionRule S} {T : FTensors S K} {sec : ℕ → S} {flag : ℕ → Bool} {c d c' d' : List ℕ}
    {v : (ℕ → ℕ) → K} {col : UMap (FusionTree S × FusionTree S) K} (h : ColOK R T sec flag c d v col)
    (hp : ∀ x, x ∈ c ++ d → x ∈ c' ++ d')
    (F : FusionTree S × FusionTree S → UMap (FusionTree S × FusionTree S) K)
    (hF : ∀ p ∈ col, MoveOK R T sec flag c d c' d' p.1 (F p.1)) : ColOK R T sec flag c' d' v (bindCol col F) := by
  obtain ⟨h1, h2, h3⟩ := bindCol_spec col F
  refine ⟨h1, fun p hq => ?_, fun idx hi => ?_⟩
  · obtain ⟨q, hq1, hq2⟩ := h2 p.1 (List.mem_map_of_mem hq)
    obtain ⟨r, hr1, hr2⟩ := List.mem_map.1 hq2
    rw [← hr2]
    exact (hF q hq1).good r hr1
  · rw [h3, ← h.sum idx (idxOK_perm hi hp)]
    unfold colSum
    refine sum_congr _ fun p hp' => ?_
    congr 1
    exact (hF p hp').sum idx (idxOK_perm hi hp)

section
variable {R : FusionRule S} {T : FTensors S K} {D : Topo S K} {sec : ℕ → S} {flag : ℕ → Bool}

theorem bend_down_ok (hL : GroupLaws R T D) (c d : List ℕ) (x : ℕ) (J : FusionTree S × FusionTree S)
    (h : Good R T sec flag c (d ++ [x]) J) :
    ∃ l, bendLeg R D J.1 J.2 true = some l ∧ MoveOK R T sec flag c (d ++ [x]) (c ++ [x]) d J l := by
  obtain ⟨l, h1, h2⟩ := bendDown_spec hL J.1 J.2 h.left h.right h.coupled (d.map fun x => T.dual (sec x))
    (d.map fun x => !flag x) (T.dual (sec x)) (!flag x) (by rw [h.rightU]; simp) (by rw [h.rightD]; simp) false
  refine ⟨l, by simp [bendLeg, h1], fun p hp => ?_, fun idx hi => ?_⟩
  · obtain ⟨g1, g2, g3, g4, g5, g6, g7⟩ := h2.tree p hp
    refine ⟨g1, g2, g3, ?_, ?_, g6, g7⟩
    · rw [g4, h.leftU, hL.dual_dual]; simp
    · rw [g5, h.leftD]; simp
  · have e := h2.sum (c.map idx) (d.map idx) (idx x) (by rw [h.leftU]; exact inDims_left (d := d) fun y hy => hi y (by
      simp only [List.mem_append] at hy ⊢; tauto)) (inDims_right hL (c := c) fun y hy => hi y (by
      simp only [List.mem_append] at hy ⊢; tauto)) (by
      rw [hL.dim_dual]; exact hi x (by simp))
    simp only [conjIf, Bool.false_eq_true, if_false] at e
    unfold colSum pairVal
    simp only [List.map_append, List.map_cons, List.map_nil]
    exact e

theorem bend_up_ok (hL : GroupLaws R T D) (c d : List ℕ) (x : ℕ) (J : FusionTree S × FusionTree S)
    (h : Good R T sec flag (c ++ [x]) d J) :
    ∃ l, bendLeg R D J.1 J.2 false = some l ∧ MoveOK R T sec flag (c ++ [x]) d c (d ++ [x]) J l := by
  obtain ⟨l, h1, h2⟩ := bendDown_spec hL J.2 J.1 h.right h.left h.coupled.symm (c.map sec)
    (c.map flag) (sec x) (flag x) (by rw [h.leftU]; simp) (by rw [h.leftD]; simp) true
  refine ⟨l.map fun p => ((p.1.2, p.1.1), p.2), by simp [bendLeg, h1], fun p hp => ?_, fun idx hi => ?_⟩
  · obtain ⟨q, hq, rfl⟩ := List.mem_map.1 hp
    obtain ⟨g1, g2, g3, g4, g5, g6, g7⟩ := h2.tree q hq
    refine ⟨g2, g1, g3.symm, g6, g7, ?_, ?_⟩
    · simp only [g4, h.rightU]; simp
    · simp only [g5, h.rightD]; simp
  · have e := h2.sum (d.map idx) (c.map idx) (idx x) (by rw [h.rightU]; exact inDims_right hL (c := c) fun y hy => hi y (by
      simp only [List.mem_append] at hy ⊢; tauto)) (inDims_left (d := d) fun y hy => hi y (by
      simp only [List.mem_append] at hy ⊢; tauto)) (hi x (by simp))
    have e' := congrArg star e
    rw [star_lsum, star_pairTensor T J.2 J.1 h.coupled.symm] at e'
    unfold colSum pairVal
    rw [List.map_map]
    simp only [List.map_append, List.map_cons, List.map_nil]
    refine Eq.trans ?_ e'
    refine sum_congr _ fun p hp => ?_
    obtain ⟨g1, g2, g3, -⟩ := h2.tree p hp
    obtain ⟨⟨p1, p2⟩, p3⟩ := p
    simp only [Function.comp_def, conjIf, if_true]
    rw [star_mul', star_star, star_pairTensor T p1 p2 g3]

theorem braid_cod_ok (hL : GroupLaws R T D) {small : K → Bool} (hS : CutoffExact D small) (c d : List ℕ) (j : ℕ)
    (ov : Bool) (hj : j + 1 < c.length) (X : FusionTree S) (hX : X.Sane R) (hU : X.uncoupled = c.map sec) :
    ∃ l, braid R D small X j ov true = some l ∧ ∀ Y, Good R T sec flag c d (X, Y) →
      MoveOK R T sec flag c d (swapNext c j) d (X, Y) (l.map fun q => ((q.1, Y), q.2)) := by
  obtain ⟨l, h1, h2⟩ := braid_spec (T := T) hL hS ov true _ X hX rfl j (by rw [hU]; simpa using hj)
  refine ⟨l, h1, fun Y h => ⟨fun p hp => ?_, fun idx hi => ?_⟩⟩
  · obtain ⟨q, hq, rfl⟩ := List.mem_map.1 hp
    obtain ⟨g1, g2, g3, g4⟩ := h2.tree q hq
    refine ⟨g1, h.right, g2.trans h.coupled, ?_, ?_, h.rightU, h.rightD⟩
    · rw [g3, hU, map_swapNext]
    · have := h.leftD
      simp only at this
      rw [g4, this, map_swapNext]
  · unfold colSum pairVal
    rw [List.map_map]
    have e1 : ∀ q ∈ l, ((fun p : (FusionTree S × FusionTree S) × K =>
          p.2 * pairTensor T p.1 ((swapNext c j).map idx) (d.map idx)) ∘ fun q => ((q.1, Y), q.2)) q =
        ((List.range (T.dim X.coupled)).map fun g => star (conjIf true q.2 *
          treeTensor T q.1 (swapNext (c.map idx) j) g) * treeTensor T Y (d.map idx) g).sum := by
      intro q hq
      obtain ⟨g1, g2, g3, g4⟩ := h2.tree q hq
      simp only [Function.comp_def, pairTensor, g2, map_swapNext, mul_sum, conjIf, if_true]
      refine sum_congr _ fun g _ => ?_
      rw [star_mul', star_star]; ring
    rw [sum_congr _ e1]
    refine (sum_comm _ _ _).trans ?_
    unfold pairTensor
    refine sum_congr _ fun g hg => ?_
    rw [← sum_mul, ← star_lsum, h2.sum (c.map idx) (by rw [hU]; exact inDims_left hi) g (List.mem_range.1 hg)]

theorem braid_dom_ok (hL : GroupLaws R T D) {small : K → Bool} (hS : CutoffExact D small) (c d : List ℕ) (j : ℕ)
    (ov : Bool) (hj : j + 1 < d.length) (Y : FusionTree S) (hY : Y.Sane R)
    (hU : Y.uncoupled = d.map fun x => T.dual (sec x)) :
    ∃ l, braid R D small Y j ov false = some l ∧ ∀ X, Good R T sec flag c d (X, Y) →
      MoveOK R T sec flag c d c (swapNext d j) (X, Y) (l.map fun q => ((X, q.1), q.2)) := by
  obtain ⟨l, h1, h2⟩ := braid_spec (T := T) hL hS ov false _ Y hY rfl j (by rw [hU]; simpa using hj)
  refine ⟨l, h1, fun X h => ⟨fun p hp => ?_, fun idx hi => ?_⟩⟩
  · obtain ⟨q, hq, rfl⟩ := List.mem_map.1 hp
    obtain ⟨g1, g2, g3, g4⟩ := h2.tree q hq
    refine ⟨h.left, g1, h.coupled.trans g2.symm, h.leftU, h.leftD, ?_, ?_⟩
    · rw [g3, hU, map_swapNext]
    · have := h.rightD
      simp only at this
      rw [g4, this, map_swapNext]
  · unfold colSum pairVal
    rw [List.map_map]
    have hc := h.coupled
    simp only at hc
    have e1 : ∀ q ∈ l, ((fun p : (FusionTree S × FusionTree S) × K =>
          p.2 * pairTensor T p.1 (c.map idx) ((swapNext d j).map idx)) ∘ fun q => ((X, q.1), q.2)) q =
        ((List.range (T.dim X.coupled)).map fun g => star (treeTensor T X (c.map idx) g) * (conjIf false q.2 *
          treeTensor T q.1 (swapNext (d.map idx) j) g)).sum := by
      intro q hq
      simp only [Function.comp_def, pairTensor, map_swapNext, mul_sum, conjIf, Bool.false_eq_true, if_false]
      refine sum_congr _ fun g _ => ?_
      ring
    rw [sum_congr _ e1]
    refine (sum_comm _ _ _).trans ?_
    unfold pairTensor
    refine sum_congr _ fun g hg => ?_
    rw [← mul_sum, h2.sum (d.map idx) (by rw [hU]; exact inDims_right hL hi) g (by
      rw [← hc]; exact List.mem_range.1 hg)]

end

end Cyten.FT
