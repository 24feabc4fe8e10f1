import Verif.Lemmas.AbelianInner

/-! # Reshaping and transposing blocks -/

namespace Cyten.Abelian
open Cyten.Tables Cyten.Tools Cyten.Props Cyten.ListSum Spec

theorem packC_append (s1 s2 r1 r2 : List ℕ) (h : r1.length = s1.length) :
    packRow (makeStride (s1 ++ s2) true) (r1 ++ r2) =
      packRow (makeStride s1 true) r1 * s2.prod + packRow (makeStride s2 true) r2 := by
  induction s1 generalizing r1 with
  | nil =>
    cases r1 with
    | nil => simp [packRow, makeStride, strideLoop]
    | cons => simp at h
  | cons s s1 ih =>
    cases r1 with
    | nil => simp at h
    | cons x r1 =>
      rw [List.cons_append, List.cons_append, packRow_cons, packRow_cons,
        ih r1 (by simpa using h), List.prod_append]
      ring

theorem inShape_append {r1 r2 s1 s2 : List ℕ} (h1 : InShape r1 s1) (h2 : InShape r2 s2) :
    InShape (r1 ++ r2) (s1 ++ s2) := List.rel_append h1 h2

theorem inShape_take {r s : List ℕ} (h : InShape r s) (n : ℕ) : InShape (r.take n) (s.take n) :=
  List.forall₂_take n h

theorem inShape_drop {r s : List ℕ} (h : InShape r s) (n : ℕ) : InShape (r.drop n) (s.drop n) :=
  List.forall₂_drop n h

theorem inShape_append_iff {r1 r2 s1 s2 : List ℕ} (hl : r1.length = s1.length) :
    InShape (r1 ++ r2) (s1 ++ s2) ↔ InShape r1 s1 ∧ InShape r2 s2 := by
  constructor
  · intro h
    have a := inShape_take h r1.length
    have b := inShape_drop h r1.length
    rw [List.take_left, hl, List.take_left] at a
    rw [List.drop_left, hl, List.drop_left] at b
    exact ⟨a, b⟩
  · exact fun h => inShape_append h.1 h.2

/-- The digits of the packed index. -/
theorem unpack {row shape : List ℕ} (h : InShape row shape) :
    (List.range shape.length).map
      (gridEntry (packRow (makeStride shape true) row) (makeStride shape true) shape) = row := by
  refine List.ext_getElem? fun k => ?_
  rw [List.getElem?_map]
  by_cases hk : k < shape.length
  · rw [List.getElem?_range hk]
    have hk' : k < row.length := by rw [h.length]; exact hk
    rw [List.getElem?_eq_getElem hk', Option.map_some]
    rw [gridEntry_spec h k row[k] (List.getElem?_eq_getElem hk')]
  · rw [List.getElem?_eq_none (by simpa using hk), List.getElem?_eq_none (by rw [h.length]; omega)]
    rfl

theorem reshape_val {K : Type} (b : Blk K) (shape i row : List ℕ) (h : InShape row b.shape)
    (he : packRow (makeStride shape true) i = packRow (makeStride b.shape true) row) :
    (b.reshape shape).val i = b.val row := by
  show b.val _ = _
  rw [he, unpack h]

theorem packC_two (x y m n : ℕ) : packRow (makeStride [m, n] true) [x, y] = x * n + y := by
  rw [packRow_cons, packRow_cons]; simp [packRow]

theorem packC_one (x m : ℕ) : packRow (makeStride [m] true) [x] = x := by
  rw [packRow_cons]; simp [packRow]

/-- transposed multi-indices -/
def pick (perm r : List ℕ) : List ℕ := perm.map fun c => r.getD c 0

theorem pick_append (p q r : List ℕ) : pick (p ++ q) r = pick p r ++ pick q r := by simp [pick]

theorem pick_range (r : List ℕ) (n : ℕ) (h : n ≤ r.length) : pick (List.range n) r = r.take n := by
  refine List.ext_getElem? fun k => ?_
  unfold pick
  rw [List.getElem?_map, List.getElem?_take]
  by_cases hk : k < n
  · rw [List.getElem?_range hk, if_pos hk]
    rw [List.getElem?_eq_getElem (by omega), Option.map_some, List.getD_eq_getElem?_getD,
      List.getElem?_eq_getElem (by omega)]
    rfl
  · rw [List.getElem?_eq_none (by simpa using hk), if_neg hk]; rfl

theorem pick_range' (r : List ℕ) (k n : ℕ) (h : k + n = r.length) :
    pick (List.range' k n) r = r.drop k := by
  have : List.range' k n = (List.range n).map (k + ·) := by
    rw [List.range_eq_range', List.map_add_range', Nat.add_zero]
  rw [this]
  unfold pick
  rw [List.map_map]
  have h2 := pick_range (r.drop k) n (by rw [List.length_drop]; omega)
  unfold pick at h2
  rw [List.take_of_length_le (by rw [List.length_drop]; omega)] at h2
  refine Eq.trans (List.map_congr_left fun x hx => ?_) h2
  simp [List.getD_eq_getElem?_getD, List.getElem?_drop]

theorem pick_map_add (r s : List ℕ) (p : List ℕ) :
    pick (p.map (r.length + ·)) (r ++ s) = pick p s := by
  unfold pick
  rw [List.map_map]
  refine List.map_congr_left fun x _ => ?_
  simp [List.getD_eq_getElem?_getD, List.getElem?_append_right]

theorem pick_append_left (r s : List ℕ) (p : List ℕ) (h : ∀ c ∈ p, c < r.length) :
    pick p (r ++ s) = pick p r := by
  refine List.map_congr_left fun x hx => ?_
  simp [List.getD_eq_getElem?_getD, List.getElem?_append_left (h x hx)]

theorem pick_reverse_range (r : List ℕ) : pick (List.range r.length).reverse r = r.reverse :=
  map_range_reverse r

theorem permuteAxes_shape {K : Type} (b : Blk K) (perm : List ℕ) :
    (b.permuteAxes perm).shape = pick perm b.shape := rfl

theorem permuteAxes_val {K : Type} (b : Blk K) (perm r : List ℕ)
    (h : perm.Perm (List.range r.length)) : (b.permuteAxes perm).val (pick perm r) = b.val r := by
  show b.val _ = _
  unfold pick
  rw [unpermute h]

theorem range_add_perm (k m n : ℕ) (hk : k ≤ n) :
    (List.range k ++ (List.range m).map (n + ·) ++ List.range' k (n - k)).Perm
      (List.range (n + m)) := by
  rw [show n + m = k + ((n - k) + m) by omega]
  rw [List.range_add, List.append_assoc]
  refine List.Perm.append_left _ ?_
  refine List.perm_append_comm.trans ?_
  rw [List.range_add, List.map_append, List.map_map]
  rw [show List.range' k (n - k) = (List.range (n - k)).map (k + ·) by
    rw [List.range_eq_range', List.map_add_range', Nat.add_zero]]
  refine List.Perm.append_left _ ?_
  rw [List.map_congr_left (g := (fun x => k + x) ∘ fun x => n - k + x)]
  intro x _
  simp only [Function.comp]
  omega

theorem tensorOuter_pick (k : ℕ) (r s : List ℕ) (hk : k ≤ r.length) :
    pick (List.range k ++ (List.range s.length).map (r.length + ·) ++
      List.range' k (r.length - k)) (r ++ s) = r.take k ++ s ++ r.drop k := by
  rw [pick_append, pick_append, pick_append_left, pick_range _ _ hk, pick_map_add,
    pick_range _ _ le_rfl, List.take_length, pick_append_left, pick_range' _ _ _ (by omega)]
  · intro c hc; rw [List.mem_range'_1] at hc; omega
  · intro c hc; rw [List.mem_range] at hc; omega

theorem tensorOuter_shape {K : Type} [Mul K] (a b : Blk K) (k : ℕ) (hk : k ≤ a.shape.length) :
    (Blk.tensorOuter a b k).shape = a.shape.take k ++ b.shape ++ a.shape.drop k :=
  tensorOuter_pick k a.shape b.shape hk

theorem tensorOuter_val {K : Type} [Mul K] (a b : Blk K) (k : ℕ) (hk : k ≤ a.shape.length)
    (r s : List ℕ) (hr : r.length = a.shape.length) (hs : s.length = b.shape.length) :
    (Blk.tensorOuter a b k).val (r.take k ++ s ++ r.drop k) = a.val r * b.val s := by
  unfold Blk.tensorOuter
  simp only
  rw [← hr, ← hs, ← tensorOuter_pick k r s (by omega), permuteAxes_val]
  · show a.val (List.take a.shape.length (r ++ s)) * b.val (List.drop a.shape.length (r ++ s)) = _
    rw [← hr, List.take_left, List.drop_left]
  · rw [List.length_append]
    exact range_add_perm k s.length r.length (by omega)

/-! ## The grid of pairs -/

theorem gridC_two (m n : ℕ) :
    gridC [m, n] = (List.range m).flatMap fun i => (List.range n).map fun j => [i, j] := by
  simp only [gridC, List.map_cons, List.map_nil]
  congr 1
  funext i
  rw [List.map_flatMap]
  rw [← List.flatMap_pure_eq_map]
  rfl

theorem filterMap_range {α β : Type} (l : List α) (f : α → β) :
    (List.range l.length).filterMap (fun i => l[i]?.map f) = l.map f := by
  have h : (List.range l.length).map (fun i => l[i]?.map f) = (l.map f).map some := by
    refine List.ext_getElem? fun k => ?_
    simp only [List.getElem?_map]
    by_cases hk : k < l.length
    · simp [List.getElem?_range hk, List.getElem?_eq_getElem hk]
    · rw [List.getElem?_eq_none (by simpa using hk), List.getElem?_eq_none (by omega)]; rfl
  have h2 := congrArg (List.filterMap id) h
  rw [List.filterMap_map, List.filterMap_map] at h2
  simpa using h2

theorem flatMap_range {α β : Type} (l : List α) (f : α → List β) :
    (List.range l.length).flatMap (fun i => (l[i]?.map f).getD []) = l.flatMap f := by
  rw [List.flatMap_def, List.flatMap_def, ← filterMap_range l f]
  have : ∀ m : List ℕ, (∀ i ∈ m, i < l.length) →
      (m.map fun i => (l[i]?.map f).getD []) = m.filterMap fun i => l[i]?.map f := by
    intro m hm
    induction m with
    | nil => rfl
    | cons i m ih =>
      rw [List.map_cons, List.filterMap_cons, ih fun j hj => hm j (List.mem_cons_of_mem _ hj),
        List.getElem?_eq_getElem (hm i List.mem_cons_self)]
      rfl
  rw [this _ fun i hi => List.mem_range.1 hi]

theorem outerPair_grid {K β : Type} (a b : Ents K) (f : List ℕ × Blk K → List ℕ × Blk K → β) :
    (makeGrid [a.length, b.length] false).filterMap (outerPair a b f) =
      b.flatMap fun q => a.map fun p => f p q := by
  show ((gridC [b.length, a.length]).map List.reverse).filterMap (outerPair a b f) = _
  rw [gridC_two, List.map_flatMap, List.filterMap_flatMap]
  have inner : ∀ j : ℕ, (((List.range a.length).map fun i => [j, i]).map List.reverse).filterMap
      (outerPair a b f) = ((b[j]?).map fun q => a.map fun p => f p q).getD [] := by
    intro j
    rw [List.map_map, List.filterMap_map]
    cases hj : b[j]? with
    | none =>
      rw [List.filterMap_eq_nil_iff.2]
      · rfl
      · intro i hi
        show outerPair a b f [i, j] = none
        unfold outerPair
        simp [hj]
    | some q =>
      have : (outerPair a b f ∘ List.reverse ∘ fun i => [j, i]) =
          fun i => a[i]?.map fun p => f p q := by
        funext i
        show outerPair a b f [i, j] = _
        unfold outerPair
        simp only [List.getD_cons_zero, List.getD_cons_succ, hj, Option.map_some]
        cases a[i]? <;> rfl
      rw [this]
      simp only [Option.map_some, Option.getD_some]
      exact filterMap_range a _
  simp only [inner]
  exact flatMap_range b _

end Cyten.Abelian
