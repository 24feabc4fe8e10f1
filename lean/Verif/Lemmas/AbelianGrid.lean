import Verif.Model.AbelianGrid
import Verif.Props.DirectSum
import Verif.Props.AbelianDense
import Verif.Props.AbelianAlgebra
import Verif.Props.Legs

/-! Lemmas for `tensor_from_grid`. -/

namespace Cyten.Abelian
open Cyten.Tables Cyten.Tools Cyten.Spaces Cyten.Spaces.Spec Cyten.FusionTrees Cyten.Abelian.Spec
open Cyten.Props

variable {S K : Type}

/-! ### adding to a table -/

/-- the index into the added block -/
def bcast (v : Blk K) (sl : List (ℕ × ℕ)) (idx : List ℕ) : List ℕ :=
  List.zipWith (fun x (p : ℕ × ℕ × ℕ) => if p.1 = 1 then 0 else x - p.2.1) idx (v.shape.zip sl)

theorem addSlice_some [Add K] {res : Blk K} {sl : List (ℕ × ℕ)} {v b : Blk K}
    (h : res.addSlice sl v = some b) :
    b.shape = res.shape ∧ ∀ idx, b.val idx =
      if inSlices idx sl then res.val idx + v.val (bcast v sl idx) else res.val idx := by
  unfold Blk.addSlice at h
  split at h
  · cases h
    exact ⟨rfl, fun idx => rfl⟩
  · cases h

theorem addSlice_ok [Add K] (res : Blk K) (sl : List (ℕ × ℕ)) (v : Blk K)
    (h : v.shape = sl.map fun s => s.2 - s.1) : ∃ b, res.addSlice sl v = some b := by
  unfold Blk.addSlice
  rw [if_pos]
  · exact ⟨_, rfl⟩
  · refine ⟨by rw [h, List.length_map], ?_⟩
    rw [h]
    clear h
    induction sl with
    | nil => rfl
    | cons s sl ih => simp [ih]

theorem bcast_eq {v : Blk K} {sl : List (ℕ × ℕ)} (h : v.shape = sl.map fun s => s.2 - s.1)
    {idx : List ℕ} (hl : idx.length = sl.length) (hi : inSlices idx sl = true) :
    bcast v sl idx = List.zipWith (fun x (s : ℕ × ℕ) => x - s.1) idx sl := by
  unfold bcast
  rw [h]
  clear h
  induction sl generalizing idx with
  | nil => cases idx <;> simp at hl ⊢
  | cons s sl ih =>
    cases idx with
    | nil => simp at hl
    | cons x idx =>
      simp only [inSlices, Bool.and_eq_true, decide_eq_true_eq] at hi
      simp only [List.map_cons, List.zip_cons_cons, List.zipWith_cons_cons]
      rw [ih (by simpa using hl) hi.2]
      congr 1
      split <;> omega

section
variable [AddCommMonoid K] {row shape : List ℕ} {sl : List (ℕ × ℕ)} {v : Blk K}

theorem addAt_spec {T T' : Ents K} (h : addAt row shape sl v T = some T') :
    (∀ r pos, dense T' r pos = dense T r pos +
      if r = row ∧ inSlices pos sl = true then v.val (bcast v sl pos) else 0) ∧
    (∀ p ∈ T', (∃ q ∈ T, q.1 = p.1 ∧ q.2.shape = p.2.shape) ∨ (p.1 = row ∧ p.2.shape = shape)) ∧
    ((T.map Prod.fst).Nodup → (T'.map Prod.fst).Nodup) ∧
    (∀ p ∈ T', p.1 ∈ T.map Prod.fst ∨ p.1 = row) := by
  induction T generalizing T' with
  | nil =>
    simp only [addAt, Option.map_eq_some_iff] at h
    obtain ⟨b, hb, rfl⟩ := h
    obtain ⟨h1, h2⟩ := addSlice_some hb
    refine ⟨fun r pos => ?_, fun p hp => ?_, fun _ => by simp, fun p hp => ?_⟩
    · simp only [dense, List.map_cons, List.map_nil, List.sum_cons, List.sum_nil, add_zero, zero_add]
      rw [h2]
      by_cases hr : row = r
      · rw [if_pos hr]
        by_cases hs : inSlices pos sl = true
        · rw [if_pos hs, if_pos ⟨hr.symm, hs⟩]
          show 0 + _ = _
          rw [zero_add]
        · rw [if_neg hs, if_neg (fun hc => hs hc.2)]
          rfl
      · rw [if_neg hr, if_neg (fun hc => hr hc.1.symm)]
    · rw [List.mem_singleton.1 hp]
      exact Or.inr ⟨rfl, h1⟩
    · rw [List.mem_singleton.1 hp]
      exact Or.inr rfl
  | cons q T ih =>
    rw [addAt] at h
    by_cases hq : q.1 = row
    · rw [if_pos hq, Option.map_eq_some_iff] at h
      obtain ⟨b, hb, rfl⟩ := h
      obtain ⟨h1, h2⟩ := addSlice_some hb
      refine ⟨fun r pos => ?_, fun p hp => ?_, fun hn => by simpa using hn, fun p hp => ?_⟩
      · simp only [dense, List.map_cons, List.sum_cons]
        rw [h2]
        by_cases hr : q.1 = r
        · rw [if_pos hr, if_pos hr]
          by_cases hs : inSlices pos sl = true
          · rw [if_pos hs, if_pos ⟨by rw [← hr, hq], hs⟩]
            abel
          · rw [if_neg hs, if_neg (fun hc => hs hc.2), add_zero]
        · rw [if_neg hr, if_neg hr, if_neg (fun hc => hr (by rw [hc.1, hq])), add_zero]
      · rcases List.mem_cons.1 hp with rfl | hp
        · exact Or.inl ⟨q, List.mem_cons_self, rfl, h1.symm⟩
        · exact Or.inl ⟨p, List.mem_cons_of_mem _ hp, rfl, rfl⟩
      · rcases List.mem_cons.1 hp with rfl | hp
        · exact Or.inr hq
        · exact Or.inl (List.mem_map.2 ⟨p, List.mem_cons_of_mem _ hp, rfl⟩)
    · rw [if_neg hq, Option.map_eq_some_iff] at h
      obtain ⟨U, hU, rfl⟩ := h
      obtain ⟨i1, i2, i3, i4⟩ := ih hU
      refine ⟨fun r pos => ?_, fun p hp => ?_, fun hn => ?_, fun p hp => ?_⟩
      · simp only [dense, List.map_cons, List.sum_cons]
        have := i1 r pos
        simp only [dense] at this
        rw [this, add_assoc]
      · rcases List.mem_cons.1 hp with rfl | hp
        · exact Or.inl ⟨p, List.mem_cons_self, rfl, rfl⟩
        · rcases i2 p hp with ⟨q', hq', h⟩ | h
          · exact Or.inl ⟨q', List.mem_cons_of_mem _ hq', h⟩
          · exact Or.inr h
      · rw [List.map_cons] at hn ⊢
        obtain ⟨n1, n2⟩ := List.nodup_cons.1 hn
        refine List.nodup_cons.2 ⟨?_, i3 n2⟩
        intro hm
        obtain ⟨p, hp, hpq⟩ := List.mem_map.1 hm
        rcases i4 p hp with h | h
        · exact n1 (by rw [← hpq]; exact h)
        · exact hq (by rw [← hpq]; exact h)
      · rcases List.mem_cons.1 hp with rfl | hp
        · exact Or.inl List.mem_cons_self
        · rcases i4 p hp with h | h
          · exact Or.inl (List.mem_cons_of_mem _ h)
          · exact Or.inr h

theorem addAt_ok (T : Ents K) (h : v.shape = sl.map fun s => s.2 - s.1) :
    ∃ T', addAt row shape sl v T = some T' := by
  induction T with
  | nil =>
    obtain ⟨b, hb⟩ := addSlice_ok (Blk.zeros shape) sl v h
    exact ⟨_, by rw [addAt, hb]; rfl⟩
  | cons q T ih =>
    rw [addAt]
    split
    · obtain ⟨b, hb⟩ := addSlice_ok q.2 sl v h
      exact ⟨_, by rw [hb]; rfl⟩
    · obtain ⟨T', hT'⟩ := ih
      exact ⟨_, by rw [hT']; rfl⟩

end

/-! ### the loop -/

section
variable [DecidableEq S] [AddCommMonoid K] (sym : Sym S) (cod dom : List (ESpace S))
  (left right : ESpace S) (lsl rsl : List (List ℕ))

/-- What a round of the loop does: `row`, `sl` and the added block. -/
structure Placed (cod dom : List (ESpace S)) (it : GItem S K) (row : List ℕ) (sl : List (ℕ × ℕ)) : Prop where
  step : ∀ acc, gridStep sym cod dom left right lsl rsl it acc =
    addAt row (rowShape ((legOrder cod dom).map (toBLeg sym)) row) sl it.blk acc
  shape : it.blk.shape = sl.map fun s => s.2 - s.1

theorem gridLoop_spec (items : List (GItem S K)) (place : GItem S K → List ℕ × List (ℕ × ℕ))
    (hp : ∀ it ∈ items, Placed sym left right lsl rsl cod dom it (place it).1 (place it).2)
    (acc : Ents K) :
    ∃ T, gridLoop sym cod dom left right lsl rsl items acc = some T ∧
      (∀ r pos, dense T r pos = dense acc r pos + (items.map fun it =>
        if r = (place it).1 ∧ inSlices pos (place it).2 = true then
          it.blk.val (bcast it.blk (place it).2 pos) else 0).sum) ∧
      (∀ p ∈ T, (∃ q ∈ acc, q.1 = p.1 ∧ q.2.shape = p.2.shape) ∨ ∃ it ∈ items, p.1 = (place it).1 ∧
        p.2.shape = rowShape ((legOrder cod dom).map (toBLeg sym)) p.1) ∧
      ((acc.map Prod.fst).Nodup → (T.map Prod.fst).Nodup) := by
  induction items generalizing acc with
  | nil =>
    refine ⟨acc, rfl, fun r pos => by simp, fun p hp => Or.inl ⟨p, hp, rfl, rfl⟩, id⟩
  | cons it items ih =>
    obtain ⟨h1, h2⟩ := hp it List.mem_cons_self
    obtain ⟨T1, hT1⟩ := addAt_ok (row := (place it).1)
      (shape := rowShape ((legOrder cod dom).map (toBLeg sym)) (place it).1) acc h2
    obtain ⟨a1, a2, a3, -⟩ := addAt_spec hT1
    obtain ⟨T, hT, t1, t2, t3⟩ := ih (fun x hx => hp x (List.mem_cons_of_mem _ hx)) T1
    refine ⟨T, ?_, fun r pos => ?_, fun p hp' => ?_, fun hn => t3 (a3 hn)⟩
    · rw [gridLoop, h1, hT1]
      exact hT
    · rw [t1, a1, List.map_cons, List.sum_cons, add_assoc]
    · rcases t2 p hp' with ⟨q, hq, e1, e2⟩ | ⟨x, hx, e⟩
      · rcases a2 q hq with ⟨q', hq', e3, e4⟩ | ⟨e3, e4⟩
        · exact Or.inl ⟨q', hq', e3.trans e1, e4.trans e2⟩
        · exact Or.inr ⟨it, List.mem_cons_self, by rw [← e1, e3], by rw [← e2, e4, ← e1, e3]⟩
      · exact Or.inr ⟨x, List.mem_cons_of_mem _ hx, e⟩

end

/-! ### sums over the grid -/

theorem sum_zipIdx_single {α : Type} [AddCommMonoid K] (l : List α) (f : α × ℕ → K) (n i : ℕ) (x : α)
    (hx : l[i]? = some x) (h0 : ∀ y k, k ≠ n + i → f (y, k) = 0) :
    ((l.zipIdx n).map f).sum = f (x, n + i) := by
  induction l generalizing n i with
  | nil => simp at hx
  | cons y l ih =>
    rw [List.zipIdx_cons, List.map_cons, List.sum_cons]
    cases i with
    | zero =>
      simp only [List.getElem?_cons_zero, Option.some.injEq] at hx
      subst hx
      have : ((l.zipIdx (n + 1)).map f).sum = 0 := by
        apply List.sum_eq_zero
        intro v hv
        obtain ⟨⟨z, k⟩, hz, rfl⟩ := List.mem_map.1 hv
        refine h0 z k ?_
        have := (List.mem_zipIdx hz).1
        omega
      rw [this, add_zero]
      rfl
    | succ i =>
      rw [List.getElem?_cons_succ] at hx
      rw [h0 y n (by omega), zero_add, ih (n + 1) i hx fun y k hk => h0 y k (by omega)]
      congr 2
      omega

theorem sum_map_flatMap {α β : Type} [AddCommMonoid K] (l : List α) (g : α → List β) (f : β → K) :
    ((l.flatMap g).map f).sum = (l.map fun x => ((g x).map f).sum).sum := by
  induction l with
  | nil => rfl
  | cons x l ih => rw [List.flatMap_cons, List.map_append, List.sum_append, ih, List.map_cons,
      List.sum_cons]

/-- A sum over all blocks of the grid in which only the tensor at the place `(i, j)` contributes. -/
theorem sum_gridItems [AddCommMonoid K] {L : Type} [AddCommMonoid L]
    (grid : List (List (Option (GTensor S K)))) (i j : ℕ)
    (row : List (Option (GTensor S K))) (o : Option (GTensor S K)) (hi : grid[i]? = some row)
    (hj : row[j]? = some o) (f : GItem S K → L)
    (h0 : ∀ it ∈ gridItems grid, ¬ (it.i = i ∧ it.j = j) → f it = 0) :
    ((gridItems grid).map f).sum = match o with
      | none => 0
      | some op => (op.data.map fun p => f ⟨i, j, op, p.1, p.2⟩).sum := by
  -- make the function vanish everywhere else
  set f' : GItem S K → L := fun it => if it.i = i ∧ it.j = j then f it else 0 with hf'
  have e0 : (gridItems grid).map f = (gridItems grid).map f' := by
    apply List.map_congr_left
    intro it hit
    by_cases h : it.i = i ∧ it.j = j
    · simp [hf', h]
    · rw [h0 it hit h]; simp [hf', h]
  rw [e0]
  unfold gridItems
  rw [sum_map_flatMap, sum_zipIdx_single grid _ 0 i row hi]
  · rw [sum_map_flatMap, sum_zipIdx_single row _ 0 j o hj]
    · cases o with
      | none => rfl
      | some op => simp [hf', Function.comp_def]
    · intro y k hk
      cases y with
      | none => rfl
      | some op =>
        apply List.sum_eq_zero
        intro v hv
        obtain ⟨it, hit, rfl⟩ := List.mem_map.1 hv
        obtain ⟨p, -, rfl⟩ := List.mem_map.1 hit
        rw [hf']
        exact if_neg (fun h => hk (by simpa using h.2))
  · intro y k hk
    rw [sum_map_flatMap]
    apply List.sum_eq_zero
    intro v hv
    obtain ⟨⟨z, m⟩, -, rfl⟩ := List.mem_map.1 hv
    cases z with
    | none => rfl
    | some op =>
      apply List.sum_eq_zero
      intro v hv
      obtain ⟨it, hit, rfl⟩ := List.mem_map.1 hv
      obtain ⟨p, -, rfl⟩ := List.mem_map.1 hit
      rw [hf']
      exact if_neg (fun h => hk (by simpa using h.1))

theorem mem_gridItems {grid : List (List (Option (GTensor S K)))} {it : GItem S K}
    (h : it ∈ gridItems grid) : ∃ row, grid[it.i]? = some row ∧ row[it.j]? = some (some it.op) ∧
      (it.row, it.blk) ∈ it.op.data := by
  unfold gridItems at h
  obtain ⟨⟨row, i⟩, hr, h⟩ := List.mem_flatMap.1 h
  obtain ⟨⟨o, j⟩, ho, h⟩ := List.mem_flatMap.1 h
  cases o with
  | none => simp at h
  | some op =>
    obtain ⟨p, hp, rfl⟩ := List.mem_map.1 h
    exact ⟨row, mem_zipIdx' hr, mem_zipIdx' ho, hp⟩

end Cyten.Abelian
