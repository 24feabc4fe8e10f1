import Verif.Lemmas.AbelianReshape
import Verif.Lemmas.AbelianExample
import Mathlib.Data.Rat.Defs

/-!
# C46: trivial legs, outer products, identities and traces of the abelian backend

The specification is in `Verif.Spec.AbelianData`: `dense T row pos` is the entry of the tensor at the
basis vector with sector numbers `row` and numbers `pos` within the sectors.
-/

namespace Cyten.Props
open Cyten.Abelian Cyten.Abelian.Spec Cyten.Tables Cyten.Tools Cyten.ListSum

variable {K : Type}

/-! ## Trivial legs -/

theorem insertIdx_inj {α : Type} {r s : List α} {k : ℕ} {x : α} (hr : k ≤ r.length)
    (hs : k ≤ s.length) (h : r.insertIdx k x = s.insertIdx k x) : r = s := by
  have := congrArg (fun l => l.eraseIdx k) h
  simpa [List.eraseIdx_insertIdx_self] using this

theorem forall₂_insertIdx {α β : Type} {R : α → β → Prop} {r : List α} {s : List β} {x : α} {y : β}
    (h : List.Forall₂ R r s) (hxy : R x y) (k : ℕ) (hk : k ≤ r.length) :
    List.Forall₂ R (r.insertIdx k x) (s.insertIdx k y) := by
  induction k generalizing r s with
  | zero => exact List.Forall₂.cons hxy h
  | succ k ih =>
    cases h with
    | nil => simp at hk
    | cons h1 h2 => exact List.Forall₂.cons h1 (ih h2 (by simpa using hk))

theorem zipWith_insertIdx {α β γ : Type} (f : α → β → γ) (r : List α) (s : List β) (x : α) (y : β)
    (k : ℕ) (hl : r.length = s.length) (hk : k ≤ r.length) :
    List.zipWith f (r.insertIdx k x) (s.insertIdx k y) = (List.zipWith f r s).insertIdx k (f x y) := by
  induction k generalizing r s with
  | zero => rfl
  | succ k ih =>
    cases r with
    | nil => simp at hk
    | cons a r =>
      cases s with
      | nil => simp at hl
      | cons b s =>
        simp only [List.insertIdx_succ_cons, List.zipWith_cons_cons]
        rw [ih r s (by simpa using hl) (by simpa using hk)]

theorem insertIdx_lex {r s : List ℕ} (hl : r.length = s.length) (h : r < s) (x k : ℕ) :
    r.insertIdx k x < s.insertIdx k x := by
  induction k generalizing r s with
  | zero => exact List.Lex.cons h
  | succ k ih =>
    cases r with
    | nil => cases s with
      | nil => exact absurd h (lt_irrefl _)
      | cons => simp at hl
    | cons a r => cases s with
      | nil => simp at hl
      | cons b s =>
        simp only [List.insertIdx_succ_cons]
        rcases List.cons_lt_cons_iff.1 h with h | ⟨h1, h2⟩
        · exact List.Lex.rel h
        · subst h1; exact List.Lex.cons (ih (by simpa using hl) h2)

theorem insertIdx_append {α : Type} (l m : List α) (k : ℕ) (x : α) (hk : k ≤ l.length) :
    (l ++ m).insertIdx k x = l.insertIdx k x ++ m := by
  induction k generalizing l with
  | zero => rfl
  | succ k ih =>
    cases l with
    | nil => simp at hk
    | cons a l =>
      simp only [List.cons_append, List.insertIdx_succ_cons]
      rw [ih l (by simpa using hk)]

theorem lt_append_of_lt {r s : List ℕ} (hl : r.length = s.length) (h : r < s) (u v : List ℕ) :
    r ++ u < s ++ v := by
  induction r generalizing s with
  | nil =>
    cases s with
    | nil => exact absurd h (lt_irrefl _)
    | cons => simp at hl
  | cons a r ih =>
    cases s with
    | nil => simp at hl
    | cons b s =>
      rcases List.cons_lt_cons_iff.1 h with h | ⟨h1, h2⟩
      · exact List.Lex.rel h
      · subst h1; exact List.Lex.cons (ih (by simpa using hl) h2)

theorem reverse_insertIdx {α : Type} (l : List α) (k : ℕ) (x : α) (hk : k ≤ l.length) :
    (l.insertIdx k x).reverse = l.reverse.insertIdx (l.length - k) x := by
  induction k generalizing l with
  | zero =>
    simp only [List.insertIdx_zero, List.reverse_cons, Nat.sub_zero]
    rw [← List.length_reverse, List.insertIdx_length_self]
  | succ k ih =>
    cases l with
    | nil => simp at hk
    | cons a l =>
      simp only [List.insertIdx_succ_cons, List.reverse_cons, List.length_cons]
      rw [ih l (by simpa using hk), Nat.add_sub_add_right]
      rw [insertIdx_append _ _ _ _ (by simp)]

/-- **C46**: inserting a trivial leg does not change the entries. -/
theorem C46_add_trivial_leg [AddCommMonoid K] (M : List (List ℕ)) (T : Ents K) (hT : Sane M T)
    (k : ℕ) (hk : k ≤ M.length) (row pos : List ℕ) (hr : row.length = M.length) :
    dense (addTrivialLeg T k) (row.insertIdx k 0) (pos.insertIdx k 0) = dense T row pos := by
  unfold addTrivialLeg
  rw [dense_mkData]
  unfold dense
  rw [List.map_map]
  refine sum_congr _ fun p hp => ?_
  simp only [Function.comp]
  by_cases h : p.1 = row
  · rw [if_pos (by rw [h]), if_pos h]
    show p.2.val ((pos.insertIdx k 0).eraseIdx k) = _
    rw [List.eraseIdx_insertIdx_self]
  · rw [if_neg h, if_neg fun he => h (insertIdx_inj (by rw [hT.rowLength hp]; exact hk)
      (by rw [hr]; exact hk) he)]

/-- **C41**: inserting a trivial leg (one sector of multiplicity one) keeps the data consistent. -/
theorem C41_add_trivial_leg (M : List (List ℕ)) (T : Ents K) (hT : Sane M T)
    (k : ℕ) (hk : k ≤ M.length) : Sane (M.insertIdx k [1]) (addTrivialLeg T k) := by
  have hmem : ∀ p ∈ T.map fun p => (p.1.insertIdx k 0, p.2.addAxis k),
      InShape p.1 ((M.insertIdx k [1]).map List.length) ∧ p.2.shape = shapeOf (M.insertIdx k [1]) p.1 := by
    intro p hp
    obtain ⟨q, hq, rfl⟩ := List.mem_map.1 hp
    have hl := hT.rowLength hq
    refine ⟨?_, ?_⟩
    · rw [List.map_insertIdx]
      exact forall₂_insertIdx (hT.inRange q hq) (by simp) k (by omega)
    · show q.2.shape.insertIdx k 1 = _
      unfold shapeOf
      rw [zipWith_insertIdx _ _ _ _ _ _ hl.symm hk, hT.shapes q hq]
      rfl
  refine ⟨fun p hp => (hmem p hp).1, fun p hp => (hmem p hp).2, ?_⟩
  show StrictlySorted ((T.map fun p => (p.1.insertIdx k 0, p.2.addAxis k)).map Prod.fst)
  rw [List.map_map]
  unfold StrictlySorted
  rw [List.pairwise_map]
  refine hT.keySorted.imp_of_mem fun {p q} hp hq hpq => ?_
  have lp := hT.rowLength hp
  have lq := hT.rowLength hq
  show RowLt (p.1.insertIdx k 0) (q.1.insertIdx k 0)
  rw [rowLt_key (n := M.length + 1) (by rw [List.length_insertIdx, if_pos (by omega), lp])
    (by rw [List.length_insertIdx, if_pos (by omega), lq]),
    reverse_insertIdx _ _ _ (by omega), reverse_insertIdx _ _ _ (by omega), lp, lq]
  exact insertIdx_lex (by simp [lp, lq]) hpq _ _

/-! ## Outer products -/

theorem dense_flatMap [NonUnitalNonAssocSemiring K] (a b : Ents K) (row pos ra pa rb pb : List ℕ)
    (f : List ℕ × Blk K → List ℕ × Blk K → List ℕ × Blk K)
    (hf : ∀ p ∈ a, ∀ q ∈ b, (if (f p q).1 = row then (f p q).2.val pos else 0) =
      (if p.1 = ra then p.2.val pa else 0) * (if q.1 = rb then q.2.val pb else 0)) :
    dense (b.flatMap fun q => a.map fun p => f p q) row pos = dense a ra pa * dense b rb pb := by
  unfold dense
  rw [sum_flatMap, sum_mul_sum, sum_comm]
  refine sum_congr _ fun q hq => ?_
  rw [List.map_map]
  exact sum_congr _ fun p hp => hf p hp q hq

/-- **C46**: the dense representation of `outer(a, b)`, whose legs are the codomain legs of `a` (the
first `k` ones), the legs of `b`, the domain legs of `a`. -/
theorem C46_outer [NonUnitalNonAssocSemiring K] (Ma Mb : List (List ℕ)) (a b : Ents K)
    (ha : Sane Ma a) (hb : Sane Mb b) (k : ℕ) (hk : k ≤ Ma.length) (ra pa rb pb : List ℕ)
    (hra : ra.length = Ma.length) (hpa : pa.length = Ma.length)
    (hrb : rb.length = Mb.length) (hpb : pb.length = Mb.length) :
    dense (Abelian.outer a b k) (ra.take k ++ rb ++ ra.drop k) (pa.take k ++ pb ++ pa.drop k) =
      dense a ra pa * dense b rb pb := by
  unfold Abelian.outer
  rw [dense_mkData, outerPair_grid]
  refine dense_flatMap a b _ _ ra pa rb pb _ fun p hp q hq => ?_
  have lp := ha.rowLength hp
  have lq := hb.rowLength hq
  have sp : p.2.shape.length = Ma.length := by rw [ha.shapes p hp, length_shapeOf _ _ lp]
  have sq : q.2.shape.length = Mb.length := by rw [hb.shapes q hq, length_shapeOf _ _ lq]
  have hiff : p.1.take k ++ q.1 ++ p.1.drop k = ra.take k ++ rb ++ ra.drop k ↔
      p.1 = ra ∧ q.1 = rb := by
    constructor
    · intro h
      obtain ⟨h1, h3⟩ := List.append_inj h (by simp [lp, hra, lq, hrb])
      obtain ⟨h1, h2⟩ := List.append_inj h1 (by simp [lp, hra])
      exact ⟨by rw [← List.take_append_drop k p.1, h1, h3, List.take_append_drop], h2⟩
    · rintro ⟨rfl, rfl⟩; rfl
  by_cases h : p.1 = ra ∧ q.1 = rb
  · rw [if_pos (hiff.2 h), if_pos h.1, if_pos h.2]
    exact tensorOuter_val _ _ _ (by omega) _ _ (by omega) (by omega)
  · rw [if_neg fun he => h (hiff.1 he)]
    by_cases h1 : p.1 = ra
    · rw [if_neg fun h2 => h ⟨h1, h2⟩, mul_zero]
    · rw [if_neg h1, zero_mul]

theorem shapeOf_append (M N : List (List ℕ)) (r s : List ℕ) (h : r.length = M.length) :
    shapeOf (M ++ N) (r ++ s) = shapeOf M r ++ shapeOf N s := by
  unfold shapeOf
  exact List.zipWith_append h.symm

theorem take_shapeOf (M : List (List ℕ)) (r : List ℕ) (k : ℕ) :
    (shapeOf M r).take k = shapeOf (M.take k) (r.take k) := List.take_zipWith

theorem drop_shapeOf (M : List (List ℕ)) (r : List ℕ) (k : ℕ) :
    (shapeOf M r).drop k = shapeOf (M.drop k) (r.drop k) := List.drop_zipWith

/-- **C41**: `outer` gives consistent data. -/
theorem C41_outer [Mul K] (Ma Mb : List (List ℕ)) (a b : Ents K)
    (ha : Sane Ma a) (hb : Sane Mb b) (k : ℕ) (hk : k ≤ Ma.length) :
    Sane (Ma.take k ++ Mb ++ Ma.drop k) (Abelian.outer a b k) := by
  unfold Abelian.outer
  rw [outerPair_grid]
  refine sane_mkData ?_ ?_ ?_
  · intro d hd
    obtain ⟨q, hq, hd⟩ := List.mem_flatMap.1 hd
    obtain ⟨p, hp, rfl⟩ := List.mem_map.1 hd
    rw [List.map_append, List.map_append, List.map_take, List.map_drop]
    exact inShape_append (inShape_append (inShape_take (ha.inRange p hp) k) (hb.inRange q hq))
      (inShape_drop (ha.inRange p hp) k)
  · intro d hd
    obtain ⟨q, hq, hd⟩ := List.mem_flatMap.1 hd
    obtain ⟨p, hp, rfl⟩ := List.mem_map.1 hd
    have lp := ha.rowLength hp
    have lq := hb.rowLength hq
    show (Blk.tensorOuter p.2 q.2 k).shape = _
    rw [tensorOuter_shape _ _ _ (by rw [ha.shapes p hp, length_shapeOf _ _ lp]; exact hk),
      ha.shapes p hp, hb.shapes q hq, shapeOf_append _ _ _ _ (by simp [lp, lq]),
      shapeOf_append _ _ _ _ (by simp [lp]), take_shapeOf, drop_shapeOf]
  · rw [List.map_flatMap]
    have hnb := List.Nodup.of_map _ hb.nodup
    have hna := List.Nodup.of_map _ ha.nodup
    have inj : ∀ p ∈ a, ∀ q ∈ b, ∀ p' ∈ a, ∀ q' ∈ b,
        p.1.take k ++ q.1 ++ p.1.drop k = p'.1.take k ++ q'.1 ++ p'.1.drop k → p = p' ∧ q = q' := by
      intro p hp q hq p' hp' q' hq' h
      have l1 := ha.rowLength hp
      have l2 := ha.rowLength hp'
      have l3 := hb.rowLength hq
      have l4 := hb.rowLength hq'
      obtain ⟨h1, h3⟩ := List.append_inj h (by simp [l1, l2, l3, l4])
      obtain ⟨h1, h2⟩ := List.append_inj h1 (by simp [l1, l2])
      exact ⟨ha.eq_of_fst hp hp' (by
        rw [← List.take_append_drop k p.1, h1, h3, List.take_append_drop]), hb.eq_of_fst hq hq' h2⟩
    rw [List.nodup_flatMap]
    refine ⟨fun q hq => ?_, ?_⟩
    · rw [List.map_map]
      refine List.Nodup.map_on (fun p hp p' hp' h => ?_) hna
      exact (inj p hp q hq p' hp' q hq h).1
    · refine hnb.imp_of_mem fun {q q'} hq hq' hne => ?_
      intro x hx hx'
      obtain ⟨_, hx2, rfl⟩ := List.mem_map.1 hx
      obtain ⟨p, hp, rfl⟩ := List.mem_map.1 hx2
      obtain ⟨_, hx3, he⟩ := List.mem_map.1 hx'
      obtain ⟨p', hp', rfl⟩ := List.mem_map.1 hx3
      exact hne (inj p' hp' q' hq' p hp q hq he).2.symm

/-- **C33**: composition without contracted legs is the product of the entries. -/
theorem C33_compose_no_contraction [NonUnitalNonAssocSemiring K] (Ma Mb : List (List ℕ))
    (a b : Ents K) (ha : Sane Ma a) (ra pa rb pb : List ℕ)
    (hra : ra.length = Ma.length) (hpa : pa.length = Ma.length) :
    dense (composeNoContraction a b) (ra ++ rb) (pa ++ pb) = dense a ra pa * dense b rb pb := by
  unfold composeNoContraction
  rw [dense_mkData, outerPair_grid]
  refine dense_flatMap a b _ _ ra pa rb pb _ fun p hp q hq => ?_
  have lp := ha.rowLength hp
  have sp : p.2.shape.length = Ma.length := by rw [ha.shapes p hp, length_shapeOf _ _ lp]
  by_cases h : p.1 = ra ∧ q.1 = rb
  · rw [if_pos (by rw [h.1, h.2]), if_pos h.1, if_pos h.2]
    show p.2.val ((pa ++ pb).take p.2.shape.length) * q.2.val ((pa ++ pb).drop p.2.shape.length) = _
    rw [sp, ← hpa, List.take_left, List.drop_left]
  · rw [if_neg fun he => h (List.append_inj he (by rw [lp, hra]))]
    by_cases h1 : p.1 = ra
    · rw [if_neg fun h2 => h ⟨h1, h2⟩, mul_zero]
    · rw [if_neg h1, zero_mul]

/-- **C41**: the table of a composition without contraction is in order although it is not sorted
again. -/
theorem C41_compose_no_contraction [Mul K] (Ma Mb : List (List ℕ)) (a b : Ents K)
    (ha : Sane Ma a) (hb : Sane Mb b) : Sane (Ma ++ Mb) (composeNoContraction a b) := by
  unfold composeNoContraction
  rw [outerPair_grid]
  have hmem : ∀ d ∈ b.flatMap fun q => a.map fun p => (p.1 ++ q.1, Blk.outer p.2 q.2),
      InShape d.1 ((Ma ++ Mb).map List.length) ∧ d.2.shape = shapeOf (Ma ++ Mb) d.1 := by
    intro d hd
    obtain ⟨q, hq, hd⟩ := List.mem_flatMap.1 hd
    obtain ⟨p, hp, rfl⟩ := List.mem_map.1 hd
    refine ⟨?_, ?_⟩
    · rw [List.map_append]
      exact inShape_append (ha.inRange p hp) (hb.inRange q hq)
    · show p.2.shape ++ q.2.shape = _
      rw [ha.shapes p hp, hb.shapes q hq, shapeOf_append _ _ _ _ (ha.rowLength hp)]
  refine ⟨fun d hd => (hmem d hd).1, fun d hd => (hmem d hd).2, ?_⟩
  show StrictlySorted ((b.flatMap fun q => a.map fun p => (p.1 ++ q.1, Blk.outer p.2 q.2)).map
    Prod.fst)
  unfold StrictlySorted
  rw [List.pairwise_map, List.pairwise_flatMap]
  refine ⟨fun q hq => ?_, ?_⟩
  · rw [List.pairwise_map]
    refine ha.keySorted.imp_of_mem fun {p p'} hp hp' h => ?_
    rw [rowLt_key (n := Ma.length + Mb.length) (by simp [ha.rowLength hp, hb.rowLength hq])
      (by simp [ha.rowLength hp', hb.rowLength hq])]
    show (p.1 ++ q.1).reverse < (p'.1 ++ q.1).reverse
    rw [List.reverse_append, List.reverse_append]
    exact List.append_left_lt h
  · refine hb.keySorted.imp_of_mem fun {q q'} hq hq' h => ?_
    intro x hx y hy
    obtain ⟨p, hp, rfl⟩ := List.mem_map.1 hx
    obtain ⟨p', hp', rfl⟩ := List.mem_map.1 hy
    rw [rowLt_key (n := Ma.length + Mb.length) (by simp [ha.rowLength hp, hb.rowLength hq])
      (by simp [ha.rowLength hp', hb.rowLength hq'])]
    show (p.1 ++ q.1).reverse < (p'.1 ++ q'.1).reverse
    rw [List.reverse_append, List.reverse_append]
    have hl : q.1.reverse.length = q'.1.reverse.length := by
      simp [hb.rowLength hq, hb.rowLength hq']
    exact lt_append_of_lt hl h _ _

/-! ## Identity -/

theorem pick_eye (x y : List ℕ) (h : x.length = y.length) :
    pick (List.range x.length ++ (List.range x.length).reverse.map (x.length + ·)) (x ++ y) =
      x ++ y.reverse := by
  rw [pick_append, pick_append_left _ _ _ (by simp), pick_range _ _ le_rfl, List.take_length,
    pick_map_add, h, pick_reverse_range]

theorem eye_perm (n : ℕ) :
    (List.range n ++ (List.range n).reverse.map (n + ·)).Perm (List.range (n + n)) := by
  rw [List.range_add]
  exact List.Perm.append_left _ ((List.reverse_perm _).map _)

theorem eyeBlock_shape [Zero K] [One K] (legs : List ℕ) :
    (Blk.eyeBlock legs : Blk K).shape = legs ++ legs.reverse := pick_eye legs legs rfl

theorem eyeBlock_val [Zero K] [One K] (legs x y : List ℕ) (hx : InShape x legs)
    (hy : InShape y legs) :
    (Blk.eyeBlock legs : Blk K).val (x ++ y.reverse) = if x = y then 1 else 0 := by
  unfold Blk.eyeBlock
  simp only
  have hl := hx.length
  rw [← pick_eye x y (by rw [hl, hy.length]), ← hl, permuteAxes_val _ _ _ (by
    rw [List.length_append, hy.length, ← hl]; exact eye_perm _)]
  rw [reshape_val _ _ _ [packRow (makeStride legs true) x, packRow (makeStride legs true) y]]
  · show (if packRow (makeStride legs true) x = packRow (makeStride legs true) y then (1 : K) else 0)
      = _
    by_cases h : x = y
    · rw [if_pos h, if_pos (by rw [h])]
    · rw [if_neg h, if_neg fun he => h (pack_injective hx hy he)]
  · exact List.Forall₂.cons (packRow_lt hx) (List.Forall₂.cons (packRow_lt hy) List.Forall₂.nil)
  · rw [packC_append _ _ _ _ hl]
    exact (packC_two _ _ _ _).symm

/-- **C46**: `eye_data` is the identity map: for basis vectors `(rc, pc)` of the codomain and
`(rd, pd)` of the domain (same legs, in reversed order) the entry is one if they are equal and zero
otherwise. -/
theorem C46_eye [NonAssocSemiring K] (M : List (List ℕ)) (rc pc rd pd : List ℕ)
    (hc : IsIndex M rc pc) (hd : IsIndex M rd pd) :
    dense (eyeData M : Ents K) (rc ++ rd.reverse) (pc ++ pd.reverse) =
      if rc = rd ∧ pc = pd then 1 else 0 := by
  have lc : rc.length = M.length := by simpa using hc.1.length
  have ld : rd.length = M.length := by simpa using hd.1.length
  unfold eyeData
  rw [dense_mkData]
  unfold dense gridF
  rw [List.map_map, List.map_map, List.map_reverse, List.reverse_reverse]
  have : ((gridC (M.map List.length)).map ((fun p : List ℕ × Blk K =>
      if p.1 = rc ++ rd.reverse then p.2.val (pc ++ pd.reverse) else 0) ∘ (fun dom =>
        (dom.reverse ++ dom, Blk.eyeBlock (List.zipWith (fun (m : List ℕ) i => m.getD i 0) M
          ((dom.reverse ++ dom).take M.length)))) ∘ List.reverse)) =
      (gridC (M.map List.length)).map fun x => if rc = x then
        (if rc = rd then (Blk.eyeBlock (shapeOf M x) : Blk K).val (pc ++ pd.reverse) else 0) else 0 := by
    refine List.map_congr_left fun x hx => ?_
    have lx : x.length = M.length := by simpa using ((mem_gridC _ _).1 hx).length
    simp only [Function.comp, List.reverse_reverse]
    rw [← lx, List.take_left]
    by_cases h : rc = x
    · subst h
      by_cases h2 : rc = rd
      · rw [if_pos (by rw [h2]), if_pos rfl, if_pos h2]; rfl
      · rw [if_neg, if_pos rfl, if_neg h2]
        intro he
        exact h2 (List.reverse_injective (List.append_cancel_left he))
    · rw [if_neg h, if_neg]
      intro he
      exact h (List.append_inj he (by rw [lx, lc])).1.symm
  refine (congrArg List.sum this).trans ?_
  rw [sum_single _ (nodup_gridC _) rc fun x => if rc = rd then
    (Blk.eyeBlock (shapeOf M x) : Blk K).val (pc ++ pd.reverse) else 0,
    if_pos ((mem_gridC _ _).2 hc.1)]
  by_cases h : rc = rd
  · rw [if_pos h, eyeBlock_val _ _ _ hc.2 (h ▸ hd.2)]
    by_cases h2 : pc = pd
    · rw [if_pos h2, if_pos ⟨h, h2⟩]
    · rw [if_neg h2, if_neg fun h => h2 h.2]
  · rw [if_neg h, if_neg fun h' => h h'.1]

/-- **C41**: the table of `eye_data` is in order although it is not sorted. -/
theorem C41_eye [Zero K] [One K] (M : List (List ℕ)) : Sane (M ++ M.reverse) (eyeData M : Ents K) := by
  have hmem : ∀ d ∈ (eyeData M : Ents K), ∃ x, InShape x (M.map List.length) ∧ d.1 = x ++ x.reverse ∧
      d.2.shape = shapeOf M x ++ (shapeOf M x).reverse := by
    intro d hd
    unfold eyeData at hd
    obtain ⟨dom, hdom, rfl⟩ := List.mem_map.1 (mem_mkData.1 hd)
    unfold gridF at hdom
    rw [List.map_reverse, List.reverse_reverse] at hdom
    obtain ⟨x, hx, rfl⟩ := List.mem_map.1 hdom
    have hx := (mem_gridC _ _).1 hx
    have lx : x.length = M.length := by simpa using hx.length
    refine ⟨x, hx, by simp, ?_⟩
    show (Blk.eyeBlock _ : Blk K).shape = _
    rw [eyeBlock_shape, List.reverse_reverse, ← lx, List.take_left]
    rfl
  refine ⟨?_, ?_, ?_⟩
  · intro d hd
    obtain ⟨x, hx, h1, -⟩ := hmem d hd
    rw [h1, List.map_append, List.map_reverse]
    exact inShape_append hx (inShape_reverse.2 hx)
  · intro d hd
    obtain ⟨x, hx, h1, h2⟩ := hmem d hd
    have lx : x.length = M.length := by simpa using hx.length
    rw [h1, h2, shapeOf_append _ _ _ _ lx, shapeOf_reverse _ _ lx]
  · unfold eyeData mkData gridF StrictlySorted
    rw [if_pos rfl, List.map_reverse, List.reverse_reverse, List.map_map, List.map_map,
      List.pairwise_map]
    have hs : (gridC (M.map List.length)).Pairwise (· < ·) := by
      rw [List.pairwise_iff_getElem]
      intro i j hi hj hij
      have h1 := (mem_gridC _ _).1 (List.getElem_mem hi)
      have h2 := (mem_gridC _ _).1 (List.getElem_mem hj)
      rw [← packRow_lt_iff h1 h2, pack_gridC (List.getElem?_eq_getElem hi),
        pack_gridC (List.getElem?_eq_getElem hj)]
      exact hij
    refine hs.imp_of_mem fun {x y} hx hy hxy => ?_
    have lx : x.length = M.length := by simpa using ((mem_gridC _ _).1 hx).length
    have ly : y.length = M.length := by simpa using ((mem_gridC _ _).1 hy).length
    simp only [Function.comp, List.reverse_reverse]
    rw [rowLt_key (n := M.length + M.length) (by simp [lx]) (by simp [ly]), List.reverse_append,
      List.reverse_append, List.reverse_reverse, List.reverse_reverse]
    exact lt_append_of_lt (lx.trans ly.symm) hxy _ _

/-! ## Trace -/

theorem map_pack_gridC (s : List ℕ) :
    (gridC s).map (packRow (makeStride s true)) = List.range s.prod := by
  refine List.ext_getElem? fun k => ?_
  rw [List.getElem?_map]
  by_cases hk : k < s.prod
  · have hk' : k < (gridC s).length := by rw [length_gridC]; exact hk
    rw [List.getElem?_range hk, List.getElem?_eq_getElem hk', Option.map_some,
      pack_gridC (List.getElem?_eq_getElem hk')]
  · rw [List.getElem?_eq_none (l := gridC s) (by rw [length_gridC]; omega),
      List.getElem?_eq_none (by simpa using hk)]
    rfl

theorem pick_trace (x y : List ℕ) (h : x.length = y.length) :
    pick (List.range x.length ++ (List.range x.length).map fun i => 2 * x.length - 1 - i)
      (x ++ y.reverse) = x ++ y := by
  rw [pick_append, pick_append_left _ _ _ (by simp), pick_range _ _ le_rfl, List.take_length]
  congr 1
  have h2 := pick_reverse_range y.reverse
  rw [List.reverse_reverse, List.length_reverse, ← h] at h2
  rw [← h2]
  have : ((List.range x.length).map fun i => 2 * x.length - 1 - i) =
      (List.range x.length).reverse.map (x.length + ·) := by
    refine List.ext_getElem (by simp) fun k h1 h2 => ?_
    simp at h1
    simp only [List.getElem_map, List.getElem_range, List.getElem_reverse, List.length_range]
    omega
  rw [this, h2, pick_map_add, h2]

theorem trace_perm (n : ℕ) :
    (List.range n ++ (List.range n).map fun i => 2 * n - 1 - i).Perm (List.range (n + n)) := by
  have : ((List.range n).map fun i => 2 * n - 1 - i) = (List.range n).reverse.map (n + ·) := by
    refine List.ext_getElem (by simp) fun k h1 h2 => ?_
    simp at h1
    simp only [List.getElem_map, List.getElem_range, List.getElem_reverse, List.length_range]
    omega
  rw [this]
  exact eye_perm n

theorem blkTrace [AddCommMonoid K] (b : Blk K) (s : List ℕ) (hs : b.shape = s ++ s.reverse) :
    b.traceFull = ((gridC s).map fun x => b.val (x ++ x.reverse)).sum := by
  unfold Blk.traceFull
  have hl : b.shape.length / 2 = s.length := by rw [hs]; simp; omega
  simp only [hl]
  have ht : b.shape.take s.length = s := by rw [hs, List.take_left]
  rw [ht, ← map_pack_gridC s, List.map_map]
  refine sum_congr _ fun x hx => ?_
  have hx := (mem_gridC _ _).1 hx
  have hlx := hx.length
  simp only [Function.comp]
  have hsh : (b.permuteAxes (List.range s.length ++
      (List.range s.length).map fun i => 2 * s.length - 1 - i)).shape = s ++ s := by
    rw [permuteAxes_shape, hs]; exact pick_trace s s rfl
  rw [reshape_val _ _ _ (x ++ x) (by rw [hsh]; exact inShape_append hx hx)]
  · have e := pick_trace x x rfl
    rw [← hlx, ← e, permuteAxes_val _ _ _ (by simp; exact trace_perm _)]
  · rw [hsh, packC_append _ _ _ _ hlx, packC_two]

/-- **C46**: `trace_full` is the trace of the dense matrix: the sum of the diagonal entries, where
leg `k` of the codomain is identified with leg `k` of the domain. -/
theorem C46_trace_full [AddCommMonoid K] (M : List (List ℕ)) (T : Ents K)
    (hT : Sane (M ++ M.reverse) T) :
    Abelian.traceFull T M.length =
      ((basis M).map fun x => dense T (x.1 ++ x.1.reverse) (x.2 ++ x.2.reverse)).sum := by
  unfold Abelian.traceFull
  have hfold : ∀ (l : Ents K) (z : K), (∀ p ∈ l, p ∈ T) → l.foldl (fun res p =>
      if (List.range M.length).all (fun c => p.1.getD c 0 == p.1.getD (p.1.length - 1 - c) 0) then
        res + p.2.traceFull else res) z = z + (l.map fun p =>
          if p.1 = p.1.take M.length ++ (p.1.take M.length).reverse then p.2.traceFull else 0).sum := by
    intro l
    induction l with
    | nil => simp
    | cons p l ih =>
      intro z hl
      rw [List.foldl_cons, ih _ fun q hq => hl q (List.mem_cons_of_mem _ hq), List.map_cons,
        List.sum_cons]
      have hlen : p.1.length = M.length + M.length := by
        have := hT.rowLength (hl p List.mem_cons_self)
        simpa using this
      have hiff : (List.range M.length).all
          (fun c => p.1.getD c 0 == p.1.getD (p.1.length - 1 - c) 0) = true ↔
          p.1 = p.1.take M.length ++ (p.1.take M.length).reverse := by
        rw [List.all_eq_true]
        constructor
        · intro h
          refine List.ext_getElem (by simp [hlen]) fun k h1 h2 => ?_
          by_cases hk : k < M.length
          · rw [List.getElem_append_left (by simp [hlen]; omega)]; simp
          · rw [List.getElem_append_right (by simp [hlen]; omega)]
            have hc := h (p.1.length - 1 - k) (by rw [List.mem_range]; omega)
            rw [beq_iff_eq, List.getD_eq_getElem?_getD, List.getD_eq_getElem?_getD,
              List.getElem?_eq_getElem (by omega), List.getElem?_eq_getElem (by omega)] at hc
            simp only [Option.getD_some] at hc
            rw [List.getElem_reverse, List.getElem_take]
            have e1 : p.1.length - 1 - (p.1.length - 1 - k) = k := by omega
            simp only [e1] at hc
            rw [← hc]
            congr 1
            simp [hlen]; omega
        · intro h c hc
          rw [List.mem_range] at hc
          rw [beq_iff_eq]
          have h1 : p.1.getD (p.1.length - 1 - c) 0 = (p.1.reverse).getD c 0 := by
            rw [List.getD_eq_getElem?_getD, List.getD_eq_getElem?_getD,
              List.getElem?_reverse (by omega)]
          have h2 : p.1.reverse = p.1 := by
            rw [h]; simp [List.reverse_append]
          rw [h1, h2]
      by_cases hc : p.1 = p.1.take M.length ++ (p.1.take M.length).reverse
      · rw [if_pos (hiff.2 hc), if_pos hc, add_assoc]
      · rw [if_neg fun h => hc (hiff.1 h), if_neg hc, zero_add]
  rw [hfold T 0 fun p hp => hp, zero_add]
  unfold basis dense
  rw [sum_flatMap]
  have h1 : ∀ row ∈ gridC (M.map List.length),
      (((gridC (shapeOf M row)).map fun pos => (row, pos)).map fun x =>
        (T.map fun p => if p.1 = x.1 ++ x.1.reverse then p.2.val (x.2 ++ x.2.reverse) else 0).sum).sum =
      (T.map fun p => if p.1.take M.length = row then
        if p.1 = p.1.take M.length ++ (p.1.take M.length).reverse then
          ((gridC (shapeOf M row)).map fun pos => p.2.val (pos ++ pos.reverse)).sum else 0
        else 0).sum := by
    intro row hrow
    have lr : row.length = M.length := by simpa using ((mem_gridC _ _).1 hrow).length
    rw [List.map_map]
    show ((gridC (shapeOf M row)).map fun pos => (T.map fun p => if p.1 = row ++ row.reverse then
      p.2.val (pos ++ pos.reverse) else 0).sum).sum = _
    rw [sum_comm]
    refine sum_congr _ fun p hp => ?_
    rw [sum_ite]
    by_cases h : p.1 = row ++ row.reverse
    · have ht : p.1.take M.length = row := by rw [h, ← lr, List.take_left]
      rw [if_pos h, if_pos ht, ht, if_pos h]
    · rw [if_neg h]
      by_cases ht : p.1.take M.length = row
      · rw [if_pos ht, ht, if_neg h]
      · rw [if_neg ht]
  rw [List.map_congr_left h1, sum_comm]
  refine sum_congr _ fun p hp => ?_
  rw [sum_single _ (nodup_gridC _) (p.1.take M.length) fun row =>
    if p.1 = p.1.take M.length ++ (p.1.take M.length).reverse then
      ((gridC (shapeOf M row)).map fun pos => p.2.val (pos ++ pos.reverse)).sum else 0]
  have hin : p.1.take M.length ∈ gridC (M.map List.length) := by
    rw [mem_gridC]
    have := inShape_take (hT.inRange p hp) M.length
    have e : ((M ++ M.reverse).map List.length).take M.length = M.map List.length := by
      rw [List.map_append, List.take_append_of_le_length (by simp), ← List.length_map (as := M)
        List.length, List.take_length]
    rw [e] at this
    exact this
  rw [if_pos hin]
  by_cases hc : p.1 = p.1.take M.length ++ (p.1.take M.length).reverse
  · rw [if_pos hc, if_pos hc]
    refine blkTrace _ _ ?_
    rw [hT.shapes p hp]
    have lt : (p.1.take M.length).length = M.length := by
      simpa using ((mem_gridC _ _).1 hin).length
    conv_lhs => rw [hc]
    rw [shapeOf_append _ _ _ _ lt, shapeOf_reverse _ _ lt]
  · rw [if_neg hc, if_neg hc]

/-! ## The hypotheses are met -/

example : dense (eyeData [[1, 2], [3]] : Ents ℤ) ([1, 0] ++ [1, 0].reverse) ([1, 2] ++ [1, 2].reverse)
    = 1 := by
  rw [C46_eye _ _ _ _ _ ⟨by decide, by decide⟩ ⟨by decide, by decide⟩]; rfl

example : Sane ([[1, 2]] ++ [[1, 2]].reverse) (Example.T 3) ∧
    Abelian.traceFull (Example.T 3) 1 = 3 + 3 + 6 := ⟨Example.sane_T 3, by decide +kernel⟩

example : dense (Abelian.outer (Example.T 3) (Example.U 5) 1) [1, 1, 1, 1] [0, 1, 1, 1] =
    dense (Example.T 3) [1, 1] [0, 1] * dense (Example.U 5) [1, 1] [1, 1] :=
  C46_outer Example.M Example.M _ _ (Example.sane_T 3) (Example.sane_U 5) 1 (by decide)
    [1, 1] [0, 1] [1, 1] [1, 1] rfl rfl rfl rfl

end Cyten.Props
