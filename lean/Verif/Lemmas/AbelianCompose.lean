import Verif.Lemmas.AbelianReshape
import Verif.Lemmas.Spaces
import Verif.Props.AbelianOuter

/-! # Lemmas on the composition of block-sparse data -/

namespace Cyten.Abelian
open Cyten.Tables Cyten.Tools Cyten.Props Cyten.ListSum Spec Cyten.Spaces

variable {K : Type}

/-! ## Matrices from blocks -/

/-- shape of the collected legs -/
def dims (s : List ℕ) : List ℕ := if s.length = 0 then [] else [s.prod]
/-- index in the collected legs -/
def idx (s p : List ℕ) : List ℕ := if s.length = 0 then [] else [packRow (makeStride s true) p]

theorem inShape_idx {s p : List ℕ} (h : InShape p s) : InShape (idx s p) (dims s) := by
  unfold idx dims
  by_cases h0 : s.length = 0
  · rw [if_pos h0, if_pos h0]; exact List.Forall₂.nil
  · rw [if_neg h0, if_neg h0]; exact List.Forall₂.cons (packRow_lt h) List.Forall₂.nil

theorem length_idx (s p : List ℕ) : (idx s p).length = (dims s).length := by
  unfold idx dims
  by_cases h0 : s.length = 0
  · rw [if_pos h0, if_pos h0]
  · rw [if_neg h0, if_neg h0]; rfl

theorem prod_dims (s : List ℕ) : (dims s).prod = s.prod := by
  unfold dims
  by_cases h0 : s.length = 0
  · rw [if_pos h0, List.length_eq_zero_iff.1 h0]
  · rw [if_neg h0]; simp

theorem pack_idx {s p : List ℕ} (h : p.length = s.length) :
    packRow (makeStride (dims s) true) (idx s p) = packRow (makeStride s true) p := by
  unfold idx dims
  by_cases h0 : s.length = 0
  · rw [if_pos h0, if_pos h0, List.length_eq_zero_iff.1 h0, List.length_eq_zero_iff.1 (h.trans h0)]
  · rw [if_neg h0, if_neg h0, packC_one]

theorem pack_idx_append {s p t q : List ℕ} (h : p.length = s.length) (h' : q.length = t.length) :
    packRow (makeStride (dims s ++ dims t) true) (idx s p ++ idx t q) =
      packRow (makeStride (s ++ t) true) (p ++ q) := by
  rw [packC_append _ _ _ _ (length_idx s p), packC_append _ _ _ _ h, pack_idx h, pack_idx h',
    prod_dims]

theorem aMatrix_shape (sa sc : List ℕ) (x : Blk K) (hx : x.shape = sa ++ sc) (hpos : 0 < sa.prod) :
    (aMatrix sa.length sa x).shape = dims sa ++ [sc.prod] := by
  unfold aMatrix dims
  by_cases h0 : sa.length = 0
  · rw [if_pos h0, if_pos h0]
    show [x.shape.prod] = _
    rw [hx, List.length_eq_zero_iff.1 h0]; rfl
  · rw [if_neg h0, if_neg h0]
    show [sa.prod, missing x.shape.prod sa.prod] = _
    rw [hx, List.prod_append]
    unfold missing
    rw [Nat.mul_div_cancel_left _ hpos]; rfl

theorem aMatrix_val (sa sc : List ℕ) (x : Blk K) (hx : x.shape = sa ++ sc) (pa t : List ℕ)
    (hpa : InShape pa sa) (ht : InShape t sc) :
    (aMatrix sa.length sa x).val (idx sa pa ++ [packRow (makeStride sc true) t]) = x.val (pa ++ t) := by
  have hpos : 0 < sa.prod := Nat.lt_of_le_of_lt (Nat.zero_le _) (packRow_lt hpa)
  unfold aMatrix idx
  by_cases h0 : sa.length = 0
  · rw [if_pos h0, if_pos h0]
    refine reshape_val _ _ _ _ (by rw [hx]; exact inShape_append hpa ht) ?_
    rw [hx, packC_append _ _ _ _ hpa.length, List.nil_append, packC_one]
    have := hpa.length
    rw [List.length_eq_zero_iff.1 h0, List.length_eq_zero_iff.1 (this.trans h0)]
    simp [packRow]
  · rw [if_neg h0, if_neg h0]
    refine reshape_val _ _ _ _ (by rw [hx]; exact inShape_append hpa ht) ?_
    rw [hx, packC_append _ _ _ _ hpa.length, List.singleton_append, packC_two, List.prod_append]
    unfold missing
    rw [Nat.mul_div_cancel_left _ hpos]

theorem bPerm_pick (r s : List ℕ) :
    pick ((List.range r.length).reverse ++ List.range' r.length s.length) (r ++ s) =
      r.reverse ++ s := by
  rw [pick_append, pick_append_left _ _ _ (by simp), pick_reverse_range,
    pick_range' _ _ _ (by simp), List.drop_left]

theorem bPerm_perm (c n : ℕ) :
    ((List.range c).reverse ++ List.range' c n).Perm (List.range (c + n)) := by
  rw [List.range_add, show List.range' c n = (List.range n).map (c + ·) by
    rw [List.range_eq_range', List.map_add_range', Nat.add_zero]]
  exact List.Perm.append_right _ (List.reverse_perm _)

theorem bMatrix_shape_tail (sc sb : List ℕ) (y : Blk K) :
    (bMatrix sc.length sb.length sb y).shape.tail = dims sb := by
  unfold bMatrix dims
  by_cases h0 : sb.length = 0
  · rw [if_pos h0, if_pos h0]; rfl
  · rw [if_neg h0, if_neg h0]; rfl

theorem bMatrix_val (sc sb : List ℕ) (y : Blk K) (hy : y.shape = sc ++ sb) (t pb : List ℕ)
    (ht : InShape t sc) (hpb : InShape pb sb) :
    (bMatrix sc.length sb.length sb y).val (packRow (makeStride sc.reverse true) t.reverse ::
      idx sb pb) = y.val (t ++ pb) := by
  have e : y.val (t ++ pb) = (y.permuteAxes ((List.range sc.length).reverse ++
      List.range' sc.length sb.length)).val (t.reverse ++ pb) := by
    rw [← ht.length, ← hpb.length, ← bPerm_pick t pb, permuteAxes_val _ _ _ (by
      rw [List.length_append]; exact bPerm_perm _ _)]
  have hsh : (y.permuteAxes ((List.range sc.length).reverse ++
      List.range' sc.length sb.length)).shape = sc.reverse ++ sb := by
    rw [permuteAxes_shape, hy]; exact bPerm_pick sc sb
  have hin := inShape_append (inShape_reverse.2 ht) hpb
  unfold bMatrix idx
  rw [e]
  by_cases h0 : sb.length = 0
  · rw [if_pos h0, if_pos h0]
    have : y.permuteAxes (List.range sc.length).reverse =
        y.permuteAxes ((List.range sc.length).reverse ++ List.range' sc.length sb.length) := by
      rw [h0]; simp
    rw [this]
    refine reshape_val _ _ _ _ (by rw [hsh]; exact hin) ?_
    rw [hsh, packC_one, packC_append _ _ _ _ (by simpa using ht.length)]
    have := hpb.length
    rw [List.length_eq_zero_iff.1 h0, List.length_eq_zero_iff.1 (this.trans h0)]
    simp [packRow]
  · rw [if_neg h0, if_neg h0]
    refine reshape_val _ _ _ _ (by rw [hsh]; exact hin) ?_
    rw [hsh, packC_two, packC_append _ _ _ _ (by simpa using ht.length)]

theorem dot_shape [AddCommMonoid K] [Mul K] (sa sc sb : List ℕ) (x y : Blk K)
    (hx : x.shape = sa ++ sc.reverse) (hpos : 0 < sa.prod) :
    (Blk.matrixDot (aMatrix sa.length sa x) (bMatrix sc.length sb.length sb y)).shape =
      dims sa ++ dims sb := by
  show (aMatrix sa.length sa x).shape.dropLast ++ (bMatrix sc.length sb.length sb y).shape.tail = _
  rw [aMatrix_shape sa sc.reverse x hx hpos, bMatrix_shape_tail, List.dropLast_concat]

/-- The product of the two matrices is the contraction of the blocks. -/
theorem dot_val [AddCommMonoid K] [Mul K] (sa sc sb : List ℕ) (x y : Blk K)
    (hx : x.shape = sa ++ sc.reverse) (hy : y.shape = sc ++ sb) (pa pb : List ℕ)
    (hpa : InShape pa sa) (hpb : InShape pb sb) :
    (Blk.matrixDot (aMatrix sa.length sa x) (bMatrix sc.length sb.length sb y)).val
      (idx sa pa ++ idx sb pb) =
      ((gridC sc).map fun t => x.val (pa ++ t.reverse) * y.val (t ++ pb)).sum := by
  have hpos : 0 < sa.prod := Nat.lt_of_le_of_lt (Nat.zero_le _) (packRow_lt hpa)
  have hsh := aMatrix_shape sa sc.reverse x hx hpos
  show ((List.range ((aMatrix sa.length sa x).shape.getLastD 1)).map _).sum = _
  rw [hsh]
  simp only [List.getLastD_concat, List.length_append, List.length_singleton, Nat.add_sub_cancel]
  rw [← length_idx sa pa, List.take_left, List.drop_left]
  rw [← map_pack_gridC, List.map_map, ((gridC_reverse_perm sc).map _).sum_eq, List.map_map]
  refine sum_congr _ fun t ht => ?_
  have ht := (mem_gridC _ _).1 ht
  simp only [Function.comp]
  rw [aMatrix_val sa sc.reverse x hx pa _ hpa (inShape_reverse.2 ht),
    bMatrix_val sc sb y hy t pb ht hpb]

/-! ## Sums of blocks -/

theorem foldl_add_val [AddCommMonoid K] (l : List (Blk K)) (x : Blk K) (i : List ℕ) :
    (l.foldl Blk.add x).val i = x.val i + (l.map fun b => b.val i).sum ∧
      (l.foldl Blk.add x).shape = x.shape := by
  induction l generalizing x with
  | nil => simp
  | cons y l ih =>
    rw [List.foldl_cons, (ih _).1, (ih _).2]
    refine ⟨?_, rfl⟩
    show x.val i + y.val i + _ = _
    rw [List.map_cons, List.sum_cons, add_assoc]

theorem sumBlocks_some [AddCommMonoid K] {l : List (Blk K)} {z : Blk K} (h : sumBlocks l = some z) :
    (∀ i, z.val i = (l.map fun b => b.val i).sum) ∧ ∃ x ∈ l, z.shape = x.shape := by
  cases l with
  | nil => cases h
  | cons x l =>
    injection h with h
    subst h
    exact ⟨fun i => by rw [(foldl_add_val l x i).1, List.map_cons, List.sum_cons],
      x, List.mem_cons_self, (foldl_add_val l x []).2⟩

theorem sumBlocks_none [Add K] {l : List (Blk K)} (h : sumBlocks l = none) : l = [] := by
  cases l with
  | nil => rfl
  | cons x l => cases h

/-! ## Groups -/

theorem groups_eq_consecutive {α : Type} (l : List α) (ds : List ℕ) :
    groups l ds = (consecutive ds).map fun r => slice l r.1 r.2 := by
  induction ds with
  | nil => rfl
  | cons d ds ih =>
    cases ds with
    | nil => rfl
    | cons e ds =>
      rw [consecutive_cons_cons, List.map_cons, ← ih]
      rfl

theorem groups_eq_runs {α S : Type} [DecidableEq S] (key : α → S) (l : List α) :
    groups l (findRowDifferences (l.map key) true) = runsOf key l := by
  rw [groups_eq_consecutive, slices_eq_runs]

/-- entries of `a` prepared for the contraction: kept legs `Mk`, contracted legs `Mc` -/
def ValidA (Mk Mc : List (List ℕ)) (e : CEnt K) : Prop :=
  InShape e.keep (Mk.map List.length) ∧ ∃ cc, InShape cc (Mc.map List.length) ∧
    e.key = packRow (makeStride (Mc.map List.length) false) cc ∧
    e.blk.shape = shapeOf Mk e.keep ++ (shapeOf Mc cc).reverse

/-- entries of `b` prepared for the contraction: contracted legs `Mc`, kept legs `Md` -/
def ValidB (Mc Md : List (List ℕ)) (f : CEnt K) : Prop :=
  InShape f.keep (Md.map List.length) ∧ ∃ cc, InShape cc (Mc.map List.length) ∧
    f.key = packRow (makeStride (Mc.map List.length) false) cc ∧
    f.blk.shape = shapeOf Mc cc ++ shapeOf Md f.keep

/-- contribution of a pair of entries to the entry of the result -/
def pairTerm [AddCommMonoid K] [Mul K] (c : ℕ) (ka kb pa pb : List ℕ) (e f : CEnt K) : K :=
  if e.keep = ka ∧ f.keep = kb ∧ e.key = f.key then
    ((gridC (f.blk.shape.take c)).map fun t => e.blk.val (pa ++ t.reverse) * f.blk.val (t ++ pb)).sum
  else 0

theorem contractGroups_eq [AddCommMonoid K] [Mul K] (n c m : ℕ) (ka sa kb sb : List ℕ)
    (ga gb : List (CEnt K)) :
    contractGroups ⟨ka, sa, ga.map (·.key), ga.map fun e => aMatrix n sa e.blk⟩
      ⟨kb, sb, gb.map (·.key), gb.map fun e => bMatrix c m sb e.blk⟩ =
    sumBlocks (joinCommon compare (fun e : CEnt K => e.key) (fun e : CEnt K => e.key)
      (fun e f => Blk.matrixDot (aMatrix n sa e.blk) (bMatrix c m sb f.blk))
      (ga.length + gb.length) ga gb) := by
  unfold contractGroups
  simp only [List.length_map]
  have := filterMap_commonLoop (compare : ℕ → ℕ → Ordering) (fun e : CEnt K => e.key)
    (fun e : CEnt K => e.key)
    (fun e f => Blk.matrixDot (aMatrix n sa e.blk) (bMatrix c m sb f.blk)) ga gb
    (dotPair (ga.map fun e => aMatrix n sa e.blk) (gb.map fun e => bMatrix c m sb e.blk))
    (fun i j x y hx hy => by simp [dotPair, hx, hy]) (ga.length + gb.length) 0 0
  rw [List.drop_zero, List.drop_zero] at this
  rw [this]

theorem groupPair [AddCommMonoid K] [Mul K] (Mk Mc Md : List (List ℕ)) (ga gb : List (CEnt K))
    (e0 f0 : CEnt K) (he0 : e0 ∈ ga) (hf0 : f0 ∈ gb)
    (ha : ∀ e ∈ ga, ValidA Mk Mc e ∧ e.keep = e0.keep)
    (hb : ∀ f ∈ gb, ValidB Mc Md f ∧ f.keep = f0.keep)
    (sa : ga.Pairwise fun x y => x.key < y.key) (sb : gb.Pairwise fun x y => x.key < y.key)
    (ka pa kb pb : List ℕ) (hka : IsIndex Mk ka pa) (hkb : IsIndex Md kb pb) :
    ((contractGroups
        ⟨e0.keep, e0.blk.shape.take Mk.length, ga.map (·.key),
          ga.map fun e => aMatrix Mk.length (e0.blk.shape.take Mk.length) e.blk⟩
        ⟨f0.keep, f0.blk.shape.drop Mc.length, gb.map (·.key),
          gb.map fun e => bMatrix Mc.length Md.length (f0.blk.shape.drop Mc.length) e.blk⟩).map
      fun z => if e0.keep ++ f0.keep = ka ++ kb then
        (z.reshape (e0.blk.shape.take Mk.length ++ f0.blk.shape.drop Mc.length)).val (pa ++ pb)
        else 0).getD 0 =
    (ga.map fun e => (gb.map fun f => pairTerm Mc.length ka kb pa pb e f).sum).sum := by
  rw [contractGroups_eq]
  obtain ⟨⟨hk0, c0, hc0, -, hs0⟩, -⟩ := ha e0 he0
  obtain ⟨⟨hl0, d0, hd0, -, ht0⟩, -⟩ := hb f0 hf0
  have lk0 : e0.keep.length = Mk.length := by simpa using hk0.length
  have ll0 : f0.keep.length = Md.length := by simpa using hl0.length
  have ld0 : d0.length = Mc.length := by simpa using hd0.length
  have hsa : e0.blk.shape.take Mk.length = shapeOf Mk e0.keep := by
    rw [hs0, ← length_shapeOf Mk e0.keep lk0, List.take_left]
  have hsb : f0.blk.shape.drop Mc.length = shapeOf Md f0.keep := by
    rw [ht0, ← length_shapeOf Mc d0 ld0, List.drop_left]
  rw [hsa, hsb]
  set prods := joinCommon compare (fun e : CEnt K => e.key) (fun e : CEnt K => e.key)
      (fun e f => Blk.matrixDot (aMatrix Mk.length (shapeOf Mk e0.keep) e.blk)
        (bMatrix Mc.length Md.length (shapeOf Md f0.keep) f.blk)) (ga.length + gb.length) ga gb
    with hprods
  by_cases hrow : e0.keep ++ f0.keep = ka ++ kb
  · obtain ⟨rfl, rfl⟩ := List.append_inj hrow (by rw [lk0]; simpa using hka.1.length.symm)
    have hsum := joinCommon_sum (compare : ℕ → ℕ → Ordering) id (fun e : CEnt K => e.key)
      (fun e : CEnt K => e.key)
      (fun e f => Blk.matrixDot (aMatrix Mk.length (shapeOf Mk e0.keep) e.blk)
        (bMatrix Mc.length Md.length (shapeOf Md f0.keep) f.blk))
      (fun z => z.val (idx (shapeOf Mk e0.keep) pa ++ idx (shapeOf Md f0.keep) pb))
      (ga.length + gb.length) ga gb le_rfl (fun x _ y _ => compare_key _ _) sa sb
    rw [← hprods] at hsum
    have hrhs : (ga.map fun e => (gb.map fun f =>
        pairTerm Mc.length e0.keep f0.keep pa pb e f).sum).sum =
        (prods.map fun z => z.val (idx (shapeOf Mk e0.keep) pa ++ idx (shapeOf Md f0.keep) pb)).sum := by
      rw [hsum]
      refine sum_congr _ fun e he => sum_congr _ fun f hf => ?_
      unfold pairTerm
      simp only [id]
      by_cases hkey : e.key = f.key
      · rw [if_pos ⟨(ha e he).2, (hb f hf).2, hkey⟩, if_pos hkey]
        obtain ⟨⟨-, c1, hc1, hk1, hs1⟩, hkeep⟩ := ha e he
        obtain ⟨⟨-, c2, hc2, hk2, hs2⟩, hkeep2⟩ := hb f hf
        have hcc : c1 = c2 := (packRow_false_inj hc1 hc2).1 (by rw [← hk1, ← hk2, hkey])
        subst hcc
        rw [hkeep] at hs1
        rw [hkeep2] at hs2
        have lc : (shapeOf Mc c1).length = Mc.length :=
          length_shapeOf _ _ (by simpa using hc1.length)
        have := dot_val (shapeOf Mk e0.keep) (shapeOf Mc c1) (shapeOf Md f0.keep) e.blk f.blk hs1 hs2
          pa pb hka.2 hkb.2
        rw [length_shapeOf _ _ lk0, lc, length_shapeOf _ _ ll0] at this
        rw [this, hs2, ← lc, List.take_left]
      · rw [if_neg fun h => hkey h.2.2, if_neg hkey]
    rw [hrhs]
    cases hz : sumBlocks prods with
    | none => rw [sumBlocks_none hz]; rfl
    | some z =>
      obtain ⟨hval, b, hbm, hbs⟩ := sumBlocks_some hz
      rw [Option.map_some, Option.getD_some, if_pos rfl]
      have hzs : z.shape = dims (shapeOf Mk e0.keep) ++ dims (shapeOf Md f0.keep) := by
        rw [hbs]
        obtain ⟨e, he, f, hf, hkey, rfl⟩ := mem_joinCommon hbm
        obtain ⟨⟨-, c1, hc1, hk1, hs1⟩, hkeep⟩ := ha e he
        have lc : (shapeOf Mc c1).length = Mc.length :=
          length_shapeOf _ _ (by simpa using hc1.length)
        rw [hkeep] at hs1
        have := dot_shape (shapeOf Mk e0.keep) (shapeOf Mc c1) (shapeOf Md f0.keep) e.blk f.blk hs1
          (Nat.lt_of_le_of_lt (Nat.zero_le _) (packRow_lt hka.2))
        rw [length_shapeOf _ _ lk0, lc, length_shapeOf _ _ ll0] at this
        exact this
      rw [← hval]
      refine reshape_val _ _ _ _ (by
        rw [hzs]; exact inShape_append (inShape_idx hka.2) (inShape_idx hkb.2)) ?_
      rw [hzs, pack_idx_append hka.2.length hkb.2.length]
  · have : (ga.map fun e => (gb.map fun f => pairTerm Mc.length ka kb pa pb e f).sum).sum = 0 := by
      refine sum_zero _ _ fun e he => sum_zero _ _ fun f hf => ?_
      unfold pairTerm
      rw [if_neg]
      rintro ⟨h1, h2, -⟩
      exact hrow (by rw [← h1, ← h2, (ha e he).2, (hb f hf).2])
    rw [this]
    cases sumBlocks prods with
    | none => rfl
    | some z => rw [Option.map_some, Option.getD_some, if_neg hrow]

/-- The order of the prepared entries. -/
def EntLt (x y : CEnt K) : Prop :=
  x.keep.reverse < y.keep.reverse ∨ x.keep = y.keep ∧ x.key < y.key

theorem runs_of_sorted {es : List (CEnt K)} (h : es.Pairwise EntLt) :
    (∀ g ∈ runsOf (·.keep) es, g.Pairwise fun x y => x.key < y.key) ∧
    (runsOf (·.keep) es).Pairwise fun g g' => ∀ x ∈ g, ∀ y ∈ g', x.keep.reverse < y.keep.reverse := by
  constructor
  · intro g hg
    have hsub : g.Sublist es := by
      have := List.sublist_flatten_of_mem hg
      rwa [runsOf_flatten] at this
    refine (h.sublist hsub).imp_of_mem fun {x y} hx hy hxy => ?_
    have hk := runsOf_key (·.keep) es g hg x hx y hy
    rcases hxy with h1 | h1
    · rw [hk] at h1; exact absurd h1 (lt_irrefl _)
    · exact h1.2
  · have h1 : es.Pairwise fun x y => x.keep.reverse ≤ y.keep.reverse := by
      refine h.imp fun {x y} hxy => ?_
      rcases hxy with h1 | h1
      · exact h1.le
      · rw [h1.1]
    have h2 := runsOf_sorted (fun x : CEnt K => x.keep.reverse) es h1
    have e : ∀ (i1 i2 : DecidableEq (List ℕ)) (l : List (CEnt K)),
        @runsOf _ i1 _ (fun x : CEnt K => x.keep.reverse) l =
        @runsOf _ i2 _ (fun x : CEnt K => x.keep) l := by
      intro i1 i2 l
      obtain rfl : i1 = i2 := Subsingleton.elim _ _
      induction l with
      | nil => rfl
      | cons x l ih =>
        rw [runsOf, runsOf, ih]
        split
        · simp only [List.reverse_inj]
        · rfl
    rw [e _ inferInstance] at h2
    exact h2

end Cyten.Abelian
