import Verif.Lemmas.FTScale2
import Verif.Lemmas.Compress
import Verif.Spec.FTMask

/-! # Lemmas on `_mask_contract` of the fusion tree backend -/

namespace Cyten.FT
open Cyten.FT.Spec Cyten.Tools Cyten.ListSum Cyten.Props Cyten.Spaces Cyten.Spaces.Spec Cyten.Abelian
  Cyten.FusionTrees

variable {S K : Type}

/-! ## One forest block -/

/-- The index before the contraction -/
def oldIdx (largeLeg : Bool) (m : List Bool) (x : ℕ) : Option ℕ :=
  if largeLeg then some ((nonzero m).getD x 0) else if m.getD x false then some (countTrue (m.take x)) else none

theorem prod_set_pos {l : List ℕ} {i n : ℕ} (h : 0 < l.prod) (hn : 0 < n) : 0 < (l.set i n).prod := by
  induction l generalizing i with
  | nil => simp
  | cons x l ih =>
    rw [List.prod_cons] at h
    have h1 : 0 < x := Nat.pos_of_mul_pos_right h
    have h2 : 0 < l.prod := Nat.pos_of_mul_pos_left h
    cases i with
    | zero => rw [List.set_cons_zero, List.prod_cons]; exact Nat.mul_pos hn h2
    | succ i => rw [List.set_cons_succ, List.prod_cons]; exact Nat.mul_pos h1 (ih h2)

theorem inShape_set {ms mults : List ℕ} {idx n j o : ℕ} (h : InShape ms (mults.set idx n)) (hj : j < o)
    (ho : mults[idx]? = some o) : InShape (ms.set idx j) mults := by
  induction mults generalizing ms idx with
  | nil => simp at ho
  | cons x mults ih =>
    cases idx with
    | zero =>
      rw [List.set_cons_zero] at h
      cases h with
      | cons h1 h2 =>
        obtain rfl : x = o := by simpa using ho
        exact List.Forall₂.cons hj h2
    | succ idx =>
      rw [List.set_cons_succ] at h
      cases h with
      | cons h1 h2 => exact List.Forall₂.cons h1 (ih h2 (by simpa using ho))

theorem maskForest_val [Zero K] (d g : Bool) (idx : ℕ) (mults ms : List ℕ) (M : Mat K) (sl : ℕ × ℕ)
    (m : List Bool) (T t q : ℕ) (hT : d = true ∨ T = 1) (hw : sl.2 - sl.1 = T * mults.prod) (ht : t < T)
    (hp : 0 < mults.prod) (hold : mults[idx]? = some (if g then m.length else countTrue m))
    (hm : InShape ms (mults.set idx (if g then countTrue m else m.length)))
    (hq : q < otherDim d M) :
    (maskForest d g idx mults (forestSlice d M sl) m).val
        (pos2 d (t * (mults.set idx (if g then countTrue m else m.length)).prod +
          packRow (makeStride (mults.set idx (if g then countTrue m else m.length)) true) ms) q) =
      match oldIdx g m (ms.getD idx 0) with
      | some j => sideVal d M (sl.1 + (t * mults.prod + packRow (makeStride mults true) (ms.set idx j))) q
      | none => 0 := by
  set mults' := mults.set idx (if g then countTrue m else m.length) with hmults'
  have hp' : 0 < mults'.prod := inShape_prod_pos hm
  have ho : 0 < otherDim d M := by omega
  have hidx : idx < mults.length := (List.getElem?_eq_some_iff.1 hold).1
  have hlen : ms.length = mults.length := by rw [hm.length, hmults', List.length_set]
  have hxi : ms.getD idx 0 < (if g then countTrue m else m.length) := by
    have h1 : idx < ms.length := by omega
    have h2 := List.forall₂_iff_get.1 hm
    have := h2.2 idx h1 (by rw [← hm.length]; exact h1)
    simp only [List.get_eq_getElem, hmults', List.getElem_set_self] at this
    rw [List.getD_eq_getElem _ _ h1]
    exact this
  -- the old index is in the old shape
  have hj : ∀ j, oldIdx g m (ms.getD idx 0) = some j → InShape (ms.set idx j) mults := by
    intro j hj
    refine inShape_set hm ?_ hold
    cases g with
    | true =>
      simp only [oldIdx, if_true, Option.some.injEq] at hj
      simp only [if_true] at hxi ⊢
      rw [← length_nonzero] at hxi
      rw [List.getD_eq_getElem _ _ hxi] at hj
      have := (mem_nonzero m j).1 (by rw [← hj]; exact List.getElem_mem hxi)
      exact (List.getElem?_eq_some_iff.1 this).1
    | false =>
      simp only [oldIdx, Bool.false_eq_true, if_false] at hj hxi ⊢
      by_cases hb : m.getD (ms.getD idx 0) false = true
      · rw [if_pos hb] at hj
        obtain rfl := Option.some.inj hj
        have h1 : (nonzero m)[countTrue (m.take (ms.getD idx 0))]? = some (ms.getD idx 0) := by
          rw [nonzero_get]
          refine ⟨?_, rfl⟩
          rw [List.getD_eq_getElem _ _ hxi] at hb
          rw [List.getElem?_eq_getElem hxi, hb]
        rw [← length_nonzero m]
        exact (List.getElem?_eq_some_iff.1 h1).1
      · rw [if_neg hb] at hj
        cases hj
  have hr : ∀ r, InShape r mults → t * mults.prod + packRow (makeStride mults true) r < sl.2 - sl.1 := by
    intro r hr
    have h1 := packRow_lt hr
    calc t * mults.prod + packRow (makeStride mults true) r < t * mults.prod + mults.prod := by omega
      _ = (t + 1) * mults.prod := by ring
      _ ≤ T * mults.prod := Nat.mul_le_mul_right _ ht
      _ = _ := hw.symm
  have hin : ∀ r, InShape r mults → InShape (pos2 d (t * mults.prod + packRow (makeStride mults true) r) q)
      (forestSlice d M sl).shape := by
    intro r h
    rw [forestSlice_shape]
    cases d
    · exact List.Forall₂.cons (hr r h) (List.Forall₂.cons hq List.Forall₂.nil)
    · exact List.Forall₂.cons hq (List.Forall₂.cons (hr r h) List.Forall₂.nil)
  cases d with
  | false =>
    obtain rfl : T = 1 := by simpa using hT
    obtain rfl : t = 0 := by omega
    have hs : (forestSlice false M sl).shape = [mults.prod, otherDim false M] := by
      rw [forestSlice_shape, hw, Nat.one_mul]; rfl
    have hF : freeDim (mults.prod * otherDim false M) mults = otherDim false M := by
      unfold freeDim
      exact Nat.mul_div_cancel_left _ hp
    have hpk : ∀ l r, r.length = l.length → packRow (makeStride (l ++ [otherDim false M]) true) (r ++ [q]) =
        packRow (makeStride [l.prod, otherDim false M] true) [packRow (makeStride l true) r, q] := by
      intro l r hl
      rw [packC_two, packC_append _ _ _ _ hl, packC_one, List.prod_singleton]
    have hset : ∀ n, (mults ++ [otherDim false M]).set idx n = mults.set idx n ++ [otherDim false M] := by
      intro n; rw [List.set_append_left _ _ hidx]
    have hF2 : freeDim (mults' ++ [otherDim false M]).prod [otherDim false M] = mults'.prod := by
      unfold freeDim
      rw [List.prod_append, List.prod_singleton]
      exact Nat.mul_div_cancel _ ho
    have hmsq : (ms ++ [q]).getD idx 0 = ms.getD idx 0 := List.getD_append _ _ _ _ (by omega)
    have hin2 : InShape (ms ++ [q]) (mults' ++ [otherDim false M]) :=
      inShape_append hm (List.Forall₂.cons hq List.Forall₂.nil)
    have hback : ∀ j, InShape (ms.set idx j) mults →
        ((forestSlice false M sl).reshape (mults ++ [otherDim false M])).val (ms.set idx j ++ [q]) =
        sideVal false M (sl.1 + (0 * mults.prod + packRow (makeStride mults true) (ms.set idx j))) q := by
      intro j hj
      rw [reshape_val _ _ _ _ (hin _ hj) (by rw [hs, hpk _ _ hj.length]; simp [pos2]), forestSlice_val]
    unfold maskForest
    simp only [Bool.false_eq_true, if_false, hs, List.prod_cons, List.prod_nil, Nat.mul_one, List.getD_cons_succ,
      List.getD_cons_zero, Nat.zero_add, hF]
    cases g with
    | true =>
      simp only [if_true] at hmults'
      simp only [if_true]
      have e1 : (Blk.applyMask ((forestSlice false M sl).reshape (mults ++ [otherDim false M])) m idx).shape =
          mults' ++ [otherDim false M] := by
        show (mults ++ [otherDim false M]).set idx _ = _
        rw [hset, hmults']
      rw [e1, hF2]
      rw [reshape_val _ _ _ (ms ++ [q]) (by rw [e1]; exact hin2) (by
        rw [e1, hpk _ _ hm.length]; simp [pos2])]
      show ((forestSlice false M sl).reshape _).val ((ms ++ [q]).set idx _) = _
      rw [hmsq, List.set_append_left _ _ (by omega), hback _ (hj _ rfl)]
      simp [oldIdx]
    | false =>
      simp only [Bool.false_eq_true, if_false] at hmults'
      simp only [Bool.false_eq_true, if_false]
      have e1 : (Blk.enlargeLeg ((forestSlice false M sl).reshape (mults ++ [otherDim false M])) m idx).shape =
          mults' ++ [otherDim false M] := by
        show (mults ++ [otherDim false M]).set idx _ = _
        rw [hset, hmults']
      rw [e1, hF2]
      rw [reshape_val _ _ _ (ms ++ [q]) (by rw [e1]; exact hin2) (by
        rw [e1, hpk _ _ hm.length]; simp [pos2])]
      show (if m.getD ((ms ++ [q]).getD idx 0) false then
        ((forestSlice false M sl).reshape _).val ((ms ++ [q]).set idx _) else 0) = _
      rw [hmsq, List.set_append_left _ _ (by omega)]
      by_cases hb : m.getD (ms.getD idx 0) false = true
      · have e2 : oldIdx false m (ms.getD idx 0) = some (countTrue (m.take (ms.getD idx 0))) := by
          unfold oldIdx; rw [if_neg (by simp), if_pos hb]
        rw [if_pos hb, hback _ (hj _ e2), e2]
      · have e2 : oldIdx false m (ms.getD idx 0) = none := by
          unfold oldIdx; rw [if_neg (by simp), if_neg hb]
        rw [if_neg hb, e2]
  | true =>
    have hs : (forestSlice true M sl).shape = [otherDim true M, T * mults.prod] := by
      rw [forestSlice_shape, ← hw]; rfl
    have hF : freeDim (otherDim true M * (T * mults.prod)) mults = otherDim true M * T := by
      unfold freeDim
      rw [← Nat.mul_assoc]
      exact Nat.mul_div_cancel _ hp
    have hpk : ∀ l r, packRow (makeStride ((otherDim true M * T) :: l) true) ((q * T + t) :: r) =
        packRow (makeStride [otherDim true M, T * l.prod] true)
          [q, t * l.prod + packRow (makeStride l true) r] := by
      intro l r
      rw [packC_two, packC_cons]
      ring
    have hF2 : freeDim ((otherDim true M * T) :: mults').prod [otherDim true M] = T * mults'.prod := by
      unfold freeDim
      rw [List.prod_cons, List.prod_singleton, Nat.mul_assoc]
      exact Nat.mul_div_cancel_left _ ho
    have hqt : q * T + t < otherDim true M * T := by
      calc q * T + t < q * T + T := by omega
        _ = (q + 1) * T := by ring
        _ ≤ _ := Nat.mul_le_mul_right _ hq
    have hin2 : InShape ((q * T + t) :: ms) ((otherDim true M * T) :: mults') := List.Forall₂.cons hqt hm
    have hback : ∀ j, InShape (ms.set idx j) mults →
        ((forestSlice true M sl).reshape ((otherDim true M * T) :: mults)).val ((q * T + t) :: ms.set idx j) =
        sideVal true M (sl.1 + (t * mults.prod + packRow (makeStride mults true) (ms.set idx j))) q := by
      intro j hj
      rw [reshape_val _ _ _ _ (hin _ hj) (by rw [hs, hpk]; rfl), forestSlice_val]
    have hset : ∀ (y : ℕ) (l : List ℕ) n, (y :: l).set (1 + idx) n = y :: l.set idx n := by
      intro y l n; rw [Nat.add_comm, List.set_cons_succ]
    have hmsq : ((q * T + t) :: ms).getD (1 + idx) 0 = ms.getD idx 0 := by
      rw [Nat.add_comm 1 idx, List.getD_cons_succ]
    unfold maskForest
    simp only [if_true, hs, List.prod_cons, List.prod_nil, Nat.mul_one, List.getD_cons_zero, hF]
    cases g with
    | true =>
      simp only [if_true] at hmults'
      simp only [if_true]
      have e1 : (Blk.applyMask ((forestSlice true M sl).reshape ((otherDim true M * T) :: mults)) m (1 + idx)).shape =
          (otherDim true M * T) :: mults' := hset _ _ _
      rw [e1, hF2]
      rw [reshape_val _ _ _ ((q * T + t) :: ms) (by rw [e1]; exact hin2) (by rw [e1, hpk]; rfl)]
      show ((forestSlice true M sl).reshape _).val (((q * T + t) :: ms).set (1 + idx) _) = _
      rw [hmsq, hset, hback _ (hj _ rfl)]
      simp [oldIdx]
    | false =>
      simp only [Bool.false_eq_true, if_false] at hmults'
      simp only [Bool.false_eq_true, if_false]
      have e1 : (Blk.enlargeLeg ((forestSlice true M sl).reshape ((otherDim true M * T) :: mults)) m (1 + idx)).shape =
          (otherDim true M * T) :: mults' := hset _ _ _
      rw [e1, hF2]
      rw [reshape_val _ _ _ ((q * T + t) :: ms) (by rw [e1]; exact hin2) (by rw [e1, hpk]; rfl)]
      show (if m.getD (((q * T + t) :: ms).getD (1 + idx) 0) false then
        ((forestSlice true M sl).reshape _).val (((q * T + t) :: ms).set (1 + idx) _) else 0) = _
      rw [hmsq, hset]
      by_cases hb : m.getD (ms.getD idx 0) false = true
      · have e2 : oldIdx false m (ms.getD idx 0) = some (countTrue (m.take (ms.getD idx 0))) := by
          unfold oldIdx; rw [if_neg (by simp), if_pos hb]
        rw [if_pos hb, hback _ (hj _ e2), e2]
      · have e2 : oldIdx false m (ms.getD idx 0) = none := by
          unfold oldIdx; rw [if_neg (by simp), if_neg hb]
        rw [if_neg hb, e2]

/-! ## Forests -/

section forests
variable [LinearOrder S]

theorem tiles_same {A : Type} {a z : ℕ} {L : List (A × (ℕ × ℕ))} (h : Tiles a (L.map Prod.snd) z) {x y : A × (ℕ × ℕ)}
    (hx : x ∈ L) (hy : y ∈ L) {p : ℕ} (px : x.2.1 ≤ p ∧ p < x.2.2) (py : y.2.1 ≤ p ∧ p < y.2.2) : x = y := by
  have hu := tiles_unique h p
  rw [List.filter_map, List.length_map] at hu
  have h1 : x ∈ L.filter ((fun x : ℕ × ℕ => decide (x.1 ≤ p ∧ p < x.2)) ∘ Prod.snd) :=
    List.mem_filter.2 ⟨hx, by simpa using px⟩
  have h2 : y ∈ L.filter ((fun x : ℕ × ℕ => decide (x.1 ≤ p ∧ p < x.2)) ∘ Prod.snd) :=
    List.mem_filter.2 ⟨hy, by simpa using py⟩
  have hle : (L.filter ((fun x : ℕ × ℕ => decide (x.1 ≤ p ∧ p < x.2)) ∘ Prod.snd)).length ≤ 1 := by
    rw [hu]; split <;> omega
  generalize L.filter ((fun x : ℕ × ℕ => decide (x.1 ≤ p ∧ p < x.2)) ∘ Prod.snd) = F at h1 h2 hle
  match F, hle with
  | [w], _ => rw [List.mem_singleton.1 h1, List.mem_singleton.1 h2]
  | [], _ => simp at h1

theorem forestBlocks_item (R : FusionRule S) (c : S) (items : List (List S × List ℕ)) (start : ℕ)
    (b : List S × (ℕ × ℕ)) (hb : b ∈ TProd.forestBlocksFrom R c items start) :
    ∃ pre item post, items = pre ++ item :: post ∧ b.1 = item.1 ∧ 0 < itemSize R c item ∧
      b.2 = (start + (pre.map (itemSize R c)).sum, start + (pre.map (itemSize R c)).sum + itemSize R c item) := by
  induction items generalizing start with
  | nil => simp [TProd.forestBlocksFrom] at hb
  | cons item items ih =>
    rw [TProd.forestBlocksFrom] at hb
    by_cases hw : size R item.1 c * item.2.prod = 0
    · rw [if_pos hw] at hb
      obtain ⟨pre, it, post, rfl, e1, e2, e3⟩ := ih start hb
      refine ⟨item :: pre, it, post, rfl, e1, e2, ?_⟩
      rw [List.map_cons, List.sum_cons, show itemSize R c item = 0 from hw, Nat.zero_add]
      exact e3
    · rw [if_neg hw] at hb
      rcases List.mem_cons.1 hb with rfl | hb
      · exact ⟨[], item, items, rfl, rfl, Nat.pos_of_ne_zero hw, by simp [itemSize]⟩
      · obtain ⟨pre, it, post, rfl, e1, e2, e3⟩ := ih _ hb
        refine ⟨item :: pre, it, post, rfl, e1, e2, ?_⟩
        rw [List.map_cons, List.sum_cons, e3, ← Nat.add_assoc]
        rfl

theorem forestBlocks_fst (R : FusionRule S) (c : S) (items : List (List S × List ℕ)) (start : ℕ) :
    List.Sublist ((TProd.forestBlocksFrom R c items start).map Prod.fst) (items.map Prod.fst) := by
  induction items generalizing start with
  | nil => simp [TProd.forestBlocksFrom]
  | cons item items ih =>
    rw [TProd.forestBlocksFrom]
    by_cases hw : size R item.1 c * item.2.prod = 0
    · rw [if_pos hw, List.map_cons]; exact (ih _).cons _
    · rw [if_neg hw, List.map_cons, List.map_cons]; exact (ih _).cons_cons _

theorem forest_nodup (R : FusionRule S) (c : S) {spaces : List (SpaceData S)} (hg : ∀ x ∈ spaces, GoodSpace x) :
    ((TProd.iterForestBlocks R spaces c).map Prod.fst).Nodup :=
  (forestBlocks_fst R c _ 0).nodup (items_nodup hg)

/-- What is known about a forest block -/
theorem forest_info (R : FusionRule S) (c : S) {spaces : List (SpaceData S)} (hg : ∀ x ∈ spaces, GoodSpace x)
    (b : List S × (ℕ × ℕ)) (hb : b ∈ TProd.iterForestBlocks R spaces c) :
    TProd.forestBlockSlice R spaces b.1 c = some b.2 ∧ b.1.length = spaces.length ∧
      ∃ mults, (b.1, mults) ∈ TProd.iterUncoupled spaces ∧ 0 < mults.prod ∧ 0 < size R b.1 c ∧
        b.2.2 - b.2.1 = size R b.1 c * mults.prod ∧ b.2.1 ≤ b.2.2 ∧
        List.zipWith (fun (x : SpaceData S) s => x.sectorMultiplicity s) spaces b.1 = mults := by
  obtain ⟨pre, item, post, hi, e1, e2, e3⟩ := forestBlocks_item R c _ 0 b hb
  have hmem : item ∈ TProd.iterUncoupled spaces := by rw [hi]; simp
  have hf := findForest_spec R c pre item post 0 (by rw [← hi]; exact items_nodup hg)
  rw [← hi] at hf
  obtain ⟨z1, z2⟩ := item_mults hg item hmem
  have e2' : 0 < size R item.1 c * item.2.prod := e2
  refine ⟨?_, by rw [e1, z2], item.2, by rw [e1]; exact hmem, Nat.pos_of_mul_pos_left e2', ?_, ?_, ?_, ?_⟩
  · unfold TProd.forestBlockSlice
    rw [e1, hf]
    rw [e3, TProd.forestBlockSize, ← item_size hg item hmem]
    rfl
  · rw [e1]; exact Nat.pos_of_mul_pos_right e2'
  · rw [e3, e1]; simp [itemSize]
  · rw [e3]; simp
  · rw [e1]; exact z1

theorem forest_of_item (R : FusionRule S) (c : S) {spaces : List (SpaceData S)} (unc : List S) (mults : List ℕ)
    (h : (unc, mults) ∈ TProd.iterUncoupled spaces) (hp : 0 < mults.prod) (hs : 0 < size R unc c) :
    ∃ sl, (unc, sl) ∈ TProd.iterForestBlocks R spaces c := by
  obtain ⟨pre, post, hi⟩ := List.append_of_mem h
  refine ⟨(0 + (pre.map (itemSize R c)).sum, 0 + (pre.map (itemSize R c)).sum + itemSize R c (unc, mults)), ?_⟩
  · unfold TProd.iterForestBlocks
    rw [hi]
    refine forestBlocks_of_item R c pre (unc, mults) post 0 ?_
    have : 0 < size R unc c * mults.prod := Nat.mul_pos hs hp
    show size R unc c * mults.prod ≠ 0
    omega

/-- Exchanging one of the spaces -/
theorem swap_item {spaces : List (SpaceData S)} (hg : ∀ x ∈ spaces, GoodSpace x) {idx : ℕ} {y : SpaceData S}
    (hy : GoodSpace y) {unc : List S} {mults : List ℕ} (h : (unc, mults) ∈ TProd.iterUncoupled spaces) {u : S}
    (hu : unc[idx]? = some u) (huy : u ∈ y.sectors) :
    (unc, mults.set idx (y.sectorMultiplicity u)) ∈ TProd.iterUncoupled (spaces.set idx y) := by
  have hg' : ∀ x ∈ spaces.set idx y, GoodSpace x := by
    intro x hx
    rcases List.mem_or_eq_of_mem_set hx with hx | rfl
    · exact hg x hx
    · exact hy
  rw [iterUncoupled_eq _ hg] at h
  rw [iterUncoupled_eq _ hg']
  obtain ⟨ch, hc0, he⟩ := List.mem_map.1 h
  have hc := mem_choices.1 hc0
  obtain ⟨k, hk, hke⟩ := List.getElem_of_mem huy
  have hk2 : k < y.mults.length := by rw [← hy.len]; exact hk
  have hum : (u, y.mults[k]) ∈ y.sectors.zip y.mults := by
    rw [List.mem_iff_getElem?]
    exact ⟨k, by rw [List.getElem?_zip_eq_some]; exact ⟨by rw [List.getElem?_eq_getElem hk, hke], List.getElem?_eq_getElem hk2⟩⟩
  have hsm := sectorMult' y hy _ hum
  simp only at hsm
  refine List.mem_map.2 ⟨ch.set idx (u, y.mults[k]), mem_choices.2 ?_, ?_⟩
  · unfold pairs at hc ⊢
    rw [List.map_set]
    have hl := hc.length_eq
    refine List.forall₂_iff_get.2 ⟨by simpa using hl, fun i h1 h2 => ?_⟩
    have hh := (List.forall₂_iff_get.1 hc).2 i (by simpa using h1) (by simpa using h2)
    simp only [List.get_eq_getElem] at hh ⊢
    by_cases hi : idx = i
    · subst hi
      rw [List.getElem_set_self, List.getElem_set_self]
      exact hum
    · rw [List.getElem_set_ne hi, List.getElem_set_ne hi]
      exact hh
  · obtain ⟨h1, h2⟩ := Prod.ext_iff.1 he
    simp only at h1 h2
    refine Prod.ext ?_ ?_
    · show (ch.set idx (u, y.mults[k])).map Prod.fst = unc
      rw [List.map_set, h1]
      obtain ⟨h3, h4⟩ := List.getElem?_eq_some_iff.1 hu
      rw [show (u, y.mults[k]).1 = unc[idx] from h4.symm]
      exact List.set_getElem_self h3
    · show (ch.set idx (u, y.mults[k])).map Prod.snd = _
      rw [List.map_set, h2, hsm]

theorem treeItems_of (size : ℕ) (mults : List ℕ) (ts : List (FusionTree S)) (start k : ℕ) (t : FusionTree S)
    (h : ts[k]? = some t) :
    (t, (start + size * k, start + size * k + size), mults) ∈ TProd.treeItems size mults ts start := by
  induction ts generalizing start k with
  | nil => simp at h
  | cons x ts ih =>
    rw [TProd.treeItems]
    cases k with
    | zero =>
      obtain rfl : x = t := by simpa using h
      simp
    | succ k =>
      have := ih (start + size) k (by simpa using h)
      refine List.mem_cons_of_mem _ ?_
      rw [show start + size * (k + 1) = start + size + size * k by ring]
      exact this

theorem treeBlocks_of (R : FusionRule S) (areDual : List Bool) (c : S) (pre : List (List S × List ℕ))
    (item : List S × List ℕ) (post : List (List S × List ℕ)) (start k : ℕ) (t : FusionTree S)
    (h : (allTrees R item.1 c areDual)[k]? = some t) :
    (t, (start + (pre.map (itemSize R c)).sum + item.2.prod * k,
        start + (pre.map (itemSize R c)).sum + item.2.prod * k + item.2.prod), item.2) ∈
      TProd.treeBlocksFrom R areDual c (pre ++ item :: post) start := by
  induction pre generalizing start with
  | nil =>
    rw [List.nil_append, TProd.treeBlocksFrom]
    exact List.mem_append_left _ (by simpa using treeItems_of item.2.prod item.2 _ start k t h)
  | cons x pre ih =>
    rw [List.cons_append, TProd.treeBlocksFrom]
    refine List.mem_append_right _ ?_
    have := ih (start + (allTrees R x.1 c areDual).length * x.2.prod)
    rw [List.map_cons, List.sum_cons, ← Nat.add_assoc,
      show itemSize R c x = (allTrees R x.1 c areDual).length * x.2.prod by rw [length_allTrees]; rfl]
    exact this

/-- The rows of a tree, in terms of the forest block and the number of the tree in it -/
theorem treeRow_iff (R : FusionRule S) {s : Side S} (hg : ∀ x ∈ s.spaces, GoodSpace x) (c : S) (t : FusionTree S)
    (ms : List ℕ) (p : ℕ) : TreeRow R s c t ms p ↔
      ∃ fb ∈ TProd.iterForestBlocks R s.spaces c, ∃ (mults : List ℕ) (k : ℕ), (fb.1, mults) ∈ TProd.iterUncoupled s.spaces ∧
        (allTrees R fb.1 c s.areDual)[k]? = some t ∧ InShape ms mults ∧
        p = fb.2.1 + (k * mults.prod + packRow (makeStride mults true) ms) := by
  constructor
  · rintro ⟨st, en, mults, htb, hms, hp⟩
    obtain ⟨pre, item, post, h1, k, h2, h3, h4⟩ := treeBlocks_mem R s.areDual c _ 0 _ htb
    simp only at h2 h3 h4
    have hk : k < size R item.1 c := by
      have := (List.getElem?_eq_some_iff.1 h2).1
      rwa [length_allTrees] at this
    have hmem : item ∈ TProd.iterUncoupled s.spaces := by rw [h1]; simp
    have hpos := inShape_prod_pos hms
    have hpos' : itemSize R c item ≠ 0 := by
      rw [h3] at hpos
      have := Nat.mul_pos (by omega : 0 < size R item.1 c) hpos
      unfold itemSize
      omega
    refine ⟨_, by rw [TProd.iterForestBlocks, h1]; exact forestBlocks_of_item R c pre item post 0 hpos', mults, k,
      by rw [h3]; exact hmem, h2, hms, ?_⟩
    obtain ⟨h5, -⟩ := Prod.ext_iff.1 h4
    simp only at h5
    rw [hp, h5, h3]
    simp only
    ring
  · rintro ⟨fb, hfb, mults, k, h1, h2, h3, hp⟩
    obtain ⟨pre, item, post, hi, e1, e2, e3⟩ := forestBlocks_item R c _ 0 fb hfb
    have hmem : item ∈ TProd.iterUncoupled s.spaces := by rw [hi]; simp
    have hm : mults = item.2 := by
      have := (item_mults hg _ h1).1
      simp only at this
      rw [← this, ← (item_mults hg _ hmem).1, e1]
    subst hm
    refine ⟨0 + (pre.map (itemSize R c)).sum + item.2.prod * k,
      0 + (pre.map (itemSize R c)).sum + item.2.prod * k + item.2.prod, item.2, ?_, h3, ?_⟩
    · unfold TProd.iterTreeBlocks
      rw [hi]
      exact treeBlocks_of R s.areDual c pre item post 0 k t (by rw [← e1]; exact h2)
    · rw [hp, e3]
      simp only
      ring

end forests

end Cyten.FT
