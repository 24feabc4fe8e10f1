import Verif.Spec.FTDiag
import Verif.Spec.FTMask
import Verif.Lemmas.Compress

/-!
# C91: diagonal tensors of the fusion tree backend
-/

namespace Cyten.FT
open Cyten.Abelian Cyten.Spaces Cyten.Tools Cyten.FT.Spec Cyten.Props Cyten.ListSum
open Cyten.Abelian.Spec (diagEntry IsDiagIndex)

variable {S K L P : Type} [LinearOrder S]

theorem value_eq [Zero K] {co : BLeg S} (hc : Coupled co) (D : DEnts K) {i : ℕ} {s : S}
    (hi : co.sectors[i]? = some s) (m : ℕ) : value co D s m = diagEntry D i m := by
  unfold value diagValue diagEntry asRows
  induction D with
  | nil => simp
  | cons p D ih =>
    rw [List.map_cons, List.find?_cons, lookup_cons]
    by_cases h : i = p.1
    · rw [if_pos h]
      have : (co.sectors[p.1]? == some s) = true := by rw [← h, hi]; simp
      rw [this]
      rfl
    · rw [if_neg h]
      have : (co.sectors[p.1]? == some s) = false := by
        rw [beq_eq_false_iff_ne]
        intro h'
        exact h (nodup_getElem? hc.nodup hi h')
      rw [this]
      exact ih

theorem inLeg_index {co : BLeg S} (hc : Coupled co) {s : S} {m : ℕ} (h : InLeg co s m) :
    ∃ i, co.sectors[i]? = some s ∧ IsDiagIndex co.mults i m := by
  obtain ⟨i, hi, e⟩ := List.mem_iff_getElem.1 h.1
  have hs : co.sectors[i]? = some s := by rw [List.getElem?_eq_getElem hi, e]
  refine ⟨i, hs, hc.len ▸ hi, ?_⟩
  rw [← mult_eq hc hs]
  exact h.2

theorem index_inLeg {co : BLeg S} (hc : Coupled co) {i m : ℕ} (h : IsDiagIndex co.mults i m) :
    ∃ s, co.sectors[i]? = some s ∧ InLeg co s m := by
  have hi : i < co.sectors.length := by rw [hc.len]; exact h.1
  refine ⟨co.sectors[i], List.getElem?_eq_getElem hi, List.getElem_mem hi, ?_⟩
  rw [mult_eq hc (List.getElem?_eq_getElem hi)]
  exact h.2

/-! ## Elementwise functions -/

theorem diagUnaryLoop_eq [Zero K] (f : List K → List L) (ms : List ℕ) (i : ℕ) (a : DEnts K) (ha : From i a) :
    diagUnaryLoop f i ms a = (ms.zipIdx i).map fun p => (p.2, f (blockOr a p)) := by
  induction ms generalizing i a with
  | nil => rfl
  | cons m ms ih =>
    rw [diagUnaryLoop, List.zipIdx_cons, List.map_cons, ih _ _ ha.advance, headBlock_eq ha]
    rw [List.cons.injEq]
    refine ⟨rfl, List.map_congr_left fun p hp => ?_⟩
    have hp' : i + 1 ≤ p.2 := (List.mem_zipIdx hp).1
    unfold blockOr
    rw [lookup_advance ha hp']

/-- **C91** (unary). An elementwise function of a diagonal tensor acts on every value, for all sectors; with
`maps_zero_to_zero` the function has to. -/
theorem C91_unary [Zero K] [Zero L] {co : BLeg S} (hc : Coupled co) (g : K → L) (flag : Bool)
    (hg : flag = true → g 0 = 0) (a : DEnts K) (ha : Abelian.Spec.DSane co.mults a) :
    Abelian.Spec.DSane co.mults (diagUnary co (List.map g) flag a) ∧
    ∀ s m, InLeg co s m → value co (diagUnary co (List.map g) flag a) s m = g (value co a s m) := by
  have e : diagUnary co (List.map g) flag a = elementwiseUnary co.mults (List.map g) flag a := by
    cases flag with
    | true => rfl
    | false =>
      rw [elementwiseUnary_false co.mults _ a ha]
      exact diagUnaryLoop_eq _ _ _ _ ha.from
  rw [e]
  obtain ⟨h1, h2⟩ := C36_unary co.mults g flag hg a ha
  refine ⟨h1, fun s m h => ?_⟩
  obtain ⟨i, hi, hd⟩ := inLeg_index hc h
  rw [value_eq hc _ hi, value_eq hc _ hi, h2 i m hd]

theorem diagBinaryLoop_eq [Zero K] [Zero L] (f : List K → List L → List P) (ms : List ℕ) (i : ℕ) (a : DEnts K)
    (b : DEnts L) : diagBinaryLoop f i ms a b = binaryLoop f false i ms a b := by
  induction ms generalizing i a b with
  | nil => rfl
  | cons m ms ih => rw [diagBinaryLoop, binaryLoop, ih]; simp

/-- Every pair with equal keys is visited. -/
theorem iterCommon_complete {A B : Type} (ka : A → ℕ) (kb : B → ℕ) (a : List A) (b : List B)
    (ha : (a.map ka).Pairwise (· < ·)) (hb : (b.map kb).Pairwise (· < ·)) {x : A} {y : B} (hx : x ∈ a) (hy : y ∈ b)
    (hk : ka x = kb y) : (x, y) ∈ iterCommon ka kb a b := by
  classical
  by_contra hn
  have h := sum_mergeCommon (K := ℕ) ka kb (fun x' y' => if x' = x ∧ y' = y then 1 else 0) (a.length + b.length) a b
    le_rfl ha hb
  have h0 : ((mergeCommon ka kb (a.length + b.length) a b).map fun p : A × B =>
      if p.1 = x ∧ p.2 = y then 1 else 0).sum = 0 := by
    refine sum_zero _ _ fun p hp => if_neg ?_
    rintro ⟨rfl, rfl⟩
    exact hn hp
  rw [h0] at h
  have h1 := List.sum_eq_zero_iff.1 h.symm _ (List.mem_map.2 ⟨x, hx, rfl⟩)
  have h2 := List.sum_eq_zero_iff.1 h1 _ (List.mem_map.2 ⟨y, hy, rfl⟩)
  simp [hk] at h2

/-- **C91** (binary). An elementwise function of two diagonal tensors acts on every pair of values, whichever
blocks are stored; with `partial_zero_is_zero` the function has to be zero where one argument is (compare
`C36_binary_flag_bug` for the abelian backend). -/
theorem C91_binary [Zero K] [Zero L] [Zero P] {co : BLeg S} (hc : Coupled co) (op : K → L → P) (flag : Bool)
    (h0 : flag = true → (∀ y, op 0 y = 0) ∧ ∀ x, op x 0 = 0) (a : DEnts K) (b : DEnts L)
    (ha : Abelian.Spec.DSane co.mults a) (hb : Abelian.Spec.DSane co.mults b) :
    Abelian.Spec.DSane co.mults (diagBinary co (List.zipWith op) flag a b) ∧
    ∀ s m, InLeg co s m →
      value co (diagBinary co (List.zipWith op) flag a b) s m = op (value co a s m) (value co b s m) := by
  cases flag with
  | false =>
    have e : diagBinary co (List.zipWith op) false a b = elementwiseBinary co.mults (List.zipWith op) false a b := by
      unfold diagBinary elementwiseBinary
      rw [diagBinaryLoop_eq]
      rfl
    rw [e]
    obtain ⟨h1, h2⟩ := C36_binary co.mults op a b ha hb
    refine ⟨h1, fun s m h => ?_⟩
    obtain ⟨i, hi, hd⟩ := inLeg_index hc h
    rw [value_eq hc _ hi, value_eq hc _ hi, value_eq hc _ hi, h2 i m hd]
  | true =>
    obtain ⟨hl, hr⟩ := h0 rfl
    have e : diagBinary co (List.zipWith op) true a b =
        (iterCommon Prod.fst Prod.fst a b).map fun p => (p.1.1, List.zipWith op p.1.2 p.2.2) := rfl
    rw [e]
    have hsub := (mergeCommon_sublist (Prod.fst : ℕ × List K → ℕ) (Prod.fst : ℕ × List L → ℕ) (a.length + b.length) a b).2
    have hmem : ∀ p ∈ iterCommon (Prod.fst : ℕ × List K → ℕ) (Prod.fst : ℕ × List L → ℕ) a b,
      p.1 ∈ a ∧ p.2 ∈ b ∧ p.1.1 = p.2.1 := mem_mergeCommon Prod.fst Prod.fst _ a b
    have hs : Abelian.Spec.DSane co.mults ((iterCommon (Prod.fst : ℕ × List K → ℕ) (Prod.fst : ℕ × List L → ℕ) a b).map
        fun p => (p.1.1, List.zipWith op p.1.2 p.2.2)) := by
      refine ⟨fun p hp => ?_, ?_⟩
      · obtain ⟨q, hq, rfl⟩ := List.mem_map.1 hp
        obtain ⟨q1, q2, q3⟩ := hmem q hq
        refine ⟨(ha.shapes _ q1).1, ?_⟩
        have e1 := (ha.shapes _ q1).2
        have e2 := (hb.shapes _ q2).2
        rw [← q3] at e2
        rw [List.length_zipWith, e1, e2, min_self]
      · rw [List.map_map]
        have : ((iterCommon (Prod.fst : ℕ × List K → ℕ) (Prod.fst : ℕ × List L → ℕ) a b).map
            (Prod.fst ∘ fun p => (p.1.1, List.zipWith op p.1.2 p.2.2))) =
            ((iterCommon (Prod.fst : ℕ × List K → ℕ) (Prod.fst : ℕ × List L → ℕ) a b).map Prod.fst).map Prod.fst := by
          rw [List.map_map]; rfl
        rw [this]
        exact ha.sorted.sublist (hsub.map Prod.fst)
    refine ⟨hs, fun s m h => ?_⟩
    obtain ⟨i, hi, hd⟩ := inLeg_index hc h
    rw [value_eq hc _ hi, value_eq hc _ hi, value_eq hc _ hi]
    unfold diagEntry
    cases hx : a.lookup i with
    | none =>
      have : List.lookup i ((iterCommon (Prod.fst : ℕ × List K → ℕ) (Prod.fst : ℕ × List L → ℕ) a b).map
        fun p => (p.1.1, List.zipWith op p.1.2 p.2.2)) = none := by
        rw [lookup_none_iff]
        intro p hp
        obtain ⟨q, hq, rfl⟩ := List.mem_map.1 hp
        exact lookup_none_iff.1 hx _ (hmem q hq).1
      rw [this]
      simp [hl]
    | some x =>
      cases hy : b.lookup i with
      | none =>
        have : List.lookup i ((iterCommon (Prod.fst : ℕ × List K → ℕ) (Prod.fst : ℕ × List L → ℕ) a b).map
          fun p => (p.1.1, List.zipWith op p.1.2 p.2.2)) = none := by
          rw [lookup_none_iff]
          intro p hp
          obtain ⟨q, hq, rfl⟩ := List.mem_map.1 hp
          rw [(hmem q hq).2.2]
          exact lookup_none_iff.1 hy _ (hmem q hq).2.1
        rw [this]
        simp [hr]
      | some y =>
        have hm := iterCommon_complete Prod.fst Prod.fst a b ha.sorted hb.sorted (lookup_mem hx) (lookup_mem hy) rfl
        have := lookup_of_mem hs.sorted (List.mem_map.2 ⟨_, hm, rfl⟩)
        simp only at this
        rw [this]
        have l1 := ha.lookup_length hx
        have l2 := hb.lookup_length hy
        have g1 : m < x.length := by rw [l1]; exact hd.2
        have g2 : m < y.length := by rw [l2]; exact hd.2
        simp [List.getD_eq_getElem?_getD, g1, g2]

/-! ## Reductions -/

/-- **C91** (all). For positive multiplicities `all(D)` is true iff all values are. -/
theorem C91_all {co : BLeg S} (hc : Coupled co) (hpos : ∀ m ∈ co.mults, 0 < m) (a : DEnts Bool)
    (ha : Abelian.Spec.DSane co.mults a) :
    diagAll co a = true ↔ ∀ s m, InLeg co s m → ∃ e ∈ a, co.sectors[e.1]? = some s ∧ e.2[m]? = some true := by
  have e : diagAll co a = diagonalAll co.mults a := by unfold diagAll diagonalAll; rw [hc.len]
  rw [e, C36_all co.mults hpos a ha]
  have key : ∀ (i m : ℕ) (s : S), co.sectors[i]? = some s →
      (((a.lookup i).getD []).getD m false = true ↔ ∃ e ∈ a, co.sectors[e.1]? = some s ∧ e.2[m]? = some true) := by
    intro i m s hi
    constructor
    · intro h
      cases hx : a.lookup i with
      | none => rw [hx] at h; simp at h
      | some x =>
        rw [hx] at h
        refine ⟨(i, x), lookup_mem hx, hi, ?_⟩
        rw [List.getD_eq_getElem?_getD, Option.getD_some] at h
        cases hy : x[m]? with
        | none => rw [hy] at h; simp at h
        | some y => rw [hy] at h; simp at h; rw [h]
    · rintro ⟨e, he, e1, e2⟩
      have : i = e.1 := nodup_getElem? hc.nodup hi e1
      rw [this, lookup_of_mem ha.sorted he]
      simp [List.getD_eq_getElem?_getD, e2]
  constructor
  · intro h s m hm
    obtain ⟨i, hi, hd⟩ := inLeg_index hc hm
    exact (key i m s hi).1 (h i m hd)
  · intro h i m hd
    obtain ⟨s, hi, hm⟩ := index_inLeg hc hd
    exact (key i m s hi).2 (h s m hm)

/-- **C91** (any). `any(D)` is true iff some value is. -/
theorem C91_any {co : BLeg S} (hc : Coupled co) (a : DEnts Bool) (ha : Abelian.Spec.DSane co.mults a) :
    diagAny a = true ↔ ∃ s m, InLeg co s m ∧ ∃ e ∈ a, co.sectors[e.1]? = some s ∧ e.2[m]? = some true := by
  have e : diagAny a = diagonalAny a := rfl
  rw [e, C36_any co.mults a ha]
  constructor
  · rintro ⟨i, m, hd, h⟩
    obtain ⟨s, hi, hm⟩ := index_inLeg hc hd
    refine ⟨s, m, hm, ?_⟩
    cases hx : a.lookup i with
    | none => rw [hx] at h; simp at h
    | some x =>
      rw [hx] at h
      refine ⟨(i, x), lookup_mem hx, hi, ?_⟩
      rw [List.getD_eq_getElem?_getD, Option.getD_some] at h
      cases hy : x[m]? with
      | none => rw [hy] at h; simp at h
      | some y => rw [hy] at h; simp at h; rw [h]
  · rintro ⟨s, m, hm, e, he, e1, e2⟩
    obtain ⟨i, hi, hd⟩ := inLeg_index hc hm
    refine ⟨i, m, hd, ?_⟩
    have : i = e.1 := nodup_getElem? hc.nodup hi e1
    rw [this, lookup_of_mem ha.sorted he]
    simp [List.getD_eq_getElem?_getD, e2]

theorem diagReduceLoop_eq [Zero K] {A : Type} (f : List K → A) (ms : List ℕ) (i : ℕ) (a : DEnts K) :
    diagReduceLoop f i ms a = (reduceLoop i ms a).map f := by
  induction ms generalizing i a with
  | nil => rfl
  | cons m ms ih => rw [diagReduceLoop, reduceLoop, List.map_cons, ih]

/-- **C91** (max). `D.max()` is the largest of all values, also of those of sectors without a block. -/
theorem C91_max [LinearOrder K] [Zero K] {co : BLeg S} (hc : Coupled co) (hne : co.sectors ≠ [])
    (hpos : ∀ m ∈ co.mults, 0 < m) (a : DEnts K) (ha : Abelian.Spec.DSane co.mults a) :
    ∃ x, diagMax co a = some x ∧ (∃ s m, InLeg co s m ∧ value co a s m = x) ∧
      ∀ s m, InLeg co s m → value co a s m ≤ x := by
  have e : diagMax co a = diagonalMax co.mults a := by
    unfold diagMax diagonalMax reduceDiagonal
    rw [diagReduceLoop_eq]
  have hne' : co.mults ≠ [] := by
    intro h
    apply hne
    have := hc.len
    rw [h] at this
    exact List.length_eq_zero_iff.1 this
  obtain ⟨x, h1, ⟨i, m, hd, h2⟩, h3⟩ := C36_max co.mults hne' hpos a ha
  refine ⟨x, by rw [e, h1], ?_, fun s m hm => ?_⟩
  · obtain ⟨s, hi, hm⟩ := index_inLeg hc hd
    exact ⟨s, m, hm, by rw [value_eq hc _ hi, h2]⟩
  · obtain ⟨i, hi, hd⟩ := inLeg_index hc hm
    rw [value_eq hc _ hi]
    exact h3 i m hd

/-- **C91** (trace). The trace is the sum of all values, weighted with the quantum dimensions of their sectors. -/
theorem C91_trace [CommSemiring K] {co : BLeg S} (hc : Coupled co) (qd : S → K) (a : DEnts K)
    (ha : Abelian.Spec.DSane co.mults a) :
    diagTrace (co.sectors.map qd) a =
      (co.sectors.map fun s => qd s * ((List.range (mult co s)).map fun m => value co a s m).sum).sum := by
  have e1 : diagTrace (co.sectors.map qd) a = (a.map fun p => (co.sectors.map qd).getD p.1 0 * p.2.sum).sum := by
    unfold diagTrace
    rw [List.sum_eq_foldl, List.foldl_map]
  rw [e1]
  have e2 : (co.sectors.map fun s => qd s * ((List.range (mult co s)).map fun m => value co a s m).sum) =
      (List.range co.sectors.length).map fun i => (co.sectors.map qd).getD i 0 *
        ((List.range (co.mults.getD i 0)).map fun m => diagEntry a i m).sum := by
    refine List.ext_getElem (by simp) fun i h1 h2 => ?_
    rw [List.length_map] at h1
    have hi := List.getElem?_eq_getElem h1
    simp only [List.getElem_map, List.getElem_range]
    rw [mult_eq hc hi, List.getD_eq_getElem?_getD (l := co.sectors.map qd), List.getElem?_map, hi]
    simp only [Option.map_some, Option.getD_some]
    congr 2
    exact List.map_congr_left fun m _ => value_eq hc _ hi m
  rw [e2]
  have hlt : ∀ p ∈ a, p.1 < co.sectors.length := fun p hp => by rw [hc.len]; exact (ha.shapes p hp).1
  -- every block contributes to its own number
  have e3 : ∀ i, i < co.sectors.length → ((List.range (co.mults.getD i 0)).map fun m => diagEntry a i m).sum =
      (a.map fun p => if p.1 = i then p.2.sum else 0).sum := by
    intro i hi
    cases hx : a.lookup i with
    | none =>
      rw [sum_zero, sum_zero]
      · intro p hp
        exact if_neg (lookup_none_iff.1 hx p hp)
      · intro m _
        unfold diagEntry
        rw [hx]
        simp
    | some x =>
      have hm := lookup_mem hx
      have hl := ha.lookup_length hx
      have e4 : ((List.range (co.mults.getD i 0)).map fun m => diagEntry a i m) = x := by
        refine List.ext_getElem (by simp [hl]) fun m h1 h2 => ?_
        simp [diagEntry, hx, List.getD_eq_getElem?_getD, h2]
      rw [e4]
      have hn : (a.map Prod.fst).Nodup := nodup_of_lt ha.sorted
      clear e4 hl hlt ha hx e1 e2
      induction a with
      | nil => simp at hm
      | cons p a ih =>
        rw [List.map_cons, List.nodup_cons] at hn
        rw [List.map_cons, List.sum_cons]
        rcases List.mem_cons.1 hm with rfl | hm
        · rw [if_pos rfl, sum_zero, add_zero]
          intro q hq
          refine if_neg fun h => hn.1 ?_
          exact List.mem_map.2 ⟨q, hq, h⟩
        · rw [if_neg, zero_add, ih hm hn.2]
          rintro rfl
          exact hn.1 (List.mem_map.2 ⟨_, hm, rfl⟩)
  have e5 : ((List.range co.sectors.length).map fun i => (co.sectors.map qd).getD i 0 *
        ((List.range (co.mults.getD i 0)).map fun m => diagEntry a i m).sum) =
      (List.range co.sectors.length).map fun i =>
        (a.map fun p => if p.1 = i then (co.sectors.map qd).getD p.1 0 * p.2.sum else 0).sum := by
    refine List.map_congr_left fun i hi => ?_
    rw [e3 i (List.mem_range.1 hi), ← List.sum_map_mul_left]
    congr 1
    refine List.map_congr_left fun p _ => ?_
    by_cases h : p.1 = i
    · rw [if_pos h, if_pos h, h]
    · rw [if_neg h, if_neg h, mul_zero]
  rw [e5]
  clear e5 e3 e2 e1
  clear ha
  induction a with
  | nil => simp
  | cons p a ih =>
    simp only [List.map_cons, List.sum_cons, List.sum_map_add]
    rw [← ih fun q hq => hlt q (List.mem_cons_of_mem _ hq)]
    congr 1
    have hp := hlt p List.mem_cons_self
    rw [sum_single' _ List.nodup_range p.1 (List.mem_range.2 hp)]
    · rw [if_pos rfl]
    · intro i _ h
      exact if_neg fun h' => h h'.symm

/-! ## Masks -/

/-- **C91** (mask). `D.apply_mask(mask)`: the values that are kept, counted within each sector; the projection
keeps the indices `mk s` of the sector `s`. -/
theorem C91_apply_mask [Zero K] {large small : BLeg S} (M : List ((ℕ × ℕ) × List Bool)) (mk : S → List Bool)
    (hP : ProjectionData large small M mk) (a : DEnts K) (ha : Abelian.Spec.DSane large.mults a) :
    Abelian.Spec.DSane small.mults (diagApplyMask a M) ∧
    ∀ (s : S) (j i : ℕ), InLeg small s j → MaskIndex (mk s) j i →
      value small (diagApplyMask a M) s j = value large a s i := by
  obtain ⟨hl, hs, hM, hsorted, hstored, hlen, hcount⟩ := hP
  have hmem : ∀ p ∈ iterCommon (Prod.fst : ℕ × List K → ℕ) (fun e : (ℕ × ℕ) × List Bool => e.1.2) a M,
      p.1 ∈ a ∧ p.2 ∈ M ∧ p.1.1 = p.2.1.2 := mem_mergeCommon _ _ _ a M
  have hsub := (mergeCommon_sublist (Prod.fst : ℕ × List K → ℕ) (fun e : (ℕ × ℕ) × List Bool => e.1.2)
    (a.length + M.length) a M).1
  have hs0 : (M.map fun e => e.1.1).Pairwise (· < ·) := by
    rw [List.pairwise_map] at hsorted ⊢
    refine hsorted.imp_of_mem fun {e f} he hf h => ?_
    obtain ⟨s, s1, s2, _⟩ := hM e he
    obtain ⟨t, t1, t2, _⟩ := hM f hf
    exact (hs.lt_iff s1 t1).2 ((hl.lt_iff s2 t2).1 h)
  have clen : ∀ (s : S) (x : List K), s ∈ small.sectors → s ∈ large.sectors → x.length = mult large s →
      (compress (mk s) x).length = mult small s := by
    intro s x h1 h2 h3
    rw [hcount s h1]
    exact length_compress _ _ (by rw [hlen s h2, h3])
  have hD : Abelian.Spec.DSane small.mults (diagApplyMask a M) := by
    refine ⟨fun p hp => ?_, ?_⟩
    · obtain ⟨q, hq, rfl⟩ := List.mem_map.1 hp
      obtain ⟨q1, q2, q3⟩ := hmem q hq
      obtain ⟨s, s1, s2, s3⟩ := hM _ q2
      refine ⟨?_, ?_⟩
      · rw [← hs.len]
        exact (List.getElem?_eq_some_iff.1 s1).1
      · rw [← mult_eq hs s1]
        show (compress q.2.2 q.1.2).length = _
        rw [s3]
        refine clen s _ (List.mem_of_getElem? s1) (List.mem_of_getElem? s2) ?_
        rw [(ha.shapes _ q1).2, q3, mult_eq hl s2]
    · unfold diagApplyMask
      rw [List.map_map]
      have : ((iterCommon (Prod.fst : ℕ × List K → ℕ) (fun e : (ℕ × ℕ) × List Bool => e.1.2) a M).map
          (Prod.fst ∘ fun p => (p.2.1.1, compress p.2.2 p.1.2))) =
          ((iterCommon (Prod.fst : ℕ × List K → ℕ) (fun e : (ℕ × ℕ) × List Bool => e.1.2) a M).map Prod.snd).map
            fun e => e.1.1 := by
        rw [List.map_map]; rfl
      rw [this]
      exact hs0.sublist (hsub.map _)
  refine ⟨hD, fun s j i hj hi => ?_⟩
  obtain ⟨e, he, e1⟩ := hstored s hj.1
  obtain ⟨s', s1, s2, s3⟩ := hM e he
  have : s' = s := by rw [e1] at s1; exact (Option.some.inj s1).symm
  subst this
  rw [value_eq hs _ e1, value_eq hl _ s2]
  unfold diagEntry
  cases hx : a.lookup e.1.2 with
  | none =>
    have : List.lookup e.1.1 (diagApplyMask a M) = none := by
      rw [lookup_none_iff]
      intro p hp h
      obtain ⟨q, hq, rfl⟩ := List.mem_map.1 hp
      obtain ⟨q1, q2, q3⟩ := hmem q hq
      have hqe : q.2 = e := List.inj_on_of_nodup_map (nodup_of_lt hs0) q2 he h
      rw [hqe] at q3
      exact lookup_none_iff.1 hx _ q1 q3
    rw [this]
    simp
  | some x =>
    have hm := iterCommon_complete Prod.fst (fun e : (ℕ × ℕ) × List Bool => e.1.2) a M ha.sorted hsorted
      (lookup_mem hx) he rfl
    have := lookup_of_mem hD.sorted (List.mem_map.2 ⟨_, hm, rfl⟩)
    simp only at this
    rw [this]
    simp only [Option.getD_some]
    rw [s3]
    have hxl : x.length = (mk s').length := by
      rw [hlen s' (List.mem_of_getElem? s2), ha.lookup_length hx, mult_eq hl s2]
    have hil : i < x.length := by rw [hxl]; exact (List.getElem?_eq_some_iff.1 hi.1).1
    have := (compress_get (mk s') x j x[i]).2 ⟨i, hi.1, List.getElem?_eq_getElem hil, hi.2⟩
    rw [List.getD_eq_getElem?_getD, this, List.getD_eq_getElem?_getD, List.getElem?_eq_getElem hil]

end Cyten.FT
