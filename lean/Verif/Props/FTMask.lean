import Verif.Lemmas.FTMask2
import Verif.Props.FTScale
import Mathlib.Data.List.Sort

/-!
# C90: contracting a leg with a mask in the fusion tree backend

`mask_contract_large_leg` and `mask_contract_small_leg`, as they are used by `apply_mask` and `enlarge_leg`.
-/

namespace Cyten.FT
open Cyten.FT.Spec Cyten.Tools Cyten.ListSum Cyten.Props Cyten.Spaces Cyten.Spaces.Spec Cyten.Abelian
  Cyten.FusionTrees Matrix

variable {S K : Type} [LinearOrder S]
variable {R : FusionRule S} {g : Bool} {idx : ℕ} {s s' : Side S} {l l' : BLeg S} {old new : SpaceData S}
  {dom : BLeg S} {D : List ((ℕ × ℕ) × List Bool)} {mk : S → List Bool}

/-! ## The coupled sectors before and after -/

theorem MaskSides.symm (h : MaskSides R g idx s s' l l' old new dom D mk) :
    MaskSides R (!g) idx s' s l' l new old dom D mk where
  ok := h.ok'
  ok' := h.ok
  mask := by
    have := h.mask
    cases g
    · exact this
    · exact this
  get := by rw [h.spaces, List.getElem?_set_self h.idx_lt]
  spaces := h.back
  dual := h.dual.symm

theorem multPos_mem {t : BLeg S} (ht : Coupled t) {c : S} (h : 0 < Spec.mult t c) : c ∈ t.sectors := by
  by_contra hn
  unfold Spec.mult at h
  rw [List.idxOf_of_notMem hn, ht.len, List.getD_eq_default _ _ (le_refl _)] at h
  omega

theorem mem_multPos {t : BLeg S} (ht : Coupled t) (hp : ∀ m ∈ t.mults, 0 < m) {c : S} (h : c ∈ t.sectors) :
    0 < Spec.mult t c := by
  have h1 : t.sectors.idxOf c < t.mults.length := by rw [← ht.len]; exact List.idxOf_lt_length_iff.2 h
  unfold Spec.mult
  rw [List.getD_eq_getElem _ _ h1]
  exact hp _ (List.getElem_mem h1)

/-- Coupled sectors of the small side are coupled sectors of the large side. -/
theorem sectors_sub (h : MaskSides R true idx s s' l l' old new dom D mk) (hp : ∀ m ∈ l'.mults, 0 < m) :
    l'.sectors ⊆ l.sectors := by
  intro c hc
  have hm := mem_multPos h.ok'.coupled hp hc
  obtain ⟨t, ms, htr⟩ := C89_tree_rows h.ok' c 0 hm
  obtain ⟨fb', hfb', mults', k, r1, r2, r3, r4⟩ := (treeRow_iff R h.ok'.good c t ms 0).1 htr
  obtain ⟨f1, f2, -⟩ := forest_info R c h.ok'.good fb' hfb'
  have hidx : idx < fb'.1.length := by rw [f2, h.spaces, List.length_set]; exact h.idx_lt
  have hu : t.uncoupled[idx]? = some fb'.1[idx] := by
    rw [(tree_unc h.ok' f2 r2).1]
    exact List.getElem?_eq_getElem hidx
  obtain ⟨A, -, -, -, a4⟩ := maskRow h true c (Mat.zeros 1 1 : Mat ℕ) (Or.inl rfl) 1 1
  obtain ⟨p', hp', -⟩ := a4 t ms _ 0 0 htr hu Nat.zero_lt_one Nat.zero_lt_one
  exact multPos_mem h.ok.coupled (lt_of_le_of_lt (Nat.zero_le _) (treeRow_lt h.ok hp'))

theorem sorted_eq {a b : List S} (ha : a.Pairwise (· < ·)) (hb : b.Pairwise (· < ·)) (hs : a ⊆ b)
    (hl : a.length = b.length) : a = b := by
  have h1 : a.Nodup := ha.imp fun h => ne_of_lt h
  have h2 : a.Perm b := (List.subperm_of_subset h1 hs).perm_of_length_le (by omega)
  exact List.Perm.eq_of_pairwise' (r := (· ≤ ·)) (ha.imp le_of_lt) (hb.imp le_of_lt) h2

theorem sectors_eq (h : MaskSides R g idx s s' l l' old new dom D mk) (hp : ∀ m ∈ l.mults, 0 < m)
    (hp' : ∀ m ∈ l'.mults, 0 < m) (hl : l.sectors.length = l'.sectors.length) : l.sectors = l'.sectors := by
  cases g with
  | true => exact (sorted_eq h.ok'.coupled.sorted h.ok.coupled.sorted (sectors_sub h hp') hl.symm).symm
  | false => exact sorted_eq h.ok.coupled.sorted h.ok'.coupled.sorted (sectors_sub h.symm hp) hl

theorem newNumber_get (h : MaskSides R g idx s s' l l' old new dom D mk) (hp : ∀ m ∈ l.mults, 0 < m)
    (hp' : ∀ m ∈ l'.mults, 0 < m) {c : S} {i : ℕ} (hi : l.sectors[i]? = some c) {n : ℕ} (hn : 0 < n)
    (hc : c ∈ l'.sectors) : l'.sectors[newNumber l l' c n i]? = some c := by
  unfold newNumber
  by_cases hl : l.sectors.length = l'.sectors.length
  · rw [if_pos hl, ← sectors_eq h hp hp' hl]
    exact hi
  · rw [if_neg hl, if_pos hn, if_pos hc, List.getElem?_eq_getElem (List.idxOf_lt_length_iff.2 hc)]
    simp

/-! ## All blocks -/

theorem mult_if (t : BLeg S) (ht : Coupled t) (c : S) :
    (if c ∈ t.sectors then t.mults.getD (t.sectors.idxOf c) 0 else 0) = Spec.mult t c := by
  by_cases h : c ∈ t.sectors
  · rw [if_pos h]; rfl
  · rw [if_neg h]
    by_contra hn
    exact h (multPos_mem ht (Nat.pos_of_ne_zero fun h0 => hn h0.symm))

/-- The codomain: the leg is in the domain or in the codomain -/
def sideC (d : Bool) (o l : BLeg S) : BLeg S := if d then o else l

/-- The domain -/
def sideD (d : Bool) (o l : BLeg S) : BLeg S := if d then l else o

/-- What the loop does with one block -/
def BlockDone [Zero K] (R : FusionRule S) (g d : Bool) (idx : ℕ) (s s' : Side S) (o l l' : BLeg S) (mk : S → List Bool)
    (e x : (ℕ × ℕ) × Mat K) : Prop :=
  ∃ c, (sideD d o l).sectors[e.1.2]? = some c ∧ x.2.rows = Spec.mult (sideC d o l') c ∧
    x.2.cols = Spec.mult (sideD d o l') c ∧
    x.1 = (if d then (e.1.1, newNumber l l' c (Spec.mult l' c) e.1.2)
      else (newNumber l l' c (Spec.mult l' c) e.1.1, e.1.2)) ∧
    ∀ (t : FusionTree S) (ms : List ℕ) (u : S) (p q : ℕ), TreeRow R s' c t ms p → t.uncoupled[idx]? = some u →
      q < Spec.mult o c →
      match oldIdx g (mk u) (ms.getD idx 0) with
      | some j => ∃ p', TreeRow R s c t (ms.set idx j) p' ∧ sideVal d x.2 p q = sideVal d e.2 p' q
      | none => sideVal d x.2 p q = 0

theorem maskLoop_spec [Zero K] (h : MaskSides R g idx s s' l l' old new dom D mk) (d : Bool) (o : BLeg S)
    (ho : Coupled o) (hT : d = true ∨ ∀ unc c, unc.length = s.spaces.length → size R unc c ≤ 1) (a : FEnts K)
    (ha : ∀ e ∈ a, ∃ c, (sideC d o l).sectors[e.1.1]? = some c ∧ (sideD d o l).sectors[e.1.2]? = some c ∧
      e.2.rows = Spec.mult (sideC d o l) c ∧ e.2.cols = Spec.mult (sideD d o l) c) :
    ∃ res, maskLoop R d g idx s.spaces s'.spaces (sideC d o l) (sideD d o l) (sideC d o l') (sideD d o l') dom D a =
        some res ∧ List.Forall₂ (BlockDone R g d idx s s' o l l' mk) a res := by
  induction a with
  | nil => exact ⟨[], rfl, List.Forall₂.nil⟩
  | cons e es ih =>
    obtain ⟨r, r1, r2⟩ := ih fun x hx => ha x (List.mem_cons_of_mem _ hx)
    obtain ⟨c, c1, c2, c3, c4⟩ := ha e List.mem_cons_self
    have k1 : Coupled (sideC d o l') := by cases d; exacts [h.ok'.coupled, ho]
    have k2 : Coupled (sideD d o l') := by cases d; exacts [ho, h.ok'.coupled]
    obtain ⟨A, a1, a2, a3, a4⟩ := maskRow h d c e.2 (hT.imp id fun hT unc => hT unc c)
      (Spec.mult (sideC d o l') c) (Spec.mult (sideD d o l') c)
    rw [maskLoop, c2]
    simp only [mult_if _ k1, mult_if _ k2, a1, r1, Option.map_some]
    refine ⟨_, rfl, List.Forall₂.cons ⟨c, c2, a2, a3, ?_, fun t ms u p q htr hu hq => ?_⟩ r2⟩
    · cases d <;> rfl
    · refine a4 t ms u p q htr hu ?_ ?_
      · cases d
        · show q < e.2.cols; rw [c4]; exact hq
        · show q < e.2.rows; rw [c3]; exact hq
      · cases d <;> exact hq

/-- Both sides and both kinds of masks at once -/
theorem maskContract_side [AddCommMonoid K] (h : MaskSides R g idx s s' l l' old new dom D mk)
    (hp : ∀ m ∈ l.mults, 0 < m) (hp' : ∀ m ∈ l'.mults, 0 < m) (d : Bool) (o : BLeg S)
    (ho : Coupled o) (hT : d = true ∨ ∀ unc c, unc.length = s.spaces.length → size R unc c ≤ 1)
    (big : Mat K → Bool) (hbig : ∀ M, big M = false → ∀ m < M.rows, ∀ n < M.cols, M.val m n = 0)
    (hempty : ∀ M, M.rows = 0 ∨ M.cols = 0 → big M = false) (a : FEnts K)
    (ha : FSane (sideC d o l) (sideD d o l) a) :
    ∃ res, maskContract R big d g idx s.spaces s'.spaces (sideC d o l) (sideD d o l) (sideC d o l') (sideD d o l')
        dom D a = some res ∧ FSane (sideC d o l') (sideD d o l') res ∧
      ∀ (c : S) (m : Fin (Spec.mult (sideC d o l') c)) (n : Fin (Spec.mult (sideD d o l') c)) (t : FusionTree S)
        (ms : List ℕ) (u : S), TreeRow R s' c t ms (if d then n else m : ℕ) → t.uncoupled[idx]? = some u →
        match oldIdx g (mk u) (ms.getD idx 0) with
        | some j => ∃ (m' : Fin (Spec.mult (sideC d o l) c)) (n' : Fin (Spec.mult (sideD d o l) c)),
            TreeRow R s c t (ms.set idx j) (if d then n' else m' : ℕ) ∧ (if d then m' else n' : ℕ) = (if d then m else n : ℕ) ∧
            matrixOf (sideC d o l') (sideD d o l') res c m n = matrixOf (sideC d o l) (sideD d o l) a c m' n'
        | none => matrixOf (sideC d o l') (sideD d o l') res c m n = 0 := by
  have k1 : Coupled (sideC d o l') := by cases d; exacts [h.ok'.coupled, ho]
  have k2 : Coupled (sideD d o l') := by cases d; exacts [ho, h.ok'.coupled]
  have q1 : Coupled (sideC d o l) := by cases d; exacts [h.ok.coupled, ho]
  have q2 : Coupled (sideD d o l) := by cases d; exacts [ho, h.ok.coupled]
  obtain ⟨r, r1, r2⟩ := maskLoop_spec h d o ho hT a (by
    intro e he
    obtain ⟨c, c1, c2⟩ := ha.coupled e he
    obtain ⟨s1, s2⟩ := ha.shape e he
    exact ⟨c, c1, c2, by rw [s1, mult_eq q1 c1], by rw [s2, mult_eq q2 c2]⟩)
  -- the numbers of a block that is kept
  have hkey : ∀ e ∈ a, ∀ x, BlockDone R g d idx s s' o l l' mk e x → big x.2 = true →
      ∃ c, (sideD d o l).sectors[e.1.2]? = some c ∧ (sideC d o l').sectors[x.1.1]? = some c ∧
        (sideD d o l').sectors[x.1.2]? = some c := by
    rintro e he x ⟨c, x1, x2, x3, x4, -⟩ hb
    have hne : 0 < x.2.rows ∧ 0 < x.2.cols := by
      by_contra hn
      have := hempty x.2 (by omega)
      rw [this] at hb
      cases hb
    have hl' : 0 < Spec.mult l' c := by
      cases d
      · have := hne.1; rw [x2] at this; exact this
      · have := hne.2; rw [x3] at this; exact this
    obtain ⟨c', y1, y2⟩ := ha.coupled e he
    obtain rfl : c = c' := Option.some.inj (x1.symm.trans y2)
    refine ⟨c, x1, ?_, ?_⟩
    · cases d
      · rw [x4]
        exact newNumber_get h hp hp' y1 hl' (multPos_mem h.ok'.coupled hl')
      · rw [x4]; exact y1
    · cases d
      · rw [x4]; exact y2
      · rw [x4]
        exact newNumber_get h hp hp' y2 hl' (multPos_mem h.ok'.coupled hl')
  have hsane : FSane (sideC d o l') (sideD d o l') (discardZeroBlocks big r) := by
    refine ⟨fun x hx => ?_, fun x hx => ?_, ?_⟩
    · obtain ⟨x1, x2⟩ := List.mem_filter.1 hx
      obtain ⟨i, hi, rfl⟩ := List.getElem_of_mem x1
      have hia : i < a.length := by rw [r2.length_eq]; exact hi
      have := (List.forall₂_iff_get.1 r2).2 i hia hi
      obtain ⟨c, -, z2, z3⟩ := hkey _ (List.get_mem a ⟨i, hia⟩) _ this (by simpa using x2)
      exact ⟨c, z2, z3⟩
    · obtain ⟨x1, x2⟩ := List.mem_filter.1 hx
      obtain ⟨i, hi, rfl⟩ := List.getElem_of_mem x1
      have hia : i < a.length := by rw [r2.length_eq]; exact hi
      have hb := (List.forall₂_iff_get.1 r2).2 i hia hi
      obtain ⟨c, z1, z2, z3⟩ := hkey _ (List.get_mem a ⟨i, hia⟩) _ hb (by simpa using x2)
      obtain ⟨c', b1, b2, b3, -⟩ := hb
      obtain rfl : c = c' := Option.some.inj (z1.symm.trans b1)
      simp only [List.get_eq_getElem] at b2 b3 z2 z3
      rw [b2, b3, mult_eq k1 z2, mult_eq k2 z3]
      exact ⟨rfl, rfl⟩
    · unfold discardZeroBlocks
      rw [List.pairwise_map, List.pairwise_filter, List.pairwise_iff_getElem]
      intro i j hi hj hij bi bj
      have hia : i < a.length := by rw [r2.length_eq]; exact hi
      have hja : j < a.length := by rw [r2.length_eq]; exact hj
      obtain ⟨ci, z1, -, z3⟩ := hkey _ (List.get_mem a ⟨i, hia⟩) _ ((List.forall₂_iff_get.1 r2).2 i hia hi) bi
      obtain ⟨cj, w1, -, w3⟩ := hkey _ (List.get_mem a ⟨j, hja⟩) _ ((List.forall₂_iff_get.1 r2).2 j hja hj) bj
      simp only [List.get_eq_getElem] at z1 z3 w1 w3
      have hlt : a[i].1.2 < a[j].1.2 := by
        have := List.pairwise_iff_getElem.1 ha.sorted i j (by simpa using hia) (by simpa using hja) hij
        simpa using this
      have hc : ci < cj := by
        obtain ⟨v1, rfl⟩ := List.getElem?_eq_some_iff.1 z1
        obtain ⟨v2, rfl⟩ := List.getElem?_eq_some_iff.1 w1
        exact List.pairwise_iff_getElem.1 q2.sorted _ _ v1 v2 hlt
      by_contra hn
      obtain ⟨v1, rfl⟩ := List.getElem?_eq_some_iff.1 z3
      obtain ⟨v2, rfl⟩ := List.getElem?_eq_some_iff.1 w3
      rcases Nat.lt_or_ge r[j].1.2 r[i].1.2 with hh | hh
      · exact absurd (List.pairwise_iff_getElem.1 k2.sorted _ _ v2 v1 hh) (not_lt.2 hc.le)
      · have : r[i].1.2 = r[j].1.2 := by omega
        simp only [this] at hc
        exact lt_irrefl _ hc
  refine ⟨discardZeroBlocks big r, ?_, hsane, fun c m n t ms u htr hu => ?_⟩
  · unfold maskContract
    rw [r1]
    rfl
  by_cases hex : ∃ e ∈ a, (sideD d o l).sectors[e.1.2]? = some c
  · obtain ⟨e, he, hec⟩ := hex
    obtain ⟨i, hi, rfl⟩ := List.getElem_of_mem he
    have hir : i < r.length := by rw [← r2.length_eq]; exact hi
    have hb := (List.forall₂_iff_get.1 r2).2 i hi hir
    simp only [List.get_eq_getElem] at hb
    have hb' := hb
    obtain ⟨c', b1, b2, b3, b4, b5⟩ := hb
    obtain rfl : c = c' := Option.some.inj (hec.symm.trans b1)
    -- the entries of the result are those of this block
    have hval : matrixOf (sideC d o l') (sideD d o l') (discardZeroBlocks big r) c m n = r[i].2.val m n := by
      by_cases hbg : big r[i].2 = true
      · obtain ⟨c', z1, z2, -⟩ := hkey _ he _ hb' hbg
        obtain rfl : c = c' := Option.some.inj (hec.symm.trans z1)
        rw [matrixOf_mem hsane k1 k2 (List.mem_filter.2 ⟨List.getElem_mem hir, hbg⟩) z2]
        rfl
      · rw [matrixOf_none]
        · refine (hbig _ (by simpa using hbg) _ ?_ _ ?_).symm
          · rw [b2]; exact m.2
          · rw [b3]; exact n.2
        · intro x hx hh
          obtain ⟨x1, x2⟩ := List.mem_filter.1 hx
          obtain ⟨j, hj, rfl⟩ := List.getElem_of_mem x1
          have hja : j < a.length := by rw [r2.length_eq]; exact hj
          obtain ⟨cj, z1, z2, -⟩ := hkey _ (List.get_mem a ⟨j, hja⟩) _ ((List.forall₂_iff_get.1 r2).2 j hja hj)
            (by simpa using x2)
          simp only [List.get_eq_getElem] at z1 z2
          obtain rfl : c = cj := Option.some.inj (hh.symm.trans z2)
          have e2 := nodup_getElem? q2.nodup z1 hec
          have hij : j = i := by
            have hn : (a.map fun e => e.1.2).Nodup := ha.sorted.imp fun h => Nat.ne_of_lt h
            refine (List.Nodup.getElem_inj_iff hn (hi := by simpa using hja) (hj := by simpa using hi)).1 ?_
            simpa using e2
          subst hij
          exact hbg (by simpa using x2)
    obtain ⟨c', y1, y2⟩ := ha.coupled a[i] he
    obtain rfl : c = c' := Option.some.inj (hec.symm.trans y2)
    have haval : ∀ m' n', matrixOf (sideC d o l) (sideD d o l) a c m' n' = a[i].2.val m' n' := by
      intro m' n'
      rw [matrixOf_mem ha q1 q2 he y1]
      rfl
    have hfin := b5 t ms u (if d then n else m : ℕ) (if d then m else n : ℕ) htr hu (by
      cases d
      · exact n.2
      · exact m.2)
    cases hoi : oldIdx g (mk u) (ms.getD idx 0) with
    | none =>
      rw [hoi] at hfin
      simp only at hfin ⊢
      rw [hval]
      cases d <;> exact hfin
    | some j =>
      rw [hoi] at hfin
      simp only at hfin ⊢
      obtain ⟨p', f1, f2⟩ := hfin
      have hlt := treeRow_lt h.ok f1
      cases d with
      | false =>
        refine ⟨⟨p', hlt⟩, n, f1, rfl, ?_⟩
        exact hval.trans (Eq.trans f2 (haval ⟨p', hlt⟩ n).symm)
      | true =>
        refine ⟨m, ⟨p', hlt⟩, f1, rfl, ?_⟩
        exact hval.trans (Eq.trans f2 (haval m ⟨p', hlt⟩).symm)
  · have hz : matrixOf (sideC d o l') (sideD d o l') (discardZeroBlocks big r) c = 0 := by
      refine matrixOf_none fun x hx hh => ?_
      obtain ⟨x1, x2⟩ := List.mem_filter.1 hx
      obtain ⟨j, hj, rfl⟩ := List.getElem_of_mem x1
      have hja : j < a.length := by rw [r2.length_eq]; exact hj
      obtain ⟨cj, z1, z2, -⟩ := hkey _ (List.get_mem a ⟨j, hja⟩) _ ((List.forall₂_iff_get.1 r2).2 j hja hj)
        (by simpa using x2)
      simp only [List.get_eq_getElem] at z1 z2
      obtain rfl : c = cj := Option.some.inj (hh.symm.trans z2)
      exact hex ⟨_, List.getElem_mem hja, z1⟩
    have hz2 : matrixOf (sideC d o l) (sideD d o l) a c = 0 := by
      refine matrixOf_none fun e he hh => ?_
      obtain ⟨c', y1, y2⟩ := ha.coupled e he
      obtain rfl : c = c' := Option.some.inj (hh.symm.trans y1)
      exact hex ⟨e, he, y2⟩
    cases hoi : oldIdx g (mk u) (ms.getD idx 0) with
    | none => simp [hz]
    | some j =>
      -- the row before the contraction, from the bookkeeping alone
      obtain ⟨A, -, -, -, a4⟩ := maskRow h true c (Mat.zeros 1 1 : Mat ℕ) (Or.inl rfl) 1 1
      have := a4 t ms u (if d then n else m : ℕ) 0 htr hu Nat.zero_lt_one Nat.zero_lt_one
      rw [hoi] at this
      obtain ⟨p', f1, -⟩ := this
      have hlt := treeRow_lt h.ok f1
      simp only
      cases d with
      | false => exact ⟨⟨p', hlt⟩, n, f1, rfl, by rw [hz, hz2]; rfl⟩
      | true => exact ⟨m, ⟨p', hlt⟩, f1, rfl, by rw [hz, hz2]; rfl⟩

theorem oldIdx_large (m : List Bool) (x : ℕ) (hx : x < countTrue m) : ∃ j, oldIdx true m x = some j ∧ MaskIndex m x j := by
  rw [← length_nonzero] at hx
  refine ⟨(nonzero m)[x], by rw [oldIdx, if_pos rfl, List.getD_eq_getElem _ _ hx], ?_⟩
  exact (nonzero_get m x _).1 (List.getElem?_eq_getElem hx)

theorem oldIdx_small (m : List Bool) (x : ℕ) :
    (∀ j, MaskIndex m j x → oldIdx false m x = some j) ∧ ((∀ j, ¬ MaskIndex m j x) → oldIdx false m x = none) := by
  refine ⟨fun j ⟨h1, h2⟩ => ?_, fun h => ?_⟩
  · obtain ⟨k1, k2⟩ := List.getElem?_eq_some_iff.1 h1
    unfold oldIdx
    rw [if_neg (by simp), List.getD_eq_getElem _ _ k1, k2, if_pos rfl, ← h2]
    rfl
  · unfold oldIdx
    rw [if_neg (by simp), if_neg]
    intro hb
    by_cases hlt : x < m.length
    · rw [List.getD_eq_getElem _ _ hlt] at hb
      exact h _ ⟨by rw [List.getElem?_eq_getElem hlt, hb], rfl⟩
    · rw [List.getD_eq_default _ _ (by omega)] at hb
      cases hb

/-- The multiplicity index of the leg is below its multiplicity. -/
theorem treeRow_idx {s : Side S} {l : BLeg S} (h : SideOK R s l) {c : S} {t : FusionTree S} {ms : List ℕ} {p : ℕ}
    (hr : TreeRow R s c t ms p) {i : ℕ} {x : SpaceData S} {u : S} (hx : s.spaces[i]? = some x)
    (hu : t.uncoupled[i]? = some u) : ms.getD i 0 < x.sectorMultiplicity u := by
  obtain ⟨fb, hfb, mults, k, r1, r2, r3, -⟩ := (treeRow_iff R h.good c t ms p).1 hr
  obtain ⟨-, f2, -⟩ := forest_info R c h.good fb hfb
  rw [(tree_unc h f2 r2).1] at hu
  have hm := item_mult_get h.good r1 hx hu
  obtain ⟨k1, k2⟩ := List.getElem?_eq_some_iff.1 hm
  have h1 : i < ms.length := by rw [r3.length]; exact k1
  have := (List.forall₂_iff_get.1 r3).2 i h1 k1
  simp only [List.get_eq_getElem, k2] at this
  rw [List.getD_eq_getElem _ _ h1]
  exact this

/-! ## The theorems -/

/-- The hypotheses of the theorems on masks: `s` and `s'` are the sides of the leg before and after the contraction,
which differ in the leg number `idx`; `old` and `new` are this leg before and after.  `dom` and `D` are the domain
and the data of the mask, `mk` the indices that it keeps. -/
def MaskCase (R : FusionRule S) (largeLeg : Bool) (idx : ℕ) (s s' : Side S) (l l' : BLeg S) (old new : SpaceData S)
    (dom : BLeg S) (D : List ((ℕ × ℕ) × List Bool)) (mk : S → List Bool) : Prop :=
  SideOK R s l ∧ SideOK R s' l' ∧ (∀ m ∈ l.mults, 0 < m) ∧ (∀ m ∈ l'.mults, 0 < m) ∧
    MaskOK (if largeLeg then old else new) (if largeLeg then new else old) dom D mk ∧
    s.spaces[idx]? = some old ∧ s'.spaces = s.spaces.set idx new ∧ s'.areDual = s.areDual

theorem MaskCase.sides (h : MaskCase R g idx s s' l l' old new dom D mk) :
    MaskSides R g idx s s' l l' old new dom D mk :=
  ⟨h.1, h.2.1, h.2.2.2.2.1, h.2.2.2.2.2.1, h.2.2.2.2.2.2.1, h.2.2.2.2.2.2.2⟩

/-- **C90** (rows). A fusion tree and multiplicity indices determine the row. -/
theorem C90_tree_row_unique (hR : R.Lawful) (h : SideOK R s l) {c : S} {t : FusionTree S} {ms : List ℕ} {p p' : ℕ}
    (h1 : TreeRow R s c t ms p) (h2 : TreeRow R s c t ms p') : p = p' := by
  obtain ⟨st, en, mults, a1, a2, a3⟩ := h1
  obtain ⟨st', en', mults', b1, b2, b3⟩ := h2
  have hn := h.tree_nodup hR (fun _ => 1) c
  have he := layout_blocks h (fun _ => 1) c
  have hn2 : ((TProd.iterTreeBlocks R s.areDual s.spaces c).map Prod.fst).Nodup := by
    rw [← he, List.map_map]
    exact hn
  have := List.inj_on_of_nodup_map hn2 a1 b1 rfl
  simp only [Prod.mk.injEq, true_and] at this
  obtain ⟨⟨rfl, rfl⟩, rfl⟩ := this
  rw [a3, b3]

/-- **C90** (large leg, in the domain). Contracting a leg of the domain with the large leg of a mask selects the kept
indices: the entry for a fusion tree and the index `ms[idx]` of the small leg is the entry of the tensor for the same
tree, the same row and the index of the large leg that the mask keeps as number `ms[idx]`. -/
theorem C90_large_leg_domain [AddCommMonoid K] (h : MaskCase R true idx s s' l l' old new dom D mk) {o : BLeg S}
    (ho : Coupled o) (big : Mat K → Bool) (hbig : ∀ M, big M = false → ∀ m < M.rows, ∀ n < M.cols, M.val m n = 0)
    (hempty : ∀ M, M.rows = 0 ∨ M.cols = 0 → big M = false) (a : FEnts K) (ha : FSane o l a) :
    ∃ res, maskContract R big true true idx s.spaces s'.spaces o l o l' dom D a = some res ∧ FSane o l' res ∧
      ∀ (c : S) (m : Fin (Spec.mult o c)) (n : Fin (Spec.mult l' c)) (t : FusionTree S) (ms : List ℕ) (u : S),
        TreeRow R s' c t ms n → t.uncoupled[idx]? = some u →
        ∃ (j : ℕ) (n' : Fin (Spec.mult l c)), MaskIndex (mk u) (ms.getD idx 0) j ∧ TreeRow R s c t (ms.set idx j) n' ∧
          matrixOf o l' res c m n = matrixOf o l a c m n' := by
  have hs := h.sides
  obtain ⟨res, h1, h2, h3⟩ := maskContract_side hs h.2.2.1 h.2.2.2.1 true o ho (Or.inl rfl) big hbig hempty a ha
  refine ⟨res, h1, h2, fun c m n t ms u htr hu => ?_⟩
  have hlt := treeRow_idx h.2.1 htr (by rw [hs.spaces, List.getElem?_set_self hs.idx_lt]) hu
  rw [hs.new_mult] at hlt
  obtain ⟨j, j1, j2⟩ := oldIdx_large (mk u) _ hlt
  have := h3 c m n t ms u htr hu
  rw [j1] at this
  obtain ⟨m', n', p1, p2, p3⟩ := this
  have hm : m' = m := Fin.ext p2
  subst hm
  exact ⟨j, n', j2, p1, p3⟩

/-- **C90** (small leg, in the domain). Contracting with the small leg embeds into the large leg: kept indices get
the entries of the tensor, the others get zero. -/
theorem C90_small_leg_domain [AddCommMonoid K] (h : MaskCase R false idx s s' l l' old new dom D mk) {o : BLeg S}
    (ho : Coupled o) (big : Mat K → Bool) (hbig : ∀ M, big M = false → ∀ m < M.rows, ∀ n < M.cols, M.val m n = 0)
    (hempty : ∀ M, M.rows = 0 ∨ M.cols = 0 → big M = false) (a : FEnts K) (ha : FSane o l a) :
    ∃ res, maskContract R big true false idx s.spaces s'.spaces o l o l' dom D a = some res ∧ FSane o l' res ∧
      ∀ (c : S) (m : Fin (Spec.mult o c)) (n : Fin (Spec.mult l' c)) (t : FusionTree S) (ms : List ℕ) (u : S),
        TreeRow R s' c t ms n → t.uncoupled[idx]? = some u →
        (∀ j, MaskIndex (mk u) j (ms.getD idx 0) → ∃ n' : Fin (Spec.mult l c), TreeRow R s c t (ms.set idx j) n' ∧
          matrixOf o l' res c m n = matrixOf o l a c m n') ∧
        ((∀ j, ¬ MaskIndex (mk u) j (ms.getD idx 0)) → matrixOf o l' res c m n = 0) := by
  have hs := h.sides
  obtain ⟨res, h1, h2, h3⟩ := maskContract_side hs h.2.2.1 h.2.2.2.1 true o ho (Or.inl rfl) big hbig hempty a ha
  refine ⟨res, h1, h2, fun c m n t ms u htr hu => ?_⟩
  have := h3 c m n t ms u htr hu
  obtain ⟨o1, o2⟩ := oldIdx_small (mk u) (ms.getD idx 0)
  refine ⟨fun j hj => ?_, fun hj => ?_⟩
  · rw [o1 j hj] at this
    obtain ⟨m', n', p1, p2, p3⟩ := this
    have hm : m' = m := Fin.ext p2
    subst hm
    exact ⟨n', p1, p3⟩
  · rw [o2 hj] at this
    exact this

/-- **C90** (hypothesis of the next theorems). For abelian symmetries there is at most one fusion tree. -/
theorem C90_single_tree_abelian (h1 : ∀ a b, (R.outcomes a b).length ≤ 1)
    (h2 : ∀ a b, ∀ c ∈ R.outcomes a b, R.rawN a b c = 1) (unc : List S) (c : S) : size R unc c ≤ 1 := by
  fun_induction size R unc c with
  | case1 => simp
  | case2 => simp
  | case3 => simp
  | case4 => simp
  | case5 c a =>
    rename_i x
    unfold FusionRule.nSymbol
    by_cases h : R.canFuseTo c a x = true
    · rw [if_pos h, h2 _ _ _ (by simpa [FusionRule.canFuseTo] using h)]
    · rw [if_neg h]; simp
  | case6 a1 a2 a3 rest ih =>
    rename_i ih
    have hl := h1 a1 a2
    match ho : R.outcomes a1 a2, hl with
    | [], _ => simp
    | [x], _ =>
      have hx := h2 a1 a2 x (by rw [ho]; simp)
      have := ih x
      simp only [List.map_cons, List.map_nil, List.sum_cons, List.sum_nil, hx]
      omega

/-- **C90** (hypothesis of the next theorems). For symmetries without multiplicities in the fusion (such as SU(2)),
there is at most one fusion tree with two uncoupled sectors. -/
theorem C90_single_tree_two_legs (h2 : ∀ a b, ∀ c ∈ R.outcomes a b, R.rawN a b c = 1) (unc : List S)
    (hl : unc.length = 2) (c : S) : size R unc c ≤ 1 := by
  match unc, hl with
  | [a, b], _ =>
    rw [size]
    unfold FusionRule.nSymbol
    by_cases h : R.canFuseTo a b c = true
    · rw [if_pos h, h2 _ _ _ (by simpa [FusionRule.canFuseTo] using h)]
    · rw [if_neg h]; simp

/-- **C90** (large leg, in the codomain; if there is at most one fusion tree for given uncoupled and coupled sectors,
see `C90_single_tree_abelian` and `C90_single_tree_two_legs`). -/
theorem C90_large_leg_codomain_partial [AddCommMonoid K] (h : MaskCase R true idx s s' l l' old new dom D mk)
    (hT : ∀ unc c, unc.length = s.spaces.length → size R unc c ≤ 1) {o : BLeg S}
    (ho : Coupled o) (big : Mat K → Bool) (hbig : ∀ M, big M = false → ∀ m < M.rows, ∀ n < M.cols, M.val m n = 0)
    (hempty : ∀ M, M.rows = 0 ∨ M.cols = 0 → big M = false) (a : FEnts K) (ha : FSane l o a) :
    ∃ res, maskContract R big false true idx s.spaces s'.spaces l o l' o dom D a = some res ∧ FSane l' o res ∧
      ∀ (c : S) (m : Fin (Spec.mult l' c)) (n : Fin (Spec.mult o c)) (t : FusionTree S) (ms : List ℕ) (u : S),
        TreeRow R s' c t ms m → t.uncoupled[idx]? = some u →
        ∃ (j : ℕ) (m' : Fin (Spec.mult l c)), MaskIndex (mk u) (ms.getD idx 0) j ∧ TreeRow R s c t (ms.set idx j) m' ∧
          matrixOf l' o res c m n = matrixOf l o a c m' n := by
  have hs := h.sides
  obtain ⟨res, h1, h2, h3⟩ := maskContract_side hs h.2.2.1 h.2.2.2.1 false o ho (Or.inr hT) big hbig hempty a ha
  refine ⟨res, h1, h2, fun c m n t ms u htr hu => ?_⟩
  have hlt := treeRow_idx h.2.1 htr (by rw [hs.spaces, List.getElem?_set_self hs.idx_lt]) hu
  rw [hs.new_mult] at hlt
  obtain ⟨j, j1, j2⟩ := oldIdx_large (mk u) _ hlt
  have := h3 c m n t ms u htr hu
  rw [j1] at this
  obtain ⟨m', n', p1, p2, p3⟩ := this
  have hm : n' = n := Fin.ext p2
  subst hm
  exact ⟨j, m', j2, p1, p3⟩

/-- **C90** (small leg, in the codomain; if there is at most one fusion tree). -/
theorem C90_small_leg_codomain_partial [AddCommMonoid K] (h : MaskCase R false idx s s' l l' old new dom D mk)
    (hT : ∀ unc c, unc.length = s.spaces.length → size R unc c ≤ 1) {o : BLeg S}
    (ho : Coupled o) (big : Mat K → Bool) (hbig : ∀ M, big M = false → ∀ m < M.rows, ∀ n < M.cols, M.val m n = 0)
    (hempty : ∀ M, M.rows = 0 ∨ M.cols = 0 → big M = false) (a : FEnts K) (ha : FSane l o a) :
    ∃ res, maskContract R big false false idx s.spaces s'.spaces l o l' o dom D a = some res ∧ FSane l' o res ∧
      ∀ (c : S) (m : Fin (Spec.mult l' c)) (n : Fin (Spec.mult o c)) (t : FusionTree S) (ms : List ℕ) (u : S),
        TreeRow R s' c t ms m → t.uncoupled[idx]? = some u →
        (∀ j, MaskIndex (mk u) j (ms.getD idx 0) → ∃ m' : Fin (Spec.mult l c), TreeRow R s c t (ms.set idx j) m' ∧
          matrixOf l' o res c m n = matrixOf l o a c m' n) ∧
        ((∀ j, ¬ MaskIndex (mk u) j (ms.getD idx 0)) → matrixOf l' o res c m n = 0) := by
  have hs := h.sides
  obtain ⟨res, h1, h2, h3⟩ := maskContract_side hs h.2.2.1 h.2.2.2.1 false o ho (Or.inr hT) big hbig hempty a ha
  refine ⟨res, h1, h2, fun c m n t ms u htr hu => ?_⟩
  have := h3 c m n t ms u htr hu
  obtain ⟨o1, o2⟩ := oldIdx_small (mk u) (ms.getD idx 0)
  refine ⟨fun j hj => ?_, fun hj => ?_⟩
  · rw [o1 j hj] at this
    obtain ⟨m', n', p1, p2, p3⟩ := this
    have hm : n' = n := Fin.ext p2
    subst hm
    exact ⟨m', p1, p3⟩
  · rw [o2 hj] at this
    exact this

/-! ## Concrete cases -/

namespace MaskExample
open Cyten.FT.D4 ScaleExample

/-- The legs of `factors3`, the first one with one of its two multiplicities -/
def factors3' : List (Leg (Fin 5)) :=
  [.space ⟨[4], [1], false, none⟩, .space ⟨[0, 4], [2, 1], true, none⟩, .space ⟨[4], [1], false, none⟩]

theorem factors3'_sane : SaneLeaves factors3' := by
  intro e he
  simp [factors3', Leg.leavesAll, Leg.leaves] at he
  rcases he with rfl | rfl | rfl <;> decide

theorem side3'_ok : SideOK rule (sideOf sym factors3') (coupledOf sym rule false factors3') :=
  (C63_sides sym (fun _ => rfl) rule false rule_ok factors3' factors3'_sane).1

/-- The first leg of `factors3` -/
def bigLeg : SpaceData (Fin 5) := (sideOf sym factors3).spaces.headD ⟨[], [], none⟩

/-- The first leg of `factors3'` -/
def smallLeg : SpaceData (Fin 5) := (sideOf sym factors3').spaces.headD ⟨[], [], none⟩

example : (bigLeg.sectors, bigLeg.mults, smallLeg.sectors, smallLeg.mults) = ([4], [2], [4], [1]) := by decide

/-- The first of two indices is kept. -/
def keep (u : Fin 5) : List Bool := if u = 4 then [true, false] else []

/-- The data of the mask -/
def maskData : List ((ℕ × ℕ) × List Bool) := [((0, 0), [true, false])]

theorem mask_ok (n : ℕ) : MaskOK bigLeg smallLeg ⟨[4], [n]⟩ maskData keep where
  coupled := ⟨by simp, by simp⟩
  bound := by simp [maskData]
  sorted := by decide
  block := by
    intro e he u hu
    obtain rfl := List.mem_singleton.1 he
    have : (4 : Fin 5) = u := by simpa using hu
    subst this
    rfl
  stored := by
    intro u
    constructor
    · rintro ⟨e, he, hu⟩
      obtain rfl := List.mem_singleton.1 he
      have : (4 : Fin 5) = u := by simpa using hu
      subst this
      decide
    · intro h
      have : u = 4 := by
        by_contra hn
        simp [keep, hn] at h
      subst this
      exact ⟨_, List.mem_singleton.2 rfl, rfl⟩
  largeMult := by decide
  smallMult := by decide

/-- Contraction with the large leg -/
theorem case3 : MaskCase rule true 0 (sideOf sym factors3) (sideOf sym factors3') (coupledOf sym rule false factors3)
    (coupledOf sym rule false factors3') bigLeg smallLeg ⟨[4], [1]⟩ maskData keep :=
  ⟨side3_ok, side3'_ok, by decide +kernel, by decide +kernel, mask_ok 1, rfl, rfl, rfl⟩

/-- Contraction with the small leg -/
theorem case3' : MaskCase rule false 0 (sideOf sym factors3') (sideOf sym factors3) (coupledOf sym rule false factors3')
    (coupledOf sym rule false factors3) smallLeg bigLeg ⟨[4], [2]⟩ maskData keep :=
  ⟨side3'_ok, side3_ok, by decide +kernel, by decide +kernel, mask_ok 2, rfl, rfl, rfl⟩

/-- Blocks with rows and columns are kept. -/
def notEmpty (M : Mat ℤ) : Bool := decide (0 < M.rows ∧ 0 < M.cols)

/-- A tensor with eight columns: four trees with two multiplicities each -/
def rowData : FEnts ℤ := [((0, 4), ⟨1, 8, fun _ n => n⟩)]

/-- The same with eight rows -/
def colData : FEnts ℤ := [((4, 0), ⟨8, 1, fun m _ => m⟩)]

/-- In the domain the first multiplicity of every tree is selected. -/
example : (maskContract rule notEmpty true true 0 (sideOf sym factors3).spaces (sideOf sym factors3').spaces
      ⟨[4], [1]⟩ (coupledOf sym rule false factors3) ⟨[4], [1]⟩ (coupledOf sym rule false factors3') ⟨[4], [1]⟩
      maskData rowData).map (fun r => r.map fun e => (e.1, (List.range 4).map fun n => e.2.val 0 n)) =
    some [((0, 4), [0, 2, 4, 6])] := by decide +kernel

/-- In the codomain the trees are mixed. -/
theorem codomain_mixed : ∃ M, maskContract rule notEmpty false true 0 (sideOf sym factors3).spaces
      (sideOf sym factors3').spaces (coupledOf sym rule false factors3) ⟨[4], [1]⟩ (coupledOf sym rule false factors3')
      ⟨[4], [1]⟩ ⟨[4], [2]⟩ maskData colData = some [((4, 0), M)] ∧ M.rows = 4 ∧ M.cols = 1 ∧
      (List.range 4).map (fun m => M.val m 0) = [0, 1, 2, 3] := by
  have h : (maskContract rule notEmpty false true 0 (sideOf sym factors3).spaces
      (sideOf sym factors3').spaces (coupledOf sym rule false factors3) ⟨[4], [1]⟩ (coupledOf sym rule false factors3')
      ⟨[4], [1]⟩ ⟨[4], [2]⟩ maskData colData).map
        (fun r => r.map fun e => (e.1, e.2.rows, e.2.cols, (List.range 4).map fun m => e.2.val m 0)) =
      some [((4, 0), 4, 1, [0, 1, 2, 3])] := by decide +kernel
  obtain ⟨r, h1, h2⟩ := Option.map_eq_some_iff.1 h
  match r, h2 with
  | [], h2 => simp at h2
  | [e], h2 =>
    simp only [List.map_cons, List.map_nil, List.cons.injEq, Prod.mk.injEq, and_true] at h2
    obtain ⟨⟨e1, e2⟩, M⟩ := e
    obtain ⟨⟨rfl, rfl⟩, h3, h4, h5⟩ := h2
    exact ⟨M, h1, h3, h4, h5⟩
  | _ :: _ :: _, h2 => simp at h2

end MaskExample

/-- **C90** (defect). For a leg in the codomain and non-abelian symmetries the result is wrong in general: the
forest block is reshaped without an axis for the trees, so that the entries of different trees and multiplicities
are mixed.  Here the second row of the result (second tree, kept index) is not the entry of the tensor for this
tree and the first index. -/
theorem C90_codomain_wrong : ∃ (a res : FEnts ℤ) (t : FusionTree (Fin 5)),
    FSane (coupledOf D4.sym D4.rule false ScaleExample.factors3) (⟨[4], [1]⟩ : BLeg (Fin 5)) a ∧
    MaskCase D4.rule true 0 (sideOf D4.sym ScaleExample.factors3) (sideOf D4.sym MaskExample.factors3')
      (coupledOf D4.sym D4.rule false ScaleExample.factors3) (coupledOf D4.sym D4.rule false MaskExample.factors3')
      MaskExample.bigLeg MaskExample.smallLeg ⟨[4], [2]⟩ MaskExample.maskData MaskExample.keep ∧
    maskContract D4.rule MaskExample.notEmpty false true 0 (sideOf D4.sym ScaleExample.factors3).spaces
      (sideOf D4.sym MaskExample.factors3').spaces (coupledOf D4.sym D4.rule false ScaleExample.factors3) ⟨[4], [1]⟩
      (coupledOf D4.sym D4.rule false MaskExample.factors3') ⟨[4], [1]⟩ ⟨[4], [2]⟩ MaskExample.maskData a = some res ∧
    TreeRow D4.rule (sideOf D4.sym MaskExample.factors3') 4 t [0, 0, 0] 1 ∧
    MaskIndex (MaskExample.keep 4) 0 0 ∧ TreeRow D4.rule (sideOf D4.sym ScaleExample.factors3) 4 t [0, 0, 0] 2 ∧
    (res.map fun e => (e.1, e.2.val 1 0)) = [((4, 0), 1)] ∧ (a.map fun e => (e.1, e.2.val 2 0)) = [((4, 0), 2)] := by
  obtain ⟨M, h1, h2, h3, h4⟩ := MaskExample.codomain_mixed
  have hb : (TProd.iterTreeBlocks D4.rule (sideOf D4.sym ScaleExample.factors3).areDual
      (sideOf D4.sym ScaleExample.factors3).spaces 4)[1]?.map Prod.snd = some ((2, 4), [2, 1, 1]) := by decide +kernel
  have hb' : (TProd.iterTreeBlocks D4.rule (sideOf D4.sym MaskExample.factors3').areDual
      (sideOf D4.sym MaskExample.factors3').spaces 4)[1]?.map Prod.snd = some ((1, 2), [1, 1, 1]) := by decide +kernel
  have he : (TProd.iterTreeBlocks D4.rule (sideOf D4.sym ScaleExample.factors3).areDual
      (sideOf D4.sym ScaleExample.factors3).spaces 4)[1]?.map Prod.fst =
      (TProd.iterTreeBlocks D4.rule (sideOf D4.sym MaskExample.factors3').areDual
      (sideOf D4.sym MaskExample.factors3').spaces 4)[1]?.map Prod.fst := by decide +kernel
  obtain ⟨x, x1, x2⟩ := Option.map_eq_some_iff.1 hb
  obtain ⟨y, y1, y2⟩ := Option.map_eq_some_iff.1 hb'
  rw [x1, y1] at he
  have he : x.1 = y.1 := by simpa using he
  refine ⟨MaskExample.colData, [((4, 0), M)], x.1, ?_, ?_, h1, ?_, ⟨rfl, rfl⟩, ?_, ?_, by decide⟩
  · refine ⟨?_, ?_, ?_⟩ <;> decide +kernel
  · exact ⟨ScaleExample.side3_ok, MaskExample.side3'_ok, by decide +kernel, by decide +kernel,
      MaskExample.mask_ok 2, rfl, rfl, rfl⟩
  · refine ⟨1, 2, [1, 1, 1], ?_, ?_, by decide⟩
    · rw [he, ← y2]; exact List.mem_of_getElem? y1
    · exact List.Forall₂.cons (by omega) (List.Forall₂.cons (by omega) (List.Forall₂.cons (by omega) List.Forall₂.nil))
  · refine ⟨2, 4, [2, 1, 1], ?_, ?_, by decide⟩
    · rw [← x2]; exact List.mem_of_getElem? x1
    · exact List.Forall₂.cons (by omega) (List.Forall₂.cons (by omega) (List.Forall₂.cons (by omega) List.Forall₂.nil))
  · have : M.val 1 0 = 1 := by
      have := congrArg (fun l => l[1]?) h4
      simpa using this
    simp [this]

end Cyten.FT
