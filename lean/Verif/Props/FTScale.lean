import Verif.Lemmas.FTScale2
import Verif.Props.FTDense

/-!
# C89: scaling a leg in the fusion tree backend

`scale_axis` multiplies every entry with the number that the diagonal tensor has for the sector and the
multiplicity index of the leg.
-/

namespace Cyten.FT
open Cyten.FT.Spec Cyten.Tools Cyten.ListSum Cyten.Props Cyten.Spaces Cyten.Spaces.Spec Cyten.Abelian
  Cyten.FusionTrees Matrix

variable {S K : Type} [LinearOrder S]

/-- All blocks, in terms of the result of each of them. -/
theorem scaleLoop_spec [Semiring K] {R : FusionRule S} {lc ld : BLeg S} (hc : Coupled lc) (hd : Coupled ld)
    (d : Bool) (idx : ℕ) (spaces : List (SpaceData S)) (leg : BLeg S) (b : FDiag K) (a : FEnts K)
    (ha : FSane lc ld a)
    (P : (ℕ × ℕ) × Mat K → S → Option (Mat K) → Prop)
    (hP : ∀ e ∈ a, ∀ c, lc.sectors[e.1.1]? = some c →
      ∃ o, scaleBlock d idx spaces leg b e.2 (TProd.iterForestBlocks R spaces c) none = some o ∧
        (∀ A ∈ o, A.rows = e.2.rows ∧ A.cols = e.2.cols) ∧ P e c o) :
    ∃ res, scaleLoop R d idx spaces lc.sectors leg b a = some res ∧ FSane lc ld res ∧
      (res.map Prod.fst).Sublist (a.map Prod.fst) ∧
      (∀ c, (∀ e ∈ a, lc.sectors[e.1.1]? ≠ some c) → matrixOf lc ld res c = 0) ∧
      ∀ e ∈ a, ∀ c, lc.sectors[e.1.1]? = some c → ∃ o, P e c o ∧
        ∀ m n, matrixOf lc ld res c m n = (o.map fun M => M.val m n).getD 0 := by
  have key : ∃ res, scaleLoop R d idx spaces lc.sectors leg b a = some res ∧
      (res.map Prod.fst).Sublist (a.map Prod.fst) ∧
      (∀ x ∈ res, ∃ e ∈ a, e.1 = x.1 ∧ x.2.rows = e.2.rows ∧ x.2.cols = e.2.cols) ∧
      ∀ e ∈ a, ∀ c, lc.sectors[e.1.1]? = some c → ∃ o, P e c o ∧
        ((∃ M, o = some M ∧ (e.1, M) ∈ res) ∨ (o = none ∧ ∀ x ∈ res, x.1 ≠ e.1)) := by
    have hnod : (a.map Prod.fst).Nodup := by
      have := ha.sorted
      rw [List.pairwise_map] at this
      rw [List.Nodup, List.pairwise_map]
      exact this.imp fun h h' => by rw [h'] at h; exact lt_irrefl _ h
    have hcp := ha.coupled
    clear ha
    induction a with
    | nil => exact ⟨[], rfl, by simp, by simp, by simp⟩
    | cons e es ih =>
      rw [List.map_cons, List.nodup_cons] at hnod
      obtain ⟨r, r1, r2, r3, r4⟩ := ih (fun x hx => hP x (List.mem_cons_of_mem _ hx)) hnod.2
        fun x hx => hcp x (List.mem_cons_of_mem _ hx)
      obtain ⟨c, c1, c2⟩ := hcp e List.mem_cons_self
      obtain ⟨o, o1, o2, o3⟩ := hP e List.mem_cons_self c c1
      have hr : ∀ x ∈ r, x.1 ≠ e.1 := by
        intro x hx he
        apply hnod.1
        rw [← he]
        exact r2.subset (List.mem_map.2 ⟨x, hx, rfl⟩)
      refine ⟨(o.map fun M => (e.1, M)).toList ++ r, ?_, ?_, ?_, ?_⟩
      · rw [scaleLoop, c1]
        simp only [o1, r1, Option.map_some]
      · cases o with
        | none => exact r2.cons _
        | some M => exact r2.cons_cons _
      · intro x hx
        rcases List.mem_append.1 hx with hx | hx
        · cases o with
          | none => simp at hx
          | some M =>
            simp only [Option.map_some, Option.toList_some, List.mem_singleton] at hx
            subst hx
            exact ⟨e, List.mem_cons_self, rfl, o2 M rfl⟩
        · obtain ⟨e', h1, h2⟩ := r3 x hx
          exact ⟨e', List.mem_cons_of_mem _ h1, h2⟩
      · intro e' he' c' hc'
        rcases List.mem_cons.1 he' with rfl | he'
        · obtain rfl : c = c' := Option.some.inj (c1.symm.trans hc')
          refine ⟨o, o3, ?_⟩
          cases o with
          | none =>
            refine Or.inr ⟨rfl, fun x hx => ?_⟩
            simp only [Option.map_none, Option.toList_none, List.nil_append] at hx
            exact hr x hx
          | some M => exact Or.inl ⟨M, rfl, by simp⟩
        · obtain ⟨o', p1, p2⟩ := r4 e' he' c' hc'
          refine ⟨o', p1, ?_⟩
          rcases p2 with ⟨M, rfl, hM⟩ | ⟨rfl, hM⟩
          · exact Or.inl ⟨M, rfl, List.mem_append_right _ hM⟩
          · refine Or.inr ⟨rfl, fun x hx => ?_⟩
            rcases List.mem_append.1 hx with hx | hx
            · cases o with
              | none => simp at hx
              | some M =>
                simp only [Option.map_some, Option.toList_some, List.mem_singleton] at hx
                subst hx
                intro he
                exact hnod.1 (by rw [he]; exact List.mem_map.2 ⟨e', he', rfl⟩)
            · exact hM x hx
  obtain ⟨res, h1, h2, h3, h4⟩ := key
  have hsane : FSane lc ld res := by
    refine ⟨fun x hx => ?_, fun x hx => ?_, ?_⟩
    · obtain ⟨e, he, g1, -⟩ := h3 x hx
      rw [← g1]
      exact ha.coupled e he
    · obtain ⟨e, he, g1, g2, g3⟩ := h3 x hx
      rw [← g1, g2, g3]
      exact ha.shape e he
    · have := ha.sorted.sublist ((h2.map Prod.snd).trans (by rw [List.map_map]; exact List.Sublist.refl _))
      rwa [List.map_map] at this
  refine ⟨res, h1, hsane, h2, fun c hn => ?_, fun e he c hec => ?_⟩
  · refine matrixOf_none fun x hx hh => ?_
    obtain ⟨e, he, g1, -⟩ := h3 x hx
    exact hn e he (by rw [g1]; exact hh)
  · obtain ⟨o, p1, p2⟩ := h4 e he c hec
    refine ⟨o, p1, fun m n => ?_⟩
    rcases p2 with ⟨M, rfl, hM⟩ | ⟨rfl, hM⟩
    · rw [matrixOf_mem hsane hc hd hM hec]
      rfl
    · rw [matrixOf_none]
      · rfl
      · intro x hx hh
        obtain ⟨e', he', g1, -⟩ := h3 x hx
        have e1 : e'.1.1 = e.1.1 := nodup_getElem? hc.nodup (by rw [g1]; exact hh) hec
        obtain ⟨c', d1, d2⟩ := ha.coupled e he
        obtain ⟨c'', d3, d4⟩ := ha.coupled e' he'
        rw [e1, d1] at d3
        obtain rfl := Option.some.inj d3
        have e2 : e'.1.2 = e.1.2 := nodup_getElem? hd.nodup d4 d2
        exact hM x hx (by rw [← g1]; exact Prod.ext e1 e2)

/-- **C89** (layout). Every row of a block of a coupled sector belongs to a fusion tree and multiplicity indices,
so that the following theorems determine the tensor completely. -/
theorem C89_tree_rows {R : FusionRule S} {s : Side S} {l : BLeg S} (h : SideOK R s l) (c : S) (p : ℕ)
    (hp : p < Spec.mult l c) : ∃ t ms, TreeRow R s c t ms p := by
  have ht := treeBlocks_tiles R s.areDual c (TProd.iterUncoupled s.spaces) 0
  rw [Nat.zero_add, items_sum R h.good c, ← h.mult c] at ht
  have hu := tiles_unique ht p
  rw [if_pos ⟨Nat.zero_le _, hp⟩] at hu
  obtain ⟨x, hx⟩ := List.length_pos_iff_exists_mem.1 (by rw [hu]; omega)
  obtain ⟨hx1, hx2⟩ := List.mem_filter.1 hx
  obtain ⟨tb, htb, rfl⟩ := List.mem_map.1 hx1
  have hx2 : tb.2.1.1 ≤ p ∧ p < tb.2.1.2 := by simpa using hx2
  obtain ⟨pre, item, post, h1, k, h2, h3, h4⟩ := treeBlocks_mem R s.areDual c _ 0 tb htb
  have hlt : p - tb.2.1.1 < tb.2.2.prod := by
    rw [h4] at hx2 ⊢
    rw [h3]
    simp only at hx2 ⊢
    omega
  have hmem : p - tb.2.1.1 ∈ (gridC tb.2.2).map (packRow (makeStride tb.2.2 true)) := by
    rw [map_packRow_gridC]
    exact List.mem_range.2 hlt
  obtain ⟨ms, hms, he⟩ := List.mem_map.1 hmem
  exact ⟨tb.1, ms, tb.2.1.1, tb.2.1.2, tb.2.2, htb, (mem_gridC _ _).1 hms, by omega⟩

/-- Both sides at once -/
theorem scaleAxis_side [Semiring K] {R : FusionRule S} {cod dom : Side S} {lc ld : BLeg S} (hc : SideOK R cod lc)
    (hd : SideOK R dom ld) (a : FEnts K) (ha : FSane lc ld a) {leg : BLeg S} (hl : Coupled leg) (b : FDiag K)
    (hb : DSane leg b) (d : Bool) (s : Side S) (hs : s = if d then dom else cod) (idx : ℕ)
    (hidx : idx < s.spaces.length) :
    ∃ res, scaleLoop R d idx s.spaces lc.sectors leg b a = some res ∧ FSane lc ld res ∧
      ∀ (c : S) (m : Fin (Spec.mult lc c)) (n : Fin (Spec.mult ld c)) (t : FusionTree S) (ms : List ℕ) (u : S),
        TreeRow R s c t ms (if d then n else m : ℕ) → t.uncoupled[idx]? = some u →
        matrixOf lc ld res c m n = matrixOf lc ld a c m n * diagValue leg b u (ms.getD idx 0) := by
  have hgood : ∀ x ∈ s.spaces, GoodSpace x := by subst hs; cases d; exacts [hc.good, hd.good]
  have hdual : s.areDual.length = s.spaces.length := by subst hs; cases d; exacts [hc.dual, hd.dual]
  obtain ⟨res, h1, h2, -, h3, h4⟩ := scaleLoop_spec (R := R) hc.coupled hd.coupled d idx s.spaces leg b a ha
    (fun e c o => ∀ (p q : ℕ) (t : FusionTree S) (ms : List ℕ) (u : S), q < otherDim d e.2 →
      TreeRow R s c t ms p → t.uncoupled[idx]? = some u →
      accVal d o p q = sideVal d e.2 p q * diagValue leg b u (ms.getD idx 0)) (by
    intro e he c hec
    obtain ⟨o, o1, o2, -, o4⟩ := scaleBlock_spec R c d idx s.spaces hgood hl b hb e.2 hidx
      (TProd.iterForestBlocks R s.spaces c) 0 _ (forestBlocks_tiles R c _ 0)
      (fun fb hfb => forestBlocks_mem R c _ 0 fb hfb) none (by simp) (fun _ _ _ => rfl)
    refine ⟨o, o1, o2, fun p q t ms u hq ⟨st, en, mults, htb, hms, hp⟩ hu => ?_⟩
    obtain ⟨fb, g1, k, g2, g3, g4, g5, g6⟩ := forest_of_tree R s.areDual c hgood _ hdual htb (inShape_prod_pos hms)
    have := o4 fb g1 mults ms k q u g6 g2 hms hq (by rw [g3]; exact hu)
    have hpe : p = fb.2.1 + (k * mults.prod + packRow (makeStride mults true) ms) := by
      simp only at g5
      omega
    rw [hpe]
    exact this)
  refine ⟨res, h1, h2, fun c m n t ms u htr hu => ?_⟩
  rcases block_cases ha hc.coupled hd.coupled c with ⟨e, e1, e2, e3, e4, e5, e6, -⟩ | ⟨e1, e2⟩
  · obtain ⟨o, p1, p2⟩ := h4 e e1 c e2
    rw [p2, e6]
    have := p1 (if d then n else m : ℕ) (if d then m else n : ℕ) t ms u (by
      cases d
      · show (n : ℕ) < e.2.cols; rw [e5]; exact n.2
      · show (m : ℕ) < e.2.rows; rw [e4]; exact m.2) htr hu
    cases d <;> cases o <;> exact this
  · by_cases hex : ∃ e ∈ a, lc.sectors[e.1.1]? = some c
    · obtain ⟨e, he, hec⟩ := hex
      obtain ⟨o, p1, p2⟩ := h4 e he c hec
      rw [p2]
      have hae : ∀ m n, matrixOf lc ld a c m n = e.2.val m n := by
        intro m n
        rw [matrixOf_mem ha hc.coupled hd.coupled he hec]
        rfl
      obtain ⟨s1, s2⟩ := ha.shape e he
      obtain ⟨c', d1, d2⟩ := ha.coupled e he
      obtain rfl : c = c' := Option.some.inj (hec.symm.trans d1)
      rw [← mult_eq hc.coupled d1] at s1
      rw [← mult_eq hd.coupled d2] at s2
      have := p1 (if d then n else m : ℕ) (if d then m else n : ℕ) t ms u (by
        cases d
        · show (n : ℕ) < e.2.cols; rw [s2]; exact n.2
        · show (m : ℕ) < e.2.rows; rw [s1]; exact m.2) htr hu
      rw [hae]
      cases d <;> cases o <;> exact this
    · rw [h3 c fun e he hh => hex ⟨e, he, hh⟩, e1]
      simp

/-- **C89** (leg in the codomain, at least two factors). `scale_axis` never raises for tensors without pipes, its
data are consistent, and every entry is multiplied with the number of the diagonal tensor for the sector of the
leg in the fusion tree of the row and its multiplicity index. -/
theorem C89_scale_axis_codomain [Semiring K] {R : FusionRule S} {cod dom : Side S} {lc ld : BLeg S}
    (hc : SideOK R cod lc) (hd : SideOK R dom ld) (a : FEnts K) (ha : FSane lc ld a) {leg : BLeg S}
    (hl : Coupled leg) (b : FDiag K) (hb : DSane leg b) (idx : ℕ) (hidx : idx < cod.spaces.length)
    (numFlat : List ℕ) (hn : numFlat.length ≠ 1) :
    ∃ res, scaleAxis R false idx false numFlat cod.spaces lc.sectors leg a b = some res ∧ FSane lc ld res ∧
      ∀ (c : S) (m : Fin (Spec.mult lc c)) (n : Fin (Spec.mult ld c)) (t : FusionTree S) (ms : List ℕ) (u : S),
        TreeRow R cod c t ms m → t.uncoupled[idx]? = some u →
        matrixOf lc ld res c m n = matrixOf lc ld a c m n * diagValue leg b u (ms.getD idx 0) := by
  obtain ⟨res, h1, h2, h3⟩ := scaleAxis_side hc hd a ha hl b hb false cod rfl idx hidx
  refine ⟨res, ?_, h2, h3⟩
  unfold scaleAxis
  rw [if_neg hn]
  exact h1

/-- **C89** (leg in the domain, at least two factors). -/
theorem C89_scale_axis_domain [Semiring K] {R : FusionRule S} {cod dom : Side S} {lc ld : BLeg S}
    (hc : SideOK R cod lc) (hd : SideOK R dom ld) (a : FEnts K) (ha : FSane lc ld a) {leg : BLeg S}
    (hl : Coupled leg) (b : FDiag K) (hb : DSane leg b) (idx : ℕ) (hidx : idx < dom.spaces.length)
    (numFlat : List ℕ) (hn : numFlat.length ≠ 1) :
    ∃ res, scaleAxis R true idx false numFlat dom.spaces lc.sectors leg a b = some res ∧ FSane lc ld res ∧
      ∀ (c : S) (m : Fin (Spec.mult lc c)) (n : Fin (Spec.mult ld c)) (t : FusionTree S) (ms : List ℕ) (u : S),
        TreeRow R dom c t ms n → t.uncoupled[idx]? = some u →
        matrixOf lc ld res c m n = matrixOf lc ld a c m n * diagValue leg b u (ms.getD idx 0) := by
  obtain ⟨res, h1, h2, h3⟩ := scaleAxis_side hc hd a ha hl b hb true dom rfl idx hidx
  refine ⟨res, ?_, h2, h3⟩
  unfold scaleAxis
  rw [if_neg hn]
  exact h1

/-! ## A side with a single factor -/

theorem diagValue_of [Zero K] {leg : BLeg S} (hl : Coupled leg) {b : FDiag K} (hb : DSane leg b)
    {e : (ℕ × ℕ) × List K} (he : e ∈ b) {c : S} (hc : leg.sectors[e.1.1]? = some c) (m : ℕ) :
    diagValue leg b c m = e.2.getD m 0 := by
  unfold diagValue
  cases hf : b.find? (fun e => leg.sectors[e.1.1]? == some c) with
  | none => simpa [hc] using List.find?_eq_none.1 hf e he
  | some y =>
    have hy := List.find?_some hf
    have hym := List.mem_of_find?_eq_some hf
    have e1 : y.1.1 = e.1.1 := nodup_getElem? hl.nodup (by simpa using hy) hc
    have e2 : y.1.2 = e.1.2 := by rw [← (hb.diag y hym).1, ← (hb.diag e he).1, e1]
    have hn : (b.map fun e => e.1.2).Nodup := hb.sorted.imp fun h => Nat.ne_of_lt h
    rw [List.inj_on_of_nodup_map hn hym he e2]

theorem diagValue_none [Zero K] {leg : BLeg S} {b : FDiag K} {c : S}
    (h : ∀ e ∈ b, leg.sectors[e.1.1]? ≠ some c) (m : ℕ) : diagValue leg b c m = 0 := by
  unfold diagValue
  rw [List.find?_eq_none.2 fun e he hh => h e he (by simpa using hh)]

theorem sum_only {A : Type} [AddCommMonoid K] (l : List A) (hn : l.Nodup) (x : A) (hx : x ∈ l) (f : A → K)
    (h : ∀ y ∈ l, y ≠ x → f y = 0) : (l.map f).sum = f x := by
  obtain ⟨l1, l2, rfl⟩ := List.append_of_mem hx
  rw [List.map_append, List.map_cons, List.sum_append, List.sum_cons]
  rw [List.nodup_append] at hn
  rw [sum_zero l1 f, sum_zero l2 f, zero_add, add_zero]
  · intro y hy
    refine h y (by simp [hy]) fun e => ?_
    subst e
    exact (List.nodup_cons.1 hn.2.1).1 hy
  · intro y hy
    exact h y (by simp [hy]) (hn.2.2 y hy x List.mem_cons_self)

/-- **C89** (a side with a single factor). Here the leg is the whole side and the diagonal tensor acts on the
blocks directly: every row (column) is multiplied with the number of its coupled sector. -/
theorem C89_scale_axis_single [Semiring K] (R : FusionRule S) {lc ld : BLeg S} (hc : Coupled lc) (hd : Coupled ld)
    (a : FEnts K) (ha : FSane lc ld a) (b : FDiag K) (d : Bool) (hb : DSane (if d then ld else lc) b)
    (idx n : ℕ) (hasPipes : Bool) (spaces : List (SpaceData S)) (leg : BLeg S) :
    ∃ res, scaleAxis R d idx hasPipes [n] spaces lc.sectors leg a b = some res ∧ FSane lc ld res ∧
      ∀ (c : S) (m : Fin (Spec.mult lc c)) (n : Fin (Spec.mult ld c)),
        matrixOf lc ld res c m n = matrixOf lc ld a c m n *
          (if d then diagValue ld b c n else diagValue lc b c m) := by
  let ka : (ℕ × ℕ) × Mat K → ℕ := fun e => if d then e.1.2 else e.1.1
  let kb : (ℕ × ℕ) × List K → ℕ := fun e => e.1.1
  let sc : Mat K → List K → Mat K := fun M f => Mat.ofBlk (M.asBlk.scaleAxis f (if d then 1 else 0))
  have hb' : Coupled (if d then ld else lc) := by cases d; exacts [hc, hd]
  have hka : (a.map ka).Pairwise (· < ·) := by
    cases d
    · exact ha.sorted0 hc hd
    · exact ha.sorted
  have hkb : (b.map kb).Pairwise (· < ·) := by
    have := hb.sorted
    rw [List.map_congr_left fun e he => (hb.diag e he).1.symm] at this
    exact this
  have hkac : ∀ e ∈ a, ∀ c, lc.sectors[e.1.1]? = some c → (if d then ld else lc).sectors[ka e]? = some c := by
    intro e he c hec
    obtain ⟨c', c1, c2⟩ := ha.coupled e he
    obtain rfl : c = c' := Option.some.inj (hec.symm.trans c1)
    cases d
    · exact c1
    · exact c2
  set I := iterCommon ka kb a b with hI
  have hmem := mem_mergeCommon ka kb (a.length + b.length) a b
  have hres : scaleSingle d a b = I.map fun p => (p.1.1, sc p.1.2 p.2.2) := by
    unfold scaleSingle
    refine List.map_congr_left fun p hp => ?_
    obtain ⟨-, -, h3⟩ := hmem p hp
    have h3 : (if d then p.1.1.2 else p.1.1.1) = p.2.1.1 := h3
    refine Prod.ext ?_ rfl
    show (if d then (p.1.1.1, p.2.1.1) else (p.2.1.1, p.1.1.2)) = p.1.1
    rw [← h3]
    cases d <;> rfl
  have hsane : FSane lc ld (scaleSingle d a b) := by
    rw [hres]
    refine ⟨fun e he => ?_, fun e he => ?_, ?_⟩
    · obtain ⟨p, hp, rfl⟩ := List.mem_map.1 he
      exact ha.coupled p.1 (hmem p hp).1
    · obtain ⟨p, hp, rfl⟩ := List.mem_map.1 he
      exact ha.shape p.1 (hmem p hp).1
    · have h1 := (mergeCommon_sublist ka kb (a.length + b.length) a b).2.map fun e => e.1.2
      have h2 := ha.sorted.sublist h1
      rw [List.map_map] at h2 ⊢
      exact h2
  refine ⟨scaleSingle d a b, by unfold scaleAxis; rw [if_pos (by rfl)], hsane, fun c m n => ?_⟩
  have hsv : ∀ (M : Mat K) (f : List K), (sc M f).val m n = M.val m n * f.getD (if d then (n : ℕ) else m) 0 := by
    intro M f
    cases d <;> rfl
  rw [matrixOf_sum hsane hc hd, hres, List.map_map]
  refine (sum_mergeCommon ka kb (fun p q => if lc.sectors[p.1.1]? = some c then (sc p.2 q.2).val m n else 0) _ a b
    (le_refl _) hka hkb).trans ?_
  have e1 : ∀ p ∈ a, (b.map fun q => if ka p = kb q then
        (if lc.sectors[p.1.1]? = some c then (sc p.2 q.2).val m n else 0) else 0).sum =
      if lc.sectors[p.1.1]? = some c then
        p.2.val m n * (if d then diagValue ld b c n else diagValue lc b c m) else 0 := by
    intro p hp
    by_cases hpc : lc.sectors[p.1.1]? = some c
    · rw [if_pos hpc]
      have hp1 := hkac p hp c hpc
      have hdv : (if d then diagValue ld b c n else diagValue lc b c m) =
          diagValue (if d then ld else lc) b c (if d then (n : ℕ) else m) := by cases d <;> rfl
      rw [hdv]
      by_cases hex : ∃ q ∈ b, kb q = ka p
      · obtain ⟨q, hq, hqk⟩ := hex
        have hn : (b.map kb).Nodup := nodup_of_lt hkb
        have hbn : b.Nodup := List.Nodup.of_map _ hn
        rw [diagValue_of hb' hb hq (by rw [show q.1.1 = ka p from hqk]; exact hp1)]
        rw [sum_only b hbn q hq, if_pos hqk.symm, if_pos hpc, hsv]
        intro q' hq' hne
        rw [if_neg]
        intro hk
        exact hne (List.inj_on_of_nodup_map hn hq' hq (hk.symm.trans hqk.symm))
      · rw [diagValue_none, mul_zero]
        · refine sum_zero _ _ fun q hq => ?_
          rw [if_neg fun hk => hex ⟨q, hq, hk.symm⟩]
        · intro q hq hh
          exact hex ⟨q, hq, nodup_getElem? hb'.nodup hh hp1⟩
    · rw [if_neg hpc]
      refine sum_zero _ _ fun q _ => ?_
      rw [if_neg hpc, ite_self]
  rw [sum_congr _ e1]
  rcases block_cases ha hc hd c with ⟨p, p1, p2, p3, p4, p5, p6, p7⟩ | ⟨p1, p2⟩
  · rw [p7, p6]
  · rw [p2, p1]
    simp

/-! ## Pipes -/

theorem flatIdx_first (rest : List ℕ) (h1 : ∀ n ∈ rest, 1 ≤ n) (r i k : ℕ) (hr : r ≤ rest.length) (hk : i + r ≤ k) :
    flatIdxLoop rest i k = flatIdxLoop (rest.drop r) (i + r) (k + (rest.take r).sum - r) := by
  induction r generalizing rest i k with
  | zero => simp
  | succ r ih =>
    cases rest with
    | nil => simp at hr
    | cons n rest =>
      have hn := h1 n List.mem_cons_self
      have hsum : r ≤ (rest.take r).sum := by
        have := List.length_le_sum_of_one_le (rest.take r) fun x hx =>
          h1 x (List.mem_cons_of_mem _ (List.mem_of_mem_take hx))
        simp only [List.length_take] at this
        simp at hr
        omega
      rw [flatIdxLoop, if_pos (by omega)]
      rw [ih rest (fun x hx => h1 x (List.mem_cons_of_mem _ hx)) (i + 1) (k + n - 1) (by simpa using hr) (by omega)]
      rw [List.drop_succ_cons, List.take_succ_cons, List.sum_cons]
      congr 1 <;> omega

theorem flatIdx_ones (rest : List ℕ) (i k : ℕ) (hk : i ≤ k) (h : ∀ j, j < k - i → rest[j]? = some 1) :
    flatIdxLoop rest i k = some k := by
  induction rest generalizing i with
  | nil =>
    rw [flatIdxLoop, if_neg]
    intro hlt
    simpa using h 0 (by omega)
  | cons n rest ih =>
    rw [flatIdxLoop]
    by_cases hlt : i < k
    · rw [if_pos hlt]
      have hn : n = 1 := by simpa using h 0 (by omega)
      subst hn
      simp only [Nat.add_sub_cancel]
      exact ih (i + 1) (by omega) fun j hj => by simpa using h (j + 1) (by omega)
    · rw [if_neg hlt]

theorem flatIdx_none (rest : List ℕ) (h1 : ∀ n ∈ rest, 1 ≤ n) (i k : ℕ) (hk : rest.length < k - i) :
    flatIdxLoop rest i k = none := by
  induction rest generalizing i k with
  | nil => rw [flatIdxLoop, if_pos (by simpa using hk)]
  | cons n rest ih =>
    have hn := h1 n List.mem_cons_self
    simp only [List.length_cons] at hk
    rw [flatIdxLoop, if_pos (by omega)]
    exact ih (fun x hx => h1 x (List.mem_cons_of_mem _ hx)) _ _ (by omega)

/-- **C89** (pipes). The number of the leg among the flat legs is found if all factors that the loop passes beyond
the leg are not pipes. -/
theorem C89_flat_idx (numFlat : List ℕ) (h1 : ∀ n ∈ numFlat, 1 ≤ n) (idx : ℕ) (hidx : idx ≤ numFlat.length)
    (h : ∀ j, idx ≤ j → j < (numFlat.take idx).sum → numFlat[j]? = some 1) :
    flatIdx numFlat idx = some (numFlat.take idx).sum := by
  have hsum : idx ≤ (numFlat.take idx).sum := by
    have := List.length_le_sum_of_one_le (numFlat.take idx) fun x hx => h1 x (List.mem_of_mem_take hx)
    simp only [List.length_take] at this
    omega
  rw [flatIdx, flatIdx_first numFlat h1 idx 0 idx hidx (by omega), Nat.zero_add,
    show idx + (numFlat.take idx).sum - idx = (numFlat.take idx).sum by omega]
  refine flatIdx_ones _ _ _ hsum fun j hj => ?_
  rw [List.getElem?_drop]
  exact h _ (by omega) (by omega)

/-- **C89** (pipes, defect). The loop that converts the number of the leg uses the variable it increases as its
bound.  As soon as the pipes before the leg have more flat legs than the side has factors, `scale_axis` raises
`IndexError` for every tensor and every diagonal tensor. -/
theorem C89_pipes_raise [Mul K] [Zero K] (R : FusionRule S) (d : Bool) (numFlat : List ℕ)
    (h1 : ∀ n ∈ numFlat, 1 ≤ n) (idx : ℕ) (hidx : idx < numFlat.length) (hlen : numFlat.length ≠ 1)
    (h : numFlat.length < (numFlat.take idx).sum) (spaces : List (SpaceData S)) (sectors : List S) (leg : BLeg S)
    (a : FEnts K) (b : FDiag K) : scaleAxis R d idx true numFlat spaces sectors leg a b = none := by
  have hsum : idx ≤ (numFlat.take idx).sum := by
    have := List.length_le_sum_of_one_le (numFlat.take idx) fun x hx => h1 x (List.mem_of_mem_take hx)
    simp only [List.length_take] at this
    omega
  have : flatIdx numFlat idx = none := by
    rw [flatIdx, flatIdx_first numFlat h1 idx 0 idx hidx.le (by omega), Nat.zero_add,
      show idx + (numFlat.take idx).sum - idx = (numFlat.take idx).sum by omega]
    refine flatIdx_none _ (fun x hx => h1 x (List.mem_of_mem_drop hx)) _ _ ?_
    rw [List.length_drop]
    omega
  unfold scaleAxis
  rw [if_neg hlen, if_pos rfl, this]

/-! ## Dense blocks -/

theorem layout_blocks {R : FusionRule S} {s : Side S} {l : BLeg S} (h : SideOK R s l) (dim : S → ℕ) (c : S) :
    (layout R dim s c).map (fun x => (x.tree, (x.start, x.start + x.item.mults.prod), x.item.mults)) =
      TProd.iterTreeBlocks R s.areDual s.spaces c := by
  have hplace : ∀ (u : UItem S) (ts : List (FusionTree S)) (st : ℕ),
      (placeTrees u u.mults.prod ts st).map (fun x => (x.tree, (x.start, x.start + x.item.mults.prod), x.item.mults)) =
        TProd.treeItems u.mults.prod u.mults ts st := by
    intro u ts
    induction ts with
    | nil => intro st; rfl
    | cons t ts ih =>
      intro st
      rw [placeTrees, TProd.treeItems, List.map_cons, ih]
  have key : ∀ (us : List (UItem S)) (st : ℕ), (∀ u ∈ us, s.size u = u.mults.prod) →
      (layoutFrom R s c us st).map (fun x => (x.tree, (x.start, x.start + x.item.mults.prod), x.item.mults)) =
        TProd.treeBlocksFrom R s.areDual c (us.map fun u => (u.unc, u.mults)) st := by
    intro us
    induction us with
    | nil => intro st _; rfl
    | cons u us ih =>
      intro st hsz
      rw [layoutFrom, List.map_append, List.map_cons, TProd.treeBlocksFrom, hsz u List.mem_cons_self, hplace,
        ih _ fun u' hu' => hsz u' (List.mem_cons_of_mem _ hu')]
      rfl
  rw [layout, key _ 0 fun u hu => h.size_eq dim hu, iterUncoupled_of_slices]
  rfl

/-- The cell of a leg for an index inside the slices -/
theorem inSlices_cell (dim : S → ℕ) (spaces : List (SpaceData S)) (ch : List (Cell S))
    (hch : List.Forall₂ (· ∈ ·) ch (spaces.map (cells dim))) (is : List ℕ) (hl : is.length = spaces.length)
    (hin : inSlices is (itemOf dim ch).slices = true) (idx : ℕ) (hidx : idx < spaces.length) :
    ∃ q x, ch[idx]? = some q ∧ spaces[idx]? = some x ∧ q ∈ cells dim x ∧ q.start ≤ is.getD idx 0 ∧
      is.getD idx 0 < q.stop dim ∧
      ((itemOf dim ch).degIdx is).getD idx 0 = (is.getD idx 0 - q.start) % q.mult := by
  induction spaces generalizing ch is idx with
  | nil => simp at hidx
  | cons x spaces ih =>
    cases hch with
    | @cons q _ ch _ hq hch =>
      cases is with
      | nil => simp at hl
      | cons i is =>
        simp only [itemOf, List.map_cons, inSlices, Bool.and_eq_true, decide_eq_true_eq] at hin
        cases idx with
        | zero => exact ⟨q, x, rfl, rfl, hq, hin.1.1, hin.1.2, by simp [UItem.degIdx, itemOf]⟩
        | succ idx =>
          obtain ⟨q', x', h1, h2, h3, h4, h5, h6⟩ := ih ch hch is (by simpa using hl) hin.2 idx (by simpa using hidx)
          refine ⟨q', x', h1, h2, h3, h4, h5, ?_⟩
          rw [List.getD_cons_succ, ← h6]
          simp [UItem.degIdx, itemOf]

/-- Where a vector of a tree is not zero, the row belongs to this tree. -/
theorem vec_row [CommRing K] [StarRing K] {R : FusionRule S} {T : FTensors S K} {s : Side S} {l : BLeg S}
    (h : SideOK R s l) (c : S) (r g : ℕ) (is : List ℕ) (hl : is.length = s.spaces.length)
    (hv : vec R T s c r g is ≠ 0) (idx : ℕ) (x : SpaceData S) (hx : s.spaces[idx]? = some x) (k : ℕ) (u : S) (m : ℕ)
    (hu : x.sectors[k]? = some u) (hm : x.mults[k]? = some m)
    (hk : (spaceSlice T.dim x k).1 ≤ is.getD idx 0 ∧ is.getD idx 0 < (spaceSlice T.dim x k).2) :
    ∃ t ms, TreeRow R s c t ms r ∧ t.uncoupled[idx]? = some u ∧
      ms.getD idx 0 = (is.getD idx 0 - (spaceSlice T.dim x k).1) % m := by
  have hex : ∃ y ∈ layout R T.dim s c, pvec T y r g is ≠ 0 := by
    by_contra hn
    push Not at hn
    exact hv (sum_zero _ _ hn)
  obtain ⟨y, hy, hyv⟩ := hex
  have hcond : inSlices is y.item.slices = true ∧ y.start + y.item.ravel (y.item.degIdx is) = r := by
    by_contra hn
    exact hyv (if_neg hn)
  obtain ⟨ch, c1, c2, c3, -, -, -, -⟩ := h.placed T.dim hy
  rw [c2] at hcond
  have hidx : idx < s.spaces.length := (List.getElem?_eq_some_iff.1 hx).1
  obtain ⟨q, x', q1, q2, q3, q4, q5, q6⟩ := inSlices_cell T.dim s.spaces ch c1 is hl hcond.1 idx hidx
  obtain rfl : x = x' := Option.some.inj (hx.symm.trans q2)
  obtain ⟨k1, k2⟩ := List.getElem?_eq_some_iff.1 hu
  obtain ⟨m1, m2⟩ := List.getElem?_eq_some_iff.1 hm
  obtain ⟨g1, g2⟩ := cells_get T.dim x k k1 m1
  rw [k2, m2] at g1 g2
  have hqe : q = ⟨u, m, (spaceSlice T.dim x k).1⟩ := by
    refine cellsFrom_disjoint T.dim 0 _ q _ q3 (List.mem_of_getElem? g1) (is.getD idx 0) q4 q5 hk.1 ?_
    show _ < (spaceSlice T.dim x k).1 + T.dim u * m
    rw [← g2]
    exact hk.2
  refine ⟨y.tree, y.item.degIdx is, ⟨y.start, y.start + y.item.mults.prod, y.item.mults, ?_, ?_, ?_⟩, ?_, ?_⟩
  · rw [← layout_blocks h T.dim c]
    exact List.mem_map.2 ⟨y, hy, rfl⟩
  · rw [c2]
    exact degIdx_inShape T.dim ch (h.cell_pos T.dim c1) is (by rw [hl, c1.length_eq, List.length_map])
  · rw [c2]; exact hcond.2.symm
  · rw [c3, List.getElem?_map, q1, hqe]; rfl
  · rw [c2, q6, hqe]

/-- **C89** (dense blocks). For the dense blocks, `scale_axis` multiplies every entry with the number of the diagonal
tensor for the dense index of the leg: `k` is the sector of the leg whose slice contains the index. -/
theorem C89_dense_codomain [CommRing K] [StarRing K] {R : FusionRule S} {T : FTensors S K} {cod dom : Side S}
    {lc ld : BLeg S} (hc : SideOK R cod lc) (hd : SideOK R dom ld) (a : FEnts K) (ha : FSane lc ld a) {leg : BLeg S}
    (hl : Coupled leg) (b : FDiag K) (hb : DSane leg b) (idx : ℕ) (x : SpaceData S) (hx : cod.spaces[idx]? = some x)
    (numFlat : List ℕ) (hn : numFlat.length ≠ 1) :
    ∃ res, scaleAxis R false idx false numFlat cod.spaces lc.sectors leg a b = some res ∧
      ∀ is js, is ∈ gridC (legDims T.dim cod) → js ∈ gridC (legDims T.dim dom) → ∀ (k : ℕ) (u : S) (m : ℕ),
        x.sectors[k]? = some u → x.mults[k]? = some m →
        (spaceSlice T.dim x k).1 ≤ is.getD idx 0 → is.getD idx 0 < (spaceSlice T.dim x k).2 →
        entry (toDenseBlock R T lc.sectors cod dom res) is js =
          entry (toDenseBlock R T lc.sectors cod dom a) is js *
            diagValue leg b u ((is.getD idx 0 - (spaceSlice T.dim x k).1) % m) := by
  have hidx : idx < cod.spaces.length := (List.getElem?_eq_some_iff.1 hx).1
  obtain ⟨res, h1, h2, h3⟩ := C89_scale_axis_codomain hc hd a ha hl b hb idx hidx numFlat hn
  refine ⟨res, h1, fun is js hi hj k u m hu hm k1 k2 => ?_⟩
  have hil : is.length = cod.spaces.length := by simpa [legDims] using ((mem_gridC _ _).1 hi).length_eq
  have hjl : js.length = dom.spaces.length := by simpa [legDims] using ((mem_gridC _ _).1 hj).length_eq
  rw [entry_core _ _ _ _ hi, entry_core _ _ _ _ hi, core_eq hc hd res h2 is js hil hjl, core_eq hc hd a ha is js hil hjl,
    ListSum.sum_mul]
  refine sum_congr _ fun c _ => ?_
  rw [Finset.sum_mul]
  refine Finset.sum_congr rfl fun r _ => ?_
  rw [Finset.sum_mul]
  refine Finset.sum_congr rfl fun t _ => ?_
  rw [Finset.sum_mul]
  refine Finset.sum_congr rfl fun g _ => ?_
  by_cases hv : vec R T cod c r g is = 0
  · rw [hv]; simp
  · obtain ⟨tr, ms, g1, g2, g3⟩ := vec_row hc c r g is hil hv idx x hx k u m hu hm ⟨k1, k2⟩
    rw [h3 c r t tr ms u g1 g2, g3]
    ring

/-- **C89** (dense blocks, leg in the domain). -/
theorem C89_dense_domain [CommRing K] [StarRing K] {R : FusionRule S} {T : FTensors S K} {cod dom : Side S}
    {lc ld : BLeg S} (hc : SideOK R cod lc) (hd : SideOK R dom ld) (a : FEnts K) (ha : FSane lc ld a) {leg : BLeg S}
    (hl : Coupled leg) (b : FDiag K) (hb : DSane leg b) (idx : ℕ) (x : SpaceData S) (hx : dom.spaces[idx]? = some x)
    (numFlat : List ℕ) (hn : numFlat.length ≠ 1) :
    ∃ res, scaleAxis R true idx false numFlat dom.spaces lc.sectors leg a b = some res ∧
      ∀ is js, is ∈ gridC (legDims T.dim cod) → js ∈ gridC (legDims T.dim dom) → ∀ (k : ℕ) (u : S) (m : ℕ),
        x.sectors[k]? = some u → x.mults[k]? = some m →
        (spaceSlice T.dim x k).1 ≤ js.getD idx 0 → js.getD idx 0 < (spaceSlice T.dim x k).2 →
        entry (toDenseBlock R T lc.sectors cod dom res) is js =
          entry (toDenseBlock R T lc.sectors cod dom a) is js *
            diagValue leg b u ((js.getD idx 0 - (spaceSlice T.dim x k).1) % m) := by
  have hidx : idx < dom.spaces.length := (List.getElem?_eq_some_iff.1 hx).1
  obtain ⟨res, h1, h2, h3⟩ := C89_scale_axis_domain hc hd a ha hl b hb idx hidx numFlat hn
  refine ⟨res, h1, fun is js hi hj k u m hu hm k1 k2 => ?_⟩
  have hil : is.length = cod.spaces.length := by simpa [legDims] using ((mem_gridC _ _).1 hi).length_eq
  have hjl : js.length = dom.spaces.length := by simpa [legDims] using ((mem_gridC _ _).1 hj).length_eq
  rw [entry_core _ _ _ _ hi, entry_core _ _ _ _ hi, core_eq hc hd res h2 is js hil hjl, core_eq hc hd a ha is js hil hjl,
    ListSum.sum_mul]
  refine sum_congr _ fun c _ => ?_
  rw [Finset.sum_mul]
  refine Finset.sum_congr rfl fun r _ => ?_
  rw [Finset.sum_mul]
  refine Finset.sum_congr rfl fun t _ => ?_
  rw [Finset.sum_mul]
  refine Finset.sum_congr rfl fun g _ => ?_
  by_cases hv : vec R T dom c t g js = 0
  · rw [hv]; simp
  · obtain ⟨tr, ms, g1, g2, g3⟩ := vec_row hd c t g js hjl hv idx x hx k u m hu hm ⟨k1, k2⟩
    rw [h3 c r t tr ms u g1 g2, g3]
    ring

/-! ## Concrete cases -/

namespace ScaleExample
open Cyten.FT.D4

/-- Three legs with the two-dimensional representation -/
def factors3 : List (Leg (Fin 5)) :=
  [.space ⟨[4], [2], false, none⟩, .space ⟨[0, 4], [2, 1], true, none⟩, .space ⟨[4], [1], false, none⟩]

theorem factors3_sane : SaneLeaves factors3 := by
  intro e he
  simp [factors3, Leg.leavesAll, Leg.leaves] at he
  rcases he with rfl | rfl | rfl <;> decide

theorem side3_ok : SideOK rule (sideOf sym factors3) (coupledOf sym rule false factors3) :=
  (C63_sides sym (fun _ => rfl) rule false rule_ok factors3 factors3_sane).1

/-- A tensor with the same codomain and domain and one block of 8 × 8, for the two-dimensional representation -/
def data3 : FEnts ℤ := [((4, 4), ⟨8, 8, fun m n => 10 * m + n⟩)]

theorem data3_sane : FSane (coupledOf sym rule false factors3) (coupledOf sym rule false factors3) data3 := by
  refine ⟨?_, ?_, ?_⟩ <;> decide +kernel

/-- A diagonal tensor on the first leg -/
def diag3 : FDiag ℤ := [((0, 0), [2, 3])]

theorem diag3_sane : DSane (⟨[4], [2]⟩ : BLeg (Fin 5)) diag3 := ⟨by decide, by decide, by decide⟩

/-- Some rows of the result: the coupled sector has four trees, their rows are scaled alike. -/
example : (scaleAxis rule false 0 false [1, 1, 1] (sideOf sym factors3).spaces
      (coupledOf sym rule false factors3).sectors ⟨[4], [2]⟩ data3 diag3).map
    (fun r => r.map fun e => (e.1, (List.range 8).map fun m => e.2.val m 1)) =
    some [((4, 4), [2 * 1, 3 * 11, 2 * 21, 3 * 31, 2 * 41, 3 * 51, 2 * 61, 3 * 71])] := by decide +kernel

/-- Seven flat legs in factors of 3, 1, 2 and 1 flat legs -/
def factors7 : List (Leg (Fin 5)) :=
  [.space ⟨[0], [1], false, none⟩, .space ⟨[0], [1], false, none⟩, .space ⟨[0], [1], false, none⟩,
   .space ⟨[0], [2], false, none⟩, .space ⟨[0], [2], false, none⟩, .space ⟨[0], [1], false, none⟩,
   .space ⟨[0], [1], false, none⟩]

end ScaleExample

/-- **C89** (pipes, defect). Otherwise the wrong leg can be scaled silently: the leg number 1 after a pipe of three
legs is the flat leg number 3, but the flat leg number 4 is scaled. -/
theorem C89_pipes_wrong_leg : flatIdx [3, 1, 2, 1] 1 = some 4 ∧
    ∃ (a : FEnts ℤ) (b : FDiag ℤ),
      FSane (coupledOf D4.sym D4.rule false ScaleExample.factors7) (⟨[0], [1]⟩ : BLeg (Fin 5)) a ∧
      DSane (⟨[0], [2]⟩ : BLeg (Fin 5)) b ∧
      (scaleAxis D4.rule false 1 true [3, 1, 2, 1] (sideOf D4.sym ScaleExample.factors7).spaces [0] ⟨[0], [2]⟩ a b).map
          (fun r => r.map fun e => (List.range 4).map fun m => e.2.val m 0) = some [[5, 0, 5, 0]] ∧
      (scaleAxis D4.rule false 3 false [1, 1, 1, 1, 1, 1, 1] (sideOf D4.sym ScaleExample.factors7).spaces [0] ⟨[0], [2]⟩
          a b).map (fun r => r.map fun e => (List.range 4).map fun m => e.2.val m 0) = some [[5, 5, 0, 0]] := by
  refine ⟨by decide, [((0, 0), ⟨4, 1, fun _ _ => 1⟩)], [((0, 0), [5, 0])], ?_, ⟨by decide, by decide, by decide⟩, ?_, ?_⟩
  · refine ⟨?_, ?_, ?_⟩ <;> decide +kernel
  · decide +kernel
  · decide +kernel

end Cyten.FT
