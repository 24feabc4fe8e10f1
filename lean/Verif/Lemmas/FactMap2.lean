import Verif.Lemmas.FactMap

/-! # The blocks of the factorized mapping -/

namespace Cyten.FT
open Cyten.FT.Spec Cyten.Tools Cyten.ListSum Cyten.Props Cyten.Spaces Cyten.Spaces.Spec Cyten.Abelian
  Cyten.FusionTrees Cyten.Mappings Cyten.Permute

variable {S K : Type} [LinearOrder S] [CommRing K] [StarRing K]

omit [StarRing K] in
/-- The new blocks, one for each common coupled sector -/
theorem blocks_spec {lc' ld' : BLeg S} (hc' : Coupled lc') (hd' : Coupled ld')
    (G : ℕ × ℕ → Option (Option ((ℕ × ℕ) × Mat K))) (o : ℕ × ℕ → Option (Mat K))
    (hG : ∀ i j c, lc'.sectors[i]? = some c → ld'.sectors[j]? = some c →
      G (i, j) = some ((o (i, j)).map fun B => ((i, j), B)) ∧
        ∀ B, o (i, j) = some B → B.rows = lc'.mults.getD i 0 ∧ B.cols = ld'.mults.getD j 0) :
    ∃ D', (((Cyten.Tables.iterCommonSorted compare lc'.sectors ld'.sectors true true).getD []).mapM G).map
        (fun l => mkData l.reduceOption true) = some D' ∧ FSane lc' ld' D' ∧
      ∀ i j c, lc'.sectors[i]? = some c → ld'.sectors[j]? = some c → ∀ r t, blkVal lc' D' c r t = ov (o (i, j)) r t := by
  obtain ⟨cm, cs⟩ := common_spec hc' hd'
  let L := (Cyten.Tables.iterCommonSorted compare lc'.sectors ld'.sectors true true).getD []
  have hG' : ∀ ij ∈ L, ∃ c, lc'.sectors[ij.1]? = some c ∧ ld'.sectors[ij.2]? = some c ∧
      G ij = some ((o ij).map fun B => (ij, B)) ∧
        ∀ B, o ij = some B → B.rows = lc'.mults.getD ij.1 0 ∧ B.cols = ld'.mults.getD ij.2 0 := by
    rintro ⟨i, j⟩ hij
    obtain ⟨c, h1, h2⟩ := (cm i j).1 hij
    obtain ⟨g1, g2⟩ := hG i j c h1 h2
    exact ⟨c, h1, h2, g1, g2⟩
  have hM : ∀ l : List (ℕ × ℕ), (∀ ij ∈ l, ∃ o, G ij = some o) → l.mapM G = some (l.map fun ij => (G ij).join) := by
    intro l
    induction l with
    | nil => intro _; rfl
    | cons ij l ih =>
      intro h
      obtain ⟨o, ho⟩ := h ij List.mem_cons_self
      rw [List.mapM_cons, ho, ih fun x hx => h x (List.mem_cons_of_mem _ hx)]
      simp [ho]
  have hT : (L.mapM G).map (fun l => mkData l.reduceOption true) = some (L.filterMap fun ij => (G ij).join) := by
    rw [hM L fun ij hij => by
      obtain ⟨c, -, -, h, -⟩ := hG' ij hij
      exact ⟨_, h⟩]
    simp only [Option.map_some, mkData, if_true, List.reduceOption, List.filterMap_map]
    rfl
  have hmem : ∀ e ∈ (L.filterMap fun ij => (G ij).join), ∃ (ij : ℕ × ℕ) (c : S) (B : Mat K), ij ∈ L ∧
      lc'.sectors[ij.1]? = some c ∧ ld'.sectors[ij.2]? = some c ∧ B.rows = lc'.mults.getD ij.1 0 ∧
      B.cols = ld'.mults.getD ij.2 0 ∧ e = (ij, B) := by
    intro e he
    obtain ⟨ij, hij, hj⟩ := List.mem_filterMap.1 he
    obtain ⟨c, b1, b2, b3, b4⟩ := hG' ij hij
    rw [b3] at hj
    simp only [Option.join_some, Option.map_eq_some_iff] at hj
    obtain ⟨B, hB, rfl⟩ := hj
    exact ⟨ij, c, B, hij, b1, b2, (b4 B hB).1, (b4 B hB).2, rfl⟩
  have hsane : FSane lc' ld' (L.filterMap fun ij => (G ij).join) := by
    refine ⟨fun e he => ?_, fun e he => ?_, ?_⟩
    · obtain ⟨ij, c, B, -, b1, b2, -, -, rfl⟩ := hmem e he
      exact ⟨c, b1, b2⟩
    · obtain ⟨ij, c, B, -, -, -, b1, b2, rfl⟩ := hmem e he
      exact ⟨b1, b2⟩
    · have : ((L.filterMap fun ij => (G ij).join).map fun e => e.1.2).Sublist (L.map Prod.snd) := by
        have : ∀ l : List (ℕ × ℕ), (∀ ij ∈ l, ij ∈ L) →
            ((l.filterMap fun ij => (G ij).join).map fun e => e.1.2).Sublist (l.map Prod.snd) := by
          intro l
          induction l with
          | nil => intro _; simp
          | cons ij l ih =>
            intro h
            obtain ⟨c, -, -, b7, -⟩ := hG' ij (h ij List.mem_cons_self)
            have ih' := ih fun x hx => h x (List.mem_cons_of_mem _ hx)
            rw [List.filterMap_cons, b7]
            rcases o ij with _ | B
            · simp only [Option.map_none, Option.join_some, List.map_cons]
              exact ih'.cons _
            · simp only [Option.map_some, Option.join_some, List.map_cons]
              exact ih'.cons_cons _
        exact this L fun _ h => h
      exact (List.pairwise_map.2 (cs.imp fun h => h.2)).sublist this
  refine ⟨_, hT, hsane, fun i j c hi hj r t => ?_⟩
  have hij : (i, j) ∈ L := (cm i j).2 ⟨c, hi, hj⟩
  obtain ⟨b7, -⟩ := hG i j c hi hj
  have hLn : L.Nodup := cs.imp fun {p q} h e => by rw [e] at h; omega
  unfold blkVal
  rw [sum_filterMap, sum_single' L hLn (i, j) hij]
  · rw [b7]
    rcases o (i, j) with _ | B
    · rfl
    · simp only [Option.join_some, Option.map_some, Option.getD_some]
      exact if_pos hi
  · rintro ⟨i', j'⟩ hij' hne
    obtain ⟨c', d1, d2, d7, -⟩ := hG' _ hij'
    rw [d7]
    rcases o (i', j') with _ | B'
    · rfl
    · simp only [Option.join_some, Option.map_some, Option.getD_some]
      refine if_neg fun hh => hne ?_
      have k1 := nodup_getElem? hc'.nodup hh hi
      simp only at k1 d1 d2
      rw [hh] at d1
      obtain rfl := Option.some.inj d1
      have k2 := nodup_getElem? hd'.nodup d2 hj
      rw [k1, k2]

/-! ## Setting slices -/

/-- The state after one tree block -/
def setOpt (s1 s2 : ℕ × ℕ) (o : Option (Mat K)) (st : Mat K × Bool) : Mat K × Bool := match o with
  | none => st
  | some b => (st.1.setSlice s1 s2 b, false)

omit [CommRing K] [StarRing K] in
theorem setOpt_dims (s1 s2 : ℕ × ℕ) (o : Option (Mat K)) (st : Mat K × Bool) :
    (setOpt s1 s2 o st).1.rows = st.1.rows ∧ (setOpt s1 s2 o st).1.cols = st.1.cols := by
  cases o <;> exact ⟨rfl, rfl⟩

omit [StarRing K] in
theorem fold_set {V : Type} (F : Mat K × Bool → V → Option (Mat K × Bool)) (s1 s2 : V → ℕ × ℕ) (o : V → Option (Mat K))
    (R0 C0 : ℕ) (vs : List V)
    (hF : ∀ v ∈ vs, ∀ st : Mat K × Bool, st.1.rows = R0 → st.1.cols = C0 → F st v = some (setOpt (s1 v) (s2 v) (o v) st))
    (st : Mat K × Bool) (hr : st.1.rows = R0) (hc : st.1.cols = C0) :
    ∃ st', vs.foldlM F st = some st' ∧ st'.1.rows = R0 ∧ st'.1.cols = C0 ∧ (st.2 = false → st'.2 = false) ∧
      (st'.2 = true → st' = st) ∧
      ∀ (r t : ℕ) (w : K),
        (∀ v ∈ vs, (s1 v).1 ≤ r ∧ r < (s1 v).2 → (s2 v).1 ≤ t ∧ t < (s2 v).2 →
          ov (o v) (r - (s1 v).1) (t - (s2 v).1) = w) →
        (st.1.val r t = w ∨ (st.1.val r t = 0 ∧
          ∃ v ∈ vs, ((s1 v).1 ≤ r ∧ r < (s1 v).2) ∧ ((s2 v).1 ≤ t ∧ t < (s2 v).2))) →
        st'.1.val r t = w := by
  induction vs generalizing st with
  | nil => exact ⟨st, rfl, hr, hc, id, fun _ => rfl, fun r t w _ h => by simpa using h⟩
  | cons v vs ih =>
    have h1 := hF v List.mem_cons_self st hr hc
    obtain ⟨g1, g2⟩ := setOpt_dims (s1 v) (s2 v) (o v) st
    obtain ⟨st', e1, e2, e3, e4, e5, e6⟩ := ih (fun v' hv' => hF v' (List.mem_cons_of_mem _ hv'))
      (setOpt (s1 v) (s2 v) (o v) st) (g1.trans hr) (g2.trans hc)
    refine ⟨st', ?_, e2, e3, fun h => e4 ?_, fun h => ?_, fun r t w hw hcase => ?_⟩
    · rw [List.foldlM_cons, h1]; exact e1
    · rcases hov : o v with _ | b
      · exact h
      · rfl
    · rcases hov : o v with _ | b
      · rw [hov] at e5
        exact e5 h
      · rw [hov] at e4
        rw [e4 rfl] at h; cases h
    · refine e6 r t w (fun v' hv' => hw v' (List.mem_cons_of_mem _ hv')) ?_
      by_cases hcv : ((s1 v).1 ≤ r ∧ r < (s1 v).2) ∧ ((s2 v).1 ≤ t ∧ t < (s2 v).2)
      · left
        have e := hw v List.mem_cons_self hcv.1 hcv.2
        rcases hov : o v with _ | b
        · rw [hov] at e
          have hw0 : w = 0 := e.symm
          rcases hcase with h | ⟨h, -⟩
          · exact h
          · rw [hw0]; exact h
        · rw [hov] at e
          rw [← e]
          exact if_pos ⟨hcv.1.1, hcv.1.2, hcv.2.1, hcv.2.2⟩
      · have : (setOpt (s1 v) (s2 v) (o v) st).1.val r t = st.1.val r t := by
          rcases o v with _ | b
          · rfl
          · exact if_neg fun hh => hcv ⟨⟨hh.1, hh.2.1⟩, ⟨hh.2.2.1, hh.2.2.2⟩⟩
        rw [this]
        rcases hcase with h | ⟨h, v', hv', hc'⟩
        · exact Or.inl h
        · rcases List.mem_cons.1 hv' with rfl | hv'
          · exact absurd hc' hcv
          · exact Or.inr ⟨h, v', hv', hc'⟩

/-! ## The linear combinations and the permutations of the axes -/

omit [StarRing K] in
theorem treePart_spec {R : FusionRule S} {s : Side S} (m : SMap (FusionTree S) K) (part : ℕ × ℕ → Mat K)
    (t : FusionTree S) (ρ a b : ℕ) (hp : ∀ k, (part (k, k + ρ)).rows = a ∧ (part (k, k + ρ)).cols = b)
    (h : ∀ p ∈ m, ∀ v, p.2.find t = some v →
      TProd.treeBlockSlice R s.spaces p.1 = some (sl R s p.1, sl R s p.1 + ρ)) :
    ∃ o, treePart R id m s part t = some o ∧ (∀ B, o = some B → B.rows = a ∧ B.cols = b) ∧
      ∀ r c, ov o r c = (m.map fun p => (p.2.find t).getD 0 * (part (sl R s p.1, sl R s p.1 + ρ)).val r c).sum := by
  unfold treePart
  suffices H : ∀ (m : SMap (FusionTree S) K) (acc : Option (Mat K)), (∀ B, acc = some B → B.rows = a ∧ B.cols = b) →
      (∀ p ∈ m, ∀ v, p.2.find t = some v →
        TProd.treeBlockSlice R s.spaces p.1 = some (sl R s p.1, sl R s p.1 + ρ)) →
      ∃ o, m.foldlM (fun acc p => match p.2.find t with
        | none => some acc
        | some v => (TProd.treeBlockSlice R s.spaces p.1).map fun i =>
          some (addBlock acc ((part i).smul (id v)))) acc = some o ∧ (∀ B, o = some B → B.rows = a ∧ B.cols = b) ∧
      ∀ r c, ov o r c = ov acc r c +
        (m.map fun p => (p.2.find t).getD 0 * (part (sl R s p.1, sl R s p.1 + ρ)).val r c).sum by
    obtain ⟨o, h1, h2, h3⟩ := H m none (by simp) h
    exact ⟨o, h1, h2, fun r t => by rw [h3]; simp [ov]⟩
  intro m
  induction m with
  | nil => intro acc ha _; exact ⟨acc, rfl, ha, fun r t => by simp⟩
  | cons p m ih =>
    intro acc ha hm
    rcases hf : UMap.find p.2 t with _ | v
    · obtain ⟨o, o1, o2, o3⟩ := ih acc ha fun q hq => hm q (List.mem_cons_of_mem _ hq)
      refine ⟨o, ?_, o2, fun r c => ?_⟩
      · rw [List.foldlM_cons, hf]; exact o1
      · rw [o3, List.map_cons, List.sum_cons, hf]; simp
    · obtain ⟨o, o1, o2, o3⟩ := ih (some (addBlock acc ((part (sl R s p.1, sl R s p.1 + ρ)).smul (id v)))) (by
          intro B hB
          injection hB with hB
          subst hB
          cases acc with
          | none => exact hp _
          | some A => exact ha A rfl) fun q hq => hm q (List.mem_cons_of_mem _ hq)
      refine ⟨o, ?_, o2, fun r c => ?_⟩
      · rw [List.foldlM_cons, hf]
        simp only [hm p List.mem_cons_self v hf, Option.map_some]
        exact o1
      · rw [o3, List.map_cons, List.sum_cons, hf]
        cases acc with
        | none => simp [addBlock, Mat.smul, ov]
        | some A => simp [addBlock, Mat.smul, ov]; ring

omit [CommRing K] [StarRing K] in
theorem permuteIdx0_spec (J : ℕ) (idcs : List ℕ) (hp : idcs.Perm (List.range J)) (μ : ℕ → ℕ) (b : Mat K)
    (hr : b.rows = ((List.range J).map μ).prod) (m : ℕ → ℕ) (hm : ∀ x < J, m x < μ x) (j : ℕ) (hj : j < b.cols) :
    (permuteIdx0 b (oldMults (idcs.map μ) idcs) idcs).val (packRow (makeStride (idcs.map μ) true) (idcs.map m)) j =
      b.val (packRow (makeStride ((List.range J).map μ) true) ((List.range J).map m)) j := by
  have hlen : idcs.length = J := by simpa using hp.length_eq
  have hlt : ∀ x ∈ idcs, x < J := fun x hx => by simpa using hp.mem_iff.1 hx
  unfold permuteIdx0 oldMults
  rw [old_mults idcs J hp μ]
  simp only
  have hpick : ∀ (f : ℕ → ℕ) (z : ℕ), pick (idcs ++ [idcs.length]) ((List.range J).map f ++ [z]) = idcs.map f ++ [z] := by
    intro f z
    unfold pick
    rw [List.map_append]
    congr 1
    · refine List.map_congr_left fun x hx => ?_
      rw [List.getD_eq_getElem?_getD, List.getElem?_append_left (by simpa using hlt x hx), List.getElem?_map,
        List.getElem?_range (hlt x hx)]
      rfl
    · simp [hlen, List.getD_eq_getElem?_getD]
  set bb := (b.toBlk.reshape ((List.range J).map μ ++ [b.cols])).permuteAxes (idcs ++ [idcs.length]) with hbb
  have hs : bb.shape = idcs.map μ ++ [b.cols] := hpick μ b.cols
  have s1 := inShape_map idcs μ m fun x hx => hm x (hlt x hx)
  have s0 := inShape_map (List.range J) μ m fun x hx => hm x (List.mem_range.1 hx)
  rw [reshape_val bb _ _ (idcs.map m ++ [j]) (by
      rw [hs]; exact List.rel_append s1 (.cons hj .nil)) (by
      rw [hs, packC_two, packC_append _ _ _ _ (by simp), packC_one]; simp)]
  have hv := permuteAxes_val (b.toBlk.reshape ((List.range J).map μ ++ [b.cols])) (idcs ++ [idcs.length])
    ((List.range J).map m ++ [j]) (by
      rw [List.length_append, List.length_map, List.length_range, List.length_singleton, List.range_succ, hlen]
      exact hp.append_right _)
  rw [hpick] at hv
  rw [hbb, hv]
  rw [reshape_val b.toBlk _ _ [packRow (makeStride ((List.range J).map μ) true) ((List.range J).map m), j]
    (by
      show List.Forall₂ _ _ [b.rows, b.cols]
      rw [hr]
      exact .cons (packRow_lt s0) (.cons hj .nil))
    (by
      show _ = packRow (makeStride [b.rows, b.cols] true) _
      rw [packC_two, packC_append _ _ _ _ (by simp), packC_one]; simp)]
  rfl

omit [CommRing K] [StarRing K] in
theorem permuteIdx1_spec (M : ℕ) (idcs : List ℕ) (hp : idcs.Perm (List.range M)) (μ : ℕ → ℕ) (b : Mat K)
    (hr : b.cols = ((List.range M).map μ).prod) (m : ℕ → ℕ) (hm : ∀ x < M, m x < μ x) (i : ℕ) (hi : i < b.rows) :
    (permuteIdx1 b (oldMults (idcs.map μ) idcs) idcs).val i (packRow (makeStride (idcs.map μ) true) (idcs.map m)) =
      b.val i (packRow (makeStride ((List.range M).map μ) true) ((List.range M).map m)) := by
  have hlt : ∀ x ∈ idcs, x < M := fun x hx => by simpa using hp.mem_iff.1 hx
  unfold permuteIdx1 oldMults
  rw [old_mults idcs M hp μ]
  simp only
  have hpick : ∀ (f : ℕ → ℕ) (z : ℕ), pick ([0] ++ idcs.map (1 + ·)) ([z] ++ (List.range M).map f) =
      [z] ++ idcs.map f := by
    intro f z
    unfold pick
    rw [List.map_append, List.map_map]
    congr 1
    refine List.map_congr_left fun x hx => ?_
    simp [List.getD_eq_getElem?_getD, Nat.add_comm 1 x, List.getElem?_range (hlt x hx)]
  set bb := (b.toBlk.reshape ([b.rows] ++ (List.range M).map μ)).permuteAxes ([0] ++ idcs.map (1 + ·)) with hbb
  have hs : bb.shape = [b.rows] ++ idcs.map μ := hpick μ b.rows
  have s1 := inShape_map idcs μ m fun x hx => hm x (hlt x hx)
  have s0 := inShape_map (List.range M) μ m fun x hx => hm x (List.mem_range.1 hx)
  have hprod : (idcs.map μ).prod = b.cols := by rw [hr]; exact (hp.map μ).prod_eq
  rw [reshape_val bb _ _ ([i] ++ idcs.map m) (by
      rw [hs]; exact List.rel_append (.cons hi .nil) s1) (by
      rw [hs, packC_two, packC_append _ _ _ _ (by simp), packC_one, hprod])]
  have hv := permuteAxes_val (b.toBlk.reshape ([b.rows] ++ (List.range M).map μ)) ([0] ++ idcs.map (1 + ·))
    ([i] ++ (List.range M).map m) (by
      have : ([i] ++ (List.range M).map m).length = M + 1 := by simp
      rw [this, List.range_succ_eq_map]
      refine List.Perm.cons _ ?_
      have h2 := hp.map (1 + ·)
      have : (List.range M).map Nat.succ = (List.range M).map (1 + ·) := List.map_congr_left fun x _ => by
        simp only [Nat.succ_eq_add_one]; omega
      rw [this]
      exact h2)
  rw [hpick] at hv
  rw [hbb, hv]
  rw [reshape_val b.toBlk _ _ [i, packRow (makeStride ((List.range M).map μ) true) ((List.range M).map m)]
    (by
      show List.Forall₂ _ _ [b.rows, b.cols]
      rw [hr]
      exact .cons hi (.cons (packRow_lt s0) .nil))
    (by
      show _ = packRow (makeStride [b.rows, b.cols] true) _
      rw [packC_two, packC_append _ _ _ _ (by simp), packC_one, hr])]
  rfl

end Cyten.FT
