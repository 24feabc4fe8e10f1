import Verif.Lemmas.TreePermute2

/-! # The blocks of the permuted tensor -/

namespace Cyten.FT
open Cyten.FT.Spec Cyten.Tools Cyten.ListSum Cyten.Props Cyten.Spaces Cyten.Spaces.Spec Cyten.Abelian
  Cyten.FusionTrees Cyten.Mappings Cyten.Permute

variable {S K : Type} [LinearOrder S] [CommRing K]

/-- The entry of a block that may be missing -/
def ov (o : Option (Mat K)) (m n : ℕ) : K := match o with
  | none => 0
  | some b => b.val m n

section
variable {R : FusionRule S} {cod dom cod' dom' : Side S} {lc ld lc' ld' : BLeg S} {D : FEnts K}

theorem blkVal_mem (hD : FSane lc ld D) (hc : Coupled lc) (hd : Coupled ld) {e : (ℕ × ℕ) × Mat K} (he : e ∈ D)
    {c : S} (h : lc.sectors[e.1.1]? = some c) (r t : ℕ) : blkVal lc D c r t = e.2.val r t := by
  classical
  have hs := nodup_of_lt (hD.sorted0 hc hd)
  unfold blkVal
  rw [sum_single' D (List.Nodup.of_map _ hs) e he]
  · exact if_pos h
  · intro e' he' hne
    refine if_neg fun h' => hne (List.inj_on_of_nodup_map hs he' he ?_)
    exact nodup_getElem? hc.nodup h' h

theorem blkVal_cases (hD : FSane lc ld D) (hc : Coupled lc) (hd : Coupled ld) (c : S) :
    (∃ n e, blockIndFromCoupled D ld c = some (some n) ∧ D[n]? = some e ∧ ∀ r t, blkVal lc D c r t = e.2.val r t) ∨
    (blockIndFromCoupled D ld c = some none ∧ ∀ r t, blkVal lc D c r t = 0) := by
  rcases C61_block_ind_from_coupled hd D hD c with ⟨n, e, h1, h2, h3⟩ | ⟨h1, h2⟩
  · refine Or.inl ⟨n, e, h1, h2, fun r t => ?_⟩
    have he := List.mem_of_getElem? h2
    obtain ⟨c', g1, g2⟩ := hD.coupled e he
    obtain rfl : c = c' := Option.some.inj (h3.symm.trans g2)
    exact blkVal_mem hD hc hd he g1 r t
  · refine Or.inr ⟨h1, fun r t => ?_⟩
    unfold blkVal
    refine sum_zero _ _ fun e he => if_neg fun hh => ?_
    obtain ⟨c', g1, g2⟩ := hD.coupled e he
    obtain rfl : c = c' := Option.some.inj (hh.symm.trans g1)
    exact h2 e he g2

/-- The block of a pair of trees of the new tensor is the linear combination of the blocks of the old one. -/
theorem pairBlock_spec (hD : FSane lc ld D) (hc : Coupled lc) (hd : Coupled ld) (m : PMap S K)
    (J : FusionTree S × FusionTree S) (sl1 sl2 : FusionTree S × FusionTree S → ℕ) (ρ γ : ℕ)
    (h : ∀ p ∈ m, ∀ v, p.2.find J = some v → TProd.treeBlockSlice R cod.spaces p.1.1 = some (sl1 p.1, sl1 p.1 + ρ) ∧
      TProd.treeBlockSlice R dom.spaces p.1.2 = some (sl2 p.1, sl2 p.1 + γ)) :
    ∃ o, pairBlock R m D ld cod dom J = some o ∧ (∀ b, o = some b → b.rows = ρ ∧ b.cols = γ) ∧
      ∀ r t, ov o r t = (m.map fun p => (p.2.find J).getD 0 *
        blkVal lc D p.1.1.coupled (sl1 p.1 + r) (sl2 p.1 + t)).sum := by
  unfold pairBlock
  suffices H : ∀ (m : PMap S K) (acc : Option (Mat K)), (∀ b, acc = some b → b.rows = ρ ∧ b.cols = γ) →
      (∀ p ∈ m, ∀ v, p.2.find J = some v →
        TProd.treeBlockSlice R cod.spaces p.1.1 = some (sl1 p.1, sl1 p.1 + ρ) ∧
        TProd.treeBlockSlice R dom.spaces p.1.2 = some (sl2 p.1, sl2 p.1 + γ)) →
      ∃ o, m.foldlM (pairStep R D ld cod dom J) acc = some o ∧ (∀ b, o = some b → b.rows = ρ ∧ b.cols = γ) ∧
      ∀ r t, ov o r t = ov acc r t + (m.map fun p => (p.2.find J).getD 0 *
        blkVal lc D p.1.1.coupled (sl1 p.1 + r) (sl2 p.1 + t)).sum by
    obtain ⟨o, h1, h2, h3⟩ := H m none (by simp) h
    exact ⟨o, h1, h2, fun r t => by rw [h3]; simp [ov]⟩
  intro m
  induction m with
  | nil => intro acc ha _; exact ⟨acc, rfl, ha, fun r t => by simp⟩
  | cons p m ih =>
    intro acc ha hm
    have step : ∃ acc', pairStep R D ld cod dom J acc p = some acc' ∧
        (∀ b, acc' = some b → b.rows = ρ ∧ b.cols = γ) ∧ ∀ r t, ov acc' r t = ov acc r t + (p.2.find J).getD 0 *
          blkVal lc D p.1.1.coupled (sl1 p.1 + r) (sl2 p.1 + t) := by
      unfold pairStep
      rcases hf : p.2.find J with _ | v
      · exact ⟨acc, rfl, ha, fun r t => by simp⟩
      · obtain ⟨t1, t2⟩ := hm p List.mem_cons_self v hf
        simp only
        rcases blkVal_cases hD hc hd p.1.1.coupled with ⟨n, e, g1, g2, g3⟩ | ⟨g1, g2⟩
        · rw [g1]
          simp only [g2, t1, t2]
          refine ⟨_, rfl, fun b hb => ?_, fun r t => ?_⟩
          · injection hb with hb
            subst hb
            cases acc with
            | none => simp [addBlock, Mat.slice, Mat.smul]
            | some a => exact ha a rfl
          · rw [g3]
            cases acc with
            | none => simp [addBlock, Mat.slice, Mat.smul, ov]
            | some a => simp [addBlock, Mat.slice, Mat.smul, ov]
        · rw [g1]
          exact ⟨acc, rfl, ha, fun r t => by rw [g2]; simp⟩
    obtain ⟨acc', s1, s2, s3⟩ := step
    obtain ⟨o, o1, o2, o3⟩ := ih acc' s2 fun q hq => hm q (List.mem_cons_of_mem _ hq)
    refine ⟨o, ?_, o2, fun r t => ?_⟩
    · rw [List.foldlM_cons, s1]; exact o1
    · rw [o3, s3, List.map_cons, List.sum_cons]; ring

/-- The loop over pairs of tree blocks -/
theorem setPairs_spec (m : PMap S K) (codIdcs domIdcs : List ℕ) (vs : List (Placed S × Placed S))
    (o : Placed S × Placed S → Option (Mat K))
    (ho : ∀ v ∈ vs, pairBlock R m D ld cod dom (v.1.tree, v.2.tree) = some (o v)) (st : Mat K × Bool) :
    ∃ st', (vs.map fun v => (blockOf cod' v.1, blockOf dom' v.2)).foldlM
        (setPair R m D ld cod dom codIdcs domIdcs) st = some st' ∧
      st'.1.rows = st.1.rows ∧ st'.1.cols = st.1.cols ∧ (st'.2 = true → st'.1 = st.1) ∧
      ∀ (r t : ℕ) (w : K), (∀ v ∈ vs, Covers cod' v.1 r → Covers dom' v.2 t →
          ov ((o v).map (permuteTreeBlock cod.spaces.length (cod.spaces.length + dom.spaces.length) codIdcs domIdcs
            v.1.item.mults v.2.item.mults)) (r - v.1.start) (t - v.2.start) = w) →
        (st.1.val r t = w ∨ (st.1.val r t = 0 ∧ ∃ v ∈ vs, Covers cod' v.1 r ∧ Covers dom' v.2 t)) →
        st'.1.val r t = w := by
  induction vs generalizing st with
  | nil => exact ⟨st, rfl, rfl, rfl, fun _ => rfl, fun r t w _ h => by simpa using h⟩
  | cons v vs ih =>
    have hv := ho v List.mem_cons_self
    let st1 : Mat K × Bool := match o v with
      | none => st
      | some b => (st.1.setSlice (v.1.start, v.1.start + cod'.size v.1.item)
          (v.2.start, v.2.start + dom'.size v.2.item) (permuteTreeBlock cod.spaces.length
          (cod.spaces.length + dom.spaces.length) codIdcs domIdcs v.1.item.mults v.2.item.mults b), false)
    have h1 : setPair R m D ld cod dom codIdcs domIdcs st (blockOf cod' v.1, blockOf dom' v.2) = some st1 := by
      unfold setPair
      simp only [blockOf]
      rw [hv]
      simp only [Option.map_some, st1]
      rcases o v with _ | b <;> rfl
    obtain ⟨st', s1, s2, s3, s4, s5⟩ := ih (fun v' hv' => ho v' (List.mem_cons_of_mem _ hv')) st1
    have r1 : st1.1.rows = st.1.rows ∧ st1.1.cols = st.1.cols := by
      simp only [st1]; rcases o v with _ | b <;> exact ⟨rfl, rfl⟩
    refine ⟨st', ?_, s2.trans r1.1, s3.trans r1.2, ?_, ?_⟩
    · rw [List.map_cons, List.foldlM_cons, h1]; exact s1
    · intro h
      have e := s4 h
      rcases hov : o v with _ | b
      · simpa [st1, hov] using e
      · exfalso
        -- the flag is false from here on
        have key : ∀ (vs : List ((FusionTree S × (ℕ × ℕ) × List ℕ) × (FusionTree S × (ℕ × ℕ) × List ℕ)))
            (a a' : Mat K × Bool), a.2 = false → vs.foldlM (setPair R m D ld cod dom codIdcs domIdcs) a = some a' →
            a'.2 = false := by
          intro vs
          induction vs with
          | nil => intro a a' ha h; rw [List.foldlM_nil] at h; injection h with h; rw [← h]; exact ha
          | cons u vs ihu =>
            intro a a' ha h
            rw [List.foldlM_cons] at h
            rcases hp : setPair R m D ld cod dom codIdcs domIdcs a u with _ | a1
            · rw [hp] at h; cases h
            · rw [hp] at h
              refine ihu a1 a' ?_ h
              unfold setPair at hp
              rw [Option.map_eq_some_iff] at hp
              obtain ⟨oo, -, hoo⟩ := hp
              rw [← hoo]
              rcases oo with _ | b
              · exact ha
              · rfl
        have hf := key _ st1 st' (by simp [st1, hov]) s1
        rw [hf] at h; cases h
    · intro r t w hw hcase
      refine s5 r t w (fun v' hv' => hw v' (List.mem_cons_of_mem _ hv')) ?_
      by_cases hcv : Covers cod' v.1 r ∧ Covers dom' v.2 t
      · left
        have e := hw v List.mem_cons_self hcv.1 hcv.2
        rcases hov : o v with _ | b
        · rw [hov] at e
          have hw0 : w = 0 := e.symm
          have : st1.1 = st.1 := by simp [st1, hov]
          rw [this]
          rcases hcase with h | ⟨h, -⟩
          · exact h
          · rw [h, hw0]
        · rw [hov] at e
          have : st1.1.val r t = (permuteTreeBlock cod.spaces.length
              (cod.spaces.length + dom.spaces.length) codIdcs domIdcs v.1.item.mults v.2.item.mults b).val
              (r - v.1.start) (t - v.2.start) := by
            simp only [st1, hov]
            exact if_pos ⟨hcv.1.1, hcv.1.2, hcv.2.1, hcv.2.2⟩
          rw [this]
          exact e
      · have : st1.1.val r t = st.1.val r t := by
          simp only [st1]
          rcases o v with _ | b
          · rfl
          · exact if_neg fun hh => hcv ⟨⟨hh.1, hh.2.1⟩, ⟨hh.2.2.1, hh.2.2.2⟩⟩
        rw [this]
        rcases hcase with h | ⟨h, v', hv', hc'⟩
        · exact Or.inl h
        · rcases List.mem_cons.1 hv' with rfl | hv'
          · exact absurd hc' hcv
          · exact Or.inr ⟨h, v', hv', hc'⟩

/-- `transform_tensor` stores the new blocks that are not zero. -/
theorem transform_spec (hc' : Coupled lc') (hd' : Coupled ld') (m : PMap S K) (codIdcs domIdcs : List ℕ)
    (hb : ∀ c ∈ lc'.sectors, c ∈ ld'.sectors → ∀ rows cols : ℕ, ∃ B,
      newBlock R m D ld cod dom cod' dom' codIdcs domIdcs c rows cols = some B ∧ B.1.rows = rows ∧
        B.1.cols = cols ∧ (B.2 = true → ∀ r t, B.1.val r t = 0)) :
    ∃ D', transformTensor R m D ld cod dom lc' ld' cod' dom' codIdcs domIdcs = some D' ∧ FSane lc' ld' D' ∧
      ∀ c ∈ lc'.sectors, c ∈ ld'.sectors → ∃ (rows cols : ℕ) (B : Mat K × Bool),
        newBlock R m D ld cod dom cod' dom' codIdcs domIdcs c rows cols = some B ∧
        ∀ r t, blkVal lc' D' c r t = B.1.val r t := by
  obtain ⟨cm, cs⟩ := common_spec hc' hd'
  let L := (Cyten.Tables.iterCommonSorted compare lc'.sectors ld'.sectors true true).getD []
  -- the new block for an entry of the list
  have hB : ∀ ij ∈ L, ∃ (c : S) (B : Mat K × Bool), lc'.sectors[ij.1]? = some c ∧ ld'.sectors[ij.2]? = some c ∧
      newBlock R m D ld cod dom cod' dom' codIdcs domIdcs c (lc'.mults.getD ij.1 0) (ld'.mults.getD ij.2 0) =
        some B ∧ B.1.rows = lc'.mults.getD ij.1 0 ∧ B.1.cols = ld'.mults.getD ij.2 0 ∧
        (B.2 = true → ∀ r t, B.1.val r t = 0) := by
    rintro ⟨i, j⟩ hij
    obtain ⟨c, h1, h2⟩ := (cm i j).1 hij
    obtain ⟨B, b1, b2, b3, b4⟩ := hb c (List.mem_of_getElem? h1) (List.mem_of_getElem? h2) (lc'.mults.getD i 0)
      (ld'.mults.getD j 0)
    exact ⟨c, B, h1, h2, b1, b2, b3, b4⟩
  let G : ℕ × ℕ → Option (Option ((ℕ × ℕ) × Mat K)) := fun ij =>
    lc'.sectors[ij.1]?.bind fun c =>
      (newBlock R m D ld cod dom cod' dom' codIdcs domIdcs c (lc'.mults.getD ij.1 0) (ld'.mults.getD ij.2 0)).map
        fun r => if r.2 then none else some ((ij.1, ij.2), r.1)
  have hG : ∀ ij ∈ L, ∃ (c : S) (B : Mat K × Bool), lc'.sectors[ij.1]? = some c ∧ ld'.sectors[ij.2]? = some c ∧
      newBlock R m D ld cod dom cod' dom' codIdcs domIdcs c (lc'.mults.getD ij.1 0) (ld'.mults.getD ij.2 0) =
        some B ∧ B.1.rows = lc'.mults.getD ij.1 0 ∧ B.1.cols = ld'.mults.getD ij.2 0 ∧
        (B.2 = true → ∀ r t, B.1.val r t = 0) ∧ G ij = some (if B.2 then none else some (ij, B.1)) := by
    intro ij hij
    obtain ⟨c, B, b1, b2, b3, b4, b5, b6⟩ := hB ij hij
    refine ⟨c, B, b1, b2, b3, b4, b5, b6, ?_⟩
    simp only [G, b1, Option.bind_some, b3, Option.map_some]
  have hM : ∀ l : List (ℕ × ℕ), (∀ ij ∈ l, ∃ o, G ij = some o) →
      l.mapM G = some (l.map fun ij => (G ij).join) := by
    intro l
    induction l with
    | nil => intro _; rfl
    | cons ij l ih =>
      intro h
      obtain ⟨o, ho⟩ := h ij List.mem_cons_self
      rw [List.mapM_cons, ho, ih fun x hx => h x (List.mem_cons_of_mem _ hx)]
      simp [ho]
  have hT : transformTensor R m D ld cod dom lc' ld' cod' dom' codIdcs domIdcs =
      some (L.filterMap fun ij => (G ij).join) := by
    unfold transformTensor
    change (L.mapM G).map _ = _
    rw [hM L fun ij hij => by
      obtain ⟨c, B, -, -, -, -, -, -, h⟩ := hG ij hij
      exact ⟨_, h⟩]
    simp only [Option.map_some, mkData, if_true, List.reduceOption, List.filterMap_map]
    rfl
  have hmem : ∀ e ∈ (L.filterMap fun ij => (G ij).join), ∃ (ij : ℕ × ℕ) (c : S) (B : Mat K × Bool), ij ∈ L ∧
      lc'.sectors[ij.1]? = some c ∧ ld'.sectors[ij.2]? = some c ∧ B.1.rows = lc'.mults.getD ij.1 0 ∧
      B.1.cols = ld'.mults.getD ij.2 0 ∧ e = (ij, B.1) := by
    intro e he
    obtain ⟨ij, hij, hj⟩ := List.mem_filterMap.1 he
    obtain ⟨c, B, b1, b2, b3, b4, b5, b6, b7⟩ := hG ij hij
    refine ⟨ij, c, B, hij, b1, b2, b4, b5, ?_⟩
    rw [b7] at hj
    simp only [Option.join_some] at hj
    split_ifs at hj
    injection hj with hj
    exact hj.symm
  have hsane : FSane lc' ld' (L.filterMap fun ij => (G ij).join) := by
    refine ⟨fun e he => ?_, fun e he => ?_, ?_⟩
    · obtain ⟨ij, c, B, -, b1, b2, -, -, rfl⟩ := hmem e he
      exact ⟨c, b1, b2⟩
    · obtain ⟨ij, c, B, -, -, -, b1, b2, rfl⟩ := hmem e he
      exact ⟨b1, b2⟩
    · have : ((L.filterMap fun ij => (G ij).join).map fun e => e.1.2).Sublist (L.map Prod.snd) := by
        have : ∀ l : List (ℕ × ℕ), (∀ ij ∈ l, ij ∈ L) →
            ((l.filterMap fun ij => (G ij).join).map fun e => e.1.2).Sublist (l.map Prod.snd) := by
          intro l
          induction l with
          | nil => intro _; simp
          | cons ij l ih =>
            intro h
            obtain ⟨c, B, -, -, -, -, -, -, b7⟩ := hG ij (h ij List.mem_cons_self)
            have ih' := ih fun x hx => h x (List.mem_cons_of_mem _ hx)
            rw [List.filterMap_cons, b7]
            by_cases hz : B.2 = true
            · simp only [hz, if_true, Option.join_some, List.map_cons]
              exact ih'.cons _
            · simp only [hz, if_false, Option.join_some, List.map_cons]
              exact ih'.cons_cons _
        exact this L fun _ h => h
      exact (List.pairwise_map.2 (cs.imp fun h => h.2)).sublist this
  refine ⟨_, hT, hsane, fun c h1 h2 => ?_⟩
  obtain ⟨i, hi⟩ := List.mem_iff_getElem?.1 h1
  obtain ⟨j, hj⟩ := List.mem_iff_getElem?.1 h2
  have hij : (i, j) ∈ L := (cm i j).2 ⟨c, hi, hj⟩
  obtain ⟨c', B, b1, b2, b3, b4, b5, b6, b7⟩ := hG _ hij
  obtain rfl : c = c' := Option.some.inj (hi.symm.trans b1)
  refine ⟨_, _, B, b3, fun r t => ?_⟩
  have hLn : L.Nodup := cs.imp fun {p q} h e => by rw [e] at h; omega
  unfold blkVal
  rw [sum_filterMap, sum_single' L hLn (i, j) hij]
  · rw [b7]
    simp only [Option.join_some]
    by_cases hz : B.2 = true
    · rw [if_pos hz, b6 hz]; rfl
    · rw [if_neg hz]
      simp only [Option.map_some, Option.getD_some]
      exact if_pos hi
  · rintro ⟨i', j'⟩ hij' hne
    obtain ⟨c', B', d1, d2, d3, d4, d5, d6, d7⟩ := hG _ hij'
    rw [d7]
    by_cases hz : B'.2 = true
    · simp [hz]
    · simp only [hz, if_false, Option.join_some, Option.map_some, Option.getD_some]
      refine if_neg fun hh => hne ?_
      have k1 := nodup_getElem? hc'.nodup hh hi
      simp only at k1 d1 d2
      rw [hh] at d1
      obtain rfl := Option.some.inj d1
      have k2 := nodup_getElem? hd'.nodup d2 hj
      rw [k1, k2]

end

end Cyten.FT
