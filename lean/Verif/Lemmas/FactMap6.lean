import Verif.Lemmas.FactMap5

/-! # The factorized mapping, the new tensor -/

namespace Cyten.FT
open Cyten.FT.Spec Cyten.Tools Cyten.ListSum Cyten.Props Cyten.Spaces Cyten.Spaces.Spec Cyten.Abelian
  Cyten.FusionTrees Cyten.Mappings Cyten.Permute

variable {S K : Type} [LinearOrder S] [CommRing K] [StarRing K]

section
variable {R : FusionRule S} {T : FTensors S K} {secS secF : FusionTree S → ℕ → S} {LS : ℕ → List (S × ℕ)} {LF : ℕ → Bool}
  {J M : ℕ} {c' axes : List ℕ} {τ : ℕ → ℕ} {cod dom cod' dom' : Side S}
  {lc ld lc' ld' : BLeg S} {D : FEnts K} {m : FactMap S K}

/-- The sectors with data -/
def dataSectors (lc : BLeg S) (D : FEnts K) : List S := D.filterMap fun e => lc.sectors[e.1.1]?

/-- The mapping of pairs of trees -/
def prodMap (R : FusionRule S) (dim : S → ℕ) (cod dom : Side S) (cs : List S) (m : FactMap S K) : PMap S K :=
  (allPairs R dim cod dom cs).map fun I => (I, prodCol (m.split.colOf I.1) (m.fuse.colOf I.2))

theorem newVal_prod {clC clD : ℕ → List (Cell S)} {flagS flagF : ℕ → Bool} {l0 l1 k0 k1 : List ℕ} {cs : List S}
    (hs : SideMap R T true secS flagS l0 l1 clC cod cod' lc lc' cs m.split)
    (hf : SideMap R T false secF flagF k0 k1 clD dom dom' ld ld' cs m.fuse) (hR : R.Lawful) {e : S}
    {x y : FusionTree S} (hx : x.coupled = e) (r t : ℕ) :
    newVal R lc D cod dom (prodMap R T.dim cod dom cs m) (x, y) r t = if e ∈ cs then
      ((layout R T.dim dom e).map fun Y => m.fuse.coef Y.tree y *
        ((layout R T.dim cod e).map fun X => m.split.coef X.tree x *
          blkVal lc D e (sl R cod X.tree + r) (sl R dom Y.tree + t)).sum).sum else 0 := by
  classical
  unfold newVal prodMap allPairs
  rw [List.map_map, sum_flatMap]
  have h1 : ∀ e' ∈ cs, (((layout R T.dim cod e').flatMap fun X => (layout R T.dim dom e').map fun Y =>
      (X.tree, Y.tree)).map ((fun p : (FusionTree S × FusionTree S) × UMap (FusionTree S × FusionTree S) K =>
        (p.2.find (x, y)).getD 0 * blkVal lc D p.1.1.coupled (sl R cod p.1.1 + r) (sl R dom p.1.2 + t)) ∘
        fun I => (I, prodCol (m.split.colOf I.1) (m.fuse.colOf I.2)))).sum =
      if e = e' then ((layout R T.dim dom e').map fun Y => m.fuse.coef Y.tree y *
        ((layout R T.dim cod e').map fun X => m.split.coef X.tree x *
          blkVal lc D e' (sl R cod X.tree + r) (sl R dom Y.tree + t)).sum).sum else 0 := by
    intro e' he'
    rw [sum_flatMap]
    have hX : ∀ X ∈ layout R T.dim cod e', X.tree ∈ keysOf R T.dim cod cs ∧ X.tree.coupled = e' := by
      intro X hX
      obtain ⟨-, -, -, -, g1, -⟩ := hs.ok.placed T.dim hX
      exact ⟨List.mem_flatMap.2 ⟨e', he', List.mem_map_of_mem hX⟩, g1⟩
    have hY : ∀ Y ∈ layout R T.dim dom e', Y.tree ∈ keysOf R T.dim dom cs := fun Y hY =>
      List.mem_flatMap.2 ⟨e', he', List.mem_map_of_mem hY⟩
    by_cases hee : e = e'
    · rw [if_pos hee]
      simp only [ListSum.mul_sum]
      refine Eq.trans (sum_congr _ fun X hX' => ?_) (sum_comm _ _ _)
      rw [List.map_map]
      refine sum_congr _ fun Y hY' => ?_
      simp only [Function.comp_apply]
      rw [prodCol_find (hs.col hR (hX X hX').1).nodup (hf.col hR (hY Y hY')).nodup, (hX X hX').2]
      unfold TMap.coef
      ring
    · rw [if_neg hee]
      refine sum_zero _ _ fun X hX' => ?_
      rw [List.map_map]
      refine sum_zero _ _ fun Y hY' => ?_
      simp only [Function.comp_apply]
      rw [prodCol_find (hs.col hR (hX X hX').1).nodup (hf.col hR (hY Y hY')).nodup]
      by_cases h0 : m.split.coef X.tree x = 0
      · unfold TMap.coef at h0
        rw [h0]; ring
      · exact absurd (hx.symm.trans ((hs.coef_good hR (hX X hX').1 h0).1.trans (hX X hX').2)) hee
  rw [sum_congr _ h1]
  exact sum_single cs hs.nodup e _

/-- The permuted tensor has the same dense entries. -/
theorem fact_dense (hL : ∀ a, T.dual (T.dual a) = a) (hdim : ∀ a, T.dim (T.dual a) = T.dim a) (hR : R.Lawful)
    (hN : FusionRingN R T.dual)
    (hc : SideOK R cod lc) (hd : SideOK R dom ld) (hc' : SideOK R cod' lc') (hd' : SideOK R dom' ld')
    (hdi : (List.range' J M).reverse = (List.range M).map τ)
    (hl : Labelled T LS LF (List.range J) ((List.range M).map τ) cod dom)
    (hl' : Labelled T LS LF c' (axes.map τ) cod' dom')
    (hp1 : c'.Perm (List.range J)) (hp2 : axes.Perm (List.range M)) (hD : FSane lc ld D)
    (hS : ∀ X ∈ keysOf R T.dim cod (dataSectors lc D), X.uncoupled = (List.range J).map (secS X))
    (hF : ∀ Y ∈ keysOf R T.dim dom (dataSectors lc D), Y.uncoupled = ((List.range M).map τ).map fun x => T.dual (secF Y x))
    (hm : FactOK R T secS secF LF (List.range J) ((List.range M).map τ) c' (axes.map τ)
      (keysOf R T.dim cod (dataSectors lc D)) (keysOf R T.dim dom (dataSectors lc D)) m)
    (domIdcs : List ℕ) (hdx : (domIdcs.map fun i => cod.spaces.length + dom.spaces.length - 1 - i) = axes) :
    ∃ D', factTransform R id id m D ld cod dom lc' ld' cod' dom' c' domIdcs = some D' ∧ FSane lc' ld' D' ∧
      ∀ idx : ℕ → ℕ, (∀ x < J + M, idx x < ((LS x).map fun p => T.dim p.1 * p.2).sum) →
        toDenseCore R T lc'.sectors cod' dom' D' (c'.map idx) ((axes.map τ).map idx) =
          toDenseCore R T lc.sectors cod dom D ((List.range J).map idx) (((List.range M).map τ).map idx) := by
  classical
  set cs := dataSectors lc D with hcs
  have hcsn : cs.Nodup := dataSectors_nodup hc.coupled hd.coupled hD
  have hdp : ((List.range M).map τ).Perm (List.range' J M) := by rw [← hdi]; exact List.reverse_perm _
  have hmemd : ∀ x, x ∈ (List.range M).map τ ↔ J ≤ x ∧ x < J + M := fun x => by
    rw [hdp.mem_iff, List.mem_range'_1]
  have hτ0 : ((List.range M).map τ).Nodup := hdp.nodup_iff.2 List.nodup_range'
  have hτ : (axes.map τ).Nodup := (hp2.map τ).nodup_iff.2 hτ0
  have hmem0 : ∀ x, x ∈ List.range J ++ (List.range M).map τ ↔ x < J + M := fun x => by
    rw [List.mem_append, hmemd, List.mem_range]; omega
  have hn : (List.range J ++ (List.range M).map τ).Nodup := by
    rw [List.nodup_append]
    refine ⟨List.nodup_range, hτ0, ?_⟩
    intro x hx y hy hxy
    rw [List.mem_range] at hx
    rw [hmemd] at hy
    omega
  have hp : (c' ++ axes.map τ).Perm (List.range (J + M)) := by
    refine (hp1.append ((hp2.map τ).trans hdp)).trans ?_
    rw [List.range_eq_range', List.range_eq_range', ← List.range'_append_1, Nat.zero_add]
  have hs : SideMap R T true secS LF (List.range J) c' (fun x => cellsFrom T.dim 0 (LS x)) cod cod' lc lc' cs m.split :=
    ⟨hc, hc', hl.cod_cells, hl'.cod_cells, hl.codDual, hl'.codDual, hcsn, hm.split, hS⟩
  have hf : SideMap R T false (fun Y x => T.dual (secF Y x)) (fun x => !LF x) ((List.range M).map τ) (axes.map τ)
      (fun x => (cellsFrom T.dim 0 (LS x)).map (dualCell T)) dom dom' ld ld' cs m.fuse :=
    ⟨hd, hd', hl.dom_cells hdim, hl'.dom_cells hdim, hl.domDual, hl'.domDual, hcsn, hm.fuse, hF⟩
  -- the multiplicities
  have hmc : ∀ e, mult lc' e = mult lc e := mult_perm hc hc' hR hN (by
    rw [hl.codSpaces, hl'.codSpaces]; exact hp1.map _)
  have hmd : ∀ e, mult ld' e = mult ld e := mult_perm hd hd' hR hN (by
    rw [hl.domSpaces, hl'.domSpaces]; exact (hp2.map τ).map _)
  -- the mapping of pairs
  have hq : ∀ I, ∃ q, I ∈ allPairs R T.dim cod dom cs → PairInfo R T LS LF (List.range J) ((List.range M).map τ) cod dom I q := by
    intro I
    by_cases hI : I ∈ allPairs R T.dim cod dom cs
    · obtain ⟨q, hq⟩ := allPairs_info hc hd hR hdim hl hn hI
      exact ⟨q, fun _ => hq⟩
    · exact ⟨fun _ => ⟨R.unit, 0, 0⟩, fun h => absurd h hI⟩
  choose Q hQ using hq
  have hmap : MapInfo R T LS LF (List.range J) ((List.range M).map τ) c' (axes.map τ) cod dom Q
      (prodMap R T.dim cod dom cs m) := by
    refine ⟨fun p hp => ?_, fun p hp => ?_⟩
    · obtain ⟨I, hI, rfl⟩ := List.mem_map.1 hp
      exact hQ I hI
    · obtain ⟨I, hI, rfl⟩ := List.mem_map.1 hp
      have hg := (hQ I hI).good
      obtain ⟨e, he, hI'⟩ := List.mem_flatMap.1 hI
      obtain ⟨X, hX, hI'⟩ := List.mem_flatMap.1 hI'
      obtain ⟨Y, hY, rfl⟩ := List.mem_map.1 hI'
      have kX : X.tree ∈ keysOf R T.dim cod cs := List.mem_flatMap.2 ⟨e, he, List.mem_map_of_mem hX⟩
      have kY : Y.tree ∈ keysOf R T.dim dom cs := List.mem_flatMap.2 ⟨e, he, List.mem_map_of_mem hY⟩
      refine prodCol_ok hdim hg.coupled ((hs.col hR kX).congr fun z hz => ?_) ((hf.col hR kY).congr fun z hz => ?_)
      · exact List.map_inj_left.1 ((hS _ kX).symm.trans hg.leftU) z (hp1.mem_iff.1 hz)
      · exact List.map_inj_left.1 ((hF _ kY).symm.trans hg.rightU) z ((hp2.map τ).mem_iff.1 hz)
  have hk : (prodMap R T.dim cod dom cs m).map Prod.fst = allPairs R T.dim cod dom cs := by
    unfold prodMap
    rw [List.map_map]
    simp [Function.comp_def]
  -- the blocks
  let G : ℕ × ℕ → Option (Option ((ℕ × ℕ) × Mat K)) := fun ij => lc'.sectors[ij.1]?.bind fun c =>
      match blockIndFromCoupled D ld c with
      | none => none
      | some none => some none
      | some (some k) => D[k]?.bind fun e =>
        (factBlock R id id m e.2 cod dom cod' dom' c' (domIdcs.map fun i => cod.spaces.length + dom.spaces.length - 1 - i) c
          (lc'.mults.getD ij.1 0) (ld'.mults.getD ij.2 0)).map fun o => o.map fun B => ((ij.1, ij.2), B)
  have hG : ∀ ij : ℕ × ℕ, ∃ o, ∀ e, lc'.sectors[ij.1]? = some e → ld'.sectors[ij.2]? = some e →
      (G ij = some (o.map fun B => (ij, B)) ∧
        ∀ B, o = some B → B.rows = lc'.mults.getD ij.1 0 ∧ B.cols = ld'.mults.getD ij.2 0) ∧
      ∀ x ∈ layout R T.dim cod' e, ∀ y ∈ layout R T.dim dom' e, ∀ chx, Chosen T c' (fun x => cellsFrom T.dim 0 (LS x)) x.tree chx →
        ∀ chy, Chosen T (axes.map τ) (fun x => (cellsFrom T.dim 0 (LS x)).map (dualCell T)) y.tree chy →
        ∀ mm : ℕ → ℕ, (∀ z < J, mm z < (chx z).mult) → (∀ z < M, mm (τ z) < (chy (τ z)).mult) →
        ov o (x.start + packM c' chx mm) (y.start + packM (axes.map τ) chy mm) = if e ∈ cs then
          ((layout R T.dim dom e).map fun Y => m.fuse.coef Y.tree y.tree *
            ((layout R T.dim cod e).map fun X => m.split.coef X.tree x.tree *
              blkVal lc D e (sl R cod X.tree + packM (List.range J) chx mm)
                (sl R dom Y.tree + packM ((List.range M).map τ) chy mm)).sum).sum else 0 := by
    rintro ⟨i, j⟩
    by_cases hij : ∃ e, lc'.sectors[i]? = some e ∧ ld'.sectors[j]? = some e
    swap
    · exact ⟨none, fun e h1 h2 => absurd ⟨e, h1, h2⟩ hij⟩
    obtain ⟨e, h1, h2⟩ := hij
    rcases C61_block_ind_from_coupled hd.coupled D hD e with ⟨n, ent, g1, g2, g3⟩ | ⟨g1, g2⟩
    · have hent := List.mem_of_getElem? g2
      obtain ⟨e', k1, k2⟩ := hD.coupled ent hent
      obtain rfl : e = e' := Option.some.inj (g3.symm.trans k2)
      obtain ⟨r1, r2⟩ := hD.shape ent hent
      have he : e ∈ cs := List.mem_filterMap.2 ⟨ent, hent, k1⟩
      have r1' : ent.2.rows = mult lc' e := by rw [r1, hmc, mult_eq hc.coupled k1]
      have r2' : ent.2.cols = mult ld' e := by rw [r2, hmd, mult_eq hd.coupled k2]
      obtain ⟨o, o1, o2, o3⟩ := factBlock_spec hs hf hR hp1 hp2 hτ he ent.2 r1' (by rw [r2', hmd])
      have m1 := mult_eq hc'.coupled h1
      have m2 := mult_eq hd'.coupled h2
      refine ⟨o, fun e2 f1 f2 => ?_⟩
      obtain rfl : e = e2 := Option.some.inj (h1.symm.trans f1)
      refine ⟨⟨?_, fun B hB => ⟨((o2 B hB).1.trans r1').trans m1, ((o2 B hB).2.trans r2').trans m2⟩⟩, ?_⟩
      · simp only [G]
        rw [h1]
        simp only [Option.bind_some]
        rw [g1]
        simp only [g2, Option.bind_some]
        rw [hdx, ← m1, ← m2, ← r1', ← r2', o1]; rfl
      · intro x hx y hy chx hchx chy hchy mm hm1 hm2
        rw [if_pos he, o3 x hx y hy chx hchx chy hchy mm hm1 hm2]
        simp only [blkVal_mem hD hc.coupled hd.coupled hent k1]
    · refine ⟨none, fun e2 f1 f2 => ?_⟩
      obtain rfl : e = e2 := Option.some.inj (h1.symm.trans f1)
      refine ⟨⟨?_, by simp⟩, ?_⟩
      · simp only [G]
        rw [h1]
        simp only [Option.bind_some]
        rw [g1]; rfl
      · intro x hx y hy chx hchx chy hchy mm hm1 hm2
        have he : e ∉ cs := fun he => by
          obtain ⟨ent, hent, k1⟩ := List.mem_filterMap.1 he
          obtain ⟨e', k1', k2⟩ := hD.coupled ent hent
          obtain rfl : e = e' := Option.some.inj (k1.symm.trans k1')
          exact g2 ent hent k2
        rw [if_neg he]; rfl
  choose o ho using hG
  obtain ⟨D', t1, t2, t3⟩ := blocks_spec hc'.coupled hd'.coupled G o fun i j e h1 h2 => (ho (i, j) e h1 h2).1
  refine ⟨D', t1, t2, dense_of_newVal hL hdim hR hc hd hc' hd' _ hmem0 hl hl' hp hD hmap hk t2 ?_⟩
  intro e x hx y hy q hq hg mm hmm
  obtain ⟨i, hi⟩ := List.mem_iff_getElem?.1 (layout_sector hc' T.dim hx)
  obtain ⟨j, hj⟩ := List.mem_iff_getElem?.1 (layout_sector hd' T.dim hy)
  obtain ⟨-, -, -, -, g1, -⟩ := hc'.placed T.dim hx
  rw [t3 i j e hi hj, newVal_prod hs hf hR g1]
  exact (ho (i, j) e hi hj).2 x hx y hy q ⟨fun z hz => hq z (List.mem_append_left _ hz), hg.leftU⟩
    (fun z => dualCell T (q z)) ⟨fun z hz => List.mem_map_of_mem (hq z (List.mem_append_right _ hz)), hg.rightU⟩ mm
    (fun z hz => hmm z (by omega))
    fun z hz => hmm (τ z) ((hmemd _).1 (List.mem_map_of_mem (List.mem_range.2 hz))).2

end

end Cyten.FT
