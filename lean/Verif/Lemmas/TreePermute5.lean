import Verif.Lemmas.TreePermute4

/-! # The permuted tensor has the same entries -/

namespace Cyten.FT
open Cyten.FT.Spec Cyten.Tools Cyten.ListSum Cyten.Props Cyten.Spaces Cyten.Spaces.Spec Cyten.Abelian
  Cyten.FusionTrees Cyten.Mappings Cyten.Permute

variable {S K : Type} [LinearOrder S] [CommRing K] [StarRing K]

section
variable {A : Type} [DecidableEq A]

omit [StarRing K] in
theorem find_of_mem (col : UMap A K) (hn : (col.map Prod.fst).Nodup) {r : A × K} (hr : r ∈ col) :
    col.find r.1 = some r.2 := by
  induction col with
  | nil => cases hr
  | cons p col ih =>
    obtain ⟨k, v⟩ := p
    rw [List.map_cons, List.nodup_cons] at hn
    unfold UMap.find
    by_cases h : k = r.1
    · rw [if_pos h]
      rcases List.mem_cons.1 hr with rfl | hr
      · rfl
      · exact absurd (List.mem_map.2 ⟨r, hr, h.symm⟩) hn.1
    · rw [if_neg h]
      rcases List.mem_cons.1 hr with rfl | hr
      · exact absurd rfl h
      · exact ih hn.2 hr

omit [StarRing K] in
theorem mem_of_find (col : UMap A K) {k : A} {v : K} (h : col.find k = some v) : (k, v) ∈ col := by
  induction col with
  | nil => cases h
  | cons p col ih =>
    obtain ⟨k', w⟩ := p
    unfold UMap.find at h
    by_cases hk : k' = k
    · rw [if_pos hk] at h
      injection h with h
      subst hk; subst h
      exact List.mem_cons_self
    · rw [if_neg hk] at h
      exact List.mem_cons_of_mem _ (ih h)

omit [StarRing K] in
/-- The sum over a column as a sum over all keys -/
theorem colSum_find (col : UMap A K) (hn : (col.map Prod.fst).Nodup) (L : List A) (hL : L.Nodup)
    (hs : ∀ r ∈ col, r.1 ∈ L) (g : A → K) :
    (L.map fun J => (col.find J).getD 0 * g J).sum = colSum col g := by
  induction col with
  | nil =>
    simp only [colSum, List.map_nil, List.sum_nil]
    exact sum_zero _ _ fun J _ => by simp [UMap.find]
  | cons p col ih =>
    obtain ⟨k, v⟩ := p
    rw [List.map_cons, List.nodup_cons] at hn
    have e : ∀ J ∈ L, (UMap.find ((k, v) :: col) J).getD 0 * g J =
        (if k = J then v * g J else 0) + (UMap.find col J).getD 0 * g J := by
      intro J _
      by_cases h : k = J
      · subst h
        have : UMap.find col k = none := by
          rcases hf : UMap.find col k with _ | w
          · rfl
          · exact absurd (List.mem_map.2 ⟨_, mem_of_find col hf, rfl⟩) hn.1
        simp [UMap.find, this]
      · simp [UMap.find, h]
    rw [sum_congr _ e, sum_add, ih hn.2 fun r hr => hs r (List.mem_cons_of_mem _ hr), sum_single L hL k,
      if_pos (hs (k, v) List.mem_cons_self)]
    rfl

end

section
variable {R : FusionRule S} {T : FTensors S K} {cod dom cod' dom' : Side S} {lc ld lc' ld' : BLeg S}
  {LS : ℕ → List (S × ℕ)} {LF : ℕ → Bool} {c d c' d' : List ℕ} {D : FEnts K}

omit [StarRing K] in
theorem choice_unique (hc : SideOK R cod lc) (hd : SideOK R dom ld) (hdim : ∀ a, T.dim (T.dual a) = T.dim a)
    (h : Labelled T LS LF c d cod dom) {q q' : ℕ → Cell S} (hq : Choice T LS c d q) (hq' : Choice T LS c d q')
    (h1 : c.map (fun x => (q x).sec) = c.map fun x => (q' x).sec)
    (h2 : (d.map fun x => T.dual (q x).sec) = d.map fun x => T.dual (q' x).sec) :
    ∀ x ∈ c ++ d, (q x).mult = (q' x).mult := by
  have e1 := forall2_sec hc.good (choice_cod h hq) (choice_cod h hq') (by
    rw [List.map_map, List.map_map]; exact h1)
  have e2 := forall2_sec hd.good (choice_dom h hdim hq) (choice_dom h hdim hq') (by
    rw [List.map_map, List.map_map]; exact h2)
  intro x hx
  rcases List.mem_append.1 hx with hx | hx
  · rw [List.map_inj_left.1 e1 x hx]
  · have := congrArg Cell.mult (List.map_inj_left.1 e2 x hx)
    exact this

omit [StarRing K] in
theorem sum_data (hD : FSane lc ld D) (hc : Coupled lc) (hd : Coupled ld) (f : S → K)
    (hf : ∀ e, (∀ r t, blkVal lc D e r t = 0) → (∀ x ∈ D, lc.sectors[x.1.1]? ≠ some e) → f e = 0) :
    ((D.filterMap fun e => lc.sectors[e.1.1]?).map f).sum = (lc.sectors.map f).sum := by
  classical
  rw [sum_filterMap]
  have h1 := sum_sectors hc D hD.lt fun c _ => f c
  refine (Eq.trans ?_ h1.symm).trans ?_
  · refine sum_congr _ fun e _ => ?_
    cases lc.sectors[e.1.1]? <;> rfl
  refine sum_congr _ fun c _ => ?_
  by_cases hx : ∃ x ∈ D, lc.sectors[x.1.1]? = some c
  · obtain ⟨x, hx, hxc⟩ := hx
    have hs := nodup_of_lt (hD.sorted0 hc hd)
    rw [sum_single' D (List.Nodup.of_map _ hs) x hx]
    · exact if_pos hxc
    · intro e' he' hne
      refine if_neg fun h' => hne (List.inj_on_of_nodup_map hs he' hx ?_)
      exact nodup_getElem? hc.nodup h' hxc
  · push Not at hx
    rw [sum_zero _ _ fun x hx' => if_neg (hx x hx'), hf c _ hx]
    intro r t
    exact sum_zero _ _ fun x hx' => if_neg (hx x hx')

/-- The value of the new tensor for a pair of trees -/
def newVal (R : FusionRule S) (lc : BLeg S) (D : FEnts K) (cod dom : Side S) (m : PMap S K)
    (J : FusionTree S × FusionTree S) (r t : ℕ) : K :=
  (m.map fun p => (p.2.find J).getD 0 * blkVal lc D p.1.1.coupled (sl R cod p.1.1 + r) (sl R dom p.1.2 + t)).sum

/-- What is known of the mapping -/
structure MapInfo (R : FusionRule S) (T : FTensors S K) (LS : ℕ → List (S × ℕ)) (LF : ℕ → Bool) (c d c' d' : List ℕ)
    (cod dom : Side S) (Q : FusionTree S × FusionTree S → ℕ → Cell S) (m : PMap S K) : Prop where
  info : ∀ p ∈ m, PairInfo R T LS LF c d cod dom p.1 (Q p.1)
  col : ∀ p ∈ m, ColOK R T (fun x => (Q p.1 x).sec) LF c' d' (fun idx => pairVal T c d idx p.1) p.2

theorem newBlock_spec (hL : ∀ a, T.dual (T.dual a) = a) (hdim : ∀ a, T.dim (T.dual a) = T.dim a) (hR : R.Lawful)
    (hc : SideOK R cod lc) (hd : SideOK R dom ld) (hc' : SideOK R cod' lc') (hd' : SideOK R dom' ld')
    (J M : ℕ) (hcJ : c = List.range J) (hdM : d = (List.range' J M).reverse)
    (hl : Labelled T LS LF c d cod dom) (hl' : Labelled T LS LF c' d' cod' dom')
    (hp : (c' ++ d').Perm (List.range (J + M))) (hD : FSane lc ld D)
    {Q : FusionTree S × FusionTree S → ℕ → Cell S} {m : PMap S K} (hm : MapInfo R T LS LF c d c' d' cod dom Q m)
    (e : S) (rows cols : ℕ) :
    ∃ B, newBlock R m D ld cod dom cod' dom' c' d' e rows cols = some B ∧ B.1.rows = rows ∧ B.1.cols = cols ∧
      (B.2 = true → ∀ r t, B.1.val r t = 0) ∧
      ∀ x ∈ layout R T.dim cod' e, ∀ y ∈ layout R T.dim dom' e, ∀ q', Choice T LS c' d' q' →
        Good R T (fun z => (q' z).sec) LF c' d' (x.tree, y.tree) →
        ∀ mm : ℕ → ℕ, (∀ z < J + M, mm z < (q' z).mult) →
          B.1.val (x.start + packL c' q' mm) (y.start + packL d' q' mm) =
            newVal R lc D cod dom m (x.tree, y.tree) (packL c q' mm) (packL d q' mm) := by
  have hn' : (c' ++ d').Nodup := hp.nodup_iff.2 List.nodup_range
  have hmem : ∀ x, x ∈ c' ++ d' ↔ x < J + M := fun x => by rw [hp.mem_iff]; simp
  have hmem0 : ∀ x, x ∈ c ++ d ↔ x < J + M := fun x => by
    rw [hcJ, hdM]
    simp only [List.mem_append, List.mem_range, List.mem_reverse, List.mem_range'_1]
    omega
  have hJl : cod.spaces.length = J := by
    have := congrArg List.length hl.codSpaces
    simpa [hcJ] using this
  have hMl : dom.spaces.length = M := by
    have := congrArg List.length hl.domSpaces
    simpa [hdM] using this
  -- the block of each pair
  have hpb : ∀ x ∈ layout R T.dim cod' e, ∀ y ∈ layout R T.dim dom' e, ∀ q', Choice T LS c' d' q' →
      Good R T (fun z => (q' z).sec) LF c' d' (x.tree, y.tree) →
      ∃ o, pairBlock R m D ld cod dom (x.tree, y.tree) = some o ∧
        (∀ b, o = some b → b.rows = (c.map fun z => (q' z).mult).prod ∧ b.cols = (d.map fun z => (q' z).mult).prod) ∧
        ∀ r t, ov o r t = newVal R lc D cod dom m (x.tree, y.tree) r t := by
    intro x hx y hy q' hq' hg'
    refine pairBlock_spec hD hc.coupled hd.coupled m (x.tree, y.tree) (fun I => sl R cod I.1) (fun I => sl R dom I.2)
      _ _ fun p hpm v hv => ?_
    have hgp := (hm.col p hpm).good _ (mem_of_find _ hv)
    have hi := hm.info p hpm
    have hqp : Choice T LS c' d' (Q p.1) := fun z hz => hi.choice z ((hmem0 z).2 ((hmem z).1 hz))
    have hmu := choice_unique hc' hd' hdim hl' hqp hq' (by rw [← hgp.leftU, ← hg'.leftU])
      (by rw [← hgp.rightU, ← hg'.rightU])
    have k1 : (c.map fun z => (Q p.1 z).mult) = c.map fun z => (q' z).mult :=
      List.map_congr_left fun z hz => hmu z ((hmem z).2 ((hmem0 z).1 (List.mem_append_left _ hz)))
    have k2 : (d.map fun z => (Q p.1 z).mult) = d.map fun z => (q' z).mult :=
      List.map_congr_left fun z hz => hmu z ((hmem z).2 ((hmem0 z).1 (List.mem_append_right _ hz)))
    refine ⟨?_, ?_⟩
    · rw [hi.slice1, k1]
    · rw [hi.slice2, k2]
  have hpb' : ∀ v : Placed S × Placed S, ∃ o, v.1 ∈ layout R T.dim cod' e → v.2 ∈ layout R T.dim dom' e →
      pairBlock R m D ld cod dom (v.1.tree, v.2.tree) = some o := by
    intro v
    by_cases h1 : v.1 ∈ layout R T.dim cod' e
    · by_cases h2 : v.2 ∈ layout R T.dim dom' e
      · obtain ⟨q', hq', -⟩ := pair_info hc' hd' hR hdim hl' hn' h1 h2
        obtain ⟨o, ho, -⟩ := hpb v.1 h1 v.2 h2 q' hq'.choice hq'.good
        exact ⟨o, fun _ _ => ho⟩
      · exact ⟨none, fun _ h => absurd h h2⟩
    · exact ⟨none, fun h _ => absurd h h1⟩
  choose o ho using hpb'
  let vs := (layout R T.dim cod' e).flatMap fun x => (layout R T.dim dom' e).map fun y => (x, y)
  have hvs : ∀ v, v ∈ vs ↔ v.1 ∈ layout R T.dim cod' e ∧ v.2 ∈ layout R T.dim dom' e := by
    intro v
    simp only [vs, List.mem_flatMap, List.mem_map]
    constructor
    · rintro ⟨x, hx, y, hy, rfl⟩; exact ⟨hx, hy⟩
    · rintro ⟨h1, h2⟩; exact ⟨v.1, h1, v.2, h2, rfl⟩
  obtain ⟨B, b1, b2, b3, b4, b5⟩ := setPairs_spec (R := R) (D := D) (ld := ld) (cod := cod) (dom := dom)
    (cod' := cod') (dom' := dom') m c' d' vs o (fun v hv => ho v ((hvs v).1 hv).1 ((hvs v).1 hv).2)
    (Mat.zeros rows cols, true)
  refine ⟨B, ?_, b2, b3, fun h r t => by rw [b4 h]; rfl, ?_⟩
  · unfold newBlock
    rw [iterTreeBlocks_eq hc' T.dim, iterTreeBlocks_eq hd' T.dim, ← b1]
    congr 1
    simp only [vs, List.map_flatMap, List.flatMap_map, List.map_map]
    rfl
  · intro x hx y hy q' hq' hg' mm hmm
    obtain ⟨q2, hq2, i1, i2⟩ := pair_info hc' hd' hR hdim hl' hn' hx hy
    have hmu := choice_unique hc' hd' hdim hl' hq2.choice hq' (by rw [← hq2.good.leftU, ← hg'.leftU])
      (by rw [← hq2.good.rightU, ← hg'.rightU])
    have im1 : x.item.mults = c'.map fun z => (q' z).mult := by
      rw [i1]
      simp only [itemOf, List.map_map]
      exact List.map_congr_left fun z hz => hmu z (List.mem_append_left _ hz)
    have im2 : y.item.mults = d'.map fun z => (q' z).mult := by
      rw [i2]
      simp only [itemOf, List.map_map]
      exact List.map_congr_left fun z hz => hmu z (List.mem_append_right _ hz)
    have sz1 : cod'.size x.item = (c'.map fun z => (q' z).mult).prod := by
      rw [hc'.size_eq T.dim (layoutFrom_mem hx).1, im1]
    have sz2 : dom'.size y.item = (d'.map fun z => (q' z).mult).prod := by
      rw [hd'.size_eq T.dim (layoutFrom_mem hy).1, im2]
    have lt1 : packL c' q' mm < cod'.size x.item := by
      rw [sz1]
      exact packRow_lt (inShape_map c' _ mm fun z hz => hmm z ((hmem z).1 (List.mem_append_left _ hz)))
    have lt2 : packL d' q' mm < dom'.size y.item := by
      rw [sz2]
      exact packRow_lt (inShape_map d' _ mm fun z hz => hmm z ((hmem z).1 (List.mem_append_right _ hz)))
    refine b5 _ _ _ (fun v hv h1 h2 => ?_) (Or.inr ⟨rfl, (x, y), (hvs _).2 ⟨hx, hy⟩,
      ⟨Nat.le_add_right _ _, Nat.add_lt_add_left lt1 _⟩, ⟨Nat.le_add_right _ _, Nat.add_lt_add_left lt2 _⟩⟩)
    obtain ⟨v1, v2⟩ := (hvs v).1 hv
    obtain ⟨x0, -, -, u1⟩ := cover hc' T.dim e _ (layout_lt hc' T.dim hx lt1)
    obtain ⟨y0, -, -, u2⟩ := cover hd' T.dim e _ (layout_lt hd' T.dim hy lt2)
    have ex : v.1 = x := (u1 _ v1 h1).trans (u1 x hx ⟨Nat.le_add_right _ _, Nat.add_lt_add_left lt1 _⟩).symm
    have ey : v.2 = y := (u2 _ v2 h2).trans (u2 y hy ⟨Nat.le_add_right _ _, Nat.add_lt_add_left lt2 _⟩).symm
    obtain ⟨v1', v2'⟩ := v
    simp only at ex ey
    subst ex; subst ey
    obtain ⟨o', p1, p2, p3⟩ := hpb v1' hx v2' hy q' hq' hg'
    have hoo : o (v1', v2') = o' := by
      have := ho (v1', v2') hx hy
      simp only at this
      rw [this] at p1
      exact Option.some.inj p1
    rw [hoo, ← p3]
    simp only
    rw [Nat.add_sub_cancel_left, Nat.add_sub_cancel_left, im1, im2, hJl, hMl]
    rcases o' with _ | b
    · rfl
    · obtain ⟨r1, r2⟩ := p2 b rfl
      rw [hcJ] at r1
      rw [hdM] at r2
      have := (permuteTreeBlock_spec J M c' d' hp (fun z => (q' z).mult) b r1 r2).2.2 mm hmm
      simp only [Option.map_some, ov]
      rw [hcJ, hdM]
      exact this

/-- If the blocks of the new tensor are those of the mapping, then it has the same dense entries. -/
theorem dense_of_newVal (hL : ∀ a, T.dual (T.dual a) = a) (hdim : ∀ a, T.dim (T.dual a) = T.dim a) (hR : R.Lawful)
    (hc : SideOK R cod lc) (hd : SideOK R dom ld) (hc' : SideOK R cod' lc') (hd' : SideOK R dom' ld')
    (N : ℕ) (hmem0 : ∀ x, x ∈ c ++ d ↔ x < N)
    (hl : Labelled T LS LF c d cod dom) (hl' : Labelled T LS LF c' d' cod' dom')
    (hp : (c' ++ d').Perm (List.range N)) (hD : FSane lc ld D)
    {Q : FusionTree S × FusionTree S → ℕ → Cell S} {m : PMap S K} (hm : MapInfo R T LS LF c d c' d' cod dom Q m)
    (hk : m.map Prod.fst = allPairs R T.dim cod dom (D.filterMap fun e => lc.sectors[e.1.1]?))
    {D' : FEnts K} (t2 : FSane lc' ld' D')
    (hval : ∀ e, ∀ x ∈ layout R T.dim cod' e, ∀ y ∈ layout R T.dim dom' e, ∀ q, Choice T LS c' d' q →
      Good R T (fun z => (q z).sec) LF c' d' (x.tree, y.tree) → ∀ mm : ℕ → ℕ, (∀ z < N, mm z < (q z).mult) →
        blkVal lc' D' e (x.start + packL c' q mm) (y.start + packL d' q mm) =
          newVal R lc D cod dom m (x.tree, y.tree) (packL c q mm) (packL d q mm)) :
    ∀ idx : ℕ → ℕ, (∀ x < N, idx x < ((LS x).map fun p => T.dim p.1 * p.2).sum) →
        toDenseCore R T lc'.sectors cod' dom' D' (c'.map idx) (d'.map idx) =
          toDenseCore R T lc.sectors cod dom D (c.map idx) (d.map idx) := by
  have hn' : (c' ++ d').Nodup := hp.nodup_iff.2 List.nodup_range
  have hmem : ∀ x, x ∈ c' ++ d' ↔ x < N := fun x => by rw [hp.mem_iff]; simp
  intro idx hidx
  -- the sectors and the states of the legs
  have hcell : ∀ x, ∃ (q : Cell S) (a μ : ℕ), x < N → q ∈ cellsFrom T.dim 0 (LS x) ∧ a < T.dim q.sec ∧
      μ < q.mult ∧ idx x = q.start + (a * q.mult + μ) := by
    intro x
    by_cases hx : x < N
    · obtain ⟨q, hq, a, μ, h1, h2, h3⟩ := cell_of_index T.dim (LS x) 0 (idx x) (hidx x hx)
      exact ⟨q, a, μ, fun _ => ⟨hq, h1, h2, by omega⟩⟩
    · exact ⟨⟨R.unit, 0, 0⟩, 0, 0, fun h => absurd h hx⟩
  choose q a μ hcell using hcell
  have hq0 : Choice T LS c d q := fun x hx => (hcell x ((hmem0 x).1 hx)).1
  have hq1 : Choice T LS c' d' q := fun x hx => (hcell x ((hmem x).1 hx)).1
  rw [dense_allPairs hc' hd' hR hdim hl' D' t2 hq1 a μ idx (fun x hx => (hcell x ((hmem x).1 hx)).2.1)
      (fun x hx => (hcell x ((hmem x).1 hx)).2.2.1) (fun x hx => (hcell x ((hmem x).1 hx)).2.2.2),
    dense_allPairs hc hd hR hdim hl D hD hq0 a μ idx (fun x hx => (hcell x ((hmem0 x).1 hx)).2.1)
      (fun x hx => (hcell x ((hmem0 x).1 hx)).2.2.1) (fun x hx => (hcell x ((hmem0 x).1 hx)).2.2.2)]
  -- only the sectors with data
  let F : FusionTree S × FusionTree S → K := fun I =>
    if I.1.uncoupled = c.map (fun x => (q x).sec) ∧ I.2.uncoupled = d.map (fun x => T.dual (q x).sec) then
      pairVal T c d a I * blkVal lc D I.1.coupled (sl R cod I.1 + packL c q μ) (sl R dom I.2 + packL d q μ)
    else 0
  have hold : ((allPairs R T.dim cod dom lc.sectors).map F).sum = (m.map fun p => F p.1).sum := by
    have e1 : (m.map fun p => F p.1) = (m.map Prod.fst).map F := by rw [List.map_map]; rfl
    rw [e1, hk]
    unfold allPairs
    rw [sum_flatMap, sum_flatMap]
    refine (sum_data hD hc.coupled hd.coupled _ ?_).symm
    intro e he _
    rw [sum_flatMap]
    refine sum_zero _ _ fun x hx => ?_
    rw [List.map_map]
    refine sum_zero _ _ fun y hy => ?_
    obtain ⟨-, -, -, -, g1, -⟩ := hc.placed T.dim hx
    simp only [Function.comp_apply, F, g1, he, mul_zero, ite_self]
  refine Eq.trans ?_ hold.symm
  -- the new entries
  let L' := allPairs R T.dim cod' dom' lc'.sectors
  have hnew : ∀ I ∈ L', (if I.1.uncoupled = c'.map (fun x => (q x).sec) ∧
        I.2.uncoupled = d'.map (fun x => T.dual (q x).sec) then
      pairVal T c' d' a I * blkVal lc' D' I.1.coupled (sl R cod' I.1 + packL c' q μ) (sl R dom' I.2 + packL d' q μ)
      else 0) = (m.map fun p => if I.1.uncoupled = c'.map (fun x => (q x).sec) ∧
        I.2.uncoupled = d'.map (fun x => T.dual (q x).sec) then (p.2.find I).getD 0 * (pairVal T c' d' a I *
          blkVal lc D p.1.1.coupled (sl R cod p.1.1 + packL c q μ) (sl R dom p.1.2 + packL d q μ)) else 0).sum := by
    intro I hI
    by_cases hcond : I.1.uncoupled = c'.map (fun x => (q x).sec) ∧ I.2.uncoupled = d'.map (fun x => T.dual (q x).sec)
    swap
    · rw [if_neg hcond]
      exact (sum_zero _ _ fun p _ => if_neg hcond).symm
    rw [if_pos hcond]
    simp only [if_pos hcond]
    obtain ⟨e, he, hI⟩ := List.mem_flatMap.1 hI
    obtain ⟨x, hx, hI⟩ := List.mem_flatMap.1 hI
    obtain ⟨y, hy, rfl⟩ := List.mem_map.1 hI
    obtain ⟨q2, hq2, -, -⟩ := pair_info hc' hd' hR hdim hl' hn' hx hy
    have hg : Good R T (fun z => (q z).sec) LF c' d' (x.tree, y.tree) :=
      ⟨hq2.good.left, hq2.good.right, hq2.good.coupled, hcond.1, hq2.good.leftD, hcond.2, hq2.good.rightD⟩
    obtain ⟨-, -, -, -, g1, -⟩ := hc'.placed T.dim hx
    have s1 := treeBlockSlice_layout hc' hR T.dim hx
    have s2 := treeBlockSlice_layout hd' hR T.dim hy
    have hv := hval e x hx y hy q hq1 hg μ fun z hz => (hcell z hz).2.2.1
    simp only [sl, s1, s2, Option.getD_some, g1]
    rw [hv]
    unfold newVal
    rw [ListSum.mul_sum]
    refine sum_congr _ fun p _ => ?_
    simp only [sl]
    ring
  rw [sum_congr _ hnew, sum_comm]
  refine sum_congr _ fun p hpm => ?_
  have hcol := hm.col p hpm
  have hinf := hm.info p hpm
  by_cases hmatch : p.1.1.uncoupled = c.map (fun x => (q x).sec) ∧ p.1.2.uncoupled = d.map (fun x => T.dual (q x).sec)
  · -- the sectors of the column are those of the state
    have hsec : ∀ x < N, (Q p.1 x).sec = (q x).sec := by
      intro x hx
      rcases List.mem_append.1 ((hmem0 x).2 hx) with h | h
      · exact List.map_inj_left.1 (hinf.good.leftU.symm.trans hmatch.1) x h
      · have := List.map_inj_left.1 (hinf.good.rightU.symm.trans hmatch.2) x h
        rw [← hL (Q p.1 x).sec, this, hL]
    have hsecL : c'.map (fun x => (Q p.1 x).sec) = c'.map fun x => (q x).sec :=
      List.map_congr_left fun x hx => hsec x ((hmem x).1 (List.mem_append_left _ hx))
    have hsecR : (d'.map fun x => T.dual (Q p.1 x).sec) = d'.map fun x => T.dual (q x).sec :=
      List.map_congr_left fun x hx => by rw [hsec x ((hmem x).1 (List.mem_append_right _ hx))]
    have hFp : F p.1 = pairVal T c d a p.1 *
        blkVal lc D p.1.1.coupled (sl R cod p.1.1 + packL c q μ) (sl R dom p.1.2 + packL d q μ) := if_pos hmatch
    rw [hFp]
    have hIdx : IdxOK T (fun x => (Q p.1 x).sec) c' d' a := by
      intro x hx
      simp only
      rw [hsec x ((hmem x).1 hx)]
      exact (hcell x ((hmem x).1 hx)).2.1
    rw [← hcol.sum a hIdx]
    have hin : ∀ r ∈ p.2, r.1 ∈ L' := by
      intro r hr
      have hg := hcol.good r hr
      have hqp : Choice T LS c' d' (Q p.1) := fun z hz => hinf.choice z ((hmem0 z).2 ((hmem z).1 hz))
      obtain ⟨k1, -, k3⟩ := allPairs_complete hc' hd' hdim hl' hqp hg
      exact k3 _ k1
    rw [← colSum_find p.2 hcol.nodup L' (allPairs_nodup hc' hd' hR T.dim hc'.coupled.nodup) hin, ListSum.sum_mul]
    refine sum_congr _ fun I _ => ?_
    rcases hf : p.2.find I with _ | v
    · simp
    · have hg := hcol.good _ (mem_of_find _ hf)
      rw [if_pos ⟨hg.leftU.trans hsecL, hg.rightU.trans hsecR⟩]
      ring
  · have hFp : F p.1 = 0 := if_neg hmatch
    rw [hFp]
    refine sum_zero _ _ fun I _ => ?_
    rcases hf : p.2.find I with _ | v
    · simp
    · have hg := hcol.good _ (mem_of_find _ hf)
      refine if_neg fun hcond => hmatch ?_
      have hsec : ∀ x < N, (Q p.1 x).sec = (q x).sec := by
        intro x hx
        rcases List.mem_append.1 ((hmem x).2 hx) with h | h
        · exact List.map_inj_left.1 (hg.leftU.symm.trans hcond.1) x h
        · have := List.map_inj_left.1 (hg.rightU.symm.trans hcond.2) x h
          rw [← hL (Q p.1 x).sec, this, hL]
      refine ⟨hinf.good.leftU.trans ?_, hinf.good.rightU.trans ?_⟩
      · exact List.map_congr_left fun x hx => hsec x ((hmem0 x).1 (List.mem_append_left _ hx))
      · exact List.map_congr_left fun x hx => by rw [hsec x ((hmem0 x).1 (List.mem_append_right _ hx))]

/-- The permuted tensor has the same dense entries. -/
theorem transform_dense (hL : ∀ a, T.dual (T.dual a) = a) (hdim : ∀ a, T.dim (T.dual a) = T.dim a) (hR : R.Lawful)
    (hc : SideOK R cod lc) (hd : SideOK R dom ld) (hc' : SideOK R cod' lc') (hd' : SideOK R dom' ld')
    (J M : ℕ) (hcJ : c = List.range J) (hdM : d = (List.range' J M).reverse)
    (hl : Labelled T LS LF c d cod dom) (hl' : Labelled T LS LF c' d' cod' dom')
    (hp : (c' ++ d').Perm (List.range (J + M))) (hD : FSane lc ld D)
    {Q : FusionTree S × FusionTree S → ℕ → Cell S} {m : PMap S K} (hm : MapInfo R T LS LF c d c' d' cod dom Q m)
    (hk : m.map Prod.fst = allPairs R T.dim cod dom (D.filterMap fun e => lc.sectors[e.1.1]?)) :
    ∃ D', transformTensor R m D ld cod dom lc' ld' cod' dom' c' d' = some D' ∧ FSane lc' ld' D' ∧
      ∀ idx : ℕ → ℕ, (∀ x < J + M, idx x < ((LS x).map fun p => T.dim p.1 * p.2).sum) →
        toDenseCore R T lc'.sectors cod' dom' D' (c'.map idx) (d'.map idx) =
          toDenseCore R T lc.sectors cod dom D (c.map idx) (d.map idx) := by
  have hmem0 : ∀ x, x ∈ c ++ d ↔ x < J + M := fun x => by
    rw [hcJ, hdM]
    simp only [List.mem_append, List.mem_range, List.mem_reverse, List.mem_range'_1]
    omega
  have hnb := fun e rows cols => newBlock_spec hL hdim hR hc hd hc' hd' J M hcJ hdM hl hl' hp hD hm e rows cols
  obtain ⟨D', t1, t2, t3⟩ := transform_spec (R := R) (D := D) (ld := ld) (cod := cod) (dom := dom) (cod' := cod')
    (dom' := dom') hc'.coupled hd'.coupled m c' d' fun e _ _ rows cols => by
      obtain ⟨B, b1, b2, b3, b4, -⟩ := hnb e rows cols
      exact ⟨B, b1, b2, b3, b4⟩
  refine ⟨D', t1, t2, dense_of_newVal hL hdim hR hc hd hc' hd' _ hmem0 hl hl' hp hD hm hk t2 ?_⟩
  intro e x hx y hy q hq hg mm hmm
  obtain ⟨rows, cols, B, b1, b2⟩ := t3 e (layout_sector hc' T.dim hx) (layout_sector hd' T.dim hy)
  obtain ⟨B', b3, -, -, -, b4⟩ := hnb e rows cols
  obtain rfl : B' = B := Option.some.inj (b3.symm.trans b1)
  rw [b2]
  exact b4 x hx y hy q hq hg mm hmm

end

end Cyten.FT
