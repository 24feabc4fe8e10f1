import Verif.Lemmas.FactMap2

/-! # The factorized mapping as a mapping of pairs -/

namespace Cyten.FT
open Cyten.FT.Spec Cyten.Tools Cyten.ListSum Cyten.Props Cyten.Spaces Cyten.Spaces.Spec Cyten.Abelian
  Cyten.FusionTrees Cyten.Mappings Cyten.Permute

variable {S K : Type} [LinearOrder S] [CommRing K] [StarRing K]

theorem find_of_mem' {A V : Type} [DecidableEq A] (col : UMap A V) (hn : (col.map Prod.fst).Nodup) {r : A × V}
    (hr : r ∈ col) : col.find r.1 = some r.2 := by
  induction col with
  | nil => cases hr
  | cons p col ih =>
    obtain ⟨k, v⟩ := p
    rw [List.map_cons, List.nodup_cons] at hn
    unfold UMap.find
    by_cases h : k = r.1
    · rw [if_pos h]
      rcases List.mem_cons.1 hr with rfl | hr
      · rfl
      · exact absurd (List.mem_map.2 ⟨r, hr, h.symm⟩) hn.1
    · rw [if_neg h]
      rcases List.mem_cons.1 hr with rfl | hr
      · exact absurd rfl h
      · exact ih hn.2 hr

/-- The column of a tree -/
def TMap.colOf (m : TMap S K) (X : FusionTree S) : UMap (FusionTree S) K := (m.toSparse.find X).getD []

/-- The amplitude of the new tree `x` for the old tree `X` -/
def TMap.coef (m : TMap S K) (X x : FusionTree S) : K := ((m.colOf X).find x).getD 0

/-- The product of two columns -/
def prodCol (a b : UMap (FusionTree S) K) : UMap (FusionTree S × FusionTree S) K :=
  a.flatMap fun p => b.map fun q => ((p.1, q.1), p.2 * q.2)

omit [StarRing K] in
theorem prodCol_keys (a b : UMap (FusionTree S) K) :
    (prodCol a b).map Prod.fst = (a.map Prod.fst).flatMap fun x => (b.map Prod.fst).map fun y => (x, y) := by
  unfold prodCol
  simp only [List.map_flatMap, List.flatMap_map, List.map_map]
  rfl

omit [StarRing K] in
theorem prodCol_nodup {a b : UMap (FusionTree S) K} (ha : (a.map Prod.fst).Nodup) (hb : (b.map Prod.fst).Nodup) :
    ((prodCol a b).map Prod.fst).Nodup := by
  rw [prodCol_keys, List.nodup_flatMap]
  refine ⟨fun x _ => hb.map fun y y' h => by simpa using h, ?_⟩
  refine ha.imp ?_
  intro x x' hne
  change List.Disjoint _ _
  rw [List.disjoint_left]
  rintro z hz hz'
  obtain ⟨y, -, rfl⟩ := List.mem_map.1 hz
  obtain ⟨y', -, he⟩ := List.mem_map.1 hz'
  exact hne (congrArg Prod.fst he).symm

omit [StarRing K] in
theorem prodCol_find {a b : UMap (FusionTree S) K} (ha : (a.map Prod.fst).Nodup) (hb : (b.map Prod.fst).Nodup)
    (x y : FusionTree S) :
    ((prodCol a b).find (x, y)).getD 0 = (a.find x).getD 0 * (b.find y).getD 0 := by
  have hn := prodCol_nodup ha hb
  rcases hx : a.find x with _ | v
  · rcases hf : (prodCol a b).find (x, y) with _ | w
    · simp
    · obtain ⟨p, hp, hq⟩ := List.mem_flatMap.1 (mem_of_find _ hf)
      obtain ⟨q, hq, he⟩ := List.mem_map.1 hq
      have : p.1 = x := congrArg (fun z => z.1.1) he
      have h2 := find_of_mem a ha hp
      rw [this, hx] at h2; cases h2
  rcases hy : b.find y with _ | u
  · rcases hf : (prodCol a b).find (x, y) with _ | w
    · simp
    · obtain ⟨p, hp, hq⟩ := List.mem_flatMap.1 (mem_of_find _ hf)
      obtain ⟨q, hq, he⟩ := List.mem_map.1 hq
      have : q.1 = y := congrArg (fun z => z.1.2) he
      have h2 := find_of_mem b hb hq
      rw [this, hy] at h2; cases h2
  have hm : ((x, y), v * u) ∈ prodCol a b :=
    List.mem_flatMap.2 ⟨(x, v), mem_of_find _ hx, List.mem_map.2 ⟨(y, u), mem_of_find _ hy, rfl⟩⟩
  have := find_of_mem _ hn hm
  simp only at this
  rw [this]; rfl

theorem TreeCol.congr {R : FusionRule S} {T : FTensors S K} {cj : Bool} {sec sec' : ℕ → S} {flag : ℕ → Bool}
    {l : List ℕ} {co : S} {v : (ℕ → ℕ) → ℕ → K} {col : UMap (FusionTree S) K}
    (h : TreeCol R T cj sec flag l co v col) (hs : ∀ x ∈ l, sec x = sec' x) : TreeCol R T cj sec' flag l co v col := by
  refine ⟨h.nodup, fun p hp => ?_, fun idx hi k hk => h.sum idx (fun x hx => by rw [hs x hx]; exact hi x hx) k hk⟩
  obtain ⟨g1, g2, g3, g4⟩ := h.good p hp
  exact ⟨g1, g2, by rw [g3]; exact List.map_congr_left hs, g4⟩

theorem prodCol_ok {R : FusionRule S} {T : FTensors S K} (hdim : ∀ a, T.dim (T.dual a) = T.dim a) {sec : ℕ → S}
    {flag : ℕ → Bool} {c d c' d' : List ℕ} {X Y : FusionTree S} (hco : X.coupled = Y.coupled)
    {a b : UMap (FusionTree S) K}
    (ha : TreeCol R T true sec flag c' X.coupled (fun idx k => conjIf true (treeTensor T X (c.map idx) k)) a)
    (hb : TreeCol R T false (fun x => T.dual (sec x)) (fun x => !flag x) d' Y.coupled
      (fun idx k => conjIf false (treeTensor T Y (d.map idx) k)) b) :
    ColOK R T sec flag c' d' (fun idx => pairVal T c d idx (X, Y)) (prodCol a b) := by
  refine ⟨prodCol_nodup ha.nodup hb.nodup, fun z hz => ?_, fun idx hi => ?_⟩
  · obtain ⟨p, hp, hz⟩ := List.mem_flatMap.1 hz
    obtain ⟨q, hq, rfl⟩ := List.mem_map.1 hz
    obtain ⟨g1, g2, g3, g4⟩ := ha.good p hp
    obtain ⟨f1, f2, f3, f4⟩ := hb.good q hq
    exact ⟨g1, f1, by simp only [g2, f2, hco], g3, g4, f3, f4⟩
  · have h1 := fun k hk => ha.sum idx (fun x hx => hi x (List.mem_append_left _ hx)) k hk
    have h2 := fun k hk => hb.sum idx (fun x hx => by
      rw [hdim]; exact hi x (List.mem_append_right _ hx)) k hk
    simp only [conjIf, if_true, Bool.false_eq_true, if_false] at h1 h2
    have e1 : colSum (prodCol a b) (pairVal T c' d' idx) =
        (a.map fun p => (b.map fun q => ((List.range (T.dim X.coupled)).map fun k =>
          p.2 * star (treeTensor T p.1 (c'.map idx) k) * (q.2 * treeTensor T q.1 (d'.map idx) k)).sum).sum).sum := by
      unfold colSum prodCol
      rw [sum_flatMap]
      refine sum_congr _ fun p hp => ?_
      rw [List.map_map]
      refine sum_congr _ fun q hq => ?_
      simp only [Function.comp_apply, pairVal, pairTensor, (ha.good p hp).2.1, ListSum.mul_sum]
      refine sum_congr _ fun k _ => ?_
      ring
    have e2 : pairVal T c d idx (X, Y) = ((List.range (T.dim X.coupled)).map fun k =>
        (a.map fun p => p.2 * star (treeTensor T p.1 (c'.map idx) k)).sum *
          (b.map fun q => q.2 * treeTensor T q.1 (d'.map idx) k).sum).sum := by
      unfold pairVal pairTensor
      refine sum_congr _ fun k hk => ?_
      have hk := List.mem_range.1 hk
      rw [← h1 k hk, ← h2 k (by rw [← hco]; exact hk)]
      rfl
    rw [e1, e2]
    have e3 : ∀ p ∈ a, (b.map fun q => ((List.range (T.dim X.coupled)).map fun k =>
          p.2 * star (treeTensor T p.1 (c'.map idx) k) * (q.2 * treeTensor T q.1 (d'.map idx) k)).sum).sum =
        ((List.range (T.dim X.coupled)).map fun k => p.2 * star (treeTensor T p.1 (c'.map idx) k) *
          (b.map fun q => q.2 * treeTensor T q.1 (d'.map idx) k).sum).sum := by
      intro p _
      refine (sum_comm _ _ _).trans ?_
      refine sum_congr _ fun k _ => ?_
      rw [ListSum.mul_sum]
    rw [sum_congr _ e3]
    refine (sum_comm _ _ _).trans ?_
    refine sum_congr _ fun k _ => ?_
    rw [ListSum.sum_mul]

/-! ## Keys -/

/-- The trees of one side, for some coupled sectors -/
def keysOf (R : FusionRule S) (dim : S → ℕ) (s : Side S) (cs : List S) : List (FusionTree S) :=
  cs.flatMap fun c => (layout R dim s c).map Placed.tree

section
variable {R : FusionRule S} {s : Side S} {l : BLeg S}

theorem keysOf_nodup (h : SideOK R s l) (hR : R.Lawful) (dim : S → ℕ) {cs : List S} (hcs : cs.Nodup) :
    (keysOf R dim s cs).Nodup := by
  unfold keysOf
  rw [List.nodup_flatMap]
  refine ⟨fun c _ => h.tree_nodup hR dim c, hcs.imp ?_⟩
  intro c c' hne
  change List.Disjoint _ _
  rw [List.disjoint_left]
  intro t ht ht'
  obtain ⟨x, hx, rfl⟩ := List.mem_map.1 ht
  obtain ⟨x', hx', he⟩ := List.mem_map.1 ht'
  obtain ⟨-, -, -, -, g1, -⟩ := h.placed dim hx
  obtain ⟨-, -, -, -, g2, -⟩ := h.placed dim hx'
  rw [he, g1] at g2
  exact hne g2

theorem sideKeys_eq (h : SideOK R s l) (hR : R.Lawful) (dim : S → ℕ) (secs : List S) (D : FEnts K)
    (hD : ∀ e ∈ D, e.1.1 < secs.length) (hn : (D.filterMap fun e => secs[e.1.1]?).Nodup) :
    sideKeys R secs s (D.map Prod.fst) = some (keysOf R dim s (D.filterMap fun e => secs[e.1.1]?)) := by
  have h1 : ∀ (E : FEnts K), (∀ e ∈ E, e.1.1 < secs.length) →
      ((E.map Prod.fst).mapM fun r => secs[r.1]?) = some (E.filterMap fun e => secs[e.1.1]?) := by
    intro E
    induction E with
    | nil => intro _; rfl
    | cons e E ih =>
      intro h
      have he := List.getElem?_eq_getElem (h e List.mem_cons_self)
      rw [List.map_cons, List.mapM_cons, he, ih fun x hx => h x (List.mem_cons_of_mem _ hx), List.filterMap_cons, he]
      rfl
  unfold sideKeys
  rw [h1 D hD]
  simp only [Option.map_some, Option.some.injEq]
  have e : ((D.filterMap fun e => secs[e.1.1]?).flatMap fun c =>
      (TProd.iterTreeBlocks R s.areDual s.spaces c).map fun xb => xb.1) =
      keysOf R dim s (D.filterMap fun e => secs[e.1.1]?) := by
    unfold keysOf
    refine List.flatMap_congr fun c _ => ?_
    rw [iterTreeBlocks_eq h dim, List.map_map]
    rfl
  rw [e, List.dedup_eq_self.2 (keysOf_nodup h hR dim hn)]

theorem colOf_mem {m : TMap S K} (hn : (m.toSparse.map Prod.fst).Nodup) {p : FusionTree S × UMap (FusionTree S) K}
    (hp : p ∈ m.toSparse) : m.colOf p.1 = p.2 := by
  unfold TMap.colOf
  rw [find_of_mem' _ hn hp]; rfl

theorem mem_colOf {m : TMap S K} (hn : (m.toSparse.map Prod.fst).Nodup) {X : FusionTree S}
    (hX : X ∈ m.toSparse.map Prod.fst) : (X, m.colOf X) ∈ m.toSparse := by
  obtain ⟨p, hp, rfl⟩ := List.mem_map.1 hX
  rw [colOf_mem hn hp]
  exact hp

theorem side_sum (h : SideOK R s l) (hR : R.Lawful) (dim : S → ℕ) {cs : List S} (hcs : cs.Nodup) {m : TMap S K}
    (hk : m.toSparse.map Prod.fst = keysOf R dim s cs)
    (hz : ∀ p ∈ m.toSparse, ∀ q ∈ p.2, q.1.coupled = p.1.coupled) {e : S} (he : e ∈ cs) (x : FusionTree S)
    (hx : x.coupled = e) (g : FusionTree S → K) :
    (m.toSparse.map fun p => (p.2.find x).getD 0 * g p.1).sum =
      ((layout R dim s e).map fun X => m.coef X.tree x * g X.tree).sum := by
  have hn : (m.toSparse.map Prod.fst).Nodup := by rw [hk]; exact keysOf_nodup h hR dim hcs
  have e1 : (m.toSparse.map fun p => (p.2.find x).getD 0 * g p.1).sum =
      ((m.toSparse.map Prod.fst).map fun X => m.coef X x * g X).sum := by
    rw [List.map_map]
    refine sum_congr _ fun p hp => ?_
    simp only [Function.comp_apply, TMap.coef, colOf_mem hn hp]
  rw [e1, hk]
  unfold keysOf
  rw [sum_flatMap, sum_single' cs hcs e he]
  · rw [List.map_map]; rfl
  · intro e' he' hne
    rw [List.map_map]
    refine sum_zero _ _ fun X hX => ?_
    obtain ⟨-, -, -, -, g1, -⟩ := h.placed dim hX
    have hXk : X.tree ∈ m.toSparse.map Prod.fst := by
      rw [hk]; exact List.mem_flatMap.2 ⟨e', he', List.mem_map_of_mem hX⟩
    simp only [Function.comp_apply, TMap.coef]
    rcases hf : (m.colOf X.tree).find x with _ | v
    · simp
    · exfalso
      have := hz _ (mem_colOf hn hXk) (x, v) (mem_of_find _ hf)
      simp only at this
      rw [hx, g1] at this
      exact hne this.symm

/-- The tree blocks, for given sectors of the legs -/
theorem slice_of (h : SideOK R s l) (hR : R.Lawful) (dim : S → ℕ) {l0 : List ℕ} {cl : ℕ → List (Cell S)}
    (hcl : s.spaces.map (cells dim) = l0.map cl) {ch : ℕ → Cell S} (hch : ∀ x ∈ l0, ch x ∈ cl x) {e : S}
    {X : Placed S} (hX : X ∈ layout R dim s e) (hu : X.tree.uncoupled = l0.map fun x => (ch x).sec) :
    X.item.mults = l0.map (fun x => (ch x).mult) ∧ sl R s X.tree = X.start ∧
      s.size X.item = (l0.map fun x => (ch x).mult).prod ∧
      TProd.treeBlockSlice R s.spaces X.tree =
        some (sl R s X.tree, sl R s X.tree + (l0.map fun x => (ch x).mult).prod) := by
  obtain ⟨ch1, p1, p2, p3, p4, p5, p6, p7⟩ := h.placed dim hX
  have hf : List.Forall₂ (· ∈ ·) (l0.map ch) (s.spaces.map (cells dim)) := by
    rw [hcl, List.forall₂_map_left_iff, List.forall₂_map_right_iff, List.forall₂_same]
    exact hch
  have hc1 : ch1 = l0.map ch := forall2_sec h.good p1 hf (by rw [← p3, hu, List.map_map]; rfl)
  subst hc1
  have ts := treeBlockSlice_layout h hR dim hX
  have hsz : s.size X.item = (l0.map fun x => (ch x).mult).prod := by rw [p7, List.map_map]; rfl
  have hsl : sl R s X.tree = X.start := by simp [sl, ts]
  refine ⟨?_, hsl, hsz, ?_⟩
  · rw [p2]; simp only [itemOf, List.map_map]; rfl
  · rw [hsl, ts, hsz]

theorem layout_congr {s' : Side S} {l' : BLeg S} (h : SideOK R s l) (h' : SideOK R s' l') (dim : S → ℕ)
    (hcl : s.spaces.map (cells dim) = s'.spaces.map (cells dim)) (hd : s.areDual = s'.areDual) (e : S) :
    layout R dim s e = layout R dim s' e := by
  have hi : iterUncoupledSlices dim s.spaces = iterUncoupledSlices dim s'.spaces := by
    rw [iterUncoupledSlices_eq dim _ h.good, iterUncoupledSlices_eq dim _ h'.good, hcl]
  unfold layout
  rw [← hi]
  have : ∀ (us : List (UItem S)) (st : ℕ), (∀ u ∈ us, u ∈ iterUncoupledSlices dim s.spaces) →
      layoutFrom R s e us st = layoutFrom R s' e us st := by
    intro us
    induction us with
    | nil => intro st _; rfl
    | cons u us ih =>
      intro st hu
      have h1 : s.size u = s'.size u := by
        rw [h.size_eq dim (hu u List.mem_cons_self), h'.size_eq dim (by rw [← hi]; exact hu u List.mem_cons_self)]
      have h2 : s.trees R e u = s'.trees R e u := by unfold Side.trees; rw [hd]
      simp only [layoutFrom, h1, h2]
      rw [ih _ fun v hv => hu v (List.mem_cons_of_mem _ hv)]
  exact this _ _ fun _ h => h

end

end Cyten.FT
