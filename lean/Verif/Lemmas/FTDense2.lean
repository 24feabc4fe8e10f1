import Verif.Lemmas.FTDense
import Verif.Props.FTData

/-! # The layout of the blocks: rows and trees -/

namespace Cyten.FT.Spec
open Cyten.FT Cyten.Spaces Cyten.Spaces.Spec Cyten.Abelian

/-- What is used of the codomain or domain: flat legs without duplicate sectors and with positive
multiplicities, one duality flag per flat leg; coupled sectors sorted, with the number of fusion channels as
multiplicity (C29, C30). -/
structure SideOK {S : Type} [LinearOrder S] (R : FusionRule S) (s : Side S) (l : BLeg S) : Prop where
  good : ∀ x ∈ s.spaces, GoodSpace x
  pos : ∀ x ∈ s.spaces, ∀ m ∈ x.mults, 0 < m
  dual : s.areDual.length = s.spaces.length
  coupled : Coupled l
  mult : ∀ c, mult l c = channels R s.spaces c

end Cyten.FT.Spec

namespace Cyten.FT
open Cyten.FT.Spec Cyten.Tools Cyten.ListSum Cyten.Props Cyten.Spaces Cyten.Spaces.Spec Cyten.Abelian
  Cyten.FusionTrees

variable {S K : Type} [LinearOrder S]

/-- The trees of all items, with the running start. -/
def layoutFrom (R : FusionRule S) (s : Side S) (c : S) : List (UItem S) → ℕ → List (Placed S)
  | [], _ => []
  | u :: us, st => placeTrees u (s.size u) (s.trees R c u) st ++
      layoutFrom R s c us (st + (s.trees R c u).length * s.size u)

/-- The trees of a coupled sector with the first rows of their tree blocks. -/
def layout (R : FusionRule S) (dim : S → ℕ) (s : Side S) (c : S) : List (Placed S) :=
  layoutFrom R s c (iterUncoupledSlices dim s.spaces) 0

theorem placeTrees_mem {u : UItem S} {size : ℕ} {ts : List (FusionTree S)} {st : ℕ} {x : Placed S}
    (h : x ∈ placeTrees u size ts st) : x.item = u ∧ x.tree ∈ ts := by
  induction ts generalizing st with
  | nil => simp [placeTrees] at h
  | cons t ts ih =>
    rcases List.mem_cons.1 h with rfl | h
    · exact ⟨rfl, List.mem_cons_self⟩
    · exact ⟨(ih h).1, List.mem_cons_of_mem _ (ih h).2⟩

theorem layoutFrom_mem {R : FusionRule S} {s : Side S} {c : S} {us : List (UItem S)} {st : ℕ} {x : Placed S}
    (h : x ∈ layoutFrom R s c us st) : x.item ∈ us ∧ x.tree ∈ s.trees R c x.item := by
  induction us generalizing st with
  | nil => simp [layoutFrom] at h
  | cons u us ih =>
    rw [layoutFrom, List.mem_append] at h
    rcases h with h | h
    · obtain ⟨h1, h2⟩ := placeTrees_mem h
      rw [h1]
      exact ⟨List.mem_cons_self, h2⟩
    · exact ⟨List.mem_cons_of_mem _ (ih h).1, (ih h).2⟩

theorem placeTrees_tree (u : UItem S) (size : ℕ) (ts : List (FusionTree S)) (st : ℕ) :
    (placeTrees u size ts st).map Placed.tree = ts := by
  induction ts generalizing st with
  | nil => rfl
  | cons t ts ih => simp [placeTrees, ih]

theorem layoutFrom_tree (R : FusionRule S) (s : Side S) (c : S) (us : List (UItem S)) (st : ℕ) :
    (layoutFrom R s c us st).map Placed.tree = us.flatMap (s.trees R c) := by
  induction us generalizing st with
  | nil => rfl
  | cons u us ih => rw [layoutFrom, List.map_append, placeTrees_tree, ih, List.flatMap_cons]

theorem placeTrees_tiles (s : Side S) (u : UItem S) (ts : List (FusionTree S)) (st : ℕ) :
    Tiles st ((placeTrees u (s.size u) ts st).map fun x => (x.start, x.start + s.size x.item))
      (st + ts.length * s.size u) := by
  induction ts generalizing st with
  | nil => simp [placeTrees, Tiles]
  | cons t ts ih =>
    simp only [placeTrees, List.map_cons, List.length_cons, Tiles]
    refine ⟨trivial, by omega, ?_⟩
    have e : st + (ts.length + 1) * s.size u = st + s.size u + ts.length * s.size u := by ring
    rw [e]
    exact ih _

theorem layoutFrom_tiles (R : FusionRule S) (s : Side S) (c : S) (us : List (UItem S)) (st : ℕ) :
    Tiles st ((layoutFrom R s c us st).map fun x => (x.start, x.start + s.size x.item))
      (st + (us.map fun u => (s.trees R c u).length * s.size u).sum) := by
  induction us generalizing st with
  | nil => simp [layoutFrom, Tiles]
  | cons u us ih =>
    rw [layoutFrom, List.map_append]
    refine tiles_append _ _ _ _ _ (placeTrees_tiles s u _ st) ?_
    rw [List.map_cons, List.sum_cons, ← Nat.add_assoc]
    exact ih _

section Side
variable {R : FusionRule S} {s : Side S} {l : BLeg S}

theorem _root_.Cyten.FT.Spec.SideOK.items (h : SideOK R s l) (dim : S → ℕ) {u : UItem S} (hu : u ∈ iterUncoupledSlices dim s.spaces) :
    ∃ ch, List.Forall₂ (· ∈ ·) ch (s.spaces.map (cells dim)) ∧ u = itemOf dim ch := by
  rw [iterUncoupledSlices_eq dim _ h.good] at hu
  obtain ⟨ch, hc, rfl⟩ := List.mem_map.1 hu
  exact ⟨ch, mem_gchoices.1 hc, rfl⟩

theorem _root_.Cyten.FT.Spec.SideOK.size_eq (h : SideOK R s l) (dim : S → ℕ) {u : UItem S}
    (hu : u ∈ iterUncoupledSlices dim s.spaces) : s.size u = u.mults.prod := by
  have : (u.unc, u.mults) ∈ TProd.iterUncoupled s.spaces := by
    rw [← iterUncoupled_of_slices dim]
    exact List.mem_map.2 ⟨u, hu, rfl⟩
  exact (item_size h.good _ this).symm

theorem cell_mem {dim : S → ℕ} {x : SpaceData S} {q : Cell S} (h : q ∈ cells dim x) :
    q.mult ∈ x.mults ∧ q.sec ∈ x.sectors := by
  have h1 : (q.sec, q.mult) ∈ x.sectors.zip x.mults := by
    rw [← cellsFrom_sec dim 0 (x.sectors.zip x.mults)]
    exact List.mem_map.2 ⟨q, h, rfl⟩
  exact ⟨(List.of_mem_zip h1).2, (List.of_mem_zip h1).1⟩

theorem _root_.Cyten.FT.Spec.SideOK.cell_pos (h : SideOK R s l) (dim : S → ℕ) {ch : List (Cell S)}
    (hc : List.Forall₂ (· ∈ ·) ch (s.spaces.map (cells dim))) : ∀ q ∈ ch, 0 < q.mult := by
  have p := h.pos
  clear h
  generalize s.spaces = sp at *
  induction sp generalizing ch with
  | nil => cases hc; simp
  | cons x sp ih =>
    cases hc with
    | cons hq hch =>
      intro q hq'
      rcases List.mem_cons.1 hq' with rfl | hq'
      · exact p x List.mem_cons_self _ (cell_mem hq).1
      · exact ih hch (fun y hy => p y (List.mem_cons_of_mem _ hy)) q hq'

theorem _root_.Cyten.FT.Spec.SideOK.size_pos (h : SideOK R s l) (dim : S → ℕ) {u : UItem S}
    (hu : u ∈ iterUncoupledSlices dim s.spaces) : 0 < s.size u := by
  rw [h.size_eq dim hu]
  obtain ⟨ch, hc, rfl⟩ := h.items dim hu
  refine Nat.pos_of_ne_zero fun h0 => ?_
  rw [List.prod_eq_zero_iff] at h0
  obtain ⟨q, hq, hq0⟩ := List.mem_map.1 h0
  have := h.cell_pos dim hc q hq
  omega

theorem _root_.Cyten.FT.Spec.SideOK.tiles (h : SideOK R s l) (dim : S → ℕ) (c : S) :
    Tiles 0 ((layout R dim s c).map fun x => (x.start, x.start + s.size x.item)) (Spec.mult l c) := by
  have := layoutFrom_tiles R s c (iterUncoupledSlices dim s.spaces) 0
  rw [Nat.zero_add] at this
  rw [h.mult c, ← items_sum R h.good c, ← iterUncoupled_of_slices dim, List.map_map]
  have e : (iterUncoupledSlices dim s.spaces).map (itemSize R c ∘ fun u => (u.unc, u.mults)) =
      (iterUncoupledSlices dim s.spaces).map fun u => (s.trees R c u).length * s.size u := by
    apply List.map_congr_left
    intro u hu
    simp only [Function.comp_apply, itemSize, Side.trees, length_allTrees, h.size_eq dim hu]
  rw [e]
  exact this

theorem forall2_sec {dim : S → ℕ} {spaces : List (SpaceData S)} {ch ch' : List (Cell S)}
    (hg : ∀ x ∈ spaces, GoodSpace x)
    (h : List.Forall₂ (· ∈ ·) ch (spaces.map (cells dim))) (h' : List.Forall₂ (· ∈ ·) ch' (spaces.map (cells dim)))
    (he : ch.map Cell.sec = ch'.map Cell.sec) : ch = ch' := by
  induction spaces generalizing ch ch' with
  | nil => cases h; cases h'; rfl
  | cons x spaces ih =>
    cases h with
    | @cons q _ ch _ hq hch =>
      cases h' with
      | @cons q' _ ch' _ hq' hch' =>
        simp only [List.map_cons, List.cons.injEq] at he
        rw [ih (fun y hy => hg y (List.mem_cons_of_mem _ hy)) hch hch' he.2]
        congr 1
        have h1 : ((cells dim x).map fun q => q.sec).Nodup := by
          have := congrArg (List.map Prod.fst) (cellsFrom_sec dim 0 (x.sectors.zip x.mults))
          rw [List.map_map, List.map_fst_zip (by rw [(hg x List.mem_cons_self).len])] at this
          exact this ▸ (hg x List.mem_cons_self).nodup
        exact List.inj_on_of_nodup_map h1 hq hq' he.1

theorem _root_.Cyten.FT.Spec.SideOK.len (h : SideOK R s l) (dim : S → ℕ) {u : UItem S}
    (hu : u ∈ iterUncoupledSlices dim s.spaces) : s.areDual.length = u.unc.length := by
  obtain ⟨ch, hc, rfl⟩ := h.items dim hu
  have := hc.length_eq
  simp only [List.length_map] at this
  simp [itemOf, h.dual, this]

theorem _root_.Cyten.FT.Spec.SideOK.placed (h : SideOK R s l) (dim : S → ℕ) {c : S} {x : Placed S} (hx : x ∈ layout R dim s c) :
    ∃ ch, List.Forall₂ (· ∈ ·) ch (s.spaces.map (cells dim)) ∧ x.item = itemOf dim ch ∧
      x.tree.uncoupled = ch.map Cell.sec ∧ x.tree.coupled = c ∧ x.tree.areDual = s.areDual ∧ x.tree.Sane R ∧
      s.size x.item = (ch.map Cell.mult).prod := by
  obtain ⟨h1, h2⟩ := layoutFrom_mem hx
  obtain ⟨ch, hc, he⟩ := h.items dim h1
  obtain ⟨g1, g2, g3, g4⟩ := (C01_all_trees_exactly_sane R _ c _ (h.len dim h1) _).1 h2
  refine ⟨ch, hc, he, ?_, g2, g3, g4, ?_⟩
  · rw [g1, he]; rfl
  · rw [h.size_eq dim h1, he]; rfl

theorem _root_.Cyten.FT.Spec.SideOK.tree_nodup (h : SideOK R s l) (hR : R.Lawful) (dim : S → ℕ) (c : S) :
    ((layout R dim s c).map Placed.tree).Nodup := by
  rw [layout, layoutFrom_tree, List.nodup_flatMap]
  refine ⟨fun u hu => C01_all_trees_nodup R hR _ c _ (h.len dim hu), ?_⟩
  have hn := items_nodup h.good
  rw [← iterUncoupled_of_slices dim, List.map_map, List.Nodup, List.pairwise_map] at hn
  refine (List.Pairwise.and_mem.1 hn).imp ?_
  rintro u u' ⟨hu, hu', hne⟩
  change List.Disjoint _ _
  rw [List.disjoint_left]
  intro t h1 h2
  have g1 := ((C01_all_trees_exactly_sane R _ c _ (h.len dim hu) _).1 h1).1
  have g2 := ((C01_all_trees_exactly_sane R _ c _ (h.len dim hu') _).1 h2).1
  exact hne (g1.symm.trans g2)

end Side

/-! ## The loops visit all pairs -/

theorem sum_forestVisits [AddCommMonoid K] (R : FusionRule S) (cod dom : Side S) (c : S) (ai bi : UItem S)
    (i1 i2 : ℕ) (f : Placed S × Placed S → K) :
    ((forestVisits R cod dom c ai bi i1 i2).map f).sum =
      ((placeTrees ai (cod.size ai) (cod.trees R c ai) i1).map fun x =>
        ((placeTrees bi (dom.size bi) (dom.trees R c bi) i2).map fun y => f (x, y)).sum).sum := by
  unfold forestVisits
  rw [sum_flatMap]
  refine sum_congr _ fun x _ => ?_
  rw [List.map_map]; rfl

theorem sum_rowLoop [AddCommMonoid K] (R : FusionRule S) (skip : Bool) (cod dom : Side S) (c : S) (bi : UItem S)
    (i2 : ℕ) (ais : List (UItem S)) (i1 : ℕ) (ha : ∀ u ∈ ais, 0 < cod.size u) (hb : 0 < dom.size bi)
    (f : Placed S × Placed S → K) :
    ((rowLoop R skip cod dom c bi i2 ais i1).map f).sum =
      ((layoutFrom R cod c ais i1).map fun x =>
        ((placeTrees bi (dom.size bi) (dom.trees R c bi) i2).map fun y => f (x, y)).sum).sum := by
  induction ais generalizing i1 with
  | nil => rfl
  | cons u us ih =>
    have ihu := fun i => ih i fun v hv => ha v (List.mem_cons_of_mem _ hv)
    have hu := ha u List.mem_cons_self
    rw [rowLoop, layoutFrom, List.map_append, List.sum_append]
    by_cases hs : (skip && ((cod.trees R c u).length * cod.size u == 0 ||
        (dom.trees R c bi).length * dom.size bi == 0)) = true
    · rw [if_pos hs, ihu]
      simp only [Bool.and_eq_true, Bool.or_eq_true, beq_iff_eq, Nat.mul_eq_zero, List.length_eq_zero_iff] at hs
      rcases hs.2 with (h0 | h0) | (h0 | h0)
      · rw [h0]
        simp [placeTrees]
      · omega
      · rw [h0]
        simp only [placeTrees, List.map_nil, List.sum_nil]
        rw [sum_zero _ _ fun _ _ => rfl, sum_zero _ _ fun _ _ => rfl, sum_zero _ _ fun _ _ => rfl, add_zero]
      · omega
    · rw [if_neg hs, List.map_append, List.sum_append, ihu, sum_forestVisits]

theorem sum_colLoop [AddCommMonoid K] (R : FusionRule S) (skip : Bool) (cod dom : Side S) (c : S)
    (ais bis : List (UItem S)) (i2 : ℕ) (ha : ∀ u ∈ ais, 0 < cod.size u) (hb : ∀ u ∈ bis, 0 < dom.size u)
    (f : Placed S × Placed S → K) :
    ((colLoop R skip cod dom c ais bis i2).map f).sum =
      ((layoutFrom R dom c bis i2).map fun y =>
        ((layoutFrom R cod c ais 0).map fun x => f (x, y)).sum).sum := by
  induction bis generalizing i2 with
  | nil => rfl
  | cons u us ih =>
    have ihu := fun i => ih i fun v hv => hb v (List.mem_cons_of_mem _ hv)
    rw [colLoop, layoutFrom, List.map_append, List.map_append, List.sum_append, List.sum_append,
      sum_rowLoop R skip cod dom c u i2 ais 0 ha (hb u List.mem_cons_self), ihu, sum_comm]
    congr 1
    cases ais with
    | nil =>
      simp only [layoutFrom, List.map_nil, List.sum_nil]
      rw [sum_zero _ _ fun _ _ => rfl, sum_zero _ _ fun _ _ => rfl]
    | cons a as => rfl

theorem sum_visits [AddCommMonoid K] {R : FusionRule S} {cod dom : Side S} {lc ld : BLeg S} (hc : SideOK R cod lc)
    (hd : SideOK R dom ld) (dim : S → ℕ) (skip : Bool) (c : S) (f : Placed S × Placed S → K) :
    ((visits R dim skip cod dom c).map f).sum =
      ((layout R dim cod c).map fun x => ((layout R dim dom c).map fun y => f (x, y)).sum).sum := by
  rw [visits, sum_colLoop R skip cod dom c _ _ 0 (fun u hu => hc.size_pos dim hu) (fun u hu => hd.size_pos dim hu),
    sum_comm]
  rfl

theorem mem_rowLoop (R : FusionRule S) (cod dom : Side S) (c : S) (bi : UItem S) (i2 : ℕ) (ais : List (UItem S))
    (i1 : ℕ) (v : Placed S × Placed S) :
    v ∈ rowLoop R false cod dom c bi i2 ais i1 ↔ v.1 ∈ layoutFrom R cod c ais i1 ∧
      v.2 ∈ placeTrees bi (dom.size bi) (dom.trees R c bi) i2 := by
  induction ais generalizing i1 with
  | nil => simp [rowLoop, layoutFrom]
  | cons u us ih =>
    rw [rowLoop, layoutFrom]
    simp only [Bool.false_and, Bool.false_eq_true, if_false, List.mem_append]
    rw [ih]
    have : v ∈ forestVisits R cod dom c u bi i1 i2 ↔ v.1 ∈ placeTrees u (cod.size u) (cod.trees R c u) i1 ∧
        v.2 ∈ placeTrees bi (dom.size bi) (dom.trees R c bi) i2 := by
      unfold forestVisits
      simp only [List.mem_flatMap, List.mem_map]
      constructor
      · rintro ⟨x, hx, y, hy, rfl⟩; exact ⟨hx, hy⟩
      · rintro ⟨h1, h2⟩; exact ⟨v.1, h1, v.2, h2, rfl⟩
    rw [this]
    tauto

theorem mem_visits (R : FusionRule S) (dim : S → ℕ) (cod dom : Side S) (c : S) (v : Placed S × Placed S) :
    v ∈ visits R dim false cod dom c ↔ v.1 ∈ layout R dim cod c ∧ v.2 ∈ layout R dim dom c := by
  have key : ∀ (ais bis : List (UItem S)) (i2 : ℕ), v ∈ colLoop R false cod dom c ais bis i2 ↔
      v.1 ∈ layoutFrom R cod c ais 0 ∧ v.2 ∈ layoutFrom R dom c bis i2 := by
    intro ais bis
    induction bis with
    | nil => intro i2; simp [colLoop, layoutFrom]
    | cons u us ih =>
      intro i2
      rw [colLoop, layoutFrom, List.mem_append, List.mem_append, mem_rowLoop]
      rw [ih]
      cases ais with
      | nil => simp [layoutFrom]
      | cons a as =>
        simp only [List.isEmpty_cons, Bool.false_eq_true, if_false]
        tauto
  exact key _ _ 0

end Cyten.FT
