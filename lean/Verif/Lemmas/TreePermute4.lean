import Verif.Lemmas.TreePermute3

/-! # Legs with labels -/

namespace Cyten.FT.Spec
open Cyten.FT

/-- The two sides of a tensor whose legs have labels: as a leg of the codomain the leg `x` has the sectors and
multiplicities `LS x` and the duality flag `LF x`; as a leg of the domain it is the dual one, with the same order of
the states. -/
structure Labelled {S K : Type} (T : FTensors S K) (LS : ℕ → List (S × ℕ)) (LF : ℕ → Bool) (c d : List ℕ)
    (cod dom : Side S) : Prop where
  codSpaces : cod.spaces.map (fun y => y.sectors.zip y.mults) = c.map LS
  codDual : cod.areDual = c.map LF
  domSpaces : dom.spaces.map (fun y => y.sectors.zip y.mults) = d.map fun x => (LS x).map fun p => (T.dual p.1, p.2)
  domDual : dom.areDual = d.map fun x => !LF x

end Cyten.FT.Spec

namespace Cyten.FT
open Cyten.FT.Spec Cyten.Tools Cyten.ListSum Cyten.Props Cyten.Spaces Cyten.Spaces.Spec Cyten.Abelian
  Cyten.FusionTrees Cyten.Mappings Cyten.Permute

variable {S K : Type} [LinearOrder S] [CommRing K] [StarRing K]

/-- The cell of the dual leg -/
def dualCell (T : FTensors S K) (q : Cell S) : Cell S := ⟨T.dual q.sec, q.mult, q.start⟩

omit [LinearOrder S] [CommRing K] [StarRing K] in
theorem cells_dual {T : FTensors S K} (hd : ∀ a, T.dim (T.dual a) = T.dim a) (ps : List (S × ℕ)) (st : ℕ) :
    cellsFrom T.dim st (ps.map fun p => (T.dual p.1, p.2)) = (cellsFrom T.dim st ps).map (dualCell T) := by
  induction ps generalizing st with
  | nil => rfl
  | cons p ps ih => simp only [List.map_cons, cellsFrom, ih, hd, dualCell]

theorem forall2_fun {A : Type} (dflt : A) (f : ℕ → List A) (l : List ℕ) (hn : l.Nodup) (ch : List A)
    (h : List.Forall₂ (· ∈ ·) ch (l.map f)) : ∃ q : ℕ → A, ch = l.map q ∧ ∀ x ∈ l, q x ∈ f x := by
  induction l generalizing ch with
  | nil => cases h; exact ⟨fun _ => dflt, rfl, by simp⟩
  | cons x l ih =>
    rw [List.map_cons] at h
    cases h with
    | @cons a _ ch _ ha hch =>
      rw [List.nodup_cons] at hn
      obtain ⟨q, h1, h2⟩ := ih hn.2 ch hch
      refine ⟨fun y => if y = x then a else q y, ?_, ?_⟩
      · rw [List.map_cons, if_pos rfl, h1]
        congr 1
        refine List.map_congr_left fun y hy => ?_
        rw [if_neg]
        rintro rfl
        exact hn.1 hy
      · intro y hy
        by_cases hyx : y = x
        · subst hyx; simpa using ha
        · simp only
          rw [if_neg hyx]
          exact h2 y ((List.mem_cons.1 hy).resolve_left hyx)

theorem cell_of_index (dim : S → ℕ) (ps : List (S × ℕ)) (st i : ℕ) (hi : i < (ps.map fun p => dim p.1 * p.2).sum) :
    ∃ q ∈ cellsFrom dim st ps, ∃ a m : ℕ, a < dim q.sec ∧ m < q.mult ∧ st + i = q.start + (a * q.mult + m) := by
  induction ps generalizing st i with
  | nil => simp at hi
  | cons p ps ih =>
    simp only [List.map_cons, List.sum_cons] at hi
    by_cases h : i < dim p.1 * p.2
    · refine ⟨_, List.mem_cons_self, i / p.2, i % p.2, ?_, ?_, ?_⟩
      · exact Nat.div_lt_of_lt_mul (by rw [Nat.mul_comm]; exact h)
      · exact Nat.mod_lt _ (Nat.pos_of_ne_zero fun h0 => by simp [h0] at h)
      · simp only
        rw [Nat.div_add_mod']
    · obtain ⟨q, hq, a, m, h1, h2, h3⟩ := ih (st + dim p.1 * p.2) (i - dim p.1 * p.2) (by omega)
      exact ⟨q, List.mem_cons_of_mem _ hq, a, m, h1, h2, by omega⟩

/-- All pairs of trees of the given coupled sectors -/
def allPairs (R : FusionRule S) (dim : S → ℕ) (cod dom : Side S) (cs : List S) : List (FusionTree S × FusionTree S) :=
  cs.flatMap fun c => (layout R dim cod c).flatMap fun x => (layout R dim dom c).map fun y => (x.tree, y.tree)

/-- The first row of the tree block -/
def sl (R : FusionRule S) (s : Side S) (t : FusionTree S) : ℕ := ((TProd.treeBlockSlice R s.spaces t).getD (0, 0)).1

section
variable {R : FusionRule S} {T : FTensors S K} {cod dom : Side S} {lc ld : BLeg S} {LS : ℕ → List (S × ℕ)}
  {LF : ℕ → Bool} {c d : List ℕ}

omit [LinearOrder S] [CommRing K] [StarRing K] in
theorem _root_.Cyten.FT.Spec.Labelled.cod_cells (h : Labelled T LS LF c d cod dom) :
    cod.spaces.map (cells T.dim) = c.map fun x => cellsFrom T.dim 0 (LS x) := by
  have := congrArg (List.map (cellsFrom T.dim 0)) h.codSpaces
  rw [List.map_map, List.map_map] at this
  exact this

omit [LinearOrder S] [CommRing K] [StarRing K] in
theorem _root_.Cyten.FT.Spec.Labelled.dom_cells (h : Labelled T LS LF c d cod dom)
    (hd : ∀ a, T.dim (T.dual a) = T.dim a) :
    dom.spaces.map (cells T.dim) = d.map fun x => (cellsFrom T.dim 0 (LS x)).map (dualCell T) := by
  have := congrArg (List.map (cellsFrom T.dim 0)) h.domSpaces
  rw [List.map_map, List.map_map] at this
  refine this.trans ?_
  refine List.map_congr_left fun x _ => ?_
  exact cells_dual hd _ _

/-- A choice of one sector for each leg -/
def Choice (T : FTensors S K) (LS : ℕ → List (S × ℕ)) (c d : List ℕ) (q : ℕ → Cell S) : Prop :=
  ∀ x ∈ c ++ d, q x ∈ cellsFrom T.dim 0 (LS x)

omit [LinearOrder S] [CommRing K] [StarRing K] in
theorem choice_cod (h : Labelled T LS LF c d cod dom) {q : ℕ → Cell S} (hq : Choice T LS c d q) :
    List.Forall₂ (· ∈ ·) (c.map q) (cod.spaces.map (cells T.dim)) := by
  rw [h.cod_cells, List.forall₂_map_left_iff, List.forall₂_map_right_iff, List.forall₂_same]
  exact fun x hx => hq x (List.mem_append_left _ hx)

omit [LinearOrder S] [CommRing K] [StarRing K] in
theorem choice_dom (h : Labelled T LS LF c d cod dom) (hd : ∀ a, T.dim (T.dual a) = T.dim a) {q : ℕ → Cell S}
    (hq : Choice T LS c d q) :
    List.Forall₂ (· ∈ ·) (d.map fun x => dualCell T (q x)) (dom.spaces.map (cells T.dim)) := by
  rw [h.dom_cells hd, List.forall₂_map_left_iff, List.forall₂_map_right_iff, List.forall₂_same]
  exact fun x hx => List.mem_map_of_mem (hq x (List.mem_append_right _ hx))

omit [CommRing K] [StarRing K] in
theorem pair_choice (h : Labelled T LS LF c d cod dom) (hd : ∀ a, T.dim (T.dual a) = T.dim a) (dflt : Cell S)
    (hn : (c ++ d).Nodup) (ch1 ch2 : List (Cell S)) (h1 : List.Forall₂ (· ∈ ·) ch1 (cod.spaces.map (cells T.dim)))
    (h2 : List.Forall₂ (· ∈ ·) ch2 (dom.spaces.map (cells T.dim))) :
    ∃ q, Choice T LS c d q ∧ ch1 = c.map q ∧ ch2 = d.map fun x => dualCell T (q x) := by
  rw [h.cod_cells] at h1
  rw [h.dom_cells hd] at h2
  rw [List.nodup_append] at hn
  obtain ⟨q1, a1, a2⟩ := forall2_fun dflt _ c hn.1 ch1 h1
  obtain ⟨q2, b1, b2⟩ := forall2_fun dflt _ d hn.2.1 ch2 h2
  have hex : ∀ x, ∃ z : Cell S, x ∈ d → z ∈ cellsFrom T.dim 0 (LS x) ∧ dualCell T z = q2 x := by
    intro x
    by_cases hx : x ∈ d
    · obtain ⟨z, hz, he⟩ := List.mem_map.1 (b2 x hx)
      exact ⟨z, fun _ => ⟨hz, he⟩⟩
    · exact ⟨dflt, fun h => absurd h hx⟩
  choose z hz using hex
  refine ⟨fun x => if x ∈ c then q1 x else z x, ?_, ?_, ?_⟩
  · intro x hx
    by_cases hxc : x ∈ c
    · simp only [if_pos hxc]; exact a2 x hxc
    · simp only [if_neg hxc]
      exact (hz x ((List.mem_append.1 hx).resolve_left hxc)).1
  · rw [a1]
    exact List.map_congr_left fun x hx => by simp only [if_pos hx]
  · rw [b1]
    refine List.map_congr_left fun x hx => ?_
    have : x ∉ c := fun hc => hn.2.2 x hc x hx rfl
    simp only [if_neg this]
    exact (hz x hx).2.symm

/-- Everything about a pair of trees of a tensor -/
structure PairInfo (R : FusionRule S) (T : FTensors S K) (LS : ℕ → List (S × ℕ)) (LF : ℕ → Bool) (c d : List ℕ)
    (cod dom : Side S) (J : FusionTree S × FusionTree S) (q : ℕ → Cell S) : Prop where
  choice : Choice T LS c d q
  good : Good R T (fun x => (q x).sec) LF c d J
  slice1 : TProd.treeBlockSlice R cod.spaces J.1 = some (sl R cod J.1, sl R cod J.1 + (c.map fun x => (q x).mult).prod)
  slice2 : TProd.treeBlockSlice R dom.spaces J.2 = some (sl R dom J.2, sl R dom J.2 + (d.map fun x => (q x).mult).prod)

omit [CommRing K] [StarRing K] in
theorem pair_info (hc : SideOK R cod lc) (hd : SideOK R dom ld) (hR : R.Lawful)
    (hdim : ∀ a, T.dim (T.dual a) = T.dim a) (h : Labelled T LS LF c d cod dom) (hn : (c ++ d).Nodup) {e : S}
    {x y : Placed S} (hx : x ∈ layout R T.dim cod e) (hy : y ∈ layout R T.dim dom e) :
    ∃ q, PairInfo R T LS LF c d cod dom (x.tree, y.tree) q ∧ x.item = itemOf T.dim (c.map q) ∧
      y.item = itemOf T.dim (d.map fun z => dualCell T (q z)) := by
  obtain ⟨ch1, p1, p2, p3, p4, p5, p6, p7⟩ := hc.placed T.dim hx
  obtain ⟨ch2, q1, q2, q3, q4, q5, q6, q7⟩ := hd.placed T.dim hy
  obtain ⟨q, r1, rfl, rfl⟩ := pair_choice h hdim ⟨R.unit, 0, 0⟩ hn ch1 ch2 p1 q1
  have t1 := treeBlockSlice_layout hc hR T.dim hx
  have t2 := treeBlockSlice_layout hd hR T.dim hy
  refine ⟨q, ⟨r1, ⟨p6, q6, p4.trans q4.symm, ?_, ?_, ?_, ?_⟩, ?_, ?_⟩, p2, q2⟩
  · rw [p3, List.map_map]; rfl
  · rw [p5, h.codDual]
  · rw [q3, List.map_map]; rfl
  · rw [q5, h.domDual]
  · simp only [sl, t1, Option.getD_some]
    rw [p7, List.map_map]; rfl
  · simp only [sl, t2, Option.getD_some]
    rw [q7, List.map_map]; rfl

omit [CommRing K] [StarRing K] in
theorem allPairs_info (hc : SideOK R cod lc) (hd : SideOK R dom ld) (hR : R.Lawful)
    (hdim : ∀ a, T.dim (T.dual a) = T.dim a) (h : Labelled T LS LF c d cod dom) (hn : (c ++ d).Nodup) {cs : List S}
    {J : FusionTree S × FusionTree S} (hJ : J ∈ allPairs R T.dim cod dom cs) :
    ∃ q, PairInfo R T LS LF c d cod dom J q := by
  obtain ⟨e, -, hJ⟩ := List.mem_flatMap.1 hJ
  obtain ⟨x, hx, hJ⟩ := List.mem_flatMap.1 hJ
  obtain ⟨y, hy, rfl⟩ := List.mem_map.1 hJ
  obtain ⟨q, hq, -⟩ := pair_info hc hd hR hdim h hn hx hy
  exact ⟨q, hq⟩

omit [CommRing K] [StarRing K] in
theorem allPairs_complete (hc : SideOK R cod lc) (hd : SideOK R dom ld)
    (hdim : ∀ a, T.dim (T.dual a) = T.dim a) (h : Labelled T LS LF c d cod dom) {q : ℕ → Cell S}
    (hq : Choice T LS c d q) {J : FusionTree S × FusionTree S} (hJ : Good R T (fun x => (q x).sec) LF c d J) :
    J.1.coupled ∈ lc.sectors ∧ J.1.coupled ∈ ld.sectors ∧
      ∀ cs, J.1.coupled ∈ cs → J ∈ allPairs R T.dim cod dom cs := by
  obtain ⟨x, hx, ex⟩ := layout_complete hc T.dim J.1 hJ.left (by rw [hJ.leftD, h.codDual]) _ (choice_cod h hq)
    (by rw [hJ.leftU, List.map_map]; rfl)
  obtain ⟨y, hy, ey⟩ := layout_complete hd T.dim J.2 hJ.right (by rw [hJ.rightD, h.domDual]) _ (choice_dom h hdim hq)
    (by rw [hJ.rightU, List.map_map]; rfl)
  rw [← hJ.coupled] at hy
  refine ⟨layout_sector hc T.dim hx, layout_sector hd T.dim hy, fun cs hcs => ?_⟩
  refine List.mem_flatMap.2 ⟨_, hcs, List.mem_flatMap.2 ⟨x, hx, List.mem_map.2 ⟨y, hy, ?_⟩⟩⟩
  rw [ex, ey]

theorem allPairs_nodup (hc : SideOK R cod lc) (hd : SideOK R dom ld) (hR : R.Lawful) (dim : S → ℕ) {cs : List S}
    (hcs : cs.Nodup) : (allPairs R dim cod dom cs).Nodup := by
  unfold allPairs
  rw [List.nodup_flatMap]
  refine ⟨fun e _ => ?_, ?_⟩
  · rw [List.nodup_flatMap]
    refine ⟨fun x _ => ?_, ?_⟩
    · have := hd.tree_nodup hR dim e
      have := List.Nodup.map (f := fun t => (x.tree, t)) (fun a b hab => by simpa using hab) this
      rwa [List.map_map] at this
    · have := hc.tree_nodup hR dim e
      rw [List.Nodup, List.pairwise_map] at this
      refine this.imp ?_
      intro x x' hne
      change List.Disjoint _ _
      rw [List.disjoint_left]
      intro J h1 h2
      obtain ⟨y, -, rfl⟩ := List.mem_map.1 h1
      obtain ⟨y', -, he⟩ := List.mem_map.1 h2
      exact hne (congrArg Prod.fst he).symm
  · refine hcs.imp ?_
    intro e e' hne
    change List.Disjoint _ _
    rw [List.disjoint_left]
    intro J h1 h2
    obtain ⟨x, hx, h1⟩ := List.mem_flatMap.1 h1
    obtain ⟨y, hy, rfl⟩ := List.mem_map.1 h1
    obtain ⟨x', hx', h2⟩ := List.mem_flatMap.1 h2
    obtain ⟨y', hy', he⟩ := List.mem_map.1 h2
    obtain ⟨-, -, -, -, g1, -⟩ := hc.placed dim hx
    obtain ⟨-, -, -, -, g2, -⟩ := hc.placed dim hx'
    have := congrArg Prod.fst he
    simp only at this
    rw [this] at g2
    exact hne (g1.symm.trans g2)

/-- The old and the new row of an entry -/
def packL (l : List ℕ) (q : ℕ → Cell S) (m : ℕ → ℕ) : ℕ :=
  packRow (makeStride (l.map fun x => (q x).mult) true) (l.map m)

/-- The dense entries as sums over all pairs of trees -/
theorem dense_allPairs (hc : SideOK R cod lc) (hd : SideOK R dom ld) (hR : R.Lawful)
    (hdim : ∀ a, T.dim (T.dual a) = T.dim a) (h : Labelled T LS LF c d cod dom) (D : FEnts K)
    (hD : FSane lc ld D) {q : ℕ → Cell S} (hq : Choice T LS c d q) (a m idx : ℕ → ℕ)
    (ha : ∀ x ∈ c ++ d, a x < T.dim (q x).sec) (hm : ∀ x ∈ c ++ d, m x < (q x).mult)
    (hi : ∀ x ∈ c ++ d, idx x = (q x).start + (a x * (q x).mult + m x)) :
    toDenseCore R T lc.sectors cod dom D (c.map idx) (d.map idx) =
      ((allPairs R T.dim cod dom lc.sectors).map fun I =>
        if I.1.uncoupled = c.map (fun x => (q x).sec) ∧ I.2.uncoupled = d.map (fun x => T.dual (q x).sec) then
          pairVal T c d a I * blkVal lc D I.1.coupled (sl R cod I.1 + packL c q m) (sl R dom I.2 + packL d q m)
        else 0).sum := by
  have zip_map : ∀ (l : List ℕ) (f g : ℕ → ℕ), (l.map f).zip (l.map g) = l.map fun x => (f x, g x) := by
    intro l f g
    induction l with
    | nil => rfl
    | cons x l ih => simp [ih]
  have zw : ∀ (l : List ℕ) (f : ℕ → Cell S) (g : ℕ → ℕ × ℕ) (F : Cell S → ℕ × ℕ → ℕ),
      List.zipWith F (l.map f) (l.map g) = l.map fun x => F (f x) (g x) := by
    intro l f g F
    induction l with
    | nil => rfl
    | cons x l ih => simp [ih]
  have e1 : c.map idx = placeOf (c.map q) (c.map a) (c.map m) := by
    unfold placeOf
    rw [zip_map, zw]
    exact List.map_congr_left fun x hx => hi x (List.mem_append_left _ hx)
  have e2 : d.map idx = placeOf (d.map fun x => dualCell T (q x)) (d.map a) (d.map m) := by
    unfold placeOf
    rw [zip_map, zw]
    exact List.map_congr_left fun x hx => hi x (List.mem_append_right _ hx)
  have m1 : (c.map q).map Cell.mult = c.map fun x => (q x).mult := by rw [List.map_map]; rfl
  have m2 : (d.map fun x => dualCell T (q x)).map Cell.mult = d.map fun x => (q x).mult := by rw [List.map_map]; rfl
  have s1 : (c.map q).map Cell.sec = c.map fun x => (q x).sec := by rw [List.map_map]; rfl
  have s2 : (d.map fun x => dualCell T (q x)).map Cell.sec = d.map fun x => T.dual (q x).sec := by
    rw [List.map_map]; rfl
  rw [e1, e2, dense_pairs hc hd D hD _ _ (choice_cod h hq) (choice_dom h hdim hq)]
  · rw [m1, m2, s1, s2]
    unfold allPairs
    rw [sum_flatMap]
    refine sum_congr _ fun e _ => ?_
    rw [sum_flatMap]
    refine sum_congr _ fun x hx => ?_
    rw [List.map_map]
    refine sum_congr _ fun y hy => ?_
    obtain ⟨-, -, -, -, g1, -⟩ := hc.placed T.dim hx
    have t1 := treeBlockSlice_layout hc hR T.dim hx
    have t2 := treeBlockSlice_layout hd hR T.dim hy
    simp only [Function.comp_apply, sl, t1, t2, Option.getD_some, g1, pairVal, packL]
  · rw [List.map_map]
    exact inShape_map c _ _ fun x hx => ha x (List.mem_append_left _ hx)
  · rw [m1]
    exact inShape_map c _ _ fun x hx => hm x (List.mem_append_left _ hx)
  · rw [List.map_map]
    refine inShape_map d _ _ fun x hx => ?_
    simp only [Function.comp_apply, dualCell, hdim]
    exact ha x (List.mem_append_right _ hx)
  · rw [m2]
    exact inShape_map d _ _ fun x hx => hm x (List.mem_append_right _ hx)

end

end Cyten.FT
