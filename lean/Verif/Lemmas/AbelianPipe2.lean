import Verif.Lemmas.AbelianPipe

/-! # Lemmas on `AbelianLegPipe`: the basis permutation -/

namespace Cyten.Spaces
open Cyten.Tables Cyten.Tools Cyten.FusionTrees Cyten.Props

set_option linter.unusedSectionVars false

variable {S : Type} [LinearOrder S]

namespace APipe

/-- Writing consecutive positions. -/
theorem foldl_set_range (vals pre suf : List ℕ) (h : suf.length = vals.length) :
    ((List.range' pre.length vals.length).zip vals).foldl (fun p w => p.set w.1 w.2) (pre ++ suf) =
      pre ++ vals := by
  induction vals generalizing pre suf with
  | nil => simp at h; simp [h]
  | cons v vals ih =>
    cases suf with
    | nil => simp at h
    | cons x suf =>
      rw [List.length_cons, List.range'_succ, List.zip_cons_cons, List.foldl_cons]
      simp only
      rw [List.set_append_right _ _ (le_refl _), Nat.sub_self, List.set_cons_zero]
      have := ih (pre ++ [v]) suf (by simpa using h)
      simp only [List.length_append, List.length_cons, List.length_nil, Nat.zero_add] at this
      rw [show pre ++ v :: suf = pre ++ [v] ++ suf by simp, this]
      simp

theorem sum_range_mul (a b : List ℕ) (n : ℕ) (ha : a.length = n) (hb : b.length = n) :
    ((List.range n).map fun i => a.getD i 0 * b.getD i 0).sum = (List.zipWith (· * ·) a b).sum := by
  subst ha
  congr 1
  apply List.ext_getElem
  · simp [hb]
  · intro i h1 h2
    simp only [List.length_map, List.length_range] at h1
    simp [List.getElem?_eq_getElem h1, List.getElem?_eq_getElem (show i < b.length by omega)]

theorem length_makeStride (shape : List ℕ) (cstyle : Bool) :
    (makeStride shape cstyle).length = shape.length := by
  have key : ∀ (l : List ℕ) (c : ℕ), (strideLoop c l).length = l.length := by
    intro l
    induction l with
    | nil => intro c; rfl
    | cons a l ih => intro c; simp [strideLoop, ih]
  unfold makeStride
  split <;> simp [key]

/-- The multiplicities of the sectors with given indices. -/
def multsAt (legs : List (ESpace S)) (idcs : List ℕ) : List ℕ :=
  List.zipWith (fun (e : ESpace S) (i : ℕ) => e.mults.getD i 0) legs idcs

/-- The starts of the sectors with given indices. -/
def startsAt (sym : Sym S) (legs : List (ESpace S)) (idcs : List ℕ) : List ℕ :=
  List.zipWith (fun (e : ESpace S) (i : ℕ) => (e.bounds sym).getD i 0) legs idcs

/-- The internal multi-indices of the legs in the sectors with given indices. -/
def tuples (sym : Sym S) (legs : List (ESpace S)) (cstyle : Bool) (idcs : List ℕ) :
    List (List ℕ) :=
  (makeGrid (multsAt legs idcs) cstyle).map fun row => List.zipWith (· + ·) row (startsAt sym legs idcs)

theorem length_tuples (sym : Sym S) (legs : List (ESpace S)) (cstyle : Bool) (idcs : List ℕ) :
    (tuples sym legs cstyle idcs).length = (multsAt legs idcs).prod := by
  unfold tuples
  rw [List.length_map, (C22_grid_complete _ _).2.2]

theorem rowWrites_eq (sym : Sym S) (legs : List (ESpace S)) (cstyle : Bool) (ss : List ℕ)
    (row : PipeRow) (hl : row.idcs.length = legs.length) :
    rowWrites sym legs cstyle ss row =
      (List.range' (row.start + ss.getD row.J 0) (multsAt legs row.idcs).prod).zip
        ((tuples sym legs cstyle row.idcs).map (packRow (makeStride (legDims sym legs) cstyle))) := by
  have hm : (multsAt legs row.idcs).length = legs.length := by simp [multsAt, hl]
  have hs : (startsAt sym legs row.idcs).length = legs.length := by simp [startsAt, hl]
  have hd : (makeStride (legDims sym legs) cstyle).length = legs.length := by
    rw [length_makeStride]; simp [legDims]
  have h2 : ((tuples sym legs cstyle row.idcs).map (packRow (makeStride (legDims sym legs) cstyle))) =
      (List.range (multsAt legs row.idcs).prod).map fun k =>
        ((List.range legs.length).map fun n =>
          (gridEntry k (makeStride (multsAt legs row.idcs) cstyle) (multsAt legs row.idcs) n +
            (startsAt sym legs row.idcs).getD n 0) *
            (makeStride (legDims sym legs) cstyle).getD n 0).sum := by
    have hg := map_range_grid (multsAt legs row.idcs) cstyle fun r =>
      packRow (makeStride (legDims sym legs) cstyle) (List.zipWith (· + ·) r (startsAt sym legs row.idcs))
    unfold tuples
    rw [List.map_map]
    refine Eq.trans hg.symm ?_
    apply List.map_congr_left
    intro k _
    unfold packRow
    rw [← sum_range_mul _ _ legs.length (by simp [hm, hs]) hd]
    congr 1
    apply List.map_congr_left
    intro n hn
    have hn' := List.mem_range.1 hn
    congr 1
    rw [List.getD_eq_getElem?_getD, List.getElem?_zipWith, List.getElem?_map,
      List.getElem?_range (by omega), List.getElem?_eq_getElem (by omega)]
    simp [List.getElem?_eq_getElem (show n < (startsAt sym legs row.idcs).length by omega)]
  rw [h2]
  unfold rowWrites
  simp only
  have hr : List.range' (row.start + ss.getD row.J 0) (multsAt legs row.idcs).prod =
      (List.range (multsAt legs row.idcs).prod).map fun k => row.start + ss.getD row.J 0 + k := by
    rw [List.range'_eq_map_range]
  rw [hr, List.zip_map']
  rfl

theorem zip_append_range {α : Type} (a n m : ℕ) (l l' : List α) (h : l.length = n) :
    (List.range' a n).zip l ++ (List.range' (a + n) m).zip l' =
      (List.range' a (n + m)).zip (l ++ l') := by
  rw [← List.range'_append_1, List.zip_append (by simp [h])]

theorem writes_run {α : Type} (J base : ℕ) (f : List ℕ → List α) (w : List ℕ → ℕ)
    (g : List (PipeEntry S)) (acc : ℕ) (hf : ∀ e ∈ g, (f e.idcs).length = e.mult)
    (hw : ∀ e ∈ g, w e.idcs = e.mult) :
    (rowsFrom J acc g).flatMap (fun row => (List.range' (row.start + base) (w row.idcs)).zip
        (f row.idcs)) =
      (List.range' (acc + base) (g.map (·.mult)).sum).zip (g.flatMap fun e => f e.idcs) := by
  induction g generalizing acc with
  | nil => simp [rowsFrom]
  | cons e g ih =>
    rw [rowsFrom, List.flatMap_cons, ih _ (fun x hx => hf x (List.mem_cons_of_mem _ hx))
      (fun x hx => hw x (List.mem_cons_of_mem _ hx)), List.flatMap_cons, List.map_cons,
      List.sum_cons, hw e List.mem_cons_self, show acc + e.mult + base = acc + base + e.mult by ring,
      zip_append_range _ _ _ _ _ (hf e List.mem_cons_self)]

theorem writes_runs {α : Type} (ss : List ℕ) (f : List ℕ → List α) (w : List ℕ → ℕ)
    (gs : List (List (PipeEntry S))) (j acc : ℕ)
    (hss : ∀ i < gs.length, ss.getD (j + i) 0 =
      acc + ((gs.map fun g => (g.map (·.mult)).sum).take i).sum)
    (hf : ∀ g ∈ gs, ∀ e ∈ g, (f e.idcs).length = e.mult)
    (hw : ∀ g ∈ gs, ∀ e ∈ g, w e.idcs = e.mult) :
    ((gs.zipIdx j).flatMap fun gk => (rowsFrom gk.2 0 gk.1)).flatMap (fun row =>
        (List.range' (row.start + ss.getD row.J 0) (w row.idcs)).zip (f row.idcs)) =
      (List.range' acc ((gs.map fun g => (g.map (·.mult)).sum).sum)).zip
        (gs.flatten.flatMap fun e => f e.idcs) := by
  induction gs generalizing j acc with
  | nil => simp
  | cons g gs ih =>
    have h0 := hss 0 (by simp)
    simp at h0
    have hJ : ∀ (l : List (PipeEntry S)) (a : ℕ), ∀ row ∈ rowsFrom j a l, row.J = j := by
      intro l
      induction l with
      | nil => intro a row hr; cases hr
      | cons e l ih =>
        intro a row hr
        rw [rowsFrom] at hr
        rcases List.mem_cons.1 hr with rfl | hr
        · rfl
        · exact ih _ row hr
    rw [List.zipIdx_cons, List.flatMap_cons, List.flatMap_append, ih (j + 1)
      (acc + (g.map (·.mult)).sum) (by
        intro i hi
        have := hss (i + 1) (by simpa using hi)
        rw [show j + 1 + i = j + (i + 1) by ring, this]
        simp [Nat.add_assoc])
      (fun g' h' => hf g' (List.mem_cons_of_mem _ h'))
      (fun g' h' => hw g' (List.mem_cons_of_mem _ h'))]
    have e1 : (rowsFrom j 0 g).flatMap (fun row =>
        (List.range' (row.start + ss.getD row.J 0) (w row.idcs)).zip (f row.idcs)) =
        (rowsFrom j 0 g).flatMap (fun row =>
          (List.range' (row.start + acc) (w row.idcs)).zip (f row.idcs)) := by
      apply List.flatMap_congr
      intro row hr
      rw [hJ g 0 row hr, List.getD_eq_getElem?_getD, h0]
    rw [e1, writes_run j acc f w g 0 (hf g List.mem_cons_self) (hw g List.mem_cons_self),
      Nat.zero_add, List.flatten_cons, List.flatMap_append, List.map_cons, List.sum_cons,
      zip_append_range]
    rw [List.length_flatMap]
    congr 1
    apply List.map_congr_left
    exact fun e he => hf g List.mem_cons_self e he

/-- The fusion permutation lists, for the sorted entries, the flat indices of their tuples. -/
theorem fusionOutcomesPerm_eq (sym : Sym S) (legs : List (ESpace S)) (cstyle : Bool)
    (T : List (PipeEntry S)) (hl : ∀ e ∈ T, e.idcs.length = legs.length)
    (hm : ∀ e ∈ T, e.mult = (multsAt legs e.idcs).prod)
    (hdim : (T.map (·.mult)).sum = (legDims sym legs).prod) :
    fusionOutcomesPerm sym legs cstyle (bunch T).2.1 (bunch T).2.2.2 =
      T.flatMap fun e => (tuples sym legs cstyle e.idcs).map
        (packRow (makeStride (legDims sym legs) cstyle)) := by
  obtain ⟨_, b2, b3⟩ := bunch_eq T
  set gs := runsOf (fun e : PipeEntry S => e.sector) T with hgs
  have hfl : gs.flatten = T := runsOf_flatten _ T
  have hmem : ∀ g ∈ gs, ∀ e ∈ g, e ∈ T := by
    intro g hg e he
    rw [← hfl]
    exact List.mem_flatten.2 ⟨g, hg, he⟩
  have hsum : (gs.map fun g => (g.map (·.mult)).sum).sum = (T.map (·.mult)).sum := by
    conv_rhs => rw [← hfl]
    rw [List.map_flatten, List.sum_flatten, List.map_map]
    rfl
  unfold fusionOutcomesPerm
  rw [b2, b3]
  have hrow : ∀ row ∈ gs.zipIdx.flatMap (fun gk => rowsFrom gk.2 0 gk.1),
      row.idcs.length = legs.length := by
    intro row hr
    obtain ⟨gk, hgk, hr⟩ := List.mem_flatMap.1 hr
    have hg : gk.1 ∈ gs := List.mem_of_getElem? (mem_zipIdx' hgk)
    have key : ∀ (l : List (PipeEntry S)) (a : ℕ), (∀ e ∈ l, e.idcs.length = legs.length) →
        ∀ row ∈ rowsFrom gk.2 a l, row.idcs.length = legs.length := by
      intro l
      induction l with
      | nil => intro a _ row hr; cases hr
      | cons e l ih =>
        intro a hh row hr
        rw [rowsFrom] at hr
        rcases List.mem_cons.1 hr with rfl | hr
        · exact hh e List.mem_cons_self
        · exact ih _ (fun x hx => hh x (List.mem_cons_of_mem _ hx)) row hr
    exact key gk.1 0 (fun e he => hl e (hmem gk.1 hg e he)) row hr
  have e1 : (gs.zipIdx.flatMap fun gk => rowsFrom gk.2 0 gk.1).flatMap
      (rowWrites sym legs cstyle (sliceBoundaries 0 (gs.map fun g => (g.map (·.mult)).sum))) =
      (gs.zipIdx.flatMap fun gk => rowsFrom gk.2 0 gk.1).flatMap (fun row =>
        (List.range' (row.start + (sliceBoundaries 0 (gs.map fun g =>
          (g.map (·.mult)).sum)).getD row.J 0) (multsAt legs row.idcs).prod).zip
          ((tuples sym legs cstyle row.idcs).map (packRow (makeStride (legDims sym legs) cstyle)))) := by
    apply List.flatMap_congr
    intro row hr
    exact rowWrites_eq sym legs cstyle _ row (hrow row hr)
  rw [e1, writes_runs (sliceBoundaries 0 (gs.map fun g => (g.map (·.mult)).sum))
    (fun idcs => (tuples sym legs cstyle idcs).map (packRow (makeStride (legDims sym legs) cstyle)))
    (fun idcs => (multsAt legs idcs).prod) gs 0 0 (by
      intro i hi
      rw [Nat.zero_add, Nat.zero_add]
      exact sliceBoundaries_getD _ _ (by simpa using hi.le))
    (by
      intro g hg e he
      rw [List.length_map, length_tuples, hm e (hmem g hg e he)])
    (by
      intro g hg e he
      exact (hm e (hmem g hg e he)).symm), hfl, hsum]
  set vals := T.flatMap fun e => (tuples sym legs cstyle e.idcs).map
    (packRow (makeStride (legDims sym legs) cstyle)) with hv
  have hlen : vals.length = (T.map (·.mult)).sum := by
    rw [hv, List.length_flatMap]
    congr 1
    apply List.map_congr_left
    intro e he
    rw [List.length_map, length_tuples, hm e he]
  have := foldl_set_range vals [] (List.replicate (legDims sym legs).prod 0)
    (by rw [List.length_replicate, hlen, hdim])
  rw [List.length_nil, List.nil_append, List.nil_append] at this
  rw [← hlen]
  exact this

/-- The basis permutation lists the flat public indices of the tuples of the sorted entries. -/
theorem calcBasisPerm_eq (sym : Sym S) (legs : List (ESpace S)) (cstyle : Bool) (mults : List ℕ)
    (rows : List PipeRow) (ts : List (List ℕ))
    (hts : ∀ t ∈ ts, List.Forall₂ (· < ·) t (legDims sym legs))
    (hf : fusionOutcomesPerm sym legs cstyle mults rows =
      ts.map (packRow (makeStride (legDims sym legs) cstyle))) :
    calcBasisPerm sym legs cstyle mults rows =
      ts.map fun t => packRow (makeStride (legDims sym legs) cstyle)
        (List.zipWith (fun (e : ESpace S) (i : ℕ) => (e.basisPerm sym).getD i 0) legs t) := by
  unfold calcBasisPerm
  simp only
  rw [hf, List.map_map]
  apply List.map_congr_left
  intro t ht
  have hT := hts t ht
  have hlen : t.length = legs.length := by rw [hT.length_eq]; simp [legDims]
  simp only [Function.comp_apply]
  have hg := map_range_grid (legDims sym legs) cstyle fun r =>
    packRow (makeStride (legDims sym legs) cstyle)
      (List.zipWith (fun (e : ESpace S) (i : ℕ) => (e.basisPerm sym).getD i 0) legs r)
  have e1 : ((List.range (legDims sym legs).prod).map fun m =>
      ((List.range legs.length).map fun n =>
        ((legs.map (ESpace.basisPerm sym)).getD n []).getD
          (gridEntry m (makeStride (legDims sym legs) cstyle) (legDims sym legs) n) 0 *
          (makeStride (legDims sym legs) cstyle).getD n 0).sum) =
      (makeGrid (legDims sym legs) cstyle).map fun r =>
        packRow (makeStride (legDims sym legs) cstyle)
          (List.zipWith (fun (e : ESpace S) (i : ℕ) => (e.basisPerm sym).getD i 0) legs r) := by
    rw [← hg]
    apply List.map_congr_left
    intro m _
    unfold packRow
    have hd : (legDims sym legs).length = legs.length := by simp [legDims]
    rw [← sum_range_mul _ _ legs.length (by simp [hd]) (by rw [length_makeStride, hd])]
    congr 1
    apply List.map_congr_left
    intro n hn
    have hn' := List.mem_range.1 hn
    congr 1
    rw [List.getD_eq_getElem?_getD (l := List.zipWith _ _ _), List.getElem?_zipWith,
      List.getElem?_map, List.getElem?_range (by omega), List.getElem?_eq_getElem hn']
    simp [List.getElem?_eq_getElem hn']
  rw [e1, List.getD_eq_getElem?_getD, List.getElem?_map, ((C22_stride_grid _ cstyle).2 t hT).1]
  rfl

end APipe
end Cyten.Spaces
