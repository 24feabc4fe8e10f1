import Verif.Lemmas.AbelianPipe4
import Verif.Props.TensorProduct2

/-! # Abelian pipes: C31 -/

namespace Cyten.Props
open Cyten.Tables Cyten.Tools Cyten.Spaces Cyten.Spaces.Spec Cyten.FusionTrees Cyten.Spaces.APipe

set_option linter.unusedSectionVars false

variable {S : Type} [LinearOrder S]

/-- The runs of the sorted combinations, with what is known about them. -/
theorem runs_facts (sym : Sym S) (R : FusionRule S) (legs : List (ESpace S)) (d c : Bool) :
    ∃ gs : List (List (PipeEntry S)), gs.flatten = table sym R legs d c ∧
      (∀ g ∈ gs, g ≠ []) ∧ (∀ g ∈ gs, ∀ a ∈ g, ∀ b ∈ g, a.sector = b.sector) ∧
      (gs.Pairwise fun g g' => ∀ a ∈ g, ∀ b ∈ g', a.sector < b.sector) ∧
      (∀ g ∈ gs, (g.map (·.idcs)).Sublist (makeGrid (numSectors legs) c)) ∧
      (bunch (table sym R legs d c)).1 = gs.filterMap (fun g => g.head?.map (·.sector)) ∧
      (bunch (table sym R legs d c)).2.1 = gs.map (fun g => (g.map (·.mult)).sum) ∧
      (bunch (table sym R legs d c)).2.2.2 = (gs.zipIdx.flatMap fun gk => rowsFrom gk.2 0 gk.1) ∧
      (consecutive (bunch (table sym R legs d c)).2.2.1).map
        (fun r => slice (table sym R legs d c) r.1 r.2) = gs := by
  refine ⟨runsOf (·.sector) (table sym R legs d c), runsOf_flatten _ _, runsOf_ne_nil _ _,
    runsOf_key _ _, runsOf_sorted _ _ (sortBy_sorted _ _), ?_, (bunch_eq _).1, (bunch_eq _).2.1,
    (bunch_eq _).2.2, slices_eq_runs _ _⟩
  intro g hg
  have := (run_sublist _ _ g hg).map (·.idcs)
  rw [List.map_map] at this
  have e1 : ((makeGrid (numSectors legs) c).map ((fun e : PipeEntry S => e.idcs) ∘ entry sym R legs d)) =
      makeGrid (numSectors legs) c := by
    conv_rhs => rw [← List.map_id (makeGrid (numSectors legs) c)]
    rfl
  rwa [e1] at this

/-- **C31**: every combination of one sector per leg occurs in exactly one row of the block index
map, and nothing else does. -/
theorem C31_rows_exhaustive (sym : Sym S) (R : FusionRule S) (legs : List (ESpace S)) (d c : Bool)
    (p : APipe S) (h : make sym R legs d c = some p) :
    (p.rows.map (·.idcs)).Nodup ∧
    ∀ idcs, (∃ row ∈ p.rows, row.idcs = idcs) ↔
      List.Forall₂ (fun (i : ℕ) (e : ESpace S) => i < e.defining.length) idcs legs := by
  obtain ⟨-, -, -, -, -, -, -, -, -, hrows, -⟩ := make_spec h
  obtain ⟨gs, hfl, -, -, -, -, -, -, b3, -⟩ := runs_facts sym R legs d c
  have hid : p.rows.map (·.idcs) = (table sym R legs d c).map (·.idcs) := by
    rw [hrows, b3, rows_idcs, hfl]
  have hp := table_idcs sym R legs d c
  constructor
  · rw [hid]
    exact hp.nodup_iff.2 (C22_grid_complete _ _).2.1
  · intro idcs
    have h1 : (∃ row ∈ p.rows, row.idcs = idcs) ↔ idcs ∈ p.rows.map (·.idcs) := by
      rw [List.mem_map]
    rw [h1, hid, hp.mem_iff, (C22_grid_complete _ _).1, numSectors, List.forall₂_map_right_iff]

/-- **C31**: the row of a combination of sectors lies in the sector of the pipe to which they fuse,
its slice has the size of the product of the multiplicities. -/
theorem C31_row_charge (sym : Sym S) (R : FusionRule S) (hinv : ∀ s, sym.dual (sym.dual s) = s)
    (legs : List (ESpace S)) (hv : ∀ e ∈ legs, ValidSpace sym e) (d c : Bool)
    (p : APipe S) (h : make sym R legs d c = some p) (row : PipeRow) (hr : row ∈ p.rows) :
    ∃ cs ms, Picks sym legs row.idcs cs ms ∧
      (p.toESpace.sectors sym)[row.J]? = some (multipleFusion R cs) ∧
      row.stop = row.start + ms.prod := by
  obtain ⟨-, -, -, -, hisd, -, hdef, -, -, hrows, -⟩ := make_spec h
  obtain ⟨gs, hfl, hne, hkey, -, -, b1, -, b3, -⟩ := runs_facts sym R legs d c
  rw [hrows, b3] at hr
  obtain ⟨gk, hgk, hr⟩ := List.mem_flatMap.1 hr
  have hgk' := mem_zipIdx' hgk
  have hJ := rowsFrom_J _ _ _ row hr
  obtain ⟨e, he, hidcs, hstop⟩ := rowsFrom_mem _ _ _ row hr
  have heT : e ∈ table sym R legs d c := by
    rw [← hfl]; exact List.mem_flatten.2 ⟨gk.1, List.mem_of_getElem? hgk', he⟩
  obtain ⟨heq, hlt⟩ := table_entry sym R legs d c e heT
  have hpick := picks_of_lt sym legs (fun x hx => (hv x hx).lengths) e.idcs hlt
  rw [hidcs]
  refine ⟨_, _, hpick, ?_, ?_⟩
  · have hh := (heads_eq gs hne row.J gk.1 (by rw [hJ]; exact hgk')).1
    have hsec : p.defining[row.J]? = some e.sector := by
      rw [hdef, b1, hh]
      have hn := hne gk.1 (List.mem_of_getElem? hgk')
      cases hg : gk.1 with
      | nil => exact absurd hg hn
      | cons a l =>
        rw [hg] at he
        simp only [List.head?_cons, Option.map_some]
        rw [hkey gk.1 (List.mem_of_getElem? hgk') a (by rw [hg]; simp) e (by rw [hg]; exact he)]
    rw [heq] at hsec
    have hsp : p.toESpace.sectors sym = if d then p.defining.map sym.dual else p.defining := by
      unfold ESpace.sectors toESpace
      simp only [hisd]
    rw [hsp]
    cases d with
    | false => simpa [entry] using hsec
    | true =>
      simp only [if_true, List.getElem?_map, hsec, Option.map_some, entry, hinv]
  · rw [hstop]
    have : e.mult = (multsAt legs e.idcs).prod := by rw [heq]; rfl
    rw [this]

/-- **C31**: within each sector of the pipe the slices of its rows follow each other without gap
or overlap, and cover exactly the multiplicity. -/
theorem C31_slices_tile (sym : Sym S) (R : FusionRule S) (legs : List (ESpace S)) (d c : Bool)
    (p : APipe S) (h : make sym R legs d c = some p) (J m : ℕ) (hJ : p.mults[J]? = some m) :
    Tiles 0 ((p.rows.filter fun r => r.J = J).map fun r => (r.start, r.stop)) m := by
  obtain ⟨-, -, -, -, -, -, -, hm, -, hrows, -⟩ := make_spec h
  obtain ⟨gs, -, -, -, -, -, -, b2, b3, -⟩ := runs_facts sym R legs d c
  rw [hm, b2, List.getElem?_map, Option.map_eq_some_iff] at hJ
  obtain ⟨g, hg, rfl⟩ := hJ
  rw [hrows, b3, rows_filter, if_pos (Nat.zero_le _), Nat.sub_zero]
  simp only [hg]
  have := rowsFrom_tiles J 0 g
  rwa [Nat.zero_add] at this

/-- **C31**: the rows are ordered by the sector of the pipe, and within a sector by the order in
which the grid of the sector indices is traversed (last index fastest for C style, first index
fastest for F style); `block_ind_map_slices` delimits the rows of the sectors. -/
theorem C31_row_order (sym : Sym S) (R : FusionRule S) (legs : List (ESpace S)) (d c : Bool)
    (p : APipe S) (h : make sym R legs d c = some p) :
    p.rows.Pairwise (fun a b => a.J ≤ b.J) ∧
    (∀ J, ((p.rows.filter fun r => r.J = J).map (·.idcs)).Sublist
      (makeGrid (legs.map fun e => e.defining.length) c)) ∧
    p.mapSlices.length = p.mults.length + 1 ∧
    ∀ J a b : ℕ, p.mapSlices[J]? = some a → p.mapSlices[J + 1]? = some b →
      slice p.rows a b = p.rows.filter fun r => r.J = J := by
  obtain ⟨hne, -, -, -, -, -, -, hm, hms, hrows, -⟩ := make_spec h
  obtain ⟨gs, hfl, -, -, -, hsub, -, b2, b3, b4⟩ := runs_facts sym R legs d c
  have hnd := (C31_rows_exhaustive sym R legs d c p h).1
  have hfilter : ∀ J, ((p.rows.filter fun r => r.J = J).map (·.idcs)) =
      ((gs[J]?).getD []).map (·.idcs) := by
    intro J
    rw [hrows, b3, rows_filter, if_pos (Nat.zero_le _), Nat.sub_zero]
    cases hg : gs[J]? with
    | none => rfl
    | some g => exact rowsFrom_idcs _ _ _
  refine ⟨?_, ?_, ?_, ?_⟩
  · rw [hrows, b3]; exact rows_sorted gs 0
  · intro J
    rw [hfilter]
    cases hg : gs[J]? with
    | none => simp
    | some g => exact hsub g (List.mem_of_getElem? hg)
  · have h1 := congrArg List.length b4
    rw [List.length_map, ← hms] at h1
    rw [hm, b2, List.length_map, ← h1]
    have hne' : p.mapSlices ≠ [] := by
      rw [hms]; unfold bunch findRowDifferences; simp only; split <;> simp
    unfold consecutive
    rw [List.length_zip, List.length_tail]
    have := List.length_pos_iff.2 hne'
    omega
  · intro J a b ha hb
    have hcons : (consecutive p.mapSlices)[J]? = some (a, b) := by
      unfold consecutive
      rw [List.getElem?_zip_eq_some]
      exact ⟨ha, by rw [List.getElem?_tail]; exact hb⟩
    have hg : gs[J]? = some (slice (table sym R legs d c) a b) := by
      rw [← b4, List.getElem?_map, ← hms, hcons]; rfl
    apply map_injOn (·.idcs) p.rows _ _ hnd
    · intro x hx
      unfold slice at hx
      exact List.mem_of_mem_drop (List.mem_of_mem_take hx)
    · intro x hx
      exact (List.mem_filter.1 hx).1
    · rw [hfilter, hg, ← slice_map, hrows, b3, rows_idcs, hfl, slice_map]
      rfl

private theorem legOK {sym : Sym S} (hd : DimOK sym) (ha : sym.isAbelian = true)
    {legs : List (ESpace S)} (hv : ∀ e ∈ legs, ValidSpace sym e) : ∀ e ∈ legs, LegOK sym e :=
  fun e he => ⟨(hv e he).lengths, hd.abelian ha⟩

/-- The internal multi-indices in the order of the basis of the pipe. -/
def order (sym : Sym S) (R : FusionRule S) (legs : List (ESpace S)) (d c : Bool) :
    List (List ℕ) := (table sym R legs d c).flatMap fun e => tuples sym legs c e.idcs

theorem order_perm (sym : Sym S) (R : FusionRule S) (legs : List (ESpace S)) (d c : Bool)
    (hok : ∀ e ∈ legs, LegOK sym e) :
    (order sym R legs d c).Perm (makeGrid (legDims sym legs) c) := by
  refine List.Perm.trans ?_ (tuples_perm sym legs hok c)
  have h1 := (table_idcs sym R legs d c).flatMap_right fun idcs => tuples sym legs c idcs
  rwa [List.flatMap_map] at h1

theorem table_facts (sym : Sym S) (R : FusionRule S) (legs : List (ESpace S)) (d c : Bool)
    (hok : ∀ e ∈ legs, LegOK sym e) :
    (∀ e ∈ table sym R legs d c, e.idcs.length = legs.length) ∧
    (∀ e ∈ table sym R legs d c, e.mult = (multsAt legs e.idcs).prod) ∧
    ((table sym R legs d c).map (·.mult)).sum = (legDims sym legs).prod := by
  have h2 : ∀ e ∈ table sym R legs d c, e.mult = (multsAt legs e.idcs).prod := by
    intro e he
    rw [(table_entry sym R legs d c e he).1]; rfl
  refine ⟨?_, h2, ?_⟩
  · intro e he
    rw [(table_entry sym R legs d c e he).2.length_eq]; simp [numSectors]
  · have h3 := (order_perm sym R legs d c hok).length_eq
    rw [(C22_grid_complete _ _).2.2, order, List.length_flatMap] at h3
    rw [← h3]
    congr 1
    apply List.map_congr_left
    intro e he
    rw [length_tuples, h2 e he]

theorem perm_eq (sym : Sym S) (R : FusionRule S) (legs : List (ESpace S)) (d c : Bool)
    (hok : ∀ e ∈ legs, LegOK sym e) (p : APipe S) (h : make sym R legs d c = some p) :
    p.perm = (order sym R legs d c).map fun t => packRow (makeStride (legDims sym legs) c)
      (List.zipWith (fun (e : ESpace S) (i : ℕ) => (e.basisPerm sym).getD i 0) legs t) := by
  obtain ⟨-, -, -, -, -, -, -, -, -, -, hperm⟩ := make_spec h
  obtain ⟨h1, h2, h3⟩ := table_facts sym R legs d c hok
  rw [hperm]
  apply calcBasisPerm_eq
  · intro t ht
    exact ((C22_grid_complete _ _).1 _).1 ((order_perm sym R legs d c hok).mem_iff.1 ht)
  · rw [fusionOutcomesPerm_eq sym legs c _ h1 h2 h3, order, List.map_flatMap]

theorem basisPerm_perm_range (sym : Sym S) (hd : DimOK sym) (e : ESpace S) (hv : ValidSpace sym e) :
    (e.basisPerm sym).Perm (List.range (e.dim sym)) := by
  unfold ESpace.basisPerm
  cases h : e.perm with
  | none => exact List.Perm.refl _
  | some p => rw [C25_dim sym hd]; exact hv.perm p h

private theorem map_getD_range (l : List ℕ) :
    (List.range l.length).map (fun i => l.getD i 0) = l := by
  apply List.ext_getElem?
  intro i
  rw [List.getElem?_map]
  by_cases hi : i < l.length
  · rw [List.getElem?_range hi, List.getElem?_eq_getElem hi]
    simp [hi]
  · rw [List.getElem?_eq_none (by simpa using hi), List.getElem?_eq_none (by omega)]; rfl

private theorem grid_basisPerm (sym : Sym S) (hd : DimOK sym) (legs : List (ESpace S))
    (hv : ∀ e ∈ legs, ValidSpace sym e) :
    ((gridC (legDims sym legs)).map fun t =>
      List.zipWith (fun (e : ESpace S) (i : ℕ) => (e.basisPerm sym).getD i 0) legs t).Perm
      (gridC (legDims sym legs)) := by
  induction legs with
  | nil => simp [legDims, gridC]
  | cons e legs ih =>
    have ih' := ih fun x hx => hv x (List.mem_cons_of_mem _ hx)
    have hp := basisPerm_perm_range sym hd e (hv e List.mem_cons_self)
    have hl : (e.basisPerm sym).length = e.dim sym := by simpa using hp.length_eq
    rw [legDims, List.map_cons, gridC, List.map_flatMap]
    have e1 : ((List.range (e.dim sym)).flatMap fun a => ((gridC (legDims sym legs)).map (a :: ·)).map
        fun t => List.zipWith (fun (e : ESpace S) (i : ℕ) => (e.basisPerm sym).getD i 0) (e :: legs) t) =
        (e.basisPerm sym).flatMap fun b => (((gridC (legDims sym legs)).map fun t =>
          List.zipWith (fun (e : ESpace S) (i : ℕ) => (e.basisPerm sym).getD i 0) legs t)).map (b :: ·) := by
      conv_rhs => rw [← map_getD_range (e.basisPerm sym), hl, List.flatMap_map]
      apply List.flatMap_congr
      intro a _
      rw [List.map_map, List.map_map]
      rfl
    refine (List.Perm.of_eq e1).trans ?_
    refine (hp.flatMap_right _).trans ?_
    apply flatMap_perm_congr
    intro a _
    exact ih'.map _

private theorem multsAt_pos {sym : Sym S} (legs : List (ESpace S))
    (hv : ∀ e ∈ legs, ValidSpace sym e) (hpos : ∀ e ∈ legs, ∀ m ∈ e.mults, 0 < m) (idcs : List ℕ)
    (h : List.Forall₂ (· < ·) idcs (numSectors legs)) : 0 < (multsAt legs idcs).prod := by
  induction legs generalizing idcs with
  | nil => cases h; simp [multsAt]
  | cons e legs ih =>
    rw [numSectors, List.map_cons] at h
    cases h with
    | cons hi ht =>
      rename_i i idcs
      rw [multsAt, List.zipWith_cons_cons, List.prod_cons]
      refine Nat.mul_pos ?_ (ih (fun x hx => hv x (List.mem_cons_of_mem _ hx))
        (fun x hx => hpos x (List.mem_cons_of_mem _ hx)) idcs ht)
      have hm : i < e.mults.length := by rw [(hv e List.mem_cons_self).lengths]; exact hi
      rw [List.getD_eq_getElem?_getD, List.getElem?_eq_getElem hm]
      exact hpos e List.mem_cons_self _ (List.getElem_mem hm)

/-- **C31**: the pipe is a valid space with positive multiplicities, its dimension is the product
of the dimensions of the legs, and its basis permutation is a bijection. -/
theorem C31_pipe_space (sym : Sym S) (R : FusionRule S) (hd : DimOK sym) (legs : List (ESpace S))
    (hv : ∀ e ∈ legs, ValidSpace sym e) (hpos : ∀ e ∈ legs, ∀ m ∈ e.mults, 0 < m) (d c : Bool)
    (p : APipe S) (h : make sym R legs d c = some p) :
    ValidSpace sym p.toESpace ∧ (∀ m ∈ p.mults, 0 < m) ∧
    p.toESpace.dim sym = (legs.map (ESpace.dim sym)).prod ∧
    p.perm.Perm (List.range (legs.map (ESpace.dim sym)).prod) := by
  obtain ⟨-, ha, -, -, -, -, hdef, hm, -, -, -⟩ := make_spec h
  obtain ⟨gs, hfl, hne, hkey, hsorted, -, b1, b2, -, -⟩ := runs_facts sym R legs d c
  have hok := legOK hd ha hv
  obtain ⟨hT1, hT2, hT3⟩ := table_facts sym R legs d c hok
  have hlen : p.mults.length = p.defining.length := by
    rw [hm, hdef, b1, b2, List.length_map]
    cases hgs : gs with
    | nil => rfl
    | cons g gs' => rw [← hgs]; exact ((heads_eq gs hne 0 g (by rw [hgs]; rfl)).2).symm
  have hsum : p.mults.sum = (legDims sym legs).prod := by
    rw [hm, b2, ← hT3, ← hfl, List.map_flatten, List.sum_flatten, List.map_map]
    rfl
  have hperm : p.perm.Perm (List.range (legDims sym legs).prod) := by
    rw [perm_eq sym R legs d c hok p h, ← grid_pack_range (legDims sym legs) c]
    have e1 : (fun t => packRow (makeStride (legDims sym legs) c)
        (List.zipWith (fun (e : ESpace S) (i : ℕ) => (e.basisPerm sym).getD i 0) legs t)) =
        packRow (makeStride (legDims sym legs) c) ∘ fun t =>
          List.zipWith (fun (e : ESpace S) (i : ℕ) => (e.basisPerm sym).getD i 0) legs t := rfl
    rw [e1, ← List.map_map]
    apply List.Perm.map
    refine ((order_perm sym R legs d c hok).map _).trans ?_
    refine ((grid_perm _ c true).map _).trans ?_
    exact (grid_basisPerm sym hd legs hv).trans (grid_perm _ true c)
  have hns : numStates sym p.defining p.mults = p.mults := numStates_one sym (hd.abelian ha) _ _ hlen
  have htot : totalDim sym.dim p.defining p.mults = p.mults.sum := by
    have e0 : (numStates sym p.defining p.mults).sum = totalDim sym.dim p.defining p.mults := by
      unfold numStates totalDim
      rw [← List.map_uncurry_zip_eq_zipWith]
      rfl
    rw [← e0, hns]
  refine ⟨⟨hlen, ?_, ?_⟩, ?_, ?_, hperm⟩
  · change p.defining.Pairwise (· < ·)
    rw [hdef, b1, List.pairwise_filterMap]
    refine hsorted.imp ?_
    intro g g' hgg a ha b hb
    obtain ⟨x, hx, rfl⟩ := Option.map_eq_some_iff.1 ha
    obtain ⟨y, hy, rfl⟩ := Option.map_eq_some_iff.1 hb
    exact hgg x (List.mem_of_mem_head? hx) y (List.mem_of_mem_head? hy)
  · intro q hq
    change some p.perm = some q at hq
    cases hq
    change p.perm.Perm (List.range (totalDim sym.dim p.defining p.mults))
    rw [htot, hsum]
    exact hperm
  · intro m hm'
    rw [hm, b2] at hm'
    obtain ⟨g, hg, rfl⟩ := List.mem_map.1 hm'
    have hn := hne g hg
    obtain ⟨a, g', rfl⟩ := List.exists_cons_of_ne_nil hn
    rw [List.map_cons, List.sum_cons]
    have haT : a ∈ table sym R legs d c := by
      rw [← hfl]; exact List.mem_flatten.2 ⟨_, hg, List.mem_cons_self⟩
    have : 0 < a.mult := by
      rw [hT2 a haT]
      have hlt := (table_entry sym R legs d c a haT).2
      exact multsAt_pos legs hv hpos a.idcs hlt
    omega
  · rw [C25_dim sym hd]
    change totalDim sym.dim p.defining p.mults = _
    rw [htot, hsum]
    rfl

private theorem row_position (gs : List (List (PipeEntry S))) (k : ℕ) (row : PipeRow)
    (hr : row ∈ (gs.zipIdx k).flatMap fun gk => rowsFrom gk.2 0 gk.1) :
    ∃ pre e post, gs.flatten = pre ++ e :: post ∧ e.idcs = row.idcs ∧ k ≤ row.J ∧
      (pre.map (·.mult)).sum = ((gs.map fun g => (g.map (·.mult)).sum).take (row.J - k)).sum +
        row.start := by
  have key : ∀ (j : ℕ) (g : List (PipeEntry S)) (acc : ℕ), row ∈ rowsFrom j acc g →
      ∃ pre e post, g = pre ++ e :: post ∧ e.idcs = row.idcs ∧
        acc + (pre.map (·.mult)).sum = row.start := by
    intro j g
    induction g with
    | nil => intro acc hr; cases hr
    | cons e g ih =>
      intro acc hr
      rw [rowsFrom] at hr
      rcases List.mem_cons.1 hr with rfl | hr
      · exact ⟨[], e, g, rfl, rfl, rfl⟩
      · obtain ⟨pre, e', post, rfl, h1, h2⟩ := ih _ hr
        refine ⟨e :: pre, e', post, rfl, h1, ?_⟩
        rw [List.map_cons, List.sum_cons]
        omega
  induction gs generalizing k with
  | nil => cases hr
  | cons g gs ih =>
    rw [List.zipIdx_cons, List.flatMap_cons, List.mem_append] at hr
    rcases hr with hr | hr
    · have hJ := rowsFrom_J _ _ _ row hr
      obtain ⟨pre, e, post, h0, h1, h2⟩ := key k g 0 hr
      refine ⟨pre, e, post ++ gs.flatten, ?_, h1, by omega, ?_⟩
      · rw [List.flatten_cons, h0]; simp
      · rw [show row.J - k = 0 by omega, List.take_zero, List.sum_nil]; omega
    · have hle : k + 1 ≤ row.J := by
        obtain ⟨gk, hgk, hb⟩ := List.mem_flatMap.1 hr
        rw [rowsFrom_J _ _ _ row hb]
        exact List.le_snd_of_mem_zipIdx hgk
      obtain ⟨pre, e, post, h0, h1, -, h2⟩ := ih (k + 1) hr
      refine ⟨g ++ pre, e, post, ?_, h1, by omega, ?_⟩
      · rw [List.flatten_cons, h0]; simp
      · rw [List.map_append, List.sum_append, h2, show row.J - k = (row.J - (k + 1)) + 1 by omega,
          List.map_cons, List.take_succ_cons, List.sum_cons]
        omega

private theorem locates_of (sym : Sym S) (hd : DimOK sym) (legs : List (ESpace S))
    (hv : ∀ e ∈ legs, ValidSpace sym e) (hok : ∀ e ∈ legs, LegOK sym e) (idcs : List ℕ)
    (cs : List S) (ms : List ℕ) (hp : Picks sym legs idcs cs ms) (r : List ℕ)
    (hr : List.Forall₂ (· < ·) r ms) :
    Locates sym legs idcs r
      (List.zipWith (fun (e : ESpace S) (i : ℕ) => (e.basisPerm sym).getD i 0) legs
        (List.zipWith (· + ·) r (startsAt sym legs idcs))) := by
  induction hp generalizing r with
  | nil => cases hr; exact Locates.nil
  | @cons e legs i idcs s cs m ms hs hm hp ih =>
    cases hr with
    | @cons x _ r _ hx hr =>
      have hb : (e.bounds sym)[i]? = some ((e.mults.take i).sum) := by
        have hi : i < e.mults.length := (List.getElem?_eq_some_iff.1 hm).1
        have h1 := sliceBoundaries_getD e.mults i hi.le
        have hl : (sliceBoundaries 0 e.mults).length = e.mults.length + 1 := length_sliceBoundaries _ _
        rw [(hok e List.mem_cons_self).bounds, List.getElem?_eq_getElem (by omega)]
        rw [List.getD_eq_getElem?_getD, List.getElem?_eq_getElem (by omega)] at h1
        simpa using h1
      rw [startsAt, List.zipWith_cons_cons, List.zipWith_cons_cons, List.zipWith_cons_cons]
      refine Locates.cons hb ?_ (ih (fun y hy => hv y (List.mem_cons_of_mem _ hy))
        (fun y hy => hok y (List.mem_cons_of_mem _ hy)) r hr)
      have h2 : (e.mults.take i).sum + x < (e.basisPerm sym).length := by
        have h3 := (basisPerm_perm_range sym hd e (hv e List.mem_cons_self)).length_eq
        rw [List.length_range, (hok e List.mem_cons_self).dim] at h3
        rw [h3]
        obtain ⟨hi, hi'⟩ := List.getElem?_eq_some_iff.1 hm
        have h4 := take_sum_mono e.mults (i + 1) e.mults.length hi
        rw [List.take_length, List.take_succ_eq_append_getElem hi, List.sum_append, List.sum_singleton,
          hi'] at h4
        omega
      rw [List.getD_eq_getElem?_getD (l := e.bounds sym), hb, Option.getD_some, Nat.add_comm x,
        List.getD_eq_getElem?_getD, List.getElem?_eq_getElem h2]
      rfl

/-- **C31**: where the states of the legs end up: the slice of the row of a combination of sectors
runs over the states of these sectors, in C or F order. -/
theorem C31_fused_basis (sym : Sym S) (R : FusionRule S) (hd : DimOK sym)
    (legs : List (ESpace S)) (hv : ∀ e ∈ legs, ValidSpace sym e) (d c : Bool)
    (p : APipe S) (h : make sym R legs d c = some p) (row : PipeRow) (hr : row ∈ p.rows)
    (cs : List S) (ms : List ℕ) (hp : Picks sym legs row.idcs cs ms) (k : ℕ) (r : List ℕ)
    (hk : (makeGrid ms c)[k]? = some r) :
    ∃ q b, Locates sym legs row.idcs r q ∧ (p.toESpace.bounds sym)[row.J]? = some b ∧
      p.perm[b + row.start + k]? =
        some (packRow (makeStride (legs.map (ESpace.dim sym)) c) q) := by
  obtain ⟨-, ha, -, -, hisd, -, hdef, hm, -, hrows, -⟩ := make_spec h
  obtain ⟨gs, hfl, hne, hkey, -, -, b1, b2, b3, -⟩ := runs_facts sym R legs d c
  have hok := legOK hd ha hv
  obtain ⟨hT1, hT2, hT3⟩ := table_facts sym R legs d c hok
  have hr' := hr
  rw [hrows, b3] at hr'
  obtain ⟨pre, e, post, h1, h2, -, h3⟩ := row_position gs 0 row hr'
  have hrg : List.Forall₂ (· < ·) r ms := ((C22_grid_complete _ _).1 _).1 (List.mem_of_getElem? hk)
  refine ⟨_, (p.mults.take row.J).sum, locates_of sym hd legs hv hok row.idcs cs ms hp r hrg, ?_, ?_⟩
  · have hlen : p.mults.length = p.defining.length := by
      rw [hm, hdef, b1, b2, List.length_map]
      cases hgs : gs with
      | nil => rfl
      | cons g gs' => rw [← hgs]; exact ((heads_eq gs hne 0 g (by rw [hgs]; rfl)).2).symm
    have hlo : LegOK sym p.toESpace := ⟨hlen, hd.abelian ha⟩
    have hJ : row.J < p.mults.length := by
      obtain ⟨gk, hgk, hb⟩ := List.mem_flatMap.1 hr'
      rw [rowsFrom_J _ _ _ row hb, hm, b2, List.length_map]
      exact (List.getElem?_eq_some_iff.1 (mem_zipIdx' hgk)).1
    rw [hlo.bounds]
    change (sliceBoundaries 0 p.mults)[row.J]? = _
    have h1 := sliceBoundaries_getD p.mults row.J hJ.le
    have hl : (sliceBoundaries 0 p.mults).length = p.mults.length + 1 := length_sliceBoundaries _ _
    rw [List.getElem?_eq_getElem (by omega)]
    rw [List.getD_eq_getElem?_getD, List.getElem?_eq_getElem (by omega)] at h1
    simpa using h1
  · have hms : ms = multsAt legs row.idcs := by
      have he : e ∈ table sym R legs d c := by rw [← hfl, h1]; simp
      have hlt := (table_entry sym R legs d c e he).2
      rw [h2] at hlt
      exact (picks_det hp (picks_of_lt sym legs (fun x hx => (hv x hx).lengths) _ hlt)).2
    have htup : (tuples sym legs c row.idcs)[k]? =
        some (List.zipWith (· + ·) r (startsAt sym legs row.idcs)) := by
      unfold tuples
      rw [← hms, List.getElem?_map, hk]
      rfl
    rw [perm_eq sym R legs d c hok p h, List.getElem?_map]
    have hpos : (order sym R legs d c)[(p.mults.take row.J).sum + row.start + k]? =
        some (List.zipWith (· + ·) r (startsAt sym legs row.idcs)) := by
      unfold order
      rw [← hfl, h1, List.flatMap_append, List.flatMap_cons]
      have hlen : (pre.flatMap fun e => tuples sym legs c e.idcs).length =
          (p.mults.take row.J).sum + row.start := by
        rw [List.length_flatMap, hm, b2]
        rw [Nat.sub_zero] at h3
        rw [← h3]
        congr 1
        apply List.map_congr_left
        intro x hx
        rw [length_tuples, ← hT2 x (by rw [← hfl, h1]; simp [hx])]
      rw [List.getElem?_append_right (by omega), hlen, show (p.mults.take row.J).sum + row.start + k -
        ((p.mults.take row.J).sum + row.start) = k by omega, h2, List.getElem?_append_left, htup]
      exact (List.getElem?_eq_some_iff.1 htup).1
    rw [hpos]
    rfl

private theorem states_at (dim : S → ℕ) (h1 : ∀ s, dim s = 1) (sectors : List S) (mults : List ℕ)
    (J x m : ℕ) (s : S) (hs : sectors[J]? = some s) (hm : mults[J]? = some m) (hx : x < m) :
    (states dim sectors mults)[(mults.take J).sum + x]? = some (s, 0) := by
  have hblock : ∀ s m, block dim s m = List.replicate m (s, 0) := by
    intro s m
    simp [block, h1]
  induction sectors generalizing mults J with
  | nil => simp at hs
  | cons t sectors ih =>
    cases mults with
    | nil => simp at hm
    | cons m0 mults =>
      unfold states
      rw [List.zip_cons_cons, List.flatMap_cons, hblock]
      cases J with
      | zero =>
        simp only [List.getElem?_cons_zero, Option.some.injEq] at hs hm
        subst hs; subst hm
        rw [List.take_zero, List.sum_nil, Nat.zero_add, List.getElem?_append_left (by simpa using hx)]
        simp [hx]
      | succ J =>
        simp only [List.getElem?_cons_succ] at hs hm
        rw [List.take_succ_cons, List.sum_cons, List.getElem?_append_right (by simp; omega),
          List.length_replicate, show m0 + (mults.take J).sum + x - m0 = (mults.take J).sum + x by omega]
        exact ih mults J hs hm

private theorem sectors_of_basis_at (sym : Sym S) (hd : DimOK sym) (ha : sym.isAbelian = true)
    (hc : sym.canDrop = true) (e : ESpace S) (hv : ValidSpace sym e) (i x j m b : ℕ) (s : S)
    (hs : (e.sectors sym)[i]? = some s) (hm : e.mults[i]? = some m) (hx : x < m)
    (hb : (e.bounds sym)[i]? = some b) (hj : (e.basisPerm sym)[b + x]? = some j) :
    ∃ L, e.sectorsOfBasis sym = some L ∧ L.length = e.dim sym ∧ L[j]? = some s := by
  obtain ⟨L, hL, hlen, hall⟩ := (C25_sectors_of_basis sym hd e hv).2 hc
  refine ⟨L, hL, hlen, ?_⟩
  have hok : LegOK sym e := ⟨hv.lengths, hd.abelian ha⟩
  have hb' : b = (e.mults.take i).sum := by
    have hi : i < e.mults.length := (List.getElem?_eq_some_iff.1 hm).1
    have h1 := sliceBoundaries_getD e.mults i hi.le
    rw [hok.bounds] at hb
    rw [List.getD_eq_getElem?_getD, hb] at h1
    exact h1
  refine hall j (s, 0) ?_
  unfold publicStates
  rw [List.mem_iff_getElem?]
  refine ⟨b + x, ?_⟩
  rw [List.getElem?_zip_eq_some]
  refine ⟨hj, ?_⟩
  rw [hb']
  exact states_at _ (hd.abelian ha) _ _ i x m s hs hm hx

private theorem tiles_mem {a b : ℕ} {l : List (ℕ × ℕ)} (h : Tiles a l b) (x : ℕ × ℕ) (hx : x ∈ l) :
    x.2 ≤ b := by
  induction l generalizing a with
  | nil => cases hx
  | cons y l ih =>
    obtain ⟨-, -, h3⟩ := h
    rcases List.mem_cons.1 hx with rfl | hx
    · exact tiles_le h3
    · exact ih h3 hx

private theorem basisCharges_of (sym : Sym S) (hd : DimOK sym) (ha : sym.isAbelian = true)
    (hc : sym.canDrop = true) (legs : List (ESpace S)) (hv : ∀ e ∈ legs, ValidSpace sym e)
    (idcs : List ℕ) (cs : List S) (ms : List ℕ) (hp : Picks sym legs idcs cs ms) (r q : List ℕ)
    (hr : List.Forall₂ (· < ·) r ms) (hl : Locates sym legs idcs r q) :
    BasisCharges sym legs q cs := by
  induction hp generalizing r q with
  | nil => cases hl; exact BasisCharges.nil
  | @cons e legs i idcs s cs m ms hs hm hp ih =>
    cases hr with
    | cons hx hr =>
      cases hl with
      | cons hb hj hl =>
        obtain ⟨L, hL, -, hLj⟩ := sectors_of_basis_at sym hd ha hc e (hv e List.mem_cons_self)
          _ _ _ _ _ s hs hm hx hb hj
        exact BasisCharges.cons hL hLj (ih (fun y hy => hv y (List.mem_cons_of_mem _ hy)) _ _ hr hl)

private theorem basisCharges_det {sym : Sym S} {legs : List (ESpace S)} {q : List ℕ} {cs cs' : List S}
    (h : BasisCharges sym legs q cs) (h' : BasisCharges sym legs q cs') : cs = cs' := by
  induction h generalizing cs' with
  | nil => cases h'; rfl
  | cons hL hs _ ih =>
    cases h' with
    | cons hL' hs' ht' =>
      rw [hL] at hL'; cases hL'
      rw [hs] at hs'; cases hs'
      rw [ih ht']

/-- **C31**: the state of the pipe that the basis of the pipe lists at the flat index of the
multi-index `q` has the charge to which the charges of the states `q[n]` of the legs fuse. -/
theorem C31_charges (sym : Sym S) (R : FusionRule S) (hd : DimOK sym)
    (hinv : ∀ s, sym.dual (sym.dual s) = s) (legs : List (ESpace S))
    (hv : ∀ e ∈ legs, ValidSpace sym e) (hpos : ∀ e ∈ legs, ∀ m ∈ e.mults, 0 < m) (d c : Bool)
    (p : APipe S) (h : make sym R legs d c = some p) :
    ∃ L, p.toESpace.sectorsOfBasis sym = some L ∧ L.length = (legs.map (ESpace.dim sym)).prod ∧
      ∀ q, List.Forall₂ (· < ·) q (legs.map (ESpace.dim sym)) →
        ∃ cs, BasisCharges sym legs q cs ∧
          L[packRow (makeStride (legs.map (ESpace.dim sym)) c) q]? = some (multipleFusion R cs) := by
  obtain ⟨-, ha, hcd, -, -, -, -, hm, -, hrows, -⟩ := make_spec h
  obtain ⟨hvp, -, hdim, -⟩ := C31_pipe_space sym R hd legs hv hpos d c p h
  have hok := legOK hd ha hv
  obtain ⟨L, hL, hlen, -⟩ := (C25_sectors_of_basis sym hd _ hvp).2 hcd
  refine ⟨L, hL, hlen.trans hdim, ?_⟩
  intro q hq
  have hqm : q ∈ gridC (legDims sym legs) := ((C22_grid_complete _ true).1 q).2 hq
  obtain ⟨t, ht, htq⟩ := List.mem_map.1 ((grid_basisPerm sym hd legs hv).mem_iff.2 hqm)
  have hto : t ∈ order sym R legs d c :=
    (order_perm sym R legs d c hok).mem_iff.2 ((grid_perm _ true c).mem_iff.1 ht)
  obtain ⟨e, he, hte⟩ := List.mem_flatMap.1 hto
  obtain ⟨r, hr, hrt⟩ := List.mem_map.1 hte
  obtain ⟨k, hk⟩ := List.mem_iff_getElem?.1 hr
  have hrl : List.Forall₂ (· < ·) r (multsAt legs e.idcs) := ((C22_grid_complete _ _).1 r).1 hr
  have hlt := (table_entry sym R legs d c e he).2
  have hpick := picks_of_lt sym legs (fun x hx => (hv x hx).lengths) e.idcs hlt
  obtain ⟨row, hrow, hidcs⟩ := ((C31_rows_exhaustive sym R legs d c p h).2 e.idcs).2 (by
    rw [numSectors, List.forall₂_map_right_iff] at hlt; exact hlt)
  obtain ⟨cs, ms, hpk, hsec, hstop⟩ := C31_row_charge sym R hinv legs hv d c p h row hrow
  rw [← hidcs] at hpick hrl
  obtain ⟨hcs, hms⟩ := picks_det hpk hpick
  rw [← hms] at hrl
  rw [← hidcs, ← hms] at hk
  obtain ⟨q', b, hloc, hb, hperm⟩ := C31_fused_basis sym R hd legs hv d c p h row hrow cs ms hpk k r hk
  have hloc' := locates_of sym hd legs hv hok row.idcs cs ms hpk r hrl
  have hqq : q' = q := by
    have hdet : ∀ (legs : List (ESpace S)) (idcs r q q' : List ℕ), Locates sym legs idcs r q →
        Locates sym legs idcs r q' → q = q' := by
      intro legs idcs r q q' h1
      induction h1 generalizing q' with
      | nil => intro h2; cases h2; rfl
      | cons hb hj _ ih =>
        intro h2
        cases h2 with
        | cons hb' hj' h2 =>
          rw [hb] at hb'; cases hb'
          rw [hj] at hj'; cases hj'
          rw [ih _ h2]
    rw [hdet _ _ _ _ _ hloc hloc', hidcs, hrt, htq]
  subst hqq
  refine ⟨cs, basisCharges_of sym hd ha hcd legs hv row.idcs cs ms hpk r q' hrl hloc, ?_⟩
  have hJl : row.J < p.mults.length := by
    have h1 := (List.getElem?_eq_some_iff.1 hsec).1
    have h2 : (p.toESpace.sectors sym).length = p.defining.length := by
      unfold ESpace.sectors toESpace; simp only; split <;> simp
    have h3 : p.mults.length = p.defining.length := hvp.lengths
    omega
  have hJm : p.mults[row.J]? = some p.mults[row.J] := List.getElem?_eq_getElem hJl
  have htile := C31_slices_tile sym R legs d c p h row.J _ hJm
  have hst := tiles_mem htile (row.start, row.stop)
    (List.mem_map.2 ⟨row, List.mem_filter.2 ⟨hrow, by simp⟩, rfl⟩)
  have hkl : k < ms.prod := by
    rw [← (C22_grid_complete ms c).2.2]
    exact (List.getElem?_eq_some_iff.1 hk).1
  obtain ⟨L', hL', -, hat⟩ := sectors_of_basis_at sym hd ha hcd p.toESpace hvp row.J (row.start + k)
    (packRow (makeStride (legs.map (ESpace.dim sym)) c) q') p.mults[row.J] b _ hsec hJm
    (by simp only at hst; omega) hb (by
      have : p.toESpace.basisPerm sym = p.perm := rfl
      rw [this, ← Nat.add_assoc]; exact hperm)
  rw [hL] at hL'; cases hL'
  exact hat

end Cyten.Props
