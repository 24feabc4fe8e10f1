import Verif.Props.AbelianPipe

/-! # The dual of an abelian pipe: C31 -/

namespace Cyten.Props
open Cyten.Tables Cyten.Tools Cyten.Spaces Cyten.Spaces.Spec Cyten.FusionTrees Cyten.Spaces.APipe

set_option linter.unusedSectionVars false

variable {S : Type} [LinearOrder S]

/-- The fusion of single sectors is associative and compatible with duals (true for every abelian
group, see C07). -/
structure AbelianLaws (sym : Sym S) (R : FusionRule S) : Prop where
  assoc : ∀ a b c, fuse2 R (fuse2 R a b) c = fuse2 R a (fuse2 R b c)
  dual_fuse : ∀ a b, sym.dual (fuse2 R a b) = fuse2 R (sym.dual b) (sym.dual a)
  dual_dual : ∀ a, sym.dual (sym.dual a) = a
  dim_one : ∀ a, sym.dim a = 1

theorem multipleFusion_snoc (R : FusionRule S) (l : List S) (x : S) (hl : l ≠ []) :
    multipleFusion R (l ++ [x]) = fuse2 R (multipleFusion R l) x := by
  cases l with
  | nil => exact absurd rfl hl
  | cons a l => simp [multipleFusion, List.foldl_append]

theorem multipleFusion_cons {sym : Sym S} {R : FusionRule S} (h : AbelianLaws sym R) (a : S)
    (l : List S) (hl : l ≠ []) :
    multipleFusion R (a :: l) = fuse2 R a (multipleFusion R l) := by
  induction l using List.reverseRecOn with
  | nil => exact absurd rfl hl
  | append_singleton l x ih =>
    by_cases hl' : l = []
    · subst hl'; simp [multipleFusion]
    · rw [multipleFusion_snoc R l x hl', ← List.cons_append, multipleFusion_snoc R (a :: l) x (by simp),
        ih hl', h.assoc]

private theorem multipleFusion_dual {sym : Sym S} {R : FusionRule S} (h : AbelianLaws sym R)
    (l : List S) (hl : l ≠ []) :
    multipleFusion R (l.map sym.dual).reverse = sym.dual (multipleFusion R l) := by
  induction l with
  | nil => exact absurd rfl hl
  | cons a l ih =>
    by_cases hl' : l = []
    · subst hl'; simp [multipleFusion]
    · rw [List.map_cons, List.reverse_cons, multipleFusion_snoc R _ _ (by simpa using hl'), ih hl',
        multipleFusion_cons h a l hl', h.dual_fuse]

private def rev (e : PipeEntry S) : PipeEntry S := { e with idcs := e.idcs.reverse }
private def revRow (r : PipeRow) : PipeRow := { r with idcs := r.idcs.reverse }

theorem pipeGrid_reverse (shape : List ℕ) (c : Bool) :
    makeGrid shape.reverse (!c) = (makeGrid shape c).map List.reverse := by
  cases c <;> simp [makeGrid, gridF, Function.comp_def]

theorem pipeStride_reverse (shape : List ℕ) (c : Bool) :
    makeStride shape.reverse (!c) = (makeStride shape c).reverse := by
  cases c <;> simp [makeStride]

theorem packRow_reverse (a b : List ℕ) (h : a.length = b.length) :
    packRow a.reverse b.reverse = packRow a b := by
  unfold packRow
  rw [← List.reverse_zipWith h.symm, List.sum_reverse]

private theorem bunch_rev (T : List (PipeEntry S)) :
    bunch (T.map rev) = ((bunch T).1, (bunch T).2.1, (bunch T).2.2.1, (bunch T).2.2.2.map revRow) := by
  have h1 : (T.map rev).map (·.sector) = T.map (·.sector) := by rw [List.map_map]; rfl
  have h2 : (T.map rev).map (·.mult) = T.map (·.mult) := by rw [List.map_map]; rfl
  unfold bunch
  simp only [h1, h2]
  congr 3
  rw [List.map_flatMap]
  apply List.flatMap_congr
  intro rk _
  rw [List.map_filterMap]
  apply List.filterMap_congr
  intro m _
  rw [List.getElem?_map]
  cases T[m]? <;> rfl

/-- `dual_pipe` arguments -/
private def dlegs (legs : List (ESpace S)) : List (ESpace S) := (legs.map ESpace.dual).reverse

private theorem dual_sectors {sym : Sym S} (hdd : ∀ a, sym.dual (sym.dual a) = a) (e : ESpace S) :
    e.dual.sectors sym = (e.sectors sym).map sym.dual := by
  unfold ESpace.sectors ESpace.dual
  cases e.isDual
  · simp
  · have : (sym.dual ∘ sym.dual) = id := by funext x; exact hdd x
    simp [this]

private theorem dual_dim {sym : Sym S} {R : FusionRule S} (h : AbelianLaws sym R) (e : ESpace S) :
    e.dual.dim sym = e.dim sym ∧ e.dual.basisPerm sym = e.basisPerm sym ∧
      e.dual.bounds sym = e.bounds sym := by
  have hn : numStates sym (e.dual.sectors sym) e.dual.mults = numStates sym (e.sectors sym) e.mults := by
    rw [dual_sectors h.dual_dual]
    unfold numStates
    rw [List.zipWith_map_left]
    simp only [h.dim_one]
    rfl
  have hd : e.dual.dim sym = e.dim sym := by unfold ESpace.dim; rw [hn]
  refine ⟨hd, ?_, ?_⟩
  · unfold ESpace.basisPerm
    rw [hd]
    rfl
  · unfold ESpace.bounds
    rw [hn]

private theorem zipWith_dlegs {β : Type} (f g : ESpace S → ℕ → β) (legs : List (ESpace S))
    (hfg : ∀ e i, f e.dual i = g e i) (idcs : List ℕ) (hl : idcs.length = legs.length) :
    List.zipWith f (dlegs legs) idcs.reverse = (List.zipWith g legs idcs).reverse := by
  unfold dlegs
  rw [← List.reverse_zipWith (by simpa using hl.symm), List.zipWith_map_left]
  simp only [hfg]

private theorem entry_rev {sym : Sym S} {R : FusionRule S} (h : AbelianLaws sym R)
    (legs : List (ESpace S)) (hne : legs ≠ []) (d : Bool) (idcs : List ℕ)
    (hlt : List.Forall₂ (· < ·) idcs (numSectors legs)) :
    entry sym R (dlegs legs) (!d) idcs.reverse = rev (entry sym R legs d idcs) := by
  have hl : idcs.length = legs.length := by rw [hlt.length_eq]; simp [numSectors]
  have e1 := zipWith_dlegs (fun (e : ESpace S) i => (e.sectors sym)[i]?)
    (fun (e : ESpace S) i => ((e.sectors sym)[i]?).map sym.dual) legs (by
      intro e i; rw [dual_sectors h.dual_dual, List.getElem?_map]) idcs hl
  have e2 := zipWith_dlegs (fun (e : ESpace S) i => e.mults.getD i 0)
    (fun (e : ESpace S) i => e.mults.getD i 0) legs (fun _ _ => rfl) idcs hl
  have hfuse : multipleFusion R
      (List.zipWith (fun (e : ESpace S) i => (e.sectors sym)[i]?) (dlegs legs) idcs.reverse).reduceOption =
      sym.dual (multipleFusion R
        (List.zipWith (fun (e : ESpace S) i => (e.sectors sym)[i]?) legs idcs).reduceOption) := by
    rw [← multipleFusion_dual h]
    · rw [e1]
      have e3 : List.zipWith (fun (e : ESpace S) i => ((e.sectors sym)[i]?).map sym.dual) legs idcs =
          (List.zipWith (fun (e : ESpace S) i => (e.sectors sym)[i]?) legs idcs).map
            (Option.map sym.dual) := by
        rw [List.map_zipWith]
      rw [e3]
      unfold List.reduceOption
      rw [List.filterMap_reverse, List.filterMap_map, List.map_filterMap]
      rfl
    · intro hnil
      cases legs with
      | nil => exact hne rfl
      | cons e legs =>
        rw [numSectors, List.map_cons] at hlt
        cases hlt with
        | @cons i _ idcs _ hi ht =>
          have hs : i < (e.sectors sym).length := by unfold ESpace.sectors; split <;> simpa using hi
          rw [List.zipWith_cons_cons, List.getElem?_eq_getElem hs] at hnil
          simp [List.reduceOption] at hnil
  unfold entry rev
  simp only [hfuse, e2, List.prod_reverse, h.dual_dual]
  cases d <;> simp

private theorem numSectors_dlegs (legs : List (ESpace S)) :
    numSectors (dlegs legs) = (numSectors legs).reverse := by
  unfold numSectors dlegs
  rw [List.map_reverse, List.map_map]
  rfl

private theorem table_rev {sym : Sym S} {R : FusionRule S} (h : AbelianLaws sym R)
    (legs : List (ESpace S)) (hne : legs ≠ []) (d c : Bool) :
    table sym R (dlegs legs) (!d) (!c) = (table sym R legs d c).map rev := by
  unfold table
  rw [numSectors_dlegs, pipeGrid_reverse, List.map_map]
  have e1 : (makeGrid (numSectors legs) c).map (entry sym R (dlegs legs) (!d) ∘ List.reverse) =
      ((makeGrid (numSectors legs) c).map (entry sym R legs d)).map rev := by
    rw [List.map_map]
    apply List.map_congr_left
    intro idcs hi
    exact entry_rev h legs hne d idcs (((C22_grid_complete _ _).1 _).1 hi)
  rw [e1]
  unfold sortBy
  exact (List.map_insertionSort (r := fun a b : PipeEntry S => a.sector ≤ b.sector)
    (s := fun a b : PipeEntry S => a.sector ≤ b.sector) rev _ (by intro a _ b _; simp [rev])).symm

private theorem legDims_dlegs {sym : Sym S} {R : FusionRule S} (h : AbelianLaws sym R)
    (legs : List (ESpace S)) : legDims sym (dlegs legs) = (legDims sym legs).reverse := by
  unfold legDims dlegs
  rw [List.map_reverse, List.map_map]
  congr 1
  apply List.map_congr_left
  intro e _
  exact (dual_dim h e).1

private theorem tuples_dlegs {sym : Sym S} {R : FusionRule S} (h : AbelianLaws sym R)
    (legs : List (ESpace S)) (c : Bool) (idcs : List ℕ) (hl : idcs.length = legs.length) :
    tuples sym (dlegs legs) (!c) idcs.reverse = (tuples sym legs c idcs).map List.reverse := by
  unfold tuples
  have e1 : multsAt (dlegs legs) idcs.reverse = (multsAt legs idcs).reverse :=
    zipWith_dlegs _ _ legs (fun _ _ => rfl) idcs hl
  have e2 : startsAt sym (dlegs legs) idcs.reverse = (startsAt sym legs idcs).reverse :=
    zipWith_dlegs _ _ legs (fun e i => by rw [(dual_dim h e).2.2]) idcs hl
  rw [e1, e2, pipeGrid_reverse, List.map_map, List.map_map]
  apply List.map_congr_left
  intro row hrow
  simp only [Function.comp_apply]
  rw [List.reverse_zipWith]
  have := (((C22_grid_complete _ _).1 _).1 hrow).length_eq
  rw [this]
  simp [multsAt, startsAt]

/-- **C31**: the dual of a pipe (factors reversed and dualised, other combine style) is the dual
space with the same basis order; its rows are those of the pipe with the sector indices reversed,
and the dual of the dual is the pipe. -/
theorem C31_dual (sym : Sym S) (R : FusionRule S) (hR : AbelianLaws sym R)
    (legs : List (ESpace S)) (hv : ∀ e ∈ legs, ValidSpace sym e) (d c : Bool)
    (p : APipe S) (h : make sym R legs d c = some p) :
    ∃ p', p.dual sym R = some p' ∧ p'.toESpace = p.toESpace.dual ∧
      p'.legs = (p.legs.map ESpace.dual).reverse ∧ p'.cstyle = !p.cstyle ∧
      p'.mapSlices = p.mapSlices ∧
      p'.rows = p.rows.map (fun r => { r with idcs := r.idcs.reverse }) ∧
      p'.dual sym R = some p := by
  obtain ⟨hne, ha, hc, hlegs, hisd, hcs, hdef, hm, hms, hrows, hperm⟩ := make_spec h
  have hdl : (p.legs.map ESpace.dual).reverse = dlegs legs := by rw [hlegs]; rfl
  have hdd : ∀ e : ESpace S, e.dual.dual = e := by intro e; simp [ESpace.dual]
  obtain ⟨p', hp'⟩ : ∃ p', make sym R (dlegs legs) (!d) (!c) = some p' := by
    unfold make
    rw [if_neg (by simp [dlegs, hne]), if_neg (by simp [ha, hc])]
    exact ⟨_, rfl⟩
  have hp := hp'
  obtain ⟨-, -, -, hlegs', hisd', hcs', hdef', hm', hms', hrows', -⟩ := make_spec hp'
  rw [table_rev hR legs hne d c, bunch_rev] at hdef' hm' hms' hrows'
  have hv' : ∀ e ∈ dlegs legs, ValidSpace sym e := by
    intro e he
    obtain ⟨e0, he0, rfl⟩ := List.mem_map.1 (List.mem_reverse.1 he)
    have := hv e0 he0
    exact ⟨this.lengths, this.sorted, this.perm⟩
  have hok : ∀ e ∈ legs, LegOK sym e := fun e he => ⟨(hv e he).lengths, hR.dim_one⟩
  have hok' : ∀ e ∈ dlegs legs, LegOK sym e := fun e he => ⟨(hv' e he).lengths, hR.dim_one⟩
  have hpe : p'.perm = p.perm := by
    rw [perm_eq sym R _ _ _ hok' p' hp', perm_eq sym R _ _ _ hok p h]
    have ho : order sym R (dlegs legs) (!d) (!c) = (order sym R legs d c).map List.reverse := by
      unfold order
      rw [table_rev hR legs hne d c, List.flatMap_map, List.map_flatMap]
      apply List.flatMap_congr
      intro e he
      exact tuples_dlegs hR legs c e.idcs (table_facts sym R legs d c hok |>.1 e he)
    rw [ho, List.map_map, legDims_dlegs hR]
    apply List.map_congr_left
    intro t ht
    have htl : t.length = legs.length := by
      have := ((C22_grid_complete _ _).1 _).1 ((order_perm sym R legs d c hok).mem_iff.1 ht)
      rw [this.length_eq]; simp [legDims]
    simp only [Function.comp_apply]
    rw [pipeStride_reverse, zipWith_dlegs _ (fun (e : ESpace S) (i : ℕ) => (e.basisPerm sym).getD i 0)
      legs (fun e i => by rw [(dual_dim hR e).2.1]) t htl, packRow_reverse]
    rw [APipe.length_makeStride]
    simp [legDims, htl]
  refine ⟨p', ?_, ?_, ?_, ?_, ?_, ?_, ?_⟩
  · unfold APipe.dual
    rw [hdl, hisd, hcs]
    exact hp
  · unfold toESpace ESpace.dual
    simp only
    rw [hdef', hm', hpe, hisd', hdef, hm, hisd]
  · rw [hlegs', hdl]
  · rw [hcs', hcs]
  · rw [hms', hms]
  · rw [hrows', hrows]; rfl
  · unfold APipe.dual
    rw [hlegs', hisd', hcs']
    have : ((dlegs legs).map ESpace.dual).reverse = legs := by
      unfold dlegs
      rw [List.map_reverse, List.reverse_reverse, List.map_map]
      have e1 : (ESpace.dual ∘ ESpace.dual : ESpace S → ESpace S) = id := by funext e; exact hdd e
      rw [e1, List.map_id]
    rw [this, Bool.not_not, Bool.not_not]
    exact h

/-! ### Non-vacuity: a `Z3` symmetry, legs with several sectors, a dual leg and a basis permutation -/

/-- `Z3` as used by spaces -/
def z3Sym : Sym ℕ := ⟨fun _ => 1, fun a => if a ≤ 2 then (3 - a) % 3 else a, true, true⟩
/-- the fusion rules of `Z3` (on labels outside of `0, 1, 2`: the larger one) -/
def z3Fuse (a b : ℕ) : ℕ := if a ≤ 2 ∧ b ≤ 2 then (a + b) % 3 else max a b
/-- the fusion rules of `Z3` -/
def z3Rule : FusionRule ℕ := ⟨0, fun a b => [z3Fuse a b], fun a b c => if z3Fuse a b = c then 1 else 0, true⟩
/-- a leg with three sectors and a permuted basis -/
def z3LegA : ESpace ℕ := ⟨[0, 1, 2], [1, 2, 1], false, some [2, 0, 3, 1]⟩
/-- a dual leg -/
def z3LegB : ESpace ℕ := ⟨[0, 2], [2, 1], true, none⟩

theorem z3_dimOK : DimOK z3Sym := ⟨fun _ => Nat.one_pos, fun _ => rfl, fun _ _ => rfl⟩

theorem z3_laws : AbelianLaws z3Sym z3Rule where
  assoc a b c := by
    simp only [fuse2, z3Rule, List.headD_cons, z3Fuse]
    split_ifs <;> omega
  dual_fuse a b := by
    simp only [fuse2, z3Rule, List.headD_cons, z3Fuse, z3Sym]
    split_ifs <;> omega
  dual_dual a := by
    simp only [z3Sym]
    split_ifs <;> omega
  dim_one _ := rfl

theorem z3_valid : ∀ e ∈ [z3LegA, z3LegB], ValidSpace z3Sym e := by
  intro e he
  simp only [List.mem_cons, List.not_mem_nil, or_false] at he
  rcases he with rfl | rfl
  · exact ⟨rfl, by decide, by intro p hp; cases hp; decide⟩
  · exact ⟨rfl, by decide, by intro p hp; cases hp⟩

example : ((make z3Sym z3Rule [z3LegA, z3LegB] false true).map fun p =>
    (p.defining, p.mults, p.perm, p.mapSlices, p.rows)) =
  some ([0, 1, 2], [3, 5, 4], [6, 7, 5, 8, 0, 1, 9, 10, 2, 11, 3, 4], [0, 2, 4, 6],
    [⟨0, 2, [0, 0], 0⟩, ⟨2, 3, [2, 1], 0⟩, ⟨0, 1, [0, 1], 1⟩, ⟨1, 5, [1, 0], 1⟩, ⟨0, 2, [1, 1], 2⟩,
      ⟨2, 4, [2, 0], 2⟩]) := by decide +kernel

/-- The hypotheses of the theorems of C31 are met by a concrete pipe. -/
theorem C31_nonvacuous : ∃ p, make z3Sym z3Rule [z3LegA, z3LegB] false true = some p ∧
    DimOK z3Sym ∧ AbelianLaws z3Sym z3Rule ∧ (∀ e ∈ [z3LegA, z3LegB], ValidSpace z3Sym e) ∧
    ∀ e ∈ [z3LegA, z3LegB], ∀ m ∈ e.mults, 0 < m :=
  ⟨_, rfl, z3_dimOK, z3_laws, z3_valid, by decide⟩

end Cyten.Props
