import Verif.Model.AbelianExp
import Verif.Props.AbelianDecomp
import Verif.Props.AbelianCombine2
import Mathlib.Analysis.Normed.Algebra.MatrixExponential
import Mathlib.Analysis.RCLike.Basic

/-!
# C57: functions of operators, the exponential of a symmetric tensor (abelian backend)

The matrix exponential of a single block (`scipy.linalg.expm`) is an argument; what it has to satisfy
is stated with Mathlib's `NormedSpace.exp`.
-/

namespace Cyten.Abelian.Spec
open Cyten.Abelian Cyten.Spaces Cyten.Tools

variable {S K : Type}

/-- A block as a matrix. -/
def blkMatrix (m : ℕ) (b : Blk K) : Matrix (Fin m) (Fin m) K := fun x y => b.val [x, y]

/-- `f` is the matrix exponential of square blocks. -/
def IsMatrixExp [RCLike K] (f : Blk K → Blk K) : Prop :=
  ∀ (m : ℕ) (b : Blk K), b.shape = [m, m] →
    (f b).shape = [m, m] ∧ blkMatrix m (f b) = NormedSpace.exp (blkMatrix m b)

/-- The multi-indices of the dense arrays with legs `legs`. -/
abbrev DenseIdx (sym : Sym S) (legs : List (ESpace S)) : Type :=
  {idx : List ℕ // idx ∈ gridC (legs.map (ESpace.dim sym))}

/-- The matrix of an operator on `legs`: the dense array `T.to_numpy()`, with the axes of the codomain as
rows and the axes of the domain (in reversed order, as the domain comes in the dense array) as columns. -/
def opMatrix [Zero K] (sym : Sym S) (legs : List (ESpace S)) (T : Ents K) :
    Matrix (DenseIdx sym legs) (DenseIdx sym legs) K :=
  fun i j => (toDense sym (legs ++ legs.reverse) T).val (i.1 ++ j.1.reverse)

end Cyten.Abelian.Spec

namespace Cyten.Props
open Cyten.Abelian Cyten.Abelian.Spec Cyten.Tables Cyten.Tools Cyten.ListSum Cyten.Spaces
open Cyten.FusionTrees

variable {S K : Type} [LinearOrder S] {sym : Sym S} {e : ESpace S}

/-! ## The action on the blocks -/

/-- The stored block of sector `i`, or zeros. -/
def diagBlock [Zero K] (m : List ℕ) (T : Ents K) (i : ℕ) : Blk K :=
  (getBlock T [i, i]).getD (Blk.zeros [m.getD i 0, m.getD i 0])

theorem arangeDiag_sorted (n : ℕ) : StrictlySorted (arangeDiag n) := by
  unfold StrictlySorted arangeDiag
  rw [List.pairwise_map]
  exact List.pairwise_lt_range.imp fun {a b} h => (rowLt_pair _ _ _ _).2 (Or.inl h)

theorem actBlockDiagonal_eq [AddCommMonoid K] (m : List ℕ) (f : Blk K → Blk K) (T : Ents K)
    (hT : Sane [m, m] T) (hr : ∀ p ∈ T, ∃ i, p.1 = [i, i]) :
    actBlockDiagonal m f T = (List.range m.length).map fun i => ([i, i], f (diagBlock m T i)) := by
  have hin : ∀ p ∈ T, p.1 ∈ arangeDiag m.length := by
    intro p hp
    obtain ⟨i, hi⟩ := hr p hp
    have := hT.inRange p hp
    rw [hi] at this ⊢
    cases this with
    | cons h _ => exact List.mem_map.2 ⟨i, List.mem_range.2 h, rfl⟩
  have htb : IsTable 2 (arangeDiag m.length) := by
    intro r hr
    obtain ⟨i, -, rfl⟩ := List.mem_map.1 hr
    rfl
  have hta : IsTable 2 (T.map Prod.fst) := by
    intro r hr
    obtain ⟨p, hp, rfl⟩ := List.mem_map.1 hr
    exact htb _ (hin p hp)
  obtain ⟨-, h2, h3, h4, h5, h6⟩ := C20_iter_common_noncommon 2 (T.map Prod.fst) (arangeDiag m.length)
    hta htb hT.sorted (arangeDiag_sorted _)
  generalize hres : iterCommonNoncommon cmpLexsort (T.map Prod.fst) (arangeDiag m.length) = res at h2 h3 h4 h5 h6
  have hlen : (arangeDiag m.length).length = m.length := by simp [arangeDiag]
  rw [hlen] at h2
  have hget : ∀ j : ℕ, ∀ r, (arangeDiag m.length)[j]? = some r → r = [j, j] := by
    intro j r h
    obtain ⟨h1, h2⟩ := List.getElem?_eq_some_iff.1 h
    rw [← h2]; simp [arangeDiag]
  have hpick : ∀ ij ∈ res, ∃ j, ij.2 = some j ∧ actPick m T ij = some (diagBlock m T j) := by
    rintro ⟨i, j⟩ hij
    cases j with
    | none =>
      exfalso
      cases i with
      | none => exact h6 hij
      | some i =>
        obtain ⟨r, hr1, hr2⟩ := (h4 i).1 hij
        rw [List.getElem?_map] at hr1
        obtain ⟨p, hp, rfl⟩ := Option.map_eq_some_iff.1 hr1
        exact hr2 (hin p (List.mem_of_getElem? hp))
    | some j =>
      refine ⟨j, rfl, ?_⟩
      cases i with
      | none =>
        obtain ⟨r, hr1, hr2⟩ := (h5 j).1 hij
        have := hget j r hr1
        subst this
        unfold diagBlock
        rw [getBlock_none fun p hp he => hr2 (List.mem_map.2 ⟨p, hp, he⟩)]
        rfl
      | some i =>
        obtain ⟨r, hr1, hr2⟩ := (h3 i j).1 hij
        have := hget j r hr2
        subst this
        rw [List.getElem?_map] at hr1
        obtain ⟨p, hp, he⟩ := Option.map_eq_some_iff.1 hr1
        unfold diagBlock
        rw [← he, hT.getBlock_of_mem (List.mem_of_getElem? hp)]
        show (T[i]?).map Prod.snd = _
        rw [hp]
        rfl
  have key : res.filterMap (actPick m T) = (res.filterMap (·.2)).map (diagBlock m T) := by
    clear h2 h3 h4 h5 h6 hres
    induction res with
    | nil => rfl
    | cons ij res ih =>
      obtain ⟨j, hj, hp⟩ := hpick ij List.mem_cons_self
      rw [List.filterMap_cons, List.filterMap_cons, hp, hj]
      simp only [List.map_cons]
      rw [ih fun x hx => hpick x (List.mem_cons_of_mem _ hx)]
  unfold actBlockDiagonal mkData
  rw [if_pos rfl, hres, key, h2, List.map_map]
  unfold arangeDiag
  rw [List.zip_map']
  rfl

theorem diagBlock_shape [AddCommMonoid K] {m : List ℕ} {T : Ents K} (hT : Sane [m, m] T) (i : ℕ) :
    (diagBlock m T i).shape = [m.getD i 0, m.getD i 0] := by
  unfold diagBlock
  by_cases h : ∃ p ∈ T, p.1 = [i, i]
  · obtain ⟨p, hp, he⟩ := h
    rw [← he, hT.getBlock_of_mem hp]
    show p.2.shape = _
    rw [hT.shapes p hp, he]
    rfl
  · push Not at h
    rw [getBlock_none h]
    rfl

theorem diagBlock_val [AddCommMonoid K] {m : List ℕ} {T : Ents K} (hT : Sane [m, m] T) (i : ℕ)
    (pos : List ℕ) : (diagBlock m T i).val pos = dense T [i, i] pos := by
  unfold diagBlock
  by_cases h : ∃ p ∈ T, p.1 = [i, i]
  · obtain ⟨p, hp, he⟩ := h
    rw [← he, hT.getBlock_of_mem hp, hT.dense_of_mem hp]
    rfl
  · push Not at h
    rw [getBlock_none h, dense_of_not_mem h]
    rfl

/-- **C57**: `act_block_diagonal_square_matrix` applies the function to the square block of each sector of
the leg, also to the blocks that are not stored (they are zero); the result is a consistent symmetric
tensor on the same leg. -/
theorem C57_act_block_diagonal [AddCommMonoid K] (R : FusionRule S) (hv : ValidSpace sym e)
    (hinj : Function.Injective sym.dual) (T : Ents K)
    (hT : IsHom R [toBLeg sym e] [toBLeg sym e] T) (f : Blk K → Blk K)
    (hf : ∀ (b : Blk K) (m : ℕ), b.shape = [m, m] → (f b).shape = [m, m]) :
    IsHom R [toBLeg sym e] [toBLeg sym e] (actBlockDiagonal e.mults f T) ∧
    (∀ i < e.mults.length, ∃ B : Blk K, B.shape = [e.mults.getD i 0, e.mults.getD i 0] ∧
      (∀ x y, B.val [x, y] = entry T ([i], [x]) ([i], [y])) ∧
      ∀ x y, entry (actBlockDiagonal e.mults f T) ([i], [x]) ([i], [y]) = (f B).val [x, y]) ∧
    ∀ i j x y, i ≠ j → entry (actBlockDiagonal e.mults f T) ([i], [x]) ([j], [y]) = 0 := by
  have hS : Sane [e.mults, e.mults] T := hT.sane
  have hr := C36_charge_rule R hv hinj T hS hT.charge
  have hV := actBlockDiagonal_eq e.mults f T hS hr
  have hVs : Sane [e.mults, e.mults] (actBlockDiagonal e.mults f T) := by
    rw [hV]
    refine ⟨?_, ?_, ?_⟩
    · intro p hp
      obtain ⟨i, hi, rfl⟩ := List.mem_map.1 hp
      have := List.mem_range.1 hi
      exact .cons this (.cons this .nil)
    · intro p hp
      obtain ⟨i, hi, rfl⟩ := List.mem_map.1 hp
      exact hf _ _ (diagBlock_shape hS i)
    · unfold StrictlySorted
      rw [List.map_map, List.pairwise_map]
      refine List.pairwise_lt_range.imp fun {a b} h => ?_
      exact (rowLt_pair _ _ _ _).2 (Or.inl h)
  refine ⟨⟨hVs, ?_⟩, ?_, ?_⟩
  · intro p hp
    rw [hV] at hp
    obtain ⟨i, hi, rfl⟩ := List.mem_map.1 hp
    rfl
  · intro i hi
    refine ⟨diagBlock e.mults T i, diagBlock_shape hS i, fun x y => diagBlock_val hS i [x, y], ?_⟩
    intro x y
    have hp : ([i, i], f (diagBlock e.mults T i)) ∈ actBlockDiagonal e.mults f T := by
      rw [hV]
      exact List.mem_map.2 ⟨i, List.mem_range.2 hi, rfl⟩
    exact hVs.dense_of_mem hp _
  · intro i j x y hij
    show dense _ [i, j] [x, y] = 0
    rw [dense_of_not_mem]
    intro p hp he
    rw [hV] at hp
    obtain ⟨k, _, rfl⟩ := List.mem_map.1 hp
    simp only [List.cons.injEq, and_true] at he
    exact hij (he.1.symm.trans he.2)

/-! ## The exponential -/

/-- The basis vectors of a leg: a sector and a number within the sector. -/
abbrev LegIdx (m : List ℕ) : Type := Σ i : Fin m.length, Fin (m.getD i 0)

/-- The matrix of an operator on one leg, in the basis of sectors. -/
def secMatrix [AddCommMonoid K] (m : List ℕ) (T : Ents K) : Matrix (LegIdx m) (LegIdx m) K :=
  fun x y => dense T [x.1, y.1] [x.2, y.2]

theorem exp_submatrix [RCLike K] {I J : Type} [Fintype I] [Fintype J] [DecidableEq I] [DecidableEq J]
    (φ : I ≃ J) (A : Matrix J J K) :
    NormedSpace.exp (A.submatrix φ φ) = (NormedSpace.exp A).submatrix φ φ := by
  open scoped Matrix.Norms.Operator in
  have h := NormedSpace.map_exp (Matrix.reindexAlgEquiv K K φ.symm) ?_ A
  · exact h.symm
  · exact (Matrix.reindexAlgEquiv K K φ.symm).toLinearMap.continuous_of_finiteDimensional

set_option backward.isDefEq.respectTransparency false in
theorem pi_exp [RCLike K] {ι : Type} [Finite ι] {n : ι → ℕ}
    (v : ∀ i, Matrix (Fin (n i)) (Fin (n i)) K) (i : ι) :
    NormedSpace.exp (v i) = NormedSpace.exp v i := by
  open scoped Matrix.Norms.Operator in
  exact (Pi.coe_exp v i).symm

theorem secMatrix_act [RCLike K] (R : FusionRule S) (hv : ValidSpace sym e)
    (hinj : Function.Injective sym.dual) (T : Ents K)
    (hT : IsHom R [toBLeg sym e] [toBLeg sym e] T) (f : Blk K → Blk K) (hf : IsMatrixExp f) :
    secMatrix e.mults (actBlockDiagonal e.mults f T) = NormedSpace.exp (secMatrix e.mults T) := by
  have hS : Sane [e.mults, e.mults] T := hT.sane
  have hr := C36_charge_rule R hv hinj T hS hT.charge
  obtain ⟨-, h2, h3⟩ := C57_act_block_diagonal R hv hinj T hT f fun b m hb => (hf m b hb).1
  have hA : secMatrix e.mults T = Matrix.blockDiagonal' fun i : Fin e.mults.length =>
      blkMatrix (e.mults.getD i 0) (diagBlock e.mults T i) := by
    ext ⟨i, x⟩ ⟨j, y⟩
    rw [Matrix.blockDiagonal'_apply]
    by_cases hij : i = j
    · subst hij
      rw [dif_pos rfl]
      exact (diagBlock_val hS i _).symm
    · rw [dif_neg hij]
      show dense T [(i : ℕ), (j : ℕ)] _ = 0
      rw [dense_of_not_mem]
      intro p hp he
      obtain ⟨k, hk⟩ := hr p hp
      rw [hk] at he
      simp only [List.cons.injEq, and_true] at he
      exact hij (Fin.ext (he.1.symm.trans he.2))
  rw [hA, Matrix.exp_blockDiagonal']
  ext ⟨i, x⟩ ⟨j, y⟩
  rw [Matrix.blockDiagonal'_apply]
  by_cases hij : i = j
  · subst hij
    rw [dif_pos rfl]
    obtain ⟨B, hB, hv, he⟩ := h2 i i.2
    have hb : blkMatrix (e.mults.getD i 0) B = blkMatrix (e.mults.getD i 0) (diagBlock e.mults T i) := by
      ext x y
      exact (hv x y).trans (diagBlock_val hS i _).symm
    show dense _ [(i : ℕ), (i : ℕ)] [(x : ℕ), (y : ℕ)] = _
    refine (he x y).trans ?_
    have := (hf _ B hB).2
    rw [hb] at this
    refine (congrFun (congrFun this x) y).trans ?_
    exact congrFun (congrFun (pi_exp (fun i : Fin e.mults.length =>
      blkMatrix (e.mults.getD i 0) (diagBlock e.mults T i)) i) x) y
  · rw [dif_neg hij]
    exact h3 i j x y fun h => hij (Fin.ext h)

theorem equiv_of_rel {I J : Type} (r : I → J → Prop) (h1 : ∀ i, ∃ j, r i j) (h2 : ∀ j, ∃ i, r i j)
    (h3 : ∀ i j j', r i j → r i j' → j = j') (h4 : ∀ i i' j, r i j → r i' j → i = i') :
    ∃ φ : I ≃ J, ∀ i, r i (φ i) := by
  choose g hg using h1
  refine ⟨Equiv.ofBijective g ⟨fun a b hab => ?_, fun j => ?_⟩, hg⟩
  · exact h4 _ _ (g a) (hg a) (hab ▸ hg b)
  · obtain ⟨i, hi⟩ := h2 j
    exact ⟨i, h3 _ _ _ (hg i) hi⟩

/-- The dense matrix of an operator on one leg is its matrix in the basis of sectors, with another
numbering. -/
theorem opMatrix_leg [AddCommMonoid K] (hok : DenseOK sym [e, e]) :
    ∃ φ : DenseIdx sym [e] ≃ LegIdx e.mults, ∀ T : Ents K, Sane [e.mults, e.mults] T →
      opMatrix sym [e] T = (secMatrix e.mults T).submatrix φ φ := by
  have hok1 : DenseOK sym [e] := ⟨hok.dims, hok.one, hok.drop, fun x hx =>
    hok.valid x (List.mem_cons_of_mem _ hx)⟩
  obtain ⟨a1, a2, a3, a4⟩ := C35_index_bijection sym [e] hok1
  obtain ⟨φ, hφ⟩ := equiv_of_rel
    (fun (i : DenseIdx sym [e]) (x : LegIdx e.mults) => Located sym [e] i.1 [(x.1 : ℕ)] [(x.2 : ℕ)])
    (fun i => by
      obtain ⟨row, pos, hl, hi⟩ := a1 i.1 ((mem_gridC _ _).1 i.2)
      obtain ⟨n, z, hn, hz, he⟩ := mem_basis1.1 ((C34_basis _ _ _).2 hi)
      cases he
      exact ⟨⟨⟨n, hn⟩, ⟨z, hz⟩⟩, hl⟩)
    (fun x => by
      obtain ⟨idx, hl, hi⟩ := a2 [(x.1 : ℕ)] [(x.2 : ℕ)]
        ((C34_basis _ _ _).1 (mem_basis1.2 ⟨x.1, x.2, x.1.2, x.2.2, rfl⟩))
      exact ⟨⟨idx, (mem_gridC _ _).2 hi⟩, hl⟩)
    (fun i x y hx hy => by
      obtain ⟨h1, h2⟩ := a3 _ _ _ _ _ hx hy
      obtain ⟨x1, x2⟩ := x
      obtain ⟨y1, y2⟩ := y
      simp only [List.cons.injEq, and_true] at h1 h2
      have : y1 = x1 := Fin.ext h1
      subst this
      have : y2 = x2 := Fin.ext h2
      subst this
      rfl)
    (fun i i' x h h' => Subtype.ext (a4 _ _ _ _ h' h))
  refine ⟨φ, fun T hT => ?_⟩
  ext i j
  have hi := hφ i
  have hj := hφ j
  show (toDense sym [e, e] T).val (i.1 ++ j.1.reverse) = dense T [(φ i).1, (φ j).1] [(φ i).2, (φ j).2]
  generalize φ i = x at hi ⊢
  generalize φ j = y at hj ⊢
  refine (C35_to_dense sym [e, e] hok T hT).2 _ _ _ ?_
  obtain ⟨i, hi'⟩ := i
  obtain ⟨j, hj'⟩ := j
  simp only at hi hj ⊢
  match i, hi with
  | [a], hi =>
    match j, hj with
    | [b], hj => exact ⟨hi.1, hj.1, trivial⟩

/-- **C57**: the exponential of an operator on one leg is the matrix exponential of its dense matrix. -/
theorem C57_exp_leg [RCLike K] (R : FusionRule S) (hok : DenseOK sym [e, e])
    (hinj : Function.Injective sym.dual) (T : Ents K)
    (hT : IsHom R [toBLeg sym e] [toBLeg sym e] T) (f : Blk K → Blk K) (hf : IsMatrixExp f) :
    ∃ T', expSym sym R f [e] T = some T' ∧ IsHom R [toBLeg sym e] [toBLeg sym e] T' ∧
      opMatrix sym [e] T' = NormedSpace.exp (opMatrix sym [e] T) := by
  have hv := hok.valid e List.mem_cons_self
  have hI := (C57_act_block_diagonal R hv hinj T hT f fun b m hb => (hf m b hb).1).1
  refine ⟨_, rfl, hI, ?_⟩
  obtain ⟨φ, hφ⟩ := opMatrix_leg (K := K) hok
  rw [hφ _ hI.sane, hφ _ hT.sane, secMatrix_act R hv hinj T hT f hf, exp_submatrix]

section Combined
variable (R : Cyten.FusionRule S) (hd : DimOK sym) (hcd : sym.canDrop = true) (hl : AbelianLaws sym R)
include hd hcd hl

/-- **C57**: the exponential of an operator on any number of legs is the matrix exponential of its dense
matrix, if the same pipe is used for the codomain and the domain. -/
theorem C57_exp_common_pipe [RCLike K] (p : APipe S) (hp : SegValid sym R (.pipe p false)) (T : Ents K)
    (hT : IsHom R (p.legs.map (toBLeg sym)) (p.legs.map (toBLeg sym)) T) (f : Blk K → Blk K)
    (hf : IsMatrixExp f) :
    IsHom R (p.legs.map (toBLeg sym)) (p.legs.map (toBLeg sym)) (expCombined f p p T) ∧
    opMatrix sym p.legs (expCombined f p p T) = NormedSpace.exp (opMatrix sym p.legs T) := by
  have hinv := hl.dual_dual
  have hinj : Function.Injective sym.dual := (show Function.Involutive sym.dual from hinv).injective
  have hp' : SegValid sym R (.pipe p true) := hp
  let cs : List (Seg S) := [.pipe p false]
  let ds : List (Seg S) := [.pipe p true]
  have hc : ∀ s ∈ cs, SegValid sym R s ∧ notInDomain s := by
    intro s hs; rw [List.mem_singleton.1 hs]; exact ⟨hp, rfl⟩
  have hdm : ∀ s ∈ ds, SegValid sym R s ∧ notInDomain (flipSeg s) := by
    intro s hs; rw [List.mem_singleton.1 hs]; exact ⟨hp', rfl⟩
  have e1 : cs.flatMap Seg.legs = p.legs := by simp [cs, Seg.legs]
  have e2 : (ds.flatMap Seg.legs) = p.legs.reverse := by simp [ds, Seg.legs]
  have e3 : (cs ++ ds).flatMap Seg.legs = p.legs ++ p.legs.reverse := by
    rw [List.flatMap_append, e1, e2]
  have hall : ∀ s ∈ cs ++ ds, SegValid sym R s := by
    intro s hs
    rcases List.mem_append.1 hs with h | h
    · exact (hc s h).1
    · exact (hdm s h).1
  obtain ⟨o1, o2⟩ := segs_denseOK hd hl.dim_one hcd hall
  have hok : DenseOK sym [p.toESpace, p.toESpace] := o2
  have hT' : IsHom R [toBLeg sym p.toESpace] [toBLeg sym p.toESpace] (combineSegs (cs ++ ds) T) := by
    have := C49_combine_hom sym R hl cs ds hc hdm T (by
      rw [e1, e2, List.reverse_reverse]; exact hT)
    exact this
  have hv := hok.valid _ List.mem_cons_self
  have hI := (C57_act_block_diagonal R hv hinj _ hT' f fun b m hb => (hf m b hb).1).1
  have hres := C49_split_hom sym R hl cs ds hc hdm _ hI
  rw [e1, e2, List.reverse_reverse] at hres
  refine ⟨hres, ?_⟩
  obtain ⟨φ, hφ⟩ := opMatrix_leg (K := K) hok
  have hsaneT : Sane (legMults (p.legs ++ p.legs.reverse)) T := by
    have := hT.sane
    have h := multsOf_pair (sym := sym) p.legs p.legs.reverse
    rw [List.reverse_reverse] at h
    rwa [h] at this
  obtain ⟨b1, b2, b3⟩ := C49_index_bijection sym R hd hinv hl.dim_one hcd cs fun s hs => (hc s hs).1
  rw [e1] at b1 b2 b3
  have hfuse : ∀ i j : List ℕ, i.length = p.legs.length → j.length = p.legs.length →
      fuseIndex sym (cs ++ ds) (i ++ j.reverse) = fuseIndex sym cs i ++ (fuseIndex sym cs j).reverse := by
    intro i j hi hj
    show [fuseOne sym _ _, fuseOne sym _ _] = [fuseOne sym _ _] ++ [fuseOne sym _ _].reverse
    have h1 : (Seg.pipe p false).legs.length = i.length := hi.symm
    have h2 : (Seg.pipe p true).legs.length = j.reverse.length := by
      simp [Seg.legs, hj]
    have h3 : (Seg.pipe p false).legs.length = j.length := hj.symm
    rw [List.take_left' h1.symm, List.drop_left' h1.symm, List.take_of_length_le (by rw [h2]),
      List.take_of_length_le (by rw [h1]), List.take_of_length_le (by rw [h3])]
    show [_, packRow _ j.reverse.reverse] = _
    rw [List.reverse_reverse]
    rfl
  obtain ⟨ψ, hψ⟩ := equiv_of_rel
    (fun (i : DenseIdx sym p.legs) (x : DenseIdx sym [p.toESpace]) => x.1 = fuseIndex sym cs i.1)
    (fun i => ⟨⟨_, (mem_gridC _ _).2 (b1 _ ((mem_gridC _ _).1 i.2))⟩, rfl⟩)
    (fun x => by
      obtain ⟨i, h1, h2⟩ := b3 x.1 ((mem_gridC _ _).1 x.2)
      exact ⟨⟨i, (mem_gridC _ _).2 h1⟩, h2.symm⟩)
    (fun i x y hx hy => Subtype.ext (hx.trans hy.symm))
    (fun i j x hx hy => Subtype.ext (b2 _ _ ((mem_gridC _ _).1 i.2) ((mem_gridC _ _).1 j.2)
      (hx.symm.trans hy)))
  have hlen : ∀ i : DenseIdx sym p.legs, i.1.length = p.legs.length := by
    intro i
    simpa using ((mem_gridC _ _).1 i.2).length_eq
  have hin : ∀ i j : DenseIdx sym p.legs, InShape (i.1 ++ j.1.reverse)
      (((cs ++ ds).flatMap Seg.legs).map (ESpace.dim sym)) := by
    intro i j
    rw [e3, List.map_append, List.map_reverse]
    exact List.rel_append ((mem_gridC _ _).1 i.2) (inShape_reverse.2 ((mem_gridC _ _).1 j.2))
  have hcomb : ∀ X : Ents K, Sane (legMults (p.legs ++ p.legs.reverse)) X →
      opMatrix sym p.legs X = (opMatrix sym [p.toESpace] (combineSegs (cs ++ ds) X)).submatrix ψ ψ := by
    intro X hX
    have := (C49_combine sym R hd hinv hl.dim_one hcd (cs ++ ds) hall X (by rw [e3]; exact hX)).2.2
    ext i j
    have h := this (i.1 ++ j.1.reverse) (hin i j)
    rw [hfuse _ _ (hlen i) (hlen j), ← hψ i, ← hψ j, e3] at h
    exact h.symm
  have hsplit : ∀ X : Ents K, Sane (legMults ((cs ++ ds).map Seg.leg)) X →
      opMatrix sym p.legs (splitSegs (cs ++ ds) X) = (opMatrix sym [p.toESpace] X).submatrix ψ ψ := by
    intro X hX
    have := (C49_split_legs sym R hd hinv hl.dim_one hcd (cs ++ ds) hall X hX).2
    ext i j
    have h := this (i.1 ++ j.1.reverse) (hin i j)
    rw [hfuse _ _ (hlen i) (hlen j), ← hψ i, ← hψ j, e3] at h
    exact h
  show opMatrix sym p.legs (splitSegs (cs ++ ds) (actBlockDiagonal p.toESpace.mults f
    (combineSegs (cs ++ ds) T))) = _
  rw [hsplit _ hI.sane, hcomb T hsaneT, hφ _ hI.sane, hφ _ hT'.sane,
    secMatrix_act R hv hinj _ hT' f hf, exp_submatrix, exp_submatrix]

end Combined

/-! ## The code: different pipes -/

/-- A matrix exponential of blocks. -/
noncomputable def theExp (b : Blk ℂ) : Blk ℂ :=
  ⟨b.shape, fun idx => if h : idx.getD 0 0 < b.shape.getD 0 0 ∧ idx.getD 1 0 < b.shape.getD 0 0 then
    NormedSpace.exp (blkMatrix (b.shape.getD 0 0) b) ⟨_, h.1⟩ ⟨_, h.2⟩ else 0⟩

theorem theExp_spec : IsMatrixExp theExp := by
  intro m b hb
  refine ⟨hb, ?_⟩
  ext x y
  show (theExp b).val [(x : ℕ), (y : ℕ)] = _
  have hm : b.shape.getD 0 0 = m := by rw [hb]; rfl
  unfold theExp
  subst hm
  exact dif_pos ⟨x.2, y.2⟩

/-- A leg of dimension two in the trivial sector. -/
def twoLeg : ESpace ℕ := ⟨[0], [2], false, none⟩

/-- **C57**, negation: what `exp` computes for an operator on two legs is not the matrix exponential: the
exponential of the zero operator on two legs of dimension two (only the trivial sector) is not the
identity.  (The pipe of the codomain is in C style, the pipe of the domain in F style.) -/
theorem C57_exp_bug : ∃ T', expSym z3Sym z3Rule theExp [twoLeg, twoLeg] ([] : Ents ℂ) = some T' ∧
    opMatrix z3Sym [twoLeg, twoLeg] T' ≠
      NormedSpace.exp (opMatrix z3Sym [twoLeg, twoLeg] ([] : Ents ℂ)) := by
  refine ⟨_, rfl, ?_⟩
  intro h
  have h0 : opMatrix z3Sym [twoLeg, twoLeg] ([] : Ents ℂ) = 0 := by
    ext i j
    rfl
  rw [h0, NormedSpace.exp_zero] at h
  have h1 := congrFun (congrFun h ⟨[0, 1], by decide⟩) ⟨[0, 1], by decide⟩
  rw [Matrix.one_apply_eq] at h1
  have h1 : (theExp (Blk.zeros [4, 4])).val [1, 2] = 1 := h1
  have h3 := congrFun (congrFun ((theExp_spec 4 (Blk.zeros [4, 4]) rfl).2) 1) 2
  have h4 : blkMatrix 4 (Blk.zeros [4, 4] : Blk ℂ) = 0 := by
    ext i j
    rfl
  rw [h4, NormedSpace.exp_zero, Matrix.one_apply_ne (by decide)] at h3
  exact one_ne_zero (h1.symm.trans h3)

/-- A leg of dimension two with two sectors of `Z3`. -/
def leg01 : ESpace ℕ := ⟨[0, 1], [1, 1], false, none⟩

/-- **C57**, negation: if the sectors are not self-dual, `exp` even creates blocks that violate the charge
rule: the exponential of the zero operator on two such legs (`Z3`) is not a symmetric tensor. -/
theorem C57_exp_bug_charge (f : Blk ℂ → Blk ℂ) :
    ∃ T', expSym z3Sym z3Rule f [leg01, leg01] ([] : Ents ℂ) = some T' ∧
      ¬ Conserving z3Rule ([leg01, leg01].map (toBLeg z3Sym)) ([leg01, leg01].map (toBLeg z3Sym)) T' := by
  have key : ∀ T', expSym z3Sym z3Rule f [leg01, leg01] ([] : Ents ℂ) = some T' →
      T'.map Prod.fst = [[0, 0, 0, 0], [1, 1, 1, 0], [1, 1, 0, 1], [1, 0, 1, 1], [0, 1, 1, 1]] := by
    intro T' h
    cases h
    rfl
  refine ⟨_, rfl, ?_⟩
  intro h
  obtain ⟨q, hq, he⟩ := List.mem_map.1 (show [1, 1, 1, 0] ∈ _ from (key _ rfl) ▸
    List.mem_cons_of_mem _ List.mem_cons_self)
  have := h q hq
  rw [he] at this
  exact absurd this (by decide)

/-- Non-vacuity: a leg with its two sectors, an operator with one stored block, a matrix exponential. -/
theorem C57_nonvacuous : ∃ (e : ESpace ℕ) (p : APipe ℕ) (T : Ents ℂ), DenseOK z3Sym [e, e] ∧
    SegValid z3Sym z3Rule (.pipe p false) ∧ p.legs.length = 2 ∧ IsMatrixExp theExp ∧
    IsHom z3Rule [toBLeg z3Sym e] [toBLeg z3Sym e] T ∧ entry T ([1], [0]) ([1], [0]) = 5 := by
  refine ⟨leg01, exPipe, [([1, 1], ⟨[1, 1], fun _ => 5⟩)], ⟨z3_dimOK, fun _ => rfl, rfl, ?_⟩,
    (exC_valid (.pipe exPipe false) (by simp [exC])).1, rfl, theExp_spec, ⟨⟨?_, ?_, ?_⟩, ?_⟩, ?_⟩
  · intro e he
    have : e = leg01 := by simpa using he
    subst this
    exact ⟨rfl, by decide, by intro p hp; cases hp⟩
  · intro p hp
    rw [List.mem_singleton.1 hp]
    exact .cons (by decide) (.cons (by decide) .nil)
  · intro p hp
    rw [List.mem_singleton.1 hp]
    rfl
  · exact List.pairwise_singleton _ _
  · intro p hp
    rw [List.mem_singleton.1 hp]
    rfl
  · simp [entry, dense]

end Cyten.Props
