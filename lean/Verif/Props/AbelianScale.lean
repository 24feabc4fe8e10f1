import Verif.Model.AbelianLegs
import Verif.Lemmas.BasisSum
import Verif.Props.AbelianDiag2

/-!
# C54: scaling a leg with a diagonal tensor

See `Verif.Spec.AbelianData` for `dense`, `basis`, `Sane` and `Verif.Props.AbelianDiag` for
`diagEntry`, `DSane`.
-/

namespace Cyten.Props
open Cyten.Abelian Cyten.Abelian.Spec Cyten.Tables Cyten.Tools Cyten.ListSum Cyten.Spaces
open Cyten.FusionTrees

variable {K S : Type}

theorem cmpLexsort_single (x y : ℕ) : CmpKey cmpLexsort (fun l : List ℕ => l.getD 0 0) [x] [y] := by
  constructor
  · simp only [cmpLexsort, List.length_cons, List.length_nil, lt_irrefl, if_false, zero_add,
      List.take_succ_cons, List.take_zero, List.reverse_cons, List.reverse_nil, List.nil_append,
      cmpRev, List.getD_cons_zero, gt_iff_lt]
    by_cases h : x < y
    · simp [h]
    · by_cases h' : y < x <;> simp [h, h']
  · simp only [cmpLexsort, List.length_cons, List.length_nil, lt_irrefl, if_false, zero_add,
      List.take_succ_cons, List.take_zero, List.reverse_cons, List.reverse_nil, List.nil_append,
      cmpRev, List.getD_cons_zero, gt_iff_lt]
    by_cases h : x < y
    · simp [h, h.ne]
    · by_cases h' : y < x
      · simp [h, h', h'.ne']
      · have : x = y := by omega
        simp [this]
  · simp only [cmpLexsort, List.length_cons, List.length_nil, lt_irrefl, if_false, zero_add,
      List.take_succ_cons, List.take_zero, List.reverse_cons, List.reverse_nil, List.nil_append,
      cmpRev, List.getD_cons_zero, gt_iff_lt]
    by_cases h : x < y
    · simp [h, h.le]
    · by_cases h' : y < x <;> simp [h, h']

theorem find_lookup {β : Type} (d : DEnts K) (c : ℕ) (f : ℕ × List K → β) (g : List K → β)
    (hfg : ∀ q ∈ d, f q = g q.2) :
    (d.find? fun y => decide (c = y.1)).map f = (d.lookup c).map g := by
  induction d with
  | nil => rfl
  | cons q d ih =>
    rw [lookup_cons]
    by_cases h : c = q.1
    · simp [h, hfg q List.mem_cons_self]
    · rw [List.find?_cons_of_neg (by simpa using h), if_neg h,
        ih fun q hq => hfg q (List.mem_cons_of_mem _ hq)]

/-- the rows in the order used by `scale_axis` -/
def scaleOrder (a : Ents K) (numLegs leg : ℕ) : Ents K :=
  if leg = numLegs - 1 then a else a.insertionSort (colLe leg)

theorem scaleOrder_perm (a : Ents K) (numLegs leg : ℕ) : (scaleOrder a numLegs leg).Perm a := by
  unfold scaleOrder
  split
  · exact List.Perm.refl _
  · exact List.perm_insertionSort _ a

/-- The last column of a lexsorted table is increasing. -/
theorem last_column_sorted {M : List (List ℕ)} {a : Ents K} (ha : Sane M a) (hM : 0 < M.length) :
    a.Pairwise fun p q => p.1.getD (M.length - 1) 0 ≤ q.1.getD (M.length - 1) 0 := by
  refine ha.keySorted.imp_of_mem fun {p q} hp hq h => ?_
  have lp := ha.rowLength hp
  have lq := ha.rowLength hq
  have e : ∀ r : List ℕ, r.length = M.length →
      r.reverse = r.getD (M.length - 1) 0 :: r.dropLast.reverse := by
    intro r hr
    have hne : r ≠ [] := by rintro rfl; simp at hr; omega
    conv_lhs => rw [← List.dropLast_append_getLast hne]
    rw [List.reverse_append, List.reverse_singleton, List.singleton_append]
    congr 1
    rw [List.getLast_eq_getElem, List.getD_eq_getElem?_getD,
      List.getElem?_eq_getElem (by omega : M.length - 1 < r.length)]
    simp [hr]
  rw [e _ lp, e _ lq, List.cons_lt_cons_iff] at h
  rcases h with h | h
  · exact h.le
  · exact h.1.le

theorem scaleAxis_eq [Mul K] [Zero K] (M : List (List ℕ)) (mults : List ℕ) (a : Ents K) (d : DEnts K)
    (leg : ℕ) (ha : Sane M a) (hd : DSane mults d) (hleg : leg < M.length) :
    scaleAxis a d M.length leg = mkData ((scaleOrder a M.length leg).filterMap fun p =>
      (d.lookup (p.1.getD leg 0)).map fun q => (p.1, p.2.scaleAxis q leg)) false := by
  unfold scaleAxis
  rw [show (if leg = M.length - 1 then a else a.insertionSort (colLe leg)) =
    scaleOrder a M.length leg from rfl]
  simp only
  have hsort : (scaleOrder a M.length leg).Pairwise fun p q => p.1.getD leg 0 ≤ q.1.getD leg 0 := by
    unfold scaleOrder
    by_cases h : leg = M.length - 1
    · rw [if_pos h, h]; exact last_column_sorted ha (by omega)
    · rw [if_neg h]
      exact insertionSort_key_sorted (colLe leg) (fun p => p.1.getD leg 0) a fun x _ y _ => Iff.rfl
  have hds : d.Pairwise fun p q => p.1 < q.1 := by
    have := hd.sorted; rwa [List.pairwise_map] at this
  have := filterMap_commonLoop_left cmpLexsort (fun l : List ℕ => l.getD 0 0)
    (fun p : List ℕ × Blk K => [p.1.getD leg 0]) (fun q : ℕ × List K => [q.1])
    (fun p q => (p.1, p.2.scaleAxis q.2 leg)) (scaleOrder a M.length leg) d
    (scalePair (scaleOrder a M.length leg) d leg)
    (fun i j x y hx hy => by simp only [scalePair, hx, hy, Option.bind_some, Option.map_some])
    (fun x _ y _ => cmpLexsort_single _ _)
    (by simpa using hsort) (by simpa using hds)
    ((scaleOrder a M.length leg).length + d.length) 0 0 (by simp)
  simp only [List.drop_zero] at this
  rw [this]
  congr 1
  refine List.filterMap_congr fun p _ => ?_
  exact find_lookup d (p.1.getD leg 0) _ _ fun _ _ => rfl

/-- **C54**: `scale_axis(a, d, leg)` multiplies every entry of `a` with the entry of the diagonal
tensor `d` at the basis vector of the leg. -/
theorem C54_scale_axis [NonUnitalNonAssocSemiring K] (M : List (List ℕ)) (mults : List ℕ)
    (a : Ents K) (d : DEnts K) (leg : ℕ) (ha : Sane M a) (hd : DSane mults d)
    (hleg : leg < M.length) (row pos : List ℕ) :
    dense (scaleAxis a d M.length leg) row pos =
      dense a row pos * diagEntry d (row.getD leg 0) (pos.getD leg 0) := by
  rw [scaleAxis_eq M mults a d leg ha hd hleg, dense_mkData]
  unfold dense
  rw [sum_filterMap, ListSum.sum_mul, sum_perm (scaleOrder_perm a M.length leg)]
  refine sum_congr _ fun p hp => ?_
  unfold diagEntry
  by_cases h : p.1 = row
  · cases hl : d.lookup (p.1.getD leg 0) with
    | none => rw [← h, hl, if_pos rfl]; exact (mul_zero _).symm
    | some q => rw [← h, hl, if_pos rfl]; exact if_pos rfl
  · rw [if_neg h, zero_mul]
    cases hl : d.lookup (p.1.getD leg 0) with
    | none => rfl
    | some q => exact if_neg h

/-- **C54**, **C41**: `scale_axis` keeps the block table consistent, and the result has the blocks of
`a` whose sector on the leg has a block of `d`. -/
theorem C41_scale_axis [Mul K] [Zero K] (M : List (List ℕ)) (mults : List ℕ)
    (a : Ents K) (d : DEnts K) (leg : ℕ) (ha : Sane M a) (hd : DSane mults d)
    (hleg : leg < M.length) :
    Sane M (scaleAxis a d M.length leg) ∧
    ∀ row, row ∈ (scaleAxis a d M.length leg).map Prod.fst ↔
      row ∈ a.map Prod.fst ∧ row.getD leg 0 ∈ d.map Prod.fst := by
  rw [scaleAxis_eq M mults a d leg ha hd hleg]
  have hmem : ∀ p ∈ (scaleOrder a M.length leg).filterMap fun p =>
      (d.lookup (p.1.getD leg 0)).map fun q => (p.1, p.2.scaleAxis q leg),
      ∃ q ∈ a, q.1 = p.1 ∧ q.2.shape = p.2.shape ∧ (d.lookup (p.1.getD leg 0)).isSome := by
    intro p hp
    obtain ⟨q, hq, he⟩ := List.mem_filterMap.1 hp
    obtain ⟨x, hx, rfl⟩ := Option.map_eq_some_iff.1 he
    exact ⟨q, (scaleOrder_perm a M.length leg).mem_iff.1 hq, rfl, rfl, by show (List.lookup (q.1.getD leg 0) d).isSome = true; rw [hx]; rfl⟩
  have hfst : ((scaleOrder a M.length leg).filterMap fun p =>
      (d.lookup (p.1.getD leg 0)).map fun q => (p.1, p.2.scaleAxis q leg)).map Prod.fst =
      ((scaleOrder a M.length leg).map Prod.fst).filter fun r => (d.lookup (r.getD leg 0)).isSome := by
    induction scaleOrder a M.length leg with
    | nil => rfl
    | cons p l ih =>
      rw [List.filterMap_cons, List.map_cons, List.filter_cons]
      cases hl : d.lookup (p.1.getD leg 0) with
      | none => rw [if_neg (by simp), ← ih]; rfl
      | some q => rw [if_pos (by simp), ← ih]; rfl
  constructor
  · refine sane_mkData ?_ ?_ ?_
    · intro p hp
      obtain ⟨q, hq, h1, -, -⟩ := hmem p hp
      rw [← h1]; exact ha.inRange q hq
    · intro p hp
      obtain ⟨q, hq, h1, h2, -⟩ := hmem p hp
      rw [← h1, ← h2]; exact ha.shapes q hq
    · rw [hfst]
      exact List.Nodup.filter _ (((scaleOrder_perm a M.length leg).map Prod.fst).nodup_iff.2 ha.nodup)
  · intro row
    rw [((mkData_perm _ _).map Prod.fst).mem_iff, hfst, List.mem_filter,
      ((scaleOrder_perm a M.length leg).map Prod.fst).mem_iff]
    refine and_congr_right fun _ => ?_
    cases hl : d.lookup (row.getD leg 0) with
    | none =>
      have := lookup_none_iff.1 hl
      simp only [Option.isSome_none, Bool.false_eq_true, false_iff, List.mem_map, not_exists, not_and]
      exact this
    | some q =>
      simp only [Option.isSome_some, true_iff]
      exact List.mem_map.2 ⟨_, lookup_mem hl, rfl⟩

/-- **C54**: scaling keeps the charge rule. -/
theorem C54_conserving [Mul K] [Zero K] (R : FusionRule S) (codom dom : List (BLeg S))
    (mults : List ℕ) (a : Ents K) (d : DEnts K) (leg : ℕ)
    (ha : IsHom R codom dom a) (hd : DSane mults d) (hleg : leg < codom.length + dom.length) :
    IsHom R codom dom (scaleAxis a d (codom.length + dom.length) leg) := by
  have e : (multsOf codom ++ (multsOf dom).reverse).length = codom.length + dom.length := by
    simp [multsOf]
  have h := C41_scale_axis _ mults a d leg ha.sane hd (by rw [e]; exact hleg)
  rw [e] at h
  refine ⟨h.1, fun p hp => ?_⟩
  obtain ⟨q, hq, he⟩ := List.mem_map.1 ((h.2 p.1).1 (List.mem_map.2 ⟨p, hp, rfl⟩)).1
  have := ha.charge q hq
  rwa [he] at this

section
variable [NonUnitalNonAssocSemiring K] [Star K] [DecidableEq S]

/-- The diagonal tensor as a tensor with one codomain and one domain leg. -/
theorem entry_diag (leg : BLeg S) (d : DEnts K) (hd : DSane leg.mults d) (x y : List ℕ × List ℕ)
    (hx : x ∈ basis (multsOf [leg])) (hy : y ∈ basis (multsOf [leg])) :
    entry (fullFromDiagonal d) x y =
      if x = y then diagEntry d (x.1.getD 0 0) (x.2.getD 0 0) else 0 := by
  obtain ⟨x1, x2⟩ := x
  obtain ⟨y1, y2⟩ := y
  obtain ⟨l1, l2, hi⟩ := mem_basis hx
  obtain ⟨m1, m2, hj⟩ := mem_basis hy
  simp only [multsOf, List.map_cons, List.map_nil, List.length_cons, List.length_nil] at l1 l2 m1 m2
  obtain ⟨i, rfl⟩ := List.length_eq_one_iff.1 l1
  obtain ⟨u, rfl⟩ := List.length_eq_one_iff.1 l2
  obtain ⟨j, rfl⟩ := List.length_eq_one_iff.1 m1
  obtain ⟨v, rfl⟩ := List.length_eq_one_iff.1 m2
  have hu : u < leg.mults.getD i 0 := by
    have := hi.2
    simpa [multsOf, shapeOf, InShape] using this
  show dense (fullFromDiagonal d) [i, j] [u, v] = _
  rw [dense_fullFromDiagonal leg.mults d hd i j u v hu]
  simp only [Prod.mk.injEq, List.cons.injEq, and_true, List.getD_cons_zero]

/-- **C54**: `compose(a, d)` with a diagonal tensor `d` is computed as `scale_axis(a, d, -1)`; this
is the matrix product with the diagonal matrix. -/
theorem C54_compose_diagonal (R : FusionRule S) (codom : List (BLeg S)) (leg : BLeg S) (a : Ents K)
    (d : DEnts K) (ha : IsHom R codom [leg] a) (hd : DSane leg.mults d)
    (x z : List ℕ × List ℕ) (hx : x ∈ basis (multsOf codom)) (hz : z ∈ basis (multsOf [leg])) :
    entry (scaleAxis a d (codom.length + 1) codom.length) x z =
      ((basis (multsOf [leg])).map fun y =>
        entry a x y * entry (fullFromDiagonal d) y z).sum := by
  obtain ⟨l1, l2, -⟩ := mem_basis hx
  have hs := C54_scale_axis _ leg.mults a d codom.length ha.sane hd (by simp [multsOf])
    (x.1 ++ z.1.reverse) (x.2 ++ z.2.reverse)
  have e : (multsOf codom ++ (multsOf [leg]).reverse).length = codom.length + 1 := by
    simp [multsOf]
  rw [e] at hs
  rw [entry, hs, sum_congr (basis (multsOf [leg])) (g := fun y => if y = z then
    entry a x y * diagEntry d (y.1.getD 0 0) (y.2.getD 0 0) else 0) fun y hy => by
      rw [entry_diag leg d hd y z hy hz]; split <;> simp]
  rw [sum_single' _ (C34_basis_nodup _) z hz _]
  · obtain ⟨m1, m2, -⟩ := mem_basis hz
    simp only [multsOf, List.map_cons, List.map_nil, List.length_cons, List.length_nil] at m1 m2
    obtain ⟨z1, z2⟩ := z
    obtain ⟨j, rfl⟩ := List.length_eq_one_iff.1 m1
    obtain ⟨v, rfl⟩ := List.length_eq_one_iff.1 m2
    have l1' : codom.length = x.1.length := by rw [l1]; simp [multsOf]
    have l2' : codom.length = x.2.length := by rw [l2]; simp [multsOf]
    simp [entry, l1', List.getD_eq_getElem?_getD]
    rw [← l1', l2']
    simp
  · intro y _ hne
    simp [hne]

/-- **C54**: `compose(d, a)` with a diagonal tensor `d` is computed as `scale_axis(a, d, 0)`; over
commuting scalars this is the matrix product with the diagonal matrix. -/
theorem C54_diagonal_compose (hcomm : ∀ x y : K, x * y = y * x) (R : FusionRule S) (leg : BLeg S)
    (dom : List (BLeg S)) (a : Ents K) (d : DEnts K) (ha : IsHom R [leg] dom a)
    (hd : DSane leg.mults d) (x z : List ℕ × List ℕ) (hx : x ∈ basis (multsOf [leg])) :
    entry (scaleAxis a d (1 + dom.length) 0) x z =
      ((basis (multsOf [leg])).map fun y =>
        entry (fullFromDiagonal d) x y * entry a y z).sum := by
  have hs := C54_scale_axis _ leg.mults a d 0 ha.sane hd (by simp [multsOf])
    (x.1 ++ z.1.reverse) (x.2 ++ z.2.reverse)
  have e : (multsOf [leg] ++ (multsOf dom).reverse).length = 1 + dom.length := by
    simp [multsOf]; omega
  rw [e] at hs
  rw [entry, hs, sum_congr (basis (multsOf [leg])) (g := fun y => if x = y then
    diagEntry d (y.1.getD 0 0) (y.2.getD 0 0) * entry a y z else 0) fun y hy => by
      rw [entry_diag leg d hd x y hx hy]
      split
      · next h => rw [h]
      · simp]
  rw [sum_single' _ (C34_basis_nodup _) x hx _]
  · obtain ⟨m1, m2, -⟩ := mem_basis hx
    simp only [multsOf, List.map_cons, List.map_nil, List.length_cons, List.length_nil] at m1 m2
    obtain ⟨x1, x2⟩ := x
    obtain ⟨j, rfl⟩ := List.length_eq_one_iff.1 m1
    obtain ⟨v, rfl⟩ := List.length_eq_one_iff.1 m2
    rw [if_pos rfl, hcomm]
    rfl
  · intro y _ hne
    rw [if_neg fun h => hne h.symm]

end

/-- A leg with sectors of multiplicities 1 and 2, a diagonal tensor without a block for the first
sector: the hypotheses are met, and scaling removes the block of the first sector. -/
theorem C54_nonvacuous : Sane Example.M (Example.T 3) ∧ DSane [1, 2] ([(1, [5, 7])] : DEnts ℤ) ∧
    dense (scaleAxis (Example.T 3) [(1, [5, 7])] 2 0) [1, 1] [1, 0] =
      dense (Example.T 3) [1, 1] [1, 0] * 7 ∧
    dense (Example.T 3) [1, 1] [1, 0] ≠ 0 ∧
    (scaleAxis (Example.T 3) [(1, [5, 7])] 2 0).map Prod.fst = [[1, 1]] ∧
    (Example.T 3).map Prod.fst = [[0, 0], [1, 1]] := by
  refine ⟨Example.sane_T 3, ⟨by simp, by simp⟩, ?_, ?_, ?_, rfl⟩ <;> decide +kernel

end Cyten.Props
