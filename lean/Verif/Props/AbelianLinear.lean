import Verif.Lemmas.AbelianData
import Verif.Lemmas.AbelianExample
import Mathlib.Algebra.Star.BigOperators
import Mathlib.Algebra.Star.Rat
import Mathlib.Algebra.Field.Rat
import Mathlib.Algebra.Ring.Int.Defs

/-!
# C32, C34, C41, C45: linear operations of the abelian backend

The specification is in `Verif.Spec.AbelianData`: `dense T row pos` is the entry of the tensor at the
basis vector given by the sector numbers `row` and the numbers `pos` within these sectors, `Sane M T`
says that the data is consistent with the multiplicities `M` of the legs.
-/

namespace Cyten.Props
open Cyten.Abelian Cyten.Abelian.Spec Cyten.Tables Cyten.Tools Cyten.ListSum

variable {K : Type}

/-! ## Linear combinations -/

/-- The list of result entries as a join of the two tables. -/
theorem linearCombination_eq [Semiring K] (a b : K) (v w : Ents K) :
    linearCombination a v b w =
      join cmpLexsort Prod.fst Prod.fst (fun p => (p.1, p.2.smul a)) (fun q => (q.1, q.2.smul b))
        (fun p q => (p.1, Blk.linComb a p.2 b q.2)) (v.length + w.length) v w := by
  unfold linearCombination mkData iterCommonNoncommon
  rw [if_pos rfl]
  have := filterMap_noncommonLoop (cmpLexsort (ι := ℕ)) (Prod.fst : List ℕ × Blk K → List ℕ)
    (Prod.fst : List ℕ × Blk K → List ℕ) (fun p => (p.1, p.2.smul a)) (fun q => (q.1, q.2.smul b))
    (fun p q => (p.1, Blk.linComb a p.2 b q.2)) v w
    (fun
      | (some i, none) => v[i]?.map fun p => (p.1, p.2.smul a)
      | (none, some j) => w[j]?.map fun q => (q.1, q.2.smul b)
      | (some i, some j) =>
        v[i]?.bind fun p => w[j]?.map fun q => (p.1, Blk.linComb a p.2 b q.2)
      | (none, none) => none)
    (fun i x hx => by simp [hx]) (fun j y hy => by simp [hy])
    (fun i j x y hx hy => by simp [hx, hy]) (v.length + w.length) 0 0
  rw [List.drop_zero, List.drop_zero] at this
  rw [List.length_map, List.length_map]
  exact this

/-- **C32**: the dense representation of `linear_combination(a, v, b, w)` is
`a * dense(v) + b * dense(w)`, for every sparsity pattern. -/
theorem C32_linear_combination [Semiring K] (M : List (List ℕ)) (a b : K) (v w : Ents K)
    (hv : Sane M v) (hw : Sane M w) (row pos : List ℕ) :
    dense (linearCombination a v b w) row pos = a * dense v row pos + b * dense w row pos := by
  rw [linearCombination_eq]
  unfold dense
  rw [join_sum cmpLexsort Prod.fst Prod.fst _ _ _ _
    (fun p => a * if p.1 = row then p.2.val pos else 0)
    (fun q => b * if q.1 = row then q.2.val pos else 0), mul_sum, mul_sum]
  · intro p
    by_cases h : p.1 = row
    · simp [h, Blk.smul]
    · simp [h]
  · intro p
    by_cases h : p.1 = row
    · simp [h, Blk.smul]
    · simp [h]
  · intro p hp q hq hc
    have he : p.1 = q.1 := by
      have := (cmpLexsort_spec p.1 q.1 (by rw [hv.rowLength hp, hw.rowLength hq])).eq.1 hc
      exact List.reverse_injective this
    by_cases h : p.1 = row
    · have h' : q.1 = row := he ▸ h
      simp [h, h', Blk.linComb]
    · have h' : ¬ q.1 = row := he ▸ h
      simp [h, h']

/-- **C32**, **C41**: `linear_combination` keeps the data consistent: its block table is strictly
sorted, in range, and the blocks have the right shapes. -/
theorem C41_linear_combination [Semiring K] (M : List (List ℕ)) (a b : K) (v w : Ents K)
    (hv : Sane M v) (hw : Sane M w) : Sane M (linearCombination a v b w) := by
  rw [linearCombination_eq]
  have hmem : ∀ d ∈ join cmpLexsort Prod.fst Prod.fst (fun p => (p.1, p.2.smul a))
      (fun q => (q.1, q.2.smul b)) (fun p q => (p.1, Blk.linComb a p.2 b q.2))
      (v.length + w.length) v w,
      InShape d.1 (M.map List.length) ∧ d.2.shape = shapeOf M d.1 := by
    intro d hd
    rcases mem_join hd with ⟨p, hp, rfl⟩ | ⟨q, hq, rfl⟩ | ⟨p, hp, q, hq, -, rfl⟩
    · exact ⟨hv.inRange p hp, hv.shapes p hp⟩
    · exact ⟨hw.inRange q hq, hw.shapes q hq⟩
    · exact ⟨hv.inRange p hp, hv.shapes p hp⟩
  refine ⟨fun d hd => (hmem d hd).1, fun d hd => (hmem d hd).2, ?_⟩
  have h := join_sorted cmpLexsort List.reverse Prod.fst Prod.fst
    (fun p : List ℕ × Blk K => (p.1, p.2.smul a))
    (fun q : List ℕ × Blk K => (q.1, q.2.smul b)) (fun p q => (p.1, Blk.linComb a p.2 b q.2))
    Prod.fst (fun _ => rfl) (fun _ => rfl) (fun _ _ => rfl) (v.length + w.length) v w le_rfl
    (fun p hp q hq => cmpLexsort_spec p.1 q.1 (by rw [hv.rowLength hp, hw.rowLength hq]))
    hv.keySorted hw.keySorted
  unfold StrictlySorted
  rw [List.pairwise_map]
  refine h.imp_of_mem fun {p q} hp hq hpq => ?_
  exact (rowLt_key (by simpa using (hmem p hp).1.length) (by simpa using (hmem q hq).1.length)).2 hpq

/-- **C32**: scaling. -/
theorem C32_mul [Semiring K] [DecidableEq K] (a : K) (b : Ents K) (row pos : List ℕ) :
    dense (Abelian.mul a b) row pos = a * dense b row pos := by
  unfold Abelian.mul mkData dense
  by_cases h : a = 0
  · simp [h]
  · rw [if_neg h, if_pos rfl, List.map_map, mul_sum]
    refine sum_congr _ fun p _ => ?_
    by_cases h' : p.1 = row
    · simp [h', Blk.smul]
    · simp [h']

theorem C41_mul [Semiring K] [DecidableEq K] (M : List (List ℕ)) (a : K) (b : Ents K)
    (hb : Sane M b) : Sane M (Abelian.mul a b) := by
  unfold Abelian.mul mkData
  by_cases h : a = 0
  · rw [if_pos h]; exact sane_nil M
  · rw [if_neg h, if_pos rfl]
    refine ⟨?_, ?_, ?_⟩
    · intro p hp
      obtain ⟨q, hq, rfl⟩ := List.mem_map.1 hp
      exact hb.inRange q hq
    · intro p hp
      obtain ⟨q, hq, rfl⟩ := List.mem_map.1 hp
      exact hb.shapes q hq
    · rw [List.map_map]
      exact hb.sorted

/-! ## Dagger -/

/-- **C34**: the entries of the adjoint: reverse the legs and conjugate. -/
theorem C34_dagger [AddCommMonoid K] [StarAddMonoid K] (M : List (List ℕ)) (T : Ents K)
    (hT : Sane M T) (row pos : List ℕ) (hr : row.length = M.length)
    (hp : pos.length = M.length) :
    dense (Abelian.dagger T) row pos = star (dense T row.reverse pos.reverse) := by
  unfold Abelian.dagger
  rw [dense_mkData]
  unfold dense
  rw [List.map_map, show star (T.map fun p =>
    if p.1 = row.reverse then p.2.val pos.reverse else 0).sum =
      (T.map fun p => star (if p.1 = row.reverse then p.2.val pos.reverse else 0)).sum from by
        rw [show star (T.map fun p => if p.1 = row.reverse then p.2.val pos.reverse else 0).sum =
          starAddEquiv (T.map fun p => if p.1 = row.reverse then p.2.val pos.reverse else 0).sum
          from rfl, map_list_sum, List.map_map]; rfl]
  refine sum_congr _ fun p hpT => ?_
  simp only [Function.comp]
  have hs : pos.length = p.2.shape.length := by
    rw [hT.shapes p hpT, length_shapeOf _ _ (hT.rowLength hpT), hp]
  by_cases h : p.1 = row.reverse
  · rw [if_pos (by rw [h, List.reverse_reverse]), if_pos h, dagger_val _ _ hs]
  · rw [if_neg fun he => h (by rw [← he, List.reverse_reverse]), if_neg h, star_zero]

/-- **C34**, **C41**: the adjoint is consistent data for the reversed legs. -/
theorem C41_dagger [Star K] (M : List (List ℕ)) (T : Ents K) (hT : Sane M T) :
    Sane M.reverse (Abelian.dagger T) := by
  refine sane_mkData ?_ ?_ ?_
  · intro p hp
    obtain ⟨q, hq, rfl⟩ := List.mem_map.1 hp
    rw [List.map_reverse]
    exact inShape_reverse.2 (hT.inRange q hq)
  · intro p hp
    obtain ⟨q, hq, rfl⟩ := List.mem_map.1 hp
    show q.2.dagger.shape = shapeOf M.reverse q.1.reverse
    rw [dagger_shape, hT.shapes q hq, shapeOf_reverse _ _ (hT.rowLength hq)]
  · rw [List.map_map]
    have : (Prod.fst ∘ fun p : List ℕ × Blk K => (p.1.reverse, p.2.dagger)) =
        List.reverse ∘ Prod.fst := rfl
    rw [this, ← List.map_map]
    exact hT.nodup.map List.reverse_injective

/-- **C34**: taking the adjoint twice gives back the tensor. -/
theorem C34_dagger_dagger [AddCommMonoid K] [StarAddMonoid K] (M : List (List ℕ)) (T : Ents K)
    (hT : Sane M T) (row pos : List ℕ) (hr : row.length = M.length)
    (hp : pos.length = M.length) :
    dense (Abelian.dagger (Abelian.dagger T)) row pos = dense T row pos := by
  rw [C34_dagger M.reverse _ (C41_dagger M T hT) row pos (by simpa using hr) (by simpa using hp),
    C34_dagger M T hT _ _ (by simpa using hr) (by simpa using hp), List.reverse_reverse,
    List.reverse_reverse, star_star]

/-! ## Permutation of legs -/

theorem inShape_permute {row shape perm : List ℕ} (h : InShape row shape)
    (hp : ∀ c ∈ perm, c < row.length) :
    InShape (perm.map fun c => row.getD c 0) (perm.map fun c => shape.getD c 0) := by
  induction perm with
  | nil => exact List.Forall₂.nil
  | cons c perm ih =>
    refine List.Forall₂.cons ?_ (ih fun x hx => hp x (List.mem_cons_of_mem _ hx))
    have hc := hp c List.mem_cons_self
    have hc' : c < shape.length := h.length ▸ hc
    show row.getD c 0 < shape.getD c 0
    rw [List.getD_eq_getElem?_getD, List.getD_eq_getElem?_getD, List.getElem?_eq_getElem hc,
      List.getElem?_eq_getElem hc']
    exact (List.forall₂_iff_get.1 h).2 c hc hc'

/-- The legs of the result of `permute_legs`: leg `k` is the leg `perm[k]` of the argument. -/
def permuted (M : List (List ℕ)) (perm : List ℕ) : List (List ℕ) := perm.map fun c => M.getD c []

theorem permute_injOn {perm : List ℕ} {n : ℕ} (hp : perm.Perm (List.range n)) {r s : List ℕ}
    (hr : r.length = n) (hs : s.length = n)
    (h : (perm.map fun c => r.getD c 0) = perm.map fun c => s.getD c 0) : r = s := by
  rw [← unpermute (r := r) (perm := perm) (by rw [hr]; exact hp), h,
    unpermute (r := s) (perm := perm) (by rw [hs]; exact hp)]

/-- **C45**: `permute_legs` only reorders the legs: the entry of the result at the permuted
multi-index is the entry of the argument. -/
theorem C45_permute_legs [AddCommMonoid K] (M : List (List ℕ)) (T : Ents K) (hT : Sane M T)
    (cod dom : List ℕ) (hperm : (cod ++ dom.reverse).Perm (List.range M.length))
    (row pos : List ℕ) (hr : row.length = M.length) (hp : pos.length = M.length) :
    dense (permuteLegs T cod dom) ((cod ++ dom.reverse).map fun c => row.getD c 0)
      ((cod ++ dom.reverse).map fun c => pos.getD c 0) = dense T row pos := by
  unfold permuteLegs
  simp only
  rw [dense_mkData]
  unfold dense
  rw [List.map_map]
  refine sum_congr _ fun p hpT => ?_
  simp only [Function.comp]
  by_cases h : p.1 = row
  · rw [if_pos (by rw [h]), if_pos h]
    show p.2.val _ = _
    rw [unpermute (by rw [hp]; exact hperm)]
  · rw [if_neg fun he => h (permute_injOn hperm (hT.rowLength hpT) hr he), if_neg h]

/-- **C41**: `permute_legs` keeps the data consistent. -/
theorem C41_permute_legs (M : List (List ℕ)) (T : Ents K) (hT : Sane M T)
    (cod dom : List ℕ) (hperm : (cod ++ dom.reverse).Perm (List.range M.length)) :
    Sane (permuted M (cod ++ dom.reverse)) (permuteLegs T cod dom) := by
  have hlt : ∀ c ∈ cod ++ dom.reverse, c < M.length := fun c hc => by
    simpa using hperm.mem_iff.1 hc
  refine sane_mkData ?_ ?_ ?_
  · intro p hp
    obtain ⟨q, hq, rfl⟩ := List.mem_map.1 hp
    have := inShape_permute (hT.inRange q hq)
      (fun c hc => by rw [hT.rowLength hq]; exact hlt c hc)
    have e : ((cod ++ dom.reverse).map fun c => (M.map List.length).getD c 0) =
        (permuted M (cod ++ dom.reverse)).map List.length := by
      unfold permuted
      rw [List.map_map]
      refine List.map_congr_left fun c hc => ?_
      have hc := hlt c hc
      simp [List.getD_eq_getElem?_getD, List.getElem?_eq_getElem hc]
    rw [e] at this
    exact this
  · intro p hp
    obtain ⟨q, hq, rfl⟩ := List.mem_map.1 hp
    show ((cod ++ dom.reverse).map fun p => q.2.shape.getD p 0) =
      shapeOf (permuted M (cod ++ dom.reverse)) ((cod ++ dom.reverse).map fun c => q.1.getD c 0)
    unfold permuted shapeOf
    rw [List.zipWith_map, List.zipWith_self]
    refine List.map_congr_left fun c hc => ?_
    have hc := hlt c hc
    have hc' : c < q.1.length := by rw [hT.rowLength hq]; exact hc
    rw [hT.shapes q hq]
    unfold shapeOf
    simp [List.getD_eq_getElem?_getD, List.getElem?_zipWith, List.getElem?_eq_getElem hc,
      List.getElem?_eq_getElem hc']
  · rw [List.map_map]
    have hnd := hT.nodup
    unfold List.Nodup at hnd ⊢
    rw [List.pairwise_map] at hnd ⊢
    refine hnd.imp_of_mem fun {p q} hp hq hne he => hne ?_
    exact permute_injOn hperm (hT.rowLength hp) (hT.rowLength hq) he

/-! ## The hypotheses are met by tensors with different sparsity patterns -/

example : Sane Example.M (Example.T 3) ∧ Sane Example.M (Example.U 5) ∧
    dense (linearCombination 2 (Example.T 3) 7 (Example.U 5)) [1, 1] [1, 0] = 2 * 5 + 7 * 5 ∧
    dense (linearCombination 2 (Example.T 3) 7 (Example.U 5)) [0, 0] [0, 0] = 6 :=
  ⟨Example.sane_T 3, Example.sane_U 5, by
    rw [C32_linear_combination _ _ _ _ _ (Example.sane_T 3) (Example.sane_U 5)]; rfl, by
    rw [C32_linear_combination _ _ _ _ _ (Example.sane_T 3) (Example.sane_U 5)]; rfl⟩

example : dense (permuteLegs (Example.T 3) [1, 0] []) [1, 1] [0, 1] = 5 :=
  C45_permute_legs Example.M (Example.T 3) (Example.sane_T 3) [1, 0] [] (by decide) [1, 1] [1, 0]
    rfl rfl

end Cyten.Props
