import Verif.Lemmas.AbelianInner
import Verif.Model.AbelianNorm
import Mathlib.Analysis.Complex.Norm
import Mathlib.Data.Complex.BigOperators
import Verif.Props.AbelianLinear
import Mathlib.Algebra.Star.Basic

/-!
# C34: inner product and norm of the abelian backend

The specification is in `Verif.Spec.AbelianData`; `basis M` lists all basis vectors of the tensor
space, so the sums below are the textbook inner product of the dense arrays.
-/

namespace Cyten.Props
open Cyten.Abelian Cyten.Abelian.Spec Cyten.Tables Cyten.Tools Cyten.ListSum

variable {K : Type}

theorem sum_basis {α : Type} [AddCommMonoid α] (M : List (List ℕ)) (f : List ℕ → List ℕ → α) :
    ((basis M).map fun x => f x.1 x.2).sum =
      ((gridC (M.map List.length)).map fun row =>
        ((gridC (shapeOf M row)).map fun pos => f row pos).sum).sum := by
  unfold basis
  rw [sum_flatMap]
  refine sum_congr _ fun row _ => ?_
  rw [List.map_map]; rfl

/-- `basis` lists exactly the basis vectors. -/
theorem C34_basis (M : List (List ℕ)) (row pos : List ℕ) :
    (row, pos) ∈ basis M ↔ IsIndex M row pos := by
  unfold basis IsIndex
  rw [List.mem_flatMap]
  constructor
  · rintro ⟨r, hr, h⟩
    obtain ⟨p, hp, he⟩ := List.mem_map.1 h
    cases he
    exact ⟨(mem_gridC _ _).1 hr, (mem_gridC _ _).1 hp⟩
  · rintro ⟨h1, h2⟩
    exact ⟨row, (mem_gridC _ _).2 h1, List.mem_map.2 ⟨pos, (mem_gridC _ _).2 h2, rfl⟩⟩

theorem C34_basis_nodup (M : List (List ℕ)) : (basis M).Nodup := by
  unfold basis
  rw [List.nodup_flatMap]
  refine ⟨fun r _ => (nodup_gridC _).map fun _ _ h => by simpa using h, ?_⟩
  refine List.Pairwise.imp (fun {r s} hne => ?_) (nodup_gridC _)
  intro x hx hy
  obtain ⟨p, -, rfl⟩ := List.mem_map.1 hx
  obtain ⟨q, -, he⟩ := List.mem_map.1 hy
  exact hne (by cases he; rfl)

/-- **C34**: `inner(a, b, do_dagger=True)` is the inner product of the dense tensors. -/
theorem C34_inner_dagger [NonUnitalNonAssocSemiring K] [StarAddMonoid K] (M : List (List ℕ))
    (a b : Ents K) (ha : Sane M a) (hb : Sane M b) (v : K)
    (h : Abelian.inner (M.map List.length) a b true = some v) :
    v = ((basis M).map fun x => star (dense a x.1 x.2) * dense b x.1 x.2).sum := by
  rw [inner_eq M a b true ha hb h, sum_basis M fun row pos => star (dense a row pos) * dense b row pos]
  simp only [star_dense]
  unfold dense
  rw [sum_sparse_mul _ (nodup_gridC _) _ a b Prod.fst Prod.fst
    (fun p hp => (mem_gridC _ _).2 (ha.inRange p hp)) (fun p t => star (p.2.val t))
    (fun q t => q.2.val t)]
  refine sum_congr _ fun p hp => sum_congr _ fun q hq => ?_
  simp only [if_true]
  by_cases he : p.1 = q.1
  · rw [if_pos he, if_pos he, blkInner_true, ha.shapes p hp]
  · rw [if_neg he, if_neg he]

/-- **C34**: `inner(a, b, do_dagger=False)` is the full contraction of `a` with `b`, leg `k` of `a`
with leg `n - 1 - k` of `b`. -/
theorem C34_inner_no_dagger [NonUnitalNonAssocSemiring K] [Star K] (M : List (List ℕ))
    (a b : Ents K) (ha : Sane M a) (hb : Sane M.reverse b) (v : K)
    (h : Abelian.inner (M.map List.length) a b false = some v) :
    v = ((basis M).map fun x => dense a x.1 x.2 * dense b x.1.reverse x.2.reverse).sum := by
  rw [inner_eq M a b false ha hb h,
    sum_basis M fun row pos => dense a row pos * dense b row.reverse pos.reverse]
  unfold dense
  have e : ∀ (q : List ℕ × Blk K) (row t : List ℕ),
      (if q.1 = row.reverse then q.2.val t.reverse else 0) =
        if q.1.reverse = row then q.2.val t.reverse else 0 := by
    intro q row t
    by_cases hh : q.1 = row.reverse
    · rw [if_pos hh, if_pos (by rw [hh, List.reverse_reverse])]
    · rw [if_neg hh, if_neg fun he => hh (by rw [← he, List.reverse_reverse])]
  simp only [e]
  rw [sum_sparse_mul _ (nodup_gridC _) _ a b Prod.fst (fun q => q.1.reverse)
    (fun p hp => (mem_gridC _ _).2 (ha.inRange p hp)) (fun p t => p.2.val t)
    (fun q t => q.2.val t.reverse)]
  refine sum_congr _ fun p hp => sum_congr _ fun q hq => ?_
  simp only [Bool.false_eq_true, if_false]
  by_cases he : p.1 = q.1.reverse
  · rw [if_pos he, if_pos he, blkInner_false, ha.shapes p hp]
  · rw [if_neg he, if_neg he]

/-- **C34**: when `inner` returns: there is at least one leg and the guard of `make_stride` for the
numbers of sectors holds.  In particular it raises for tensors without legs. -/
theorem C34_inner_isSome [AddCommMonoid K] [Mul K] [Star K] (nsecs : List ℕ) (a b : Ents K)
    (d : Bool) : (Abelian.inner nsecs a b d).isSome ↔
      ∃ s0 ss, nsecs = s0 :: ss ∧ nsecs.dropLast.prod * s0 < maxInt := by
  unfold Abelian.inner
  rw [Option.isSome_map]
  cases nsecs with
  | nil => simp [makeStridePy]
  | cons s0 ss =>
    rw [makeStridePy_cons]
    have e : (if false = true then ss.prod else (s0 :: ss).dropLast.prod) =
      (s0 :: ss).dropLast.prod := rfl
    rw [e]
    by_cases h : (s0 :: ss).dropLast.prod * s0 < maxInt
    · rw [if_pos h]; exact ⟨fun _ => ⟨s0, ss, rfl, h⟩, fun _ => rfl⟩
    · rw [if_neg h]
      refine ⟨fun h' => (Bool.false_ne_true h').elim, ?_⟩
      rintro ⟨t0, ts, he, hlt⟩
      injection he with h1 h2
      subst h1; exact absurd hlt h

/-- **C34**: the inner product is conjugate symmetric. -/
theorem C34_inner_conj_symm [NonUnitalCommSemiring K] [StarRing K] (M : List (List ℕ))
    (a b : Ents K) (ha : Sane M a) (hb : Sane M b) (v w : K)
    (h : Abelian.inner (M.map List.length) a b true = some v)
    (h' : Abelian.inner (M.map List.length) b a true = some w) : w = star v := by
  rw [C34_inner_dagger M a b ha hb v h, C34_inner_dagger M b a hb ha w h']
  rw [show ∀ l : List K, star l.sum = starAddEquiv l.sum from fun _ => rfl, map_list_sum,
    List.map_map]
  refine sum_congr _ fun x _ => ?_
  show _ = star (star (dense a x.1 x.2) * dense b x.1 x.2)
  rw [star_mul, star_star]

/-- **C34**: `inner(dagger(a), b, do_dagger=False)` equals `inner(a, b, do_dagger=True)`. -/
theorem C34_inner_of_dagger [NonUnitalNonAssocSemiring K] [StarAddMonoid K] (M : List (List ℕ))
    (a b : Ents K) (ha : Sane M a) (hb : Sane M b) (v w : K)
    (h : Abelian.inner (M.map List.length) a b true = some v)
    (h' : Abelian.inner (M.reverse.map List.length) (Abelian.dagger a) b false = some w) : w = v := by
  rw [C34_inner_dagger M a b ha hb v h, C34_inner_no_dagger M.reverse _ b (C41_dagger M a ha)
    (by rwa [List.reverse_reverse]) w h']
  have hperm : (basis M.reverse).Perm ((basis M).map fun x => (x.1.reverse, x.2.reverse)) := by
    rw [List.perm_ext_iff_of_nodup (C34_basis_nodup _) ((C34_basis_nodup M).map fun x y he => by
      obtain ⟨h1, h2⟩ := Prod.mk.inj he
      exact Prod.ext (List.reverse_injective h1) (List.reverse_injective h2))]
    have key : ∀ (M : List (List ℕ)) r p, IsIndex M r p → IsIndex M.reverse r.reverse p.reverse := by
      rintro M r p ⟨h1, h2⟩
      refine ⟨?_, ?_⟩
      · rw [List.map_reverse]; exact inShape_reverse.2 h1
      · rw [shapeOf_reverse _ _ (by simpa using h1.length)]; exact inShape_reverse.2 h2
    rintro ⟨r, p⟩
    rw [C34_basis, List.mem_map]
    constructor
    · intro hi
      refine ⟨(r.reverse, p.reverse), (C34_basis _ _ _).2 ?_, by simp⟩
      have := key _ _ _ hi
      rwa [List.reverse_reverse] at this
    · rintro ⟨⟨r', p'⟩, hm, he⟩
      cases he
      exact key _ _ _ ((C34_basis _ _ _).1 hm)
  rw [(hperm.map _).sum_eq, List.map_map]
  refine sum_congr _ fun x hx => ?_
  obtain ⟨h1, h2⟩ := (C34_basis M x.1 x.2).1 hx
  have l1 : x.1.length = M.length := by simpa using h1.length
  have l2 : x.2.length = M.length := by rw [h2.length, length_shapeOf _ _ l1]
  show dense (Abelian.dagger a) x.1.reverse x.2.reverse *
    dense b x.1.reverse.reverse x.2.reverse.reverse = _
  rw [C34_dagger M a ha _ _ (by simpa using l1) (by simpa using l2), List.reverse_reverse,
    List.reverse_reverse]

/-! ## The norm -/

/-- **C34**: the norm is the Euclidean norm of the dense tensor. -/
theorem C34_norm (M : List (List ℕ)) (a : Ents ℂ) (ha : Sane M a) :
    Abelian.norm a = Real.sqrt ((basis M).map fun x => ‖dense a x.1 x.2‖ ^ 2).sum := by
  unfold Abelian.norm
  congr 1
  rw [sum_basis M fun row pos => ‖dense a row pos‖ ^ 2]
  have hden : ∀ row pos, ‖dense a row pos‖ ^ 2 =
      (a.map fun p => if p.1 = row then ‖p.2.val pos‖ ^ 2 else 0).sum := by
    intro row pos
    by_cases hm : ∃ p ∈ a, p.1 = row
    · obtain ⟨p, hp, rfl⟩ := hm
      rw [ha.dense_of_mem hp]
      classical
      rw [sum_single' a (List.Nodup.of_map _ ha.nodup) p hp _ fun x hx hne =>
        if_neg fun he => hne (ha.eq_of_fst hx hp he), if_pos rfl]
    · push Not at hm
      rw [dense_of_not_mem hm, sum_zero _ _ fun p hp => if_neg (hm p hp)]
      simp
  simp only [hden]
  symm
  have h1 : ∀ row, ((gridC (shapeOf M row)).map fun pos =>
      (a.map fun p => if p.1 = row then ‖p.2.val pos‖ ^ 2 else 0).sum).sum =
      (a.map fun p => if p.1 = row then
        ((gridC (shapeOf M row)).map fun pos => ‖p.2.val pos‖ ^ 2).sum else 0).sum := by
    intro row
    rw [sum_comm]
    exact sum_congr _ fun p _ => sum_ite _ _ _
  simp only [h1]
  rw [sum_comm]
  refine sum_congr _ fun p hp => ?_
  rw [sum_single _ (nodup_gridC _) p.1 fun row =>
    ((gridC (shapeOf M row)).map fun pos => ‖p.2.val pos‖ ^ 2).sum,
    if_pos ((mem_gridC _ _).2 (ha.inRange p hp)), ← ha.shapes p hp]
  unfold Blk.norm
  rw [Real.sq_sqrt]
  exact List.sum_nonneg fun x hx => by
    obtain ⟨i, -, rfl⟩ := List.mem_map.1 hx; positivity

/-- **C34**: the square of the norm is the inner product of the tensor with itself. -/
theorem C34_norm_sq (M : List (List ℕ)) (a : Ents ℂ) (ha : Sane M a) (v : ℂ)
    (h : Abelian.inner (M.map List.length) a a true = some v) :
    v = ((Abelian.norm a ^ 2 : ℝ) : ℂ) := by
  rw [C34_inner_dagger M a a ha ha v h, C34_norm M a ha, Real.sq_sqrt]
  · rw [show ∀ l : List ℝ, ((l.sum : ℝ) : ℂ) = Complex.ofRealHom l.sum from fun _ => rfl,
      map_list_sum, List.map_map]
    refine sum_congr _ fun x _ => ?_
    show (starRingEnd ℂ) (dense a x.1 x.2) * dense a x.1 x.2 =
      ((‖dense a x.1 x.2‖ ^ 2 : ℝ) : ℂ)
    rw [mul_comm, Complex.mul_conj, Complex.normSq_eq_norm_sq]
  · exact List.sum_nonneg fun x hx => by
      obtain ⟨i, -, rfl⟩ := List.mem_map.1 hx; positivity

/-- **C34**: the norm vanishes only for the zero tensor. -/
theorem C34_norm_eq_zero (M : List (List ℕ)) (a : Ents ℂ) (ha : Sane M a) :
    Abelian.norm a = 0 ↔ ∀ row pos, IsIndex M row pos → dense a row pos = 0 := by
  have hnn : ∀ x ∈ (basis M).map fun x => ‖dense a x.1 x.2‖ ^ 2, (0 : ℝ) ≤ x := by
    intro x hx
    obtain ⟨i, -, rfl⟩ := List.mem_map.1 hx; positivity
  rw [C34_norm M a ha, Real.sqrt_eq_zero (List.sum_nonneg hnn)]
  constructor
  · intro h row pos hi
    have h2 := List.single_le_sum hnn (‖dense a row pos‖ ^ 2)
      (List.mem_map.2 ⟨(row, pos), (C34_basis M row pos).2 hi, rfl⟩)
    rw [h] at h2
    have h3 : ‖dense a row pos‖ ^ 2 = 0 := le_antisymm h2 (by positivity)
    simpa using h3
  · intro h
    refine sum_zero _ _ fun x hx => ?_
    rw [h x.1 x.2 ((C34_basis M x.1 x.2).1 hx)]; simp

/-! ## The hypotheses are met -/

attribute [local instance] starRingOfComm in
example : (Abelian.inner (Example.M.map List.length) (Example.T 1) (Example.U 1) true) = some 13 := by
  decide +kernel

end Cyten.Props
