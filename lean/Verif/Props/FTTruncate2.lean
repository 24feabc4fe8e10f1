import Verif.Props.FTTruncate
import Verif.Props.FTDecomp
import Mathlib.LinearAlgebra.Matrix.Trace
import Mathlib.Analysis.Complex.Basic

/-!
# C93: the error of a truncated singular value decomposition with the fusion tree backend
-/

namespace Cyten.FT.Spec
open Cyten.FT
open scoped Matrix

/-- The square of the Frobenius norm of a matrix. -/
noncomputable def frobeniusSq {m n : ℕ} (A : Matrix (Fin m) (Fin n) ℂ) : ℝ := ∑ i, ∑ j, ‖A i j‖ ^ 2

/-- The projection onto the kept indices. -/
def keepMatrix (b : List Bool) (k : ℕ) : Matrix (Fin k) (Fin k) ℂ := Matrix.diagonal fun i => if b.getD i false then 1 else 0

end Cyten.FT.Spec

namespace Cyten.FT
open Cyten.Abelian Cyten.Spaces Cyten.Tools Cyten.FT.Spec Cyten.Props Cyten.ListSum
open scoped Matrix

variable {S : Type} [LinearOrder S]

theorem frobeniusSq_trace {m n : ℕ} (A : Matrix (Fin m) (Fin n) ℂ) : ((frobeniusSq A : ℝ) : ℂ) = (Aᴴ * A).trace := by
  unfold frobeniusSq Matrix.trace
  rw [Finset.sum_comm]
  push_cast
  refine Finset.sum_congr rfl fun j _ => ?_
  rw [Matrix.diag_apply, Matrix.mul_apply]
  refine Finset.sum_congr rfl fun i _ => ?_
  rw [Matrix.conjTranspose_apply]
  exact (Complex.conj_mul' _).symm

/-- Multiplication with isometries does not change the norm. -/
theorem frobeniusSq_isometry {m n k : ℕ} (U : Matrix (Fin m) (Fin k) ℂ) (X : Matrix (Fin k) (Fin k) ℂ)
    (V : Matrix (Fin k) (Fin n) ℂ) (hU : Uᴴ * U = 1) (hV : V * Vᴴ = 1) : frobeniusSq (U * X * V) = frobeniusSq X := by
  have h : ((frobeniusSq (U * X * V) : ℝ) : ℂ) = ((frobeniusSq X : ℝ) : ℂ) := by
    rw [frobeniusSq_trace, frobeniusSq_trace]
    rw [Matrix.conjTranspose_mul, Matrix.conjTranspose_mul]
    calc (Vᴴ * (Xᴴ * Uᴴ) * (U * X * V)).trace = (Vᴴ * (Xᴴ * ((Uᴴ * U) * X) * V)).trace := by simp only [Matrix.mul_assoc]
      _ = ((Xᴴ * X) * (V * Vᴴ)).trace := by
        rw [hU, Matrix.one_mul, Matrix.trace_mul_comm]
        simp only [Matrix.mul_assoc]
      _ = _ := by rw [hV, Matrix.mul_one]
  exact_mod_cast h

theorem frobeniusSq_diagonal {k : ℕ} (d : Fin k → ℂ) : frobeniusSq (Matrix.diagonal d) = ∑ i, ‖d i‖ ^ 2 := by
  unfold frobeniusSq
  refine Finset.sum_congr rfl fun i _ => ?_
  rw [Finset.sum_eq_single i]
  · simp
  · intro j _ hj
    simp [Matrix.diagonal_apply, hj.symm]
  · simp

/-- The part that is cut off has the norm of the dropped singular values. -/
theorem dropped_part {m n k : ℕ} (T : Matrix (Fin m) (Fin n) ℂ) (U : Matrix (Fin m) (Fin k) ℂ) (d : Fin k → ℂ)
    (V : Matrix (Fin k) (Fin n) ℂ) (h : U * Matrix.diagonal d * V = T) (hU : Uᴴ * U = 1) (hV : V * Vᴴ = 1) (b : List Bool) :
    frobeniusSq (T - U * (Matrix.diagonal d * keepMatrix b k) * V) = ∑ i : Fin k, if b.getD i false then 0 else ‖d i‖ ^ 2 := by
  have : T - U * (Matrix.diagonal d * keepMatrix b k) * V =
      U * (Matrix.diagonal fun i : Fin k => if b.getD i false then 0 else d i) * V := by
    rw [← h, ← Matrix.sub_mul, ← Matrix.mul_sub]
    congr 2
    unfold keepMatrix
    rw [Matrix.diagonal_mul_diagonal, Matrix.diagonal_sub]
    congr 1
    funext i
    split_ifs <;> simp
  rw [this, frobeniusSq_isometry _ _ _ hU hV, frobeniusSq_diagonal]
  refine Finset.sum_congr rfl fun i _ => ?_
  split_ifs <;> simp

/-- The singular value of a sector and an index, zero if there is no block. -/
def svOf (co : BLeg S) (D : List ((ℕ × ℕ) × List ℂ)) (c : S) (m : ℕ) : ℂ :=
  (match D.find? (fun e : (ℕ × ℕ) × List ℂ => co.sectors[e.1.1]? == some c) with
    | some e => e.2
    | none => []).getD m 0

theorem diagOf_eq (co : BLeg S) (D : List ((ℕ × ℕ) × List ℂ)) (c : S) :
    diagOf co D c = Matrix.diagonal fun i : Fin (mult co c) => svOf co D c i := by
  unfold diagOf diagMat svOf
  cases D.find? fun e => co.sectors[e.1.1]? == some c <;> rfl

theorem value_normed (co : BLeg S) (N : ℝ) (D : List ((ℕ × ℕ) × List ℂ)) (c : S) (m : ℕ) :
    value co (normedValues N D) c m = (svOf co D c m).re / N := by
  unfold value diagValue asRows normedValues svOf
  rw [List.map_map, List.find?_map]
  have hf : ((fun e : (ℕ × ℕ) × List ℝ => co.sectors[e.1.1]? == some c) ∘
      ((fun p : ℕ × List ℝ => ((p.1, p.1), p.2)) ∘ fun e : (ℕ × ℕ) × List ℂ => (e.1.1, e.2.map fun s => s.re / N))) =
      fun e => co.sectors[e.1.1]? == some c := rfl
  rw [hf]
  cases D.find? fun e => co.sectors[e.1.1]? == some c with
  | none => simp
  | some e =>
    simp only [Option.map_some, Function.comp_apply, List.getD_eq_getElem?_getD, List.getElem?_map]
    cases e.2[m]? <;> simp

theorem normedValues_sane {co : BLeg S} (hc : Coupled co) (N : ℝ) {D : List ((ℕ × ℕ) × List ℂ)} (h : FDSane co D) :
    Abelian.Spec.DSane co.mults (normedValues N D) := by
  constructor
  · intro p hp
    obtain ⟨e, he, rfl⟩ := List.mem_map.1 hp
    exact ⟨by rw [← hc.len]; exact (h.diag e he).2, by simpa using h.len e he⟩
  · unfold normedValues
    rw [List.map_map]
    have := h.sorted
    rwa [List.map_congr_left (g := Prod.fst ∘ fun e : (ℕ × ℕ) × List ℂ => (e.1.1, e.2.map fun s => s.re / N))
      fun e he => (h.diag e he).1.symm] at this

theorem svCells_sum {R : Type} [AddCommMonoid R] (co : BLeg S) (p : S × ℕ → Bool) (w : S → ℕ → R) :
    (((svCells co).filter p).map fun c => w c.1 c.2).sum =
      (co.sectors.map fun s => ∑ i : Fin (mult co s), if p (s, i) then w s i else 0).sum := by
  rw [sum_filter, svCells, sum_flatMap]
  refine sum_congr _ fun s _ => ?_
  rw [List.map_map, ← sum_range_fin (mult co s) fun i => if p (s, i) then w s i else 0]
  rfl

/-- A sum over the sectors of the codomain of a function that vanishes outside the new leg. -/
theorem sum_new {cod dom new : BLeg S} (hc : Coupled cod) (hn : IsNew cod dom new) (g : S → ℝ)
    (h : ∀ c, c ∉ new.sectors → g c = 0) : (cod.sectors.map g).sum = (new.sectors.map g).sum := by
  rw [← List.sum_toFinset g hc.nodup, ← List.sum_toFinset g hn.coupled.nodup]
  symm
  refine Finset.sum_subset (fun c hcm => ?_) fun c _ hcn => h c (by simpa using hcn)
  rw [List.mem_toFinset] at hcm ⊢
  exact ((hn.common c).1 hcm).1

theorem mult_not_mem {co : BLeg S} (h : Coupled co) {c : S} (hc : c ∉ co.sectors) : mult co c = 0 := by
  unfold Spec.mult
  rw [List.idxOf_eq_length hc, h.len]
  simp

section
variable {cod dom new : BLeg S} (hc : Coupled cod) (hd : Coupled dom) (hn : IsNew cod dom new) (a : FEnts ℂ)
  (ha : FSane cod dom a) (f : Mat ℂ → Mat ℂ × List ℂ × Mat ℂ)
  (hf : ∀ e ∈ a, ∀ m n, e.2.rows = m → e.2.cols = n → IsSVD m n e.2 (f e.2).1 (f e.2).2.1 (f e.2).2.2)
  (hreal : ∀ e ∈ a, ∀ s ∈ (f e.2).2.1, s.im = 0)
include hc hd hn ha hf

theorem cut_error (qd : S → ℝ) (b : S → List Bool) :
    (cod.sectors.map fun c => qd c * frobeniusSq (matrixOf cod dom a c - matrixOf cod new (fsvd cod dom new f a).1 c *
        (diagOf new (fsvd cod dom new f a).2.1 c * keepMatrix (b c) (mult new c)) *
        matrixOf new dom (fsvd cod dom new f a).2.2 c)).sum =
      (((svCells new).filter fun c => !(b c.1).getD c.2 false).map fun c =>
        qd c.1 * ‖svOf new (fsvd cod dom new f a).2.1 c.1 c.2‖ ^ 2).sum := by
  obtain ⟨-, -, -, h, -⟩ := C62_svd hc hd hn a ha f hf
  generalize fsvd cod dom new f a = W at h ⊢
  have key : ∀ c, frobeniusSq (matrixOf cod dom a c - matrixOf cod new W.1 c *
        (diagOf new W.2.1 c * keepMatrix (b c) (mult new c)) * matrixOf new dom W.2.2 c) =
      ∑ i : Fin (mult new c), if (b c).getD i false then 0 else ‖svOf new W.2.1 c i‖ ^ 2 := fun c => by
    have h1 := (h c).1
    rw [diagOf_eq] at h1 ⊢
    exact dropped_part _ _ _ _ h1 (h c).2.1 (h c).2.2 (b c)
  simp only [key]
  rw [sum_new hc hn, svCells_sum new (fun c => !(b c.1).getD c.2 false)
    fun s i => qd s * ‖svOf new W.2.1 s i‖ ^ 2]
  · refine sum_congr _ fun c _ => ?_
    rw [Finset.mul_sum]
    refine Finset.sum_congr rfl fun i _ => ?_
    cases (b c).getD (i : ℕ) false <;> simp
  · intro c hcn
    have h0 := mult_not_mem hn.coupled hcn
    rw [Finset.sum_eq_zero, mul_zero]
    intro i _
    exact absurd i.2 (by omega)

include hreal

theorem svOf_norm (c : S) (m : ℕ) : ‖svOf new (fsvd cod dom new f a).2.1 c m‖ ^ 2 =
    (svOf new (fsvd cod dom new f a).2.1 c m).re ^ 2 := by
  obtain ⟨-, -, -, -, h⟩ := C62_svd hc hd hn a ha f hf
  have him : (svOf new (fsvd cod dom new f a).2.1 c m).im = 0 := by
    unfold svOf
    cases hfd : (fsvd cod dom new f a).2.1.find? (fun e : (ℕ × ℕ) × List ℂ => new.sectors[e.1.1]? == some c) with
    | none => simp
    | some e =>
      obtain ⟨e', he', h2⟩ := h e (List.mem_of_find?_eq_some hfd)
      simp only [h2, List.getD_eq_getElem?_getD]
      cases hm : (f e'.2).2.1[m]? with
      | none => simp
      | some s => exact hreal e' he' s (List.mem_of_getElem? hm)
  rw [← Complex.normSq_eq_norm_sq, Complex.normSq_apply, him]
  ring

/-- **C93** (error). Let `U`, `S`, `Vh` be the singular value decomposition of a tensor with matrices `T(c)` of the coupled
sectors, `N` its norm, `N² = Σ qdim(c) |T(c)|²`.  Then `truncate_singular_values(S / N)` returns a mask that keeps at least one
and at most `chi_max` singular values such that
`Σ qdim(c) |T(c) - U(c) S(c) P(c) Vh(c)|² = err * N²`, where `P(c)` is the projection on the kept indices; and
`err + new_norm = 1`. -/
theorem C93_error (qd : S → ℝ) (N : ℝ) (hN0 : N ≠ 0)
    (hN : N ^ 2 = (cod.sectors.map fun c => qd c * frobeniusSq (matrixOf cod dom a c)).sum)
    {argsort : List ℝ → List ℕ} (hsort : IsArgsort argsort) (lg : ℝ → ℝ) (sym : Sym S)
    (hdd : ∀ s, sym.dual (sym.dual s) = s) (leg : ESpace S) (hperm : leg.perm = none) (o : Truncation.Opts ℝ)
    (hchi : ∀ chi, o.chiMax = some chi → 1 ≤ chi) :
    ∃ M err newNorm mk,
      ftTruncate argsort lg sym leg new (new.sectors.map qd) (normedValues N (fsvd cod dom new f a).2.1) o =
        some (M, err, newNorm) ∧
      Makes sym leg.isDual new M mk ∧ (∀ s, (mk s).length = mult new s) ∧
      (∃ s m, InLeg new s m ∧ (mk s).getD m false = true) ∧
      (∀ chi, o.chiMax = some chi → (((svCells new).filter fun c => (mk c.1).getD c.2 false).length : ℤ) ≤ chi) ∧
      (cod.sectors.map fun c => qd c * frobeniusSq (matrixOf cod dom a c - matrixOf cod new (fsvd cod dom new f a).1 c *
        (diagOf new (fsvd cod dom new f a).2.1 c * keepMatrix (mk c) (mult new c)) *
        matrixOf new dom (fsvd cod dom new f a).2.2 c)).sum = err * N ^ 2 ∧
      err + newNorm = 1 := by
  obtain ⟨-, hS, -, -, -⟩ := C62_svd hc hd hn a ha f hf
  have hsv := svOf_norm hc hd hn a ha f hf hreal
  have htot : N ^ 2 = ((svCells new).map fun c => qd c.1 * (svOf new (fsvd cod dom new f a).2.1 c.1 c.2).re ^ 2).sum := by
    have := cut_error hc hd hn a ha f hf qd fun _ => []
    have hz : ∀ c, keepMatrix [] (mult new c) = 0 := fun c => by
      unfold keepMatrix; ext i j; simp [Matrix.diagonal_apply]
    simp only [hz, Matrix.mul_zero, Matrix.zero_mul, sub_zero, hsv] at this
    rw [hN, this]
    simp
  have hne : ∃ s m, InLeg new s m := by
    by_contra hcon
    have : svCells new = [] := List.eq_nil_iff_forall_not_mem.2 fun c hcm => hcon ⟨c.1, c.2, mem_svCells.1 hcm⟩
    rw [this] at htot
    simp at htot
    exact hN0 htot
  obtain ⟨M, err, nn, mk, h1, h2, h3, h4, h5, h6, h7, h8⟩ := C93_truncate hsort lg sym hdd leg hn.coupled qd _
    (normedValues_sane hn.coupled N hS) o hperm hne hchi
  have hN2 : N ^ 2 ≠ 0 := pow_ne_zero 2 hN0
  simp only [value_normed, div_pow] at h7 h8
  refine ⟨M, err, nn, mk, h1, h2, h3, h4, h5, ?_, ?_⟩
  · rw [cut_error hc hd hn a ha f hf qd mk, h7, sum_mul]
    refine sum_congr _ fun c _ => ?_
    rw [hsv]
    field_simp
  · have : (err + nn) * N ^ 2 = 1 * N ^ 2 := by
      conv_rhs => rw [htot, one_mul]
      rw [h7, h8, sum_filter, sum_filter, ← sum_add, sum_mul]
      refine sum_congr _ fun c _ => ?_
      cases (mk c.1).getD c.2 false
      · simp only [Bool.not_false, if_true, Bool.false_eq_true, if_false, add_zero]; field_simp
      · simp only [Bool.not_true, if_true, Bool.false_eq_true, if_false, zero_add]; field_simp
    exact mul_right_cancel₀ hN2 this

end
end Cyten.FT

/-! ## A concrete tensor: two sectors of quantum dimensions 1 and 5, the singular values 2, 1 and 2, the norm 5. -/

namespace Cyten.FT.TruncExample
open Cyten.Abelian Cyten.FT Cyten.FT.Spec Cyten.Spaces Cyten.Tools Cyten.Props Cyten.Truncation
open scoped Matrix

def co2 : BLeg ℤ := ⟨[0, 1], [2, 1]⟩
noncomputable def blk0 : Mat ℂ := ⟨2, 2, fun i j => if i = j then (if i = 0 then 2 else 1) else 0⟩
noncomputable def blk1 : Mat ℂ := ⟨1, 1, fun _ _ => 2⟩
noncomputable def tens : FEnts ℂ := [((0, 0), blk0), ((1, 1), blk1)]
noncomputable def svdOf (b : Mat ℂ) : Mat ℂ × List ℂ × Mat ℂ :=
  (Mat.eye b.rows, (List.range b.rows).map fun i => b.val i i, Mat.eye b.rows)
def qd2 : ℤ → ℝ := fun s => if s = 1 then 5 else 1

theorem co2_coupled : Coupled co2 := ⟨by decide, by decide⟩

theorem tens_sane : FSane co2 co2 tens := by
  constructor
  · intro e he
    simp only [tens, List.mem_cons, List.not_mem_nil, or_false] at he
    obtain rfl | rfl := he
    · exact ⟨0, by decide, by decide⟩
    · exact ⟨1, by decide, by decide⟩
  · intro e he
    simp only [tens, List.mem_cons, List.not_mem_nil, or_false] at he
    obtain rfl | rfl := he <;> exact ⟨rfl, rfl⟩
  · simp [tens]

theorem tens_svd : ∀ e ∈ tens, ∀ m n, e.2.rows = m → e.2.cols = n →
    IsSVD m n e.2 (svdOf e.2).1 (svdOf e.2).2.1 (svdOf e.2).2.2 := by
  intro e he m n h1 h2
  simp only [tens, List.mem_cons, List.not_mem_nil, or_false] at he
  have heye : ∀ k, matOf (Mat.eye k : Mat ℂ) k k = 1 := fun k => by
    ext i j; simp [matOf, Mat.eye, Matrix.one_apply, Fin.ext_iff]
  obtain rfl | rfl := he
  · obtain rfl : 2 = m := h1
    obtain rfl : 2 = n := h2
    refine ⟨⟨rfl, rfl⟩, rfl, ⟨rfl, rfl⟩, ?_, ?_, ?_⟩
    · have key : matOf (Mat.eye 2 : Mat ℂ) 2 2 * diagMat (svdOf blk0).2.1 2 * matOf (Mat.eye 2 : Mat ℂ) 2 2 =
          matOf blk0 2 2 := by
        rw [heye, Matrix.one_mul, Matrix.mul_one]
        ext i j
        fin_cases i <;> fin_cases j <;> simp [diagMat, matOf, svdOf, blk0]
      exact key
    · show (matOf (Mat.eye 2) 2 2)ᴴ * matOf (Mat.eye 2) 2 2 = 1
      rw [heye]; simp
    · show matOf (Mat.eye 2) 2 2 * (matOf (Mat.eye 2) 2 2)ᴴ = 1
      rw [heye]; simp
  · obtain rfl : 1 = m := h1
    obtain rfl : 1 = n := h2
    refine ⟨⟨rfl, rfl⟩, rfl, ⟨rfl, rfl⟩, ?_, ?_, ?_⟩
    · have key : matOf (Mat.eye 1 : Mat ℂ) 1 1 * diagMat (svdOf blk1).2.1 1 * matOf (Mat.eye 1 : Mat ℂ) 1 1 =
          matOf blk1 1 1 := by
        rw [heye, Matrix.one_mul, Matrix.mul_one]
        ext i j
        fin_cases i; fin_cases j; simp [diagMat, matOf, svdOf, blk1]
      exact key
    · show (matOf (Mat.eye 1) 1 1)ᴴ * matOf (Mat.eye 1) 1 1 = 1
      rw [heye]; simp
    · show matOf (Mat.eye 1) 1 1 * (matOf (Mat.eye 1) 1 1)ᴴ = 1
      rw [heye]; simp

theorem tens_norm : (5 : ℝ) ^ 2 = (co2.sectors.map fun c => qd2 c * frobeniusSq (matrixOf co2 co2 tens c)).sum := by
  have h0 : frobeniusSq (matrixOf co2 co2 tens 0) = 5 := by
    rw [matrixOf_mem tens_sane co2_coupled co2_coupled (e := ((0, 0), blk0)) (by simp [tens]) rfl]
    show frobeniusSq (matOf blk0 2 2) = 5
    simp [frobeniusSq, Fin.sum_univ_two, matOf, blk0]
    norm_num
  have h1 : frobeniusSq (matrixOf co2 co2 tens 1) = 4 := by
    rw [matrixOf_mem tens_sane co2_coupled co2_coupled (e := ((1, 1), blk1)) (by simp [tens]) rfl]
    show frobeniusSq (matOf blk1 1 1) = 4
    simp [frobeniusSq, matOf, blk1]
    norm_num
  show (5 : ℝ) ^ 2 = ([0, 1].map fun c => qd2 c * frobeniusSq (matrixOf co2 co2 tens c)).sum
  simp only [List.map_cons, List.map_nil, List.sum_cons, List.sum_nil, h0, h1, qd2]
  norm_num

/-- The theorem applies: one singular value is kept at most. -/
example := C93_error co2_coupled co2_coupled (new := co2)
  ⟨co2_coupled, fun c => by simp, fun c _ => by simp⟩ tens tens_sane svdOf tens_svd
  (by
    intro e he s hs
    simp only [tens, List.mem_cons, List.not_mem_nil, or_false] at he
    obtain rfl | rfl := he
    · simp only [svdOf, blk0, List.mem_map, List.mem_range] at hs
      obtain ⟨i, -, rfl⟩ := hs
      simp only [if_true]
      split_ifs <;> simp
    · simp only [svdOf, blk1, List.mem_map, List.mem_range] at hs
      obtain ⟨i, -, rfl⟩ := hs
      simp)
  qd2 5 (by norm_num) tens_norm (stableArgsort_isArgsort (K := ℝ)) id zn (fun s => neg_neg s) ⟨[0, 1], [2, 1], false, none⟩ rfl
  ⟨some 1, 1, 0, 0, none, true⟩ (by intro chi h; cases h; decide)

end Cyten.FT.TruncExample
