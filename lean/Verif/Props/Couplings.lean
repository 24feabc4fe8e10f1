import Verif.Model.Couplings
import Verif.Props.Sites

/-!
# C65: the predefined couplings are the documented operators

For every spin, cutoff, number of species and prefactor.
-/

namespace Cyten.Couplings

open Matrix Cyten.Sites
open scoped Kronecker

namespace Spec

/-- The operator on two sites that a block with axes `[p0, p1, p1*, p0*]` represents. -/
def op2 {d0 d1 : ℕ} (h : Block2 d0 d1) : Matrix (Fin d0 × Fin d1) (Fin d0 × Fin d1) ℂ :=
  of fun p q => h p.1 p.2 q.2 q.1

/-- The operator on three sites that a block with axes `[p0, p1, p2, p2*, p1*, p0*]` represents. -/
def op3 {d0 d1 d2 : ℕ} (h : Block3 d0 d1 d2) :
    Matrix (Fin d0 × Fin d1 × Fin d2) (Fin d0 × Fin d1 × Fin d2) ℂ :=
  of fun p q => h p.1 p.2.1 p.2.2 q.2.2 q.2.1 q.1

/-- Three hermitian matrices with the su(2) commutation relations. -/
structure IsSpin {d : ℕ} (S : Fin 3 → Arr d) : Prop where
  herm : ∀ a, (S a)ᴴ = S a
  comm : ∀ a, S a * S (a + 1) - S (a + 1) * S a = Complex.I • S (a + 2)

/-- The total spin of two sites. -/
def total {d0 d1 : ℕ} (S : Fin 3 → Arr d0) (T : Fin 3 → Arr d1) (a : Fin 3) :
    Matrix (Fin d0 × Fin d1) (Fin d0 × Fin d1) ℂ :=
  S a ⊗ₖ 1 + 1 ⊗ₖ T a

/-- The annihilator of species `k` of the first of two sites. -/
def modeI (s s' : OccSite) (k : ℕ) :
    Matrix (Fin s.dim × Fin s'.dim) (Fin s.dim × Fin s'.dim) ℂ :=
  s.annihilator k ⊗ₖ 1

/-- The annihilator of species `k` of the second of two sites: with the Jordan-Wigner string of
the first site. -/
def modeJ (s s' : OccSite) (k : ℕ) :
    Matrix (Fin s.dim × Fin s'.dim) (Fin s.dim × Fin s'.dim) ℂ :=
  s.jw ⊗ₖ s'.annihilator k

end Spec

open Spec

/-! ## Spins -/

section

variable {m n : Type} [Fintype m] [Fintype n] [DecidableEq m] [DecidableEq n]

lemma kron_sub_l (A B : Matrix m m ℂ) (C : Matrix n n ℂ) : (A - B) ⊗ₖ C = A ⊗ₖ C - B ⊗ₖ C := by
  ext ⟨i, j⟩ ⟨k, l⟩; exact sub_mul _ _ _

lemma kron_sub_r (A : Matrix m m ℂ) (B C : Matrix n n ℂ) : A ⊗ₖ (B - C) = A ⊗ₖ B - A ⊗ₖ C := by
  ext ⟨i, j⟩ ⟨k, l⟩; exact mul_sub _ _ _

lemma kron_neg_l (A : Matrix m m ℂ) (C : Matrix n n ℂ) : (-A) ⊗ₖ C = -(A ⊗ₖ C) := by
  ext ⟨i, j⟩ ⟨k, l⟩; exact neg_mul _ _

lemma kron_neg_r (A : Matrix m m ℂ) (C : Matrix n n ℂ) : A ⊗ₖ (-C) = -(A ⊗ₖ C) := by
  ext ⟨i, j⟩ ⟨k, l⟩; exact mul_neg _ _

/-- The commutator. -/
def br {k : Type} [Fintype k] (A B : Matrix k k ℂ) : Matrix k k ℂ := A * B - B * A

lemma br_kron (A B : Matrix m m ℂ) (C D : Matrix n n ℂ) :
    br (A ⊗ₖ C) (B ⊗ₖ 1 + 1 ⊗ₖ D) = br A B ⊗ₖ C + A ⊗ₖ br C D := by
  rw [br, br, br, kron_sub_l, kron_sub_r, Matrix.mul_add, Matrix.add_mul]
  simp only [← mul_kronecker_mul, Matrix.mul_one, Matrix.one_mul]
  abel

lemma br_neg {k : Type} [Fintype k] {A B C : Matrix k k ℂ} (h : br A B = C) : br B A = -C := by
  rw [← h, br, br]; abel

lemma br_self {k : Type} [Fintype k] (A : Matrix k k ℂ) : br A A = 0 := sub_self _

lemma br_sub {k : Type} [Fintype k] (A B C : Matrix k k ℂ) : br (A - B) C = br A C - br B C := by
  simp only [br, Matrix.sub_mul, Matrix.mul_sub]; abel

lemma br_add {k : Type} [Fintype k] (A B C : Matrix k k ℂ) : br (A + B) C = br A C + br B C := by
  simp only [br, Matrix.add_mul, Matrix.mul_add]; abel

/-- `V` transforms as a vector under the rotations generated by `T`. -/
structure IsVector {k : Type} [Fintype k] (V T : Fin 3 → Matrix k k ℂ) : Prop where
  h01 : br (V 0) (T 1) = Complex.I • V 2
  h12 : br (V 1) (T 2) = Complex.I • V 0
  h20 : br (V 2) (T 0) = Complex.I • V 1
  h10 : br (V 1) (T 0) = -(Complex.I • V 2)
  h21 : br (V 2) (T 1) = -(Complex.I • V 0)
  h02 : br (V 0) (T 2) = -(Complex.I • V 1)
  h00 : br (V 0) (T 0) = 0
  h11 : br (V 1) (T 1) = 0
  h22 : br (V 2) (T 2) = 0

lemma isVector_of_comm {k : Type} [Fintype k] (S : Fin 3 → Matrix k k ℂ)
    (hS : ∀ a, S a * S (a + 1) - S (a + 1) * S a = Complex.I • S (a + 2)) : IsVector S S where
  h01 := hS 0
  h12 := hS 1
  h20 := hS 2
  h10 := br_neg (hS 0)
  h21 := br_neg (hS 1)
  h02 := br_neg (hS 2)
  h00 := br_self _
  h11 := br_self _
  h22 := br_self _

/-- The scalar product of two vectors commutes with the rotations. -/
lemma dot_vector (S : Fin 3 → Matrix m m ℂ) (V T : Fin 3 → Matrix n n ℂ) (hS : IsVector S S)
    (hV : IsVector V T) (a : Fin 3) :
    Commute (∑ b, S b ⊗ₖ V b) (S a ⊗ₖ 1 + 1 ⊗ₖ T a) := by
  rw [commute_iff_eq, ← sub_eq_zero]
  show br _ _ = 0
  rw [Fin.sum_univ_three, br_add, br_add, br_kron, br_kron, br_kron]
  match a with
  | 0 =>
    rw [hS.h00, hS.h10, hS.h20, hV.h00, hV.h10, hV.h20]
    simp only [kron_neg_l, kron_neg_r, smul_kronecker, kronecker_smul, zero_kronecker, kronecker_zero]
    abel
  | 1 =>
    rw [hS.h01, hS.h11, hS.h21, hV.h01, hV.h11, hV.h21]
    simp only [kron_neg_l, kron_neg_r, smul_kronecker, kronecker_smul, zero_kronecker, kronecker_zero]
    abel
  | 2 =>
    rw [hS.h02, hS.h12, hS.h22, hV.h02, hV.h12, hV.h22]
    simp only [kron_neg_l, kron_neg_r, smul_kronecker, kronecker_smul, zero_kronecker, kronecker_zero]
    abel

/-- The vector product of the spins of two sites. -/
def cross (T : Fin 3 → Matrix m m ℂ) (U : Fin 3 → Matrix n n ℂ) (a : Fin 3) :
    Matrix (m × n) (m × n) ℂ :=
  T (a + 1) ⊗ₖ U (a + 2) - T (a + 2) ⊗ₖ U (a + 1)

/-- The vector product is a vector. -/
lemma cross_vector (T : Fin 3 → Matrix m m ℂ) (U : Fin 3 → Matrix n n ℂ) (hT : IsVector T T)
    (hU : IsVector U U) :
    IsVector (cross T U) (fun a => T a ⊗ₖ 1 + 1 ⊗ₖ U a) := by
  constructor <;>
  · simp only [cross, Fin.isValue, zero_add, show (1 : Fin 3) + 1 = 2 from rfl,
      show (1 : Fin 3) + 2 = 0 from rfl, show (2 : Fin 3) + 1 = 0 from rfl,
      show (2 : Fin 3) + 2 = 1 from rfl, br_sub, br_kron, hT.h00, hT.h01, hT.h02, hT.h10, hT.h11,
      hT.h12, hT.h20, hT.h21, hT.h22, hU.h00, hU.h01, hU.h02, hU.h10, hU.h11, hU.h12, hU.h20,
      hU.h21, hU.h22, kron_neg_l, kron_neg_r, smul_kronecker, kronecker_smul, zero_kronecker,
      kronecker_zero]
    module

end

/-- The spin matrices of every `SpinSite` are spins in the sense of the specification, and so
are those of the spin-1/2 fermion site. -/
theorem C65_sites_are_spins (twoS : ℕ) : IsSpin (spinSite twoS) ∧ IsSpin spinHalfVector := by
  refine ⟨⟨(C64_spin_algebra twoS).1, fun a => ?_⟩, ?_⟩
  · have h := C64_spin_algebra twoS
    match a with
    | 0 => exact h.2.1
    | 1 => exact h.2.2.1
    | 2 => exact h.2.2.2.1
  · have hz : spinHalfSzᴴ = spinHalfSz := by
      rw [spinHalfSz, diagonal_conjTranspose]
      congr 1
      funext i
      fin_cases i <;> simp
    have h1 : spinHalfSz * spinHalfSp - spinHalfSp * spinHalfSz = spinHalfSp := by
      ext i j
      rw [Matrix.sub_apply, spinHalfSz, diagonal_mul, mul_diagonal]
      fin_cases i <;> fin_cases j <;> simp [spinHalfSp] <;> norm_num
    have h2 : spinHalfSp * spinHalfSpᴴ - spinHalfSpᴴ * spinHalfSp = (2 : ℂ) • spinHalfSz := by
      ext i j
      simp only [Matrix.sub_apply, mul_apply, Fin.sum_univ_four, spinHalfSz, Matrix.smul_apply]
      fin_cases i <;> fin_cases j <;> simp [spinHalfSp]
    have h := spinVector_su2 spinHalfSz spinHalfSp hz h1 h2
    refine ⟨spinVector_hermitian _ _ hz, fun a => ?_⟩
    match a with
    | 0 => exact h.1
    | 1 => exact h.2.1
    | 2 => exact h.2.2

/-- C65 (spins).  `spin_spin_coupling` is `Jx Sx Sx + Jy Sy Sy + Jz Sz Sz`, for all prefactors
(the code skips those that are zero), and `spin_field_coupling` is `hx Sx + hy Sy + hz Sz`. -/
theorem C65_spin_spin {d0 d1 : ℕ} (S : Fin 3 → Arr d0) (T : Fin 3 → Arr d1) (J : Fin 3 → ℝ) :
    op2 (spinSpin S T J) = ∑ a, (J a : ℂ) • (S a ⊗ₖ T a) ∧
    spinField S J = ∑ a, (J a : ℂ) • S a := by
  have step : ∀ (h : Arr4 d0 d0 d1 d1) (a : Fin 3) i i' j j',
      spinSpinStep S T J h a i i' j j' = h i i' j j' + (J a : ℂ) * (S a i i' * T a j j') := by
    intro h a i i' j j'
    rw [spinSpinStep]
    by_cases hJ : J a = 0
    · rw [if_pos hJ, hJ]; simp
    · rw [if_neg hJ]; rfl
  have fstep : ∀ (h : Arr d0) (a : Fin 3), fieldStep S J h a = h + (J a : ℂ) • S a := by
    intro h a
    rw [fieldStep]
    by_cases hJ : J a = 0
    · rw [if_neg (by simpa using hJ), hJ]; simp
    · rw [if_pos hJ]
  constructor
  · ext ⟨i, j⟩ ⟨i', j'⟩
    show spinSpin S T J i j j' i' = _
    simp only [spinSpin, transpose0231, List.foldl, step, zeros, Fin.sum_univ_three,
      Matrix.add_apply, Matrix.smul_apply, kronecker_apply, smul_eq_mul, zero_add]
  · simp only [spinField, List.foldl, fstep, Fin.sum_univ_three, zero_add]

lemma op2_dot {d0 d1 : ℕ} (S : Fin 3 → Arr d0) (T : Fin 3 → Arr d1) :
    op2 (transpose0231 (spinDot S T)) = ∑ a, S a ⊗ₖ T a := by
  ext ⟨i, j⟩ ⟨i', j'⟩
  show ∑ a : Fin 3, S a i i' * T a j j' = _
  rw [Matrix.sum_apply]
  rfl

lemma op2_mul {d0 d1 : ℕ} (A B : Block2 d0 d1) : op2 (blockMul A B) = op2 A * op2 B := by
  ext ⟨i, j⟩ ⟨i', j'⟩
  rw [mul_apply, Fintype.sum_prod_type]
  rfl

lemma op2_dagger {d0 d1 : ℕ} (A : Block2 d0 d1) : op2 (blockDagger A) = (op2 A)ᴴ := by
  ext ⟨i, j⟩ ⟨i', j'⟩
  rfl

lemma op2_outerInner {d0 d1 : ℕ} (A : Arr d0) (B : Arr d1) : op2 (outerInner A B) = A ⊗ₖ B := by
  ext ⟨i, j⟩ ⟨i', j'⟩
  rfl

/-- C65 (spins).  `heisenberg_coupling` is `J S.S`, `aklt_coupling` is `J (S.S + 1/3 (S.S)^2)`. -/
theorem C65_heisenberg_aklt {d0 d1 : ℕ} (S : Fin 3 → Arr d0) (T : Fin 3 → Arr d1) (J : ℝ) :
    let X := ∑ a, S a ⊗ₖ T a
    op2 (heisenberg S T J) = (J : ℂ) • X ∧
    op2 (aklt S T J) = (J : ℂ) • (X + (1 / 3 : ℂ) • (X * X)) := by
  constructor
  · rw [heisenberg, (C65_spin_spin S T fun _ => J).1, Finset.smul_sum]
  · have : op2 (aklt S T J) = (J : ℂ) • op2 (transpose0231 (spinDot S T))
        + ((J / 3 : ℝ) : ℂ) • op2 (blockMul (transpose0231 (spinDot S T)) (transpose0231 (spinDot S T))) := by
      ext ⟨i, j⟩ ⟨i', j'⟩
      rfl
    rw [this, op2_mul, op2_dot]
    push_cast
    module

/-- C65 (spins).  The Heisenberg and AKLT couplings of any two spins are hermitian and commute with
all components of the total spin, so that they are SU(2) symmetric. -/
theorem C65_spin_symmetric {d0 d1 : ℕ} (S : Fin 3 → Arr d0) (T : Fin 3 → Arr d1) (hS : IsSpin S)
    (hT : IsSpin T) (J : ℝ) :
    (op2 (heisenberg S T J))ᴴ = op2 (heisenberg S T J) ∧
    (op2 (aklt S T J))ᴴ = op2 (aklt S T J) ∧
    (∀ a, Commute (op2 (heisenberg S T J)) (total S T a)) ∧
    (∀ a, Commute (op2 (aklt S T J)) (total S T a)) := by
  obtain ⟨e1, e2⟩ := C65_heisenberg_aklt S T J
  have hX : (∑ a, S a ⊗ₖ T a)ᴴ = ∑ a, S a ⊗ₖ T a := by
    rw [conjTranspose_sum]
    exact Finset.sum_congr rfl fun a _ => by rw [conjTranspose_kronecker, hS.herm, hT.herm]
  rw [e1, e2]
  refine ⟨?_, ?_, fun a => ?_, fun a => ?_⟩
  · rw [conjTranspose_smul, hX]; simp
  · rw [conjTranspose_smul, conjTranspose_add, conjTranspose_smul, conjTranspose_mul, hX]; simp
  · exact (dot_vector S T T (isVector_of_comm S hS.comm) (isVector_of_comm T hT.comm) a).smul_left _
  · have h := dot_vector S T T (isVector_of_comm S hS.comm) (isVector_of_comm T hT.comm) a
    exact ((h.add_left ((h.mul_left h).smul_left _))).smul_left _

/-- C65 (spins).  `chiral_3spin_coupling` is `chi S0 . (S1 x S2)`; it is hermitian and commutes
with all components of the total spin of the three sites. -/
theorem C65_chiral {d0 d1 d2 : ℕ} (S : Fin 3 → Arr d0) (T : Fin 3 → Arr d1) (U : Fin 3 → Arr d2)
    (chi : ℝ) :
    op3 (chiral S T U chi) = (chi : ℂ) •
      (S 0 ⊗ₖ (T 1 ⊗ₖ U 2 - T 2 ⊗ₖ U 1) + S 1 ⊗ₖ (T 2 ⊗ₖ U 0 - T 0 ⊗ₖ U 2)
        + S 2 ⊗ₖ (T 0 ⊗ₖ U 1 - T 1 ⊗ₖ U 0)) ∧
    (IsSpin S → IsSpin T → IsSpin U →
      (op3 (chiral S T U chi))ᴴ = op3 (chiral S T U chi) ∧
      ∀ a, Commute (op3 (chiral S T U chi))
        (S a ⊗ₖ 1 + 1 ⊗ₖ (T a ⊗ₖ 1 + 1 ⊗ₖ U a))) := by
  have e : op3 (chiral S T U chi) = (chi : ℂ) • ∑ a, S a ⊗ₖ cross T U a := by
    ext ⟨i, j, k⟩ ⟨i', j', k'⟩
    show (chi : ℂ) * ∑ a : Fin 3, S a i i' * spinCross T U a j k k' j' = _
    rw [Matrix.smul_apply, Matrix.sum_apply]
    rfl
  refine ⟨?_, fun hS hT hU => ⟨?_, fun a => ?_⟩⟩
  · rw [e, Fin.sum_univ_three]; rfl
  · rw [e, conjTranspose_smul, conjTranspose_sum]
    congr 1
    · simp
    · refine Finset.sum_congr rfl fun a _ => ?_
      rw [conjTranspose_kronecker, cross, conjTranspose_sub, conjTranspose_kronecker,
        conjTranspose_kronecker]
      simp only [hS.herm, hT.herm, hU.herm]
  · rw [e]
    exact (dot_vector S (cross T U) _ (isVector_of_comm S hS.comm)
      (cross_vector T U (isVector_of_comm T hT.comm) (isVector_of_comm U hU.comm)) a).smul_left _

lemma dot_ladder {d0 d1 : ℕ} (Sz Sp : Arr d0) (Sz' Sp' : Arr d1) :
    ∑ a, spinVector Sz Sp a ⊗ₖ spinVector Sz' Sp' a
      = Sz ⊗ₖ Sz' + (1 / 2 : ℂ) • (Sp ⊗ₖ Sp'ᴴ + Spᴴ ⊗ₖ Sp') := by
  rw [Fin.sum_univ_three]
  simp only [spinVector, smul_kronecker, kronecker_smul, add_kronecker, kronecker_add, kron_sub_l,
    kron_sub_r, smul_smul]
  have : Complex.I / 2 * (Complex.I / 2) = -(1 / 4) := by
    have := Complex.I_mul_I; linear_combination (1 / 4 : ℂ) * this
  rw [this]
  module

/-- Four times `S.S` for two spins one half, as integers. -/
def dotHalf : Matrix (Fin 2 × Fin 2) (Fin 2 × Fin 2) ℤ := fun p q =>
  (if p = q then (if p.1 = p.2 then 1 else -1) else 0)
    + (if p.1 ≠ p.2 ∧ q = (p.2, p.1) then 2 else 0)

/-- `S.S` for two spins one, as integers. -/
def dotOne : Matrix (Fin 3 × Fin 3) (Fin 3 × Fin 3) ℤ := fun p q =>
  (if p = q then ((p.1.val : ℤ) - 1) * ((p.2.val : ℤ) - 1) else 0)
    + (if p.1.val = q.1.val + 1 ∧ q.2.val = p.2.val + 1 then 1 else 0)
    + (if q.1.val = p.1.val + 1 ∧ p.2.val = q.2.val + 1 then 1 else 0)

lemma dotHalf_sq : dotHalf * dotHalf + 2 * dotHalf - 3 = 0 := by decide +kernel

lemma dotOne_cubic : dotOne * dotOne * dotOne + 2 * (dotOne * dotOne) - dotOne - 2 = 0 := by
  decide +kernel

lemma dot_half_eq : ∑ a, spinSite 1 a ⊗ₖ spinSite 1 a = (1 / 4 : ℂ) • dotHalf.map (Int.castRingHom ℂ) := by
  rw [spinSite, dot_ladder]
  ext ⟨i, j⟩ ⟨i', j'⟩
  have c : spinCoeff 1 0 = 1 := by
    rw [spinCoeff]; norm_num
  fin_cases i <;> fin_cases j <;> fin_cases i' <;> fin_cases j' <;>
    simp [spinSz, spinSp, kronecker_apply, diagonal_apply, dotHalf, c] <;> norm_num

lemma dot_one_eq : ∑ a, spinSite 2 a ⊗ₖ spinSite 2 a = dotOne.map (Int.castRingHom ℂ) := by
  rw [spinSite, dot_ladder]
  ext ⟨i, j⟩ ⟨i', j'⟩
  have c : ((spinCoeff 2 0 : ℝ) : ℂ) = ((Real.sqrt 2 : ℝ) : ℂ) := by
    rw [spinCoeff]; norm_num
  have c1 : ((spinCoeff 2 1 : ℝ) : ℂ) = ((Real.sqrt 2 : ℝ) : ℂ) := by
    rw [spinCoeff]; norm_num
  have q : ((Real.sqrt 2 : ℝ) : ℂ) * ((Real.sqrt 2 : ℝ) : ℂ) = 2 := by
    rw [← Complex.ofReal_mul, Real.mul_self_sqrt (by norm_num)]; norm_num
  fin_cases i <;> fin_cases j <;> fin_cases i' <;> fin_cases j' <;>
    simp [spinSz, spinSp, kronecker_apply, diagonal_apply, dotOne, c, c1, q]
  all_goals norm_num

lemma dot_half_sq (X : Matrix (Fin 2 × Fin 2) (Fin 2 × Fin 2) ℂ)
    (hX : X = ∑ a, spinSite 1 a ⊗ₖ spinSite 1 a) : X * X = (3 / 16 : ℂ) • 1 - (1 / 2 : ℂ) • X := by
  have h' : dotHalf.map (Int.castRingHom ℂ) * dotHalf.map (Int.castRingHom ℂ)
      + 2 * dotHalf.map (Int.castRingHom ℂ) - 3 = 0 := by
    have e := congrArg (fun M => (Int.castRingHom ℂ).mapMatrix M) dotHalf_sq
    simp only [map_sub, map_add, map_mul, map_ofNat, map_zero] at e
    exact e
  rw [hX, dot_half_eq]
  generalize dotHalf.map (Int.castRingHom ℂ) = Y at h'
  have h2 : Y * Y = (3 : ℂ) • 1 - (2 : ℂ) • Y := by
    have e3 : (3 : Matrix (Fin 2 × Fin 2) (Fin 2 × Fin 2) ℂ) = (3 : ℂ) • 1 := by
      ext i j; simp [Matrix.smul_apply, Matrix.one_apply, Matrix.ofNat_apply]
    have e2 : (2 : Matrix (Fin 2 × Fin 2) (Fin 2 × Fin 2) ℂ) * Y = (2 : ℂ) • Y := by
      rw [two_mul, two_smul]
    rw [e3, e2] at h'
    linear_combination (norm := module) h'
  rw [smul_mul_smul_comm, h2]
  module

lemma dot_one_cubic (X : Matrix (Fin 3 × Fin 3) (Fin 3 × Fin 3) ℂ)
    (hX : X = ∑ a, spinSite 2 a ⊗ₖ spinSite 2 a) :
    X * X * X = (2 : ℂ) • 1 + X - (2 : ℂ) • (X * X) := by
  have h' : dotOne.map (Int.castRingHom ℂ) * dotOne.map (Int.castRingHom ℂ) * dotOne.map (Int.castRingHom ℂ)
      + 2 * (dotOne.map (Int.castRingHom ℂ) * dotOne.map (Int.castRingHom ℂ))
      - dotOne.map (Int.castRingHom ℂ) - 2 = 0 := by
    have e := congrArg (fun M => (Int.castRingHom ℂ).mapMatrix M) dotOne_cubic
    simp only [map_sub, map_add, map_mul, map_ofNat, map_zero] at e
    exact e
  rw [hX, dot_one_eq]
  generalize dotOne.map (Int.castRingHom ℂ) = Y at h'
  have e3 : (2 : Matrix (Fin 3 × Fin 3) (Fin 3 × Fin 3) ℂ) = (2 : ℂ) • 1 := by
    ext i j; simp [Matrix.smul_apply, Matrix.one_apply, Matrix.ofNat_apply]
  rw [two_mul, e3] at h'
  linear_combination (norm := module) h'

/-- C65 (AKLT).  For two spins one, `aklt_coupling` is `J (2 P - 2/3)` with `P` the projector onto
total spin two: `P` is an orthogonal projector, the square of the total spin is `2 (2 + 1)` on it
and one of `0 (0 + 1)`, `1 (1 + 1)` on its complement. -/
theorem C65_aklt_spin_one (J : ℝ) :
    ∃ P : Matrix (Fin 3 × Fin 3) (Fin 3 × Fin 3) ℂ,
      let Q := ∑ a, total (spinSite 2) (spinSite 2) a * total (spinSite 2) (spinSite 2) a
      Pᴴ = P ∧ P * P = P ∧ Q * P = (6 : ℂ) • P ∧ Q * (Q - (2 : ℂ) • 1) * (1 - P) = 0 ∧
      op2 (aklt (spinSite 2) (spinSite 2) J) = (J : ℂ) • ((2 : ℂ) • P - (2 / 3 : ℂ) • 1) := by
  set X : Matrix (Fin 3 × Fin 3) (Fin 3 × Fin 3) ℂ := ∑ a, spinSite 2 a ⊗ₖ spinSite 2 a with hX
  have hc := dot_one_cubic X hX
  have hs := (C65_sites_are_spins 2).1
  have hXh : Xᴴ = X := by
    rw [hX, conjTranspose_sum]
    exact Finset.sum_congr rfl fun a _ => by rw [conjTranspose_kronecker, hs.herm]
  have hQ : ∑ a, total (spinSite 2) (spinSite 2) a * total (spinSite 2) (spinSite 2) a
      = (4 : ℂ) • 1 + (2 : ℂ) • X := by
    have hsq : ∑ a, spinSite 2 a * spinSite 2 a = (2 : ℂ) • 1 := by
      rw [Fin.sum_univ_three]
      refine (C64_spin_algebra 2).2.2.2.2.1.trans ?_
      congr 1
      norm_num
    have ht : ∀ a, total (spinSite 2) (spinSite 2) a * total (spinSite 2) (spinSite 2) a
        = (spinSite 2 a * spinSite 2 a) ⊗ₖ 1 + 1 ⊗ₖ (spinSite 2 a * spinSite 2 a)
          + (2 : ℂ) • (spinSite 2 a ⊗ₖ spinSite 2 a) := by
      intro a
      rw [total, Matrix.mul_add, Matrix.add_mul, Matrix.add_mul]
      simp only [← mul_kronecker_mul, Matrix.mul_one, Matrix.one_mul]
      module
    rw [Finset.sum_congr rfl fun a _ => ht a, Finset.sum_add_distrib, Finset.sum_add_distrib,
      ← Finset.smul_sum, ← hX]
    have e1 : ∑ a, (spinSite 2 a * spinSite 2 a) ⊗ₖ (1 : Arr 3) = (2 : ℂ) • 1 := by
      have : ∑ a, (spinSite 2 a * spinSite 2 a) ⊗ₖ (1 : Arr 3)
          = (∑ a, spinSite 2 a * spinSite 2 a) ⊗ₖ (1 : Arr 3) := by
        rw [Fin.sum_univ_three, Fin.sum_univ_three, add_kronecker, add_kronecker]
      rw [this, hsq, smul_kronecker, one_kronecker_one]
    have e2 : ∑ a, (1 : Arr 3) ⊗ₖ (spinSite 2 a * spinSite 2 a) = (2 : ℂ) • 1 := by
      have : ∑ a, (1 : Arr 3) ⊗ₖ (spinSite 2 a * spinSite 2 a)
          = (1 : Arr 3) ⊗ₖ (∑ a, spinSite 2 a * spinSite 2 a) := by
        rw [Fin.sum_univ_three, Fin.sum_univ_three, kronecker_add, kronecker_add]
      rw [this, hsq, kronecker_smul, one_kronecker_one]
    rw [e1, e2]
    module
  have h3 : X * (X * X) = (2 : ℂ) • 1 + X - (2 : ℂ) • (X * X) := by rw [← hc, Matrix.mul_assoc]
  have h4 : X * X * (X * X) = (5 : ℂ) • (X * X) - (4 : ℂ) • 1 := by
    have : X * X * (X * X) = X * (X * (X * X)) := by simp only [Matrix.mul_assoc]
    rw [this, h3, Matrix.mul_sub, Matrix.mul_add, Matrix.mul_smul, Matrix.mul_smul, h3,
      Matrix.mul_one]
    module
  refine ⟨(1 / 6 : ℂ) • (X * X + (3 : ℂ) • X + (2 : ℂ) • 1), ?_, ?_, ?_, ?_, ?_⟩
  · simp [hXh]
  · simp only [Matrix.smul_mul, Matrix.mul_smul, Matrix.add_mul, Matrix.mul_add, Matrix.mul_one,
      Matrix.one_mul, h4, h3, hc]
    module
  · rw [hQ]
    simp only [Matrix.smul_mul, Matrix.mul_smul, Matrix.add_mul, Matrix.mul_add, Matrix.mul_one,
      Matrix.one_mul, h4, h3, hc]
    module
  · rw [hQ]
    simp only [Matrix.smul_mul, Matrix.mul_smul, Matrix.add_mul, Matrix.mul_add, Matrix.mul_one,
      Matrix.sub_mul, Matrix.mul_sub, Matrix.one_mul, h4, h3, hc]
    module
  · rw [(C65_heisenberg_aklt _ _ J).2, ← hX]
    module

/-- C65 (AKLT).  For two spins one half, `aklt_coupling` is a Heisenberg coupling plus a constant. -/
theorem C65_aklt_spin_half (J : ℝ) :
    op2 (aklt (spinSite 1) (spinSite 1) J)
      = op2 (heisenberg (spinSite 1) (spinSite 1) (5 / 6 * J)) + ((J : ℂ) / 16) • 1 := by
  obtain ⟨-, e2⟩ := C65_heisenberg_aklt (spinSite 1) (spinSite 1) J
  obtain ⟨e1, -⟩ := C65_heisenberg_aklt (spinSite 1) (spinSite 1) (5 / 6 * J)
  rw [e1, e2, dot_half_sq _ rfl]
  push_cast
  module

end Cyten.Couplings
