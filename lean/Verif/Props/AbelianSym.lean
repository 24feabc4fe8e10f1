import Verif.Lemmas.AbelianSym

/-!
# C07 (pointed anyon categories) and C11 (abelian charges)
-/

namespace Cyten.Props
open Cyten Cyten.Spec

/-! ## C11 -/

/-- Pointed data with trivial symbols. -/
theorem trivial_symbols (A : Cat ℤ ℂ) (m) (h : Cat.Pointed A m)
    (hF : ∀ a b c d e f, A.F a b c d e f = 1) (hR : ∀ a b c, A.R a b c = 1)
    (hC : ∀ a b c d e f, A.C a b c d e f = 1) : A.UnitaryBraided := by
  apply h.unitaryBraided (fun _ _ _ => 1) (fun _ _ => 1) <;> intros <;> simp [hF, hR, hC]

theorem u1_pointed (A : Cat ℤ ℂ) (hv : ∀ a, A.valid a ↔ IsInt16 a) (hu : A.unit = 0)
    (ho : ∀ a b, A.out a b = [cast16 (a + b)]) (hd : ∀ a, A.dual a = cast16 (-a)) :
    Cat.Pointed A (fun a b => cast16 (a + b)) := by
  constructor
  · intro a b _ _; exact ho a b
  · rw [hu]; exact (hv _).2 ⟨by norm_num, by norm_num⟩
  · intro a b _ _; exact (hv _).2 (isInt16_cast16 _)
  · intro a ha; rw [hu, zero_add]; exact cast16_of_int16 ((hv a).1 ha)
  · intro a b _ _; rw [add_comm]
  · intro a b c _ _ _; rw [cast16_add_left, cast16_add_right, add_assoc]
  · intro a _; rw [hd]; exact (hv _).2 (isInt16_cast16 _)
  · intro a _; rw [hd, cast16_add_right, hu]; simp [cast16]

/-- **C11** (U(1)). All `int16` charges are valid, and fusion makes them an abelian group with
`dual_sector` as inverse, *including* at the wrap-around; all symbols are consistent. -/
theorem C11_u1_group : U1.cat.UnitaryBraided :=
  trivial_symbols _ _ (u1_pointed U1.cat (fun _ => Iff.rfl) rfl (fun _ _ => rfl) (fun _ => rfl))
    (fun _ _ _ _ _ _ => rfl) (fun _ _ _ => rfl) (fun _ _ _ _ _ _ => rfl)

/-- **C11** (U(1)). The fused charge is the integer sum whenever that is representable … -/
theorem C11_u1_sum (a b : ℤ) (h : IsInt16 (a + b)) : U1.cat.out a b = [a + b] := by
  show [cast16 (a + b)] = _
  rw [cast16_of_int16 h]

/-- … and only then: otherwise the charge wraps around and charge conservation over the integers is
silently violated. -/
theorem C11_u1_sum_only_if (a b : ℤ) (h : ¬ IsInt16 (a + b)) : a + b ∉ U1.cat.out a b := by
  show a + b ∉ [cast16 (a + b)]
  rw [List.mem_singleton]
  intro e
  exact h (e ▸ isInt16_cast16 _)

example : ¬ IsInt16 (20000 + 20000) := by unfold IsInt16; omega
example : U1.cat.out 20000 20000 = [-25536] := by decide +kernel

/-- **C11** (Z_N), for `2 ≤ N ≤ 32768`. -/
theorem C11_zn_group (N : ℤ) (hN : 2 ≤ N) (hN' : N ≤ 32768) : (ZN.cat N).UnitaryBraided :=
  trivial_symbols _ _ (zn_pointed (ZN.cat N) N (by omega) hN' (fun _ => Iff.rfl) rfl
    (fun _ _ _ _ => rfl) (fun _ _ => rfl))
    (fun _ _ _ _ _ _ => rfl) (fun _ _ _ => rfl) (fun _ _ _ _ _ _ => rfl)

/-- **C11** (Z_N): fusion is addition modulo `N` and the dual is negation modulo `N`. -/
theorem C11_zn_values (N : ℤ) (hN : 2 ≤ N) (hN' : N ≤ 32768) (a b : ℤ) :
    (ZN.cat N).out a b = [(a + b) % N] ∧ (ZN.cat N).dual a = (-a) % N := by
  refine ⟨?_, modN_eq _ _ (by omega) hN'⟩
  show [modN (a + b) N] = _
  rw [modN_eq _ _ (by omega) hN']

/-- **C11** (Z_N), the constructor accepts every `N ≥ 2`, but for `N > 32768` the `int16` storage
makes valid sectors not closed under fusion. -/
theorem C11_zn_large_not_closed (N : ℤ) (hN : 32768 < N) (hN' : N ≤ 65535) :
    (ZN.cat N).valid 32767 ∧ (ZN.cat N).valid 1 ∧
      ∀ c ∈ (ZN.cat N).out 32767 1, ¬ (ZN.cat N).valid c := by
  refine ⟨⟨⟨by norm_num, by norm_num⟩, by norm_num, by omega⟩,
    ⟨⟨by norm_num, by norm_num⟩, by norm_num, by omega⟩, ?_⟩
  intro c hc
  have : c = modN (32767 + 1) N := by simpa [ZN.cat, ZN.fuse] using hc
  rw [this, modN_eq_cast _ _ (by omega), Int.emod_eq_of_lt (by norm_num) (by omega)]
  rintro ⟨_, h, _⟩
  revert h
  decide

/-- **C11** (no symmetry). -/
theorem C11_no_symmetry : NoSymmetry.cat.UnitaryBraided := by
  refine trivial_symbols _ (fun a _ => a) ?_ (fun _ _ _ _ _ _ => rfl) (fun _ _ _ => rfl)
    (fun _ _ _ _ _ _ => rfl)
  constructor <;> simp [NoSymmetry.cat]

theorem FermionParity.sign_eq (a b : ℤ) (ha : 0 ≤ a ∧ a < 2) (hb : 0 ≤ b ∧ b < 2) :
    ((FermionParity.sign a b : ℤ) : ℂ) = (-1) ^ (a * b) := by
  have h1 : a = 0 ∨ a = 1 := by omega
  have h2 : b = 0 ∨ b = 1 := by omega
  rcases h1 with rfl | rfl <;> rcases h2 with rfl | rfl <;> norm_num [FermionParity.sign]

theorem neg_one_zpow_star (k : ℤ) : star ((-1 : ℂ) ^ k) = (-1) ^ k := by
  rw [star_zpow₀]; simp

theorem neg_one_zpow_sq (k : ℤ) : (-1 : ℂ) ^ k * (-1) ^ k = 1 := by
  rw [← mul_zpow]; simp

/-- Fermion parity with its F, R, C symbols (including the overridden `_c_symbol`) is a unitary
braided category. -/
theorem C11_fermion_parity : FermionParity.cat.UnitaryBraided := by
  have hP : Cat.Pointed FermionParity.cat (fun a b => (a + b) % 2) := by
    constructor
    · intro a b _ _; simp [FermionParity.cat, modN_eq]
    · simp [FermionParity.cat]
    · intro a b _ _; simp only [FermionParity.cat]; omega
    · intro a ha; simp only [FermionParity.cat] at *; omega
    · intro a b _ _; omega
    · intro a b c _ _ _; omega
    · intro a ha; exact ha
    · intro a ha; simp only [FermionParity.cat] at *; omega
  have ev : Even (2 : ℤ) := even_two
  have sg : ∀ a b, FermionParity.cat.valid a → FermionParity.cat.valid b →
      ∀ c, FermionParity.cat.R a b c = (-1) ^ (a * b) := by
    intro a b ha hb c
    exact FermionParity.sign_eq a b ha hb
  have mx : ∀ x y : ℤ, (-1 : ℂ) ^ ((x % 2) * y) = (-1) ^ (x * y) := neg_one_zpow_emod_even 2 ev
  have mx' : ∀ x y : ℤ, (-1 : ℂ) ^ (y * (x % 2)) = (-1) ^ (y * x) := by
    intro x y; rw [mul_comm, mx, mul_comm]
  apply hP.unitaryBraided (fun _ _ _ => 1) (fun a b => (-1) ^ (a * b))
  · intros; rfl
  · intro a b ha hb; exact sg a b ha hb _
  · intro a b c ha hb hc
    have hab := hP.closed a b ha hb
    have h1 := FermionParity.sign_eq _ c hab hc
    have h2 := FermionParity.sign_eq a c ha hc
    simp only [FermionParity.cat, Int.cast_mul] at *
    rw [h1, h2, neg_one_zpow_star, mul_one]
  · intros; simp
  · intro a b _ _; rw [neg_one_zpow_star, neg_one_zpow_sq]
  · intros; simp
  · intro a b c _ _ _
    rw [mx', mul_one, one_mul, mul_one, ← zpow_add₀ (by norm_num)]
    congr 1; ring
  · intro a b c _ _ _
    simp only [neg_one_zpow_star]
    rw [mx, mul_one, one_mul, mul_one, ← zpow_add₀ (by norm_num)]
    congr 1; ring

theorem FermionNumber.sign_eq (a b : ℤ) :
    ((FermionNumber.sign a b : ℤ) : ℂ) = (-1) ^ (a * b) := by
  have ha : modN a 2 = a % 2 := modN_eq _ _ (by norm_num) (by norm_num)
  have hb : modN b 2 = b % 2 := modN_eq _ _ (by norm_num) (by norm_num)
  have h := FermionParity.sign_eq (a % 2) (b % 2) (by omega) (by omega)
  rw [neg_one_zpow_emod_even 2 even_two, mul_comm a, neg_one_zpow_emod_even 2 even_two,
    mul_comm b] at h
  rw [← h]
  simp only [FermionNumber.sign, FermionNumber.mod2, FermionParity.sign, ha, hb]

theorem neg_one_zpow_cast16 (x y : ℤ) : (-1 : ℂ) ^ (cast16 x * y) = (-1) ^ (x * y) := by
  have h := cast16_emod x
  have e : x * y = cast16 x * y + 2 * (32768 * (x / 65536 - cast16 x / 65536) * y) := by
    have h1 := Int.emod_add_mul_ediv x 65536
    have h2 := Int.emod_add_mul_ediv (cast16 x) 65536
    rw [h] at h2
    linear_combination y * h2 - y * h1
  rw [e, zpow_add₀ (by norm_num), zpow_mul (-1 : ℂ) 2]
  simp

/-- Fermion number: the `int16` charges with fermionic signs form a unitary braided category (the
wrap-around modulus is even, so signs stay consistent even under overflow). -/
theorem C11_fermion_number : FermionNumber.cat.UnitaryBraided := by
  have hP := u1_pointed FermionNumber.cat (fun _ => Iff.rfl) rfl (fun _ _ => rfl) (fun _ => rfl)
  have mx' : ∀ x y : ℤ, (-1 : ℂ) ^ (y * cast16 x) = (-1) ^ (y * x) := by
    intro x y; rw [mul_comm, neg_one_zpow_cast16, mul_comm]
  apply hP.unitaryBraided (fun _ _ _ => 1) (fun a b => (-1) ^ (a * b))
  · intros; rfl
  · intro a b ha hb; exact FermionNumber.sign_eq a b
  · intro a b c ha hb hc
    simp only [FermionNumber.cat, Int.cast_mul, FermionNumber.sign_eq]
    rw [neg_one_zpow_star, mul_one, mul_comm c]
  · intros; simp
  · intro a b _ _; rw [neg_one_zpow_star, neg_one_zpow_sq]
  · intros; simp
  · intro a b c _ _ _
    rw [mx', mul_one, one_mul, mul_one, ← zpow_add₀ (by norm_num)]
    congr 1; ring
  · intro a b c _ _ _
    simp only [neg_one_zpow_star]
    rw [neg_one_zpow_cast16, mul_one, one_mul, mul_one, ← zpow_add₀ (by norm_num)]
    congr 1; ring

/-- Fermionic twists: `-1` exactly for odd charge, and they satisfy the ribbon equations. -/
theorem C11_fermion_parity_ribbon : FermionParity.cat.Ribbon (fun _ => 1) FermionParity.twist := by
  constructor
  · intro a ha
    have : a = 0 ∨ a = 1 := by simp only [FermionParity.cat] at ha; omega
    rcases this with rfl | rfl <;> norm_num [FermionParity.cat, FermionParity.twist, FermionParity.sign]
  · intro a ha
    have : a = 0 ∨ a = 1 := by simp only [FermionParity.cat] at ha; omega
    rcases this with rfl | rfl <;> norm_num [FermionParity.twist]
  · intro a b c ha hb hc
    have h1 : a = 0 ∨ a = 1 := by simp only [FermionParity.cat] at ha; omega
    have h2 : b = 0 ∨ b = 1 := by simp only [FermionParity.cat] at hb; omega
    simp only [FermionParity.cat, modN_eq _ 2 (by norm_num) (by norm_num), List.mem_singleton] at hc
    subst hc
    rcases h1 with rfl | rfl <;> rcases h2 with rfl | rfl <;>
      norm_num [FermionParity.cat, FermionParity.twist, FermionParity.sign]
  · intro a _; rfl

/-- `multiple_fusion` of any list of Z_N sectors is the sum modulo `N`; in particular it does not
depend on the order of the sectors. -/
theorem C11_zn_multiple_fusion (N : ℤ) (hN : 2 ≤ N) (hN' : N ≤ 32768) (l : List ℤ)
    (hl : ∀ a ∈ l, (ZN.cat N).valid a) : multipleFusion (ZN.fuse N) 0 l = l.sum % N := by
  have key : ∀ (l : List ℤ) (a : ℤ), (l.foldl (ZN.fuse N) a) % N = (a + l.sum) % N := by
    intro l
    induction l with
    | nil => intro a; simp
    | cons b l ih =>
      intro a
      rw [List.foldl_cons, ih]
      show (modN (a + b) N + l.sum) % N = _
      rw [modN_eq _ _ (by omega) hN', List.sum_cons, Int.emod_add_emod, add_assoc]
  have key2 : ∀ (l : List ℤ) (a : ℤ), (ZN.cat N).valid a →
      (l.foldl (ZN.fuse N) a) % N = (l.foldl (ZN.fuse N) a) := by
    intro l
    induction l with
    | nil => intro a ha; exact Int.emod_eq_of_lt ha.2.1 ha.2.2
    | cons b l ih =>
      intro a ha
      rw [List.foldl_cons]
      apply ih
      show IsInt16 (modN (a + b) N) ∧ 0 ≤ modN (a + b) N ∧ modN (a + b) N < N
      rw [modN_eq _ _ (by omega) hN']
      have h1 := Int.emod_nonneg (a + b) (by omega : N ≠ 0)
      have h2 := Int.emod_lt_of_pos (a + b) (by omega : 0 < N)
      exact ⟨⟨by omega, by omega⟩, h1, h2⟩
  cases l with
  | nil => simp [multipleFusion]
  | cons a l =>
    rw [multipleFusion, ← key2 l a (hl a (by simp)), key, List.sum_cons]

/-- `multiple_fusion` for U(1): the integer sum, wrapped once. -/
theorem C11_u1_multiple_fusion (l : List ℤ) (hl : ∀ a ∈ l, IsInt16 a) :
    multipleFusion U1.fuse 0 l = cast16 l.sum := by
  have key : ∀ (l : List ℤ) (a : ℤ), IsInt16 a → l.foldl U1.fuse a = cast16 (a + l.sum) := by
    intro l
    induction l with
    | nil => intro a ha; simp [cast16_of_int16 ha]
    | cons b l ih =>
      intro a ha
      rw [List.foldl_cons, U1.fuse, ih _ (isInt16_cast16 _), cast16_add_left, List.sum_cons, add_assoc]
  cases l with
  | nil => simp [multipleFusion, cast16]
  | cons a l => rw [multipleFusion, key l a (hl a (by simp)), List.sum_cons]

example : multipleFusion (ZN.fuse 5) 0 [3, 4, 4] = 1 := by decide +kernel

/-! ## C07 -/

theorem zpow_mul_emod_left (p : ℂ) (hp : p ≠ 0) (N : ℤ) (h : p ^ N = 1) (x c : ℤ) :
    p ^ ((x % N) * c) = p ^ (x * c) := by
  rw [mul_comm, phase_zpow_emod p hp N h, mul_comm]

/-- **C07** (`ZNAnyonCategory`). -/
theorem C07_zn_anyon (N n : ℤ) (hN : 2 ≤ N) (hN' : N ≤ 32768) :
    (ZNAnyon.cat N n).UnitaryBraided := by
  have hP := zn_pointed (ZNAnyon.cat N n) N (by omega) hN' (fun _ => Iff.rfl) rfl
    (fun _ _ _ _ => rfl) (fun _ _ => rfl)
  have hp1 := ZNAnyon.phase_unit N n
  have hp0 := phase_ne_zero _ hp1
  have hpN := ZNAnyon.phase_pow N n (by omega)
  have st := star_zpow_phase _ hp1
  apply hP.unitaryBraided (fun _ _ _ => 1) (fun a b => ZNAnyon.phase N n ^ (a * b))
  · intros; rfl
  · intros; rfl
  · intro a b c _ _ _
    show ZNAnyon.phase N n ^ (b * c) = _
    rw [st, zpow_mul_emod_left _ hp0 N hpN, mul_one, ← zpow_add₀ hp0]
    congr 1; ring
  · intros; simp
  · intro a b _ _; rw [st, ← zpow_add₀ hp0]; simp
  · intros; simp
  · intro a b c _ _ _
    rw [phase_zpow_emod _ hp0 N hpN, mul_one, one_mul, mul_one, ← zpow_add₀ hp0]
    congr 1; ring
  · intro a b c _ _ _
    simp only [st]
    rw [← neg_mul (((a + b) % N)), mul_one, one_mul, mul_one, ← zpow_add₀ hp0]
    rw [show -((a + b) % N) * c = ((a+b) % N) * (-c) by ring, zpow_mul_emod_left _ hp0 N hpN]
    congr 1; ring

/-- **C07** (`ZNAnyonCategory2`), `N` even as the constructor demands. -/
theorem C07_zn_anyon2 (N n : ℤ) (hN : 2 ≤ N) (hN' : N ≤ 32768) (hev : N % 2 = 0) :
    (ZNAnyon2.cat N n).UnitaryBraided := by
  have hP := zn_pointed (ZNAnyon2.cat N n) N (by omega) hN' (fun _ => Iff.rfl) rfl
    (fun _ _ _ _ => rfl) (fun _ _ => rfl)
  have hp1 := ZNAnyon2.phase_unit N n
  have hp0 := phase_ne_zero _ hp1
  have hpN := ZNAnyon2.phase_pow N n (by omega)
  have st := star_zpow_phase _ hp1
  have hE : Even N := Int.even_iff.2 hev
  have n1 : (-1 : ℂ) ≠ 0 := by norm_num
  -- the wrap-around of one R-argument is a sign
  have wrap : ∀ c x : ℤ, ZNAnyon2.phase N n ^ (c * (x % N)) =
      ZNAnyon2.phase N n ^ (c * x) * (-1) ^ (c * (x / N)) := by
    intro c x
    have e : c * (x % N) = c * x + N * (-(c * (x / N))) := by
      linear_combination c * (Int.emod_add_mul_ediv x N)
    rw [e, zpow_add₀ hp0, zpow_mul _ N, hpN, zpow_neg, ← inv_zpow]
    norm_num
  have sq := neg_one_zpow_sq
  -- reduced F symbol
  have hF : ∀ a b c : ℤ, (ZNAnyon2.cat N n).valid b → (ZNAnyon2.cat N n).valid c →
      ∀ d e f, (ZNAnyon2.cat N n).F a b c d e f = (-1) ^ (a * ((b + c) / N)) := by
    intro a b c hb hc d e f
    show ((paritySign (a * Int.tdiv (b + c) N) : ℤ) : ℂ) = _
    rw [paritySign_eq, Int.tdiv_eq_ediv_of_nonneg (by have := hb.2.1; have := hc.2.1; omega)]
  have cocycle : ∀ b c d : ℤ, (c + d) / N + (b + (c + d) % N) / N =
      (b + c) / N + ((b + c) % N + d) / N := by
    intro b c d
    have hN0 : N ≠ 0 := by omega
    have h1 : (b + (c + d) % N) / N + (c + d) / N = (b + c + d) / N := by
      rw [← Int.add_mul_ediv_left _ _ hN0]
      congr 1
      have := Int.emod_add_mul_ediv (c + d) N
      linarith
    have h2 : ((b + c) % N + d) / N + (b + c) / N = (b + c + d) / N := by
      rw [← Int.add_mul_ediv_left _ _ hN0]
      congr 1
      have := Int.emod_add_mul_ediv (b + c) N
      linarith
    linarith
  apply hP.unitaryBraided (fun a b c => (-1) ^ (a * ((b + c) / N)))
    (fun a b => ZNAnyon2.phase N n ^ (a * b))
  · intro a b c _ hb hc; exact hF a b c hb hc _ _ _
  · intros; rfl
  · intro a b c _ _ _
    show ZNAnyon2.phase N n ^ (b * c) = _
    rw [st, mul_comm ((a + b) % N), wrap]
    rw [mul_assoc (ZNAnyon2.phase N n ^ _), sq, mul_one, ← zpow_add₀ hp0]
    congr 1; ring
  · intro a b c _ _ _; rw [neg_one_zpow_star, sq]
  · intro a b _ _; rw [st, ← zpow_add₀ hp0]; simp
  · intro a b c d _ _ _ _
    show (-1 : ℂ) ^ ((a + b) % N * ((c + d) / N)) * (-1) ^ (a * ((b + (c + d) % N) / N)) =
      (-1) ^ (a * ((b + c) / N)) * (-1) ^ (a * (((b + c) % N + d) / N)) * (-1) ^ (b * ((c + d) / N))
    rw [neg_one_zpow_emod_even N hE, ← zpow_add₀ n1, ← zpow_add₀ n1, ← zpow_add₀ n1]
    congr 1
    linear_combination a * cocycle b c d
  · intro a b c _ _ _
    show ZNAnyon2.phase N n ^ (c * a) * (-1) ^ (a * ((c + b) / N)) * ZNAnyon2.phase N n ^ (c * b) =
      (-1) ^ (c * ((a + b) / N)) * ZNAnyon2.phase N n ^ (c * ((a + b) % N)) *
        (-1) ^ (a * ((b + c) / N))
    rw [wrap, mul_add c a b, zpow_add₀ hp0, add_comm c b]
    have := sq (c * ((a + b) / N))
    linear_combination (-(ZNAnyon2.phase N n ^ (c * a) * ZNAnyon2.phase N n ^ (c * b) *
      (-1) ^ (a * ((b + c) / N)))) * this
  · intro a b c _ _ _
    show star (ZNAnyon2.phase N n ^ (a * c)) * (-1) ^ (a * ((c + b) / N)) *
        star (ZNAnyon2.phase N n ^ (b * c)) =
      (-1) ^ (c * ((a + b) / N)) * star (ZNAnyon2.phase N n ^ (((a + b) % N) * c)) *
        (-1) ^ (a * ((b + c) / N))
    rw [mul_comm ((a + b) % N) c, wrap, star_mul', neg_one_zpow_star, mul_add c a b, zpow_add₀ hp0,
      star_mul', add_comm c b, mul_comm c a, mul_comm c b]
    have := sq (c * ((a + b) / N))
    linear_combination (-(star (ZNAnyon2.phase N n ^ (a * c)) * star (ZNAnyon2.phase N n ^ (b * c)) *
      (-1) ^ (a * ((b + c) / N)))) * this

/-- **C07** (`QuantumDoubleZNAnyonCategory`, and for `N = 2` the `ToricCodeCategory`). -/
theorem C07_quantum_double (N : ℤ) (hN : 2 ≤ N) (hN' : N ≤ 32768) :
    (QDouble.cat N).UnitaryBraided := by
  have hN0 : 0 < N := by omega
  have hval : ∀ x : ℤ, IsInt16 (x % N) ∧ 0 ≤ x % N ∧ x % N < N := by
    intro x
    have h1 := Int.emod_nonneg x (by omega : N ≠ 0)
    have h2 := Int.emod_lt_of_pos x hN0
    exact ⟨⟨by omega, by omega⟩, h1, h2⟩
  have hneg : ∀ x : ℤ, IsInt16 x ∧ 0 ≤ x ∧ x < N → cast16 (-x) = -x := by
    intro x hx
    exact cast16_of_int16 ⟨by have := hx.1.2; omega, by have := hx.2.1; omega⟩
  have hP : Cat.Pointed (QDouble.cat N) (fun a b => ((a.1 + b.1) % N, (a.2 + b.2) % N)) := by
    constructor
    · intro a b _ _; simp [QDouble.cat, modN_eq _ _ hN0 hN']
    · have := hval 0; simp only [Int.zero_emod] at this; exact ⟨this, this⟩
    · intro a b _ _; exact ⟨hval _, hval _⟩
    · intro a ha
      obtain ⟨h1, h2⟩ := ha
      simp [QDouble.cat, Int.emod_eq_of_lt h1.2.1 h1.2.2, Int.emod_eq_of_lt h2.2.1 h2.2.2]
    · intro a b _ _; simp only [add_comm]
    · intro a b c _ _ _; simp [add_assoc]
    · intro a ha
      obtain ⟨h1, h2⟩ := ha
      simp only [QDouble.cat, hneg _ h1, hneg _ h2, modN_eq _ _ hN0 hN']
      exact ⟨hval _, hval _⟩
    · intro a ha
      obtain ⟨h1, h2⟩ := ha
      simp [QDouble.cat, hneg _ h1, hneg _ h2, modN_eq _ _ hN0 hN']
  have hp1 := QDouble.phase_unit N
  have hp0 := phase_ne_zero _ hp1
  have hpN := QDouble.phase_pow N (by omega)
  have st := star_zpow_phase _ hp1
  apply hP.unitaryBraided (fun _ _ _ => 1) (fun a b => QDouble.phase N ^ (a.1 * b.2))
  · intros; rfl
  · intros; rfl
  · intro a b c _ _ _
    show QDouble.phase N ^ (b.1 * c.2) = _
    rw [st, zpow_mul_emod_left _ hp0 N hpN, mul_one, ← zpow_add₀ hp0]
    congr 1; ring
  · intros; simp
  · intro a b _ _; rw [st, ← zpow_add₀ hp0]; simp
  · intros; simp
  · intro a b c _ _ _
    rw [phase_zpow_emod _ hp0 N hpN, mul_one, one_mul, mul_one, ← zpow_add₀ hp0]
    congr 1; ring
  · intro a b c _ _ _
    simp only [st]
    rw [mul_one, one_mul, mul_one, ← zpow_add₀ hp0]
    rw [show -((a.1 + b.1) % N * c.2) = ((a.1 + b.1) % N) * (-c.2) by ring,
      zpow_mul_emod_left _ hp0 N hpN]
    congr 1; ring

/-- **C07**: the topological twist of `ZNAnyonCategory` is `phase^(a²)` and satisfies the ribbon
equations. -/
theorem C07_zn_anyon_ribbon (N n : ℤ) (hN : 2 ≤ N) (hN' : N ≤ 32768) :
    (∀ a, defaultTwist (ZNAnyon.cat N n) (fun _ => 1) a = ZNAnyon.phase N n ^ (a * a)) ∧
    (ZNAnyon.cat N n).Ribbon (fun _ => 1) (defaultTwist (ZNAnyon.cat N n) (fun _ => 1)) := by
  have hp1 := ZNAnyon.phase_unit N n
  have hp0 := phase_ne_zero _ hp1
  have hpN := ZNAnyon.phase_pow N n (by omega)
  have tw : ∀ a, defaultTwist (ZNAnyon.cat N n) (fun _ => 1) a = ZNAnyon.phase N n ^ (a * a) := by
    intro a; simp [defaultTwist, ZNAnyon.cat]
  refine ⟨tw, ?_, ?_, ?_, ?_⟩
  · intro a _; rw [tw]; simp [ZNAnyon.cat]
  · intro a _; rw [tw, star_zpow_phase _ hp1, ← zpow_add₀ hp0]; simp
  · intro a b c _ _ hc
    have : c = (a + b) % N := by
      rw [← modN_eq _ _ (by omega : 0 < N) hN']; simpa [ZNAnyon.cat] using hc
    rw [tw, tw, tw, this, phase_zpow_emod _ hp0 N hpN, zpow_mul_emod_left _ hp0 N hpN]
    show ZNAnyon.phase N n ^ (b * a) * ZNAnyon.phase N n ^ (a * b) * _ = _
    simp only [← zpow_add₀ hp0]
    congr 1; ring
  · intro a _
    rw [tw, tw]
    show ZNAnyon.phase N n ^ (modN (-a) N * modN (-a) N) = _
    rw [modN_eq _ _ (by omega : 0 < N) hN', phase_zpow_emod _ hp0 N hpN,
      zpow_mul_emod_left _ hp0 N hpN]
    congr 1; ring

/-- **C07**: the ribbon equations of `ZNAnyonCategory2`. -/
theorem C07_zn_anyon2_ribbon (N n : ℤ) (hN : 2 ≤ N) (hN' : N ≤ 32768) (hev : N % 2 = 0) :
    (∀ a, defaultTwist (ZNAnyon2.cat N n) (fun _ => 1) a = ZNAnyon2.phase N n ^ (a * a)) ∧
    (ZNAnyon2.cat N n).Ribbon (fun _ => 1) (defaultTwist (ZNAnyon2.cat N n) (fun _ => 1)) := by
  have hp1 := ZNAnyon2.phase_unit N n
  have hp0 := phase_ne_zero _ hp1
  have hpN := ZNAnyon2.phase_pow N n (by omega)
  obtain ⟨M, hM⟩ : ∃ M, N = 2 * M := ⟨N / 2, by omega⟩
  -- squares are insensitive to the wrap-around
  have sqr : ∀ x : ℤ, ZNAnyon2.phase N n ^ ((x % N) * (x % N)) = ZNAnyon2.phase N n ^ (x * x) := by
    intro x
    have e : x * x = (x % N) * (x % N) + N * (2 * ((x % N) * (x / N) + M * (x / N) * (x / N))) := by
      have := Int.emod_add_mul_ediv x N
      have hx : x = x % N + N * (x / N) := this.symm
      calc x * x = (x % N + N * (x / N)) * (x % N + N * (x / N)) := by rw [← hx]
        _ = _ := by
          have : N * (N * (x / N) * (x / N)) = N * (2 * M * (x / N) * (x / N)) := by rw [← hM]
          linear_combination this
    rw [e, zpow_add₀ hp0, zpow_mul _ N, hpN, zpow_mul (-1 : ℂ) 2]
    simp
  have tw : ∀ a, defaultTwist (ZNAnyon2.cat N n) (fun _ => 1) a = ZNAnyon2.phase N n ^ (a * a) := by
    intro a; simp [defaultTwist, ZNAnyon2.cat]
  refine ⟨tw, ?_, ?_, ?_, ?_⟩
  · intro a _; rw [tw]; simp [ZNAnyon2.cat]
  · intro a _; rw [tw, star_zpow_phase _ hp1, ← zpow_add₀ hp0]; simp
  · intro a b c _ _ hc
    have : c = (a + b) % N := by
      rw [← modN_eq _ _ (by omega : 0 < N) hN']; simpa [ZNAnyon2.cat] using hc
    rw [tw, tw, tw, this, sqr]
    show ZNAnyon2.phase N n ^ (b * a) * ZNAnyon2.phase N n ^ (a * b) * _ = _
    simp only [← zpow_add₀ hp0]
    congr 1; ring
  · intro a _
    rw [tw, tw]
    show ZNAnyon2.phase N n ^ (modN (-a) N * modN (-a) N) = _
    rw [modN_eq _ _ (by omega : 0 < N) hN', sqr]
    congr 1; ring

/-- **C07**: the Frobenius-Schur indicator of `ZNAnyonCategory2` agrees with the one determined by
its F symbols (`sign F^{a ā a}_a`). -/
theorem C07_zn_anyon2_frobenius (N n : ℤ) (hN : 2 ≤ N) (hN' : N ≤ 32768) (a : ℤ)
    (ha : (ZNAnyon2.cat N n).valid a) :
    ZNAnyon2.frobeniusSchur a = defaultFrobeniusSchur (ZNAnyon2.cat N n) a := by
  have h0 : 0 ≤ a := ha.2.1
  have h1 : a < N := ha.2.2
  have key : a * Int.tdiv (modN (-a) N + a) N = a := by
    rw [modN_eq _ _ (by omega : 0 < N) hN']
    rcases eq_or_lt_of_le h0 with h | h
    · simp [← h]
    · have : (-a) % N = N - a := by
        have e := Int.emod_eq_of_lt (by omega : 0 ≤ N - a) (by omega : N - a < N)
        rw [← e, ← Int.add_emod_right (-a) N]; congr 1; ring
      rw [this, sub_add_cancel, Int.tdiv_self (by omega), mul_one]
  simp only [defaultFrobeniusSchur, ZNAnyon2.frobeniusSchur, ZNAnyon2.cat, key]
  unfold paritySign
  split <;> norm_num

/-- **C07**: ribbon equations of the quantum double; twists are `phase^(a₀ a₁)`. -/
theorem C07_quantum_double_ribbon (N : ℤ) (hN : 2 ≤ N) (hN' : N ≤ 32768) :
    (∀ a, defaultTwist (QDouble.cat N) (fun _ => 1) a = QDouble.phase N ^ (a.1 * a.2)) ∧
    (QDouble.cat N).Ribbon (fun _ => 1) (defaultTwist (QDouble.cat N) (fun _ => 1)) := by
  have hN0 : 0 < N := by omega
  have hp1 := QDouble.phase_unit N
  have hp0 := phase_ne_zero _ hp1
  have hpN := QDouble.phase_pow N (by omega)
  have tw : ∀ a, defaultTwist (QDouble.cat N) (fun _ => 1) a = QDouble.phase N ^ (a.1 * a.2) := by
    intro a; simp [defaultTwist, QDouble.cat]
  have hneg : ∀ x : ℤ, IsInt16 x ∧ 0 ≤ x ∧ x < N → cast16 (-x) = -x := by
    intro x hx
    exact cast16_of_int16 ⟨by have := hx.1.2; omega, by have := hx.2.1; omega⟩
  refine ⟨tw, ?_, ?_, ?_, ?_⟩
  · intro a _; rw [tw]; simp [QDouble.cat]
  · intro a _; rw [tw, star_zpow_phase _ hp1, ← zpow_add₀ hp0]; simp
  · intro a b c _ _ hc
    have : c = ((a.1 + b.1) % N, (a.2 + b.2) % N) := by
      rw [← modN_eq _ _ hN0 hN', ← modN_eq _ _ hN0 hN']; simpa [QDouble.cat] using hc
    rw [tw, tw, tw, this, phase_zpow_emod _ hp0 N hpN, zpow_mul_emod_left _ hp0 N hpN]
    show QDouble.phase N ^ (b.1 * a.2) * QDouble.phase N ^ (a.1 * b.2) * _ = _
    simp only [← zpow_add₀ hp0]
    congr 1; ring
  · intro a ha
    rw [tw, tw]
    show QDouble.phase N ^ (modN (cast16 (-a.1)) N * modN (cast16 (-a.2)) N) = _
    rw [hneg _ ha.1, hneg _ ha.2, modN_eq _ _ hN0 hN', modN_eq _ _ hN0 hN',
      phase_zpow_emod _ hp0 N hpN, zpow_mul_emod_left _ hp0 N hpN]
    congr 1; ring

/-- Non-vacuity: the semion-like `ZNAnyonCategory2(2, 0)` has a non-trivial associator. -/
example : (ZNAnyon2.cat 2 0).valid 1 ∧ (ZNAnyon2.cat 2 0).F 1 1 1 1 0 0 = -1 := by
  refine ⟨⟨⟨by norm_num, by norm_num⟩, by norm_num, by norm_num⟩, ?_⟩
  have : paritySign (1 * Int.tdiv (1 + 1) 2) = -1 := by decide
  show ((paritySign (1 * Int.tdiv (1 + 1) 2) : ℤ) : ℂ) = -1
  rw [this]; norm_num

end Cyten.Props
