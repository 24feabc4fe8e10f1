import Verif.Lemmas.SU2

namespace Cyten.SU2k
open Spec

/-- `exp(i t π / (k+2))`; `qpow k x = E k (2 x)` -/
noncomputable def E (k : ℤ) (t : ℝ) : ℂ :=
  Complex.exp (Complex.I * ((t * (Real.pi / (k + 2)) : ℝ) : ℂ))

theorem E_add (k : ℤ) (s t : ℝ) : E k (s + t) = E k s * E k t := by
  unfold E; rw [← Complex.exp_add]; congr 1; push_cast; ring

theorem E_zero (k : ℤ) : E k 0 = 1 := by simp [E]

theorem E_star (k : ℤ) (t : ℝ) : star (E k t) = E k (-t) := by
  unfold E; rw [Complex.star_def, ← Complex.exp_conj]; congr 1
  rw [map_mul, Complex.conj_I, Complex.conj_ofReal]; push_cast; ring

theorem E_mul_star (k : ℤ) (t : ℝ) : E k t * star (E k t) = 1 := by
  rw [E_star, ← E_add]; simp [E_zero]

theorem qpow_eq (k : ℤ) (x : ℝ) : qpow k x = E k (2 * x) := by
  unfold qpow E; congr 2; push_cast; ring

theorem sin_eq (k : ℤ) (n : ℝ) : ((Real.sin (n * Real.pi / (k + 2)) : ℝ) : ℂ) =
    (E k n - E k (-n)) / (2 * Complex.I) := by
  unfold E
  rw [Complex.ofReal_sin, Complex.sin]
  have e1 : Complex.I * ((n * (Real.pi / (k + 2)) : ℝ) : ℂ) =
      ((n * Real.pi / (k + 2) : ℝ) : ℂ) * Complex.I := by push_cast; ring
  have e2 : Complex.I * ((-n * (Real.pi / (k + 2)) : ℝ) : ℂ) =
      -((n * Real.pi / (k + 2) : ℝ) : ℂ) * Complex.I := by push_cast; ring
  rw [e1, e2]
  generalize Complex.exp (-((n * Real.pi / (k + 2) : ℝ) : ℂ) * Complex.I) = u
  generalize Complex.exp (((n * Real.pi / (k + 2) : ℝ) : ℂ) * Complex.I) = v
  have hI : Complex.I ≠ 0 := Complex.I_ne_zero
  have hI2 : Complex.I * Complex.I = -1 := Complex.I_mul_I
  field_simp
  linear_combination (u - v) * hI2

/-- the telescoping sum behind the twist formula -/
theorem tele (k : ℤ) (n : ℕ) :
    ((List.range (n + 1)).map fun m : ℕ =>
      (-1 : ℂ) ^ m * ((E k (2 * m + 1) - E k (-(2 * m + 1))) * E k (m * (m + 1)))).sum =
    (-1 : ℂ) ^ n * ((E k (n + 1) - E k (-(n + 1))) * E k (n * (n + 2))) := by
  induction n with
  | zero => simp [E_zero]
  | succ n ih =>
    rw [List.range_succ, List.map_append, List.sum_append, ih]
    simp only [List.map_cons, List.map_nil, List.sum_cons, List.sum_nil, add_zero, sub_mul, ← E_add,
      pow_succ]
    push_cast
    have e1 : (n : ℝ) + 1 + n * (n + 2) = n * n + 3 * n + 1 := by ring
    have e2 : -((n : ℝ) + 1) + n * (n + 2) = n * n + n - 1 := by ring
    have e3 : 2 * ((n : ℝ) + 1) + 1 + (n + 1) * (n + 1 + 1) = n * n + 5 * n + 5 := by ring
    have e4 : -(2 * ((n : ℝ) + 1) + 1) + (n + 1) * (n + 1 + 1) = n * n + n - 1 := by ring
    have e5 : (n : ℝ) + 1 + 1 + (n + 1) * (n + 1 + 2) = n * n + 5 * n + 5 := by ring
    have e6 : -((n : ℝ) + 1 + 1) + (n + 1) * (n + 1 + 2) = n * n + 3 * n + 1 := by ring
    rw [e1, e2, e3, e4, e5, e6]
    ring

variable {k : ℤ}

theorem sin_pos {k : ℤ} (hk : 1 ≤ k) {n : ℝ} (h1 : 0 < n) (h2 : n < k + 2) :
    0 < Real.sin (n * Real.pi / (k + 2)) := by
  have hk' : (1 : ℝ) ≤ k := by exact_mod_cast hk
  have hp := Real.pi_pos
  apply Real.sin_pos_of_pos_of_lt_pi
  · positivity
  · rw [div_lt_iff₀ (by linarith), mul_comm]
    exact mul_lt_mul_of_pos_left h2 hp

theorem sin1_pos {k : ℤ} (hk : 1 ≤ k) : 0 < Real.sin (Real.pi / (k + 2)) := by
  have hk' : (1 : ℝ) ≤ k := by exact_mod_cast hk
  have := sin_pos hk (n := 1) (by norm_num) (by linarith)
  rwa [one_mul] at this

theorem qdim_pos (hk : 1 ≤ k) {a : ℤ} (ha : 0 ≤ a ∧ a ≤ k) : 0 < qdim k a := by
  have h1 : (0 : ℝ) ≤ a := by exact_mod_cast ha.1
  have h2 : (a : ℝ) ≤ k := by exact_mod_cast ha.2
  exact div_pos (sin_pos hk (by linarith) (by linarith)) (sin1_pos hk)

/-- `Σ sin((c+1)x) sin x` over an arithmetic progression telescopes -/
theorem tele_sin (x : ℝ) (lo : ℤ) (n : ℕ) :
    ((ap lo n).map fun c : ℤ => Real.sin ((c + 1) * x)).sum * (2 * Real.sin x) =
      Real.cos (lo * x) - Real.cos ((lo + 2 * n) * x) := by
  induction n with
  | zero => simp [ap]
  | succ n ih =>
    rw [ap_succ, List.map_append, List.sum_append, add_mul, ih]
    simp only [List.map_cons, List.map_nil, List.sum_cons, List.sum_nil, add_zero]
    push_cast
    have e1 : (lo + 2 * (n : ℝ)) * x = (lo + 2 * n + 1) * x - x := by ring
    have e2 : (lo + 2 * ((n : ℝ) + 1)) * x = (lo + 2 * n + 1) * x + x := by ring
    rw [e1, e2, Real.cos_sub, Real.cos_add]
    ring

theorem qdim_mul (hk1 : 1 ≤ k) (hk : k ≤ 32767) {a b : ℤ} (ha : 0 ≤ a ∧ a ≤ k)
    (hb : 0 ≤ b ∧ b ≤ k) : qdim k a * qdim k b = ((out k a b).map (qdim k)).sum := by
  have hs := sin1_pos hk1
  set x : ℝ := Real.pi / (k + 2) with hx
  have hk' : ((k : ℝ) + 2) ≠ 0 := by
    have : (1 : ℝ) ≤ k := by exact_mod_cast hk1
    linarith
  have q : ∀ c : ℤ, qdim k c = Real.sin ((c + 1) * x) * (Real.sin x)⁻¹ := by
    intro c; rw [qdim, div_eq_mul_inv, hx]; congr 2; ring
  have hsum : ((out k a b).map (qdim k)).sum =
      ((out k a b).map fun c : ℤ => Real.sin ((c + 1) * x)).sum * (Real.sin x)⁻¹ := by
    rw [← List.sum_map_mul_right]
    congr 1
    exact List.map_congr_left fun c _ => q c
  rw [hsum, q, q, out_eq hk ha hb]
  have ht := tele_sin x ((a - b).natAbs : ℤ) (min (min a b) (k - max a b) + 1).toNat
  have hcos1 : Real.cos ((((a - b).natAbs : ℤ) : ℝ) * x) = Real.cos ((a - b) * x) := by
    rcases le_total b a with h | h
    · have : ((a - b).natAbs : ℤ) = a - b := by omega
      rw [this]; push_cast; rfl
    · have : ((a - b).natAbs : ℤ) = -(a - b) := by omega
      rw [this]; push_cast; rw [neg_mul, Real.cos_neg]
  have hcos2 : Real.cos (((((a - b).natAbs : ℤ) : ℝ) +
      2 * (((min (min a b) (k - max a b) + 1).toNat : ℕ) : ℝ)) * x) = Real.cos ((a + b + 2) * x) := by
    have hc : ((((a - b).natAbs : ℤ) : ℝ) + 2 * (((min (min a b) (k - max a b) + 1).toNat : ℕ) : ℝ)) =
        ((((a - b).natAbs : ℤ) + 2 * ((min (min a b) (k - max a b) + 1).toNat : ℤ) : ℤ) : ℝ) := by
      push_cast; rfl
    rw [hc]
    have : ((a - b).natAbs : ℤ) + 2 * ((min (min a b) (k - max a b) + 1).toNat : ℤ) = a + b + 2 ∨
      ((a - b).natAbs : ℤ) + 2 * ((min (min a b) (k - max a b) + 1).toNat : ℤ) =
        2 * (k + 2) - (a + b + 2) := by omega
    rcases this with h | h
    · rw [h]; push_cast; rfl
    · rw [h]; push_cast
      have : (2 * ((k : ℝ) + 2) - (a + b + 2)) * x = 2 * Real.pi - (a + b + 2) * x := by
        rw [hx]; field_simp
      rw [this, Real.cos_two_pi_sub]
  rw [hcos1, hcos2] at ht
  have e1 : ((a : ℝ) - b) * x = (a + 1) * x - (b + 1) * x := by ring
  have e2 : ((a : ℝ) + b + 2) * x = (a + 1) * x + (b + 1) * x := by ring
  rw [e1, e2, Real.cos_sub, Real.cos_add] at ht
  have hs' := hs.ne'
  generalize ((ap ((a - b).natAbs : ℤ) (min (min a b) (k - max a b) + 1).toNat).map
    fun c : ℤ => Real.sin ((c + 1) * x)).sum = S at *
  generalize Real.sin ((a + 1) * x) = u at *
  generalize Real.sin ((b + 1) * x) = v at *
  field_simp
  linear_combination (-(1 : ℝ) / 2) * ht

theorem qdimCharacter (hk1 : 1 ≤ k) (hk : k ≤ 32767) (right : Bool) :
    (cat k right).QdimCharacter (qdim k) where
  pos a ha := qdim_pos hk1 ha
  unit := by
    have := sin1_pos hk1
    show qdim k 0 = 1
    rw [qdim]; simp; exact this.ne'
  mul a b ha hb := qdim_mul hk1 hk ha hb
  dual a _ := rfl

/-- closed form of the R-symbol (left handed) -/
theorem rSym_left {a b c : ℤ} (ha : 0 ≤ a ∧ a ≤ k) (hb : 0 ≤ b ∧ b ≤ k) (hc0 : 0 ≤ c ∧ c ≤ k)
    (hc : a - b ≤ c ∧ b - a ≤ c ∧ c ≤ a + b ∧ (a + b + c) % 2 = 0) :
    rSym k false a b c = (-1 : ℂ) ^ ((c - a - b) / 2) *
      E k (((c * (c + 2) - a * (a + 2) - b * (b + 2) : ℤ) : ℝ) / 4) := by
  have tde : ∀ x : ℤ, x % 2 = 0 → Int.tdiv x 2 = x / 2 := by
    intro x hx; obtain ⟨y, rfl⟩ : ∃ y, x = 2 * y := ⟨x / 2, by omega⟩
    simp
  unfold rSym rEntry
  simp only [Bool.false_eq_true, if_false, qpow_eq]
  have hz : a * b = 0 → (-1 : ℂ) ^ ((c - a - b) / 2) *
      E k (((c * (c + 2) - a * (a + 2) - b * (b + 2) : ℤ) : ℝ) / 4) = 1 := by
    intro h0
    rcases mul_eq_zero.1 h0 with rfl | rfl
    · have : c = b := by omega
      subst this
      simp [E_zero]
    · have : c = a := by omega
      subst this
      simp [E_zero]
  by_cases hab : a < b
  · simp only [if_pos hab]
    by_cases h0 : b * a = 0
    · rw [if_neg (by tauto), hz (by rw [mul_comm]; exact h0)]
    · rw [if_pos ⟨ha.1, hb.2, hc0.1, hc0.2, by
        rintro (h | h | h | h)
        · omega
        · omega
        · exact h0 h
        · omega⟩]
      rw [tde _ (by omega)]
      have e1 : c - b - a = c - a - b := by ring
      rw [e1]
      congr 2; push_cast; ring
  · simp only [if_neg hab]
    by_cases h0 : a * b = 0
    · rw [if_neg (by tauto), hz h0]
    · rw [if_pos ⟨hb.1, ha.2, hc0.1, hc0.2, by
        rintro (h | h | h | h)
        · omega
        · omega
        · exact h0 h
        · omega⟩]
      rw [tde _ (by omega)]
      congr 2; push_cast; ring

theorem rSym_right (a b c : ℤ) : rSym k true a b c = star (rSym k false a b c) := by
  unfold rSym rEntry
  simp only [if_true, Bool.false_eq_true, if_false]
  split_ifs <;> simp

theorem mem_valid (hk : k ≤ 32767) {a b c : ℤ} (ha : 0 ≤ a ∧ a ≤ k) (hb : 0 ≤ b ∧ b ≤ k)
    (hc : c ∈ out k a b) : (0 ≤ c ∧ c ≤ k) ∧
      (a - b ≤ c ∧ b - a ≤ c ∧ c ≤ a + b ∧ (a + b + c) % 2 = 0) := by
  have := (mem_out hk ha hb).1 hc
  omega

theorem neg_one_zpow_mul_star (n : ℤ) : (-1 : ℂ) ^ n * star ((-1 : ℂ) ^ n) = 1 := by
  rw [star_zpow₀, ← mul_zpow]; simp

theorem rPhase_left (hk : k ≤ 32767) {a b c : ℤ} (ha : 0 ≤ a ∧ a ≤ k) (hb : 0 ≤ b ∧ b ≤ k)
    (hc : c ∈ out k a b) : rSym k false a b c * star (rSym k false a b c) = 1 := by
  obtain ⟨h0, h1⟩ := mem_valid hk ha hb hc
  rw [rSym_left ha hb h0 h1, star_mul']
  have h2 := neg_one_zpow_mul_star ((c - a - b) / 2)
  have h3 := E_mul_star k (((c * (c + 2) - a * (a + 2) - b * (b + 2) : ℤ) : ℝ) / 4)
  linear_combination (E k (((c * (c + 2) - a * (a + 2) - b * (b + 2) : ℤ) : ℝ) / 4) *
    star (E k (((c * (c + 2) - a * (a + 2) - b * (b + 2) : ℤ) : ℝ) / 4))) * h2 + h3

theorem rPhase (hk : k ≤ 32767) (right : Bool) : (cat k right).RPhase := by
  intro a b c ha hb hc
  show rSym k right a b c * star (rSym k right a b c) = 1
  have := rPhase_left hk ha hb hc
  cases right
  · exact this
  · rw [rSym_right, star_star, mul_comm]; exact this

/-- `exp(±2πi h_a)`, `h_a = a (a+2) / (4 (k+2))` -/
noncomputable def θ (k : ℤ) (right : Bool) (a : ℤ) : ℂ :=
  let t := E k (((a * (a + 2) : ℤ) : ℝ) / 2)
  if right then star t else t

theorem E_period (hk : 1 ≤ k) (n : ℤ) : E k (((2 * (k + 2) * n : ℤ) : ℝ)) = 1 := by
  unfold E
  have hk' : ((k : ℝ) + 2) ≠ 0 := by
    have : (1 : ℝ) ≤ k := by exact_mod_cast hk
    linarith
  rw [Complex.exp_eq_one_iff]
  refine ⟨n, ?_⟩
  have : (((2 * (k + 2) * n : ℤ) : ℝ) * (Real.pi / (k + 2)) : ℝ) = 2 * n * Real.pi := by
    push_cast; field_simp
  rw [this]; push_cast; ring

theorem E_half (hk : 1 ≤ k) (n : ℤ) : E k ((((k + 2) * n : ℤ) : ℝ)) = (-1 : ℂ) ^ n := by
  have hk' : ((k : ℝ) + 2) ≠ 0 := by
    have : (1 : ℝ) ≤ k := by exact_mod_cast hk
    linarith
  have h1 : E k (((k + 2 : ℤ) : ℝ)) = -1 := by
    unfold E
    have : ((((k + 2 : ℤ) : ℝ)) * (Real.pi / (k + 2)) : ℝ) = Real.pi := by
      push_cast; field_simp
    rw [this, mul_comm, Complex.exp_pi_mul_I]
  have h2 : ∀ n : ℕ, E k ((((k + 2) * n : ℤ) : ℝ)) = (-1 : ℂ) ^ n := by
    intro n
    induction n with
    | zero => simp [E_zero]
    | succ n ih =>
      have : ((((k + 2) * ((n + 1 : ℕ) : ℤ) : ℤ) : ℝ)) = (((k + 2) * n : ℤ) : ℝ) + ((k + 2 : ℤ) : ℝ) := by
        push_cast; ring
      rw [this, E_add, ih, h1, pow_succ]
  obtain ⟨m, rfl | rfl⟩ := Int.eq_nat_or_neg n
  · rw [h2, zpow_natCast]
  · have h3 := E_mul_star k ((((k + 2) * (m : ℤ) : ℤ) : ℝ))
    rw [E_star] at h3
    have h4 : ((((k + 2) * (-(m : ℤ)) : ℤ) : ℝ)) = -((((k + 2) * (m : ℤ) : ℤ) : ℝ)) := by
      push_cast; ring
    rw [h4, zpow_neg, zpow_natCast]
    rw [h2] at h3
    exact eq_inv_of_mul_eq_one_right h3

theorem neg_one_zpow_add (m n : ℤ) : (-1 : ℂ) ^ (m + n) = (-1) ^ m * (-1) ^ n :=
  zpow_add₀ (by norm_num) m n

/-- the twist sum, `M` = number of channels minus one -/
theorem twist_sum (hk1 : 1 ≤ k) (hk : k ≤ 32767) {a : ℤ} (ha : 0 ≤ a ∧ a ≤ k) :
    ((out k a a).map fun c => (qdim k c : ℂ) * rSym k false a a c).sum =
      (qdim k a : ℂ) * θ k false a := by
  have hs : ((Real.sin (Real.pi / (k + 2)) : ℝ) : ℂ) ≠ 0 := by exact_mod_cast (sin1_pos hk1).ne'
  have hq : ∀ c : ℤ, (qdim k c : ℂ) = (E k (c + 1) - E k (-(c + 1))) / (2 * Complex.I) /
      ((Real.sin (Real.pi / (k + 2)) : ℝ) : ℂ) := by
    intro c
    rw [qdim, Complex.ofReal_div, sin_eq]
  obtain ⟨M, hM⟩ : ∃ M : ℕ, (M : ℤ) = min a (k - a) := ⟨(min a (k - a)).toNat, by omega⟩
  have hout : out k a a = (List.range (M + 1)).map fun m : ℕ => (2 * m : ℤ) := by
    rw [out_eq hk ha ha, ap]
    have : (min (min a a) (k - max a a) + 1).toNat = M + 1 := by omega
    rw [this]
    apply List.map_congr_left; intro m _; simp
  rw [hout, List.map_map]
  have hterm : ∀ m ∈ List.range (M + 1), ((fun c => (qdim k c : ℂ) * rSym k false a a c) ∘
      fun m : ℕ => (2 * m : ℤ)) m =
      ((-1 : ℂ) ^ m * ((E k (2 * m + 1) - E k (-(2 * m + 1))) * E k (m * (m + 1)))) *
        ((-1 : ℂ) ^ a * E k (-((a * (a + 2) : ℤ) : ℝ) / 2) / (2 * Complex.I) /
          ((Real.sin (Real.pi / (k + 2)) : ℝ) : ℂ)) := by
    intro m hm
    rw [List.mem_range] at hm
    simp only [Function.comp]
    rw [rSym_left ha ha (by omega) (by omega), hq]
    have e1 : (2 * (m : ℤ) - a - a) / 2 = (m : ℤ) + (-a) := by omega
    have e2 : (((2 * (m : ℤ)) * (2 * m + 2) - a * (a + 2) - a * (a + 2) : ℤ) : ℝ) / 4 =
        (m : ℝ) * (m + 1) + -((a * (a + 2) : ℤ) : ℝ) / 2 := by push_cast; ring
    have e3 : (-1 : ℂ) ^ (-a) = (-1) ^ a := by
      rw [zpow_neg]; rcases Int.even_or_odd a with h | h
      · simp [h.neg_one_zpow]
      · simp [h.neg_one_zpow]
    have c1 : ((2 * (m : ℤ) : ℤ) : ℝ) = 2 * (m : ℝ) := by push_cast; rfl
    rw [e1, e2, E_add k ((m : ℝ) * (m + 1)), neg_one_zpow_add, e3, zpow_natCast, c1]
    ring
  rw [List.map_congr_left hterm, List.sum_map_mul_right, tele, hq]
  simp only [θ, Bool.false_eq_true, if_false]
  -- it remains to compare the closed forms
  have key : (-1 : ℂ) ^ M * ((E k (M + 1) - E k (-(M + 1))) * E k (M * (M + 2))) =
      (-1 : ℂ) ^ a * ((E k (a + 1) - E k (-(a + 1))) * E k (((a * (a + 2) : ℤ) : ℝ))) := by
    have hMr : ∀ c : ℤ, (M : ℤ) = c → (M : ℝ) = (c : ℝ) := by
      intro c h; exact_mod_cast congrArg (fun z : ℤ => (z : ℝ)) h
    have hMz : (-1 : ℂ) ^ M = (-1 : ℂ) ^ (M : ℤ) := (zpow_natCast _ _).symm
    rcases le_total a (k - a) with h | h
    · have h1 : (M : ℤ) = a := by omega
      rw [hMz, h1, hMr a h1]; push_cast; rfl
    · have h1 : (M : ℤ) = k - a := by omega
      rw [hMz, h1, hMr _ h1]
      have f1 : (((k - a : ℤ) : ℝ)) + 1 = (((k + 2) * 1 : ℤ) : ℝ) + (-((a : ℝ) + 1)) := by
        push_cast; ring
      have f2 : -((((k - a : ℤ) : ℝ)) + 1) = (((k + 2) * (-1) : ℤ) : ℝ) + ((a : ℝ) + 1) := by
        push_cast; ring
      have f3 : (((k - a : ℤ) : ℝ)) * (((k - a : ℤ) : ℝ) + 2) =
          (((k + 2) * (k - 2 * a) : ℤ) : ℝ) + ((a * (a + 2) : ℤ) : ℝ) := by push_cast; ring
      rw [f2, f1, f3, E_add k ((((k + 2) * 1 : ℤ)) : ℝ), E_add k ((((k + 2) * (-1) : ℤ)) : ℝ),
        E_add k ((((k + 2) * (k - 2 * a) : ℤ)) : ℝ), E_half hk1, E_half hk1, E_half hk1]
      have g1 : (-1 : ℂ) ^ (k - a) * (-1 : ℂ) ^ (k - 2 * a) = (-1) ^ a := by
        rw [← neg_one_zpow_add]
        have : k - a + (k - 2 * a) = a + 2 * (k - 2 * a) := by ring
        rw [this, neg_one_zpow_add, zpow_mul]; simp
      simp only [zpow_one, zpow_neg]
      linear_combination ((E k (a + 1) - E k (-(a + 1))) * E k (((a * (a + 2) : ℤ) : ℝ))) * g1
  rw [key]
  have g2 : (-1 : ℂ) ^ a * (-1 : ℂ) ^ a = 1 := by rw [← mul_zpow]; simp
  have g3 : E k (((a * (a + 2) : ℤ) : ℝ)) * E k (-((a * (a + 2) : ℤ) : ℝ) / 2) =
      E k (((a * (a + 2) : ℤ) : ℝ) / 2) := by rw [← E_add]; congr 1; ring
  calc _ = ((-1 : ℂ) ^ a * (-1 : ℂ) ^ a) * ((E k (a + 1) - E k (-(a + 1))) / (2 * Complex.I) /
          ((Real.sin (Real.pi / (k + 2)) : ℝ) : ℂ)) *
          (E k (((a * (a + 2) : ℤ) : ℝ)) * E k (-((a * (a + 2) : ℤ) : ℝ) / 2)) := by ring
    _ = _ := by rw [g2, g3]; ring

theorem twist_eq (hk1 : 1 ≤ k) (hk : k ≤ 32767) (right : Bool) {a : ℤ} (ha : 0 ≤ a ∧ a ≤ k) :
    defaultTwist (cat k right) (qdim k) a = θ k right a := by
  have hp : ((qdim k a : ℝ) : ℂ) ≠ 0 := by exact_mod_cast (qdim_pos hk1 ha).ne'
  show ((out k a a).map fun c => (qdim k c : ℂ) * rSym k right a a c).sum / (qdim k a : ℂ) = _
  rw [div_eq_iff hp]
  have := twist_sum hk1 hk ha
  cases right
  · rw [this, mul_comm]
  · have h2 := congrArg star this
    have h3 : ∀ l : List ℤ, star ((l.map fun c => (qdim k c : ℂ) * rSym k false a a c).sum) =
        (l.map fun c => (qdim k c : ℂ) * rSym k true a a c).sum := by
      intro l
      induction l with
      | nil => simp
      | cons x l ih =>
        simp only [List.map_cons, List.sum_cons, star_add, ih, star_mul', rSym_right]
        congr 2
        rw [Complex.star_def, Complex.conj_ofReal]
    rw [h3, star_mul'] at h2
    rw [h2, mul_comm]
    simp only [θ, Bool.false_eq_true, if_false, if_true]
    rw [Complex.star_def, Complex.conj_ofReal]

theorem ribbon (hk1 : 1 ≤ k) (hk : k ≤ 32767) (right : Bool) :
    (cat k right).Ribbon (qdim k) (defaultTwist (cat k right) (qdim k)) := by
  have hbal : ∀ a b c : ℤ, 0 ≤ a ∧ a ≤ k → 0 ≤ b ∧ b ≤ k → c ∈ out k a b →
      rSym k false b a c * rSym k false a b c * (θ k false a * θ k false b) = θ k false c := by
    intro a b c ha hb hc
    obtain ⟨h0, h1⟩ := mem_valid hk ha hb hc
    rw [rSym_left ha hb h0 h1, rSym_left hb ha h0 (by omega)]
    simp only [θ, Bool.false_eq_true, if_false]
    have e1 : (c - b - a) = c - a - b := by ring
    have g2 : (-1 : ℂ) ^ ((c - a - b) / 2) * (-1 : ℂ) ^ ((c - a - b) / 2) = 1 := by
      rw [← mul_zpow]; simp
    have g3 : E k (((c * (c + 2) - b * (b + 2) - a * (a + 2) : ℤ) : ℝ) / 4) *
        E k (((c * (c + 2) - a * (a + 2) - b * (b + 2) : ℤ) : ℝ) / 4) *
        (E k (((a * (a + 2) : ℤ) : ℝ) / 2) * E k (((b * (b + 2) : ℤ) : ℝ) / 2)) =
        E k (((c * (c + 2) : ℤ) : ℝ) / 2) := by
      rw [← E_add, ← E_add, ← E_add]; congr 1; push_cast; ring
    rw [e1, ← g3]
    linear_combination (E k (((c * (c + 2) - b * (b + 2) - a * (a + 2) : ℤ) : ℝ) / 4) *
        E k (((c * (c + 2) - a * (a + 2) - b * (b + 2) : ℤ) : ℝ) / 4) *
        (E k (((a * (a + 2) : ℤ) : ℝ) / 2) * E k (((b * (b + 2) : ℤ) : ℝ) / 2))) * g2
  constructor
  · intro a ha
    have hp : ((qdim k a : ℝ) : ℂ) ≠ 0 := by exact_mod_cast (qdim_pos hk1 ha).ne'
    rw [defaultTwist, mul_div_cancel₀ _ hp]
  · intro a ha
    rw [twist_eq hk1 hk right ha]
    cases right
    · exact E_mul_star _ _
    · simp only [θ, if_true]; rw [star_star, mul_comm]; exact E_mul_star _ _
  · intro a b c ha hb hc
    obtain ⟨h0, -⟩ := mem_valid hk ha hb hc
    rw [twist_eq hk1 hk right ha, twist_eq hk1 hk right hb, twist_eq hk1 hk right h0]
    show rSym k right b a c * rSym k right a b c * _ = _
    have := hbal a b c ha hb hc
    cases right
    · exact this
    · have h2 := congrArg star this
      rw [star_mul', star_mul', star_mul'] at h2
      rw [rSym_right, rSym_right]
      simpa [θ] using h2
  · intro a _; rfl

end Cyten.SU2k
