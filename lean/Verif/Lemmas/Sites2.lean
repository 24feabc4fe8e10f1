import Verif.Lemmas.Sites

/-!
# Kronecker products, occupation numbers, Jordan-Wigner strings
-/

namespace Cyten.Sites

open Matrix

/-! ## `np.kron` -/

theorem sum_divMod {m n : ℕ} (f : Fin m → Fin n → ℂ) :
    (∑ k : Fin (m * n), f k.divNat k.modNat) = ∑ a, ∑ b, f a b := by
  rw [← Finset.sum_product', Finset.univ_product_univ]
  exact Fintype.sum_equiv finProdFinEquiv.symm _ _ (fun x => rfl)

theorem npKron_mul {m n : ℕ} (A C : Arr m) (B D : Arr n) :
    npKron A B * npKron C D = npKron (A * C) (B * D) := by
  ext i j
  rw [mul_apply]
  show (∑ k : Fin (m * n), (A i.divNat k.divNat * B i.modNat k.modNat)
      * (C k.divNat j.divNat * D k.modNat j.modNat)) = (A * C) i.divNat j.divNat * (B * D) i.modNat j.modNat
  rw [sum_divMod (fun a b => (A i.divNat a * B i.modNat b) * (C a j.divNat * D b j.modNat)),
    mul_apply, mul_apply, Finset.sum_mul_sum]
  refine Finset.sum_congr rfl fun a _ => Finset.sum_congr rfl fun b _ => by ring

theorem divMod_ext {m n : ℕ} {i j : Fin (m * n)} (h1 : i.divNat = j.divNat)
    (h2 : i.modNat = j.modNat) : i = j := by
  apply Fin.ext
  have a := congrArg Fin.val h1
  have b := congrArg Fin.val h2
  have a : i.val / n = j.val / n := a
  have b : i.val % n = j.val % n := b
  rw [← Nat.div_add_mod i.val n, ← Nat.div_add_mod j.val n, a, b]

theorem npKron_one {m n : ℕ} : npKron (1 : Arr m) (1 : Arr n) = 1 := by
  ext i j
  show (1 : Arr m) i.divNat j.divNat * (1 : Arr n) i.modNat j.modNat = _
  rw [one_apply, one_apply, one_apply]
  by_cases h : i = j
  · subst h; simp
  · rw [if_neg h]
    by_cases h1 : i.divNat = j.divNat
    · rw [if_neg (fun h2 => h (divMod_ext h1 h2)), mul_zero]
    · rw [if_neg h1, zero_mul]

theorem npKron_conjTranspose {m n : ℕ} (A : Arr m) (B : Arr n) :
    (npKron A B)ᴴ = npKron Aᴴ Bᴴ := by
  ext i j
  show star (A j.divNat i.divNat * B j.modNat i.modNat) = star (A _ _) * star (B _ _)
  rw [star_mul']

/-! ## Occupation numbers -/

/-- Number of particles of species `k` in basis state number `i` of a site with `n` species. -/
def occ (Nmax : ℕ → ℕ) : ℕ → ℕ → ℕ → ℕ
  | 0, _, _ => 0
  | n + 1, i, k => if k = n then i % (Nmax n + 1) else occ Nmax n (i / (Nmax n + 1)) k

theorem occ_le (Nmax : ℕ → ℕ) (n i k : ℕ) : occ Nmax n i k ≤ Nmax k := by
  induction n generalizing i with
  | zero => exact Nat.zero_le _
  | succ n ih =>
    show (if k = n then i % (Nmax n + 1) else _) ≤ _
    by_cases h : k = n
    · rw [if_pos h, h]
      exact Nat.lt_succ_iff.mp (Nat.mod_lt _ (Nat.succ_pos _))
    · rw [if_neg h]; exact ih _

theorem occ_ge (Nmax : ℕ → ℕ) (n i k : ℕ) (h : n ≤ k) : occ Nmax n i k = 0 := by
  induction n generalizing i with
  | zero => rfl
  | succ n ih =>
    show (if k = n then i % (Nmax n + 1) else _) = _
    rw [if_neg (by omega)]; exact ih _ (by omega)

/-- `occ` as an index of the single species matrices. -/
def occFin (Nmax : ℕ → ℕ) (n i k : ℕ) : Fin (Nmax k + 1) :=
  ⟨occ Nmax n i k, Nat.lt_succ_iff.mpr (occ_le Nmax n i k)⟩

theorem kronReduce_apply (Nmax : ℕ → ℕ) (F : (k : ℕ) → Arr (Nmax k + 1)) (n : ℕ)
    (i j : Fin (siteDim Nmax n)) :
    kronReduce Nmax F n i j
      = ∏ k ∈ Finset.range n, F k (occFin Nmax n i.val k) (occFin Nmax n j.val k) := by
  induction n with
  | zero =>
    rw [Finset.range_zero, Finset.prod_empty]
    have e : i = j := Subsingleton.elim (α := Fin 1) i j
    subst e
    exact one_apply_eq (α := ℂ) (n := Fin 1) i
  | succ n ih =>
    rw [Finset.prod_range_succ]
    show kronReduce Nmax F n (Fin.divNat (n := Nmax n + 1) i) (Fin.divNat (n := Nmax n + 1) j)
      * F n (Fin.modNat (n := Nmax n + 1) i) (Fin.modNat (n := Nmax n + 1) j) = _
    rw [ih]
    congr 1
    · refine Finset.prod_congr rfl fun k hk => ?_
      have hk : k ≠ n := by have := Finset.mem_range.mp hk; omega
      have e : ∀ x : Fin (siteDim Nmax n * (Nmax n + 1)),
          occFin Nmax (n + 1) x.val k = occFin Nmax n (Fin.divNat (n := Nmax n + 1) x).val k := by
        intro x
        apply Fin.ext
        show (if k = n then _ else _) = occ Nmax n _ k
        rw [if_neg hk]; rfl
      rw [← e i, ← e j]
    · have e : ∀ x : Fin (siteDim Nmax n * (Nmax n + 1)),
          occFin Nmax (n + 1) x.val n = Fin.modNat (n := Nmax n + 1) x := by
        intro x
        apply Fin.ext
        show (if n = n then _ else _) = _
        rw [if_pos rfl]; rfl
      rw [← e i, ← e j]

theorem occ_ext (Nmax : ℕ → ℕ) (n i j : ℕ) (hi : i < siteDim Nmax n) (hj : j < siteDim Nmax n)
    (h : ∀ k < n, occ Nmax n i k = occ Nmax n j k) : i = j := by
  induction n generalizing i j with
  | zero =>
    have : siteDim Nmax 0 = 1 := rfl
    omega
  | succ n ih =>
    have e : siteDim Nmax (n + 1) = siteDim Nmax n * (Nmax n + 1) := rfl
    rw [e] at hi hj
    have h1 : i % (Nmax n + 1) = j % (Nmax n + 1) := by
      have := h n (Nat.lt_succ_self n)
      have a : ∀ x, occ Nmax (n + 1) x n = x % (Nmax n + 1) := fun x => if_pos rfl
      rwa [a, a] at this
    have h2 : i / (Nmax n + 1) = j / (Nmax n + 1) := by
      apply ih _ _ (Nat.div_lt_of_lt_mul (by rwa [mul_comm] at hi))
        (Nat.div_lt_of_lt_mul (by rwa [mul_comm] at hj))
      intro k hk
      have := h k (by omega)
      have a : ∀ x, occ Nmax (n + 1) x k = occ Nmax n (x / (Nmax n + 1)) k :=
        fun x => if_neg (by omega)
      rwa [a, a] at this
    rw [← Nat.div_add_mod i (Nmax n + 1), ← Nat.div_add_mod j (Nmax n + 1), h1, h2]

/-! ## Algebra of Kronecker products -/

theorem kronReduce_mul (Nmax : ℕ → ℕ) (F G : (k : ℕ) → Arr (Nmax k + 1)) (n : ℕ) :
    kronReduce Nmax F n * kronReduce Nmax G n = kronReduce Nmax (fun k => F k * G k) n := by
  induction n with
  | zero => exact one_mul _
  | succ n ih =>
    exact (npKron_mul (kronReduce Nmax F n) (kronReduce Nmax G n) (F n) (G n)).trans
      (congrArg (fun A => npKron A (F n * G n)) ih)

theorem kronReduce_one (Nmax : ℕ → ℕ) (n : ℕ) : kronReduce Nmax (fun _ => 1) n = 1 := by
  induction n with
  | zero => rfl
  | succ n ih =>
    exact (congrArg (fun A => npKron A (1 : Arr (Nmax n + 1))) ih).trans npKron_one

theorem kronReduce_conjTranspose (Nmax : ℕ → ℕ) (F : (k : ℕ) → Arr (Nmax k + 1)) (n : ℕ) :
    (kronReduce Nmax F n)ᴴ = kronReduce Nmax (fun k => (F k)ᴴ) n := by
  induction n with
  | zero => exact conjTranspose_one
  | succ n ih =>
    exact (npKron_conjTranspose (kronReduce Nmax F n) (F n)).trans
      (congrArg (fun A => npKron A (F n)ᴴ) ih)

theorem kronReduce_congr (Nmax : ℕ → ℕ) (F G : (k : ℕ) → Arr (Nmax k + 1)) (n : ℕ)
    (h : ∀ k < n, F k = G k) : kronReduce Nmax F n = kronReduce Nmax G n := by
  ext i j
  rw [kronReduce_apply, kronReduce_apply]
  exact Finset.prod_congr rfl fun k hk => by rw [h k (Finset.mem_range.mp hk)]

/-- A Kronecker product is linear in every factor. -/
theorem kronReduce_lin (Nmax : ℕ → ℕ) (F G H : (k : ℕ) → Arr (Nmax k + 1)) (a b : ℂ) (n k : ℕ)
    (hk : k < n) (h : F k = a • G k + b • H k) (hG : ∀ l < n, l ≠ k → F l = G l)
    (hH : ∀ l < n, l ≠ k → F l = H l) :
    kronReduce Nmax F n = a • kronReduce Nmax G n + b • kronReduce Nmax H n := by
  ext i j
  rw [Matrix.add_apply, Matrix.smul_apply, Matrix.smul_apply, kronReduce_apply, kronReduce_apply,
    kronReduce_apply, smul_eq_mul, smul_eq_mul]
  have hm : k ∈ Finset.range n := Finset.mem_range.mpr hk
  rw [← Finset.mul_prod_erase _ _ hm,
    ← Finset.mul_prod_erase _ (fun l => G l (occFin Nmax n i.val l) (occFin Nmax n j.val l)) hm,
    ← Finset.mul_prod_erase _ (fun l => H l (occFin Nmax n i.val l) (occFin Nmax n j.val l)) hm]
  rw [← Finset.prod_congr rfl (fun l hl => congrFun (congrFun
      (hG l (Finset.mem_range.mp (Finset.mem_of_mem_erase hl)) (Finset.ne_of_mem_erase hl)) _) _),
    ← Finset.prod_congr rfl (fun l hl => congrFun (congrFun
      (hH l (Finset.mem_range.mp (Finset.mem_of_mem_erase hl)) (Finset.ne_of_mem_erase hl)) _) _),
    h, Matrix.add_apply, Matrix.smul_apply, Matrix.smul_apply, smul_eq_mul, smul_eq_mul]
  ring

theorem kronReduce_zero (Nmax : ℕ → ℕ) (F : (k : ℕ) → Arr (Nmax k + 1)) (n k : ℕ)
    (hk : k < n) (h : F k = 0) : kronReduce Nmax F n = 0 := by
  rw [kronReduce_lin Nmax F F F 0 0 n k hk (by rw [h]; simp) (fun _ _ _ => rfl) (fun _ _ _ => rfl)]
  simp

theorem kronReduce_neg (Nmax : ℕ → ℕ) (F G : (k : ℕ) → Arr (Nmax k + 1)) (n k : ℕ)
    (hk : k < n) (h : F k = -G k) (hG : ∀ l < n, l ≠ k → F l = G l) :
    kronReduce Nmax F n = -kronReduce Nmax G n := by
  rw [kronReduce_lin Nmax F G G (-1) 0 n k hk (by rw [h]; simp) hG hG]
  simp

theorem kronReduce_diagonal (Nmax : ℕ → ℕ) (f : (k : ℕ) → Fin (Nmax k + 1) → ℂ) (n : ℕ) :
    kronReduce Nmax (fun k => diagonal (f k)) n
      = diagonal fun i => ∏ k ∈ Finset.range n, f k (occFin Nmax n i.val k) := by
  ext i j
  rw [kronReduce_apply, diagonal_apply]
  by_cases h : i = j
  · subst h
    rw [if_pos rfl]
    exact Finset.prod_congr rfl fun k _ => diagonal_apply_eq _ _
  · rw [if_neg h]
    have : ∃ k < n, occ Nmax n i.val k ≠ occ Nmax n j.val k := by
      by_contra hc
      push Not at hc
      exact h (Fin.ext (occ_ext Nmax n _ _ i.isLt j.isLt hc))
    obtain ⟨k, hk, hne⟩ := this
    refine Finset.prod_eq_zero (Finset.mem_range.mpr hk) ?_
    rw [diagonal_apply_ne]
    intro e
    exact hne (congrArg Fin.val e)

/-! ## Ladder operators -/

/-- Factors of an operator that acts on species `k` only. -/
def only {Nmax : ℕ → ℕ} (k : ℕ) (M : (j : ℕ) → Arr (Nmax j + 1)) (j : ℕ) : Arr (Nmax j + 1) :=
  if j = k then M j else 1

theorem annihilator_eq (Nmax : ℕ → ℕ) (n k : ℕ) :
    annihilator Nmax n k = kronReduce Nmax (only k fun j => bosonB (Nmax j)) n := by
  refine kronReduce_congr _ _ _ _ fun j _ => ?_
  rw [only]
  rcases lt_trichotomy j k with h | h | h
  · rw [if_pos h, if_neg (by omega)]
  · rw [if_neg (by omega)]
  · rw [if_neg (by omega)]

theorem creator_eq (Nmax : ℕ → ℕ) (n k : ℕ) :
    creator Nmax n k = kronReduce Nmax (only k fun j => bosonBd (Nmax j)) n := by
  refine kronReduce_congr _ _ _ _ fun j _ => ?_
  rw [only]
  rcases lt_trichotomy j k with h | h | h
  · rw [if_pos h, if_neg (by omega)]
  · rw [if_neg (by omega)]
  · rw [if_neg (by omega)]

theorem only_mul (Nmax : ℕ → ℕ) (n k : ℕ) (M M' : (j : ℕ) → Arr (Nmax j + 1)) :
    kronReduce Nmax (only k M) n * kronReduce Nmax (only k M') n
      = kronReduce Nmax (only k fun j => M j * M' j) n := by
  rw [kronReduce_mul]
  refine kronReduce_congr _ _ _ _ fun j _ => ?_
  simp only [only]
  by_cases h : j = k
  · rw [if_pos h, if_pos h, if_pos h]
  · rw [if_neg h, if_neg h, if_neg h, one_mul]

theorem only_comm (Nmax : ℕ → ℕ) (n k l : ℕ) (hkl : k ≠ l) (M M' : (j : ℕ) → Arr (Nmax j + 1)) :
    kronReduce Nmax (only k M) n * kronReduce Nmax (only l M') n
      = kronReduce Nmax (only l M') n * kronReduce Nmax (only k M) n := by
  rw [kronReduce_mul, kronReduce_mul]
  refine kronReduce_congr _ _ _ _ fun j _ => ?_
  simp only [only]
  by_cases h : j = k
  · rw [if_pos h, if_neg (by omega), one_mul, mul_one]
  · rw [if_neg h, one_mul, mul_one]

theorem bosonBd_eq (N : ℕ) : bosonBd N = shiftUp (N + 1) fun j => ((Real.sqrt ((j : ℝ) + 1) : ℝ) : ℂ) := by
  ext i j
  show (if j.val + 1 = i.val then ((Real.sqrt (i.val : ℝ) : ℝ) : ℂ) else 0)
    = (if i.val = j.val + 1 then ((Real.sqrt ((j.val : ℝ) + 1) : ℝ) : ℂ) else 0)
  by_cases h : i.val = j.val + 1
  · rw [if_pos h.symm, if_pos h, h]; push_cast; rfl
  · rw [if_neg (Ne.symm h), if_neg h]

theorem bosonBd_conj (N : ℕ) : (bosonBd N)ᴴ = bosonB N := by
  ext i j
  show star (if i.val + 1 = j.val then ((Real.sqrt (j.val : ℝ) : ℝ) : ℂ) else 0) = _
  rw [bosonB, of_apply]
  split_ifs
  · exact Complex.conj_ofReal _
  · exact star_zero _

theorem bosonB_conj (N : ℕ) : (bosonB N)ᴴ = bosonBd N := by
  rw [← bosonBd_conj, conjTranspose_conjTranspose]

theorem sqrt_mul_star (x : ℝ) (hx : 0 ≤ x) :
    ((Real.sqrt x : ℝ) : ℂ) * star ((Real.sqrt x : ℝ) : ℂ) = (x : ℂ) := by
  have : star ((Real.sqrt x : ℝ) : ℂ) = ((Real.sqrt x : ℝ) : ℂ) := Complex.conj_ofReal _
  rw [this, ← Complex.ofReal_mul, Real.mul_self_sqrt hx]

theorem bosonBd_mul (N : ℕ) :
    bosonBd N * bosonB N = diagonal fun n : Fin (N + 1) => (n.val : ℂ) := by
  rw [← bosonBd_conj, bosonBd_eq, shiftUp_mul_conjTranspose]
  congr 1; funext n
  by_cases h : n.val = 0
  · rw [if_pos h, h]; simp
  · rw [if_neg h, sqrt_mul_star _ (by positivity)]
    obtain ⟨m, hm⟩ : ∃ m, n.val = m + 1 := ⟨n.val - 1, by omega⟩
    rw [hm]; push_cast; simp

theorem bosonB_mul (N : ℕ) :
    bosonB N * bosonBd N
      = diagonal fun n : Fin (N + 1) => if n.val = N then 0 else (n.val : ℂ) + 1 := by
  rw [← bosonBd_conj, bosonBd_eq, shiftUp_conjTranspose_mul]
  congr 1; funext n
  have := n.isLt
  by_cases h : n.val = N
  · rw [if_pos h, if_neg (by omega)]
  · rw [if_neg h, if_pos (by omega), sqrt_mul_star _ (by positivity)]
    push_cast; rfl

theorem only_diagonal (Nmax : ℕ → ℕ) (n k : ℕ) (hk : k < n) (f : (j : ℕ) → Fin (Nmax j + 1) → ℂ) :
    kronReduce Nmax (only k fun j => diagonal (f j)) n
      = diagonal fun i => f k (occFin Nmax n i.val k) := by
  have : kronReduce Nmax (only k fun j => diagonal (f j)) n
      = kronReduce Nmax (fun j => diagonal (if j = k then f j else 1)) n := by
    refine kronReduce_congr _ _ _ _ fun j _ => ?_
    rw [only]
    by_cases h : j = k
    · rw [if_pos h, if_pos h]
    · rw [if_neg h, if_neg h]; exact diagonal_one.symm
  rw [this, kronReduce_diagonal]
  congr 1; funext i
  rw [Finset.prod_eq_single_of_mem k (Finset.mem_range.mpr hk), if_pos rfl]
  intro l _ hl
  rw [if_neg hl]; rfl

theorem numberOp_eq (Nmax : ℕ → ℕ) (n k : ℕ) (hk : k < n) :
    numberOp Nmax n k = diagonal fun i => (occ Nmax n i.val k : ℂ) := by
  rw [numberOp, annihilator_eq, creator_eq, only_mul]
  simp only [bosonBd_mul]
  exact only_diagonal Nmax n k hk fun j x => (x.val : ℂ)

theorem antiNumber_eq (Nmax : ℕ → ℕ) (n k : ℕ) (hk : k < n) :
    annihilator Nmax n k * creator Nmax n k
      = diagonal fun i => if occ Nmax n i.val k = Nmax k then 0 else (occ Nmax n i.val k : ℂ) + 1 := by
  rw [annihilator_eq, creator_eq, only_mul]
  simp only [bosonB_mul]
  exact only_diagonal Nmax n k hk fun j x => if x.val = Nmax j then 0 else (x.val : ℂ) + 1

theorem annihilator_conj (Nmax : ℕ → ℕ) (n k : ℕ) :
    (annihilator Nmax n k)ᴴ = creator Nmax n k := by
  rw [annihilator_eq, creator_eq, kronReduce_conjTranspose]
  refine kronReduce_congr _ _ _ _ fun j _ => ?_
  simp only [only]
  split_ifs
  · exact bosonB_conj _
  · exact conjTranspose_one

theorem annihilator_apply (Nmax : ℕ → ℕ) (n k : ℕ) (hk : k < n) (i j : Fin (siteDim Nmax n)) :
    annihilator Nmax n k i j
      = if (∀ l < n, l ≠ k → occ Nmax n i.val l = occ Nmax n j.val l) ∧
            occ Nmax n i.val k + 1 = occ Nmax n j.val k
        then ((Real.sqrt (occ Nmax n j.val k : ℝ) : ℝ) : ℂ) else 0 := by
  rw [annihilator_eq, kronReduce_apply]
  have hm : k ∈ Finset.range n := Finset.mem_range.mpr hk
  rw [← Finset.mul_prod_erase _ _ hm]
  have h0 : only k (fun j => bosonB (Nmax j)) k (occFin Nmax n i.val k) (occFin Nmax n j.val k)
      = if occ Nmax n i.val k + 1 = occ Nmax n j.val k
        then ((Real.sqrt (occ Nmax n j.val k : ℝ) : ℝ) : ℂ) else 0 := by
    rw [only, if_pos rfl]; rfl
  rw [h0]
  by_cases h1 : ∀ l < n, l ≠ k → occ Nmax n i.val l = occ Nmax n j.val l
  · rw [Finset.prod_eq_one, mul_one]
    · by_cases h2 : occ Nmax n i.val k + 1 = occ Nmax n j.val k
      · rw [if_pos h2, if_pos ⟨h1, h2⟩]
      · rw [if_neg h2, if_neg (fun h => h2 h.2)]
    · intro l hl
      have hlk := Finset.ne_of_mem_erase hl
      have hln := Finset.mem_range.mp (Finset.mem_of_mem_erase hl)
      rw [only, if_neg hlk, one_apply, if_pos]
      exact Fin.ext (h1 l hln hlk)
  · refine Eq.trans ?_ (if_neg (fun h => h1 h.1)).symm
    push Not at h1
    obtain ⟨l, hl, hlk, hne⟩ := h1
    rw [Finset.prod_eq_zero (Finset.mem_erase.mpr ⟨hlk, Finset.mem_range.mpr hl⟩), mul_zero]
    have : only k (fun j => bosonB (Nmax j)) l = 1 := if_neg hlk
    rw [this, one_apply, if_neg]
    exact fun e => hne (congrArg Fin.val e)

/-! ## Jordan-Wigner -/

/-- The single species parity `diag(1, -1)`. -/
def parityZ : Arr (1 + 1) := diagonal fun n => (-1 : ℂ) ^ n.val

/-- Factors of a fermion operator: parities to the left of species `k`. -/
def jwFactors (k : ℕ) (M : Arr (1 + 1)) (j : ℕ) : Arr (1 + 1) :=
  if j < k then parityZ else if j = k then M else 1

theorem nBefore_eq (n k : ℕ) (hk : k ≤ n) (i : Fin (siteDim (fun _ => 1) n)) :
    nBefore (fun _ => 1) n k i = ((∑ l ∈ Finset.range k, occ (fun _ => 1) n i.val l : ℕ) : ℂ) := by
  rw [nBefore, Finset.sum_range_succ']
  simp only [Nat.add_one_ne_zero, if_false, Nat.add_sub_cancel, if_true, add_zero]
  push_cast
  refine Finset.sum_congr rfl fun l hl => ?_
  rw [numberOp_eq _ n l (by have := Finset.mem_range.mp hl; omega), diagonal_apply_eq]

theorem partialJW_eq (n k : ℕ) (hk : k ≤ n) :
    partialJW (fun _ => 1) n k = kronReduce (fun _ => 1) (fun j => if j < k then parityZ else 1) n := by
  have : kronReduce (fun _ => 1) (fun j => if j < k then parityZ else 1) n
      = kronReduce (fun _ => 1) (fun j => diagonal (if j < k then (fun x => (-1 : ℂ) ^ x.val) else 1)) n := by
    refine kronReduce_congr _ _ _ _ fun j _ => ?_
    by_cases h : j < k
    · rw [if_pos h, if_pos h]; rfl
    · rw [if_neg h, if_neg h]; exact diagonal_one.symm
  rw [this, kronReduce_diagonal, partialJW]
  congr 1; funext i
  rw [nBefore_eq n k hk, Complex.cpow_natCast]
  have e : Finset.range k ⊆ Finset.range n := Finset.range_subset_range.mpr hk
  rw [← Finset.prod_subset e, ← Finset.prod_pow_eq_pow_sum]
  · refine Finset.prod_congr rfl fun l hl => ?_
    rw [if_pos (Finset.mem_range.mp hl)]; rfl
  · intro l _ hl
    rw [if_neg (fun h => hl (Finset.mem_range.mpr h))]; rfl

theorem fermionC_eq (n k : ℕ) (hk : k < n) :
    fermionC n k = kronReduce (fun _ => 1) (jwFactors k (bosonB 1)) n := by
  rw [fermionC, annihilator, partialJW_eq n k hk.le, kronReduce_mul]
  refine kronReduce_congr _ _ _ _ fun j _ => ?_
  simp only [jwFactors]
  by_cases h : j < k
  · rw [if_pos h, if_pos h, if_pos h, one_mul]
  · rw [if_neg h, if_neg h, if_neg h, mul_one]

theorem fermionCd_eq (n k : ℕ) (hk : k < n) :
    fermionCd n k = kronReduce (fun _ => 1) (jwFactors k (bosonBd 1)) n := by
  rw [fermionCd, creator, partialJW_eq n k hk.le, kronReduce_mul]
  refine kronReduce_congr _ _ _ _ fun j _ => ?_
  simp only [jwFactors]
  by_cases h : j < k
  · rw [if_pos h, if_pos h, if_pos h, one_mul]
  · rw [if_neg h, if_neg h, if_neg h, mul_one]

theorem parityZ_sq : parityZ * parityZ = 1 := by
  rw [parityZ, diagonal_mul_diagonal, ← diagonal_one]
  congr 1; funext n
  rw [← mul_pow]; simp

theorem parityZ_conj : parityZᴴ = parityZ := by
  rw [parityZ, diagonal_conjTranspose]
  congr 1; funext n
  simp

theorem parity_bosonB : parityZ * bosonB 1 = -(bosonB 1 * parityZ) := by
  ext i j
  rw [parityZ, diagonal_mul, Matrix.neg_apply, mul_diagonal, bosonB, of_apply]
  by_cases h : i.val + 1 = j.val
  · rw [if_pos h, ← h, pow_succ]; ring
  · rw [if_neg h]; simp

theorem parity_bosonBd : parityZ * bosonBd 1 = -(bosonBd 1 * parityZ) := by
  have := congrArg conjTranspose parity_bosonB
  rw [conjTranspose_mul, conjTranspose_neg, conjTranspose_mul, bosonB_conj, parityZ_conj] at this
  rw [this, neg_neg]

theorem jw_anticomm (n k l : ℕ) (hl : l < k) (hk : k < n) (M M' : Arr (1 + 1))
    (hM : parityZ * M = -(M * parityZ)) :
    kronReduce (fun _ => 1) (jwFactors k M') n * kronReduce (fun _ => 1) (jwFactors l M) n
      = -(kronReduce (fun _ => 1) (jwFactors l M) n * kronReduce (fun _ => 1) (jwFactors k M') n) := by
  rw [kronReduce_mul, kronReduce_mul]
  refine kronReduce_neg _ _ _ n l (by omega) ?_ ?_
  · simp only [jwFactors]
    rw [if_pos hl, if_neg (lt_irrefl l), if_pos trivial, hM]
  · intro j _ hj
    simp only [jwFactors]
    rcases lt_trichotomy j l with h | h | h
    · rw [if_pos h, if_pos (by omega)]
    · omega
    · rw [if_neg (by omega : ¬ j < l), if_neg (by omega : ¬ j = l), one_mul, mul_one]

theorem jw_same (n k : ℕ) (M M' : Arr (1 + 1)) :
    kronReduce (fun _ => 1) (jwFactors k M) n * kronReduce (fun _ => 1) (jwFactors k M') n
      = kronReduce (fun _ => 1) (only k fun _ => M * M') n := by
  rw [kronReduce_mul]
  refine kronReduce_congr _ _ _ _ fun j _ => ?_
  simp only [jwFactors, only]
  rcases lt_trichotomy j k with h | h | h
  · rw [if_pos h, if_pos h, if_neg (by omega), parityZ_sq]
  · rw [if_neg (by omega : ¬ j < k), if_pos h, if_neg (by omega : ¬ j < k), if_pos h, if_pos h]
  · rw [if_neg (by omega : ¬ j < k), if_neg (by omega : ¬ j = k), if_neg (by omega : ¬ j < k),
      if_neg (by omega : ¬ j = k), if_neg (by omega : ¬ j = k), one_mul]

theorem bosonB_sq : bosonB 1 * bosonB 1 = 0 := by
  ext i j
  rw [mul_apply, Matrix.zero_apply]
  refine Finset.sum_eq_zero fun k _ => ?_
  simp only [bosonB, of_apply]
  by_cases h : i.val + 1 = k.val
  · have := k.isLt
    have := j.isLt
    rw [if_neg (by omega : ¬ k.val + 1 = j.val), mul_zero]
  · rw [if_neg h, zero_mul]

theorem bosonBd_sq : bosonBd 1 * bosonBd 1 = 0 := by
  have := congrArg conjTranspose bosonB_sq
  rwa [conjTranspose_mul, bosonB_conj, conjTranspose_zero] at this

theorem car_single : bosonB 1 * bosonBd 1 + bosonBd 1 * bosonB 1 = 1 := by
  rw [bosonB_mul, bosonBd_mul, diagonal_add, ← diagonal_one]
  congr 1; funext n
  have := n.isLt
  by_cases h : n.val = 1
  · rw [if_pos h, h]; simp
  · rw [if_neg h, show n.val = 0 by omega]; simp

theorem only_add (n k : ℕ) (hk : k < n) (M M' : Arr (1 + 1)) :
    kronReduce (fun _ => 1) (only k fun _ => M) n + kronReduce (fun _ => 1) (only k fun _ => M') n
      = kronReduce (fun _ => 1) (only k fun _ => M + M') n := by
  have := kronReduce_lin (fun _ => 1) (only k fun _ => M + M') (only k fun _ => M)
    (only k fun _ => M') 1 1 n k hk
    (by simp only [only]; rw [if_pos trivial, if_pos trivial, if_pos trivial, one_smul, one_smul])
    (fun l _ hl => by simp only [only]; rw [if_neg hl, if_neg hl])
    (fun l _ hl => by simp only [only]; rw [if_neg hl, if_neg hl])
  rw [this, one_smul, one_smul]

theorem only_one (Nmax : ℕ → ℕ) (n k : ℕ) : kronReduce Nmax (only k fun _ => 1) n = 1 := by
  rw [← kronReduce_one Nmax n]
  refine kronReduce_congr _ _ _ _ fun j _ => ?_
  simp only [only]; split_ifs <;> rfl

theorem fermionC_conj (n k : ℕ) (hk : k < n) : (fermionC n k)ᴴ = fermionCd n k := by
  rw [fermionC_eq n k hk, fermionCd_eq n k hk, kronReduce_conjTranspose]
  refine kronReduce_congr _ _ _ _ fun j _ => ?_
  simp only [jwFactors]
  split_ifs
  · exact parityZ_conj
  · exact bosonB_conj 1
  · exact conjTranspose_one

theorem nTot_eq (Nmax : ℕ → ℕ) (n : ℕ) :
    nTot Nmax n = diagonal fun i => ((∑ k ∈ Finset.range n, occ Nmax n i.val k : ℕ) : ℂ) := by
  ext i j
  rw [nTot, Matrix.sum_apply, diagonal_apply]
  by_cases h : i = j
  · subst h
    rw [if_pos rfl]
    push_cast
    refine Finset.sum_congr rfl fun k hk => ?_
    rw [numberOp_eq Nmax n k (Finset.mem_range.mp hk), diagonal_apply_eq]
  · rw [if_neg h]
    refine Finset.sum_eq_zero fun k hk => ?_
    rw [numberOp_eq Nmax n k (Finset.mem_range.mp hk), diagonal_apply_ne _ h]

theorem jordanWigner_eq (n : ℕ) :
    jordanWigner (fun _ => 1) n = kronReduce (fun _ => 1) (fun _ => parityZ) n := by
  have := kronReduce_diagonal (fun _ => 1) (fun _ x => (-1 : ℂ) ^ x.val) n
  rw [show (fun _ : ℕ => parityZ) = fun k : ℕ => diagonal fun x : Fin (1 + 1) => (-1 : ℂ) ^ x.val from rfl,
    this, jordanWigner]
  congr 1; funext i
  rw [nTot_eq, diagonal_apply_eq, Complex.cpow_natCast, ← Finset.prod_pow_eq_pow_sum]
  rfl

theorem jw_string_anticomm (n k : ℕ) (hk : k < n) (M : Arr (1 + 1))
    (hM : parityZ * M = -(M * parityZ)) :
    kronReduce (fun _ => 1) (fun _ => parityZ) n * kronReduce (fun _ => 1) (jwFactors k M) n
      = -(kronReduce (fun _ => 1) (jwFactors k M) n * kronReduce (fun _ => 1) (fun _ => parityZ) n) := by
  rw [kronReduce_mul, kronReduce_mul]
  refine kronReduce_neg _ _ _ n k hk ?_ ?_
  · simp only [jwFactors]
    rw [if_neg (lt_irrefl k), if_pos trivial, hM]
  · intro j _ hj
    simp only [jwFactors]
    rcases lt_trichotomy j k with h | h | h
    · rw [if_pos h]
    · omega
    · rw [if_neg (by omega : ¬ j < k), if_neg hj, one_mul, mul_one]

end Cyten.Sites
