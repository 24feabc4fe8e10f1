import Verif.Lemmas.Sites3

/-!
# C64: the operators of the predefined sites obey their defining algebras

For every spin, every clock order, every number of species and every cutoff.
-/

namespace Cyten.Sites

open Matrix

namespace Spec

/-- The basis state with the occupation numbers `o`: the index that the site's `state_labels`
assign to the label of `o`. -/
def state (Nmax : ℕ → ℕ) (n : ℕ) (o : ℕ → ℕ) (h : ∀ k < n, o k ≤ Nmax k) : Fin (siteDim Nmax n) :=
  ⟨labelIndex Nmax n o, labelIndex_lt Nmax n o h⟩

/-- The three Pauli matrices. -/
def pauli : Fin 3 → Matrix (Fin 2) (Fin 2) ℂ
  | 0 => !![0, 1; 1, 0]
  | 1 => !![0, -Complex.I; Complex.I, 0]
  | 2 => !![1, 0; 0, -1]

/-- The operator `c^dagger_x c_y` on the four states of two fermion species. -/
noncomputable def bilinear (x y : Fin 2) : Arr 4 := fermionCd 2 x.val * fermionC 2 y.val

end Spec

/-! ## Spins -/

/-- C64 (spins).  For every `2 S` the three spin matrices are hermitian, obey
`[Sx, Sy] = i Sz` and its cyclic images, `Sx^2 + Sy^2 + Sz^2 = S (S + 1)`, and `Sz` is diagonal
with the entries `-S, -S + 1, ..., S`: the checks of `SpinSite.test_sanity` never fail. -/
theorem C64_spin_algebra (twoS : ℕ) :
    let S : Fin 3 → Arr (twoS + 1) := spinSite twoS
    (∀ a, (S a)ᴴ = S a) ∧
    S 0 * S 1 - S 1 * S 0 = Complex.I • S 2 ∧
    S 1 * S 2 - S 2 * S 1 = Complex.I • S 0 ∧
    S 2 * S 0 - S 0 * S 2 = Complex.I • S 1 ∧
    S 0 * S 0 + S 1 * S 1 + S 2 * S 2 = ((twoS : ℂ) / 2 * ((twoS : ℂ) / 2 + 1)) • 1 ∧
    (∀ i j, S 2 i j = if i = j then (i.val : ℂ) - (twoS : ℂ) / 2 else 0) := by
  have h := spinVector_su2 (spinSz twoS) (spinSp twoS) (spinSz_herm twoS) (spin_raise twoS)
    (spin_ladder twoS)
  refine ⟨spinVector_hermitian _ _ (spinSz_herm twoS), h.1, h.2.1, h.2.2, ?_, ?_⟩
  · exact (spinVector_square _ _).trans (spin_casimir twoS)
  · intro i j
    show spinSz twoS i j = _
    rw [spinSz, diagonal_apply]
    split_ifs <;> ring

/-- C64 (spins).  The registered `Sp = Sx + i Sy` and `Sm = Sx - i Sy` are the raising and
lowering operators: `Sp` maps the basis state `m` to the next one with coefficient
`sqrt((S - m) (S + m + 1))`, and `Sm` is its adjoint. -/
theorem C64_spin_ladder (twoS : ℕ) (i j : Fin (twoS + 1)) :
    (spinSite twoS 0 + Complex.I • spinSite twoS 1) i j
      = (if i.val = j.val + 1
          then ((Real.sqrt (((twoS : ℝ) - j.val) * ((j.val : ℝ) + 1)) : ℝ) : ℂ) else 0) ∧
    spinSite twoS 0 - Complex.I • spinSite twoS 1
      = (spinSite twoS 0 + Complex.I • spinSite twoS 1)ᴴ := by
  have hI : Complex.I * (Complex.I / 2) = -(1 / 2) := by
    have := Complex.I_mul_I; linear_combination (1 / 2 : ℂ) * this
  have h1 : spinSite twoS 0 + Complex.I • spinSite twoS 1 = spinSp twoS := by
    show (1 / 2 : ℂ) • (spinSp twoS + (spinSp twoS)ᴴ)
      + Complex.I • ((Complex.I / 2 : ℂ) • ((spinSp twoS)ᴴ - spinSp twoS)) = _
    rw [smul_smul, hI]; module
  have h2 : spinSite twoS 0 - Complex.I • spinSite twoS 1 = (spinSp twoS)ᴴ := by
    show (1 / 2 : ℂ) • (spinSp twoS + (spinSp twoS)ᴴ)
      - Complex.I • ((Complex.I / 2 : ℂ) • ((spinSp twoS)ᴴ - spinSp twoS)) = _
    rw [smul_smul, hI]; module
  rw [h1, h2]
  refine ⟨?_, rfl⟩
  rw [spinSp, of_apply]
  congr 3
  rw [spinCoeff]
  congr 1; ring

/-- C64 (spins).  The charges of the conserving legs fit the operators: the sector of state
`n` is `2 Sz`, `Sp` raises it by two, and the parity leg is its mod-2 class up to the constant
`2 S`. -/
theorem C64_spin_charges (twoS : ℕ) (i j : Fin (twoS + 1)) :
    ((spinSectorU1 twoS i.val : ℤ) : ℂ) = 2 * spinSite twoS 2 i i ∧
    ((spinSite twoS 0 + Complex.I • spinSite twoS 1) i j ≠ 0 →
      spinSectorU1 twoS i.val = spinSectorU1 twoS j.val + 2 ∧
      spinSectorParity i.val = (spinSectorParity j.val + 1) % 2) ∧
    2 * (spinSectorParity i.val : ℤ) ≡ spinSectorU1 twoS i.val + twoS [ZMOD 4] := by
  refine ⟨?_, ?_, ?_⟩
  · rw [(C64_spin_algebra twoS).2.2.2.2.2, if_pos rfl, spinSectorU1]
    push_cast; ring
  · rw [(C64_spin_ladder twoS i j).1]
    intro h
    have : i.val = j.val + 1 := by
      by_contra hc
      exact h (if_neg hc)
    rw [spinSectorU1, spinSectorU1, spinSectorParity, spinSectorParity, this]
    constructor
    · push_cast; ring
    · omega
  · rw [spinSectorU1, spinSectorParity]
    unfold Int.ModEq
    push_cast
    omega

/-- The spin one half matrices are half the Pauli matrices, in the order `(down, up)`. -/
example : spinSite 1 2 = !![-(1 / 2), 0; 0, 1 / 2] := by
  ext i j
  rw [(C64_spin_algebra 1).2.2.2.2.2]
  fin_cases i <;> fin_cases j <;> norm_num

/-! ## Clocks -/

/-- C64 (clocks).  For every order `q`: `X Z = exp(2 i pi / q) Z X`, `X^q = Z^q = 1`, both are
unitary, and `X` maps the basis state `n + 1 mod q` to `n`, so that it lowers the `Z_q` charge
by one. -/
theorem C64_clock_algebra (q : ℕ) :
    clockX q * clockZ q = Complex.exp (2 * Real.pi * Complex.I / q) • (clockZ q * clockX q) ∧
    clockX q ^ q = 1 ∧ clockZ q ^ q = 1 ∧
    clockX q * (clockX q)ᴴ = 1 ∧ clockZ q * (clockZ q)ᴴ = 1 ∧
    (∀ i j : Fin q, clockX q i j = if (i.val + 1) % q = j.val then 1 else 0) ∧
    (∀ i j : Fin q, clockZ q i j
      = if i = j then Complex.exp (2 * Real.pi * Complex.I / q) ^ i.val else 0) := by
  have e : Complex.exp (2 * Real.pi * Complex.I / q) = clockPhase q := by
    rw [clockPhase]; congr 1; ring
  refine ⟨by rw [e]; exact clock_exchange q, clockX_pow_q q, clockZ_pow_q q, clockX_unitary q,
    clockZ_unitary q, ?_, ?_⟩
  · intro i j
    rw [clockX_apply]
    by_cases h : (i.val + 1) % q = j.val
    · rw [if_pos h, if_pos h.symm]
    · rw [if_neg h, if_neg (Ne.symm h)]
  · intro i j
    rw [clockZ_eq, diagonal_apply, e]

/-- C64 (clocks).  The order that the sanity check infers from the operators is `q`, for every
`q` of at least two; below that the check raises. -/
theorem C64_clock_inferred (q : ℕ) :
    inferClockQ (clockX q) (clockZ q) = if 2 ≤ q then some q else none := by
  by_cases h : 2 ≤ q
  · rw [if_pos h]; exact inferClockQ_clock q h
  · rw [if_neg h]; exact inferClockQ_small (by omega) _ _

/-- A clock of order three is not its own inverse. -/
example : clockX 3 * clockX 3 ≠ 1 := by
  intro h
  have := congrFun (congrFun h 0) 0
  rw [← pow_two, clockX_pow_apply] at this
  simp at this

/-! ## Occupation sites -/

/-- C64 (labels).  `state_labels` is a bijection: distinct occupations get distinct indices and
every basis state is the state of an occupation; the fermionic bit-shift formula gives the
same index. -/
theorem C64_state_labels (Nmax : ℕ → ℕ) (n : ℕ) :
    (∀ (o o' : ℕ → ℕ) (h : ∀ k < n, o k ≤ Nmax k) (h' : ∀ k < n, o' k ≤ Nmax k),
      Spec.state Nmax n o h = Spec.state Nmax n o' h' → ∀ k < n, o k = o' k) ∧
    (∀ i : Fin (siteDim Nmax n), ∃ (o : ℕ → ℕ) (h : ∀ k < n, o k ≤ Nmax k),
      i = Spec.state Nmax n o h) ∧
    (∀ o : ℕ → ℕ, (∀ k < n, o k ≤ 1) → fermionLabelIndex n o = labelIndex (fun _ => 1) n o) := by
  refine ⟨?_, ?_, fun o h => fermionLabelIndex_eq n o h⟩
  · intro o o' h h' e k hk
    rw [← occ_labelIndex Nmax n o h k hk, ← occ_labelIndex Nmax n o' h' k hk]
    exact congrArg (fun x => occ Nmax n x k) (congrArg Fin.val e)
  · intro i
    exact ⟨occ Nmax n i.val, fun k _ => occ_le Nmax n _ k,
      Fin.ext (labelIndex_occ Nmax n i.val i.isLt).symm⟩

/-- C64 (labels).  The basis state that a label names has exactly the charges of that label:
row number `labelIndex o` of the occupation table that the leg is built from is `o`, so the
conserved total is `sum o` and the conserved parity `sum o mod 2`. -/
theorem C64_state_sectors (Nmax : ℕ → ℕ) (n : ℕ) (o : ℕ → ℕ) (h : ∀ k < n, o k ≤ Nmax k) :
    (productRows Nmax n)[(Spec.state Nmax n o h).val]? = some ((List.range n).map o) ∧
    (sectorsTotal Nmax n)[(Spec.state Nmax n o h).val]? = some (∑ k ∈ Finset.range n, o k) ∧
    (sectorsParity Nmax n)[(Spec.state Nmax n o h).val]? = some ((∑ k ∈ Finset.range n, o k) % 2) ∧
    (productRows Nmax n).length = siteDim Nmax n := by
  have e : (productRows Nmax n)[(Spec.state Nmax n o h).val]? = some ((List.range n).map o) := by
    refine (productRows_getElem? Nmax n _ (labelIndex_lt Nmax n o h)).trans ?_
    congr 1
    refine List.map_congr_left fun k hk => ?_
    exact occ_labelIndex Nmax n o h k (List.mem_range.mp hk)
  refine ⟨e, ?_, ?_, ?_⟩
  · rw [sectorsTotal, List.getElem?_map, e, Option.map_some, sum_range_map]
  · rw [sectorsParity, List.getElem?_map, e, Option.map_some, sum_range_map]
  · rw [productRows_eq, List.length_map, List.length_range]

/-- C64 (ladder operators).  Between any two labelled states, the annihilator of species `k` is
`sqrt(n_k)` exactly when it removes one particle of species `k` and changes nothing else, and
the creator is its adjoint; the number operator counts the particles of species `k`, and the
total is the sum. -/
theorem C64_occupation_ladder (Nmax : ℕ → ℕ) (n k : ℕ) (hk : k < n) (o o' : ℕ → ℕ)
    (h : ∀ k < n, o k ≤ Nmax k) (h' : ∀ k < n, o' k ≤ Nmax k) :
    annihilator Nmax n k (Spec.state Nmax n o h) (Spec.state Nmax n o' h')
      = (if (∀ l < n, l ≠ k → o l = o' l) ∧ o k + 1 = o' k
          then ((Real.sqrt (o' k : ℝ) : ℝ) : ℂ) else 0) ∧
    creator Nmax n k = (annihilator Nmax n k)ᴴ ∧
    numberOp Nmax n k (Spec.state Nmax n o h) (Spec.state Nmax n o' h')
      = (if Spec.state Nmax n o h = Spec.state Nmax n o' h' then (o k : ℂ) else 0) ∧
    nTot Nmax n (Spec.state Nmax n o h) (Spec.state Nmax n o h)
      = ((∑ l ∈ Finset.range n, o l : ℕ) : ℂ) := by
  have e : ∀ l < n, occ Nmax n (Spec.state Nmax n o h).val l = o l := occ_labelIndex Nmax n o h
  have e' : ∀ l < n, occ Nmax n (Spec.state Nmax n o' h').val l = o' l := occ_labelIndex Nmax n o' h'
  refine ⟨?_, (annihilator_conj Nmax n k).symm, ?_, ?_⟩
  · rw [annihilator_apply Nmax n k hk, e k hk, e' k hk]
    congr 1
    apply propext
    constructor
    · rintro ⟨a, b⟩
      exact ⟨fun l hl hlk => by rw [← e l hl, ← e' l hl, a l hl hlk], b⟩
    · rintro ⟨a, b⟩
      exact ⟨fun l hl hlk => by rw [e l hl, e' l hl, a l hl hlk], b⟩
  · rw [numberOp_eq Nmax n k hk, diagonal_apply, e k hk]
  · rw [nTot_eq, diagonal_apply_eq]
    congr 1
    exact Finset.sum_congr rfl fun l hl => e l (Finset.mem_range.mp hl)

/-- C64 (bosons).  Operators of different species commute; for one species the commutator is
one except on the states that already hold `Nmax` particles, where it is `-Nmax`. -/
theorem C64_boson_algebra (Nmax : ℕ → ℕ) (n k : ℕ) (hk : k < n) :
    (∀ l < n, l ≠ k →
      annihilator Nmax n k * annihilator Nmax n l = annihilator Nmax n l * annihilator Nmax n k ∧
      annihilator Nmax n k * creator Nmax n l = creator Nmax n l * annihilator Nmax n k ∧
      creator Nmax n k * creator Nmax n l = creator Nmax n l * creator Nmax n k) ∧
    (∀ (o o' : ℕ → ℕ) (h : ∀ k < n, o k ≤ Nmax k) (h' : ∀ k < n, o' k ≤ Nmax k),
      (annihilator Nmax n k * creator Nmax n k - creator Nmax n k * annihilator Nmax n k)
          (Spec.state Nmax n o h) (Spec.state Nmax n o' h')
        = if Spec.state Nmax n o h = Spec.state Nmax n o' h'
          then (if o k < Nmax k then 1 else -(Nmax k : ℂ)) else 0) := by
  refine ⟨fun l _ hl => ?_, fun o o' h h' => ?_⟩
  · simp only [annihilator_eq, creator_eq]
    exact ⟨only_comm _ _ _ _ (Ne.symm hl) _ _, only_comm _ _ _ _ (Ne.symm hl) _ _,
      only_comm _ _ _ _ (Ne.symm hl) _ _⟩
  · have e : occ Nmax n (Spec.state Nmax n o h).val k = o k := occ_labelIndex Nmax n o h k hk
    have en : creator Nmax n k * annihilator Nmax n k = numberOp Nmax n k := rfl
    rw [en, numberOp_eq Nmax n k hk, antiNumber_eq Nmax n k hk, diagonal_sub, diagonal_apply, e]
    have := h k hk
    have h3 : (if o k = Nmax k then (0 : ℂ) else (o k : ℂ) + 1) - (o k : ℂ)
        = if o k < Nmax k then 1 else -(Nmax k : ℂ) := by
      by_cases h2 : o k = Nmax k
      · rw [if_pos h2, if_neg (by omega), h2]; simp
      · rw [if_neg h2, if_pos (by omega)]; simp
    rw [h3]

/-- C64 (bosons).  The sanity check of bosonic sites never fails: with the vanishing diagonal
entries of `B B^dagger` replaced by `max(B B^dagger) + 1`, the difference to the number
operator is the identity. -/
theorem C64_boson_sanity (Nmax : ℕ → ℕ) (n k : ℕ) (hk : k < n) (h1 : 1 ≤ Nmax k) (m : ℝ)
    (hm : IsGreatest {x : ℝ | ∃ i j, ((annihilator Nmax n k * creator Nmax n k) i j).re = x} m) :
    patchedBBd Nmax n k m - numberOp Nmax n k = 1 :=
  patched_sanity Nmax n k hk m (max_BBd Nmax n k hk h1 m hm)

/-- C64 (fermions).  With the Jordan-Wigner strings over the species of the site, the operators
obey the canonical anticommutation relations for every number of species, creator and
annihilator are adjoint, and the site's `JW` squares to one and anticommutes with all of
them. -/
theorem C64_fermion_algebra (n k l : ℕ) (hk : k < n) (hl : l < n) :
    fermionC n k * fermionC n l + fermionC n l * fermionC n k = 0 ∧
    fermionCd n k * fermionCd n l + fermionCd n l * fermionCd n k = 0 ∧
    fermionC n k * fermionCd n l + fermionCd n l * fermionC n k = (if k = l then 1 else 0) ∧
    (fermionC n k)ᴴ = fermionCd n k ∧
    jordanWigner (fun _ => 1) n * jordanWigner (fun _ => 1) n = 1 ∧
    jordanWigner (fun _ => 1) n * fermionC n k = -(fermionC n k * jordanWigner (fun _ => 1) n) ∧
    fermionCd n k * fermionC n k = numberOp (fun _ => 1) n k := by
  refine ⟨?_, ?_, ?_, fermionC_conj n k hk, ?_, ?_, ?_⟩
  · rw [fermionC_eq n k hk, fermionC_eq n l hl]
    rcases lt_trichotomy k l with h | h | h
    · rw [jw_anticomm n l k h hl _ _ parity_bosonB]; simp
    · subst h
      rw [jw_same, bosonB_sq, kronReduce_zero _ _ n k hk (if_pos rfl), add_zero]
    · rw [jw_anticomm n k l h hk _ _ parity_bosonB]; simp
  · rw [fermionCd_eq n k hk, fermionCd_eq n l hl]
    rcases lt_trichotomy k l with h | h | h
    · rw [jw_anticomm n l k h hl _ _ parity_bosonBd]; simp
    · subst h
      rw [jw_same, bosonBd_sq, kronReduce_zero _ _ n k hk (if_pos rfl), add_zero]
    · rw [jw_anticomm n k l h hk _ _ parity_bosonBd]; simp
  · rw [fermionC_eq n k hk, fermionCd_eq n l hl]
    rcases lt_trichotomy k l with h | h | h
    · rw [jw_anticomm n l k h hl _ _ parity_bosonB, if_neg (by omega)]; simp
    · subst h
      rw [jw_same, jw_same, only_add n k hk, car_single, only_one, if_pos rfl]
    · rw [jw_anticomm n k l h hk _ _ parity_bosonBd, if_neg (by omega)]; simp
  · rw [jordanWigner_eq, kronReduce_mul]
    simp only [parityZ_sq]
    exact kronReduce_one _ _
  · rw [jordanWigner_eq, fermionC_eq n k hk]
    exact jw_string_anticomm n k hk _ parity_bosonB
  · rw [fermionC_eq n k hk, fermionCd_eq n k hk, jw_same, numberOp, annihilator_eq, creator_eq,
      only_mul]

/-- Three species: the operators of species 0 and 2 anticommute, and are not zero. -/
example : fermionC 3 0 * fermionCd 3 2 + fermionCd 3 2 * fermionC 3 0 = 0 ∧
    fermionC 3 2 * fermionCd 3 2 + fermionCd 3 2 * fermionC 3 2 = 1 :=
  ⟨(C64_fermion_algebra 3 0 2 (by norm_num) (by norm_num)).2.2.1,
    (C64_fermion_algebra 3 2 2 (by norm_num) (by norm_num)).2.2.1⟩

/-- Two species with cutoffs 1 and 3: eight states, and the label `(1, 2)` is number 6. -/
example : siteDim (fun k => if k = 0 then 1 else 3) 2 = 8 ∧
    labelIndex (fun k => if k = 0 then 1 else 3) 2 (fun k => if k = 0 then 1 else 2) = 6 := by
  decide

/-! ## The spin-1/2 fermion site -/

/-- C64 (spin-1/2 fermions).  The spin operators of `SpinHalfFermionSite` are the second
quantised `1/2 sum c^dagger_a sigma_ab c_b` over the species up (0) and down (1), and the
sectors of its leg are `2 Sz`, the particle number and its parity. -/
theorem C64_spin_half_fermion :
    (∀ a : Fin 3, spinHalfVector a
      = (1 / 2 : ℂ) • ∑ x : Fin 2, ∑ y : Fin 2,
          Spec.pauli a x y • Spec.bilinear x y) ∧
    (∀ i : Fin 4, ∃ s t p : ℤ, spinHalfSectors[i.val]? = some [s, t, p] ∧
      (s : ℂ) = 2 * spinHalfVector 2 i i ∧ (t : ℂ) = (nTot (fun _ => 1) 2 : Arr 4) i i ∧
      p = t % 2) := by
  have e00 : Spec.bilinear 0 0 = diagonal ![0, 0, 1, 1] := by
    show (fermionCd 2 0 * fermionC 2 0 : Arr 4) = _
    rw [(C64_fermion_algebra 2 0 0 (by norm_num) (by norm_num)).2.2.2.2.2.2, numberOp_eq _ 2 0 (by norm_num)]
    congr 1; funext i; fin_cases i <;> simp [occ] <;> rfl
  have e11 : Spec.bilinear 1 1 = diagonal ![0, 1, 0, 1] := by
    show (fermionCd 2 1 * fermionC 2 1 : Arr 4) = _
    rw [(C64_fermion_algebra 2 1 1 (by norm_num) (by norm_num)).2.2.2.2.2.2, numberOp_eq _ 2 1 (by norm_num)]
    congr 1; funext i; fin_cases i <;> simp [occ] <;> rfl
  have e01 : Spec.bilinear 0 1 = spinHalfSp := by
    show (fermionCd 2 0 * fermionC 2 1 : Arr 4) = _
    rw [fermionC_eq 2 1 (by norm_num), fermionCd_eq 2 0 (by norm_num), kronReduce_mul]
    ext i j
    rw [kronReduce_apply, Finset.prod_range_succ, Finset.prod_range_succ, Finset.prod_range_zero]
    fin_cases i <;> fin_cases j <;>
      simp [jwFactors, occFin, occ, bosonB, bosonBd, parityZ, spinHalfSp, mul_apply, Fin.sum_univ_two] <;>
      rfl
  have e10 : Spec.bilinear 1 0 = spinHalfSpᴴ := by
    have h : (fermionCd 2 0 * fermionC 2 1)ᴴ = fermionCd 2 1 * fermionC 2 0 := by
      rw [conjTranspose_mul, fermionC_conj 2 1 (by norm_num), ← fermionC_conj 2 0 (by norm_num),
        conjTranspose_conjTranspose]
    rw [← e01]
    exact h.symm
  constructor
  · intro a
    rw [Fin.sum_univ_two, Fin.sum_univ_two, Fin.sum_univ_two]
    rw [e00, e01, e10, e11]
    match a with
    | 0 =>
      show (1 / 2 : ℂ) • (spinHalfSp + spinHalfSpᴴ) = _
      simp [Spec.pauli]
    | 1 =>
      show (Complex.I / 2 : ℂ) • (spinHalfSpᴴ - spinHalfSp) = _
      simp [Spec.pauli]
      module
    | 2 =>
      show spinHalfSz = _
      simp only [Spec.pauli, spinHalfSz]
      ext i j
      fin_cases i <;> fin_cases j <;> simp
  · intro i
    have hN : (nTot (fun _ => 1) 2 : Arr 4) i i
        = ((∑ k ∈ Finset.range 2, occ (fun _ => 1) 2 i.val k : ℕ) : ℂ) := by
      have := congrFun (congrFun (nTot_eq (fun _ => 1) 2) i) i
      exact this.trans (diagonal_apply_eq (n := Fin (siteDim (fun _ => 1) 2)) _ i)
    rw [hN]
    have hS : spinHalfVector 2 i i = (![0, -(1 / 2), 1 / 2, 0] : Fin 4 → ℂ) i := by
      show spinHalfSz i i = _
      rw [spinHalfSz, diagonal_apply_eq]
    rw [hS]
    fin_cases i
    · exact ⟨0, 0, 0, rfl, by simp, by simp [occ, Finset.sum_range_succ], by norm_num⟩
    · exact ⟨-1, 1, 1, rfl, by simp, by simp [occ, Finset.sum_range_succ], by norm_num⟩
    · exact ⟨1, 1, 1, rfl, by simp, by simp [occ, Finset.sum_range_succ], by norm_num⟩
    · exact ⟨0, 2, 0, rfl, by simp, by simp [occ, Finset.sum_range_succ], by norm_num⟩

end Cyten.Sites
