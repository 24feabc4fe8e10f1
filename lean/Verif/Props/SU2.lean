import Verif.Lemmas.SU2k
import Mathlib.Data.List.Perm.Basic

/-!
# C12: SU(2) fusion is the Clebsch-Gordan series; C43: the category `SU(2)_k`

`SU2.*`, `SU2k.*` model the C++ code; sectors are twice the spin, stored in `int16`.
-/

namespace Cyten.Props
open Cyten Cyten.Spec

/-- **C12**: as long as `a + b` fits into `int16`, `fusion_outcomes(a, b)` returns, without
duplicates, exactly the `c` with `|a-b| ≤ c ≤ a+b` and `a+b+c` even. -/
theorem C12_outcomes (a b : ℤ) (ha : SU2.valid a) (hb : SU2.valid b) (hab : a + b ≤ 32767) :
    ∃ l, SU2.fusionOutcomes a b = some l ∧ l.Nodup ∧
      (∀ c, c ∈ l ↔ |a - b| ≤ c ∧ c ≤ a + b ∧ (a + b + c) % 2 = 0) ∧
      (∀ c ∈ l, SU2.valid c) := by
  refine ⟨_, SU2.fusionOutcomes_eq ha hb hab, nodup_ap _ _, ?_, ?_⟩
  · intro c
    rw [mem_ap, abs_le']
    simp only [SU2.valid] at ha hb
    omega
  · intro c hc
    rw [mem_ap] at hc
    simp only [SU2.valid] at *
    omega

/-- **C12**: `can_fuse_to` agrees with membership in `fusion_outcomes` (same range). -/
theorem C12_can_fuse (a b c : ℤ) (ha : SU2.valid a) (hb : SU2.valid b) (hc : SU2.valid c)
    (hab : a + b ≤ 32767) :
    SU2.canFuseTo a b c = true ↔ ∃ l, SU2.fusionOutcomes a b = some l ∧ c ∈ l := by
  rw [SU2.fusionOutcomes_eq ha hb hab]
  simp only [SU2.valid] at ha hb hc
  have : Int.tmod (a + b + c) 2 = (a + b + c) % 2 := Int.tmod_eq_emod_of_nonneg (by omega)
  simp only [SU2.canFuseTo, this, Option.some.injEq, exists_eq_left', mem_ap, decide_eq_true_eq]
  omega

/-- **C12**: the dimensions add up, `dim a * dim b = Σ_c dim c`. -/
theorem C12_dim (a b : ℤ) (ha : SU2.valid a) (hb : SU2.valid b) (hab : a + b ≤ 32767) :
    ∃ l, SU2.fusionOutcomes a b = some l ∧
      SU2.sectorDim a * SU2.sectorDim b = (l.map SU2.sectorDim).sum := by
  refine ⟨_, SU2.fusionOutcomes_eq ha hb hab, ?_⟩
  rw [SU2.sum_dim]
  simp only [SU2.valid] at ha hb
  have h1 : (((min a b + 1).toNat : ℕ) : ℤ) = min a b + 1 := by omega
  rw [h1]
  rcases le_total a b with h | h
  · have h2 : ((a - b).natAbs : ℤ) = b - a := by omega
    rw [min_eq_left h, h2]; unfold SU2.sectorDim; ring
  · have h2 : ((a - b).natAbs : ℤ) = a - b := by omega
    rw [min_eq_right h, h2]; unfold SU2.sectorDim; ring

/-- **C12**: fusion is commutative (literally the same list, for all sectors, even on overflow). -/
theorem C12_comm (a b : ℤ) : SU2.fusionOutcomes a b = SU2.fusionOutcomes b a := by
  unfold SU2.fusionOutcomes
  have h1 : (a - b).natAbs = (b - a).natAbs := by omega
  rw [h1, add_comm a b]

/-- **C12**: every sector is its own and only dual. -/
theorem C12_self_dual (a b : ℤ) (ha : SU2.valid a) (hb : SU2.valid b) (hab : a + b ≤ 32767) :
    (∃ l, SU2.fusionOutcomes a b = some l ∧ 0 ∈ l) ↔ b = SU2.dual a := by
  obtain ⟨l, h1, -, h2, -⟩ := C12_outcomes a b ha hb hab
  rw [h1]
  simp only [Option.some.injEq, exists_eq_left', h2, SU2.dual, abs_le']
  simp only [SU2.valid] at ha hb
  omega

/-- **C12**: the two ways of fusing three sectors to `d` have the same number of channels. -/
theorem C12_assoc (a b c d : ℤ) (ha : SU2.valid a) (hb : SU2.valid b) (hc : SU2.valid c)
    (habc : a + b + c ≤ 32767) :
    ∃ lab lbc, SU2.fusionOutcomes a b = some lab ∧ SU2.fusionOutcomes b c = some lbc ∧
      (lab.filter fun f => d ∈ (SU2.fusionOutcomes f c).getD []).length =
      (lbc.filter fun e => d ∈ (SU2.fusionOutcomes a e).getD []).length := by
  have key : ∀ x y : ℤ, SU2.valid x → SU2.valid y → x + y ≤ 32767 →
      SU2.fusionOutcomes x y = some (SU2k.out 32767 x y) := by
    intro x y hx hy hxy
    rw [SU2.fusionOutcomes_eq hx hy hxy, SU2k.out_eq (le_refl _) hx hy]
    simp only [SU2.valid] at hx hy
    congr 3
    omega
  have va : 0 ≤ a ∧ a ≤ 32767 := ha
  have vb : 0 ≤ b ∧ b ≤ 32767 := hb
  have vc : 0 ≤ c ∧ c ≤ 32767 := hc
  refine ⟨_, _, key a b ha hb (by omega), key b c hb hc (by omega), ?_⟩
  have e1 : ∀ f ∈ SU2k.out 32767 a b,
      (decide (d ∈ (SU2.fusionOutcomes f c).getD [])) = decide (d ∈ SU2k.out 32767 f c) := by
    intro f hf
    obtain ⟨h0, h1⟩ := SU2k.mem_valid (le_refl _) va vb hf
    rw [key f c h0 hc (by omega)]; rfl
  have e2 : ∀ f ∈ SU2k.out 32767 b c,
      (decide (d ∈ (SU2.fusionOutcomes a f).getD [])) = decide (d ∈ SU2k.out 32767 a f) := by
    intro f hf
    obtain ⟨h0, h1⟩ := SU2k.mem_valid (le_refl _) vb vc hf
    rw [key a f ha h0 (by omega)]; rfl
  rw [List.filter_congr e1, List.filter_congr e2]
  exact SU2k.assoc_count (le_refl _) va vb vc

/-- **C12** beyond the range of `int16`: when `a + b` overflows, `fusion_outcomes` never returns a
sector (it throws or returns nothing), although `can_fuse_to` still answers `true`, e.g. for
`c = |a - b|`. -/
theorem C12_overflow (a b : ℤ) (ha : SU2.valid a) (hb : SU2.valid b) (hab : 32767 < a + b) :
    (SU2.fusionOutcomes a b = none ∨ SU2.fusionOutcomes a b = some []) ∧
      SU2.canFuseTo a b ((a - b).natAbs : ℤ) = true := by
  simp only [SU2.valid] at ha hb
  constructor
  · unfold SU2.fusionOutcomes
    have h1 : cast16 (a + b) = a + b - 65536 := by
      unfold cast16; rw [Int.bmod_def]; omega
    simp only [h1]
    rw [cast16_id (x := ((a - b).natAbs : ℤ)) (by omega) (by omega)]
    have h2 : Int.tdiv (a + b - 65536 - ((a - b).natAbs : ℤ)) 2 ≤ -1 := by
      have := Int.neg_tdiv (-(a + b - 65536 - ((a - b).natAbs : ℤ))) 2
      rw [neg_neg, Int.tdiv_eq_ediv_of_nonneg
        (a := -(a + b - 65536 - ((a - b).natAbs : ℤ))) (by omega)] at this
      omega
    split
    · left; rfl
    · right
      have h3 : Int.tdiv (a + b - 65536 - ((a - b).natAbs : ℤ)) 2 + 1 = 0 := by omega
      rw [h3]; rfl
  · have : Int.tmod (a + b + ((a - b).natAbs : ℤ)) 2 = (a + b + ((a - b).natAbs : ℤ)) % 2 :=
      Int.tmod_eq_emod_of_nonneg (by omega)
    simp only [SU2.canFuseTo, this, decide_eq_true_eq]
    omega

/-- **C12**: the R-symbol is the exchange sign `(-1)^{j_a + j_b - j_c}`. -/
theorem C12_r_symbol (a b c : ℤ) (h : c ≤ a + b) (hp : (a + b + c) % 2 = 0) :
    SU2.rSym a b c = (-1) ^ ((a + b - c) / 2).toNat ∧ SU2.rSym a b c = SU2.rSym b a c ∧
      SU2.rSym a b c * SU2.rSym b a c = 1 := by
  have h1 : SU2.rSym a b c = 1 - (a + b - c) % 4 := by
    unfold SU2.rSym; rw [Int.tmod_eq_emod_of_nonneg (by omega)]
  have h2 : SU2.rSym b a c = SU2.rSym a b c := by unfold SU2.rSym; rw [add_comm b a]
  have h3 : (a + b - c) % 4 = 0 ∨ (a + b - c) % 4 = 2 := by omega
  refine ⟨?_, h2.symm, ?_⟩
  · rw [h1]
    rcases h3 with h3 | h3
    · have : Even ((a + b - c) / 2).toNat := by rw [Nat.even_iff]; omega
      rw [this.neg_one_pow]; omega
    · have : Odd ((a + b - c) / 2).toNat := by rw [Nat.odd_iff]; omega
      rw [this.neg_one_pow]; omega
  · rw [h2, h1]; rcases h3 with h3 | h3 <;> rw [h3] <;> norm_num

/-- **C12**: the topological twist of the group `SU(2)` is 1, consistently with its R-symbols:
`Σ_c dim(c) R^{aa}_c = dim(a) * twist(a)`. -/
theorem C12_twist (a : ℤ) (ha : SU2.valid a) (haa : a + a ≤ 32767) :
    ∃ l, SU2.fusionOutcomes a a = some l ∧
      (l.map fun c => SU2.sectorDim c * SU2.rSym a a c).sum = SU2.sectorDim a * SU2.twist a := by
  refine ⟨_, SU2.fusionOutcomes_eq ha ha haa, ?_⟩
  simp only [SU2.valid] at ha
  have h0 : ((a - a).natAbs : ℤ) = 0 := by omega
  rw [h0, min_self]
  obtain ⟨n, rfl⟩ : ∃ n : ℕ, a = n := ⟨a.toNat, by omega⟩
  have hn : ((n : ℤ) + 1).toNat = n + 1 := by omega
  rw [hn]
  have key : ∀ m : ℕ, m ≤ n → ((ap 0 (m + 1)).map fun c => SU2.sectorDim c *
      SU2.rSym n n c).sum = (-1) ^ (n + m) * ((m : ℤ) + 1) := by
    intro m
    induction m with
    | zero =>
      intro _
      have hr := (C12_r_symbol n n 0 (by omega) (by omega)).1
      have he : (((n : ℤ) + n - 0) / 2).toNat = n := by omega
      rw [he] at hr
      simp [ap, SU2.sectorDim, hr]
    | succ m ih =>
      intro hm
      rw [ap_succ, List.map_append, List.sum_append, ih (by omega)]
      have hr := (C12_r_symbol n n (0 + 2 * ((m + 1 : ℕ) : ℤ)) (by omega) (by omega)).1
      have he : (((n : ℤ) + n - (0 + 2 * ((m + 1 : ℕ) : ℤ))) / 2).toNat = n - (m + 1) := by omega
      rw [he] at hr
      simp only [List.map_cons, List.map_nil, List.sum_cons, List.sum_nil, hr, SU2.sectorDim]
      have hs : (-1 : ℤ) ^ (n - (m + 1)) = (-1) ^ (n + (m + 1)) := by
        have : n + (m + 1) = (n - (m + 1)) + 2 * (m + 1) := by omega
        rw [this, pow_add, pow_mul]; simp
      rw [hs]
      have hs2 : (-1 : ℤ) ^ (n + (m + 1)) = - (-1) ^ (n + m) := by rw [← add_assoc, pow_succ]; ring
      rw [hs2]; push_cast; ring
  rw [key n (le_refl _)]
  have : (-1 : ℤ) ^ (n + n) = 1 := by rw [← two_mul, pow_mul]; simp
  rw [this]; simp [SU2.sectorDim, SU2.twist]

/-- **C12**: `Z_iso(a)` is an orthogonal matrix with `Zᵀ = frobenius_schur(a) Z`. -/
theorem C12_z_iso (a : ℕ) (i j : ℕ) (hi : i ≤ a) (hj : j ≤ a) :
    SU2.zIso a j i = SU2.frobeniusSchur a * SU2.zIso a i j ∧
    ((List.range (a + 1)).map fun k => SU2.zIso a i k * SU2.zIso a j k).sum =
      if i = j then 1 else 0 := by
  have sgn : ∀ n : ℕ, (1 - 2 * ((n % 2 : ℕ) : ℤ)) = (-1) ^ n := by
    intro n
    rcases Nat.even_or_odd n with h | h
    · rw [h.neg_one_pow, Nat.even_iff.1 h]; norm_num
    · rw [h.neg_one_pow, Nat.odd_iff.1 h]; norm_num
  constructor
  · unfold SU2.zIso SU2.frobeniusSchur
    have h0 : Int.tmod (a : ℤ) 2 = ((a % 2 : ℕ) : ℤ) := by
      rw [Int.tmod_eq_emod_of_nonneg (by omega)]; omega
    rw [h0, sgn, sgn, sgn]
    by_cases h : i + j = a
    · rw [if_pos h, if_pos (by omega), ← pow_add]
      have : a + i = j + 2 * i := by omega
      rw [this, pow_add, pow_mul]; simp
    · rw [if_neg h, if_neg (by omega)]; simp
  · have hterm : ∀ k ∈ List.range (a + 1), SU2.zIso a i k * SU2.zIso a j k =
        if k = a - i then (if i = j then 1 else 0) else 0 := by
      intro k hk
      rw [List.mem_range] at hk
      unfold SU2.zIso
      rw [sgn, sgn]
      by_cases h1 : k = a - i
      · rw [if_pos h1, if_pos (by omega)]
        by_cases h2 : i = j
        · subst h2
          rw [if_pos (by omega), if_pos rfl, ← pow_add, ← two_mul, pow_mul]; simp
        · rw [if_neg (by omega), if_neg h2]; simp
      · rw [if_neg h1, if_neg (by omega)]; simp
    rw [List.map_congr_left hterm, List.sum_map_ite_eq]
    rw [List.count_eq_one_of_mem List.nodup_range (by rw [List.mem_range]; omega)]
    simp

/-- Non-vacuity: spin 1/2 ⊗ spin 1 = 1/2 ⊕ 3/2. -/
example : SU2.valid 1 ∧ SU2.valid 2 ∧ SU2.fusionOutcomes 1 2 = some [1, 3] :=
  ⟨by simp [SU2.valid], by simp [SU2.valid], by decide⟩

/-- Witness for the overflow: `a = b = 20000`. -/
example : SU2.valid 20000 ∧ SU2.fusionOutcomes 20000 20000 = none ∧
    SU2.fusionOutcomes 32767 32767 = some [] :=
  ⟨by simp [SU2.valid], by decide +kernel, by decide +kernel⟩

/-! ### C43: SU(2)_k -/

/-- **C43**: the truncated fusion rules form a commutative fusion ring with self-dual sectors. -/
theorem C43_su2k_fusion (k : ℤ) (hk1 : 1 ≤ k) (hk : k ≤ 32767) (right : Bool) :
    (SU2k.cat k right).FusionRing := SU2k.fusionRing k hk1 hk right

/-- **C43**: the outcomes are exactly the truncated Clebsch-Gordan series. -/
theorem C43_su2k_outcomes (k a b c : ℤ) (hk : k ≤ 32767) (ha : 0 ≤ a ∧ a ≤ k)
    (hb : 0 ≤ b ∧ b ≤ k) :
    c ∈ SU2k.out k a b ↔ |a - b| ≤ c ∧ c ≤ min (a + b) (2 * k - a - b) ∧ (a + b + c) % 2 = 0 := by
  rw [SU2k.mem_out hk ha hb, abs_le', le_min_iff]
  omega

/-- **C43**: the quantum dimensions `sin((a+1)π/(k+2)) / sin(π/(k+2))` are positive and form a
character of the fusion ring. -/
theorem C43_su2k_qdim (k : ℤ) (hk1 : 1 ≤ k) (hk : k ≤ 32767) (right : Bool) :
    (SU2k.cat k right).QdimCharacter (SU2k.qdim k) := SU2k.qdimCharacter hk1 hk right

/-- **C43**: R-symbols are phases. -/
theorem C43_su2k_r_phase (k : ℤ) (hk : k ≤ 32767) (right : Bool) :
    (SU2k.cat k right).RPhase := SU2k.rPhase hk right

/-- **C43**: the twist computed from the R-symbols is a phase and satisfies the ribbon equation. -/
theorem C43_su2k_ribbon (k : ℤ) (hk1 : 1 ≤ k) (hk : k ≤ 32767) (right : Bool) :
    (SU2k.cat k right).Ribbon (SU2k.qdim k) (defaultTwist (SU2k.cat k right) (SU2k.qdim k)) :=
  SU2k.ribbon hk1 hk right

/-- **C43**: its value is `exp(± 2πi a(a+2) / (4(k+2)))`. -/
theorem C43_su2k_twist (k : ℤ) (hk1 : 1 ≤ k) (hk : k ≤ 32767) (right : Bool) (a : ℤ)
    (ha : 0 ≤ a ∧ a ≤ k) :
    defaultTwist (SU2k.cat k right) (SU2k.qdim k) a =
      Complex.exp (Complex.I * (((if right then -1 else 1) *
        (2 * Real.pi * (a * (a + 2)) / (4 * (k + 2))) : ℝ) : ℂ)) := by
  rw [SU2k.twist_eq hk1 hk right ha]
  have hk' : ((k : ℝ) + 2) ≠ 0 := by
    have : (1 : ℝ) ≤ k := by exact_mod_cast hk1
    linarith
  have e : 2 * Real.pi * ((a : ℝ) * (a + 2)) / (4 * (k + 2)) =
      ((a * (a + 2) : ℤ) : ℝ) / 2 * (Real.pi / (k + 2)) := by
    push_cast; field_simp; ring
  rw [e]
  cases right
  · simp only [SU2k.θ, SU2k.E, Bool.false_eq_true, if_false, one_mul]
  · simp only [SU2k.θ, if_true, SU2k.E_star]
    simp only [SU2k.E]
    congr 3; ring

/-- Non-vacuity: at level 2, spin 1/2 ⊗ spin 1/2 = 0 ⊕ 1 but spin 1 ⊗ spin 1 = 0 (truncated). -/
example : SU2k.out 2 1 1 = [0, 2] ∧ SU2k.out 2 2 2 = [0] := by decide +kernel

end Cyten.Props
