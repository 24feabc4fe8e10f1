import Verif.Model.Pinv
import Verif.Spec.MoorePenrose
import Verif.Props.TruncatedSvd
import Verif.Props.AbelianScale
import Mathlib.Data.Matrix.Diagonal
import Mathlib.Algebra.BigOperators.Group.Finset.Basic
import Mathlib.Data.Fintype.Sets

/-!
# C88: the pseudo-inverse of a tensor
-/

namespace Cyten.Props
open Cyten.Abelian Cyten.Abelian.Spec Cyten.Tables Cyten.Tools Cyten.ListSum Cyten.Spaces Cyten.Truncation
open Cyten.Spec Matrix Cyten.FusionTrees

/-- The basis of a leg, as a type. -/
abbrev LegIx {S : Type} (e : ESpace S) : Type := {x : List ℕ × List ℕ // x ∈ basis [e.mults]}

/-- The matrix of a function of basis vectors. -/
def matOf {S : Type} (c d : ESpace S) (g : List ℕ × List ℕ → List ℕ × List ℕ → ℂ) :
    Matrix (LegIx c) (LegIx d) ℂ := fun x z => g x.1 z.1

/-- The matrix of a tensor with one leg in the codomain and one in the domain. -/
def matT {S : Type} (c d : ESpace S) (T : Ents ℂ) : Matrix (LegIx c) (LegIx d) ℂ :=
  matOf c d (entry T)

theorem sum_legIx {S : Type} (e : ESpace S) (g : List ℕ × List ℕ → ℂ) :
    ∑ x : LegIx e, g x.1 = ((basis [e.mults]).map g).sum := by
  rw [← List.sum_toFinset g (C34_basis_nodup _)]
  exact (Finset.sum_subtype _ (fun x => List.mem_toFinset) g).symm

/-- The pseudo-inverse of a product of isometries and a diagonal matrix. -/
theorem mp_of_factors {m n y : Type} [Fintype m] [Fintype n] [Fintype y] [DecidableEq y]
    (U : Matrix m y ℂ) (V : Matrix y n ℂ) (hU : Uᴴ * U = 1) (hV : V * Vᴴ = 1) (w g : y → ℂ)
    (h1 : ∀ i, w i * g i * w i = w i) (h2 : ∀ i, g i * w i * g i = g i)
    (h3 : ∀ i, star (w i * g i) = w i * g i) :
    MoorePenrose (U * diagonal w * V) (Vᴴ * diagonal g * Uᴴ) := by
  have e1 : (U * diagonal w * V) * (Vᴴ * diagonal g * Uᴴ) =
      U * diagonal (fun i => w i * g i) * Uᴴ := by
    calc _ = U * diagonal w * (V * Vᴴ) * diagonal g * Uᴴ := by simp only [Matrix.mul_assoc]
      _ = U * (diagonal w * diagonal g) * Uᴴ := by rw [hV, Matrix.mul_one, Matrix.mul_assoc U]
      _ = _ := by rw [diagonal_mul_diagonal]
  have e2 : (Vᴴ * diagonal g * Uᴴ) * (U * diagonal w * V) =
      Vᴴ * diagonal (fun i => w i * g i) * V := by
    calc _ = Vᴴ * diagonal g * (Uᴴ * U) * diagonal w * V := by simp only [Matrix.mul_assoc]
      _ = Vᴴ * (diagonal g * diagonal w) * V := by rw [hU, Matrix.mul_one, Matrix.mul_assoc Vᴴ]
      _ = _ := by rw [diagonal_mul_diagonal]; simp only [mul_comm]
  have hs : (diagonal fun i => w i * g i)ᴴ = diagonal fun i => w i * g i := by
    rw [diagonal_conjTranspose]
    congr 1
    funext i
    exact h3 i
  refine ⟨?_, ?_, ?_, ?_⟩
  · rw [e1]
    calc _ = U * diagonal (fun i => w i * g i) * (Uᴴ * U) * diagonal w * V := by
          simp only [Matrix.mul_assoc]
      _ = U * (diagonal (fun i => w i * g i) * diagonal w) * V := by
          rw [hU, Matrix.mul_one, Matrix.mul_assoc U]
      _ = _ := by rw [diagonal_mul_diagonal]; simp only [h1]
  · rw [e2]
    calc _ = Vᴴ * diagonal (fun i => w i * g i) * (V * Vᴴ) * diagonal g * Uᴴ := by
          simp only [Matrix.mul_assoc]
      _ = Vᴴ * (diagonal (fun i => w i * g i) * diagonal g) * Uᴴ := by
          rw [hV, Matrix.mul_one, Matrix.mul_assoc Vᴴ]
      _ = _ := by
          rw [diagonal_mul_diagonal]
          have : ∀ i, w i * g i * g i = g i := fun i => by rw [mul_comm (w i), h2 i]
          simp only [this]
  · rw [e1, conjTranspose_mul, conjTranspose_mul, hs, conjTranspose_conjTranspose, Matrix.mul_assoc]
  · rw [e2, conjTranspose_mul, conjTranspose_mul, hs, conjTranspose_conjTranspose, Matrix.mul_assoc]

/-- What `cutoff_inverse` does to a number and what is left of the number. -/
theorem cutoffInv_laws (cutoff : ℝ) (hcut : 0 < cutoff) (s : ℂ) (hs : s.im = 0) :
    let w := if ‖s‖ < cutoff then 0 else s
    let g := cutoffInv cutoff s
    w * g * w = w ∧ g * w * g = g ∧ star (w * g) = w * g ∧ star g = g := by
  unfold cutoffInv
  by_cases h : ‖s‖ < cutoff
  · simp [if_pos h]
  · have h0 : s ≠ 0 := by
      intro h0
      rw [h0, norm_zero] at h
      exact h hcut
    have hst : star s = s := by
      apply Complex.ext
      · simp
      · simp [hs]
    simp only [if_neg h]
    refine ⟨?_, ?_, ?_, ?_⟩
    · field_simp
    · field_simp
    · rw [mul_one_div, div_self h0, star_one]
    · rw [star_div₀, star_one, hst]

section
variable {S : Type} [LinearOrder S] {sym : Sym S}

/-- The tensor of which `pinv` computes the pseudo-inverse: the singular values below the cutoff are
set to zero. -/
noncomputable def keptPart (cutoff : ℝ) (W : TruncSvd S) (x z : List ℕ × List ℕ) : ℂ :=
  ((basis [W.leg.mults]).map fun y => entry W.U x y *
    (if ‖diagEntry W.D (y.1.getD 0 0) (y.2.getD 0 0)‖ < cutoff then 0
      else diagEntry W.D (y.1.getD 0 0) (y.2.getD 0 0)) * entry W.V y z).sum

theorem mask_length {M : MaskT S} (h : MaskSane sym M) : M.small.mults.length ≤ M.large.mults.length := by
  rw [h.mults, List.length_map]
  have h1 : (M.ents.map Prod.fst).Nodup := h.ents.sorted.imp fun h => h.ne
  have h2 : M.ents.map Prod.fst ⊆ List.range M.large.mults.length := by
    intro i hi
    obtain ⟨p, hp, rfl⟩ := List.mem_map.1 hi
    exact List.mem_range.2 (h.ents.shapes p hp).1
  have := (List.subperm_of_subset h1 h2).length_le
  simpa using this


omit [LinearOrder S] in
theorem cutoffInv_zero (cutoff : ℝ) (hcut : 0 < cutoff) : cutoffInv cutoff 0 = 0 := by
  unfold cutoffInv
  rw [norm_zero, if_pos hcut]

theorem truncatedSvd_parts {c d l : ESpace S} {f : Blk ℂ → Blk ℂ × List ℂ × Blk ℂ}
    {T : Ents ℂ} {argsort : List ℝ → List ℕ} {lg : ℝ → ℝ} {o : Opts ℝ} {W : TruncSvd S}
    (hW : Abelian.truncatedSvd argsort lg sym c d l f T o none = some W) :
    ∃ v nn, select argsort lg (diagonalToBlock sym l (elementwiseUnary l.mults
        (List.map fun s : ℂ => s.re / diagNorm (svd sym c d l f T).2.1) false (svd sym c d l f T).2.1))
        none o = some (v, W.err, nn) ∧
      W.leg = (maskFromBlock sym l v).small ∧
      W.D = maskDiagonal (svd sym c d l f T).2.1 (maskFromBlock sym l v).data := by
  unfold Abelian.truncatedSvd truncateSingularValues at hW
  dsimp only at hW
  rw [Option.map_map, Option.map_eq_some_iff] at hW
  obtain ⟨⟨v, e, nn⟩, h1, rfl⟩ := hW
  exact ⟨v, nn, h1, rfl, rfl⟩

theorem leg_pos {mults : List ℕ} (hne : basis [mults] ≠ []) : mults.sum ≠ 0 := by
  obtain ⟨y, hy⟩ := List.exists_mem_of_ne_nil _ hne
  obtain ⟨b, x, ⟨h1, h2⟩, -⟩ := mem_basis_one.1 hy
  intro h
  have := (List.sum_eq_zero_iff.1 h) (mults.getD b 0) (by
    rw [List.getD_eq_getElem _ _ h1]; exact List.getElem_mem _)
  omega

/-- If all nonzero values pass the cutoff, only zeros are discarded. -/
theorem select_err_zero {argsort : List ℝ → List ℕ} (ha : IsArgsort argsort) (lg : ℝ → ℝ) (L : List ℝ)
    (m : ℝ) (hL : ∀ s ∈ L, s ≠ 0 → m ≤ s) (hex : ∃ s ∈ L, s ≠ 0) (v : List Bool) (err nn : ℝ)
    (h : select argsort lg L none (pinvOpts m) = some (v, err, nn)) : err = 0 := by
  have hne : L ≠ [] := by
    rintro rfl
    obtain ⟨s, hs, -⟩ := hex
    simp at hs
  have hchi : ∀ chi, (pinvOpts m).chiMax = some chi → 1 ≤ chi := by
    intro chi h; exact absurd h (by simp [pinvOpts])
  obtain ⟨mask, e, n, h1, -, -, -, -, h6, -⟩ := C18_selection ha lg L none trivial (pinvOpts m) hne hchi
  obtain ⟨mask', e', n', piv, cut, g1, g2, g3, g4, g5, -, -, g8⟩ :=
    C18_priority ha lg L none trivial (pinvOpts m) hne hchi
  rw [h] at h1 g1
  simp only [Option.some.injEq, Prod.mk.injEq] at h1 g1
  obtain ⟨rfl, rfl, rfl⟩ := h1
  obtain ⟨rfl, rfl, rfl⟩ := g1
  have hw : ∀ i, weight L none i = L.getD i 0 ^ 2 := fun _ => rfl
  set c := piv.findIdx fun i => decide (L.getD i 0 ≠ 0) with hc
  have hlen : piv.length = L.length := by simpa using g2.length_eq
  have hc1 : c < piv.length := by
    rw [hc, List.findIdx_lt_length]
    obtain ⟨s, hs, hs0⟩ := hex
    obtain ⟨i, hi, rfl⟩ := List.getElem_of_mem hs
    refine ⟨i, g2.mem_iff.2 (List.mem_range.2 hi), ?_⟩
    rw [decide_eq_true_eq, List.getD_eq_getElem _ _ hi]
    exact hs0
  have hc2 : L.getD piv[c] 0 ≠ 0 := by
    have := List.findIdx_getElem (p := fun i => decide (L.getD i 0 ≠ 0)) (w := hc1)
    exact of_decide_eq_true this
  have hc3 : piv[c] < L.length := List.mem_range.1 (g2.mem_iff.1 (List.getElem_mem hc1))
  have hcut : cut ≤ c := by
    have := g8 c (hlen ▸ hc1) ?_
    · simpa [pinvOpts] using this
    · intro i hi
      interval_cases i
      · intro chi h; exact absurd h (by simp [pinvOpts])
      · show (1 : ℤ) ≤ (L.length : ℤ) - c
        omega
      · intro h; exact absurd h (by simp [pinvOpts])
      · intro m' hm'
        have : m = m' := by simpa [pinvOpts] using hm'
        subst this
        rw [List.getD_eq_getElem piv _ hc1]
        refine hL _ ?_ hc2
        rw [List.getD_eq_getElem _ _ hc3]
        exact List.getElem_mem _
      · show (0 : ℝ) ^ 2 < _
        rw [zero_pow two_ne_zero]
        refine lt_of_lt_of_le (b := weight L none piv[c]) ?_ ?_
        · rw [hw]; positivity
        · refine List.single_le_sum (fun a ha => ?_) _ (List.mem_map.2 ⟨piv[c], ?_, rfl⟩)
          · obtain ⟨i, -, rfl⟩ := List.mem_map.1 ha
            rw [hw]; positivity
          · rw [List.mem_take_iff_getElem]
            exact ⟨c, by omega, rfl⟩
  rw [h6]
  refine sum_zero _ _ fun i hi => ?_
  obtain ⟨hi1, hi2⟩ := List.mem_filter.1 hi
  have hi1' := List.mem_range.1 hi1
  have hi2' : ¬ Kept v i := by simpa using hi2
  have hi3 : i ∉ piv.drop cut := fun h => hi2' ((g5 i hi1').2 h)
  have hi4 : i ∈ piv := g2.mem_iff.2 hi1
  rw [← List.take_append_drop cut piv, List.mem_append] at hi4
  rcases hi4 with hi4 | hi4
  · obtain ⟨k, hk, rfl⟩ := List.mem_take_iff_getElem.1 hi4
    have : ¬ (decide (L.getD piv[k] 0 ≠ 0)) = true := by
      have := List.not_of_lt_findIdx (p := fun i => decide (L.getD i 0 ≠ 0)) (xs := piv) (i := k)
        (by omega)
      simpa using this
    rw [hw]
    simp only [ne_eq, decide_not, Bool.not_eq_eq_eq_not, Bool.not_true, decide_eq_false_iff_not,
      not_not] at this
    rw [this]; simp
  · exact absurd hi4 hi3

/-- Every position of the flat vector is a position in a block. -/
theorem exists_diagIndex (mults : List ℕ) (i : ℕ) (hi : i < mults.sum) :
    ∃ b x, IsDiagIndex mults b x ∧ i = (mults.take b).sum + x := by
  induction mults generalizing i with
  | nil => simp at hi
  | cons m ms ih =>
    by_cases h : i < m
    · exact ⟨0, i, ⟨by simp, by simpa using h⟩, by simp⟩
    · rw [List.sum_cons] at hi
      obtain ⟨b, x, ⟨h1, h2⟩, h3⟩ := ih (i - m) (by omega)
      refine ⟨b + 1, x, ⟨by simpa using h1, by simpa using h2⟩, ?_⟩
      rw [List.take_succ_cons, List.sum_cons]
      omega

section Main
variable {c d l : ESpace S} (R : FusionRule S) {T : Ents ℂ}
  (hdim : DimOK sym) (hone : ∀ s, sym.dim s = 1) (hdrop : sym.canDrop = true)
  (hc : ValidSpace sym c) (hd : ValidSpace sym d) (hinj : Function.Injective sym.dual)
  (hN : IsNewLeg sym c d l) (hT : IsHom R [toBLeg sym c] [toBLeg sym d] T)
  (hnz : ∃ x ∈ basis [c.mults], ∃ z ∈ basis [d.mults], entry T x z ≠ 0)
  (f : Blk ℂ → Blk ℂ × List ℂ × Blk ℂ)
  (hf : ∀ p ∈ T, ∀ m n, p.2.shape = [m, n] → IsSVD m n p.2 (f p.2).1 (f p.2).2.1 (f p.2).2.2)
  (hreal : ∀ p ∈ T, ∀ s ∈ (f p.2).2.1, s.im = 0)
  {argsort : List ℝ → List ℕ} (ha : IsArgsort argsort) (lg : ℝ → ℝ)
  (hmax : (l.sectors sym).length < maxInt)

include hc hd hinj hN hT hf in
/-- The entries of the diagonal factor are singular values of the blocks, or zero. -/
theorem svd_values (P : ℂ → Prop) (h0 : P 0) (hP : ∀ p ∈ T, ∀ s ∈ (f p.2).2.1, P s) (b x : ℕ) :
    P (diagEntry (svd sym c d l f T).2.1 b x) := by
  have s7 := (C48_svd R hc hd hinj hN hT f hf).2.2.2.2.2.2
  unfold diagEntry
  cases hlk : (svd sym c d l f T).2.1.lookup b with
  | none => simpa using h0
  | some u =>
    obtain ⟨p, hp, hq⟩ := s7 _ (lookup_mem hlk)
    rw [Option.getD_some, List.getD_eq_getElem?_getD]
    cases hu : u[x]? with
    | none => simpa using h0
    | some a =>
      refine hP p hp a ?_
      rw [← hq]
      exact List.mem_of_getElem? hu

include hdim hone hdrop hc hd hinj hN hT hf ha in
/-- The kept part of the diagonal factor. -/
theorem trunc_values {o : Opts ℝ} (hchi : ∀ chi, o.chiMax = some chi → 1 ≤ chi) (hne : l.mults.sum ≠ 0)
    {W : TruncSvd S} (hW : Abelian.truncatedSvd argsort lg sym c d l f T o none = some W)
    (P : ℂ → Prop) (h0 : P 0) (hP : ∀ p ∈ T, ∀ s ∈ (f p.2).2.1, P s) :
    W.leg.mults.length ≤ l.mults.length ∧
    ∀ y ∈ basis [W.leg.mults], P (diagEntry W.D (y.1.getD 0 0) (y.2.getD 0 0)) := by
  obtain ⟨s1, s2, s3, s4, s5, s6, s7⟩ := C48_svd R hc hd hinj hN hT f hf
  have sv := svd_values R hc hd hinj hN hT f hf P h0 hP
  obtain ⟨v, nn, hsel, hleg, hD⟩ := truncatedSvd_parts hW
  generalize svd sym c d l f T = usv0 at *
  obtain ⟨U, D, V⟩ := usv0
  simp only at s1 s2 s3 sv hsel hD
  have hl : DenseOK sym [l] := ⟨hdim, hone, hdrop, fun e he => by
    rw [List.mem_singleton.1 he]; exact hN.valid⟩
  obtain ⟨n1, n2⟩ := C36_unary l.mults (fun s : ℂ => s.re / diagNorm D) false (by simp) D s2
  obtain ⟨t1, t2⟩ := to_block_spec hl _ n1
  obtain ⟨mask, err, nn', hsel', hml, -⟩ := C18_selection ha lg (diagonalToBlock sym l
    (elementwiseUnary l.mults (List.map fun s : ℂ => s.re / diagNorm D) false D)) none trivial o (by
      intro h
      rw [h] at t1
      exact hne t1.symm) hchi
  rw [hsel] at hsel'
  simp only [Option.some.injEq, Prod.mk.injEq] at hsel'
  obtain ⟨rfl, -, -⟩ := hsel'
  obtain ⟨m1, m2⟩ := from_block_spec hl v (by rw [hml, t1])
  obtain ⟨a1, a2, a3, a4⟩ := svdMask_spec (M := maskFromBlock sym l v) m1 rfl (c := c) (d := d) (R := R)
    (U := U) (V := V) (D := D) s1 s2 s3
  refine ⟨by rw [hleg]; exact mask_length m1, fun y hy => ?_⟩
  rw [hleg] at hy
  obtain ⟨z, hz, hzm⟩ := maskRel_exists m1 hy
  have := (a4 y z hz).2.1
  rw [hD]
  refine Eq.mp (congrArg P this.symm) (sv _ _)

include hdim hone hdrop hc hd hinj hN hT hnz hf hreal ha hmax

/-- **C88**: for every nonzero tensor and every positive cutoff, `pinv` succeeds and its result is the
pseudo-inverse of the tensor that is left when the singular values which `truncated_svd` discards (those
below `cutoff` relative to the norm) and those below `cutoff` (absolutely) are set to zero. -/
theorem C88_truncated_pinv (cutoff : ℝ) (hcut : 0 < cutoff) :
    ∃ W P, Abelian.truncatedSvd argsort lg sym c d l f T (pinvOpts cutoff) none = some W ∧
      pinv R argsort lg sym c d l f T cutoff = some P ∧
      IsHom R [toBLeg sym d] [toBLeg sym c] P ∧
      MoorePenrose (matOf c d (keptPart cutoff W)) (matT d c P) := by
  have hchi : ∀ chi, (pinvOpts cutoff).chiMax = some chi → 1 ≤ chi := by
    intro chi h; exact absurd h (by simp [pinvOpts])
  obtain ⟨W, hW, w1, w2, w3, w4, w5, w6, -⟩ := C83_truncated_svd R hdim hone hdrop hc hd hinj hN hT hnz f hf
    hreal ha lg (pinvOpts cutoff) hchi none (by simp)
  have hne : l.mults.sum ≠ 0 := by
    refine leg_pos fun h0 => ?_
    obtain ⟨x, hx, z, hz, hxz⟩ := hnz
    have := (C48_svd R hc hd hinj hN hT f hf).2.2.2.1 x hx z hz
    rw [h0] at this
    exact hxz this
  obtain ⟨q1, q2⟩ := trunc_values R hdim hone hdrop hc hd hinj hN hT f hf ha lg hchi hne hW
    (fun s => s.im = 0) rfl hreal
  obtain ⟨i1, i2⟩ := C36_unary W.leg.mults (cutoffInv cutoff) true
    (fun _ => cutoffInv_zero cutoff hcut) W.D w3
  have hU : Sane [c.mults, W.leg.mults] W.U := w2.sane
  obtain ⟨b1, b2⟩ := C41_scale_axis [c.mults, W.leg.mults] W.leg.mults W.U
    (cutoffInverse W.leg.mults cutoff W.D) 1 hU i1 (by simp)
  have hB : IsHom R [toBLeg sym c] [toBLeg sym W.leg]
      (scaleAxis W.U (cutoffInverse W.leg.mults cutoff W.D) 2 1) := by
    refine ⟨b1, fun p hp => ?_⟩
    obtain ⟨h1, -⟩ := (b2 p.1).1 (List.mem_map.2 ⟨p, hp, rfl⟩)
    obtain ⟨q, hq, hqp⟩ := List.mem_map.1 h1
    rw [← hqp]
    exact w2.charge q hq
  have hl1 := sectors_length w1
  have hl2 := sectors_length hN.valid
  obtain ⟨P, hP⟩ := compose_one_isSome (sym := sym) R c W.leg d (by omega)
    (scaleAxis W.U (cutoffInverse W.leg.mults cutoff W.D) 2 1) W.V
  have hPh := C33_isHom R _ _ _ _ _ P (legsOK_one hl1) hB w4 hP
  refine ⟨W, dagger P, hW, ?_, C34_isHom_dagger R _ _ _ hPh, ?_⟩
  · unfold pinv
    rw [hW]
    show (compose R _ _ _ _ _).bind _ = _
    rw [hP]
    rfl
  · set U : Matrix (LegIx c) (LegIx W.leg) ℂ := matOf c W.leg (entry W.U) with hUd
    set V : Matrix (LegIx W.leg) (LegIx d) ℂ := matOf W.leg d (entry W.V) with hVd
    set s : LegIx W.leg → ℂ := fun y => diagEntry W.D (y.1.1.getD 0 0) (y.1.2.getD 0 0) with hs
    have hlaw := fun y : LegIx W.leg => cutoffInv_laws cutoff hcut (s y) (q2 y.1 y.2)
    have e1 : matOf c d (keptPart cutoff W) =
        U * diagonal (fun y => if ‖s y‖ < cutoff then 0 else s y) * V := by
      ext x z
      rw [Matrix.mul_apply]
      simp only [Matrix.mul_diagonal]
      exact (sum_legIx W.leg fun y => entry W.U x.1 y *
        (if ‖diagEntry W.D (y.1.getD 0 0) (y.2.getD 0 0)‖ < cutoff then 0
          else diagEntry W.D (y.1.getD 0 0) (y.2.getD 0 0)) * entry W.V y z.1).symm
    have e2 : matT d c (dagger P) = Vᴴ * diagonal (fun y => cutoffInv cutoff (s y)) * Uᴴ := by
      ext z x
      have h1 : matT d c (dagger P) z x = star (entry P x.1 z.1) :=
        C34_entry_dagger R _ _ P hPh x.1 z.1 x.2 z.2
      rw [h1, C33_matrix_product R _ _ _ _ _ P (legsOK_one hl1) hB w4 hP x.1 z.1 x.2 z.2, Matrix.mul_apply]
      simp only [Matrix.mul_diagonal, Matrix.conjTranspose_apply]
      rw [show multsOf [toBLeg sym W.leg] = [W.leg.mults] from rfl, ← sum_legIx, star_sum]
      refine Finset.sum_congr rfl fun y _ => ?_
      have h2 : entry (scaleAxis W.U (cutoffInverse W.leg.mults cutoff W.D) 2 1) x.1 y.1 =
          entry W.U x.1 y.1 * cutoffInv cutoff (s y) := by
        obtain ⟨bx, px, -, hx⟩ := mem_basis_one.1 x.2
        obtain ⟨b, p, hbp, hy⟩ := mem_basis_one.1 y.2
        have := C54_scale_axis [c.mults, W.leg.mults] W.leg.mults W.U
          (cutoffInverse W.leg.mults cutoff W.D) 1 hU i1 (by simp) [bx, b] [px, p]
        simp only [hs]
        rw [hx, hy]
        show dense _ [bx, b] [px, p] = dense W.U [bx, b] [px, p] * cutoffInv cutoff (diagEntry W.D b p)
        rw [← i2 b p hbp]
        exact this
      rw [h2, star_mul, star_mul, (hlaw y).2.2.2, hUd, hVd]
      unfold matOf
      ring
    rw [e1, e2]
    refine mp_of_factors U V ?_ ?_ _ _ (fun y => (hlaw y).1) (fun y => (hlaw y).2.1)
      (fun y => (hlaw y).2.2.1)
    · ext y y'
      rw [Matrix.mul_apply, Matrix.one_apply]
      have := w5 y.1 y.2 y'.1 y'.2
      rw [← sum_legIx] at this
      simp only [Subtype.ext_iff]
      exact this
    · ext y y'
      rw [Matrix.mul_apply, Matrix.one_apply]
      have := w6 y.1 y.2 y'.1 y'.2
      rw [← sum_legIx] at this
      simp only [Subtype.ext_iff]
      exact this

omit hreal in
/-- **C88**: `pinv` of a nonzero tensor is its pseudo-inverse, provided that no nonzero singular value is
below the cutoff, neither absolutely nor relative to the norm of the tensor. -/
theorem C88_pinv (cutoff : ℝ) (hcut : 0 < cutoff)
    (hs : ∀ p ∈ T, ∀ s ∈ (f p.2).2.1, s.im = 0 ∧ (s ≠ 0 → cutoff ≤ s.re ∧
      cutoff * Real.sqrt (frobSq c d fun x z => entry T x z) ≤ s.re)) :
    ∃ P, pinv R argsort lg sym c d l f T cutoff = some P ∧
      IsHom R [toBLeg sym d] [toBLeg sym c] P ∧ MoorePenrose (matT c d T) (matT d c P) := by
  have hreal : ∀ p ∈ T, ∀ s ∈ (f p.2).2.1, s.im = 0 := fun p hp s h => (hs p hp s h).1
  obtain ⟨W, P, hW, hP, hh, hmp⟩ := C88_truncated_pinv R hdim hone hdrop hc hd hinj hN hT hnz f hf hreal ha lg
    hmax cutoff hcut
  refine ⟨P, hP, hh, ?_⟩
  have hchi : ∀ chi, (pinvOpts cutoff).chiMax = some chi → 1 ≤ chi := by
    intro chi h; exact absurd h (by simp [pinvOpts])
  have hex : ∃ y ∈ basis [l.mults],
      diagEntry (svd sym c d l f T).2.1 (y.1.getD 0 0) (y.2.getD 0 0) ≠ 0 := by
    by_contra hcon
    push Not at hcon
    obtain ⟨x, hx, z, hz, hxz⟩ := hnz
    apply hxz
    rw [(C48_svd R hc hd hinj hN hT f hf).2.2.2.1 x hx z hz]
    refine sum_zero _ _ fun y hy => ?_
    rw [hcon y hy, mul_zero, zero_mul]
  have hne : l.mults.sum ≠ 0 := by
    refine leg_pos fun h0 => ?_
    obtain ⟨y, hy, -⟩ := hex
    rw [h0] at hy
    simp at hy
  -- nothing but zeros is discarded
  have herr : W.err = 0 := by
    obtain ⟨s1, s2, s3, s4, s5, s6, s7⟩ := C48_svd R hc hd hinj hN hT f hf
    obtain ⟨v, nn, hsel, -, -⟩ := truncatedSvd_parts hW
    have sv := svd_values R hc hd hinj hN hT f hf (fun s => s.im = 0 ∧ (s ≠ 0 → cutoff ≤ s.re ∧
      cutoff * Real.sqrt (frobSq c d fun x z => entry T x z) ≤ s.re)) ⟨rfl, fun h => absurd rfl h⟩ hs
    generalize svd sym c d l f T = usv0 at *
    obtain ⟨U, D, V⟩ := usv0
    simp only at s1 s2 s3 s4 s5 s6 s7 hsel sv hex
    have hl : DenseOK sym [l] := ⟨hdim, hone, hdrop, fun e he => by
      rw [List.mem_singleton.1 he]; exact hN.valid⟩
    have hN2 : diagNorm D ^ 2 = frobSq c d (fun x z => entry T x z) := by
      rw [diagNorm_sq D s2]
      unfold frobSq
      rw [← frob (basis [c.mults]) (basis [l.mults]) (basis [d.mults]) (C34_basis_nodup _) (entry U)
        (entry V) (fun y => diagEntry D (y.1.getD 0 0) (y.2.getD 0 0)) s5 s6]
      refine sum_congr _ fun x hx => sum_congr _ fun z hz => ?_
      dsimp only
      rw [s4 x hx z hz]
    have hpos := frobSq_pos hnz
    have hN0 : 0 ≤ diagNorm D := Real.sqrt_nonneg _
    have hNs : diagNorm D = Real.sqrt (frobSq c d fun x z => entry T x z) := by
      rw [← hN2, Real.sqrt_sq hN0]
    have hNpos : 0 < diagNorm D := by rw [hNs]; exact Real.sqrt_pos.2 hpos
    obtain ⟨n1, n2⟩ := C36_unary l.mults (fun s : ℂ => s.re / diagNorm D) false (by simp) D s2
    obtain ⟨t1, t2⟩ := to_block_spec hl _ n1
    refine select_err_zero ha lg _ cutoff ?_ ?_ v W.err nn hsel
    · intro s hs' hs0
      obtain ⟨i, hi, rfl⟩ := List.getElem_of_mem hs'
      have hi' := hi
      rw [t1] at hi'
      obtain ⟨b, x, hbx, rfl⟩ : ∃ b x, IsDiagIndex l.mults b x ∧ i = (l.mults.take b).sum + x :=
        exists_diagIndex _ _ hi'
      have e := t2 b x hbx
      rw [List.getD_eq_getElem _ _ hi, n2 b x hbx] at e
      rw [e] at hs0 ⊢
      rw [le_div_iff₀ hNpos, hNs]
      refine ((sv b x).2 fun h => hs0 ?_).2
      rw [h]; simp
    · obtain ⟨y, hy, hy0⟩ := hex
      obtain ⟨b, x, hbx, rfl⟩ := mem_basis_one.1 hy
      have e := t2 b x hbx
      rw [n2 b x hbx] at e
      have hlt : (l.mults.take b).sum + x < (diagonalToBlock sym l (elementwiseUnary l.mults
          (List.map fun s : ℂ => s.re / diagNorm D) false D)).length := by
        rw [t1]
        have h1 := take_sum_succ l.mults b _ (List.getElem?_eq_getElem hbx.1)
        have h2 := take_sum_mono l.mults (b + 1) l.mults.length hbx.1
        rw [List.take_length] at h2
        have h3 := hbx.2
        rw [List.getD_eq_getElem _ _ hbx.1] at h3
        omega
      rw [List.getD_eq_getElem _ _ hlt] at e
      refine ⟨_, List.getElem_mem hlt, ?_⟩
      rw [e]
      refine div_ne_zero (fun h => hy0 ?_) hNpos.ne'
      exact Complex.ext h (sv b x).1
  -- the tensor is the product of the kept factors
  have hT' : matT c d T = matOf c d (keptPart cutoff W) := by
    obtain ⟨W', hW', -, -, -, -, -, -, -, -, -, -, -, hfr⟩ := C83_truncated_svd R hdim hone hdrop hc hd hinj hN
      hT hnz f hf hreal ha lg (pinvOpts cutoff) hchi none (by simp)
    rw [hW] at hW'
    cases hW'
    rw [herr, zero_mul] at hfr
    have hr : W.renormalize = 1 := by
      unfold Abelian.truncatedSvd at hW
      dsimp only at hW
      rw [Option.map_eq_some_iff] at hW
      obtain ⟨r, -, rfl⟩ := hW
      rfl
    obtain ⟨-, q2⟩ := trunc_values R hdim hone hdrop hc hd hinj hN hT f hf ha lg hchi hne hW
      (fun s => s ≠ 0 → cutoff ≤ ‖s‖) (fun h => absurd rfl h)
      (fun p hp s h h0 => ((hs p hp s h).2 h0).1.trans ((le_abs_self _).trans (Complex.abs_re_le_norm s)))
    ext x z
    have hz : ‖entry T x.1 z.1 - usv W x.1 z.1 / W.renormalize‖ ^ 2 = 0 := by
      unfold frobSq at hfr
      have nn1 : ∀ x z : List ℕ × List ℕ, 0 ≤ ‖entry T x z - usv W x z / W.renormalize‖ ^ 2 :=
        fun _ _ => by positivity
      refine le_antisymm ?_ (nn1 _ _)
      rw [← hfr]
      refine le_trans ?_ (List.single_le_sum (fun a ha => ?_) _ (List.mem_map.2 ⟨x.1, x.2, rfl⟩))
      · exact List.single_le_sum (fun a ha => by
          obtain ⟨i, -, rfl⟩ := List.mem_map.1 ha; exact nn1 _ _) _ (List.mem_map.2 ⟨z.1, z.2, rfl⟩)
      · obtain ⟨i, -, rfl⟩ := List.mem_map.1 ha
        exact List.sum_nonneg fun a ha => by
          obtain ⟨i, -, rfl⟩ := List.mem_map.1 ha; exact nn1 _ _
    rw [hr] at hz
    have hz' := pow_eq_zero_iff two_ne_zero |>.1 hz
    rw [norm_eq_zero, sub_eq_zero, Complex.ofReal_one, div_one] at hz'
    show entry T x.1 z.1 = keptPart cutoff W x.1 z.1
    rw [hz']
    unfold usv keptPart
    refine sum_congr _ fun y hy => ?_
    by_cases h0 : diagEntry W.D (y.1.getD 0 0) (y.2.getD 0 0) = 0
    · rw [h0]; simp
    · rw [if_neg (not_lt.2 (q2 y hy h0))]
  rw [hT']
  exact hmp

/-- **C88** (limit of the cutoff): the cutoff is also absolute.  If all singular values are below it, the
result is zero, however well conditioned the tensor is, and it is not the pseudo-inverse. -/
theorem C88_small_tensor (cutoff : ℝ) (hs : ∀ p ∈ T, ∀ s ∈ (f p.2).2.1, ‖s‖ < cutoff) :
    ∃ P, pinv R argsort lg sym c d l f T cutoff = some P ∧ matT d c P = 0 ∧
      ¬ MoorePenrose (matT c d T) (matT d c P) := by
  have hcut : 0 < cutoff := by
    by_contra hcon
    obtain ⟨x, hx, z, hz, hxz⟩ := hnz
    apply hxz
    rw [(C48_svd R hc hd hinj hN hT f hf).2.2.2.1 x hx z hz]
    refine sum_zero _ _ fun y hy => ?_
    have : diagEntry (svd sym c d l f T).2.1 (y.1.getD 0 0) (y.2.getD 0 0) = 0 :=
      svd_values R hc hd hinj hN hT f hf (fun s => s = 0) rfl (fun p hp s h =>
        absurd (lt_of_le_of_lt (norm_nonneg s) (hs p hp s h)) hcon) _ _
    rw [this, mul_zero, zero_mul]
  obtain ⟨W, P, hW, hP, hh, hmp⟩ := C88_truncated_pinv R hdim hone hdrop hc hd hinj hN hT hnz f hf hreal ha lg
    hmax cutoff hcut
  have hchi : ∀ chi, (pinvOpts cutoff).chiMax = some chi → 1 ≤ chi := by
    intro chi h; exact absurd h (by simp [pinvOpts])
  have hne : l.mults.sum ≠ 0 := by
    refine leg_pos fun h0 => ?_
    obtain ⟨x, hx, z, hz, hxz⟩ := hnz
    have := (C48_svd R hc hd hinj hN hT f hf).2.2.2.1 x hx z hz
    rw [h0] at this
    exact hxz this
  obtain ⟨-, q2⟩ := trunc_values R hdim hone hdrop hc hd hinj hN hT f hf ha lg hchi hne hW
    (fun s => ‖s‖ < cutoff) (by rw [norm_zero]; exact hcut) hs
  have h0 : matOf c d (keptPart cutoff W) = 0 := by
    ext x z
    show keptPart cutoff W x.1 z.1 = 0
    unfold keptPart
    refine sum_zero _ _ fun y hy => ?_
    rw [if_pos (q2 y hy), mul_zero, zero_mul]
  have hP0 : matT d c P = 0 := by
    have := hmp.right
    rw [h0, Matrix.mul_zero, Matrix.zero_mul] at this
    exact this.symm
  refine ⟨P, hP, hP0, fun hcon => ?_⟩
  have h1 := hcon.left
  rw [hP0, Matrix.mul_zero, Matrix.zero_mul] at h1
  obtain ⟨x, hx, z, hz, hxz⟩ := hnz
  exact hxz (congrFun (congrFun h1.symm ⟨x, hx⟩) ⟨z, hz⟩)

end Main

/-- The matrix of a diagonal tensor. -/
def matD (e : ESpace S) (D : DEnts ℂ) : Matrix (LegIx e) (LegIx e) ℂ :=
  diagonal fun y => diagEntry D (y.1.1.getD 0 0) (y.1.2.getD 0 0)

omit [LinearOrder S] in
/-- **C88**: `pinv` of a diagonal tensor (with arbitrary complex entries) is its pseudo-inverse, provided
that no nonzero entry is below the cutoff. -/
theorem C88_pinv_diagonal (e : ESpace S) (D : DEnts ℂ) (hD : DSane e.mults D) (cutoff : ℝ)
    (hcut : 0 < cutoff)
    (hs : ∀ b x, IsDiagIndex e.mults b x → diagEntry D b x ≠ 0 → cutoff ≤ ‖diagEntry D b x‖) :
    DSane e.mults (pinvDiagonal e.mults cutoff D) ∧
    MoorePenrose (matD e D) (matD e (pinvDiagonal e.mults cutoff D)) := by
  obtain ⟨i1, i2⟩ := C36_unary e.mults (cutoffInv cutoff) true (fun _ => cutoffInv_zero cutoff hcut) D hD
  refine ⟨i1, ?_⟩
  have hv : matD e (pinvDiagonal e.mults cutoff D) =
      diagonal fun y : LegIx e => cutoffInv cutoff (diagEntry D (y.1.1.getD 0 0) (y.1.2.getD 0 0)) := by
    unfold matD
    congr 1
    funext y
    obtain ⟨b, x, hbx, hy⟩ := mem_basis_one.1 y.2
    rw [hy]
    exact i2 b x hbx
  have hlaw : ∀ y : LegIx e, ∀ s, s = diagEntry D (y.1.1.getD 0 0) (y.1.2.getD 0 0) →
      s * cutoffInv cutoff s * s = s ∧ cutoffInv cutoff s * s * cutoffInv cutoff s = cutoffInv cutoff s ∧
      star (s * cutoffInv cutoff s) = s * cutoffInv cutoff s := by
    rintro y s rfl
    obtain ⟨b, x, hbx, hy⟩ := mem_basis_one.1 y.2
    rw [hy]
    simp only [List.getD_cons_zero]
    by_cases h0 : diagEntry D b x = 0
    · rw [h0, cutoffInv_zero cutoff hcut]; simp
    · have : cutoffInv cutoff (diagEntry D b x) = 1 / diagEntry D b x := by
        unfold cutoffInv
        rw [if_neg (not_lt.2 (hs b x hbx h0))]
      rw [this]
      refine ⟨by field_simp, by field_simp, ?_⟩
      rw [mul_one_div, div_self h0, star_one]
  rw [hv]
  unfold matD
  constructor
  · simp only [diagonal_mul_diagonal, fun y : LegIx e => (hlaw y _ rfl).1]
  · simp only [diagonal_mul_diagonal, fun y : LegIx e => (hlaw y _ rfl).2.1]
  · rw [diagonal_mul_diagonal, diagonal_conjTranspose]
    congr 1
    funext y
    exact (hlaw y _ rfl).2.2
  · rw [diagonal_mul_diagonal, diagonal_conjTranspose]
    congr 1
    funext y
    show star (_ * _) = _
    rw [mul_comm]
    exact (hlaw y _ rfl).2.2

end

/-! ## A concrete case -/

theorem truncT_nz : ∃ x ∈ basis [decC.mults], ∃ z ∈ basis [decD.mults], entry truncT x z ≠ 0 :=
  ⟨([1], [0]), by decide +kernel, ([0], [1]), by decide +kernel, by rw [truncT_entry.2.1]; norm_num⟩

theorem truncT_frob : frobSq decC decD (fun x z => entry truncT x z) ≤ 25 := by
  have e1 : basis [decC.mults] = [([0], [0]), ([1], [0]), ([1], [1]), ([2], [0])] := by decide +kernel
  have e2 : basis [decD.mults] = [([0], [0]), ([0], [1]), ([1], [0]), ([1], [1]), ([1], [2]), ([2], [0])] := by
    decide +kernel
  unfold frobSq
  rw [e1, e2]
  simp [entry, dense, truncT, mat2]
  norm_num

/-- **C88**, non-vacuity: the tensor with the singular values 4 and 3 has the pseudo-inverse that `pinv`
returns for the cutoff 1/2, and for the cutoff 5, above both values, `pinv` returns zero. -/
theorem C88_example :
    (∃ P, pinv intRule stableArgsort id exU1 decC decD truncLeg truncF truncT (1 / 2) = some P ∧
      MoorePenrose (matT decC decD truncT) (matT decD decC P)) ∧
    (∃ P, pinv intRule stableArgsort id exU1 decC decD truncLeg truncF truncT 5 = some P ∧
      matT decD decC P = 0) := by
  have hinv : Function.Involutive exU1.dual := neg_neg
  have hmax : (truncLeg.sectors exU1).length < maxInt := by decide +kernel
  have hval : ∀ p ∈ truncT, ∀ s ∈ (truncF p.2).2.1, s = 4 ∨ s = 3 := by
    intro p _ s hs
    simpa [truncF] using hs
  have hreal : ∀ p ∈ truncT, ∀ s ∈ (truncF p.2).2.1, s.im = 0 := by
    intro p hp s hs
    rcases hval p hp s hs with rfl | rfl <;> rfl
  have hsq : Real.sqrt (frobSq decC decD fun x z => entry truncT x z) ≤ 5 := by
    rw [Real.sqrt_le_left (by norm_num)]
    exact truncT_frob.trans (by norm_num)
  constructor
  · obtain ⟨P, h1, -, h3⟩ := C88_pinv intRule exU1_ok (fun _ => rfl) rfl dec_valid.1 dec_valid.2
      hinv.injective truncLeg_new truncT_isHom truncT_nz truncF truncF_svd stableArgsort_isArgsort id hmax
      (1 / 2) (by norm_num) (by
        intro p hp s hs
        refine ⟨hreal p hp s hs, fun _ => ?_⟩
        rcases hval p hp s hs with rfl | rfl
        · refine ⟨by norm_num, ?_⟩
          show _ ≤ (4 : ℝ)
          linarith
        · refine ⟨by norm_num, ?_⟩
          show _ ≤ (3 : ℝ)
          linarith)
    exact ⟨P, h1, h3⟩
  · obtain ⟨P, h1, h2, -⟩ := C88_small_tensor intRule exU1_ok (fun _ => rfl) rfl dec_valid.1 dec_valid.2
      hinv.injective truncLeg_new truncT_isHom truncT_nz truncF truncF_svd hreal stableArgsort_isArgsort id
      hmax 5 (by
        intro p hp s hs
        rcases hval p hp s hs with rfl | rfl <;> norm_num)
    exact ⟨P, h1, h2⟩

end Cyten.Props
