import Verif.Lemmas.Arnoldi2
import Verif.Props.Lanczos2
import Verif.Props.Gmres
import Mathlib.Data.Fin.Tuple.Sort
import Mathlib.LinearAlgebra.Matrix.Charpoly.Eigs
import Mathlib.Analysis.Complex.Polynomial.Basic

/-!
C53: `Arnoldi`.

The eigenpairs returned are the Ritz pairs of the Krylov space: eigenpairs of the compression of the
operator to it.
-/

namespace Cyten.Props

open Cyten.Sparse Cyten.Krylov
open scoped InnerProductSpace

variable {E : Type} [NormedAddCommGroup E] [InnerProductSpace ℂ E]

/-! ### Specification -/

/-- `(e, psi)` is an eigenpair of the compression of `H` to the subspace `K`, `psi` normalised. -/
structure IsRitzPair (H : E →ₗ[ℂ] E) (K : Submodule ℂ E) (e : ℂ) (psi : E) : Prop where
  mem : psi ∈ K
  norm : ‖psi‖ = 1
  galerkin : ∀ φ ∈ K, ⟪φ, H psi - e • psi⟫_ℂ = 0

/-- `numpy.linalg.eig` returns normalised eigenvectors, and every eigenvalue is among the values. -/
structure EigSpec (eig : Eig) : Prop where
  pair : ∀ (n : ℕ) (h : ℕ → ℕ → ℂ) (c i : ℕ), c < n → i < n →
    ∑ j ∈ Finset.range n, h i j * (eig n h).2 j c = (eig n h).1 c * (eig n h).2 i c
  unit : ∀ (n : ℕ) (h : ℕ → ℕ → ℂ) (c : ℕ), c < n →
    ∑ i ∈ Finset.range n, ‖(eig n h).2 i c‖ ^ 2 = 1
  complete : ∀ (n : ℕ) (h : ℕ → ℕ → ℂ) (v : ℕ → ℂ) (e : ℂ), (∃ i, i < n ∧ v i ≠ 0) →
    (∀ i, i < n → ∑ j ∈ Finset.range n, h i j * v j = e * v i) → ∃ c, c < n ∧ (eig n h).1 c = e

/-- The sorting function returns a permutation of the indices that sorts the keys. -/
structure SortSpec (sort : ArgSort) : Prop where
  lt : ∀ key n ev i, i < n → sort key n ev i < n
  surj : ∀ key n ev j, j < n → ∃ i, i < n ∧ sort key n ev i = j
  sorted : ∀ (key : ℂ → ℝ) (n : ℕ) (ev : ℕ → ℂ) (i j : ℕ), i ≤ j → j < n →
    key (ev (sort key n ev i)) ≤ key (ev (sort key n ev j))

/-! ### Such functions exist -/

theorem exists_sortSpec : ∃ sort : ArgSort, SortSpec sort := by
  refine ⟨fun key n ev i => if h : i < n then
    (Tuple.sort (fun c : Fin n => key (ev c)) ⟨i, h⟩ : Fin n) else 0, ?_, ?_, ?_⟩
  · intro key n ev i h
    rw [dif_pos h]
    exact Fin.is_lt _
  · intro key n ev j h
    obtain ⟨i, hi⟩ := (Tuple.sort fun c : Fin n => key (ev c)).surjective ⟨j, h⟩
    refine ⟨i, i.2, ?_⟩
    rw [dif_pos i.2]
    exact congrArg Fin.val hi
  · intro key n ev i j hij hj
    rw [dif_pos hj, dif_pos (by omega : i < n)]
    exact Tuple.monotone_sort (fun c : Fin n => key (ev c)) (show (⟨i, by omega⟩ : Fin n) ≤ ⟨j, hj⟩ from hij)

/-- One matrix: eigenvalues with normalised eigenvectors. -/
theorem exists_eig_one (n : ℕ) (M : Matrix (Fin n) (Fin n) ℂ) :
    ∃ (ev : Fin n → ℂ) (V : Fin n → Fin n → ℂ), (∀ c i, ∑ j, M i j * V j c = ev c * V i c) ∧
      (∀ c, ∑ i, ‖V i c‖ ^ 2 = 1) ∧
      ∀ (v : Fin n → ℂ) (e : ℂ), v ≠ 0 → (∀ i, ∑ j, M i j * v j = e * v i) → ∃ c, ev c = e := by
  have hcard : M.charpoly.roots.toList.length = n := by
    rw [Multiset.length_toList]
    rw [← (IsAlgClosed.splits M.charpoly).natDegree_eq_card_roots, Matrix.charpoly_natDegree_eq_dim, Fintype.card_fin]
  let ev : Fin n → ℂ := fun c => M.charpoly.roots.toList[c]
  have hroot : ∀ e, (∃ c, ev c = e) ↔ M.charpoly.IsRoot e := by
    intro e
    rw [← Polynomial.mem_roots (Matrix.charpoly_monic M).ne_zero, ← Multiset.mem_toList,
      List.mem_iff_getElem]
    constructor
    · rintro ⟨c, hc⟩
      exact ⟨c, by rw [hcard]; exact c.2, hc⟩
    · rintro ⟨i, hi, h⟩
      exact ⟨⟨i, hcard ▸ hi⟩, h⟩
  have heig : ∀ e, M.charpoly.IsRoot e ↔ ∃ v : Fin n → ℂ, v ≠ 0 ∧ M.mulVec v = e • v := by
    intro e
    rw [← Matrix.mem_spectrum_iff_isRoot_charpoly, ← Matrix.spectrum_toLin',
      ← Module.End.hasEigenvalue_iff_mem_spectrum]
    constructor
    · intro h
      obtain ⟨v, hv⟩ := h.exists_hasEigenvector
      exact ⟨v, hv.2, by simpa using hv.apply_eq_smul⟩
    · rintro ⟨v, hv, h⟩
      exact Module.End.hasEigenvalue_of_hasEigenvector
        (Module.End.hasEigenvector_iff.2 ⟨Module.End.mem_eigenspace_iff.2 (by simpa using h), hv⟩)
  have hpos : ∀ v : Fin n → ℂ, v ≠ 0 → 0 < ∑ i, ‖v i‖ ^ 2 := by
    intro v hv
    obtain ⟨i, hi⟩ := Function.ne_iff.1 hv
    refine Finset.sum_pos' (fun i _ => by positivity) ⟨i, Finset.mem_univ _, ?_⟩
    have : 0 < ‖v i‖ := norm_pos_iff.2 hi
    positivity
  have hunit : ∀ c : Fin n, ∃ v : Fin n → ℂ, ∑ i, ‖v i‖ ^ 2 = 1 ∧
      ∀ i, ∑ j, M i j * v j = ev c * v i := by
    intro c
    obtain ⟨v, hv, h⟩ := (heig (ev c)).1 ((hroot _).1 ⟨c, rfl⟩)
    have hp := hpos v hv
    have hs : Real.sqrt (∑ i, ‖v i‖ ^ 2) ≠ 0 := (Real.sqrt_pos.2 hp).ne'
    refine ⟨fun i => v i / (Real.sqrt (∑ i, ‖v i‖ ^ 2) : ℝ), ?_, fun i => ?_⟩
    · have : ∀ i, ‖v i / ((Real.sqrt (∑ i, ‖v i‖ ^ 2) : ℝ) : ℂ)‖ ^ 2 =
          ‖v i‖ ^ 2 / ∑ i, ‖v i‖ ^ 2 := by
        intro i
        rw [norm_div, div_pow, Complex.norm_real, Real.norm_eq_abs, sq_abs, Real.sq_sqrt hp.le]
      simp only [this]
      rw [← Finset.sum_div, div_self hp.ne']
    · have := congrFun h i
      simp only [Matrix.mulVec, dotProduct, Pi.smul_apply, smul_eq_mul] at this
      rw [mul_div_assoc', ← this, Finset.sum_div]
      exact Finset.sum_congr rfl fun j _ => by rw [mul_div_assoc]
  choose V hV1 hV2 using hunit
  refine ⟨ev, fun i c => V c i, fun c i => hV2 c i, hV1, fun v e hv h => ?_⟩
  rw [hroot, heig]
  exact ⟨v, hv, by funext i; simpa [Matrix.mulVec, dotProduct] using h i⟩

theorem exists_eigSpec : ∃ eig : Eig, EigSpec eig := by
  choose ev V h1 h2 h3 using exists_eig_one
  let M : (n : ℕ) → (ℕ → ℕ → ℂ) → Matrix (Fin n) (Fin n) ℂ := fun n h => fun i j => h i j
  refine ⟨fun n h => (fun c => if hc : c < n then ev n (M n h) ⟨c, hc⟩ else 0,
    fun i c => if hc : c < n then if hi : i < n then V n (M n h) ⟨i, hi⟩ ⟨c, hc⟩ else 0 else 0),
    ?_, ?_, ?_⟩
  · intro n h c i hc hi
    have := h1 n (M n h) ⟨c, hc⟩ ⟨i, hi⟩
    simp only [dif_pos hc, dif_pos hi]
    rw [← this, Finset.sum_range]
    refine Finset.sum_congr rfl fun j _ => ?_
    rw [dif_pos j.2]
  · intro n h c hc
    have := h2 n (M n h) ⟨c, hc⟩
    simp only [dif_pos hc]
    rw [← this, Finset.sum_range]
    refine Finset.sum_congr rfl fun j _ => ?_
    rw [dif_pos j.2]
  · rintro n h v e ⟨i, hi, hv⟩ he
    obtain ⟨c, hc⟩ := h3 n (M n h) (fun i => v i) e (fun h0 => hv (congrFun h0 ⟨i, hi⟩)) (by
      intro i
      rw [← he i i.2, Finset.sum_range])
    exact ⟨c, c.2, by dsimp only; rw [dif_pos c.2]; exact hc⟩

/-! ### The result -/

section
variable {H : E →ₗ[ℂ] E} {psi0 : E} {o : AOptions} {eig : Eig} {sort : ArgSort}

/-- What is known about the eigenvalues and eigenvectors of the last step. -/
structure ArnCols (key : ℂ → ℝ) (H : E →ₗ[ℂ] E) (q0 : E) (N : ℕ) (es : ℕ → ℂ) (vf : ℕ → ℕ → ℂ) :
    Prop where
  pair : ∀ c, c < N → ∀ i, i < N → ∑ j ∈ Finset.range N, ahm H q0 N i j * vf j c = es c * vf i c
  unit : ∀ c, c < N → ∑ i ∈ Finset.range N, ‖vf i c‖ ^ 2 = 1
  complete : ∀ (v : ℕ → ℂ) (e : ℂ), (∃ i, i < N ∧ v i ≠ 0) →
    (∀ i, i < N → ∑ j ∈ Finset.range N, ahm H q0 N i j * v j = e * v i) → ∃ c, c < N ∧ es c = e
  sorted : ∀ i j : ℕ, i ≤ j → j < N → key (es i) ≤ key (es j)
  zero : ∀ c, N ≤ c → es c = 0

theorem arnCols (he : EigSpec eig) (hso : SortSpec sort) {q0 : E} {N : ℕ} (hN : 0 < N)
    {es : ℕ → ℂ} {vf : ℕ → ℕ → ℂ} {rn : ℝ}
    (h : arnCalc o eig sort (N - 1) (ahm H q0 N) = some (es, vf, rn)) :
    ArnCols (whichKey o.which) H q0 N es vf := by
  unfold arnCalc at h
  by_cases h1 : N - 1 = 0
  · rw [if_pos h1] at h
    obtain rfl : N = 1 := by omega
    obtain ⟨rfl, rfl, -⟩ : (fun j => if j = 0 then ahm H q0 1 0 0 else 0) = es ∧
        (fun _ _ => 1) = vf ∧ 1 = rn := by simpa using h
    refine ⟨?_, ?_, ?_, ?_, ?_⟩
    · intro c hc i hi
      obtain rfl : c = 0 := by omega
      obtain rfl : i = 0 := by omega
      simp
    · intro c hc
      simp
    · rintro v e ⟨i, hi, hv⟩ hx
      obtain rfl : i = 0 := by omega
      have := hx 0 (by omega)
      rw [Finset.sum_range_one] at this
      exact ⟨0, by omega, by simpa using mul_right_cancel₀ hv this⟩
    · intro i j hij hj
      obtain rfl : i = j := by omega
      exact le_rfl
    · intro c hc
      rw [if_neg (by omega)]
  · rw [if_neg h1] at h
    dsimp only at h
    rw [Nat.sub_add_cancel hN] at h
    obtain ⟨rfl, rfl, -⟩ : (fun j => if j < N then (eig N (ahm H q0 N)).1
          (sort (whichKey o.which) N (eig N (ahm H q0 N)).1 j) else 0) = es ∧
        (fun row col => (eig N (ahm H q0 N)).2 row
          (sort (whichKey o.which) N (eig N (ahm H q0 N)).1 col)) = vf ∧ 1 = rn := by
      simpa using h
    refine ⟨?_, ?_, ?_, ?_, ?_⟩
    · intro c hc i hi
      rw [if_pos hc]
      exact he.pair N _ _ i (hso.lt _ _ _ _ hc) hi
    · intro c hc
      exact he.unit N _ _ (hso.lt _ _ _ _ hc)
    · intro v e hv hx
      obtain ⟨c, hc, hce⟩ := he.complete N _ v e hv hx
      obtain ⟨i, hi, hic⟩ := hso.surj (whichKey o.which) N (eig N (ahm H q0 N)).1 c hc
      refine ⟨i, hi, ?_⟩
      rw [if_pos hi, hic, hce]
    · intro i j hij hj
      rw [if_pos hj, if_pos (by omega)]
      exact hso.sorted _ _ _ _ _ hij hj
    · intro c hc
      rw [if_neg (by omega)]

theorem norm_comb {q0 : E} (h0 : ‖q0‖ = 1) {N : ℕ} (hb : ∀ i, i + 1 < N → ab H q0 i ≠ 0)
    (v : ℕ → ℂ) : ‖comb H q0 N v‖ ^ 2 = ∑ i ∈ Finset.range N, ‖v i‖ ^ 2 := by
  unfold comb
  rw [Finset.sum_range, Finset.sum_range]
  exact norm_sq_orthonormal_sum (aq_orthonormal h0 hb) fun i : Fin N => v i

theorem norm_comb_one {q0 : E} (h0 : ‖q0‖ = 1) {N : ℕ} (hb : ∀ i, i + 1 < N → ab H q0 i ≠ 0)
    {v : ℕ → ℂ} (hv : ∑ i ∈ Finset.range N, ‖v i‖ ^ 2 = 1) : ‖comb H q0 N v‖ = 1 := by
  have := norm_comb h0 hb v
  rw [hv] at this
  exact (pow_eq_one_iff_of_nonneg (norm_nonneg _) two_ne_zero).1 this

/-- the columns give Ritz pairs with a residual along the next Arnoldi vector -/
theorem ritz_of_col (h0 : psi0 ≠ 0) {N : ℕ} (hN : 0 < N)
    (hb : ∀ i, i + 1 < N → ab H (unit0 ℂ psi0) i ≠ 0) {v : ℕ → ℂ} {e : ℂ}
    (hv : ∀ i, i < N → ∑ j ∈ Finset.range N, ahm H (unit0 ℂ psi0) N i j * v j = e * v i)
    (hu : ∑ i ∈ Finset.range N, ‖v i‖ ^ 2 = 1) :
    IsRitzPair H (krylovSpace H psi0 N) e (comb H (unit0 ℂ psi0) N v) ∧
    ‖H (comb H (unit0 ℂ psi0) N v) - e • comb H (unit0 ℂ psi0) N v‖ =
      ‖v (N - 1)‖ * ab H (unit0 ℂ psi0) (N - 1) := by
  have hr : H (comb H (unit0 ℂ psi0) N v) - e • comb H (unit0 ℂ psi0) N v =
      (v (N - 1) * ((ab H (unit0 ℂ psi0) (N - 1) : ℝ) : ℂ)) • aq H (unit0 ℂ psi0) N := by
    rw [sub_eq_iff_eq_add']
    exact A_comb hN hv
  have hm := comb_mem (A := H) (q0 := unit0 ℂ psi0) N v
  rw [span_aq_unit0] at hm
  refine ⟨⟨hm, norm_comb_one (unit0_norm h0) hb hu, fun φ hφ => ?_⟩, ?_⟩
  · rw [hr, inner_smul_right, inner_aq_span (Or.inl (unit0_norm h0)), mul_zero]
    rw [span_aq_unit0]
    exact hφ
  · have hab : 0 ≤ ab H (unit0 ℂ psi0) (N - 1) := norm_nonneg _
    rw [hr, norm_smul, norm_mul, Complex.norm_real, Real.norm_eq_abs, abs_of_nonneg hab]
    by_cases hz : ab H (unit0 ℂ psi0) (N - 1) = 0
    · rw [hz]; simp
    · rw [aq_norm (unit0_norm h0) (fun i hi => ?_), mul_one]
      by_cases e : i = N - 1
      · rw [e]; exact hz
      · exact hb i (by omega)

/-- every Ritz value is among the values of the last step -/
theorem ritz_complete (h0 : psi0 ≠ 0) {N : ℕ}
    (hb : ∀ i, i + 1 < N → ab H (unit0 ℂ psi0) i ≠ 0) {key : ℂ → ℝ} {es : ℕ → ℂ} {vf : ℕ → ℕ → ℂ}
    (hc : ArnCols key H (unit0 ℂ psi0) N es vf) {e : ℂ} {psi : E}
    (hp : IsRitzPair H (krylovSpace H psi0 N) e psi) : ∃ c, c < N ∧ es c = e := by
  have hmem := hp.mem
  rw [← span_aq_unit0] at hmem
  refine hc.complete (fun i => ⟪aq H (unit0 ℂ psi0) i, psi⟫_ℂ) e ?_
    (eig_of_ritz (unit0_norm h0) hb hmem fun i hi => hp.galerkin _ ?_)
  · by_contra hcon
    push Not at hcon
    have h1 := eq_comb (unit0_norm h0) hb hmem
    have h2 : psi = 0 := by
      rw [h1]
      unfold comb
      refine Finset.sum_eq_zero fun i hi => ?_
      dsimp only
      rw [hcon i (Finset.mem_range.1 hi), zero_smul]
    have h3 := hp.norm
    rw [h2, norm_zero] at h3
    exact absurd h3 (by norm_num)
  · rw [← span_aq_unit0]
    exact Submodule.subset_span ⟨⟨i, hi⟩, rfl⟩

theorem arnoldiRun_post (he : EigSpec eig) (hso : SortSpec sort) (hm : 1 ≤ o.nMax)
    (hc : 0 < o.cutoff) (hn : 1 ≤ o.numEv) {eShift : Option ℝ} {E0 : List ℂ} {psis : List E} {N : ℕ}
    {obj : AObj E} (hr : arnoldiRun o eig sort H (aNew psi0) eShift = some (E0, psis, N, obj)) :
    ∃ s : AState E, psi0 ≠ 0 ∧ 0 < N ∧ APost o (arnKind o eig sort) H (unit0 ℂ psi0) N s ∧
      (∀ i, i + 1 < N → ab H (unit0 ℂ psi0) i ≠ 0) ∧
      ArnCols (whichKey o.which) H (unit0 ℂ psi0) N (s.es (N - 1)) s.vf ∧
      E0 = (List.range o.numEv).map (fun i => s.es (N - 1) i - ((eShift.getD 0 : ℝ) : ℂ)) ∧
      psis = (List.range (min N o.numEv)).map
        (fun i => comb H (unit0 ℂ psi0) N fun row => s.vf row i) ∧
      obj = ⟨unit0 ℂ psi0, aqs H (unit0 ℂ psi0) N, ahm H (unit0 ℂ psi0) N, s.es⟩ := by
  unfold arnoldiRun at hr
  cases hb : aBuild o (arnKind o eig sort) H (aNew psi0) with
  | none => rw [hb] at hr; exact absurd hr (by simp)
  | some r =>
    obtain ⟨q, s, N'⟩ := r
    rw [hb] at hr
    dsimp only at hr
    obtain ⟨p, hp, hr⟩ := Option.map_eq_some_iff.1 hr
    obtain ⟨rfl, rfl, rfl, rfl⟩ : (List.range o.numEv).map
        (fun i => s.es (N' - 1) i - ((eShift.getD 0 : ℝ) : ℂ)) = E0 ∧ p = psis ∧ N' = N ∧
        (⟨q, s.cache, s.h, s.es⟩ : AObj E) = obj := by
      simpa only [Option.some.injEq, Prod.mk.injEq] using hr
    obtain ⟨h0, rfl, hN, hpost⟩ := aBuild_post hm hb
    have hab : ∀ i, i + 1 < N' → ab H (unit0 ℂ psi0) i ≠ 0 :=
      fun i hi => (lt_of_lt_of_le hc (hpost.cut i hi)).ne'
    have hcols := arnCols (o := o) he hso hN (by
      have := hpost.inv.res hN
      rw [hpost.inv.h] at this
      exact this)
    refine ⟨s, h0, hN, hpost, hab, hcols, rfl, ?_, ?_⟩
    · by_cases h1 : N' = 1
      · subst h1
        rw [if_pos rfl] at hp
        have h2 := hpost.inv.res hN
        change arnCalc o eig sort 0 s.h = _ at h2
        unfold arnCalc at h2
        rw [if_pos rfl] at h2
        have h3 : (fun _ _ => (1 : ℂ)) = s.vf := by
          have := Option.some.inj h2
          exact congrArg (fun t => t.2.1) this
        rw [Nat.min_eq_left hn, ← h3]
        obtain rfl := Option.some.inj hp
        simp [comb, aq_zero]
      · rw [if_neg h1] at hp
        unfold arnFull at hp
        rw [hpost.inv.cache, aqs_length, if_neg (by omega)] at hp
        obtain rfl := Option.some.inj hp
        apply List.map_congr_left
        intro i hi
        have hi' := List.mem_range.1 hi
        dsimp only
        rw [aCombine_eq _ hN, norm_comb_one (unit0_norm h0) hab (hcols.unit i (by omega))]
        simp
    · rw [hpost.inv.cache, hpost.inv.h]

/-- **C53.** `Arnoldi.run` on a new object: it performs `1 ≤ N ≤ N_max` steps and returns
`min(N, num_ev)` vectors; the `i`-th is normalised, lies in the Krylov space and with the `i`-th
number returned it is an eigenpair of the compression of the operator to the Krylov space. `H` is
the operator including the shift. -/
theorem C53_arnoldi (he : EigSpec eig) (hso : SortSpec sort) (hm : 1 ≤ o.nMax)
    (hc : 0 < o.cutoff) (hn : 1 ≤ o.numEv) {eShift : Option ℝ} {E0 : List ℂ} {psis : List E} {N : ℕ}
    {obj : AObj E} (hr : arnoldiRun o eig sort H (aNew psi0) eShift = some (E0, psis, N, obj)) :
    1 ≤ N ∧ N ≤ o.nMax ∧ E0.length = o.numEv ∧ psis.length = min N o.numEv ∧
    ∀ (i : ℕ) (psi : E), psis[i]? = some psi → ∃ e : ℂ, E0[i]? = some e ∧
      IsRitzPair H (krylovSpace H psi0 N) (e + ((eShift.getD 0 : ℝ) : ℂ)) psi := by
  obtain ⟨s, h0, hN, hpost, hab, hcols, rfl, rfl, -⟩ := arnoldiRun_post he hso hm hc hn hr
  refine ⟨hN, hpost.le, by simp, by simp, fun i psi hi => ?_⟩
  rw [List.getElem?_map] at hi
  obtain ⟨j, hj, rfl⟩ := Option.map_eq_some_iff.1 hi
  obtain ⟨hj1, hj2⟩ := List.getElem?_eq_some_iff.1 hj
  rw [List.length_range] at hj1
  rw [List.getElem_range] at hj2
  subst hj2
  refine ⟨_, by rw [List.getElem?_map, List.getElem?_range (by omega)]; rfl, ?_⟩
  rw [sub_add_cancel]
  exact (ritz_of_col h0 hN hab (hcols.pair i (by omega)) (hcols.unit i (by omega))).1

/-- **Specification.** What the option `which` asks for: `z` may stand before `z'`.  Anything else
than the listed words sorts by increasing real part. -/
def Precedes (which : String) (z z' : ℂ) : Prop :=
  match which with
  | "LM" | "m>" => ‖z'‖ ≤ ‖z‖
  | "SM" | "m<" => ‖z‖ ≤ ‖z'‖
  | "LR" | ">" | "LA" => z'.re ≤ z.re
  | "SR" | "<" | "SA" => z.re ≤ z'.re
  | "LI" => z'.im ≤ z.im
  | "SI" => z.im ≤ z'.im
  | _ => z.re ≤ z'.re

private theorem precedes_of_key {which : String} {z z' : ℂ}
    (h : whichKey which z ≤ whichKey which z') : Precedes which z z' := by
  unfold Precedes
  split <;> simp_all [whichKey]

/-- the order of the returned numbers in terms of the sorting key -/
private theorem which_key (he : EigSpec eig) (hso : SortSpec sort) (hm : 1 ≤ o.nMax)
    (hc : 0 < o.cutoff) (hn : 1 ≤ o.numEv) {eShift : Option ℝ} {E0 : List ℂ} {psis : List E} {N : ℕ}
    {obj : AObj E} (hr : arnoldiRun o eig sort H (aNew psi0) eShift = some (E0, psis, N, obj)) :
    (∀ (i j : ℕ) (e e' : ℂ), i ≤ j → j < N → E0[i]? = some e → E0[j]? = some e' →
      whichKey o.which (e + ((eShift.getD 0 : ℝ) : ℂ)) ≤
        whichKey o.which (e' + ((eShift.getD 0 : ℝ) : ℂ))) ∧
    (∀ (e e' : ℂ) (psi : E), E0[0]? = some e → IsRitzPair H (krylovSpace H psi0 N) e' psi →
      whichKey o.which (e + ((eShift.getD 0 : ℝ) : ℂ)) ≤ whichKey o.which e') := by
  obtain ⟨s, h0, hN, hpost, hab, hcols, rfl, rfl, -⟩ := arnoldiRun_post he hso hm hc hn hr
  have key : ∀ (i : ℕ) (e : ℂ), ((List.range o.numEv).map
      (fun i => s.es (N - 1) i - ((eShift.getD 0 : ℝ) : ℂ)))[i]? = some e →
      e + ((eShift.getD 0 : ℝ) : ℂ) = s.es (N - 1) i := by
    intro i e hi
    rw [List.getElem?_map] at hi
    obtain ⟨j, hj, rfl⟩ := Option.map_eq_some_iff.1 hi
    obtain ⟨hj1, hj2⟩ := List.getElem?_eq_some_iff.1 hj
    rw [List.getElem_range] at hj2
    subst hj2
    exact sub_add_cancel _ _
  refine ⟨fun i j e e' hij hj h1 h2 => ?_, fun e e' psi h1 hp => ?_⟩
  · rw [key i e h1, key j e' h2]
    exact hcols.sorted i j hij hj
  · rw [key 0 e h1]
    obtain ⟨c, hc1, rfl⟩ := ritz_complete h0 hab hcols hp
    exact hcols.sorted 0 c (by omega) hc1

/-- **C53.** The numbers returned are sorted as `which` says (applied to the eigenvalues of the
operator including the shift), and none of the eigenvalues of the compression precedes the first. -/
theorem C53_which (he : EigSpec eig) (hso : SortSpec sort) (hm : 1 ≤ o.nMax)
    (hc : 0 < o.cutoff) (hn : 1 ≤ o.numEv) {eShift : Option ℝ} {E0 : List ℂ} {psis : List E} {N : ℕ}
    {obj : AObj E} (hr : arnoldiRun o eig sort H (aNew psi0) eShift = some (E0, psis, N, obj)) :
    (∀ (i j : ℕ) (e e' : ℂ), i ≤ j → j < N → E0[i]? = some e → E0[j]? = some e' →
      Precedes o.which (e + ((eShift.getD 0 : ℝ) : ℂ)) (e' + ((eShift.getD 0 : ℝ) : ℂ))) ∧
    (∀ (e e' : ℂ) (psi : E), E0[0]? = some e → IsRitzPair H (krylovSpace H psi0 N) e' psi →
      Precedes o.which (e + ((eShift.getD 0 : ℝ) : ℂ)) e') := by
  obtain ⟨h1, h2⟩ := which_key he hso hm hc hn hr
  exact ⟨fun i j e e' a b c d => precedes_of_key (h1 i j e e' a b c d),
    fun e e' psi a b => precedes_of_key (h2 e e' psi a b)⟩

/-- **C53.** If the Krylov space is invariant, exact eigenpairs are returned. -/
theorem C53_exact (he : EigSpec eig) (hso : SortSpec sort) (hm : 1 ≤ o.nMax)
    (hc : 0 < o.cutoff) (hn : 1 ≤ o.numEv) {eShift : Option ℝ} {E0 : List ℂ} {psis : List E} {N : ℕ}
    {obj : AObj E} (hr : arnoldiRun o eig sort H (aNew psi0) eShift = some (E0, psis, N, obj))
    (hinv : krylovSpace H psi0 (N + 1) = krylovSpace H psi0 N) (i : ℕ) (psi : E)
    (hi : psis[i]? = some psi) :
    ∃ e : ℂ, E0[i]? = some e ∧ H psi = (e + ((eShift.getD 0 : ℝ) : ℂ)) • psi ∧ ‖psi‖ = 1 := by
  obtain ⟨e, h1, h2⟩ := (C53_arnoldi he hso hm hc hn hr).2.2.2.2 i psi hi
  refine ⟨e, h1, ?_, h2.norm⟩
  have h3 : H psi - (e + ((eShift.getD 0 : ℝ) : ℂ)) • psi ∈ krylovSpace H psi0 N :=
    Submodule.sub_mem _ (hinv ▸ krylov_map H psi0 h2.mem) (Submodule.smul_mem _ _ h2.mem)
  exact sub_eq_zero.1 (inner_self_eq_zero.1 (h2.galerkin _ h3))

/-- **C53.** `E_shift` is compensated: a run of an object created with operator `H` and `E_shift = r`
uses `H + r`, and the pairs returned are Ritz pairs of `H` itself in the Krylov space of `H`. -/
theorem C53_shift (he : EigSpec eig) (hso : SortSpec sort) (hm : 1 ≤ o.nMax)
    (hc : 0 < o.cutoff) (hn : 1 ≤ o.numEv) {r : ℝ} {E0 : List ℂ} {psis : List E} {N : ℕ}
    {obj : AObj E} (hr : arnoldiRun o eig sort (H + ((r : ℝ) : ℂ) • LinearMap.id : E →ₗ[ℂ] E)
      (aNew psi0) (some r) = some (E0, psis, N, obj)) (i : ℕ) (psi : E) (hi : psis[i]? = some psi) :
    ∃ e : ℂ, E0[i]? = some e ∧ IsRitzPair H (krylovSpace H psi0 N) e psi := by
  obtain ⟨e, h1, h2⟩ := (C53_arnoldi he hso hm hc hn hr).2.2.2.2 i psi hi
  have hk : krylovSpace (H + ((r : ℝ) : ℂ) • LinearMap.id : E →ₗ[ℂ] E) psi0 N =
      krylovSpace H psi0 N := krylov_shift (S := ⊤) (s := ((r : ℝ) : ℂ)) (fun _ _ => trivial) trivial
    (fun x _ => rfl) N
  rw [hk] at h2
  refine ⟨e, h1, h2.mem, h2.norm, fun φ hφ => ?_⟩
  rw [← h2.galerkin φ hφ]
  congr 1
  simp only [LinearMap.add_apply, LinearMap.smul_apply, LinearMap.id_apply, Option.getD_some]
  rw [add_smul]
  abel

/-- **C53.** A run on a new object succeeds exactly if the starting vector is not zero (the code
would divide by its norm). -/
theorem C53_succeeds (eShift : Option ℝ) (hm : 1 ≤ o.nMax) :
    (arnoldiRun o eig sort H (aNew psi0) eShift).isSome ↔ psi0 ≠ 0 := by
  constructor
  · intro h h0
    unfold arnoldiRun aBuild aNew at h
    dsimp only at h
    rw [if_pos (by rw [h0, norm_zero])] at h
    exact absurd h (by simp)
  · intro h0
    unfold arnoldiRun
    cases hb : aBuild o (arnKind o eig sort) H (aNew psi0) with
    | none =>
      rcases aBuild_none hb with h | ⟨j, -, hj, -⟩
      · exact absurd h h0
      · change arnCalc o eig sort j _ = none at hj
        unfold arnCalc at hj
        by_cases e : j = 0
        · rw [if_pos e] at hj
          exact absurd hj (by simp)
        · rw [if_neg e] at hj
          exact absurd hj (by simp)
    | some r =>
      obtain ⟨q, s, N⟩ := r
      obtain ⟨-, -, hN, hpost⟩ := aBuild_post hm hb
      dsimp only
      rw [Option.isSome_map]
      by_cases h1 : N = 1
      · rw [if_pos h1]; rfl
      · rw [if_neg h1]
        unfold arnFull
        rw [hpost.inv.cache, aqs_length, if_neg (by omega)]
        rfl

/-- a small last matrix element: the Krylov space is almost invariant -/
theorem near_invariant (h0 : psi0 ≠ 0) {N : ℕ} (hN0 : 0 < N)
    (hab : ∀ i, i + 1 < N → ab H (unit0 ℂ psi0) i ≠ 0) {t : ℝ}
    (h : ab H (unit0 ℂ psi0) (N - 1) < t) :
    ∀ x ∈ krylovSpace H psi0 N, ∃ y ∈ krylovSpace H psi0 N, ‖H x - y‖ ≤ t * ‖x‖ := by
  intro x hx
  rw [← span_aq_unit0] at hx
  have h3 := eq_comb (unit0_norm h0) hab hx
  set v : ℕ → ℂ := fun i => ⟪aq H (unit0 ℂ psi0) i, x⟫_ℂ with hv
  have h4 : H x = ∑ j ∈ Finset.range N, v j • ∑ i ∈ Finset.range N,
      ahm H (unit0 ℂ psi0) N i j • aq H (unit0 ℂ psi0) i +
      (v (N - 1) * ((ab H (unit0 ℂ psi0) (N - 1) : ℝ) : ℂ)) • aq H (unit0 ℂ psi0) N := by
    conv_lhs => rw [h3]
    unfold comb
    rw [map_sum]
    have : ∀ j ∈ Finset.range N, H (v j • aq H (unit0 ℂ psi0) j) =
        v j • ∑ i ∈ Finset.range N, ahm H (unit0 ℂ psi0) N i j • aq H (unit0 ℂ psi0) i +
        (if j = N - 1 then v j * ((ab H (unit0 ℂ psi0) j : ℝ) : ℂ) else 0) •
          aq H (unit0 ℂ psi0) N := by
      intro j hj
      have hj' := Finset.mem_range.1 hj
      rw [map_smul, A_aq_ahm hj', smul_add, smul_smul]
      congr 2
      by_cases e : j = N - 1
      · rw [if_pos e, if_pos (by omega)]; rfl
      · rw [if_neg e, if_neg (by omega), mul_zero]
    rw [Finset.sum_congr rfl this, Finset.sum_add_distrib, ← Finset.sum_smul]
    congr 2
    rw [Finset.sum_eq_single (N - 1)]
    · rw [if_pos rfl]
    · intro b _ hb
      rw [if_neg hb]
    · intro h
      exact absurd (Finset.mem_range.2 (by omega)) h
  refine ⟨∑ j ∈ Finset.range N, v j • ∑ i ∈ Finset.range N,
      ahm H (unit0 ℂ psi0) N i j • aq H (unit0 ℂ psi0) i, ?_, ?_⟩
  · rw [← span_aq_unit0]
    exact Submodule.sum_mem _ fun j _ => Submodule.smul_mem _ _ (comb_mem N _)
  · rw [h4, add_sub_cancel_left, norm_smul, norm_mul, Complex.norm_real, Real.norm_eq_abs,
      abs_of_nonneg (show 0 ≤ ab H (unit0 ℂ psi0) (N - 1) from norm_nonneg _)]
    have h5 : ‖v (N - 1)‖ ≤ ‖x‖ := by
      have h6 := norm_comb (unit0_norm h0) hab v
      rw [← h3] at h6
      have h7 : ‖v (N - 1)‖ ^ 2 ≤ ‖x‖ ^ 2 := by
        rw [h6]
        exact Finset.single_le_sum (f := fun i => ‖v i‖ ^ 2) (fun i _ => by positivity)
          (Finset.mem_range.2 (by omega))
      exact (sq_le_sq₀ (norm_nonneg _) (norm_nonneg _)).1 h7
    have h8 : ‖aq H (unit0 ℂ psi0) N‖ ≤ 1 := by
      rcases aq_unit_or_zero (A := H) (Or.inl (unit0_norm (𝕜 := ℂ) h0)) N with h | h
      · exact h.le
      · rw [h, norm_zero]; norm_num
    have h9 : (0 : ℝ) ≤ ab H (unit0 ℂ psi0) (N - 1) := norm_nonneg _
    have h10 : 0 ≤ t := (lt_of_le_of_lt h9 h).le
    calc ‖v (N - 1)‖ * ab H (unit0 ℂ psi0) (N - 1) * ‖aq H (unit0 ℂ psi0) N‖
        ≤ ‖v (N - 1)‖ * ab H (unit0 ℂ psi0) (N - 1) * 1 := by gcongr
      _ = ab H (unit0 ℂ psi0) (N - 1) * ‖v (N - 1)‖ := by ring
      _ ≤ t * ‖x‖ := by gcongr

/-- **C53.** If the iteration ends before `N_max` steps, then either the Krylov space is almost
invariant, or at least `N_min` steps were made and the residual of the first pair is small compared
to its distance from the other eigenvalues of the compression (or `min_gap`). -/
theorem C53_early_stop (he : EigSpec eig) (hso : SortSpec sort) (hm : 2 ≤ o.nMax)
    (hc : 0 < o.cutoff) (hn : 1 ≤ o.numEv) (hg : 0 < o.minGap) {eShift : Option ℝ} {E0 : List ℂ}
    {psis : List E} {N : ℕ} {obj : AObj E}
    (hr : arnoldiRun o eig sort H (aNew psi0) eShift = some (E0, psis, N, obj)) (hN : N < o.nMax) :
    (∀ x ∈ krylovSpace H psi0 N, ∃ y ∈ krylovSpace H psi0 N, ‖H x - y‖ ≤ o.cutoff * ‖x‖) ∨
    (o.nMin ≤ N ∧ ∃ (e : ℂ) (psi : E) (d : ℝ), E0[0]? = some e ∧ psis[0]? = some psi ∧
      (∀ e' psi', IsRitzPair H (krylovSpace H psi0 N) e' psi' →
        e' ≠ e + ((eShift.getD 0 : ℝ) : ℂ) → d ≤ ‖e' - (e + ((eShift.getD 0 : ℝ) : ℂ))‖) ∧
      (‖H psi - (e + ((eShift.getD 0 : ℝ) : ℂ)) • psi‖ / max d o.minGap) ^ 2 < o.pTol) := by
  obtain ⟨s, h0, hN0, hpost, hab, hcols, rfl, rfl, -⟩ := arnoldiRun_post he hso (by omega) hc hn hr
  rcases hpost.stop hN with h | ⟨h1, h2⟩
  · left
    rw [hpost.inv.norm hN0] at h
    exact near_invariant h0 hN0 hab h
  · right
    refine ⟨by omega, ?_⟩
    change arnConv o (N - 1) s.es s.vf s.h at h2
    unfold arnConv at h2
    obtain ⟨h3, -⟩ := h2
    have hrp := ritz_of_col h0 hN0 hab (hcols.pair 0 (by omega)) (hcols.unit 0 (by omega))
    have hlast : ‖s.h (N - 1 + 1) (N - 1)‖ = ab H (unit0 ℂ psi0) (N - 1) := by
      obtain ⟨M, rfl⟩ : ∃ M, N = M + 1 := ⟨N - 1, by omega⟩
      rw [hpost.inv.h, Nat.add_sub_cancel, ahm_last]
      change ‖((ab H (unit0 ℂ psi0) M : ℝ) : ℂ)‖ = _
      rw [Complex.norm_real, Real.norm_eq_abs,
        abs_of_nonneg (show 0 ≤ ab H (unit0 ℂ psi0) M from norm_nonneg _)]
    have hne : arnDiffs o (N - 1) s.es ≠ [] := by
      intro h
      unfold arnDiffs at h
      rw [List.flatMap_eq_nil_iff] at h
      have := h 0 (List.mem_range.2 (by omega))
      rw [List.map_eq_nil_iff] at this
      have := congrArg List.length this
      rw [List.length_range', List.length_nil] at this
      omega
    cases hd : (arnDiffs o (N - 1) s.es).min? with
    | none => exact absurd (List.min?_eq_none_iff.1 hd) hne
    | some d =>
      rw [hd] at h3
      dsimp only at h3
      have hmin := (List.min?_eq_some_iff.1 hd).2
      refine ⟨s.es (N - 1) 0 - ((eShift.getD 0 : ℝ) : ℂ), comb H (unit0 ℂ psi0) N
        (fun row => s.vf row 0), d, ?_, ?_, ?_, ?_⟩
      · rw [List.getElem?_map, List.getElem?_range (by omega)]; rfl
      · rw [List.getElem?_map, List.getElem?_range (by omega)]; rfl
      · intro e' psi' hp hne'
        rw [sub_add_cancel] at hne' ⊢
        obtain ⟨c, hc1, rfl⟩ := ritz_complete h0 hab hcols hp
        have hc0 : c ≠ 0 := fun h => hne' (by rw [h])
        apply hmin
        unfold arnDiffs
        rw [List.mem_flatMap]
        refine ⟨0, List.mem_range.2 (by omega), ?_⟩
        rw [List.mem_map]
        refine ⟨c, ?_, rfl⟩
        rw [List.mem_range'_1]
        omega
      · rw [sub_add_cancel, hrp.2, sq]
        rw [hlast] at h3
        exact h3

/-- **C53 (defect).** `num_ev` numbers are returned even if fewer steps were made: the additional
ones are no eigenvalues but `0 - E_shift`, and have no vector. -/
theorem C53_excess (he : EigSpec eig) (hso : SortSpec sort) (hm : 1 ≤ o.nMax)
    (hc : 0 < o.cutoff) (hn : 1 ≤ o.numEv) {eShift : Option ℝ} {E0 : List ℂ} {psis : List E} {N : ℕ}
    {obj : AObj E} (hr : arnoldiRun o eig sort H (aNew psi0) eShift = some (E0, psis, N, obj)) (i : ℕ)
    (h1 : N ≤ i) (h2 : i < o.numEv) :
    E0[i]? = some (-((eShift.getD 0 : ℝ) : ℂ)) ∧ psis[i]? = none := by
  obtain ⟨s, h0, hN, hpost, hab, hcols, rfl, rfl, -⟩ := arnoldiRun_post he hso hm hc hn hr
  constructor
  · rw [List.getElem?_map, List.getElem?_range h2, Option.map_some, hcols.zero i h1, zero_sub]
  · rw [List.getElem?_map, List.getElem?_eq_none (by rw [List.length_range]; omega), Option.map_none]

/-- **C53 (defect).** The cache is not reset: after a run with the full number of steps, a second
run of the same object raises. -/
theorem C53_second_run (he : EigSpec eig) (hso : SortSpec sort) (hm : 1 ≤ o.nMax)
    (hc : 0 < o.cutoff) (hn : 1 ≤ o.numEv) {eShift : Option ℝ} {E0 : List ℂ} {psis : List E}
    {obj : AObj E}
    (hr : arnoldiRun o eig sort H (aNew psi0) eShift = some (E0, psis, o.nMax, obj)) :
    arnoldiRun o eig sort H obj eShift = none := by
  obtain ⟨s, h0, hN, hpost, hab, hcols, -, -, rfl⟩ := arnoldiRun_post he hso hm hc hn hr
  have h1 : ‖unit0 ℂ psi0‖ ≠ 0 := by rw [unit0_norm h0]; norm_num
  obtain ⟨M, hM⟩ : ∃ M, o.nMax = M + 1 := ⟨o.nMax - 1, by omega⟩
  have h2 : aBuild o (arnKind o eig sort) H
      ⟨unit0 ℂ psi0, aqs H (unit0 ℂ psi0) o.nMax, ahm H (unit0 ℂ psi0) o.nMax, s.es⟩ = none := by
    unfold aBuild
    rw [if_neg h1, Option.map_eq_none_iff]
    have h3 : ∀ t : AState E, t.cache.length = o.nMax →
        aStep o (arnKind o eig sort) H 0 t = none := by
      intro t ht
      unfold aStep
      dsimp only
      rw [if_pos (by rw [List.length_append, ht]; simp)]
    rw [hM, aLoop, h3]
    rw [← hM]
    exact aqs_length _ _ _
  unfold arnoldiRun
  rw [h2]

end

end Cyten.Props
