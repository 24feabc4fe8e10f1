import Verif.Props.Lanczos

/-!
C51, continued: `E_shift`.  The shift of the operator is compensated in the returned energy; but the
constructor of the Krylov classes modifies a `ProjectedLinearOperator` of the caller in place, so
using the operator a second time gives a wrong energy.
-/

namespace Cyten.Props

open Cyten.Sparse Cyten.Krylov
open scoped InnerProductSpace

variable {𝕜 E : Type} [RCLike 𝕜] [NormedAddCommGroup E] [InnerProductSpace 𝕜 E]

section
variable {H H' : E →ₗ[𝕜] E} {psi0 : E} {S : Submodule 𝕜 E} {s : 𝕜}

theorem krylov_le (hS : ∀ x ∈ S, H x ∈ S) (h0 : psi0 ∈ S) (N : ℕ) : krylovSpace H psi0 N ≤ S := by
  unfold krylovSpace
  rw [Submodule.span_le]
  rintro _ ⟨k, rfl⟩
  have : ∀ k : ℕ, (H ^ k) psi0 ∈ S := by
    intro k
    induction k with
    | zero => simpa using h0
    | succ k ih => rw [pow_succ']; exact hS _ ih
  exact this k

theorem krylov_shift_le (hS : ∀ x ∈ S, H x ∈ S) (h0 : psi0 ∈ S)
    (hH : ∀ x ∈ S, H' x = H x + s • x) (N : ℕ) :
    krylovSpace H' psi0 N ≤ krylovSpace H psi0 N := by
  have key : ∀ k : ℕ, (H' ^ k) psi0 ∈ krylovSpace H psi0 (k + 1) := by
    intro k
    induction k with
    | zero => simpa using krylov_pow_mem H psi0 (N := 1) (k := 0) (by omega)
    | succ k ih =>
      rw [pow_succ']
      show H' ((H' ^ k) psi0) ∈ _
      rw [hH _ (krylov_le hS h0 _ ih)]
      exact Submodule.add_mem _ (krylov_map H psi0 ih)
        (Submodule.smul_mem _ _ (krylov_mono H psi0 (by omega) ih))
  conv_lhs => unfold krylovSpace
  rw [Submodule.span_le]
  rintro _ ⟨k, rfl⟩
  exact krylov_mono H psi0 (by omega) (key k)

/-- shifting the operator does not change the Krylov spaces -/
theorem krylov_shift (hS : ∀ x ∈ S, H x ∈ S) (h0 : psi0 ∈ S)
    (hH : ∀ x ∈ S, H' x = H x + s • x) (N : ℕ) :
    krylovSpace H' psi0 N = krylovSpace H psi0 N := by
  refine le_antisymm (krylov_shift_le hS h0 hH N) (krylov_shift_le (S := S) (s := -s) ?_ h0 ?_ N)
  · intro x hx
    rw [hH x hx]
    exact S.add_mem (hS x hx) (S.smul_mem _ hx)
  · intro x hx
    rw [hH x hx, neg_smul]; abel

theorem isGroundIn_shift {K : Submodule 𝕜 E} {r e : ℝ} {psi : E}
    (hH : ∀ x ∈ K, H' x = H x + ((r : ℝ) : 𝕜) • x) (h : IsGroundIn H' K (e + r) psi) :
    IsGroundIn H K e psi := by
  refine ⟨h.mem, h.norm, ?_, ?_, ?_⟩
  · have := h.energy
    rw [hH _ h.mem, inner_add_right, inner_smul_right, inner_self_of_norm_one h.norm, mul_one,
      RCLike.ofReal_add] at this
    exact add_right_cancel this
  · intro φ hφ hn
    have := h.minimal φ hφ hn
    rw [hH _ hφ, inner_add_right, inner_smul_right, inner_self_of_norm_one hn, mul_one, map_add,
      RCLike.ofReal_re] at this
    linarith
  · intro φ hφ
    have := h.galerkin φ hφ
    rw [hH _ h.mem] at this
    rw [← this]
    congr 1
    rw [RCLike.ofReal_add, add_smul]
    abel

/-- the energy of a ground state is determined by the subspace -/
theorem isGroundIn_unique {K : Submodule 𝕜 E} {e e' : ℝ} {psi psi' : E}
    (h : IsGroundIn H K e psi) (h' : IsGroundIn H K e' psi') : e = e' := by
  have a := h.minimal _ h'.mem h'.norm
  have b := h'.minimal _ h.mem h.norm
  rw [h'.energy, RCLike.ofReal_re] at a
  rw [h.energy, RCLike.ofReal_re] at b
  exact le_antisymm a b

end

/-- the operator is not a `ProjectedLinearOperator` -/
def NotProjected : Op 𝕜 E → Prop
  | .projected _ _ _ _ => False
  | _ => True

theorem krylovCtor_plain {op : Op 𝕜 E} (h : NotProjected op) (s : ℝ) :
    krylovCtor op (some s) = (.shifted op (s : 𝕜), op) := by
  cases op <;> first | rfl | exact absurd h (by simp [NotProjected])

theorem isSymmetric_shift {H : E →ₗ[𝕜] E} (hs : H.IsSymmetric) (s : ℝ) :
    (H + ((s : ℝ) : 𝕜) • LinearMap.id).IsSymmetric := by
  intro x y
  simp only [LinearMap.add_apply, LinearMap.smul_apply, LinearMap.id_apply, inner_add_left,
    inner_add_right, inner_smul_left, inner_smul_right, RCLike.conj_ofReal]
  rw [hs x y]

section
variable {o : Options} {eigh : Eigh} {psi0 : E}

/-- **C51.** Without a shift, `lanczos` gives the ground state in the Krylov space of the operator
and leaves the operator alone. -/
theorem C51_no_shift (he : EighSpec eigh) (hn : 2 ≤ o.nCache) (hm : 1 ≤ o.nMax) (hc : 0 < o.cutoff)
    {op : Op 𝕜 E} {L : E →ₗ[𝕜] E} (hL : ∀ v, op.matvec v = L v) (hs : L.IsSymmetric)
    {E0 : ℝ} {psi : E} {N : ℕ}
    (hr : (lanczosOp o eigh op psi0 none).1 = some (E0, psi, N)) :
    IsGroundIn L (krylovSpace L psi0 N) E0 psi ∧ (lanczosOp o eigh op psi0 none).2 = op := by
  refine ⟨?_, rfl⟩
  have e : op.matvec = L := funext hL
  have hr' : lanczosRun (𝕜 := 𝕜) o eigh op.matvec psi0 none = some (E0, psi, N) := hr
  rw [e] at hr'
  have := (C51_lanczos hs he hn hm hc hr').2.2.2
  simpa using this

/-- **C51.** `E_shift` has no effect on the meaning of the result: the energy is the one of the
operator without the shift. (For an operator that is not a `ProjectedLinearOperator`, which is left
alone.) -/
theorem C51_shift (he : EighSpec eigh) (hn : 2 ≤ o.nCache) (hm : 1 ≤ o.nMax) (hc : 0 < o.cutoff)
    {op : Op 𝕜 E} (hp : NotProjected op) {L : E →ₗ[𝕜] E} (hL : ∀ v, op.matvec v = L v)
    (hs : L.IsSymmetric) (s : ℝ) {E0 : ℝ} {psi : E} {N : ℕ}
    (hr : (lanczosOp o eigh op psi0 (some s)).1 = some (E0, psi, N)) :
    IsGroundIn L (krylovSpace L psi0 N) E0 psi ∧
      (lanczosOp o eigh op psi0 (some s)).2 = op := by
  unfold lanczosOp at hr ⊢
  rw [krylovCtor_plain hp] at hr ⊢
  refine ⟨?_, rfl⟩
  dsimp only at hr
  have e : (Op.shifted op ((s : ℝ) : 𝕜)).matvec = (L + ((s : ℝ) : 𝕜) • LinearMap.id : E →ₗ[𝕜] E) := by
    funext v
    rw [C38_shifted, hL]; rfl
  rw [e] at hr
  have := (C51_lanczos (isSymmetric_shift hs s) he hn hm hc hr).2.2.2
  have hk := krylov_shift (H := L) (H' := L + ((s : ℝ) : 𝕜) • LinearMap.id) (psi0 := psi0) (S := ⊤)
    (s := ((s : ℝ) : 𝕜)) (fun _ _ => trivial) trivial (fun _ _ => rfl) N
  rw [hk, Option.getD_some] at this
  exact isGroundIn_shift (fun _ _ => rfl) this

/-- the linear map of a `ProjectedLinearOperator` with its wrapped operator shifted `n` times -/
theorem projected_shift {A : Op 𝕜 E} {os : List E} (ho : OrthonormalList 𝕜 os) (po : Bool)
    (pen : Option 𝕜) {LA L : E →ₗ[𝕜] E} (hA : ∀ v, A.matvec v = LA v)
    (hL : ∀ v, (Op.projected A os po pen).matvec v = L v) (hs : L.IsSymmetric) (s : ℝ) :
    ∃ L' : E →ₗ[𝕜] E, (∀ v, (Op.projected (.shifted A (s : 𝕜)) os po pen).matvec v = L' v) ∧
      L'.IsSymmetric ∧
      (∀ v, (po = true → v ∈ (listSpan 𝕜 os)ᗮ) → L' v = L v + (s : 𝕜) • v) ∧
      (po = true → ∀ v ∈ (listSpan 𝕜 os)ᗮ, L v ∈ (listSpan 𝕜 os)ᗮ) := by
  have hmem : ∀ x, docProj 𝕜 os x ∈ (listSpan 𝕜 os)ᗮ := fun x =>
    Submodule.starProjection_apply_mem _ _
  cases po with
  | true =>
    refine ⟨L + ((s : ℝ) : 𝕜) • (docProj 𝕜 os).toLinearMap, ?_, ?_, ?_, ?_⟩
    · intro v
      have h1 := hL v
      rw [C38_projected _ ho] at h1 ⊢
      have h2 : docProj 𝕜 os (docProj 𝕜 os v) = docProj 𝕜 os v :=
        Submodule.starProjection_eq_self_iff.2 (hmem v)
      simp only [if_true] at h1 ⊢
      rw [C38_shifted, map_add, map_smul, h2, LinearMap.add_apply, ← h1]
      simp only [LinearMap.smul_apply, ContinuousLinearMap.coe_coe]
      abel
    · intro x y
      simp only [LinearMap.add_apply, LinearMap.smul_apply, inner_add_left, inner_add_right,
        inner_smul_left, inner_smul_right, RCLike.conj_ofReal, ContinuousLinearMap.coe_coe]
      rw [hs x y, docProj_symm]
    · intro v hv
      have : docProj 𝕜 os v = v := Submodule.starProjection_eq_self_iff.2 (hv rfl)
      simp [this]
    · intro _ v hv
      rw [← hL, C38_projected_orth A ho pen v hv]
      exact hmem _
  | false =>
    refine ⟨L + ((s : ℝ) : 𝕜) • LinearMap.id, ?_, isSymmetric_shift hs s, fun _ _ => rfl, by simp⟩
    intro v
    have h1 := hL v
    rw [C38_projected _ ho] at h1 ⊢
    simp only [Bool.false_eq_true, if_false] at h1 ⊢
    rw [C38_shifted, LinearMap.add_apply, ← h1]
    simp only [LinearMap.smul_apply, LinearMap.id_apply]
    abel

/-- **C51.** For a `ProjectedLinearOperator` (orthonormal `ortho_vecs`, start vector orthogonal to
them if they are projected out), a first call with `E_shift` gives the ground state and its energy
in the Krylov space. The operator object is modified: its wrapped operator is now the shifted one. -/
theorem C51_shift_projected (he : EighSpec eigh) (hn : 2 ≤ o.nCache) (hm : 1 ≤ o.nMax)
    (hc : 0 < o.cutoff) {A : Op 𝕜 E} {os : List E} (ho : OrthonormalList 𝕜 os) (po : Bool)
    (pen : Option 𝕜) {LA L : E →ₗ[𝕜] E} (hA : ∀ v, A.matvec v = LA v)
    (hL : ∀ v, (Op.projected A os po pen).matvec v = L v) (hs : L.IsSymmetric)
    (h0 : po = true → psi0 ∈ (listSpan 𝕜 os)ᗮ) (s : ℝ) {E0 : ℝ} {psi : E} {N : ℕ}
    (hr : (lanczosOp o eigh (.projected A os po pen) psi0 (some s)).1 = some (E0, psi, N)) :
    IsGroundIn L (krylovSpace L psi0 N) E0 psi ∧
      (lanczosOp o eigh (.projected A os po pen) psi0 (some s)).2 =
        .projected (.shifted A (s : 𝕜)) os po pen := by
  refine ⟨?_, rfl⟩
  obtain ⟨L', hL', hs', hsh, hinv⟩ := projected_shift ho po pen hA hL hs s
  have hr' : lanczosRun (𝕜 := 𝕜) o eigh (Op.projected (.shifted A (s : 𝕜)) os po pen).matvec psi0
    (some s) = some (E0, psi, N) := hr
  rw [funext hL'] at hr'
  have := (C51_lanczos hs' he hn hm hc hr').2.2.2
  rw [Option.getD_some] at this
  cases po with
  | true =>
    have hk := krylov_shift (H := L) (H' := L') (psi0 := psi0) (S := (listSpan 𝕜 os)ᗮ)
      (s := ((s : ℝ) : 𝕜)) (hinv rfl) (h0 rfl) (fun x hx => hsh x fun _ => hx) N
    rw [hk] at this
    refine isGroundIn_shift (fun x hx => hsh x fun _ => ?_) this
    exact krylov_le (hinv rfl) (h0 rfl) N hx
  | false =>
    have hk := krylov_shift (H := L) (H' := L') (psi0 := psi0) (S := ⊤)
      (s := ((s : ℝ) : 𝕜)) (fun _ _ => trivial) trivial (fun x _ => hsh x (by simp)) N
    rw [hk] at this
    exact isGroundIn_shift (fun x _ => hsh x (by simp)) this

/-- **C51, defect.** Calling `lanczos` a second time with the operator object that a first call with
the same `E_shift` has left behind: the returned energy is the ground state energy in the Krylov
space *plus the shift*, hence wrong for every shift but 0. -/
theorem C51_shift_reused_wrong (he : EighSpec eigh) (hn : 2 ≤ o.nCache) (hm : 1 ≤ o.nMax)
    (hc : 0 < o.cutoff) {A : Op 𝕜 E} {os : List E} (ho : OrthonormalList 𝕜 os) (po : Bool)
    (pen : Option 𝕜) {LA L : E →ₗ[𝕜] E} (hA : ∀ v, A.matvec v = LA v)
    (hL : ∀ v, (Op.projected A os po pen).matvec v = L v) (hs : L.IsSymmetric)
    (h0 : po = true → psi0 ∈ (listSpan 𝕜 os)ᗮ) (s : ℝ) {E0 : ℝ} {psi : E} {N : ℕ}
    (hr : (lanczosOp o eigh (lanczosOp o eigh (.projected A os po pen) psi0 (some s)).2 psi0
      (some s)).1 = some (E0, psi, N)) :
    IsGroundIn L (krylovSpace L psi0 N) (E0 - s) psi ∧
      (s ≠ 0 → ¬ IsGroundIn L (krylovSpace L psi0 N) E0 psi) := by
  obtain ⟨L', hL', hs', hsh, hinv⟩ := projected_shift ho po pen hA hL hs s
  have hA' : ∀ v, (Op.shifted A ((s : ℝ) : 𝕜)).matvec v =
      (LA + ((s : ℝ) : 𝕜) • LinearMap.id : E →ₗ[𝕜] E) v := by
    intro v
    rw [C38_shifted, hA]; rfl
  have h1 := (C51_shift_projected he hn hm hc ho po pen hA' hL' hs' h0 s hr).1
  have h2 : IsGroundIn L (krylovSpace L psi0 N) (E0 - s) psi := by
    rw [← sub_add_cancel E0 s] at h1
    cases po with
    | true =>
      have hk := krylov_shift (H := L) (H' := L') (psi0 := psi0) (S := (listSpan 𝕜 os)ᗮ)
        (s := ((s : ℝ) : 𝕜)) (hinv rfl) (h0 rfl) (fun x hx => hsh x fun _ => hx) N
      rw [hk] at h1
      refine isGroundIn_shift (fun x hx => hsh x fun _ => ?_) h1
      exact krylov_le (hinv rfl) (h0 rfl) N hx
    | false =>
      have hk := krylov_shift (H := L) (H' := L') (psi0 := psi0) (S := ⊤)
        (s := ((s : ℝ) : 𝕜)) (fun _ _ => trivial) trivial (fun x _ => hsh x (by simp)) N
      rw [hk] at h1
      exact isGroundIn_shift (fun x _ => hsh x (by simp)) h1
  refine ⟨h2, fun hne h3 => hne ?_⟩
  have := isGroundIn_unique h2 h3
  linarith

end

/-! ### The hypotheses can be met -/

/-- a non-trivial instance: the operator `diag(0, 1)` on `ℝ²`, starting from `(1, 1)`, whose Krylov
space is all of `ℝ²`: a run succeeds. -/
example : ∃ eigh : Eigh, EighSpec eigh ∧
    ∃ r, lanczosRun (𝕜 := ℝ) (E := EuclideanSpace ℝ (Fin 2))
      { nMin := 2, nMax := 20, nCache := 2, pTol := 1e-14, minGap := 1e-12, eTol := none,
        cutoff := 1e-13, reortho := true } eigh
      (Matrix.toEuclideanLin (Matrix.diagonal ![(0 : ℝ), 1])) (WithLp.toLp 2 ![1, 1]) none = some r := by
  obtain ⟨eigh, he⟩ := exists_eighSpec
  refine ⟨eigh, he, Option.isSome_iff_exists.1 ?_⟩
  refine (C51_succeeds ?_ (by norm_num) (by norm_num) (by norm_num) none).2 ?_
  · rw [← Matrix.isHermitian_iff_isSymmetric]
    exact Matrix.isHermitian_diagonal _
  · rw [EuclideanSpace.norm_eq]
    rw [Real.le_sqrt (by norm_num) (by simp)]
    simp [Fin.sum_univ_two]
    norm_num

end Cyten.Props
