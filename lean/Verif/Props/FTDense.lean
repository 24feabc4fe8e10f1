import Verif.Lemmas.FTDense5
import Verif.Lemmas.AbelianInner
import Verif.Props.FTDecomp
import Mathlib.LinearAlgebra.Matrix.NonsingularInverse
import Mathlib.Algebra.Star.BigOperators
import Mathlib.Algebra.Field.ZMod

/-!
# C63: the dense blocks of the fusion tree backend

`to_dense_block` is a faithful, structure preserving representation: it turns composition into contraction of the
dense indices, `dagger` into the conjugate transpose, `inner`, `norm` and `trace` into the usual ones, identities
into identity matrices; `from_dense_block` inverts it and projects everything else orthogonally onto the symmetric
tensors, and its tolerance test measures the distance from this projection.
-/

namespace Cyten.FT.Spec
open Cyten.FT Cyten.Spaces Cyten.Spaces.Spec Cyten.Abelian Cyten.Tools

variable {S K : Type}

/-- The dimensions of the flat legs -/
abbrev legDims (dim : S → ℕ) (s : Side S) : List ℕ := s.spaces.map (spaceDim dim)

/-- The entry of a dense block with the given indices of the codomain and of the domain: the legs are those of the
codomain, followed by those of the domain in reverse order. -/
def entry (a : Blk K) (is js : List ℕ) : K := a.val (is ++ js.reverse)

/-- The inner product of dense blocks: `sum conj(a) * b` -/
def denseInner [Semiring K] [StarRing K] (nc nd : List ℕ) (a b : Blk K) : K :=
  ((gridC nc).map fun is => ((gridC nd).map fun js => star (entry a is js) * entry b is js).sum).sum

/-- The distance (squared) of dense blocks -/
noncomputable def denseDistSq (nc nd : List ℕ) (a b : Blk ℂ) : ℝ :=
  ((gridC nc).map fun is => ((gridC nd).map fun js => Complex.normSq (entry a is js - entry b is js)).sum).sum

/-- The norm (squared) of a dense block -/
noncomputable def denseNormSq (nc nd : List ℕ) (a : Blk ℂ) : ℝ :=
  ((gridC nc).map fun is => ((gridC nd).map fun js => Complex.normSq (entry a is js)).sum).sum

/-- `big` only discards blocks that are exactly zero (in the code: blocks of norm up to `1e-14`). -/
def ExactBig [Zero K] (big : Mat K → Bool) : Prop :=
  ∀ M : Mat K, big M = false → ∀ m n, m < M.rows → n < M.cols → M.val m n = 0

end Cyten.FT.Spec

namespace Cyten.FT
open Cyten.FT.Spec Cyten.Tools Cyten.ListSum Cyten.Props Cyten.Spaces Cyten.Spaces.Spec Cyten.Abelian
  Cyten.FusionTrees Matrix Kronecker

variable {S K : Type} [LinearOrder S]

section ring
variable [CommRing K] [StarRing K] {R : FusionRule S} {T : FTensors S K} {s cod mid dom : Side S}
  {l lc lm ld : BLeg S} (Q : Finset S)

theorem entry_core (sectors : List S) (D : FEnts K) (is js : List ℕ) (hi : is ∈ gridC (legDims T.dim cod)) :
    entry (toDenseBlock R T sectors cod dom D) is js = toDenseCore R T sectors cod dom D is js := by
  have hl : is.length = cod.spaces.length := by
    have := ((mem_gridC _ _).1 hi).length_eq
    simpa [legDims] using this
  unfold entry toDenseBlock
  simp only
  rw [← hl, List.take_left, List.drop_left, List.reverse_reverse]

theorem entry_Dn (D : FEnts K) (is js : List ℕ) (hi : is ∈ gridC (legDims T.dim cod)) (hj : js ∈ gridC (legDims T.dim dom)) :
    entry (toDenseBlock R T lc.sectors cod dom D) is js =
      Dn R T cod dom lc D ⟨is, List.mem_toFinset.2 hi⟩ ⟨js, List.mem_toFinset.2 hj⟩ := entry_core _ _ _ _ hi

theorem Dn_entry (D : FEnts K) (is : Ix (cod.spaces.map (spaceDim T.dim))) (js : Ix (dom.spaces.map (spaceDim T.dim))) :
    Dn R T cod dom lc D is js = entry (toDenseBlock R T lc.sectors cod dom D) is.1 js.1 :=
  (entry_core _ _ _ _ (List.mem_toFinset.1 is.2)).symm

theorem bd_mul {ι : Type} (N : ∀ c : Q, Matrix (Fin (Spec.mult lc c.1)) (Fin (Spec.mult ld c.1)) K)
    (P : Matrix (St T Q ld) ι K) (c : Q) (r : Fin (Spec.mult lc c.1)) (g : Fin (T.dim c.1)) (j : ι) :
    ((Matrix.blockDiagonal' fun c : Q => N c ⊗ₖ (1 : Matrix (Fin (T.dim c.1)) (Fin (T.dim c.1)) K)) * P) ⟨c, r, g⟩ j =
      ∑ t : Fin (Spec.mult ld c.1), N c r t * P ⟨c, t, g⟩ j := by
  rw [Matrix.mul_apply, Fintype.sum_sigma, Finset.sum_eq_single c]
  · rw [Fintype.sum_prod_type]
    refine Finset.sum_congr rfl fun t _ => ?_
    rw [Finset.sum_eq_single g]
    · rw [Matrix.blockDiagonal'_apply_eq, Matrix.kronecker_apply, Matrix.one_apply_eq, mul_one]
    · intro g' _ hne
      rw [Matrix.blockDiagonal'_apply_eq, Matrix.kronecker_apply, Matrix.one_apply_ne hne.symm, mul_zero, zero_mul]
    · simp
  · intro c' _ hne
    refine Finset.sum_eq_zero fun x _ => ?_
    rw [Matrix.blockDiagonal'_apply_ne _ _ _ hne.symm, zero_mul]
  · simp

theorem B_comp (a b ab : FEnts K) (h : ∀ c, matrixOf lc ld ab c = matrixOf lc lm a c * matrixOf lm ld b c) :
    B T Q lc lm a * B T Q lm ld b = B T Q lc ld ab := by
  unfold B
  rw [← Matrix.blockDiagonal'_mul]
  congr 1
  funext c
  rw [h, ← Matrix.mul_kronecker_mul, Matrix.one_mul]

theorem B_dag (a : FEnts K) : (B T Q lc ld a)ᴴ = Matrix.blockDiagonal' fun c : Q => (matrixOf lc ld a c.1)ᴴ ⊗ₖ
    (1 : Matrix (Fin (T.dim c.1)) (Fin (T.dim c.1)) K) := by
  unfold B
  rw [Matrix.blockDiagonal'_conjTranspose]
  congr 1
  funext c
  rw [Matrix.conjTranspose_kronecker, Matrix.conjTranspose_one]

theorem trace_B (N : ∀ c : Q, Matrix (Fin (Spec.mult l c.1)) (Fin (Spec.mult l c.1)) K) :
    (Matrix.blockDiagonal' fun c : Q => N c ⊗ₖ (1 : Matrix (Fin (T.dim c.1)) (Fin (T.dim c.1)) K)).trace =
      ∑ c : Q, (T.dim c.1 : K) * (N c).trace := by
  rw [Matrix.trace_blockDiagonal']
  refine Finset.sum_congr rfl fun c _ => ?_
  rw [Matrix.trace_kronecker, Matrix.trace_one, Fintype.card_fin, mul_comm]

theorem trace_empty {l : BLeg S} (h : Coupled l) {c : S} (hc : c ∉ l.sectors)
    (N : Matrix (Fin (Spec.mult l c)) (Fin (Spec.mult l c)) K) : N.trace = 0 := by
  refine Finset.sum_eq_zero fun r _ => ?_
  exact absurd r.2 (by have := mult_zero h hc; omega)

/-- The dense block as a matrix -/
def EM (nc nd : List ℕ) (a : Blk K) : Matrix (Ix nc) (Ix nd) K := fun is js => entry a is.1 js.1

theorem denseInner_trace {nc nd : List ℕ} (a b : Blk K) :
    denseInner nc nd a b = ((EM nc nd a)ᴴ * EM nc nd b).trace := by
  unfold denseInner
  rw [sum_ix]
  simp only [Matrix.trace, Matrix.diag_apply, Matrix.mul_apply, Matrix.conjTranspose_apply]
  rw [Finset.sum_comm]
  refine Finset.sum_congr rfl fun is _ => ?_
  rw [sum_ix]
  rfl

theorem EM_Dn (D : FEnts K) : EM (legDims T.dim cod) (legDims T.dim dom) (toDenseBlock R T lc.sectors cod dom D) =
    Dn R T cod dom lc D := by
  funext is js
  exact (Dn_entry D is js).symm

/-- **C63** (fusion trees). For fixed uncoupled sectors and dualities, the dense blocks of the fusion trees
(`FusionTree::to_dense_block`), one vector for every tree and every state of its coupled sector, are orthonormal:
trees with other inner sectors, multiplicity labels or coupled sectors are orthogonal. -/
theorem C63_tree_tensors (hT : Spec.Lawful R T) (t t' : FusionTree S)
    (hs : t.Sane R) (hs' : t'.Sane R) (hu : t.uncoupled = t'.uncoupled) (hd : t.areDual = t'.areDual)
    (k k' : ℕ) (hk : k < T.dim t.coupled) (hk' : k' < T.dim t'.coupled) :
    ((gridC (t.uncoupled.map T.dim)).map fun is =>
      star (treeTensor T t is k) * treeTensor T t' is k').sum = if t = t' ∧ k = k' then 1 else 0 :=
  treeTensor_orth hT t t' hs hs' hu hd k k' hk hk'

/-- **C63** (linear). `to_dense_block` of a linear combination is the linear combination of the dense blocks. -/
theorem C63_linear (hc : SideOK R cod lc) (hd : SideOK R dom ld) (v w : FEnts K) (hv : FSane lc ld v)
    (hw : FSane lc ld w) (x y : K) (is js : List ℕ) (hi : is ∈ gridC (legDims T.dim cod))
    (hj : js ∈ gridC (legDims T.dim dom)) :
    entry (toDenseBlock R T lc.sectors cod dom (linearCombination x v y w)) is js =
      x * entry (toDenseBlock R T lc.sectors cod dom v) is js +
        y * entry (toDenseBlock R T lc.sectors cod dom w) is js := by
  obtain ⟨h1, h2⟩ := C61_linear_combination hc.coupled hd.coupled v w hv hw x y
  have hQ : ∀ c ∈ lc.sectors, c ∈ lc.sectors.toFinset := fun c => List.mem_toFinset.2
  have hB : B T lc.sectors.toFinset lc ld (linearCombination x v y w) =
      x • B T lc.sectors.toFinset lc ld v + y • B T lc.sectors.toFinset lc ld w := by
    unfold B
    rw [← Matrix.blockDiagonal'_smul, ← Matrix.blockDiagonal'_smul, ← Matrix.blockDiagonal'_add]
    congr 1
    funext c
    rw [h2]
    ext ⟨i, j⟩ ⟨i', j'⟩
    simp [Matrix.kronecker_apply, add_mul, mul_assoc]
  have hm : Dn R T cod dom lc (linearCombination x v y w) = x • Dn R T cod dom lc v + y • Dn R T cod dom lc w := by
    rw [Dn_eq _ hc hd _ h1 hQ, Dn_eq _ hc hd _ hv hQ, Dn_eq _ hc hd _ hw hQ, hB, Matrix.add_mul, Matrix.mul_add,
      Matrix.smul_mul, Matrix.smul_mul, Matrix.mul_smul, Matrix.mul_smul]
  rw [entry_Dn _ _ _ hi hj, entry_Dn _ _ _ hi hj, entry_Dn _ _ _ hi hj, hm]
  rfl

/-- **C63** (composition). `to_dense_block` of `compose(a, b)` is the contraction of the dense blocks over all
indices of the domain of `a` with those of the codomain of `b`. -/
theorem C63_compose (hR : R.Lawful) (hT : Spec.Lawful R T) (hc : SideOK R cod lc) (hm : SideOK R mid lm)
    (hd : SideOK R dom ld) (a b : FEnts K) (ha : FSane lc lm a) (hb : FSane lm ld b) (is js : List ℕ)
    (hi : is ∈ gridC (legDims T.dim cod)) (hj : js ∈ gridC (legDims T.dim dom)) :
    entry (toDenseBlock R T lc.sectors cod dom (compose a b)) is js =
      ((gridC (legDims T.dim mid)).map fun ks => entry (toDenseBlock R T lc.sectors cod mid a) is ks *
        entry (toDenseBlock R T lm.sectors mid dom b) ks js).sum := by
  obtain ⟨h1, h2⟩ := C61_compose hc.coupled hm.coupled hd.coupled a b ha hb
  let Q := lc.sectors.toFinset ∪ lm.sectors.toFinset
  have hQ : ∀ c ∈ lc.sectors, c ∈ Q := fun c h => Finset.mem_union_left _ (List.mem_toFinset.2 h)
  have hQ' : ∀ c ∈ lm.sectors, c ∈ Q := fun c h => Finset.mem_union_right _ (List.mem_toFinset.2 h)
  have hmul : Dn R T cod dom lc (compose a b) = Dn R T cod mid lc a * Dn R T mid dom lm b := by
    rw [Dn_eq Q hc hd _ h1 hQ, Dn_eq Q hc hm _ ha hQ, Dn_eq Q hm hd _ hb hQ', ← B_comp Q a b _ h2]
    have hV := V_unit Q hR hT hm
    have e : ∀ X : Matrix (St T Q lm) (Ix (dom.spaces.map (spaceDim T.dim))) K,
        V R T Q mid lm * ((V R T Q mid lm)ᴴ * X) = X := by
      intro X
      rw [← Matrix.mul_assoc, hV, Matrix.one_mul]
    simp only [Matrix.mul_assoc, e]
  rw [entry_Dn _ _ _ hi hj, hmul, Matrix.mul_apply]
  unfold legDims
  rw [sum_ix]
  refine Finset.sum_congr rfl fun ks _ => ?_
  rw [Dn_entry, Dn_entry]

/-- **C63** (dagger). The entries of `to_dense_block(dagger(a))` are the conjugates of those of `a` with the roles
of codomain and domain exchanged. -/
theorem C63_dagger (hc : SideOK R cod lc) (hd : SideOK R dom ld) (a : FEnts K) (ha : FSane lc ld a)
    (is js : List ℕ) (hi : is ∈ gridC (legDims T.dim cod)) (hj : js ∈ gridC (legDims T.dim dom)) :
    entry (toDenseBlock R T ld.sectors dom cod (dagger a)) js is =
      star (entry (toDenseBlock R T lc.sectors cod dom a) is js) := by
  obtain ⟨h1, h2⟩ := C61_dagger hc.coupled hd.coupled a ha
  let Q := lc.sectors.toFinset ∪ ld.sectors.toFinset
  have hQ : ∀ c ∈ lc.sectors, c ∈ Q := fun c h => Finset.mem_union_left _ (List.mem_toFinset.2 h)
  have hQ' : ∀ c ∈ ld.sectors, c ∈ Q := fun c h => Finset.mem_union_right _ (List.mem_toFinset.2 h)
  have hB : B T Q ld lc (dagger a) = (B T Q lc ld a)ᴴ := by
    rw [B_dag, B]
    congr 1
    funext c
    rw [h2]
  have hm : Dn R T dom cod ld (dagger a) = (Dn R T cod dom lc a)ᴴ := by
    rw [Dn_eq Q hc hd _ ha hQ, Dn_eq Q hd hc _ h1 hQ', hB, Matrix.conjTranspose_mul, Matrix.conjTranspose_mul,
      Matrix.conjTranspose_conjTranspose, Matrix.mul_assoc]
  rw [entry_Dn _ _ _ hj hi, entry_Dn _ _ _ hi hj, hm]
  rfl

/-- **C63** (inner product). `inner(a, b)`, which sums over the blocks with the dimensions of the coupled sectors as
weights, is the inner product of the dense blocks. -/
theorem C63_inner (hR : R.Lawful) (hT : Spec.Lawful R T) (hc : SideOK R cod lc) (hd : SideOK R dom ld)
    (a b : FEnts K) (ha : FSane lc ld a) (hb : FSane lc ld b) :
    inner (lc.sectors.map fun c => (T.dim c : K)) a b true =
      denseInner (legDims T.dim cod) (legDims T.dim dom) (toDenseBlock R T lc.sectors cod dom a)
        (toDenseBlock R T lc.sectors cod dom b) := by
  let Q := lc.sectors.toFinset ∪ ld.sectors.toFinset
  have hQ : ∀ c ∈ lc.sectors, c ∈ Q := fun c h => Finset.mem_union_left _ (List.mem_toFinset.2 h)
  have hQ' : ∀ c ∈ ld.sectors, c ∈ Q := fun c h => Finset.mem_union_right _ (List.mem_toFinset.2 h)
  rw [(C61_inner hc.coupled hd.coupled (fun c => (T.dim c : K)) a b ha).1 hb, denseInner_trace]
  rw [EM_Dn, EM_Dn, Dn_eq Q hc hd _ ha hQ, Dn_eq Q hc hd _ hb hQ]
  have hVc := V_unit Q hR hT hc
  have hVd := V_unit Q hR hT hd
  have e2 : (((V R T Q cod lc)ᴴ * (B T Q lc ld a * V R T Q dom ld))ᴴ *
      ((V R T Q cod lc)ᴴ * (B T Q lc ld b * V R T Q dom ld))).trace = ((B T Q lc ld a)ᴴ * B T Q lc ld b).trace := by
    rw [Matrix.conjTranspose_mul, Matrix.conjTranspose_mul, Matrix.conjTranspose_conjTranspose]
    calc _ = ((V R T Q dom ld)ᴴ * ((B T Q lc ld a)ᴴ * ((V R T Q cod lc * (V R T Q cod lc)ᴴ) * (B T Q lc ld b *
            V R T Q dom ld)))).trace := by simp only [Matrix.mul_assoc]
      _ = ((V R T Q dom ld)ᴴ * ((B T Q lc ld a)ᴴ * (B T Q lc ld b * V R T Q dom ld))).trace := by
          rw [hVc, Matrix.one_mul]
      _ = (((B T Q lc ld a)ᴴ * (B T Q lc ld b * V R T Q dom ld)) * (V R T Q dom ld)ᴴ).trace := Matrix.trace_mul_comm _ _
      _ = ((B T Q lc ld a)ᴴ * (B T Q lc ld b * (V R T Q dom ld * (V R T Q dom ld)ᴴ))).trace := by
          simp only [Matrix.mul_assoc]
      _ = _ := by rw [hVd, Matrix.mul_one]
  rw [e2, B_dag, B, ← Matrix.blockDiagonal'_mul]
  simp only [← Matrix.mul_kronecker_mul, Matrix.one_mul]
  rw [trace_B, sum_Q Q hc.coupled hQ]
  intro c hcc
  have : (matrixOf lc ld a c)ᴴ * matrixOf lc ld b c = 0 := by
    ext i j
    rw [Matrix.mul_apply]
    refine Finset.sum_eq_zero fun r _ => ?_
    exact absurd r.2 (by have := mult_zero hc.coupled hcc; omega)
  rw [this, Matrix.trace_zero, mul_zero]

/-- **C63** (norm). The square of `norm(a)` is the sum of the absolute squares of all entries of the dense block. -/
theorem C63_norm (hR : R.Lawful) (hT : Spec.Lawful R T) (hc : SideOK R cod lc) (hd : SideOK R dom ld)
    (a : FEnts K) (ha : FSane lc ld a) :
    normSq (lc.sectors.map fun c => (T.dim c : K)) a =
      denseInner (legDims T.dim cod) (legDims T.dim dom) (toDenseBlock R T lc.sectors cod dom a)
        (toDenseBlock R T lc.sectors cod dom a) := by
  rw [← C63_inner hR hT hc hd a a ha ha, C61_norm hc.coupled hd.coupled _ a ha,
    (C61_inner hc.coupled hd.coupled (fun c => (T.dim c : K)) a a ha).1 ha]

/-- **C63** (trace). `trace(a)` is the sum of the diagonal entries of the dense block. -/
theorem C63_trace (hR : R.Lawful) (hT : Spec.Lawful R T) (h : SideOK R s l) (a : FEnts K) (ha : FSane l l a) :
    traceFull (l.sectors.map fun c => (T.dim c : K)) a =
      ((gridC (legDims T.dim s)).map fun is => entry (toDenseBlock R T l.sectors s s a) is is).sum := by
  let Q := l.sectors.toFinset
  have hQ : ∀ c ∈ l.sectors, c ∈ Q := fun c h => List.mem_toFinset.2 h
  rw [C61_trace h.coupled _ a ha]
  have e : ((gridC (legDims T.dim s)).map fun is => entry (toDenseBlock R T l.sectors s s a) is is).sum =
      (Dn R T s s l a).trace := by
    unfold legDims
    rw [sum_ix, Matrix.trace]
    refine Finset.sum_congr rfl fun is _ => ?_
    rw [Matrix.diag_apply, Dn_entry]
  rw [e, Dn_eq Q h h _ ha hQ, Matrix.trace_mul_comm, Matrix.mul_assoc, V_unit Q hR hT h, Matrix.mul_one, B, trace_B,
    sum_Q Q h.coupled hQ]
  intro c hcc
  rw [trace_empty h.coupled hcc, mul_zero]

/-- **C63** (identity). If the dimensions of the coupled sectors add up to the dimension of the tensor product (C29,
see `C63_sides`), the dense block of the identity is the identity matrix. -/
theorem C63_eye (hR : R.Lawful) (hT : Spec.Lawful R T) (h : SideOK R s l)
    (hdim : (l.sectors.map fun c => Spec.mult l c * T.dim c).sum = (legDims T.dim s).prod) (is js : List ℕ)
    (hi : is ∈ gridC (legDims T.dim s)) (hj : js ∈ gridC (legDims T.dim s)) :
    entry (toDenseBlock R T l.sectors s s (eyeData (K := K) l)) is js = if is = js then 1 else 0 := by
  let Q := l.sectors.toFinset
  have hQ : ∀ c ∈ l.sectors, c ∈ Q := fun c h => List.mem_toFinset.2 h
  obtain ⟨h1, h2⟩ := C61_eye (K := K) h.coupled
  have hB : B T Q l l (eyeData (K := K) l) = 1 := by
    unfold B
    rw [← Matrix.blockDiagonal'_one]
    congr 1
    funext c
    rw [h2, Matrix.one_kronecker_one]
    rfl
  have hcard : Fintype.card (Ix (legDims T.dim s)) = Fintype.card (St T Q l) := by
    rw [Fintype.card_coe, List.toFinset_card_of_nodup (nodup_gridC _), length_gridC, ← hdim, Fintype.card_sigma]
    simp only [Fintype.card_prod, Fintype.card_fin]
    rw [Finset.sum_coe_sort Q fun c => Spec.mult l c * T.dim c, List.sum_toFinset _ h.coupled.nodup]
  have hm : Dn R T s s l (eyeData (K := K) l) = 1 := by
    rw [Dn_eq Q h h _ h1 hQ, hB, Matrix.one_mul]
    exact (Matrix.mul_eq_one_comm_of_card_eq (m := Ix (legDims T.dim s)) (n := St T Q l) K hcard).2 (V_unit Q hR hT h)
  rw [entry_Dn _ _ _ hi hj, hm, Matrix.one_apply]
  simp [Subtype.ext_iff]

end ring

section field
variable [Field K] [StarRing K] {R : FusionRule S} {T : FTensors S K} {s cod mid dom : Side S}
  {l lc lm ld : BLeg S}

/-- `from_dense_block` gives a consistent tensor; its blocks are the projections, unless they are discarded. -/
theorem fromDense_spec (hR : R.Lawful) (hc : SideOK R cod lc) (hd : SideOK R dom ld) (big : Mat K → Bool) (a : Blk K) :
    FSane lc ld (fromDenseBlock R T big lc ld cod dom a) ∧
    ∀ c, ∃ M : Mat K, M.rows = Spec.mult lc c ∧ M.cols = Spec.mult ld c ∧
      (∀ r t, r < Spec.mult lc c → t < Spec.mult ld c → M.val r t = proj R T cod dom c (entry a) r t) ∧
      (matrixOf lc ld (fromDenseBlock R T big lc ld cod dom a) c = matOf M _ _ ∨
        (big M = false ∧ matrixOf lc ld (fromDenseBlock R T big lc ld cod dom a) c = 0)) := by
  obtain ⟨i1, i2⟩ := common_spec hc.coupled hd.coupled
  set I := (Cyten.Tables.iterCommonSorted compare lc.sectors ld.sectors true true).getD [] with hI
  let blk : S → Mat K := fun c => denseBlock R T cod dom c (entry a) (Spec.mult lc c) (Spec.mult ld c)
  let F : ℕ × ℕ → Option ((ℕ × ℕ) × Mat K) := fun ij => lc.sectors[ij.1]?.bind fun c =>
      let M := denseBlock R T cod dom c (entry a) (lc.mults.getD ij.1 0) (ld.mults.getD ij.2 0)
      if big M then some ((ij.1, ij.2), M) else none
  have hcore : fromDenseCore R T big lc ld cod dom (entry a) = I.filterMap F := rfl
  have hF : ∀ i j c, lc.sectors[i]? = some c → ld.sectors[j]? = some c →
      F (i, j) = if big (blk c) = true then some ((i, j), blk c) else none := by
    intro i j c h1 h2
    have e1 := mult_eq hc.coupled h1
    have e2 := mult_eq hd.coupled h2
    simp only [F, h1, Option.bind_some, blk, e1, e2]
  have hmem : ∀ e, e ∈ I.filterMap F ↔ ∃ i j c, lc.sectors[i]? = some c ∧ ld.sectors[j]? = some c ∧
      big (blk c) = true ∧ e = ((i, j), blk c) := by
    intro e
    rw [List.mem_filterMap]
    constructor
    · rintro ⟨⟨i, j⟩, hij, he⟩
      obtain ⟨c, h1, h2⟩ := (i1 i j).1 hij
      rw [hF i j c h1 h2] at he
      by_cases hb : big (blk c) = true
      · rw [if_pos hb] at he
        exact ⟨i, j, c, h1, h2, hb, (Option.some.inj he).symm⟩
      · rw [if_neg hb] at he; cases he
    · rintro ⟨i, j, c, h1, h2, hb, rfl⟩
      exact ⟨(i, j), (i1 i j).2 ⟨c, h1, h2⟩, by rw [hF i j c h1 h2, if_pos hb]⟩
  have hdata : fromDenseBlock R T big lc ld cod dom a = mkData (I.filterMap F) false := rfl
  have hnd : ((I.filterMap F).map fun e => e.1.2).Nodup := by
    refine nodup_of_lt ?_
    rw [List.pairwise_map, List.pairwise_filterMap]
    refine i2.imp_of_mem fun {p q} hp hq hpq e he e' he' => ?_
    have key : ∀ p ∈ I, ∀ e ∈ F p, e.1 = p := by
      intro p hp e he
      obtain ⟨c, h1, h2⟩ := (i1 p.1 p.2).1 hp
      rw [show p = (p.1, p.2) from rfl, hF _ _ c h1 h2] at he
      by_cases hb : big (blk c) = true
      · rw [if_pos hb, Option.mem_some_iff] at he; rw [← he]
      · rw [if_neg hb] at he; cases he
    rw [key p hp e he, key q hq e' he']
    exact hpq.2
  have hperm := mkData_perm (I.filterMap F) false
  have hblk : ∀ c, (blk c).rows = Spec.mult lc c ∧ (blk c).cols = Spec.mult ld c := fun c =>
    (foldl_set (T := T) (cod := cod) (dom := dom) c (entry a) 0 0
      ((blk c).val 0 0) ([] : List (Placed S × Placed S)) (blk c) (by simp)).2 |> fun _ => by
      have : ∀ (vs : List (Placed S × Placed S)) (M : Mat K), (vs.foldl (setTreeBlock T cod dom c (entry a)) M).rows = M.rows ∧
          (vs.foldl (setTreeBlock T cod dom c (entry a)) M).cols = M.cols := by
        intro vs
        induction vs with
        | nil => intro M; exact ⟨rfl, rfl⟩
        | cons v vs ih => intro M; exact ih _
      exact this _ _
  have hsane : FSane lc ld (fromDenseBlock R T big lc ld cod dom a) := by
    rw [hdata]
    refine ⟨?_, ?_, mkData_sorted _ hnd⟩
    · intro e he
      obtain ⟨i, j, c, h1, h2, _, rfl⟩ := (hmem e).1 (hperm.mem_iff.1 he)
      exact ⟨c, h1, h2⟩
    · intro e he
      obtain ⟨i, j, c, h1, h2, _, rfl⟩ := (hmem e).1 (hperm.mem_iff.1 he)
      exact ⟨(hblk c).1.trans (mult_eq hc.coupled h1), (hblk c).2.trans (mult_eq hd.coupled h2)⟩
  refine ⟨hsane, fun c => ⟨blk c, (hblk c).1, (hblk c).2,
    fun r t hr ht => (denseBlock_val hR hc hd c (entry a) _ _ r t hr ht).1, ?_⟩⟩
  by_cases h1 : c ∈ lc.sectors
  · by_cases h2 : c ∈ ld.sectors
    · obtain ⟨i, hi⟩ := List.getElem?_of_mem h1
      obtain ⟨j, hj⟩ := List.getElem?_of_mem h2
      by_cases hb : big (blk c) = true
      · left
        have : ((i, j), blk c) ∈ fromDenseBlock R T big lc ld cod dom a := by
          rw [hdata]
          exact hperm.mem_iff.2 ((hmem _).2 ⟨i, j, c, hi, hj, hb, rfl⟩)
        exact matrixOf_mem hsane hc.coupled hd.coupled this hi
      · right
        refine ⟨by simpa using hb, matrixOf_none fun e he => ?_⟩
        rw [hdata] at he
        obtain ⟨i', j', c', h1', h2', hb', rfl⟩ := (hmem e).1 (hperm.mem_iff.1 he)
        intro hcc
        rw [h1'] at hcc
        exact hb (Option.some.inj hcc ▸ hb')
    · left
      have h0 := mult_zero hd.coupled h2
      ext m n
      exact absurd n.2 (by omega)
  · left
    have h0 := mult_zero hc.coupled h1
    ext m n
    exact absurd m.2 (by omega)

theorem proj_eq (Q : Finset S) (c : Q) (a : Blk K) (r : Fin (Spec.mult lc c.1)) (t : Fin (Spec.mult ld c.1)) :
    proj R T cod dom c.1 (entry a) r t =
      (∑ g : Fin (T.dim c.1), (V R T Q cod lc * EM (legDims T.dim cod) (legDims T.dim dom) a *
        (V R T Q dom ld)ᴴ) ⟨c, r, g⟩ ⟨c, t, g⟩) / (T.dim c.1 : K) := by
  unfold proj
  rw [sum_range_fin]
  congr 1
  refine Finset.sum_congr rfl fun g _ => ?_
  rw [Matrix.mul_apply, sum_ix]
  simp only [Matrix.mul_apply, Finset.sum_mul]
  rw [Finset.sum_comm]
  refine Finset.sum_congr rfl fun is _ => ?_
  rw [sum_ix]
  rfl

/-- **C63** (round trip). `from_dense_block(to_dense_block(D))` is `D` again: a consistent tensor with the same block
for every coupled sector, where blocks that are too small are discarded. -/
theorem C63_round_trip (hR : R.Lawful) (hT : Spec.Lawful R T) (hdim : ∀ c, (T.dim c : K) ≠ 0)
    (hc : SideOK R cod lc) (hd : SideOK R dom ld) (big : Mat K → Bool) (D : FEnts K) (hD : FSane lc ld D) :
    let D' := fromDenseBlock R T big lc ld cod dom (toDenseBlock R T lc.sectors cod dom D)
    FSane lc ld D' ∧ ∀ c, matrixOf lc ld D' c = matrixOf lc ld D c ∨
      (matrixOf lc ld D' c = 0 ∧ ∃ M : Mat K, big M = false ∧ M.rows = Spec.mult lc c ∧ M.cols = Spec.mult ld c ∧
        matOf M (Spec.mult lc c) (Spec.mult ld c) = matrixOf lc ld D c) := by
  intro D'
  obtain ⟨h1, h2⟩ := fromDense_spec (T := T) hR hc hd big (toDenseBlock R T lc.sectors cod dom D)
  refine ⟨h1, fun c => ?_⟩
  obtain ⟨M, m1, m2, m3, m4⟩ := h2 c
  have hM : matOf M (Spec.mult lc c) (Spec.mult ld c) = matrixOf lc ld D c := by
    let Q := insert c lc.sectors.toFinset
    have hQ : ∀ c ∈ lc.sectors, c ∈ Q := fun c h => Finset.mem_insert_of_mem (List.mem_toFinset.2 h)
    ext r t
    have hP := proj_eq (R := R) (T := T) (cod := cod) (dom := dom) (lc := lc) (ld := ld) Q
      ⟨c, Finset.mem_insert_self _ _⟩ (toDenseBlock R T lc.sectors cod dom D) r t
    have hV : V R T Q cod lc * EM (legDims T.dim cod) (legDims T.dim dom) (toDenseBlock R T lc.sectors cod dom D) *
        (V R T Q dom ld)ᴴ = B T Q lc ld D := by
      rw [EM_Dn, Dn_eq Q hc hd _ hD hQ, ← Matrix.mul_assoc, V_unit Q hR hT hc, Matrix.one_mul, Matrix.mul_assoc,
        V_unit Q hR hT hd, Matrix.mul_one]
    rw [hV] at hP
    show M.val r t = _
    rw [m3 r t r.2 t.2]
    refine hP.trans ?_
    have : ∀ g : Fin (T.dim c), B T Q lc ld D ⟨⟨c, Finset.mem_insert_self _ _⟩, r, g⟩
        ⟨⟨c, Finset.mem_insert_self _ _⟩, t, g⟩ = matrixOf lc ld D c r t := by
      intro g
      rw [B, Matrix.blockDiagonal'_apply_eq, Matrix.kronecker_apply, Matrix.one_apply_eq, mul_one]
    rw [Finset.sum_congr rfl fun g _ => this g, Finset.sum_const, Finset.card_univ, Fintype.card_fin, nsmul_eq_mul,
      mul_div_cancel_left₀ _ (hdim c)]
  rcases m4 with m4 | ⟨m4, m5⟩
  · left; rw [← hM]; exact m4
  · right; exact ⟨m5, M, m4, m1, m2, hM⟩

/-- The inner product with a symmetric tensor, in terms of the projections. -/
theorem inner_proj (hc : SideOK R cod lc) (hd : SideOK R dom ld) (hdim : ∀ c, (T.dim c : K) ≠ 0) (D : FEnts K)
    (hD : FSane lc ld D) (a : Blk K) :
    denseInner (legDims T.dim cod) (legDims T.dim dom) (toDenseBlock R T lc.sectors cod dom D) a =
      ∑ c : lc.sectors.toFinset, ∑ t : Fin (Spec.mult ld c.1), ∑ r : Fin (Spec.mult lc c.1),
        star (matrixOf lc ld D c.1 r t) * ((T.dim c.1 : K) * proj R T cod dom c.1 (entry a) r t) := by
  let Q := lc.sectors.toFinset
  have hQ : ∀ c ∈ lc.sectors, c ∈ Q := fun c h => List.mem_toFinset.2 h
  rw [denseInner_trace, EM_Dn, Dn_eq Q hc hd _ hD hQ, Matrix.conjTranspose_mul, Matrix.conjTranspose_mul,
    Matrix.conjTranspose_conjTranspose]
  have e1 : ((V R T Q dom ld)ᴴ * (B T Q lc ld D)ᴴ * V R T Q cod lc * EM (legDims T.dim cod) (legDims T.dim dom) a).trace =
      ((B T Q lc ld D)ᴴ * (V R T Q cod lc * EM (legDims T.dim cod) (legDims T.dim dom) a * (V R T Q dom ld)ᴴ)).trace := by
    rw [Matrix.mul_assoc, Matrix.mul_assoc, Matrix.trace_mul_comm, Matrix.mul_assoc]
  rw [e1, B_dag, Matrix.trace, Fintype.sum_sigma]
  refine Finset.sum_congr rfl fun c _ => ?_
  rw [Fintype.sum_prod_type]
  refine Finset.sum_congr rfl fun t _ => ?_
  simp only [Matrix.diag_apply]
  have e2 : ∀ g : Fin (T.dim c.1), _ := fun g => bd_mul (T := T) Q (fun c => (matrixOf lc ld D c.1)ᴴ)
    (V R T Q cod lc * EM (legDims T.dim cod) (legDims T.dim dom) a * (V R T Q dom ld)ᴴ) c t g ⟨c, t, g⟩
  rw [Finset.sum_congr rfl fun g _ => e2 g, Finset.sum_comm]
  refine Finset.sum_congr rfl fun r _ => ?_
  rw [proj_eq Q c a r t, mul_div_cancel₀ _ (hdim c.1), Finset.mul_sum]
  rfl

/-- **C63** (projection). `from_dense_block` is an orthogonal projection onto the symmetric tensors: what it removes
from `a` is orthogonal to the dense block of every tensor with these legs. -/
theorem C63_projection (hR : R.Lawful) (hT : Spec.Lawful R T) (hdim : ∀ c, (T.dim c : K) ≠ 0)
    (hc : SideOK R cod lc) (hd : SideOK R dom ld) (big : Mat K → Bool) (hb : ExactBig big) (a : Blk K)
    (D : FEnts K) (hD : FSane lc ld D) :
    denseInner (legDims T.dim cod) (legDims T.dim dom) (toDenseBlock R T lc.sectors cod dom D) a =
      denseInner (legDims T.dim cod) (legDims T.dim dom) (toDenseBlock R T lc.sectors cod dom D)
        (toDenseBlock R T lc.sectors cod dom (fromDenseBlock R T big lc ld cod dom a)) := by
  obtain ⟨h1, h2⟩ := fromDense_spec (T := T) hR hc hd big a
  rw [← C63_inner hR hT hc hd D _ hD h1, (C61_inner hc.coupled hd.coupled (fun c => (T.dim c : K)) D _ hD).1 h1,
    inner_proj hc hd hdim D hD a, sum_Q lc.sectors.toFinset hc.coupled (fun c h => List.mem_toFinset.2 h)]
  · refine Finset.sum_congr rfl fun c _ => ?_
    rw [Matrix.trace, Finset.mul_sum]
    refine Finset.sum_congr rfl fun t _ => ?_
    rw [Matrix.diag_apply, Matrix.mul_apply, Finset.mul_sum]
    refine Finset.sum_congr rfl fun r _ => ?_
    obtain ⟨M, m1, m2, m3, m4⟩ := h2 c.1
    have e : matrixOf lc ld (fromDenseBlock R T big lc ld cod dom a) c.1 r t = proj R T cod dom c.1 (entry a) r t := by
      rcases m4 with m4 | ⟨m4, m5⟩
      · rw [m4, ← m3 r t r.2 t.2]; rfl
      · rw [m5, ← m3 r t r.2 t.2, hb M m4 r t (by rw [m1]; exact r.2) (by rw [m2]; exact t.2)]; rfl
    rw [Matrix.conjTranspose_apply, e]
    ring
  · intro c hcc
    have : (matrixOf lc ld D c)ᴴ * matrixOf lc ld (fromDenseBlock R T big lc ld cod dom a) c = 0 := by
      ext i j
      rw [Matrix.mul_apply]
      refine Finset.sum_eq_zero fun r _ => ?_
      exact absurd r.2 (by have := mult_zero hc.coupled hcc; omega)
    rw [this, Matrix.trace_zero, mul_zero]

end field

section tolerance
variable {R : FusionRule S} {T : FTensors S ℂ} {cod dom : Side S} {lc ld : BLeg S}

theorem normSq_star (z : ℂ) : ((Complex.normSq z : ℝ) : ℂ) = star z * z := by
  rw [Complex.normSq_eq_conj_mul_self]; rfl

theorem ofReal_lsum {A : Type} (l : List A) (f : A → ℝ) :
    (((l.map f).sum : ℝ) : ℂ) = (l.map fun x => ((f x : ℝ) : ℂ)).sum := by
  induction l with
  | nil => simp
  | cons x l ih => simp [ih]

theorem denseNormSq_inner (nc nd : List ℕ) (a : Blk ℂ) : ((denseNormSq nc nd a : ℝ) : ℂ) = denseInner nc nd a a := by
  unfold denseNormSq denseInner
  rw [ofReal_lsum]
  refine sum_congr _ fun is _ => ?_
  rw [ofReal_lsum]
  exact sum_congr _ fun js _ => normSq_star _

theorem lsum_lin {A : Type} (l : List A) (f g h k : A → ℂ) :
    (l.map fun x => f x - g x - h x + k x).sum = (l.map f).sum - (l.map g).sum - (l.map h).sum + (l.map k).sum := by
  induction l with
  | nil => simp
  | cons x l ih => simp only [List.map_cons, List.sum_cons, ih]; ring

theorem denseDistSq_inner (nc nd : List ℕ) (a b : Blk ℂ) : ((denseDistSq nc nd a b : ℝ) : ℂ) =
    denseInner nc nd a a - denseInner nc nd b a - denseInner nc nd a b + denseInner nc nd b b := by
  unfold denseDistSq denseInner
  rw [ofReal_lsum]
  have e : ∀ is ∈ gridC nc, ((((gridC nd).map fun js => Complex.normSq (entry a is js - entry b is js)).sum : ℝ) : ℂ) =
      ((gridC nd).map fun js => star (entry a is js) * entry a is js).sum -
      ((gridC nd).map fun js => star (entry b is js) * entry a is js).sum -
      ((gridC nd).map fun js => star (entry a is js) * entry b is js).sum +
      ((gridC nd).map fun js => star (entry b is js) * entry b is js).sum := by
    intro is _
    rw [ofReal_lsum, ← lsum_lin]
    refine sum_congr _ fun js _ => ?_
    rw [normSq_star, star_sub]
    ring
  rw [sum_congr _ e, lsum_lin]

theorem denseInner_star (nc nd : List ℕ) (a b : Blk ℂ) : star (denseInner nc nd a b) = denseInner nc nd b a := by
  unfold denseInner
  rw [star_lsum]
  refine sum_congr _ fun is _ => ?_
  rw [star_lsum]
  refine sum_congr _ fun js _ => ?_
  rw [star_mul', star_star, mul_comm]

theorem blockNormSq_inner (M : Mat ℂ) : ((blockNormSq M : ℝ) : ℂ) = M.inner M true := by
  unfold blockNormSq Mat.inner
  rw [if_pos rfl, ofReal_lsum]
  refine sum_congr _ fun m _ => ?_
  rw [ofReal_lsum]
  exact sum_congr _ fun n _ => normSq_star _

theorem normSqProjected_normSq (D : FEnts ℂ) (hD : FSane lc ld D) :
    ((normSqProjected T lc.sectors D : ℝ) : ℂ) = normSq (lc.sectors.map fun c => (T.dim c : ℂ)) D := by
  unfold normSqProjected normSq
  rw [ofReal_lsum]
  refine sum_congr _ fun e he => ?_
  obtain ⟨c, h1, -⟩ := hD.coupled e he
  have h2 : (lc.sectors.map fun c => (T.dim c : ℂ)).getD e.1.1 0 = (T.dim c : ℂ) := by
    rw [List.getD_eq_getElem?_getD, List.getElem?_map, h1]; rfl
  rw [h2]
  simp only [h1]
  rw [Complex.ofReal_mul, blockNormSq_inner, Complex.ofReal_natCast]

theorem shape_normSq (a : Blk ℂ) (nc nd : List ℕ) (hs : a.shape = nc ++ nd.reverse) :
    ((gridC a.shape).map fun idx => Complex.normSq (a.val idx)).sum = denseNormSq nc nd a := by
  rw [hs, sum_gridC_append]
  refine sum_congr _ fun is _ => ?_
  rw [sum_perm (gridC_reverse_perm nd) fun y => Complex.normSq (a.val (is ++ y)), List.map_map]
  rfl

/-- **C63** (tolerance). `from_dense_block(a, tol)` raises exactly if the distance of `a` from its symmetric part
exceeds `tol * norm(a)` (`tol = 0` switches the test off); otherwise it returns the symmetric part. -/
theorem C63_tolerance (hR : R.Lawful) (hT : Spec.Lawful R T) (hc : SideOK R cod lc) (hd : SideOK R dom ld)
    (big : Mat ℂ → Bool) (hb : ExactBig big) (tol : ℝ) (a : Blk ℂ)
    (hs : a.shape = legDims T.dim cod ++ (legDims T.dim dom).reverse) :
    let D := fromDenseBlock R T big lc ld cod dom a
    let nc := legDims T.dim cod
    let nd := legDims T.dim dom
    (fromDenseChecked R T big lc ld cod dom tol a = none ↔
      tol ≠ 0 ∧ tol * tol * denseNormSq nc nd a < denseDistSq nc nd a (toDenseBlock R T lc.sectors cod dom D)) ∧
    (fromDenseChecked R T big lc ld cod dom tol a = none ∨ fromDenseChecked R T big lc ld cod dom tol a = some D) := by
  intro D nc nd
  have hdim : ∀ c, (T.dim c : ℂ) ≠ 0 := fun c => Nat.cast_ne_zero.2 (hT.dim_pos c).ne'
  have hD : FSane lc ld D := (fromDense_spec (T := T) hR hc hd big a).1
  have hdist : denseDistSq nc nd a (toDenseBlock R T lc.sectors cod dom D) =
      denseNormSq nc nd a - normSqProjected T lc.sectors D := by
    have h1 := C63_projection hR hT hdim hc hd big hb a D hD
    have h2 := congrArg star h1
    rw [denseInner_star, denseInner_star] at h2
    apply Complex.ofReal_injective
    rw [Complex.ofReal_sub, normSqProjected_normSq D hD, C63_norm hR hT hc hd D hD, denseDistSq_inner,
      denseNormSq_inner]
    show _ - denseInner (legDims T.dim cod) (legDims T.dim dom) _ a - denseInner (legDims T.dim cod) (legDims T.dim dom) a _ + _ = _
    rw [h1, h2]
    ring
  unfold fromDenseChecked
  simp only
  rw [shape_normSq a nc nd hs, hdist]
  by_cases h : tol ≠ 0 ∧ tol * tol * denseNormSq nc nd a < denseNormSq nc nd a - normSqProjected T lc.sectors D
  · rw [if_pos h]
    exact ⟨⟨fun _ => h, fun _ => rfl⟩, Or.inl rfl⟩
  · rw [if_neg h]
    exact ⟨⟨fun hh => (by cases hh), fun hh => absurd hh h⟩, Or.inr rfl⟩

/-- **C63** (symmetric blocks). The dense block of a tensor is accepted with every tolerance. -/
theorem C63_symmetric_accepted (hR : R.Lawful) (hT : Spec.Lawful R T) (hc : SideOK R cod lc) (hd : SideOK R dom ld)
    (big : Mat ℂ → Bool) (hb : ExactBig big) (tol : ℝ) (D : FEnts ℂ) (hD : FSane lc ld D) :
    ∃ D', fromDenseChecked R T big lc ld cod dom tol (toDenseBlock R T lc.sectors cod dom D) = some D' ∧
      FSane lc ld D' ∧ ∀ c, matrixOf lc ld D' c = matrixOf lc ld D c := by
  have hdim : ∀ c, (T.dim c : ℂ) ≠ 0 := fun c => Nat.cast_ne_zero.2 (hT.dim_pos c).ne'
  set a := toDenseBlock R T lc.sectors cod dom D with ha
  obtain ⟨h1, h2⟩ := C63_round_trip hR hT hdim hc hd big D hD
  have h3 : ∀ c, matrixOf lc ld (fromDenseBlock R T big lc ld cod dom a) c = matrixOf lc ld D c := by
    intro c
    rcases h2 c with h | ⟨h, M, m1, m2, m3, m4⟩
    · exact h
    · rw [ha, h, ← m4]
      ext r t
      exact (hb M m1 r t (by rw [m2]; exact r.2) (by rw [m3]; exact t.2)).symm
  have h4 : Dn R T cod dom lc (fromDenseBlock R T big lc ld cod dom a) = Dn R T cod dom lc D := by
    have hQ : ∀ c ∈ lc.sectors, c ∈ lc.sectors.toFinset := fun c h => List.mem_toFinset.2 h
    rw [Dn_eq _ hc hd _ h1 hQ, Dn_eq _ hc hd _ hD hQ]
    unfold B
    simp only [← ha, h3]
  obtain ⟨t1, t2⟩ := C63_tolerance hR hT hc hd big hb tol a (by rw [ha]; rfl)
  refine ⟨fromDenseBlock R T big lc ld cod dom a, ?_, h1, h3⟩
  rcases t2 with t2 | t2
  · exfalso
    obtain ⟨-, h5⟩ := t1.1 t2
    have h6 : denseDistSq (legDims T.dim cod) (legDims T.dim dom) a (toDenseBlock R T lc.sectors cod dom
        (fromDenseBlock R T big lc ld cod dom a)) = 0 := by
      unfold denseDistSq
      refine sum_zero _ _ fun is hi => sum_zero _ _ fun js hj => ?_
      rw [entry_Dn _ _ _ hi hj, ha, entry_Dn _ _ _ hi hj, ← ha, h4, sub_self, map_zero]
    rw [h6] at h5
    have h7 : 0 ≤ denseNormSq (legDims T.dim cod) (legDims T.dim dom) a := by
      unfold denseNormSq
      refine List.sum_nonneg fun x hx => ?_
      obtain ⟨is, _, rfl⟩ := List.mem_map.1 hx
      refine List.sum_nonneg fun y hy => ?_
      obtain ⟨js, _, rfl⟩ := List.mem_map.1 hy
      exact Complex.normSq_nonneg _
    nlinarith [mul_self_nonneg tol]
  · exact t2

end tolerance

/-! ## Codomains and domains -/

/-- What the conversions read of a tensor product of the given factors. -/
def sideOf (sym : Sym S) (factors : List (Leg S)) : Side S :=
  ⟨TProd.flatSpaces sym factors, (Leg.leavesAll factors).map ESpace.isDual⟩

/-- The coupled sectors of a tensor product of the given factors. -/
def coupledOf (sym : Sym S) (R : FusionRule S) (unique : Bool) (factors : List (Leg S)) : BLeg S :=
  ⟨(TProd.make sym R unique factors).sectors, (TProd.make sym R unique factors).mults⟩

/-- **C63** (hypotheses). Every codomain or domain built by the constructor of `TensorProduct` from sane legs
satisfies the conditions, and its dimension is the product of the dimensions of the flat legs if
`dim a * dim b = sum_c N_ab^c dim c`. -/
theorem C63_sides (sym : Sym S) (hinv : ∀ s, sym.dual (sym.dual s) = s) (R : FusionRule S)
    (unique : Bool) (hR : FusionOK R unique) (factors : List (Leg S)) (h : SaneLeaves factors) :
    SideOK R (sideOf sym factors) (coupledOf sym R unique factors) ∧
    ∀ d : S → ℕ, d R.unit = 1 →
      (∀ a b, d a * d b = ((R.outcomes a b).map fun c => R.nSymbol a b c * d c).sum) →
      ((coupledOf sym R unique factors).sectors.map fun c => Spec.mult (coupledOf sym R unique factors) c * d c).sum =
        (legDims d (sideOf sym factors)).prod := by
  obtain ⟨s1, s2, s3, s4⟩ := C29_sectors sym hinv R unique hR factors h
  have hcoup : Coupled (coupledOf sym R unique factors) := ⟨s1, s2.symm⟩
  have hg : ∀ x ∈ TProd.flatSpaces sym factors, GoodSpace x := h.good hinv
  refine ⟨⟨hg, h.pos, by simp [sideOf, TProd.flatSpaces], hcoup, fun c => ?_⟩, fun d h1 hd => ?_⟩
  · rw [← multOf_mult hcoup]
    exact (C29_multiplicity sym hinv R unique hR factors h c).1
  · have := C29_dim (K := ℕ) sym hinv R unique hR d h1 (by simpa using hd) factors h
    simp only [Nat.cast_id] at this
    have e1 : ((coupledOf sym R unique factors).sectors.map fun c =>
        Spec.mult (coupledOf sym R unique factors) c * d c) =
        (((TProd.make sym R unique factors).sectors.zip (TProd.make sym R unique factors).mults).map
          fun p => p.2 * d p.1) := by
      refine List.ext_getElem (by simp [coupledOf, s2]) fun i hi hi' => ?_
      simp only [List.length_map] at hi
      have : (coupledOf sym R unique factors).sectors[i]? = some (coupledOf sym R unique factors).sectors[i] :=
        List.getElem?_eq_getElem hi
      have hl : i < (coupledOf sym R unique factors).mults.length := by rw [← hcoup.len]; exact hi
      simp only [List.getElem_map, List.getElem_zip]
      rw [mult_eq hcoup this, List.getD_eq_getElem _ _ hl]
      rfl
    rw [e1, this]
    unfold legDims sideOf TProd.flatSpaces
    rw [List.map_map]
    congr 1
    refine List.map_congr_left fun e _ => ?_
    show _ = (List.zipWith (fun s m => d s * m) (e.sectors sym) e.mults).sum
    rw [zipWith_zip]
    congr 1
    exact List.map_congr_left fun p _ => mul_comm _ _

/-! ## Concrete case: the five representations of the dihedral group with eight elements -/

namespace D4

/-- `0, ..., 3`: one-dimensional; `4`: two-dimensional -/
def rule : FusionRule (Fin 5) where
  unit := 0
  outcomes a b := if a = 4 then (if b = 4 then [0, 1, 2, 3] else [4])
    else if b = 4 then [4] else if a = b then [0] else if a = 0 then [b] else if b = 0 then [a]
    else [6 - a - b]
  rawN _ _ _ := 1
  isAbelian := false

def sym : Sym (Fin 5) := ⟨fun a => if a = 4 then 2 else 1, id, false, false⟩

/-- The matrices `1, Z, X, XZ` -/
def sigma (a : Fin 5) (i j : ℕ) : ZMod 7 :=
  (if i = (if a = 2 ∨ a = 3 then 1 - j else j) then 1 else 0) * (if (a = 1 ∨ a = 3) ∧ j = 1 then -1 else 1)

/-- Entries in a field where `5 ^ 2 * 2 = 1` -/
def tensors : FTensors (Fin 5) (ZMod 7) where
  dim := sym.dim
  dual := sym.dual
  X a b c _ _ _ i j k :=
    if a = 4 then (if b = 4 then 5 * sigma c i j else sigma b i k) else if b = 4 then sigma a j k else 1
  Z _ i j := if i = j then 1 else 0

local instance : Fact (Nat.Prime 7) := ⟨by decide⟩
local instance : StarRing (ZMod 7) := starRingOfComm

theorem rule_ok : FusionOK rule false :=
  ⟨⟨by decide, fun _ _ _ _ => Nat.one_pos, fun _ _ _ _ _ => rfl⟩, by simp, by simp [rule]⟩

theorem tensors_lawful : Spec.Lawful rule tensors := by
  refine ⟨rfl, by decide, ?_, ?_⟩
  · have hN : ∀ a b c, rule.nSymbol a b c ≤ 1 := by decide +kernel
    have hd : ∀ a, tensors.dim a ≤ 2 := by decide
    have key : ∀ a b c c' : Fin 5, 0 < rule.nSymbol a b c → 0 < rule.nSymbol a b c' → ∀ k k' : Fin 2,
        k.1 < tensors.dim c → k'.1 < tensors.dim c' →
        ((List.range (tensors.dim a)).map fun i => ((List.range (tensors.dim b)).map fun j =>
          (tensors.X a b c false false 0 i j k) * tensors.X a b c' false false 0 i j k').sum).sum =
          if c = c' ∧ k.1 = k'.1 then 1 else 0 := by decide +kernel
    intro a b c c' d e mu mu' k k' h1 h2 h3 h4
    have := key a b c c' (by omega) (by omega) ⟨k, by have := hd c; omega⟩ ⟨k', by have := hd c'; omega⟩ h3 h4
    have e1 := hN a b c
    have e2 := hN a b c'
    have hmu : mu = mu' := by omega
    refine Eq.trans ?_ (this.trans ?_)
    · rfl
    · simp [hmu]
  · have hd : ∀ a, tensors.dim a ≤ 2 := by decide
    have key : ∀ (a : Fin 5) (k k' : Fin 2), k.1 < tensors.dim a → k'.1 < tensors.dim a →
        ((List.range (tensors.dim a)).map fun i => tensors.Z a k i * tensors.Z a k' i).sum =
          if k.1 = k'.1 then 1 else 0 := by decide +kernel
    intro a k k' h3 h4
    exact key a ⟨k, by have := hd a; omega⟩ ⟨k', by have := hd a; omega⟩ h3 h4

/-- Two legs, one of them dual -/
def factors : List (Leg (Fin 5)) := [.space ⟨[0, 4], [1, 2], false, none⟩, .space ⟨[3, 4], [2, 1], true, none⟩]

theorem factors_sane : SaneLeaves factors := by
  intro e he
  simp [factors, Leg.leavesAll, Leg.leaves] at he
  rcases he with rfl | rfl <;> decide

/-- The codomain, see `factors` -/
abbrev side : Side (Fin 5) := sideOf sym factors

/-- The coupled sectors, see `factors` -/
abbrev leg : BLeg (Fin 5) := coupledOf sym rule false factors

theorem side_ok : SideOK rule side leg := (C63_sides sym (fun _ => rfl) rule false rule_ok factors factors_sane).1

theorem side_dim : (leg.sectors.map fun c => Spec.mult leg c * tensors.dim c).sum = (legDims tensors.dim side).prod :=
  (C63_sides sym (fun _ => rfl) rule false rule_ok factors factors_sane).2 tensors.dim rfl (by decide +kernel)

example : leg.sectors = [0, 1, 2, 3, 4] ∧ leg.mults = [2, 2, 2, 4, 5] := by decide +kernel

example : legDims tensors.dim side = [5, 4] := by decide +kernel

/-- A tensor on these legs with two blocks, it has 400 entries. -/
def ten : FEnts (ZMod 7) := [((1, 1), ⟨2, 2, fun r t => (r : ZMod 7) + 2 * t⟩), ((4, 4), ⟨5, 5, fun r t => if r = t then 3 else 0⟩)]

theorem ten_sane : FSane leg leg ten := by
  refine ⟨?_, ?_, by decide⟩
  · intro e he
    simp only [ten, List.mem_cons, List.not_mem_nil, or_false] at he
    rcases he with rfl | rfl
    · exact ⟨1, by decide +kernel⟩
    · exact ⟨4, by decide +kernel⟩
  · intro e he
    simp only [ten, List.mem_cons, List.not_mem_nil, or_false] at he
    rcases he with rfl | rfl <;> decide +kernel

example (is js : List ℕ) (hi : is ∈ gridC [5, 4]) (hj : js ∈ gridC [5, 4]) :
    entry (toDenseBlock rule tensors leg.sectors side side (compose ten (dagger ten))) is js =
      ((gridC [5, 4]).map fun ks => entry (toDenseBlock rule tensors leg.sectors side side ten) is ks *
        entry (toDenseBlock rule tensors leg.sectors side side (dagger ten)) ks js).sum :=
  C63_compose rule_ok.lawful tensors_lawful side_ok side_ok side_ok ten (dagger ten) ten_sane
    (C61_dagger side_ok.coupled side_ok.coupled ten ten_sane).1 is js hi hj

example (is js : List ℕ) (hi : is ∈ gridC [5, 4]) (hj : js ∈ gridC [5, 4]) :
    entry (toDenseBlock rule tensors leg.sectors side side (eyeData (K := ZMod 7) leg)) is js =
      if is = js then 1 else 0 :=
  C63_eye rule_ok.lawful tensors_lawful side_ok side_dim is js hi hj

example : FSane leg leg (fromDenseBlock rule tensors (fun _ => true) leg leg side side
    (toDenseBlock rule tensors leg.sectors side side ten)) ∧
    ∀ c, matrixOf leg leg (fromDenseBlock rule tensors (fun _ => true) leg leg side side
      (toDenseBlock rule tensors leg.sectors side side ten)) c = matrixOf leg leg ten c := by
  have h := C63_round_trip rule_ok.lawful tensors_lawful (by decide) side_ok side_ok (fun _ => true) ten ten_sane
  refine ⟨h.1, fun c => (h.2 c).resolve_right ?_⟩
  rintro ⟨-, M, hM, -⟩
  cases hM

/-- Some entries of the dense block -/
example : entry (toDenseBlock rule tensors leg.sectors side side ten) [1, 2] [1, 2] = 0 ∧
    entry (toDenseBlock rule tensors leg.sectors side side ten) [1, 1] [1, 1] = 3 ∧
    entry (toDenseBlock rule tensors leg.sectors side side ten) [2, 2] [1, 2] = 4 := by decide +kernel

end D4

/-! ## Concrete case for the tolerance: parity, complex entries -/

namespace Z2

def rule : FusionRule (Fin 2) := ⟨0, fun a b => [a + b], fun _ _ _ => 1, true⟩

def sym : Sym (Fin 2) := ⟨fun _ => 1, id, true, false⟩

/-- All fusion tensors are `1`. -/
def tensors : FTensors (Fin 2) ℂ := ⟨fun _ => 1, id, fun _ _ _ _ _ _ _ _ _ => 1, fun _ _ _ => 1⟩

theorem rule_ok : FusionOK rule true :=
  ⟨⟨by simp [rule], by simp [rule], by simp [rule]⟩, by simp [rule], fun _ a b => by simp [rule]⟩

theorem tensors_lawful : Spec.Lawful rule tensors := by
  refine ⟨rfl, by simp [tensors], ?_, ?_⟩
  · intro a b c c' d e mu mu' k k' h1 h2 h3 h4
    have hc : ∀ x y, mu < rule.nSymbol a b x → mu' < rule.nSymbol a b y → x = y ∧ mu = mu' := by
      intro x y hx hy
      have hN : ∀ a b x, rule.nSymbol a b x = if x = a + b then 1 else 0 := by decide
      rw [hN] at hx hy
      by_cases h : x = a + b
      · by_cases h' : y = a + b
        · rw [if_pos h] at hx
          rw [if_pos h'] at hy
          exact ⟨h.trans h'.symm, by omega⟩
        · rw [if_neg h'] at hy; omega
      · rw [if_neg h] at hx; omega
    obtain ⟨rfl, rfl⟩ := hc c c' h1 h2
    simp [tensors] at *
    simp [h3, h4]
  · intro a k k' h1 h2
    simp [tensors] at *
    simp [h1, h2]

def factors : List (Leg (Fin 2)) := [.space ⟨[0, 1], [1, 2], false, none⟩, .space ⟨[0, 1], [1, 1], true, none⟩]

theorem factors_sane : SaneLeaves factors := by
  intro e he
  simp [factors, Leg.leavesAll, Leg.leaves] at he
  rcases he with rfl | rfl <;> decide

theorem side_ok : SideOK rule (sideOf sym factors) (coupledOf sym rule true factors) :=
  (C63_sides sym (fun _ => rfl) rule true rule_ok factors factors_sane).1

open Classical in
/-- discards exactly the zero blocks -/
noncomputable def big (M : Mat ℂ) : Bool := decide (∃ m n, m < M.rows ∧ n < M.cols ∧ M.val m n ≠ 0)

theorem big_exact : ExactBig big := by
  intro M h m n hm hn
  by_contra h0
  unfold big at h
  rw [decide_eq_false_iff_not] at h
  exact h ⟨m, n, hm, hn, h0⟩

/-- The coupled sectors, see `factors` -/
abbrev leg : BLeg (Fin 2) := coupledOf sym rule true factors

example (D : FEnts ℂ) (hD : FSane leg leg D) :
    ∃ D', fromDenseChecked rule tensors big leg leg (sideOf sym factors) (sideOf sym factors) (1 / 1000000)
      (toDenseBlock rule tensors leg.sectors (sideOf sym factors) (sideOf sym factors) D) = some D' ∧
      FSane leg leg D' ∧ ∀ c, matrixOf leg leg D' c = matrixOf leg leg D c :=
  C63_symmetric_accepted rule_ok.lawful tensors_lawful side_ok side_ok big big_exact _ D hD

end Z2

end Cyten.FT
