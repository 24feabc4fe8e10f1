import Verif.Props.Couplings

/-!
# C65, second part: couplings of bosons, fermions and clocks
-/

namespace Cyten.Couplings

open Matrix Cyten.Sites
open scoped Kronecker

namespace Spec

/-- The operators of an occupation site with particle number `N`: creators are the adjoints of the
annihilators, each annihilator removes one particle, the Jordan-Wigner operator is hermitian and
conserves the particle number. -/
structure IsOcc (s : OccSite) (N : Arr s.dim) : Prop where
  conj : ∀ k < s.numSpecies, (s.annihilator k)ᴴ = s.creator k
  lowers : ∀ k < s.numSpecies, s.annihilator k * N - N * s.annihilator k = s.annihilator k
  jwHerm : s.jwᴴ = s.jw
  jwComm : s.jw * N = N * s.jw
  numHerm : Nᴴ = N

/-- `sum over (k, k') of a_{i,k}^dagger a_{j,k'} + h.c.` -/
def hoppingOp (s s' : OccSite) (ks : List (ℕ × ℕ)) :
    Matrix (Fin s.dim × Fin s'.dim) (Fin s.dim × Fin s'.dim) ℂ :=
  (ks.map fun k => (modeI s s' k.1)ᴴ * modeJ s s' k.2
    + ((modeI s s' k.1)ᴴ * modeJ s s' k.2)ᴴ).sum

/-- `sum over (k, k') of a_{i,k}^dagger a_{j,k'}^dagger + h.c.` -/
def pairingOp (s s' : OccSite) (ks : List (ℕ × ℕ)) :
    Matrix (Fin s.dim × Fin s'.dim) (Fin s.dim × Fin s'.dim) ℂ :=
  (ks.map fun k => (modeI s s' k.1)ᴴ * (modeJ s s' k.2)ᴴ
    + ((modeI s s' k.1)ᴴ * (modeJ s s' k.2)ᴴ)ᴴ).sum

end Spec

open Spec

lemma annihilator_lowers (Nmax : ℕ → ℕ) (n k : ℕ) (hk : k < n) :
    annihilator Nmax n k * nTot Nmax n - nTot Nmax n * annihilator Nmax n k = annihilator Nmax n k := by
  rw [nTot_eq]
  ext i j
  rw [Matrix.sub_apply, mul_diagonal, diagonal_mul, annihilator_apply Nmax n k hk]
  by_cases h : (∀ l < n, l ≠ k → occ Nmax n i.val l = occ Nmax n j.val l) ∧
      occ Nmax n i.val k + 1 = occ Nmax n j.val k
  · rw [if_pos h]
    have : ∑ l ∈ Finset.range n, occ Nmax n j.val l = ∑ l ∈ Finset.range n, occ Nmax n i.val l + 1 := by
      have hm : k ∈ Finset.range n := Finset.mem_range.mpr hk
      rw [← Finset.add_sum_erase _ _ hm, ← Finset.add_sum_erase _ _ hm, ← h.2]
      have : ∑ l ∈ (Finset.range n).erase k, occ Nmax n j.val l
          = ∑ l ∈ (Finset.range n).erase k, occ Nmax n i.val l := by
        refine Finset.sum_congr rfl fun l hl => ?_
        rw [Finset.mem_erase, Finset.mem_range] at hl
        exact (h.1 l hl.2 hl.1).symm
      rw [this]; ring
    rw [this]
    push_cast; ring
  · rw [if_neg h]; ring

/-- The bosonic and the fermionic sites satisfy the specification, with `Ntot` as particle
number. -/
theorem C65_sites_are_occ (Nmax : ℕ → ℕ) (n : ℕ) :
    IsOcc (bosonSite Nmax n) (nTot Nmax n) ∧ IsOcc (fermionSite n) (nTot (fun _ => 1) n) := by
  have hN : ∀ Nmax : ℕ → ℕ, (nTot Nmax n)ᴴ = nTot Nmax n := by
    intro Nmax
    rw [nTot_eq, diagonal_conjTranspose]
    congr 1; funext i; simp
  refine ⟨⟨fun k _ => annihilator_conj Nmax n k, fun k hk => annihilator_lowers Nmax n k hk,
    conjTranspose_one, ?_, hN Nmax⟩, ⟨fun k hk => fermionC_conj n k hk, fun k hk => ?_, ?_, ?_, hN _⟩⟩
  · exact (Matrix.one_mul _).trans (Matrix.mul_one _).symm
  · show fermionC n k * nTot (fun _ => 1) n - nTot (fun _ => 1) n * fermionC n k = fermionC n k
    have hd : partialJW (fun _ => 1) n k * nTot (fun _ => 1) n
        = nTot (fun _ => 1) n * partialJW (fun _ => 1) n k := by
      rw [nTot_eq, partialJW, diagonal_mul_diagonal, diagonal_mul_diagonal]
      congr 1; funext i; ring
    rw [fermionC, Matrix.mul_assoc, hd, ← Matrix.mul_assoc, ← Matrix.mul_assoc, ← Matrix.sub_mul,
      annihilator_lowers _ n k hk]
  · show (jordanWigner (fun _ => 1) n)ᴴ = jordanWigner (fun _ => 1) n
    rw [jordanWigner_eq, kronReduce_conjTranspose]
    simp only [parityZ_conj]
  · show jordanWigner (fun _ => 1) n * nTot (fun _ => 1) n = nTot (fun _ => 1) n * jordanWigner (fun _ => 1) n
    rw [jordanWigner, nTot_eq, diagonal_mul_diagonal, diagonal_mul_diagonal]
    congr 1; funext i; ring

/-! ## Hopping and pairing -/

lemma op2_quadraticStep (s : OccSite) (b : Bool) (h : Block2 s.dim s.dim) (k : ℕ × ℕ) :
    ∃ h', quadraticStep s s b h k = some h' ∧
      op2 h' = op2 h + (s.creator k.1 * s.jw) ⊗ₖ (if b then s.creator k.2 else s.annihilator k.2) := by
  refine ⟨_, dif_pos rfl, ?_⟩
  ext ⟨i, j⟩ ⟨i', j'⟩
  rfl

lemma op2_fold (s : OccSite) (b : Bool) (l : List (ℕ × ℕ)) (h : Block2 s.dim s.dim) :
    ∃ h', l.foldlM (quadraticStep s s b) h = some h' ∧
      op2 h' = op2 h + (l.map fun k =>
        (s.creator k.1 * s.jw) ⊗ₖ (if b then s.creator k.2 else s.annihilator k.2)).sum := by
  induction l generalizing h with
  | nil => exact ⟨h, rfl, by simp⟩
  | cons k l ih =>
    obtain ⟨h1, e1, o1⟩ := op2_quadraticStep s b h k
    obtain ⟨h2, e2, o2⟩ := ih h1
    refine ⟨h2, ?_, ?_⟩
    · rw [List.foldlM_cons, e1]; exact e2
    · rw [o2, o1, List.map_cons, List.sum_cons, add_assoc]

lemma sum_conj {m : Type} {α : Type} (l : List α) (f : α → Matrix m m ℂ) :
    ((l.map f).sum)ᴴ = (l.map fun k => (f k)ᴴ).sum := by
  induction l with
  | nil => simp
  | cons a l ih => rw [List.map_cons, List.sum_cons, conjTranspose_add, ih, List.map_cons, List.sum_cons]

lemma sum_add {m : Type} {α : Type} (l : List α) (f g : α → Matrix m m ℂ) :
    (l.map f).sum + (l.map g).sum = (l.map fun k => f k + g k).sum := by
  induction l with
  | nil => simp
  | cons a l ih =>
    rw [List.map_cons, List.sum_cons, List.map_cons, List.sum_cons, List.map_cons, List.sum_cons, ← ih]
    abel

lemma quadratic_op (s : OccSite) (b : Bool) (l l' : List ℕ) (hl : l.length ≤ l'.length) :
    ∃ h, quadratic s s b l l' = some h ∧
      op2 h = ((l.zip l').map fun k =>
        (s.creator k.1 * s.jw) ⊗ₖ (if b then s.creator k.2 else s.annihilator k.2)
        + ((s.creator k.1 * s.jw) ⊗ₖ (if b then s.creator k.2 else s.annihilator k.2))ᴴ).sum := by
  have hz : op2 (zeros s.dim s.dim s.dim s.dim) = 0 := by ext ⟨i, j⟩ ⟨i', j'⟩; rfl
  by_cases he : l = [] ∨ l' = []
  · refine ⟨_, if_pos he, ?_⟩
    have : l.zip l' = [] := by
      rcases he with h | h <;> simp [h]
    rw [this, hz]; rfl
  · obtain ⟨h, e, o⟩ := op2_fold s b (l.zip l') (zeros _ _ _ _)
    refine ⟨fun a b c d => h a b c d + blockDagger h a b c d, ?_, ?_⟩
    · rw [quadratic, if_neg he, if_neg (by omega), e]; rfl
    · have : op2 (fun a b c d => h a b c d + blockDagger h a b c d) = op2 h + op2 (blockDagger h) := rfl
      rw [this, op2_dagger, o, hz, zero_add, sum_conj, sum_add]

/-- C65 (hopping, pairing).  For two equivalent sites, all prefactors and all lists of species of
equal length, `hopping` is `-t sum a_i^dagger a_j + h.c.` and `pairing` is
`Delta sum a_i^dagger a_j^dagger + h.c.`, with the operators of the second site carrying the
Jordan-Wigner string of the first. -/
theorem C65_hopping_pairing_partial (s : OccSite) (N : Arr s.dim) (hs : IsOcc s N) (t : ℝ) (l l' : List ℕ)
    (hlen : l.length = l'.length) (hl : ∀ k ∈ l, k < s.numSpecies) (hl' : ∀ k ∈ l', k < s.numSpecies) :
    (∃ h, hopping s s t l l' = some h ∧ op2 h = (-t : ℂ) • hoppingOp s s (l.zip l')) ∧
    (∃ h, pairing s s t l l' = some h ∧ op2 h = (t : ℂ) • pairingOp s s (l.zip l')) := by
  have hz : ∀ k ∈ l.zip l', k.1 < s.numSpecies ∧ k.2 < s.numSpecies := by
    intro k hk
    obtain ⟨a, b⟩ := List.of_mem_zip (show (k.1, k.2) ∈ l.zip l' from hk)
    exact ⟨hl _ a, hl' _ b⟩
  constructor
  · obtain ⟨h, e, o⟩ := quadratic_op s false l l' hlen.le
    refine ⟨fun a b c d => ((-t : ℝ) : ℂ) * h a b c d, by rw [hopping, e]; rfl, ?_⟩
    have : op2 (fun a b c d => ((-t : ℝ) : ℂ) * h a b c d) = ((-t : ℝ) : ℂ) • op2 h := rfl
    rw [this, o, hoppingOp]
    push_cast
    congr 2
    refine List.map_congr_left fun k hk => ?_
    have e1 : (modeI s s k.1)ᴴ * modeJ s s k.2 = (s.creator k.1 * s.jw) ⊗ₖ s.annihilator k.2 := by
      rw [modeI, modeJ, conjTranspose_kronecker, conjTranspose_one, ← mul_kronecker_mul,
        Matrix.one_mul, hs.conj _ (hz k hk).1]
    simp only [e1, Bool.false_eq_true, if_false]
  · obtain ⟨h, e, o⟩ := quadratic_op s true l l' hlen.le
    refine ⟨fun a b c d => (t : ℂ) * h a b c d, by rw [pairing, e]; rfl, ?_⟩
    have : op2 (fun a b c d => (t : ℂ) * h a b c d) = (t : ℂ) • op2 h := rfl
    rw [this, o, pairingOp]
    congr 2
    refine List.map_congr_left fun k hk => ?_
    have e1 : (modeI s s k.1)ᴴ * (modeJ s s k.2)ᴴ = (s.creator k.1 * s.jw) ⊗ₖ s.creator k.2 := by
      rw [modeI, modeJ, conjTranspose_kronecker, conjTranspose_kronecker, conjTranspose_one,
        ← mul_kronecker_mul, Matrix.one_mul, hs.conj _ (hz k hk).1, hs.conj _ (hz k hk).2, hs.jwHerm]
    rw [e1]; rfl

lemma car_two {d d' : ℕ} (c P : Arr d) (c' : Arr d') (hP : Pᴴ = P) (hPP : P * P = 1)
    (hPc : P * c = -(c * P)) (hc : c * cᴴ + cᴴ * c = 1) (hc' : c' * c'ᴴ + c'ᴴ * c' = 1) :
    let A := c ⊗ₖ (1 : Arr d')
    let B := P ⊗ₖ c'
    A * B + B * A = 0 ∧ Aᴴ * B + B * Aᴴ = 0 ∧ A * Aᴴ + Aᴴ * A = 1 ∧ B * Bᴴ + Bᴴ * B = 1 := by
  have hPc' : P * cᴴ = -(cᴴ * P) := by
    have := congrArg conjTranspose hPc
    rw [conjTranspose_neg, conjTranspose_mul, conjTranspose_mul, hP] at this
    rw [this, neg_neg]
  simp only [conjTranspose_kronecker, conjTranspose_one, hP]
  refine ⟨?_, ?_, ?_, ?_⟩
  · rw [← mul_kronecker_mul, ← mul_kronecker_mul, Matrix.one_mul, Matrix.mul_one, hPc, kron_neg_l]
    exact add_neg_cancel _
  · rw [← mul_kronecker_mul, ← mul_kronecker_mul, Matrix.one_mul, Matrix.mul_one, hPc', kron_neg_l]
    exact add_neg_cancel _
  · rw [← mul_kronecker_mul, ← mul_kronecker_mul, ← add_kronecker, hc, Matrix.one_mul]
    exact one_kronecker_one
  · rw [← mul_kronecker_mul, ← mul_kronecker_mul, ← kronecker_add, hc', hPP]
    exact one_kronecker_one

lemma boson_two {d d' : ℕ} (c : Arr d) (c' : Arr d') :
    let A := c ⊗ₖ (1 : Arr d')
    let B := (1 : Arr d) ⊗ₖ c'
    A * B = B * A ∧ Aᴴ * B = B * Aᴴ := by
  simp only [conjTranspose_kronecker, conjTranspose_one]
  constructor
  · rw [← mul_kronecker_mul, ← mul_kronecker_mul]; simp
  · rw [← mul_kronecker_mul, ← mul_kronecker_mul]; simp

/-- C65 (modes).  The operators of both sites that appear in `hopping` and `pairing` are proper
modes: for fermions they satisfy the canonical anticommutation relations across the sites, for
bosons they commute. -/
theorem C65_two_site_modes (Nmax Nmax' : ℕ → ℕ) (n n' k l : ℕ) (hk : k < n) (hl : l < n') :
    (let A := modeI (fermionSite n) (fermionSite n') k
     let B := modeJ (fermionSite n) (fermionSite n') l
     A * B + B * A = 0 ∧ Aᴴ * B + B * Aᴴ = 0 ∧ A * Aᴴ + Aᴴ * A = 1 ∧ B * Bᴴ + Bᴴ * B = 1) ∧
    (let A := modeI (bosonSite Nmax n) (bosonSite Nmax' n') k
     let B := modeJ (bosonSite Nmax n) (bosonSite Nmax' n') l
     A * B = B * A ∧ Aᴴ * B = B * Aᴴ) := by
  constructor
  · have f := C64_fermion_algebra n k k hk hk
    have g := C64_fermion_algebra n' l l hl hl
    have hP : (jordanWigner (fun _ => 1) n)ᴴ = jordanWigner (fun _ => 1) n :=
      (C65_sites_are_occ (fun _ => 1) n).2.jwHerm
    have f3 := f.2.2.1
    have g3 := g.2.2.1
    rw [if_pos rfl, ← f.2.2.2.1] at f3
    rw [if_pos rfl, ← g.2.2.2.1] at g3
    exact car_two (fermionC n k) (jordanWigner (fun _ => 1) n) (fermionC n' l) hP f.2.2.2.2.1
      f.2.2.2.2.2.1 f3 g3
  · exact boson_two (annihilator Nmax n k) (annihilator Nmax' n' l)

/-- C65 (hopping).  The documented hopping operator conserves the total particle number, also
between inequivalent sites. -/
theorem C65_hopping_conserves (s s' : OccSite) (N : Arr s.dim) (N' : Arr s'.dim) (hs : IsOcc s N)
    (hs' : IsOcc s' N') (ks : List (ℕ × ℕ))
    (hk : ∀ k ∈ ks, k.1 < s.numSpecies ∧ k.2 < s'.numSpecies) :
    Commute (hoppingOp s s' ks) (N ⊗ₖ 1 + 1 ⊗ₖ N') := by
  have hT : (N ⊗ₖ (1 : Arr s'.dim) + (1 : Arr s.dim) ⊗ₖ N')ᴴ = N ⊗ₖ 1 + 1 ⊗ₖ N' := by
    rw [conjTranspose_add, conjTranspose_kronecker, conjTranspose_kronecker, hs.numHerm, hs'.numHerm,
      conjTranspose_one, conjTranspose_one]
  rw [hoppingOp]
  refine Commute.list_sum_left _ _ fun M hM => ?_
  obtain ⟨k, hkm, rfl⟩ := List.mem_map.mp hM
  have h1 : Commute ((modeI s s' k.1)ᴴ * modeJ s s' k.2) (N ⊗ₖ 1 + 1 ⊗ₖ N') := by
    have e1 : (modeI s s' k.1)ᴴ * modeJ s s' k.2
        = ((s.annihilator k.1)ᴴ * s.jw) ⊗ₖ s'.annihilator k.2 := by
      rw [modeI, modeJ, conjTranspose_kronecker, conjTranspose_one, ← mul_kronecker_mul,
        Matrix.one_mul]
    rw [commute_iff_eq, ← sub_eq_zero, e1]
    show br _ _ = 0
    rw [br_kron]
    have a1 : br ((s.annihilator k.1)ᴴ * s.jw) N = -((s.annihilator k.1)ᴴ * s.jw) := by
      have h := congrArg conjTranspose (hs.lowers k.1 (hk k hkm).1)
      rw [conjTranspose_sub, conjTranspose_mul, conjTranspose_mul, hs.numHerm] at h
      rw [br, Matrix.mul_assoc, hs.jwComm, ← Matrix.mul_assoc, ← Matrix.mul_assoc, ← Matrix.sub_mul,
        ← neg_sub, h, Matrix.neg_mul]
    have a2 : br (s'.annihilator k.2) N' = s'.annihilator k.2 := hs'.lowers k.2 (hk k hkm).2
    rw [a1, a2, kron_neg_l]
    exact neg_add_cancel _
  refine h1.add_left ?_
  generalize (modeI s s' k.1)ᴴ * modeJ s s' k.2 = M at h1
  have := congrArg conjTranspose h1.eq
  rw [conjTranspose_mul, conjTranspose_mul, hT] at this
  exact this.symm

/-- The cutoffs `(1, 3)`: eight states. -/
def cut13 : ℕ → ℕ := fun k => if k = 0 then 1 else 3

/-- The cutoffs `(3, 1)`: eight states. -/
def cut31 : ℕ → ℕ := fun k => if k = 0 then 3 else 1

/-- C65 is false of the code for inequivalent sites: the operator of the second site is taken from
the first.  If the dimensions of the sites differ, the call raises, although the documented operator
exists; if they agree, as for two bosonic sites with cutoffs `(1, 3)` and `(3, 1)`, the result is a
different operator, which does not conserve the particle number. -/
theorem C65_hopping_bug :
    (∀ (s s' : OccSite) (t : ℝ) (k k' : ℕ), s.dim ≠ s'.dim → hopping s s' t [k] [k'] = none) ∧
    (∃ h, hopping (bosonSite cut13 2) (bosonSite cut31 2) 1 [0] [0] = some h ∧
      op2 h ≠ (-1 : ℂ) • hoppingOp (bosonSite cut13 2) (bosonSite cut31 2) [(0, 0)] ∧
      ¬ Commute (op2 h) ((nTot cut13 2 : Arr (bosonSite cut13 2).dim) ⊗ₖ 1
        + 1 ⊗ₖ (nTot cut31 2 : Arr (bosonSite cut31 2).dim))) := by
  constructor
  · intro s s' t k k' hd
    have : quadraticStep s s' false (zeros _ _ _ _) (k, k') = none := dif_neg hd
    rw [hopping, quadratic, if_neg (by simp), if_neg (by simp), List.zip_cons_cons, List.zip_nil_left,
      List.foldlM_cons, this]
    rfl
  · have e : (bosonSite cut13 2).dim = (bosonSite cut31 2).dim := by
      show siteDim cut13 2 = siteDim cut31 2
      decide
    let h0 : Block2 (bosonSite cut13 2).dim (bosonSite cut31 2).dim := fun a b c d =>
      0 + (creator cut13 2 0 * (1 : Arr (siteDim cut13 2))) a d
        * annihilator cut13 2 0 (Fin.cast e.symm b) (Fin.cast e.symm c)
    have hs : hopping (bosonSite cut13 2) (bosonSite cut31 2) 1 [0] [0]
        = some fun a b c d => ((-1 : ℝ) : ℂ) * (h0 a b c d + blockDagger h0 a b c d) := by
      have : quadraticStep (bosonSite cut13 2) (bosonSite cut31 2) false (zeros _ _ _ _) (0, 0)
          = some h0 := dif_pos e
      rw [hopping, quadratic, if_neg (by simp), if_neg (by simp), List.zip_cons_cons, List.zip_nil_left,
        List.foldlM_cons, this]
      rfl
    refine ⟨_, hs, ?_⟩
    have hnc : ¬ Commute (op2 fun a b c d => ((-1 : ℝ) : ℂ) * (h0 a b c d + blockDagger h0 a b c d))
        ((nTot cut13 2 : Arr (bosonSite cut13 2).dim) ⊗ₖ 1
          + 1 ⊗ₖ (nTot cut31 2 : Arr (bosonSite cut31 2).dim)) := by
      let p : Fin (siteDim cut13 2) := ⟨4, by decide⟩
      let q : Fin (siteDim cut31 2) := ⟨4, by decide⟩
      let z : Fin (siteDim cut13 2) := ⟨0, by decide⟩
      let w : Fin (siteDim cut31 2) := ⟨0, by decide⟩
      intro hc
      have := congrFun (congrFun hc.eq (p, w)) (z, q)
      have d1 : (nTot cut13 2 : Arr (siteDim cut13 2)) ⊗ₖ (1 : Arr (siteDim cut31 2))
          + (1 : Arr (siteDim cut13 2)) ⊗ₖ (nTot cut31 2 : Arr (siteDim cut31 2))
          = diagonal fun x : Fin (siteDim cut13 2) × Fin (siteDim cut31 2) =>
            ((∑ k ∈ Finset.range 2, occ cut13 2 x.1.val k : ℕ) : ℂ)
              + ((∑ k ∈ Finset.range 2, occ cut31 2 x.2.val k : ℕ) : ℂ) := by
        rw [nTot_eq, nTot_eq, ← diagonal_one, ← diagonal_one, diagonal_kronecker_diagonal,
          diagonal_kronecker_diagonal, diagonal_add]
        simp
      have d2 := congrArg (fun M => (op2 (d0 := siteDim cut13 2) (d1 := siteDim cut31 2)
        (fun a b c d => ((-1 : ℝ) : ℂ) * (h0 a b c d + blockDagger h0 a b c d)) * M) (p, w) (z, q)) d1
      have d3 := congrArg (fun M => (M * op2 (d0 := siteDim cut13 2) (d1 := siteDim cut31 2)
        (fun a b c d => ((-1 : ℝ) : ℂ) * (h0 a b c d + blockDagger h0 a b c d))) (p, w) (z, q)) d1
      have d4 := (d2.symm.trans this).trans d3
      simp only [mul_diagonal, diagonal_mul] at d4
      have v1 : annihilator cut13 2 0 z p = 1 := by
        rw [annihilator_apply cut13 2 0 (by norm_num), if_pos (by decide)]
        have : occ cut13 2 p.val 0 = 1 := by decide
        rw [this]; simp
      have v2 : annihilator cut13 2 0 p z = 0 := by
        rw [annihilator_apply cut13 2 0 (by norm_num), if_neg (by decide)]
      have c1 : creator cut13 2 0 p z = 1 := by
        rw [← annihilator_conj, conjTranspose_apply, v1]; simp
      have c2 : creator cut13 2 0 z p = 0 := by
        rw [← annihilator_conj, conjTranspose_apply, v2]; simp
      have g1 : h0 p w q z = 1 := by
        show 0 + (creator cut13 2 0 * 1) p z * annihilator cut13 2 0 z p = 1
        rw [Matrix.mul_one, c1, v1]; ring
      have g2 : h0 z q w p = 0 := by
        show 0 + (creator cut13 2 0 * 1) z p * annihilator cut13 2 0 p z = 0
        rw [Matrix.mul_one, c2]; ring
      have g : op2 (d0 := siteDim cut13 2) (d1 := siteDim cut31 2)
          (fun a b c d => ((-1 : ℝ) : ℂ) * (h0 a b c d + blockDagger h0 a b c d)) (p, w) (z, q) = -1 := by
        show ((-1 : ℝ) : ℂ) * (h0 p w q z + star (h0 z q w p)) = -1
        rw [g1, g2]; simp
      rw [g] at d4
      have n1 : ∑ k ∈ Finset.range 2, occ cut13 2 z.val k = 0 := by decide
      have n2 : ∑ k ∈ Finset.range 2, occ cut31 2 q.val k = 2 := by decide
      have n3 : ∑ k ∈ Finset.range 2, occ cut13 2 p.val k = 1 := by decide
      have n4 : ∑ k ∈ Finset.range 2, occ cut31 2 w.val k = 0 := by decide
      rw [n1, n2, n3, n4] at d4
      norm_num at d4
    refine ⟨fun hE => hnc ?_, hnc⟩
    rw [hE]
    exact (C65_hopping_conserves _ _ _ _ (C65_sites_are_occ cut13 2).1 (C65_sites_are_occ cut31 2).1
      [(0, 0)] (by simp [bosonSite])).smul_left _

/-! ## One-site couplings and densities -/

lemma occupationOp_eq (Nmax : ℕ → ℕ) (n : ℕ) (l : List ℕ) (hl : ∀ k ∈ l, k < n) :
    occupationOp Nmax n l = diagonal fun i => (((l.map fun k => occ Nmax n i.val k).sum : ℕ) : ℂ) := by
  rw [occupationOp]
  induction l with
  | nil =>
    ext i j
    simp [diagonal_apply]
  | cons k l ih =>
    rw [List.map_cons, List.sum_cons, ih fun x hx => hl x (List.mem_cons_of_mem _ hx),
      numberOp_eq Nmax n k (hl k List.mem_cons_self), diagonal_add]
    congr 1; funext i
    simp

/-- C65 (densities).  On the states of given occupations, `chemical_potential` is
`-mu sum_k n_k`, `onsite_interaction` is `U/2 n^2` and `density_density_interaction` is `V n_i n_j`,
with the sums over the chosen species; all three are diagonal. -/
theorem C65_densities (Nmax Nmax' : ℕ → ℕ) (n n' : ℕ) (c : ℝ) (l l' : List ℕ) (hl : ∀ k ∈ l, k < n)
    (hl' : ∀ k ∈ l', k < n') (o o₂ p p₂ : ℕ → ℕ) (ho : ∀ k < n, o k ≤ Nmax k)
    (ho₂ : ∀ k < n, o₂ k ≤ Nmax k) (hp : ∀ k < n', p k ≤ Nmax' k) (hp₂ : ∀ k < n', p₂ k ≤ Nmax' k) :
    let x := Sites.Spec.state Nmax n o ho
    let x₂ := Sites.Spec.state Nmax n o₂ ho₂
    let y := Sites.Spec.state Nmax' n' p hp
    let y₂ := Sites.Spec.state Nmax' n' p₂ hp₂
    let N := (((l.map o).sum : ℕ) : ℂ)
    let N' := (((l'.map p).sum : ℕ) : ℂ)
    chemicalPotential Nmax n c l x x₂ = (if x = x₂ then -c * N else 0) ∧
    onsiteInteraction Nmax n c l x x₂ = (if x = x₂ then c / 2 * N ^ 2 else 0) ∧
    op2 (densityDensity Nmax n Nmax' n' c l l') (x, y) (x₂, y₂)
      = (if x = x₂ ∧ y = y₂ then c * N * N' else 0) := by
  intro x x₂ y y₂ N N'
  have hN : (((l.map fun k => occ Nmax n x.val k).sum : ℕ) : ℂ) = N := by
    have : (l.map fun k => occ Nmax n x.val k) = l.map o :=
      List.map_congr_left fun k hk => occ_labelIndex Nmax n o ho k (hl k hk)
    rw [this]
  have hN' : (((l'.map fun k => occ Nmax' n' y.val k).sum : ℕ) : ℂ) = N' := by
    have : (l'.map fun k => occ Nmax' n' y.val k) = l'.map p :=
      List.map_congr_left fun k hk => occ_labelIndex Nmax' n' p hp k (hl' k hk)
    rw [this]
  refine ⟨?_, ?_, ?_⟩
  · rw [chemicalPotential, occupationOp_eq Nmax n l hl, Matrix.smul_apply, diagonal_apply, hN]
    by_cases h : x = x₂
    · rw [if_pos h, if_pos h]; push_cast; rfl
    · rw [if_neg h, if_neg h]; simp
  · rw [onsiteInteraction, occupationOp_eq Nmax n l hl, diagonal_mul_diagonal, Matrix.smul_apply,
      diagonal_apply, hN]
    by_cases h : x = x₂
    · rw [if_pos h, if_pos h, smul_eq_mul]; push_cast; ring
    · rw [if_neg h, if_neg h]; simp
  · show (c : ℂ) * (occupationOp Nmax n l x x₂ * occupationOp Nmax' n' l' y y₂) = _
    rw [occupationOp_eq Nmax n l hl, occupationOp_eq Nmax' n' l' hl', diagonal_apply, diagonal_apply,
      hN, hN']
    by_cases h : x = x₂
    · by_cases h' : y = y₂
      · rw [if_pos h, if_pos h', if_pos ⟨h, h'⟩]; ring
      · rw [if_neg h', if_neg (fun e : x = x₂ ∧ y = y₂ => h' e.2)]; ring
    · rw [if_neg h, if_neg (fun e : x = x₂ ∧ y = y₂ => h e.1)]; ring

/-- C65 (on-site pairing).  `onsite_pairing` is `Delta sum a_1^dagger a_2^dagger + h.c.`; for
fermions the same-species terms, and so the default, vanish. -/
theorem C65_onsite_pairing (s : OccSite) (N : Arr s.dim) (hs : IsOcc s N) (Delta : ℝ) (l l' : List ℕ)
    (hl : ∀ k ∈ l, k < s.numSpecies) (hl' : ∀ k ∈ l', k < s.numSpecies) :
    onsitePairing s Delta l l' = (Delta : ℂ) • ((l.zip l').map fun k =>
      (s.annihilator k.1)ᴴ * (s.annihilator k.2)ᴴ
        + ((s.annihilator k.1)ᴴ * (s.annihilator k.2)ᴴ)ᴴ).sum ∧
    (∀ n : ℕ, onsitePairing (fermionSite n) Delta (List.range n) (List.range n) = 0) := by
  have fold : ∀ (s : OccSite) (ks : List (ℕ × ℕ)) (h : Arr s.dim),
      ks.foldl (fun h k => h + (Delta : ℂ) • (s.creator k.1 * s.creator k.2)) h
        = h + (ks.map fun k => (Delta : ℂ) • (s.creator k.1 * s.creator k.2)).sum := by
    intro s ks
    induction ks with
    | nil => intro h; simp
    | cons k ks ih =>
      intro h
      rw [List.foldl_cons, ih, List.map_cons, List.sum_cons, add_assoc]
  constructor
  · rw [onsitePairing, fold, zero_add, sum_conj, sum_add]
    have hsm : ∀ (ks : List (ℕ × ℕ)) (f : ℕ × ℕ → Arr s.dim),
        (Delta : ℂ) • (ks.map f).sum = (ks.map fun k => (Delta : ℂ) • f k).sum := by
      intro ks f
      induction ks with
      | nil => simp
      | cons k ks ih => rw [List.map_cons, List.sum_cons, smul_add, ih, List.map_cons, List.sum_cons]
    rw [hsm]
    congr 1
    refine List.map_congr_left fun k hk => ?_
    obtain ⟨a, b⟩ := List.of_mem_zip (show (k.1, k.2) ∈ l.zip l' from hk)
    rw [hs.conj _ (hl _ a), hs.conj _ (hl' _ b), conjTranspose_smul, smul_add]
    simp
  · intro n
    rw [onsitePairing, fold, zero_add, sum_conj, sum_add]
    have hz : ∀ k ∈ (List.range n).zip (List.range n),
        (Delta : ℂ) • ((fermionSite n).creator k.1 * (fermionSite n).creator k.2)
          + ((Delta : ℂ) • ((fermionSite n).creator k.1 * (fermionSite n).creator k.2))ᴴ = 0 := by
      intro k hk
      have hkk : k.1 = k.2 ∧ k.1 < n := by
        rw [List.zip_eq_zipWith, List.zipWith_self] at hk
        obtain ⟨a, ha, rfl⟩ := List.mem_map.mp hk
        exact ⟨rfl, List.mem_range.mp ha⟩
      have : (fermionSite n).creator k.1 * (fermionSite n).creator k.2 = 0 := by
        rw [← hkk.1]
        have h2 := (C64_fermion_algebra n k.1 k.1 hkk.2 hkk.2).2.1
        have h3 : (2 : ℂ) • (fermionCd n k.1 * fermionCd n k.1) = 0 := by rw [two_smul]; exact h2
        exact (smul_eq_zero.mp h3).resolve_left (by norm_num)
      rw [this]; simp
    rw [List.map_congr_left hz]
    simp

/-! ## Clocks -/

/-- C65 (clocks).  `clock_clock_coupling` is `Jx X X^dagger + Jz Z Z^dagger + h.c.`,
`clock_field_coupling` is `hx X + hz Z + h.c.`, both are hermitian, and for two clocks of order `q`
the two-site coupling commutes with `Z Z`, that is, it conserves the total `Z_q` charge. -/
theorem C65_clock {d0 d1 : ℕ} (X0 Z0 : Arr d0) (X1 Z1 : Arr d1) (Jx Jz : ℝ) :
    (let M := (Jx : ℂ) • (X0 ⊗ₖ X1ᴴ) + (Jz : ℂ) • (Z0 ⊗ₖ Z1ᴴ)
     op2 (clockClock X0 Z0 X1 Z1 Jx Jz) = M + Mᴴ) ∧
    (let M := (Jx : ℂ) • X0 + (Jz : ℂ) • Z0
     clockField X0 Z0 Jx Jz = M + Mᴴ) ∧
    (∀ q : ℕ, Commute (op2 (clockClock (clockX q) (clockZ q) (clockX q) (clockZ q) Jx Jz))
      (clockZ q ⊗ₖ clockZ q)) := by
  have step : ∀ {d0 d1 : ℕ} (J : ℝ) (A : Arr d0) (B : Arr d1) (h : Block2 d0 d1),
      op2 (clockStep J A B h) = op2 h + (J : ℂ) • (A ⊗ₖ Bᴴ) := by
    intro d0 d1 J A B h
    rw [clockStep]
    by_cases hJ : J = 0
    · rw [if_neg (by simpa using hJ), hJ]; simp
    · rw [if_pos hJ]; rfl
  have hz : ∀ d0 d1 : ℕ, op2 (zeros d0 d1 d1 d0) = 0 := by
    intro d0 d1; ext ⟨i, j⟩ ⟨i', j'⟩; rfl
  have gen : ∀ {d0 d1 : ℕ} (X0 Z0 : Arr d0) (X1 Z1 : Arr d1),
      op2 (clockClock X0 Z0 X1 Z1 Jx Jz)
        = (Jx : ℂ) • (X0 ⊗ₖ X1ᴴ) + (Jz : ℂ) • (Z0 ⊗ₖ Z1ᴴ)
          + ((Jx : ℂ) • (X0 ⊗ₖ X1ᴴ) + (Jz : ℂ) • (Z0 ⊗ₖ Z1ᴴ))ᴴ := by
    intro d0 d1 X0 Z0 X1 Z1
    have : op2 (clockClock X0 Z0 X1 Z1 Jx Jz)
        = op2 (clockStep Jz Z0 Z1 (clockStep Jx X0 X1 (zeros d0 d1 d1 d0)))
          + op2 (blockDagger (clockStep Jz Z0 Z1 (clockStep Jx X0 X1 (zeros d0 d1 d1 d0)))) := rfl
    rw [this, op2_dagger, step, step, hz, zero_add]
  refine ⟨gen X0 Z0 X1 Z1, ?_, fun q => ?_⟩
  · simp only [clockField, conjTranspose_add, conjTranspose_smul, Complex.star_def, Complex.conj_ofReal]
    module
  · rw [gen]
    have hZ : clockZ q * (clockZ q)ᴴ = 1 := clockZ_unitary q
    have hZ' : (clockZ q)ᴴ * clockZ q = 1 := mul_eq_one_comm.mp hZ
    have hex := clock_exchange q
    have ph : star (clockPhase q) * clockPhase q = 1 := by
      rw [mul_comm]; exact clockPhase_norm q
    have hex' : (clockX q)ᴴ * clockZ q = star (clockPhase q) • (clockZ q * (clockX q)ᴴ) := by
      have h := congrArg conjTranspose hex
      rw [conjTranspose_mul, conjTranspose_smul, conjTranspose_mul] at h
      have h2 : clockZ q * ((clockZ q)ᴴ * (clockX q)ᴴ) * clockZ q
          = clockZ q * (star (clockPhase q) • ((clockX q)ᴴ * (clockZ q)ᴴ)) * clockZ q := by rw [h]
      rw [← Matrix.mul_assoc, hZ, Matrix.one_mul, Matrix.mul_smul, Matrix.smul_mul,
        ← Matrix.mul_assoc, Matrix.mul_assoc, hZ', Matrix.mul_one] at h2
      exact h2
    have c1 : Commute (clockX q ⊗ₖ (clockX q)ᴴ) (clockZ q ⊗ₖ clockZ q) := by
      rw [commute_iff_eq, ← mul_kronecker_mul, ← mul_kronecker_mul, hex, hex', smul_kronecker,
        kronecker_smul, smul_smul, mul_comm, ph, one_smul]
    have c2 : Commute (clockZ q ⊗ₖ (clockZ q)ᴴ) (clockZ q ⊗ₖ clockZ q) := by
      rw [commute_iff_eq, ← mul_kronecker_mul, ← mul_kronecker_mul, hZ, hZ']
    have c3 : Commute ((clockX q)ᴴ ⊗ₖ clockX q) (clockZ q ⊗ₖ clockZ q) := by
      rw [commute_iff_eq, ← mul_kronecker_mul, ← mul_kronecker_mul, hex, hex', smul_kronecker,
        kronecker_smul, smul_smul, ph, one_smul]
    have c4 : Commute ((clockZ q)ᴴ ⊗ₖ clockZ q) (clockZ q ⊗ₖ clockZ q) := by
      rw [commute_iff_eq, ← mul_kronecker_mul, ← mul_kronecker_mul, hZ, hZ']
    rw [conjTranspose_add, conjTranspose_smul, conjTranspose_smul, conjTranspose_kronecker,
      conjTranspose_kronecker, conjTranspose_conjTranspose, conjTranspose_conjTranspose]
    exact ((c1.smul_left _).add_left (c2.smul_left _)).add_left ((c3.smul_left _).add_left (c4.smul_left _))

/-- Two spinful fermion sites meet the hypotheses, and the species of hopping and pairing may differ. -/
example : (∃ h, hopping (fermionSite 2) (fermionSite 2) 3 [0, 1] [1, 0] = some h ∧
    op2 h = (-(3 : ℝ) : ℂ) • hoppingOp (fermionSite 2) (fermionSite 2) [(0, 1), (1, 0)]) :=
  (C65_hopping_pairing_partial (fermionSite 2) _ (C65_sites_are_occ (fun _ => 1) 2).2 3 [0, 1] [1, 0] rfl
    (by simp [fermionSite]) (by simp [fermionSite])).1

/-- Spins one half and one: the mixed Heisenberg coupling is SU(2) symmetric. -/
example (a : Fin 3) : Commute (op2 (heisenberg (spinSite 1) (spinSite 2) 1))
    (total (spinSite 1) (spinSite 2) a) :=
  (C65_spin_symmetric _ _ (C65_sites_are_spins 1).1 (C65_sites_are_spins 2).1 1).2.2.1 a

end Cyten.Couplings
