import Verif.Model.Sites
import Mathlib.LinearAlgebra.Matrix.Kronecker

/-!
# Predefined couplings

Models the dense blocks that the functions at the end of `src/models/couplings.cpp` hand to
`Coupling::from_dense_block`, with exact numbers.  A block of shape `(d0, d1, d1, d0)` has the axes
`[p0, p1, p1*, p0*]`.  The conversion of the block to a tensor (C46, C63) and its factorisation
(C66) are separate.
-/

namespace Cyten.Couplings

open Matrix Cyten.Sites

/-- A numpy array with four axes. -/
abbrev Arr4 (a b c d : ℕ) := Fin a → Fin b → Fin c → Fin d → ℂ

/-- The block of a two-site coupling with axes `[p0, p1, p1*, p0*]`
(src/models/couplings.cpp:474-482 `from_dense_block`, labels). -/
abbrev Block2 (d0 d1 : ℕ) := Arr4 d0 d1 d1 d0

/-- The block of a three-site coupling with axes `[p0, p1, p2, p2*, p1*, p0*]`
(src/models/couplings.cpp:474-482). -/
abbrev Block3 (d0 d1 d2 : ℕ) := Fin d0 → Fin d1 → Fin d2 → Fin d2 → Fin d1 → Fin d0 → ℂ

/-- `np.zeros` (src/models/couplings.cpp:876-877). -/
def zeros (a b c d : ℕ) : Arr4 a b c d := fun _ _ _ _ => 0

/-- `np.tensordot(s1, s2, 0)`: the outer product (src/models/couplings.cpp:887). -/
def outer {a b c d : ℕ} (s1 : Matrix (Fin a) (Fin b) ℂ) (s2 : Matrix (Fin c) (Fin d) ℂ) :
    Arr4 a b c d := fun i j k l => s1 i j * s2 k l

/-- `np.add` and multiplication with a number, elementwise
(src/models/couplings.cpp:148-158, 887). -/
def addScaled {a b c d : ℕ} (h : Arr4 a b c d) (x : ℂ) (t : Arr4 a b c d) : Arr4 a b c d :=
  fun i j k l => h i j k l + x * t i j k l

/-- `np.transpose(h, (0, 2, 3, 1))` (src/models/couplings.cpp:889, 948). -/
def transpose0231 {a b c d : ℕ} (h : Arr4 a b c d) : Arr4 a c d b := fun i j k l => h i l j k

/-- One round of the loop over the axes: the axis is skipped if the prefactor is zero
(src/models/couplings.cpp:878-888). -/
noncomputable def spinSpinStep {d0 d1 : ℕ} (S : Fin 3 → Arr d0) (T : Fin 3 → Arr d1) (J : Fin 3 → ℝ)
    (h : Arr4 d0 d0 d1 d1) (axis : Fin 3) : Arr4 d0 d0 d1 d1 :=
  if J axis = 0 then h else addScaled h (J axis) (outer (S axis) (T axis))

/-- `spin_spin_coupling` (src/models/couplings.cpp:860-891). -/
noncomputable def spinSpin {d0 d1 : ℕ} (S : Fin 3 → Arr d0) (T : Fin 3 → Arr d1) (J : Fin 3 → ℝ) :
    Block2 d0 d1 :=
  transpose0231 ([0, 1, 2].foldl (spinSpinStep S T J) (zeros d0 d0 d1 d1))

/-- `heisenberg_coupling` (src/models/couplings.cpp:956-965). -/
noncomputable def heisenberg {d0 d1 : ℕ} (S : Fin 3 → Arr d0) (T : Fin 3 → Arr d1) (J : ℝ) :
    Block2 d0 d1 :=
  spinSpin S T fun _ => J

/-- One term of `spin_field_coupling`: skipped if the field is zero
(src/models/couplings.cpp:908-926). -/
noncomputable def fieldStep {d : ℕ} (S : Fin 3 → Arr d) (f : Fin 3 → ℝ) (h : Arr d) (axis : Fin 3) :
    Arr d :=
  if f axis ≠ 0 then h + (f axis : ℂ) • S axis else h

/-- `spin_field_coupling` (src/models/couplings.cpp:893-928). -/
noncomputable def spinField {d : ℕ} (S : Fin 3 → Arr d) (f : Fin 3 → ℝ) : Arr d :=
  [0, 1, 2].foldl (fieldStep S f) 0

/-- `np.tensordot(spin_vector0, spin_vector1, ((2,), (2,)))`: contraction of the axis index, with
axes `[p0, p0*, p1, p1*]` (src/models/couplings.cpp:944-947). -/
def spinDot {d0 d1 : ℕ} (S : Fin 3 → Arr d0) (T : Fin 3 → Arr d1) : Arr4 d0 d0 d1 d1 :=
  fun i i' j j' => ∑ a : Fin 3, S a i i' * T a j j'

/-- `np.tensordot(A, B, ((3, 2), (0, 1)))`: the product of two-site blocks
(src/models/couplings.cpp:949-950). -/
def blockMul {d0 d1 : ℕ} (A B : Block2 d0 d1) : Block2 d0 d1 :=
  fun i j k l => ∑ x : Fin d0, ∑ y : Fin d1, A i j y x * B x y k l

/-- `aklt_coupling` (src/models/couplings.cpp:930-954). -/
noncomputable def aklt {d0 d1 : ℕ} (S : Fin 3 → Arr d0) (T : Fin 3 → Arr d1) (J : ℝ) : Block2 d0 d1 :=
  let SS : Block2 d0 d1 := transpose0231 (spinDot S T)
  let SS2 := blockMul SS SS
  fun i j k l => (J : ℂ) * SS i j k l + ((J / 3 : ℝ) : ℂ) * SS2 i j k l

/-- `np.cross` over the last axis of `spin_vector1[:, None, None, :, :]` and
`spin_vector2[None, :, :, None, :]`: axes `[p1, p2, p2*, p1*]` and the vector index
(src/models/couplings.cpp:983-988). -/
def spinCross {d1 d2 : ℕ} (T : Fin 3 → Arr d1) (U : Fin 3 → Arr d2) (a : Fin 3) : Block2 d1 d2 :=
  fun j k k' j' =>
    T (a + 1) j j' * U (a + 2) k k' - T (a + 2) j j' * U (a + 1) k k'

/-- `chiral_3spin_coupling`: `chi * tensordot(S0, SxS, (-1, -1))` has the axes
`[p0, p0*, p1, p2, p2*, p1*]`, then `transpose (0, 2, 3, 4, 5, 1)`
(src/models/couplings.cpp:967-992). -/
def chiral {d0 d1 d2 : ℕ} (S : Fin 3 → Arr d0) (T : Fin 3 → Arr d1) (U : Fin 3 → Arr d2) (chi : ℝ) :
    Block3 d0 d1 d2 :=
  fun i j k k' j' i' => (chi : ℂ) * ∑ a : Fin 3, S a i i' * spinCross T U a j k k' j'

/-- `chemical_potential`: `-mu * get_occupation_numpy(species)`
(src/models/couplings.cpp:994-1010). -/
noncomputable def chemicalPotential (Nmax : ℕ → ℕ) (n : ℕ) (mu : ℝ) (species : List ℕ) :
    Arr (siteDim Nmax n) :=
  ((-mu : ℝ) : ℂ) • occupationOp Nmax n species

/-- `onsite_interaction`: `0.5 U n @ n` (src/models/couplings.cpp:1012-1030). -/
noncomputable def onsiteInteraction (Nmax : ℕ → ℕ) (n : ℕ) (U : ℝ) (species : List ℕ) :
    Arr (siteDim Nmax n) :=
  ((1 / 2 * U : ℝ) : ℂ) • (occupationOp Nmax n species * occupationOp Nmax n species)

/-- `np.multiply(A[:, None, None, :], B[None, :, :, None])`
(src/models/couplings.cpp:1058-1062). -/
def outerInner {d0 d1 : ℕ} (A : Arr d0) (B : Arr d1) : Block2 d0 d1 :=
  fun i j k l => A i l * B j k

/-- `density_density_interaction` (src/models/couplings.cpp:1032-1065). -/
noncomputable def densityDensity (Nmax : ℕ → ℕ) (n : ℕ) (Nmax' : ℕ → ℕ) (n' : ℕ) (V : ℝ)
    (species species' : List ℕ) : Block2 (siteDim Nmax n) (siteDim Nmax' n') :=
  fun i j k l =>
    (V : ℂ) * outerInner (occupationOp Nmax n species) (occupationOp Nmax' n' species') i j k l

/-- `np.transpose(h.conj(), (3, 2, 1, 0))` (src/models/couplings.cpp:252, 1190). -/
def blockDagger {d0 d1 : ℕ} (h : Block2 d0 d1) : Block2 d0 d1 :=
  fun i j k l => star (h l k j i)

/-- The data of an occupation site that the quadratic couplings use: its dimension, the number of
species, the creators and annihilators with on-site Jordan-Wigner strings, and the Jordan-Wigner
operator of the site (the identity for bosons)
(src/models/couplings.cpp:160-167 `occupation_jw`; degrees_of_freedom.cpp:1142-1166). -/
structure OccSite where
  dim : ℕ
  numSpecies : ℕ
  creator : ℕ → Arr dim
  annihilator : ℕ → Arr dim
  jw : Arr dim

/-- A bosonic site (src/models/couplings.cpp:160-167; degrees_of_freedom.cpp:893-925). -/
noncomputable def bosonSite (Nmax : ℕ → ℕ) (n : ℕ) : OccSite where
  dim := siteDim Nmax n
  numSpecies := n
  creator := Sites.creator Nmax n
  annihilator := Sites.annihilator Nmax n
  jw := 1

/-- A fermionic site (src/models/couplings.cpp:160-167; degrees_of_freedom.cpp:1142-1166). -/
noncomputable def fermionSite (n : ℕ) : OccSite where
  dim := siteDim (fun _ => 1) n
  numSpecies := n
  creator := fermionCd n
  annihilator := fermionC n
  jw := jordanWigner (fun _ => 1) n

/-- One round of the loop over `zip(species_i, species_j)`: `op_j` is taken from the first site
(`occ_i`), so that its dimensions fit only if the sites have equal dimension
(src/models/couplings.cpp:238-251).  `none` is numpy's broadcasting error; broadcasting of dimension one does not occur since all
cutoffs are positive (degrees_of_freedom.cpp:911). -/
def quadraticStep (si sj : OccSite) (isPairing : Bool) (h : Block2 si.dim sj.dim) (k : ℕ × ℕ) :
    Option (Block2 si.dim sj.dim) :=
  if e : si.dim = sj.dim then
    let opi := si.creator k.1
    let opj : Arr si.dim := if isPairing then si.creator k.2 else si.annihilator k.2
    some fun a b c d => h a b c d + (opi * si.jw) a d * opj (Fin.cast e.symm b) (Fin.cast e.symm c)
  else none

/-- `quadratic_coupling_numpy` for lists of species: `none` is an error.  The loop runs over the
positions of `species_i` and reads `species_j` at the same position
(src/models/couplings.cpp:194-254). -/
def quadratic (si sj : OccSite) (isPairing : Bool) (speciesI speciesJ : List ℕ) :
    Option (Block2 si.dim sj.dim) :=
  if speciesI = [] ∨ speciesJ = [] then some (zeros _ _ _ _)
  else if speciesJ.length < speciesI.length then none
  else do
    let h ← (speciesI.zip speciesJ).foldlM (quadraticStep si sj isPairing) (zeros _ _ _ _)
    pure fun a b c d => h a b c d + blockDagger h a b c d

/-- `hopping` (src/models/couplings.cpp:1067-1081). -/
def hopping (si sj : OccSite) (t : ℝ) (speciesI speciesJ : List ℕ) :
    Option (Block2 si.dim sj.dim) :=
  (quadratic si sj false speciesI speciesJ).map fun h a b c d => ((-t : ℝ) : ℂ) * h a b c d

/-- `pairing` (src/models/couplings.cpp:1083-1097). -/
def pairing (si sj : OccSite) (Delta : ℝ) (speciesI speciesJ : List ℕ) :
    Option (Block2 si.dim sj.dim) :=
  (quadratic si sj true speciesI speciesJ).map fun h a b c d => (Delta : ℂ) * h a b c d

/-- `onsite_pairing` for lists of species of equal length (src/models/couplings.cpp:1099-1143). -/
def onsitePairing (s : OccSite) (Delta : ℝ) (species1 species2 : List ℕ) : Arr s.dim :=
  let h := (species1.zip species2).foldl
    (fun h k => h + (Delta : ℂ) • (s.creator k.1 * s.creator k.2)) 0
  h + hᴴ

/-- One term of `clock_clock_coupling`: skipped for a zero prefactor
(src/models/couplings.cpp:1170-1189). -/
noncomputable def clockStep {d0 d1 : ℕ} (J : ℝ) (A : Arr d0) (B : Arr d1) (h : Block2 d0 d1) :
    Block2 d0 d1 :=
  if J ≠ 0 then addScaled h (J : ℂ) (outerInner A Bᴴ) else h

/-- `clock_clock_coupling` (src/models/couplings.cpp:1145-1192). -/
noncomputable def clockClock {d0 d1 : ℕ} (X0 Z0 : Arr d0) (X1 Z1 : Arr d1) (Jx Jz : ℝ) : Block2 d0 d1 :=
  let h := clockStep Jz Z0 Z1 (clockStep Jx X0 X1 (zeros d0 d1 d1 d0))
  fun i j k l => h i j k l + blockDagger h i j k l

/-- `clock_field_coupling` (src/models/couplings.cpp:1194-1218). -/
noncomputable def clockField {d : ℕ} (X Z : Arr d) (hx hz : ℝ) : Arr d :=
  (hx : ℂ) • (X + Xᴴ) + (hz : ℂ) • (Z + Zᴴ)

end Cyten.Couplings
