import Mathlib.Analysis.SpecialFunctions.Complex.Log
import Mathlib.Analysis.SpecialFunctions.Pow.Complex
import Mathlib.Analysis.SpecialFunctions.Sqrt
import Mathlib.LinearAlgebra.Matrix.Hermitian

/-!
# Local degrees of freedom: the operators a `Site` is built from

Models the dense matrices that `src/models/sites.cpp` and
`src/models/degrees_of_freedom.cpp` hand to numpy, with exact complex numbers in place of
float64 / complex128 entries.  A numpy array of shape `(d, d)` is a `Matrix (Fin d) (Fin d) ℂ`.
-/

namespace Cyten.Sites

open Matrix

/-- A `(d, d)` numpy array. -/
abbrev Arr (d : ℕ) := Matrix (Fin d) (Fin d) ℂ

/-! ## Spins -/

/-- `Sz = diag(-S + arange(dim))` with `S = two_S / 2` (src/models/sites.cpp:288). -/
noncomputable def spinSz (twoS : ℕ) : Arr (twoS + 1) :=
  diagonal fun n => -((twoS : ℂ) / 2) + (n.val : ℂ)

/-- The coefficient `sqrt(S (S + 1) - m (m + 1))` with `m = n - S`
(src/models/sites.cpp:291-292). -/
noncomputable def spinCoeff (twoS n : ℕ) : ℝ :=
  Real.sqrt ((twoS : ℝ) / 2 * ((twoS : ℝ) / 2 + 1)
    - ((n : ℝ) - (twoS : ℝ) / 2) * (((n : ℝ) - (twoS : ℝ) / 2) + 1))

/-- `Sp`: zeros, and `Sp[n + 1, n] = coeff` for `n < dim - 1`
(src/models/sites.cpp:289-294). -/
noncomputable def spinSp (twoS : ℕ) : Arr (twoS + 1) :=
  of fun i j => if i.val = j.val + 1 then ((spinCoeff twoS j.val : ℝ) : ℂ) else 0

/-- `spin_vector_from_Sp`: `Sm = conj(Sp.T)`, `Sx = 0.5 (Sp + Sm)`, `Sy = 0.5j (Sm - Sp)`,
stacked with `Sz` along the last axis; the three slices are returned as a function of the
last index (src/models/degrees_of_freedom.cpp:570-586). -/
noncomputable def spinVector {d : ℕ} (Sz Sp : Arr d) : Fin 3 → Arr d := fun a =>
  let Sm : Arr d := Spᴴ
  match a with
  | 0 => (1 / 2 : ℂ) • (Sp + Sm)
  | 1 => (Complex.I / 2 : ℂ) • (Sm - Sp)
  | 2 => Sz

/-- The spin vector of `SpinSite(S)` (src/models/sites.cpp:273-295). -/
noncomputable def spinSite (twoS : ℕ) : Fin 3 → Arr (twoS + 1) :=
  spinVector (spinSz twoS) (spinSp twoS)

/-- Sector of basis state `n` of a `SpinSite` that conserves `Sz`: `arange(-two_S, two_S + 2, 2)`
(src/models/sites.cpp:167-172, `leg_from_spin_symmetry`). -/
def spinSectorU1 (twoS n : ℕ) : ℤ := -(twoS : ℤ) + 2 * (n : ℤ)

/-- Sector of basis state `n` of a `SpinSite` that conserves the `Sz` parity:
`arange(dim) % 2` (src/models/sites.cpp:173-178). -/
def spinSectorParity (n : ℕ) : ℕ := n % 2

/-! ## Clocks -/

/-- `X = eye(q, k=1) + eye(q, k=1-q)` (src/models/sites.cpp:633); `np.eye(q, k=k)` has a one at
`(i, j)` exactly when `j - i = k`. -/
def npEye (q : ℕ) (k : ℤ) : Arr q := of fun i j => if (j.val : ℤ) - (i.val : ℤ) = k then 1 else 0

/-- The clock operator `X` of `ClockSite(q)` (src/models/sites.cpp:633). -/
def clockX (q : ℕ) : Arr q := npEye q 1 + npEye q (1 - (q : ℤ))

/-- The clock operator `Z = diag(exp(2 pi / q * (arange(q) * 1j)))` of `ClockSite(q)`
(src/models/sites.cpp:634-637). -/
noncomputable def clockZ (q : ℕ) : Arr q :=
  diagonal fun n => Complex.exp (2 * Real.pi / (q : ℂ) * ((n.val : ℂ) * Complex.I))

/-- The phase `exp(2j pi / q)` used by the sanity check
(src/models/degrees_of_freedom.cpp:641-642). -/
noncomputable def clockPhase (q : ℕ) : ℂ := Complex.exp (2 * Real.pi / (q : ℂ) * Complex.I)

open scoped Classical in
/-- `infer_clock_q`: the first `q` in `2 .. dim` for which `X^q = 1`, `Z^q = 1` and
`X Z = exp(2j pi / q) Z X`; `none` is the `runtime_error` (src/models/degrees_of_freedom.cpp:201-219).
`allclose` is replaced by equality. -/
noncomputable def inferClockQ {d : ℕ} (X Z : Arr d) : Option ℕ :=
  (List.range' 2 (d - 1)).find? fun q =>
    decide (X ^ q = 1 ∧ Z ^ q = 1 ∧ X * Z = clockPhase q • (Z * X))

/-! ## Bosons and fermions -/

/-- `np.kron(A, B)` for square matrices: row and column indices are split as
`(i / n, i % n)` (numpy; used in src/models/degrees_of_freedom.cpp:1044-1045). -/
def npKron {m n : ℕ} (A : Arr m) (B : Arr n) : Arr (m * n) :=
  of fun i j => A i.divNat j.divNat * B i.modNat j.modNat

/-- The dimension `prod(Nmax + 1)` of the first `n` species
(src/models/sites.cpp:326-327 `total_dim`). -/
def siteDim (Nmax : ℕ → ℕ) : ℕ → ℕ
  | 0 => 1
  | n + 1 => siteDim Nmax n * (Nmax n + 1)

/-- `functools.reduce(np.kron, factors)` over the first `n` species
(src/models/degrees_of_freedom.cpp:183-187 `py_reduce`, :1044-1045).  The code starts from the
first factor; starting from the 1x1 identity instead gives the same array. -/
def kronReduce (Nmax : ℕ → ℕ) (F : (k : ℕ) → Arr (Nmax k + 1)) : (n : ℕ) → Arr (siteDim Nmax n)
  | 0 => 1
  | n + 1 => npKron (kronReduce Nmax F n) (F n)

/-- The single species annihilator `B[n - 1, n] = sqrt(n)`
(src/models/degrees_of_freedom.cpp:997-1007, `creation_annihilation_op_from_single_Nmax`). -/
noncomputable def bosonB (Nmax : ℕ) : Arr (Nmax + 1) :=
  of fun i j => if i.val + 1 = j.val then ((Real.sqrt (j.val : ℝ) : ℝ) : ℂ) else 0

/-- The single species creator, `np.transpose(B)`
(src/models/degrees_of_freedom.cpp:1008). -/
noncomputable def bosonBd (Nmax : ℕ) : Arr (Nmax + 1) := (bosonB Nmax)ᵀ

/-- `annihilators[:, :, k]` of a site with `n` species: the Kronecker product with the single
species annihilator in position `k` and identities elsewhere
(src/models/degrees_of_freedom.cpp:1010-1050, `creation_annihilation_ops_from_Nmax`). -/
noncomputable def annihilator (Nmax : ℕ → ℕ) (n k : ℕ) : Arr (siteDim Nmax n) :=
  kronReduce Nmax (fun j => if j < k then 1 else if j = k then bosonB (Nmax j) else 1) n

/-- `creators[:, :, k]` (src/models/degrees_of_freedom.cpp:1010-1050). -/
noncomputable def creator (Nmax : ℕ → ℕ) (n k : ℕ) : Arr (siteDim Nmax n) :=
  kronReduce Nmax (fun j => if j < k then 1 else if j = k then bosonBd (Nmax j) else 1) n

/-- `number_operators[:, :, k]`: the diagonal of
`tensordot(creators, annihilators, (1, 0))` over the two species axes, i.e.
`creators[:, :, k] @ annihilators[:, :, k]` (src/models/degrees_of_freedom.cpp:730-735). -/
noncomputable def numberOp (Nmax : ℕ → ℕ) (n k : ℕ) : Arr (siteDim Nmax n) :=
  creator Nmax n k * annihilator Nmax n k

/-- `n_tot`: the sum of the number operators over the species axis
(src/models/degrees_of_freedom.cpp:736). -/
noncomputable def nTot (Nmax : ℕ → ℕ) (n : ℕ) : Arr (siteDim Nmax n) :=
  ∑ k ∈ Finset.range n, numberOp Nmax n k

/-- `get_occupation_numpy(species)`: the sum of the selected number operators
(src/models/degrees_of_freedom.cpp:843-859). -/
noncomputable def occupationOp (Nmax : ℕ → ℕ) (n : ℕ) (species : List ℕ) : Arr (siteDim Nmax n) :=
  (species.map (numberOp Nmax n)).sum

open scoped Classical in
/-- The patched `B B^dagger` of the bosonic sanity check: the vanishing diagonal entries are
replaced by `max(BBd) + 1` plus themselves; `m` stands for `np.max(BBd)`
(src/models/degrees_of_freedom.cpp:757-765). -/
noncomputable def patchedBBd (Nmax : ℕ → ℕ) (n k : ℕ) (m : ℝ) : Arr (siteDim Nmax n) :=
  of fun i j =>
    if i = j ∧ (annihilator Nmax n k * creator Nmax n k) i i = 0 then
      (annihilator Nmax n k * creator Nmax n k) i i + ((m : ℂ) + 1)
    else (annihilator Nmax n k * creator Nmax n k) i j

/-- `n_before[i, k]`: shift `n_diag` by one species to the right, put zero in column 0, and
take the cumulative sum along the species axis
(src/models/degrees_of_freedom.cpp:1093-1101). -/
noncomputable def nBefore (Nmax : ℕ → ℕ) (n k : ℕ) (i : Fin (siteDim Nmax n)) : ℂ :=
  ∑ l ∈ Finset.range (k + 1), if l = 0 then 0 else numberOp Nmax n (l - 1) i i

/-- `partial_JWs[:, :, k]`: diagonal with `power(-1, n_before)`
(src/models/degrees_of_freedom.cpp:1102-1106). -/
noncomputable def partialJW (Nmax : ℕ → ℕ) (n k : ℕ) : Arr (siteDim Nmax n) :=
  diagonal fun i => (-1 : ℂ) ^ nBefore Nmax n k i

/-- `JW = diag(power(-1, diag(n_tot)))` (src/models/degrees_of_freedom.cpp:1107-1108). -/
noncomputable def jordanWigner (Nmax : ℕ → ℕ) (n : ℕ) : Arr (siteDim Nmax n) :=
  diagonal fun i => (-1 : ℂ) ^ nTot Nmax n i i

/-- `FermionicDOF::get_annihilator_numpy(k, include_JW=True)`; fermions are the case `Nmax = 1`
for every species (src/models/degrees_of_freedom.cpp:1142-1153, 1185-1192). -/
noncomputable def fermionC (n k : ℕ) : Arr (siteDim (fun _ => 1) n) :=
  annihilator (fun _ => 1) n k * partialJW (fun _ => 1) n k

/-- `FermionicDOF::get_creator_numpy(k, include_JW=True)`
(src/models/degrees_of_freedom.cpp:1155-1166). -/
noncomputable def fermionCd (n k : ℕ) : Arr (siteDim (fun _ => 1) n) :=
  creator (fun _ => 1) n k * partialJW (fun _ => 1) n k

/-- `dim_prod[k]`: the product of `Nmax[j] + 1` over the species `j > k`
(src/models/sites.cpp:396-403). -/
def dimProd (Nmax : ℕ → ℕ) (n k : ℕ) : ℕ :=
  ((List.range n).filter fun j => decide (k < j)).foldl (fun p j => p * (Nmax j + 1)) 1

/-- The index that `state_labels` assigns to an occupation: `sum(occ * dim_prod)`
(src/models/sites.cpp:419-422). -/
def labelIndex (Nmax : ℕ → ℕ) (n : ℕ) (occ : ℕ → ℕ) : ℕ :=
  ∑ k ∈ Finset.range n, occ k * dimProd Nmax n k

/-- The index that `state_labels` assigns to a fermion occupation:
`idx = (idx << 1) | occ[k]`, species by species (src/models/sites.cpp:525-528). -/
def fermionLabelIndex (n : ℕ) (occ : ℕ → ℕ) : ℕ :=
  (List.range n).foldl (fun idx k => (idx <<< 1) ||| occ k) 0

/-- `itertools.product(*state_ranges)` in order; the basis state number `i` has the
occupation `(productRow i) k` (src/models/sites.cpp:345-361, 411-412).  The last species runs fastest. -/
def productRows (Nmax : ℕ → ℕ) : ℕ → List (List ℕ)
  | 0 => [[]]
  | n + 1 => (productRows Nmax n).flatMap fun r => (List.range (Nmax n + 1)).map fun x => r ++ [x]

/-- Sectors of a bosonic leg that conserves the total occupation
(src/models/sites.cpp:367-381). -/
def sectorsTotal (Nmax : ℕ → ℕ) (n : ℕ) : List ℕ := (productRows Nmax n).map List.sum

/-- Sectors of a bosonic leg that conserves the total parity (src/models/sites.cpp:378-380). -/
def sectorsParity (Nmax : ℕ → ℕ) (n : ℕ) : List ℕ := (productRows Nmax n).map fun r => r.sum % 2

/-! ## The spin-1/2 fermion site -/

/-- The literal `Sz = diag([0, -0.5, 0.5, 0])` (src/models/sites.cpp:591-596). -/
noncomputable def spinHalfSz : Arr 4 := diagonal ![0, -(1 / 2), 1 / 2, 0]

/-- The literal `Sp`: zeros with `Sp[2, 1] = 1` (src/models/sites.cpp:597-598). -/
def spinHalfSp : Arr 4 := of fun i j => if i = 2 ∧ j = 1 then 1 else 0

/-- The literal sectors `(2 Sz, N, N mod 2)` of `SpinHalfFermionSite(conserve_N="N",
conserve_S="Sz")`; without conserved particle number the middle column is absent, without
conserved spin the first one (src/models/sites.cpp:544-559, 576-579). -/
def spinHalfSectors : List (List ℤ) := [[0, 0, 0], [-1, 1, 1], [1, 1, 1], [0, 2, 0]]

/-- The spin vector of `SpinHalfFermionSite` (src/models/sites.cpp:591-599). -/
noncomputable def spinHalfVector : Fin 3 → Arr 4 := spinVector spinHalfSz spinHalfSp

end Cyten.Sites
