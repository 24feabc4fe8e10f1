import Verif.Model.Spaces

/-! # Specification vocabulary for spaces: total multiplicity of a sector, states of a basis. -/

namespace Cyten.Spaces.Spec

variable {S : Type} [DecidableEq S]

/-- The total multiplicity of the sector `s` in a list of sectors with multiplicities. -/
def multOf (sectors : List S) (mults : List ℕ) (s : S) : ℕ :=
  ((sectors.zip mults).map fun p => if p.1 = s then p.2 else 0).sum

/-- The total dimension. -/
def totalDim (dim : S → ℕ) (sectors : List S) (mults : List ℕ) : ℕ :=
  ((sectors.zip mults).map fun p => dim p.1 * p.2).sum

/-- The states of a multiplet `s` that occurs `m` times: the pair `(s, k)` is the `k`-th state of
the multiplet; all copies of the first state come first, then all copies of the second one, ... -/
def block (dim : S → ℕ) (s : S) (m : ℕ) : List (S × ℕ) :=
  (List.range (dim s)).flatMap fun k => List.replicate m (s, k)

/-- The states of the internal basis, one sector after the other. -/
def states (dim : S → ℕ) (sectors : List S) (mults : List ℕ) : List (S × ℕ) :=
  (sectors.zip mults).flatMap fun p => block dim p.1 p.2

/-- The public basis: pairs of the public index `perm[i]` and the state at the internal
index `i`. -/
def publicStates (dim : S → ℕ) (sectors : List S) (mults : List ℕ) (perm : List ℕ) :
    List (ℕ × (S × ℕ)) := perm.zip (states dim sectors mults)

end Cyten.Spaces.Spec
