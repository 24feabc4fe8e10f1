import Mathlib.Algebra.Ring.Defs
import Mathlib.Algebra.Order.Ring.Abs

/-!
# Model of `include/cyten/tools/mappings.h`

`std::unordered_map` is a list of key-value pairs (with distinct keys, see the invariant in the
lemmas); the order of the list is the unspecified order of iteration: nothing proved depends on it.
The scalars are an arbitrary commutative semiring; key types are arbitrary with decidable equality.
-/

namespace Cyten.Mappings

variable {K S : Type} [DecidableEq K]

/-- `unordered_map<K, V>` -/
abbrev UMap (K V : Type) := List (K × V)

/-- `find` -/
def UMap.find {V : Type} (m : UMap K V) (k : K) : Option V :=
  match m with
  | [] => none
  | (k', v) :: m => if k' = k then some v else UMap.find m k

/-- `m[k] += v` (a missing entry is created with the value zero) -/
def UMap.addTo [Add S] [Zero S] (m : UMap K S) (k : K) (v : S) : UMap K S :=
  match m with
  | [] => [(k, 0 + v)]
  | (k', w) :: m => if k' = k then (k', w + v) :: m else (k', w) :: UMap.addTo m k v

/-- `m[k] = v` -/
def UMap.assign {V : Type} (m : UMap K V) (k : K) (v : V) : UMap K V :=
  match m with
  | [] => [(k, v)]
  | (k', w) :: m => if k' = k then (k', v) :: m else (k', w) :: UMap.assign m k v

/-- `SparseMapping::data`: `self[j][i] = A_{ij}`. -/
abbrev SMap (K S : Type) := UMap K (UMap K S)

/-- include/cyten/tools/mappings.h:43-51 `SparseMapping::from_identity`. -/
def fromIdentity [One S] (keys : List K) : SMap K S :=
  keys.foldl (fun res i => UMap.assign res i [(i, 1)]) []

/-- The innermost loop of `pre_compose`, include/cyten/tools/mappings.h:68-70, for the entry
`self_jk` at `j`. -/
def composeStep [Add S] [Mul S] [Zero S] (other : SMap K S) (resK : UMap K S) (p : K × S) :
    UMap K S :=
  match other.find p.1 with
  | none => resK
  | some otherJ => otherJ.foldl (fun resK (q : K × S) => resK.addTo q.1 (q.2 * p.2)) resK

/-- The two inner loops of `pre_compose`, include/cyten/tools/mappings.h:63-71: the column `res_k`
from the column `self_k`. -/
def composeColumn [Add S] [Mul S] [Zero S] (other : SMap K S) (selfK : UMap K S) : UMap K S :=
  selfK.foldl (composeStep other) []

/-- include/cyten/tools/mappings.h:56-74 `SparseMapping::pre_compose`.  The keys of `data` are
distinct, so that each `res.data[k]` is a new entry. -/
def preCompose [Add S] [Mul S] [Zero S] (self other : SMap K S) : SMap K S :=
  self.map fun p => (p.1, composeColumn other p.2)

/-- include/cyten/tools/mappings.h:77-88 `nonzero_rows` (as a list of set insertions). -/
def nonzeroRows (self : SMap K S) : List K := self.flatMap fun (_, c) => c.map (·.1)

/-- include/cyten/tools/mappings.h:91-100 `nonzero_cols`. -/
def nonzeroCols (self : SMap K S) : List K := self.map (·.1)

/-- include/cyten/tools/mappings.h:105-118 `prune`, for an absolute value `abs` with values in an
ordered type. -/
def prune {R : Type} [LT R] [DecidableLT R] (abs : S → R) (tol : R) (self : SMap K S) : SMap K S :=
  self.map fun p => (p.1, p.2.filter fun q => decide (tol < abs q.2))

/-- include/cyten/tools/mappings.h:150-163 `IdentityMapping::pre_compose`; `keys` has no
duplicates (it is an `unordered_set`). -/
def idPreCompose (keys : List K) (other : SMap K S) : SMap K S :=
  keys.filterMap fun k => (other.find k).map fun c => (k, c)

end Cyten.Mappings
