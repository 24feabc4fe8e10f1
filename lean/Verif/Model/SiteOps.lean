import Mathlib.Data.List.Basic
import Mathlib.Algebra.Group.Defs

/-!
# The operator registry of a site

Models `Site::Site`, `add_onsite_operator`, `valid_opname`, `get_op`, `multiply_op_names`,
`multiply_operators`, `state_index`, `hdf5_init_kwargs` (src/models/degrees_of_freedom.cpp).

Simplifications: operators are elements of a monoid `M` (composition of tensors on the leg of the site;
the conversion of blocks to tensors is C45/C46, the checks of legs are left out); names are lists of
characters; the `std::map` of operators is a list of pairs without repeated names, a failed
lookup or check is `none`.
-/

namespace Cyten.SiteOps

/-- A name. -/
abbrev Name := List Char

/-- A site: the dimension, the state labels, the onsite operators
(src/models/degrees_of_freedom.cpp:259-276). -/
structure Site (M : Type) where
  dim : ℕ
  labels : List (Name × ℤ)
  ops : List (Name × M)

/-- `onsite_operators.at(name)` / `contains` (src/models/degrees_of_freedom.cpp:370, 377-381). -/
def lookup {α : Type} (l : List (Name × α)) (name : Name) : Option α :=
  (l.find? fun x => x.1 = name).map Prod.snd

/-- `add_onsite_operator`: raises if the name exists or contains a space
(src/models/degrees_of_freedom.cpp:314-365). -/
def addOp {M : Type} (s : Site M) (name : Name) (op : M) : Option (Site M) :=
  if (lookup s.ops name).isSome then none
  else if ' ' ∈ name then none
  else some { s with ops := s.ops ++ [(name, op)] }

/-- `add_onsite_operators_from_map` (src/models/degrees_of_freedom.cpp:225-232). -/
def addOps {M : Type} (s : Site M) : List (Name × M) → Option (Site M)
  | [] => some s
  | x :: xs =>
    match addOp s x.1 x.2 with
    | none => none
    | some s' => addOps s' xs

/-- The name `"Id"` (src/models/degrees_of_freedom.cpp:272). -/
def idName : Name := ['I', 'd']

/-- The constructor: `"Id"` is added first (src/models/degrees_of_freedom.cpp:259-276). -/
def mkSite {M : Type} [Monoid M] (dim : ℕ) (labels : List (Name × ℤ)) (ops : List (Name × M)) :
    Option (Site M) :=
  match addOp ⟨dim, labels, []⟩ idName 1 with
  | none => none
  | some s => addOps s ops

/-- `find(' ')`: the part before the first space, and what follows it, if there is one
(src/models/degrees_of_freedom.cpp:376-377, 384, 387-388, 397). -/
def cut : Name → Name × Option Name
  | [] => ([], none)
  | ' ' :: r => ([], some r)
  | c :: r => (c :: (cut r).1, (cut r).2)

/-- The loop `while (!rest.empty())`, at most `fuel` rounds (every round shortens `rest`)
(src/models/degrees_of_freedom.cpp:385-398). -/
def opLoop {M : Type} [Monoid M] (ops : List (Name × M)) : ℕ → Name → M → Option M
  | 0, _, op => some op
  | fuel + 1, rest, op =>
    if rest.isEmpty then some op
    else
      match lookup ops (cut rest).1 with
      | none => none
      | some op2 =>
        match (cut rest).2 with
        | none => some (op * op2)
        | some rest' => opLoop ops fuel rest' (op * op2)

/-- `get_op` (src/models/degrees_of_freedom.cpp:373-400). -/
def getOp {M : Type} [Monoid M] (s : Site M) (name : Name) : Option M :=
  match lookup s.ops (cut name).1 with
  | none => none
  | some op =>
    match (cut name).2 with
    | none => some op
    | some rest => opLoop s.ops (rest.length + 1) rest op

/-- `multiply_op_names` (src/models/degrees_of_freedom.cpp:402-417). -/
def multiplyOpNames : List Name → Name
  | [] => idName
  | [n] => n
  | n :: m :: ns => n ++ ' ' :: multiplyOpNames (m :: ns)

/-- An argument of `multiply_operators`: a name or an operator
(src/models/degrees_of_freedom.cpp:419-441). -/
def resolve {M : Type} [Monoid M] (s : Site M) : Name ⊕ M → Option M
  | .inl name => getOp s name
  | .inr op => some op

/-- The loop of `multiply_operators` (src/models/degrees_of_freedom.cpp:431-439). -/
def multiplyLoop {M : Type} [Monoid M] (s : Site M) : List (Name ⊕ M) → M → Option M
  | [], op => some op
  | x :: xs, op =>
    match resolve s x with
    | none => none
    | some op2 => multiplyLoop s xs (op * op2)

/-- `multiply_operators` (src/models/degrees_of_freedom.cpp:419-441). -/
def multiplyOperators {M : Type} [Monoid M] (s : Site M) : List (Name ⊕ M) → Option M
  | [] => lookup s.ops idName
  | x :: xs =>
    match resolve s x with
    | none => none
    | some op => multiplyLoop s xs op

/-- `state_index` of a label or an integer (src/models/degrees_of_freedom.cpp:457-477). -/
def stateIndex {M : Type} (s : Site M) : Name ⊕ ℤ → Option ℤ
  | .inl key => lookup s.labels key
  | .inr i => if ¬ (-(s.dim : ℤ) ≤ i ∧ i < s.dim) then none else if i < 0 then some (i + s.dim) else some i

/-- `hdf5_init_kwargs` of the base class, then the constructor with these arguments: leg, labels and all
operators except `"Id"` (src/models/degrees_of_freedom.cpp:505-533). -/
def reload {M : Type} [Monoid M] (s : Site M) : Option (Site M) :=
  mkSite s.dim s.labels (s.ops.filter fun x => decide (x.1 ≠ idName))

end Cyten.SiteOps
