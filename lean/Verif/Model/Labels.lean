import Mathlib.Data.List.Nodup
import Mathlib.Data.Int.Notation
import Mathlib.Data.Nat.Notation

/-!
# Model of leg labels (`/repo/src/tensors/labels.cpp`, `/repo/include/cyten/tensors/labels.h`)

Strings are lists of characters; a label is an optional string (`None` is `none`).
The project is built in Debug mode (`/repo/pyproject.toml:80`), so a failing C++ `assert` aborts the
process; `none` results of the string functions and `Outcome.abort` stand for abort or exception as said.
-/

namespace Cyten

abbrev Str := List Char
abbrev LegLabel := Option Str

namespace Labels

/-- `FORBIDDEN_LEG_LABEL_CHARS`, `/repo/include/cyten/tensors/labels.h:29-31`. -/
def forbidden : List Char := [' ', '\t', '\n', '@', ':', '-', '>']

/-- `is_valid_leg_label`, `/repo/src/tensors/labels.cpp:73-86`. -/
def isValid : LegLabel → Bool
  | none => true
  | some s => forbidden.all fun c => !s.contains c

/-- `"{}"` formatting of a non-negative `int64` with `std::format`. -/
def fmtNat (n : ℕ) : Str := Nat.toDigits 10 n

/-- One entry of the loop in `_combine_leg_labels`, `/repo/src/tensors/labels.cpp:95-99`. -/
def part (n : ℕ) (l : LegLabel) (offset : ℕ) : Str :=
  match l with
  | none => '?' :: fmtNat (n + offset)
  | some s => s

/-- The loop of `_combine_leg_labels`, `/repo/src/tensors/labels.cpp:90-100`, from position `n`. -/
def parts (n : ℕ) (offset : ℕ) : List LegLabel → List Str
  | [] => []
  | l :: ls => part n l offset :: parts (n + 1) offset ls

/-- `_combine_leg_labels`, `/repo/src/tensors/labels.cpp:88-103`. -/
def combine (labels : List LegLabel) (offset : ℕ := 0) : Str :=
  '(' :: (List.intercalate ['.'] (parts 0 offset labels) ++ [')'])

/-- `label->starts_with('(') && label->ends_with(')')`. -/
def parenthesised (s : Str) : Bool := s.head? == some '(' && s.getLast? == some ')'

/-- What is pushed for one segment, `/repo/src/tensors/labels.cpp:119-123`. -/
def unpart (p : Str) : LegLabel := if p.head? = some '?' then none else some p

/-- `_split_leg_label(label, nullopt)` of a string, `/repo/src/tensors/labels.cpp:111-133`; `none` is
`std::invalid_argument`. -/
def splitStr (s : Str) : Option (List LegLabel) :=
  if parenthesised s then some (((s.drop 1).dropLast.splitOn '.').map unpart) else none

/-- `_split_leg_label(label, num)`, `/repo/src/tensors/labels.cpp:105-135`; `none` for the exception
or the failing assert. -/
def split (label : LegLabel) (num : ℕ) : Option (List LegLabel) :=
  match label with
  | none => some (List.replicate num none)
  | some s => do
    let ls ← splitStr s
    if ls.length = num then some ls else none

/-- `_dual_leg_label`, `_dual_label_list`, `/repo/src/tensors/labels.cpp:137-161`.  The recursion is
on strictly shorter strings; `fuel` bounds its depth and is never exhausted (`dual_fuel`). -/
def dualStr : ℕ → Str → Str
  | 0, s => s
  | fuel + 1, s =>
    if parenthesised s then
      combine ((((s.drop 1).dropLast.splitOn '.').map unpart).reverse.map fun l =>
        l.map (dualStr fuel)) 0
    else if s.getLast? = some '*' then s.dropLast
    else s ++ ['*']

/-- `_dual_leg_label`, `/repo/src/tensors/labels.cpp:148-161`. -/
def dual (l : LegLabel) : LegLabel := l.map fun s => dualStr (s.length + 1) s

/-- `_get_matching_labels`, `/repo/src/tensors/labels.cpp:163-183` (without the log message). -/
def matching : List LegLabel → List LegLabel → List LegLabel
  | none :: as, l2 :: bs => l2 :: matching as bs
  | some l1 :: as, l2 :: bs =>
    (if l2 = none ∨ some l1 = l2 then some l1 else none) :: matching as bs
  | _, _ => []

/-! ### `LabelledLegs` -/

/-- `duplicate_leg_labels(seq).empty()`, `/repo/src/tensors/labels.cpp:16-30`. -/
def noDup : List LegLabel → List Str → Bool
  | [], _ => true
  | none :: ls, seen => noDup ls seen
  | some s :: ls, seen => !seen.contains s && noDup ls (s :: seen)

/-- `LabelledLegs` state: `_labels` and `_labelmap` (an `unordered_map`, as a partial function).
`num_legs` is the length of `_labels`. -/
structure Legs where
  labels : List LegLabel
  map : Str → Option ℕ

/-- `map[key] = v`. -/
def upd (m : Str → Option ℕ) (k : Str) (v : Option ℕ) : Str → Option ℕ :=
  fun x => if x = k then v else m x

/-- `build_labelmap`, `/repo/src/tensors/labels.cpp:59-68`, loop from position `i`. -/
def buildMap : ℕ → List LegLabel → (Str → Option ℕ) → (Str → Option ℕ)
  | _, [], m => m
  | i, none :: ls, m => buildMap (i + 1) ls m
  | i, some s :: ls, m => buildMap (i + 1) ls (upd m s (some i))

/-- The constructor, `/repo/src/tensors/labels.cpp:202-220`; `none` is `std::invalid_argument`. -/
def Legs.make (labels : List LegLabel) : Option Legs :=
  if noDup labels [] then some ⟨labels, buildMap 0 labels fun _ => none⟩ else none

/-- `to_valid_idx`, `/repo/src/tools.cpp:48-56`; `none` is `std::out_of_range`. -/
def toValidIdx (idx : ℤ) (length : ℕ) : Option ℕ :=
  if idx < -length ∨ idx ≥ length then none
  else some (if idx < 0 then idx + length else idx).toNat

/-- Result of a mutating call: new state, exception (state kept), or abort of the process. -/
inductive Outcome where
  | ok (s : Legs)
  | throws (s : Legs)
  | abort

/-- `set_label`, `/repo/src/tensors/labels.cpp:334-357`. -/
def Legs.setLabel (s : Legs) (pos : ℤ) (label : LegLabel) : Outcome :=
  match toValidIdx pos s.labels.length with
  | none => .throws s
  | some p =>
    if (s.labels.take p).contains label || (s.labels.drop (p + 1)).contains label then .throws s
    else
      let m := match (s.labels[p]?).join with
        | some old => upd s.map old none
        | none => s.map
      let m := match label with
        | some l => upd m l (some p)
        | none => m
      .ok ⟨s.labels.set p label, m⟩

/-- `set_labels`, `/repo/src/tensors/labels.cpp:359-367`. -/
def Legs.setLabels (s : Legs) (labels : List LegLabel) : Outcome :=
  if noDup labels [] ∧ labels.length = s.labels.length then
    .ok ⟨labels, buildMap 0 labels fun _ => none⟩
  else .abort

/-- `relabel`, `/repo/src/tensors/labels.cpp:318-332`; `mapping` as a partial function. -/
def Legs.relabel (s : Legs) (mapping : Str → Option Str) : Outcome :=
  s.setLabels (s.labels.map fun l => l.map fun x => (mapping x).getD x)

/-- The mutating operations a user can call. -/
inductive Op where
  | setLabel (pos : ℤ) (label : LegLabel)
  | setLabels (labels : List LegLabel)
  | relabel (mapping : Str → Option Str)

/-- One call. -/
def Legs.step (s : Legs) : Op → Outcome
  | .setLabel p l => s.setLabel p l
  | .setLabels ls => s.setLabels ls
  | .relabel m => s.relabel m

/-- A history of calls; exceptions are caught by the caller, an abort ends everything. -/
def Legs.run (s : Legs) : List Op → Option Legs
  | [] => some s
  | op :: ops => match s.step op with
    | .ok s' => s'.run ops
    | .throws s' => s'.run ops
    | .abort => none

/-- `get_leg_idcs(label)`, `/repo/src/tensors/labels.cpp:252-261`; `none` is `std::invalid_argument`. -/
def Legs.lookup (s : Legs) (l : Str) : Option ℕ := s.map l

/-- `get_leg_idcs(idx)`, `/repo/src/tensors/labels.cpp:246-250`. -/
def Legs.lookupIdx (s : Legs) (i : ℤ) : Option ℕ := toValidIdx i s.labels.length

/-- `labels_are`, `/repo/src/tensors/labels.cpp:298-316` (comparison of two `std::set`s). -/
def Legs.labelsAre (s : Legs) (want : List Str) : Bool :=
  s.labels.all Option.isSome && want.length == s.labels.length &&
    want.all (fun w => s.labels.contains (some w)) &&
    s.labels.all (fun l => match l with | some x => want.contains x | none => true)

end Labels
end Cyten
