import Mathlib.Data.Rat.Defs
import Mathlib.Algebra.Order.Ring.Rat
import Mathlib.Data.Int.Notation

/-!
# Model of the configuration (`/repo/src/config.cpp`, `/repo/pybind/py_config.cpp`)

A python value that is passed as an option is a `bool`, `int`, `float`, `str`, or something else
which is converted with `str(...)`.  The string-to-number conversions (`std::stoll`, `std::stod`) are
parameters (`Parsers`).  Files, environment and yaml are only modelled as the dictionaries they yield.
-/

namespace Cyten.Config

/-- `float64` values. -/
inductive Flt where
  | nan
  | negInf
  | fin (q : ℚ)
  | posInf
deriving DecidableEq

/-- `x < 0.0` in IEEE arithmetic. -/
def Flt.ltZero : Flt → Bool
  | .nan => false
  | .negInf => true
  | .fin q => decide (q < 0)
  | .posInf => false

/-- An option value as passed from python. -/
inductive Val where
  | bool (b : Bool)
  | int (z : ℤ)
  | float (x : Flt)
  | str (s : String)
  | other (s : String)

/-- `std::stoll`/`std::stod` with the check that nothing is left (`none`: exception),
`/repo/src/config.cpp:40-68`. -/
structure Parsers where
  int : String → Option ℤ
  float : String → Option Flt
  ofInt : ℤ → Flt
  /-- `static_cast<double>(int64)` keeps the sign -/
  ofInt_neg : ∀ z, (ofInt z).ltZero = decide (z < 0)
  /-- ... and is a number -/
  ofInt_num : ∀ z, ofInt z ≠ .nan

/-- The exceptions raised by `set_option`. -/
inductive Err where
  | value | type | key
deriving DecidableEq

/-- `CytenConfig`, `/repo/include/cyten/config.h:12-28`. -/
structure Cfg where
  print_linewidth : ℤ := 100
  print_indent : ℤ := 2
  maxlines_spaces : ℤ := 15
  maxlines_tensors : ℤ := 30
  check_fusion : Bool := true
  default_tensor_backend : String := "abelian"
  default_block_backend : String := "numpy"
  fusion_tree_eps : Flt := .fin (5 / 100000000000000)
deriving DecidableEq

/-- `all_option_keys`, `/repo/src/config.cpp:173-181`. -/
def allKeys : List String := ["print_linewidth", "print_indent", "maxlines_spaces",
  "maxlines_tensors", "check_fusion", "default_tensor_backend", "default_block_backend",
  "fusion_tree_eps"]

/-- `coerce_bool`, `/repo/src/config.cpp:31-38`. -/
def coerceBool (s : String) : Bool :=
  let l := s.toList.map Char.toLower
  l == "true".toList || l == "1".toList || l == "y".toList || l == "yes".toList

/-- `set_option(key, float64)`, `/repo/src/config.cpp:213-224`, with `check_min` (`:79-86`). -/
def setFloat (c : Cfg) (key : String) (x : Flt) : Except Err Cfg :=
  if key = "fusion_tree_eps" then
    if x.ltZero then .error .value else .ok { c with fusion_tree_eps := x }
  else if key ∈ allKeys then .error .type else .error .key

/-- `set_option(key, int64)`, `/repo/src/config.cpp:189-211`. -/
def setInt (P : Parsers) (c : Cfg) (key : String) (v : ℤ) : Except Err Cfg :=
  if key = "print_linewidth" then
    if v < 10 then .error .value else .ok { c with print_linewidth := v }
  else if key = "print_indent" then
    if v < 0 then .error .value else .ok { c with print_indent := v }
  else if key = "maxlines_spaces" then
    if v < 0 then .error .value else .ok { c with maxlines_spaces := v }
  else if key = "maxlines_tensors" then
    if v < 0 then .error .value else .ok { c with maxlines_tensors := v }
  else if key = "fusion_tree_eps" then setFloat c key (P.ofInt v)
  else if key ∈ allKeys then .error .type else .error .key

/-- `set_option(key, bool)`, `/repo/src/config.cpp:226-236`. -/
def setBool (c : Cfg) (key : String) (b : Bool) : Except Err Cfg :=
  if key = "check_fusion" then .ok { c with check_fusion := b }
  else if key ∈ allKeys then .error .type else .error .key

/-- the tensor backends, `/repo/src/config.cpp:242-244`. -/
def tensorBackends : List String := ["no_symmetry", "abelian", "fusion_tree"]
/-- the block backends, `/repo/src/config.cpp:249-251`. -/
def blockBackends : List String := ["numpy", "torch", "cpu", "gpu", "apple_silicon"]

/-- `set_option(key, string)`, `/repo/src/config.cpp:238-265`. -/
def setStr (P : Parsers) (c : Cfg) (key : String) (v : String) : Except Err Cfg :=
  if key = "print_linewidth" ∨ key = "print_indent" ∨ key = "maxlines_spaces" ∨
      key = "maxlines_tensors" then
    match P.int v with
    | none => .error .value
    | some z => setInt P c key z
  else if key = "check_fusion" then setBool c key (coerceBool v)
  else if key = "fusion_tree_eps" then
    match P.float v with
    | none => .error .value
    | some x => setFloat c key x
  else if key = "default_tensor_backend" then
    if v ∈ tensorBackends then .ok { c with default_tensor_backend := v } else .error .value
  else if key = "default_block_backend" then
    if v ∈ blockBackends then .ok { c with default_block_backend := v } else .error .value
  else .error .key

/-- The values of `int64`. -/
def IsInt64 (z : ℤ) : Prop := -9223372036854775808 ≤ z ∧ z ≤ 9223372036854775807

instance (z : ℤ) : Decidable (IsInt64 z) := by unfold IsInt64; infer_instance

/-- One iteration of `update(dict)`, `/repo/src/config.cpp:270-284`; `py::cast<int64>` raises outside
the range of `int64`. -/
def setVal (P : Parsers) (c : Cfg) (key : String) : Val → Except Err Cfg
  | .bool b => setBool c key b
  | .int z => if IsInt64 z then setInt P c key z else .error .value
  | .float x => setFloat c key x
  | .str s => setStr P c key s
  | .other s => setStr P c key s

/-- `update(dict)`, `/repo/src/config.cpp:267-286`: on an exception the options already set stay
set. -/
def update (P : Parsers) (c : Cfg) : List (String × Val) → Cfg × Option Err
  | [] => (c, none)
  | (k, v) :: rest => match setVal P c k v with
    | .error e => (c, some e)
    | .ok c' => update P c' rest

/-- Python programs acting on the global configuration. `block opts p` is
`with temporary_options(**opts): p`. -/
inductive Prog where
  | skip
  | seq (p q : Prog)
  | setOption (key : String) (v : Val)
  | setOptions (opts : List (String × Val))
  | block (opts : List (String × Val)) (body : Prog)
  | raise
  | tryExcept (p : Prog)

/-- Final configuration and whether an exception propagates.  `set_option(key, handle)` and
`set_options` go through `update` (`/repo/src/config.cpp:442-456`); `TemporaryOptions::enter/exit`
(`/repo/pybind/py_config.cpp:19-36`): `__exit__` is called iff `__enter__` returned. -/
def run (P : Parsers) (c : Cfg) : Prog → Cfg × Bool
  | .skip => (c, false)
  | .seq p q => match run P c p with
    | (c', true) => (c', true)
    | (c', false) => run P c' q
  | .setOption k v => ((update P c [(k, v)]).1, (update P c [(k, v)]).2.isSome)
  | .setOptions opts => ((update P c opts).1, (update P c opts).2.isSome)
  | .block opts body => match update P c opts with
    | (c', some _) => (c', true)
    | (c', none) => (c, (run P c' body).2)
  | .raise => (c, true)
  | .tryExcept p => ((run P c p).1, false)

/-- `get_option`, `/repo/src/config.cpp:342-362`; `none` is the `KeyError`. -/
def getOption (c : Cfg) (key : String) : Option Val :=
  if key = "print_linewidth" then some (.int c.print_linewidth)
  else if key = "print_indent" then some (.int c.print_indent)
  else if key = "maxlines_spaces" then some (.int c.maxlines_spaces)
  else if key = "maxlines_tensors" then some (.int c.maxlines_tensors)
  else if key = "check_fusion" then some (.bool c.check_fusion)
  else if key = "default_tensor_backend" then some (.str c.default_tensor_backend)
  else if key = "default_block_backend" then some (.str c.default_block_backend)
  else if key = "fusion_tree_eps" then some (.float c.fusion_tree_eps)
  else none

/-- `save_hdf5` writes `get_option(key)` for every key, `/repo/src/config.cpp:385-392`. -/
def save (c : Cfg) : List (String × Val) :=
  allKeys.filterMap fun k => (getOption c k).map fun v => (k, v)

/-- `from_hdf5`: defaults updated with the loaded options, `/repo/src/config.cpp:394-404`. -/
def load (P : Parsers) (d : List (String × Val)) : Cfg × Option Err := update P {} d

end Cyten.Config
