import Mathlib.Data.List.Basic
import Mathlib.Data.List.Perm.Basic

/-!
# Saving and loading object graphs: `Hdf5Saver` and `Hdf5Loader`

Models cyten/tools/hdf5_io.py for `None`, datasets (numbers, strings, bytes, arrays), `list`, `tuple`,
`set`, `dict`, `range`, instances with the default `Hdf5Exportable` methods, and `Hdf5Ignored`, with
arbitrary sharing and cycles.

Simplifications: Python objects live in a heap and are referred to by addresses (`id(obj)`); an HDF5 file
is a list of nodes, each with attributes and links to other nodes; a path is the node of the group and
the name of the link in it (the saver and the loader only ever extend the path of a group they are
working on).  h5py stores and returns values of datasets exactly.  The recursion of Python is bounded by
`fuel`.  Not modelled here: integers above 64 bit, `np.dtype`, masked arrays (`Model/Hdf5Misc.lean`),
global functions and classes, the fallback to `__reduce__`, `exclude`.
-/

namespace Cyten.Hdf5

/-- Types of scalars and arrays that are saved as datasets (cyten/tools/hdf5_io.py:274-291). -/
inductive Ty where
  | array | int | float | bytes | complex | int64 | float64 | complex128 | int32 | float32 | complex64
  | npBool | bool
  deriving DecidableEq

/-- A value that is saved as a dataset: a string, or a value of another type with some content. -/
inductive Val where
  | str (s : String)
  | prim (t : Ty) (content : ℕ)
  deriving DecidableEq

/-- A Python object; other objects are given by their addresses.  Keys of dictionaries are objects as
well. -/
inductive Obj where
  | none
  | data (v : Val)
  | list (xs : List ℕ)
  | tuple (xs : List ℕ)
  | set (xs : List ℕ)
  | dict (kvs : List (ℕ × ℕ))
  | range (start stop step : ℕ)
  | inst (cls : String) (kvs : List (ℕ × ℕ))
  | ignored
  deriving DecidableEq

/-- The heap: the object at each address. -/
abbrev Heap := List Obj

/-- Names of links: `str(i)`, a key of a dictionary, or one of the fixed names
(cyten/tools/hdf5_io.py:716, 757, 762-763, 773-775). -/
inductive Name where
  | idx (i : ℕ)
  | key (s : String)
  | keys | values | start | stop | step
  deriving DecidableEq

/-- The three kinds of iterables (cyten/tools/hdf5_io.py:697-699). -/
inductive IterKind where
  | list | tuple | set
  deriving DecidableEq

/-- `REPR_DICT_SIMPLE` and `REPR_DICT_GENERAL` (cyten/tools/hdf5_io.py:267-268). -/
inductive Fmt where
  | simple | general
  deriving DecidableEq

/-- The attributes of a node: nothing yet, or the type with length, class and format; for datasets also
the stored value (cyten/tools/hdf5_io.py:293-297). -/
inductive Attr where
  | unset
  | none
  | data (v : Val)
  | iter (k : IterKind) (len : ℕ)
  | dict (f : Fmt)
  | range
  | inst (cls : String) (f : Option Fmt)
  deriving DecidableEq

/-- A group or dataset. -/
structure Node where
  attr : Attr
  links : List (Name × ℕ)
  deriving DecidableEq

/-- The file: nodes by number; node 0 is the root group `/`. -/
abbrev File := List Node

/-- Where to save: at `path = '/'`, or under a name in a group. -/
inductive Dest where
  | root
  | link (p : ℕ) (n : Name)

/-- State of the saver: the file, and the memo from addresses to nodes
(cyten/tools/hdf5_io.py:476-481). -/
structure SaveState where
  file : File
  memo : ℕ → Option ℕ

/-- `self.h5group[path] = h5gr` or the creation of `path`: a new link in a group; raises if the name is
taken or the path is that of the group itself (empty name). -/
def addLink (f : File) (p : ℕ) (nm : Name) (n : ℕ) : Option File :=
  match f[p]? with
  | none => none
  | some g =>
    if nm = .key "" ∨ nm ∈ g.links.map Prod.fst then none
    else some (f.set p { g with links := g.links ++ [(nm, n)] })

/-- `memorize_save` (cyten/tools/hdf5_io.py:591-610). -/
def memoSave (st : SaveState) (a n : ℕ) : SaveState :=
  { st with memo := fun b => if b = a then some n else st.memo b }

/-- A new dataset with the given attributes, e.g. `self.h5group[path] = obj; h5gr.attrs[...] = ...`;
`/` itself cannot be a dataset (cyten/tools/hdf5_io.py:636-662). -/
def newDataset (st : SaveState) (d : Dest) (at' : Attr) : Option (SaveState × ℕ) :=
  match d with
  | .root => none
  | .link p nm =>
    match addLink (st.file ++ [⟨at', []⟩]) p nm st.file.length with
    | none => none
    | some f => some ({ st with file := f }, st.file.length)

/-- The group of `create_group_for_obj`, without the memo: the existing `/`, or a new group.  An empty
name in `/` gives the path `/` again (cyten/tools/hdf5_io.py:555-588). -/
def createGroup (st : SaveState) (d : Dest) : Option (SaveState × ℕ) :=
  match d with
  | .root => some (st, 0)
  | .link p nm =>
    if p = 0 ∧ nm = .key "" then some (st, 0)
    else
      match addLink (st.file ++ [⟨.unset, []⟩]) p nm st.file.length with
      | none => none
      | some f => some ({ st with file := f }, st.file.length)

/-- Setting attributes of a group. -/
def setAttr (st : SaveState) (n : ℕ) (at' : Attr) : SaveState :=
  match st.file[n]? with
  | none => st
  | some g => { st with file := st.file.set n { g with attr := at' } }

/-- `valid_hdf5_path_component` (cyten/tools/hdf5_io.py:303-309). -/
def validComponent (s : String) : Bool := !('/' ∈ s.toList) && s ≠ "."

/-- The string of a simple key: a `str` that is a valid path component
(cyten/tools/hdf5_io.py:749-753). -/
def simpleKey (h : Heap) (k : ℕ) : Option String :=
  match h[k]? with
  | some (.data (.str s)) => if validComponent s then some s else none
  | _ => none

/-- `for ...: self.save(elem, subpath + name)`, given the function that saves one object. -/
def saveAll (sv : SaveState → Dest → ℕ → Option (SaveState × ℕ)) (p : ℕ) :
    SaveState → List (Name × ℕ) → Option SaveState
  | st, [] => some st
  | st, x :: xs =>
    match sv st (.link p x.1) x.2 with
    | none => none
    | some (st', _) => saveAll sv p st' xs

/-- Items of an iterable with their names (cyten/tools/hdf5_io.py:701-716). -/
def enumNames (xs : List ℕ) : List (Name × ℕ) := xs.zipIdx.map fun x => (.idx x.2, x.1)

/-- `save_iterable` for the views `obj.keys()` and `obj.values()`, new objects that are memorised but
never met again (cyten/tools/hdf5_io.py:690-716, 759-764). -/
def saveView (sv : SaveState → Dest → ℕ → Option (SaveState × ℕ)) (st : SaveState) (p : ℕ) (nm : Name)
    (xs : List ℕ) : Option SaveState :=
  match createGroup st (.link p nm) with
  | none => none
  | some (st1, n) => saveAll sv n (setAttr st1 n (.iter .list xs.length)) (enumNames xs)

/-- `save_dict_content` (cyten/tools/hdf5_io.py:727-765). -/
def saveDictContent (h : Heap) (sv : SaveState → Dest → ℕ → Option (SaveState × ℕ)) (st : SaveState)
    (n : ℕ) (kvs : List (ℕ × ℕ)) : Option (SaveState × Fmt) :=
  match kvs.mapM (fun x => (simpleKey h x.1).map fun s => (Name.key s, x.2)) with
  | some items =>
    match saveAll sv n st items with
    | none => none
    | some st' => some (st', .simple)
  | none =>
    match saveView sv st n .keys (kvs.map Prod.fst) with
    | none => none
    | some st1 =>
      match saveView sv st1 n .values (kvs.map Prod.snd) with
      | none => none
      | some st2 => some (st2, .general)

/-- `create_group_for_obj` (cyten/tools/hdf5_io.py:555-589). -/
def createGroupFor (st : SaveState) (d : Dest) (a : ℕ) : Option (SaveState × ℕ) :=
  match createGroup st d with
  | none => none
  | some (st1, n) => some (memoSave st1 a n, n)

/-- `save_iterable` (cyten/tools/hdf5_io.py:690-716). -/
def saveIter (sv : SaveState → Dest → ℕ → Option (SaveState × ℕ)) (st : SaveState) (d : Dest) (a : ℕ)
    (k : IterKind) (xs : List ℕ) : Option (SaveState × ℕ) :=
  match createGroupFor st d a with
  | none => none
  | some (st1, n) =>
    match saveAll sv n (setAttr st1 n (.iter k xs.length)) (enumNames xs) with
    | none => none
    | some st2 => some (st2, n)

/-- `Hdf5Saver.save`: memo, dispatch on the type, instances
(cyten/tools/hdf5_io.py:483-540, 555-805; 345-370 for `save_hdf5`). -/
def save (h : Heap) : ℕ → SaveState → Dest → ℕ → Option (SaveState × ℕ)
  | 0, _, _, _ => none
  | fuel + 1, st, d, a =>
    match st.memo a with
    | some n =>
      match d with
      | .root => none
      | .link p nm =>
        match addLink st.file p nm n with
        | none => none
        | some f => some ({ st with file := f }, n)
    | none =>
      match h[a]? with
      | none => none
      | some .none =>
        match newDataset st d .none with
        | none => none
        | some (st1, n) => some (memoSave st1 a n, n)
      | some (.data v) =>
        match newDataset st d (.data v) with
        | none => none
        | some (st1, n) => some (memoSave st1 a n, n)
      | some (.list xs) => saveIter (save h fuel) st d a .list xs
      | some (.tuple xs) => saveIter (save h fuel) st d a .tuple xs
      | some (.set xs) => saveIter (save h fuel) st d a .set xs
      | some (.dict kvs) =>
        match createGroupFor st d a with
        | none => none
        | some (st1, n) =>
          match saveDictContent h (save h fuel) st1 n kvs with
          | none => none
          | some (st2, f) => some (setAttr st2 n (.dict f), n)
      | some (.range x y z) =>
        match createGroupFor st d a with
        | none => none
        | some (st1, n) =>
          match saveAll (save h fuel) n (setAttr st1 n .range) [(.start, x), (.stop, y), (.step, z)] with
          | none => none
          | some st2 => some (st2, n)
      | some (.inst cls kvs) =>
        match createGroupFor st d a with
        | none => none
        | some (st1, n) =>
          match saveDictContent h (save h fuel) (setAttr st1 n (.inst cls none)) n kvs with
          | none => none
          | some (st2, f) => some (setAttr st2 n (.inst cls (some f)), n)
      | some .ignored => some (st, 0)

/-- `save_to_hdf5` into a new file, at `/` (cyten/tools/hdf5_io.py:1251-1276). -/
def saveFile (h : Heap) (fuel : ℕ) (a : ℕ) : Option File :=
  (save h fuel ⟨[⟨.unset, []⟩], fun _ => none⟩ .root a).map fun x => x.1.file

/-- State of the loader: the new heap and the memo from nodes to addresses.  Address 0 is `None`
(cyten/tools/hdf5_io.py:892-896). -/
structure LoadState where
  heap : Heap
  memo : ℕ → Option ℕ

/-- A new object. -/
def alloc (st : LoadState) (o : Obj) : LoadState × ℕ := ({ st with heap := st.heap ++ [o] }, st.heap.length)

/-- `memorize_load`: `setdefault` (cyten/tools/hdf5_io.py:951-962). -/
def memoLoad (st : LoadState) (n a : ℕ) : LoadState :=
  { st with memo := fun m => if m = n then some ((st.memo n).getD a) else st.memo m }

/-- `self.memo_load[h5gr.id] = obj` (cyten/tools/hdf5_io.py:1101). -/
def memoOverwrite (st : LoadState) (n a : ℕ) : LoadState :=
  { st with memo := fun m => if m = n then some a else st.memo m }

/-- `self.h5group[path]` for a name in a group. -/
def follow (f : File) (n : ℕ) (nm : Name) : Option ℕ :=
  match f[n]? with
  | none => none
  | some g => (g.links.find? fun x => x.1 = nm).map Prod.snd

/-- The object an append changes (cyten/tools/hdf5_io.py:1069, 1081, 1096). -/
def pushItem (st : LoadState) (a : ℕ) (x : ℕ) : LoadState :=
  match st.heap[a]? with
  | some (.list xs) => { st with heap := st.heap.set a (.list (xs ++ [x])) }
  | some (.set xs) => { st with heap := st.heap.set a (.set (xs ++ [x])) }
  | _ => st

/-- The loop of `load_list`, `load_set`, `load_tuple` over `range(length)`
(cyten/tools/hdf5_io.py:1067-1069, 1079-1081, 1094-1096). -/
def loadItems (f : File) (ld : LoadState → ℕ → Option (LoadState × ℕ)) (n a : ℕ) :
    LoadState → List ℕ → Option LoadState
  | st, [] => some st
  | st, i :: is =>
    match follow f n (.idx i) with
    | none => none
    | some m =>
      match ld st m with
      | none => none
      | some (st1, x) => loadItems f ld n a (pushItem st1 a x) is

/-- `load_list` of a known group (cyten/tools/hdf5_io.py:1062-1070). -/
def loadList (f : File) (ld : LoadState → ℕ → Option (LoadState × ℕ)) (st : LoadState) (n : ℕ) :
    Option (LoadState × ℕ) :=
  match f[n]? with
  | some ⟨.iter _ len, _⟩ =>
    let r := alloc st (.list [])
    match loadItems f ld n r.2 (memoLoad r.1 n r.2) (List.range len) with
    | none => none
    | some st2 => some (st2, r.2)
  | _ => none

/-- Contents of a list object. -/
def listAt (st : LoadState) (a : ℕ) : List ℕ :=
  match st.heap[a]? with
  | some (.list xs) => xs
  | _ => []

/-- `obj[k] = v` for a new string object `k`, and for given keys (`obj.update(zip(keys, values))`); the
keys are distinct (cyten/tools/hdf5_io.py:1120, 1131). -/
def putItems (st : LoadState) (a : ℕ) (kvs : List (ℕ × ℕ)) : LoadState :=
  match st.heap[a]? with
  | some (.dict old) => { st with heap := st.heap.set a (.dict (old ++ kvs)) }
  | _ => st

/-- The loop of `load_simple_dict` over `h5gr.keys()` (cyten/tools/hdf5_io.py:1129-1131). -/
def loadSimple (ld : LoadState → ℕ → Option (LoadState × ℕ)) (a : ℕ) :
    LoadState → List (Name × ℕ) → Option LoadState
  | st, [] => some st
  | st, (.key s, m) :: xs =>
    match ld st m with
    | none => none
    | some (st1, v) =>
      let r := alloc st1 (.data (.str s))
      loadSimple ld a (putItems r.1 a [(r.2, v)]) xs
  | _, _ :: _ => none

/-- `load_dict` of the group `n` into a new dictionary; `order` is the order in which h5py lists the
names of a group (cyten/tools/hdf5_io.py:1106-1132). -/
def loadDict (f : File) (order : List (Name × ℕ) → List (Name × ℕ))
    (ld : LoadState → ℕ → Option (LoadState × ℕ)) (st : LoadState) (n : ℕ) (fmt : Fmt) :
    Option (LoadState × ℕ) :=
  let r := alloc st (.dict [])
  let st1 := memoLoad r.1 n r.2
  match fmt with
  | .simple =>
    match f[n]? with
    | none => none
    | some g =>
      match loadSimple ld r.2 st1 (order g.links) with
      | none => none
      | some st2 => some (st2, r.2)
  | .general =>
    match follow f n .keys with
    | none => none
    | some nk =>
      match loadList f ld st1 nk with
      | none => none
      | some (st2, ks) =>
        match follow f n .values with
        | none => none
        | some nv =>
          match loadList f ld st2 nv with
          | none => none
          | some (st3, vs) => some (putItems st3 r.2 ((listAt st3 ks).zip (listAt st3 vs)), r.2)

/-- The type in `dispatch_load`: `REPR_BOOL` is listed twice, the later `bool` wins
(cyten/tools/hdf5_io.py:288-289, 1020-1021). -/
def loadVal : Val → Val
  | .prim .npBool c => .prim .bool c
  | v => v

/-- `Hdf5Loader.load`: memo (`None` counts as missing), dispatch on the type; instances are made with
`cls.__new__`, memorised, and get the contents of a loaded dictionary
(cyten/tools/hdf5_io.py:905-949, 1001-1181; 373-405 for `from_hdf5`). -/
def load (f : File) (order : List (Name × ℕ) → List (Name × ℕ)) : ℕ → LoadState → ℕ → Option (LoadState × ℕ)
  | 0, _, _ => none
  | fuel + 1, st, n =>
    match (st.memo n).filter (fun a => decide (a ≠ 0)) with
    | some a => some (st, a)
    | none =>
      match f[n]? with
      | none => none
      | some g =>
        match g.attr with
        | .unset => none
        | .none => some (memoLoad st n 0, 0)
        | .data v =>
          let r := alloc st (.data (loadVal v))
          some (memoLoad r.1 n r.2, r.2)
        | .iter .list _ => loadList f (load f order fuel) st n
        | .iter .set len =>
          let r := alloc st (.set [])
          match loadItems f (load f order fuel) n r.2 (memoLoad r.1 n r.2) (List.range len) with
          | none => none
          | some st2 => some (st2, r.2)
        | .iter .tuple len =>
          let r := alloc st (.list [])
          match loadItems f (load f order fuel) n r.2 (memoLoad r.1 n r.2) (List.range len) with
          | none => none
          | some st2 =>
            let t := alloc st2 (.tuple (listAt st2 r.2))
            some (memoOverwrite t.1 n t.2, t.2)
        | .dict fmt => loadDict f order (load f order fuel) st n fmt
        | .range =>
          match follow f n .start, follow f n .stop, follow f n .step with
          | some x, some y, some z =>
            match load f order fuel st x with
            | none => none
            | some (st1, a) =>
              match load f order fuel st1 y with
              | none => none
              | some (st2, b) =>
                match load f order fuel st2 z with
                | none => none
                | some (st3, c) =>
                  let r := alloc st3 (.range a b c)
                  some (memoLoad r.1 n r.2, r.2)
          | _, _, _ => none
        | .inst _ none => none
        | .inst cls (some fmt) =>
          let r := alloc st (.inst cls [])
          match loadDict f order (load f order fuel) (memoLoad r.1 n r.2) n fmt with
          | none => none
          | some (st2, b) =>
            match st2.heap[b]? with
            | some (.dict kvs) => some ({ st2 with heap := st2.heap.set r.2 (.inst cls kvs) }, r.2)
            | _ => none

/-- `load_from_hdf5` (cyten/tools/hdf5_io.py:1279-1310). -/
def loadFile (f : File) (order : List (Name × ℕ) → List (Name × ℕ)) (fuel : ℕ) : Option (Heap × ℕ) :=
  (load f order fuel ⟨[.none], fun _ => none⟩ 0).map fun x => (x.1.heap, x.2)

end Cyten.Hdf5
