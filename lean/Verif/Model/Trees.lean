/-!
# Model of fusion trees (`/repo/src/symmetries/trees.cpp`)

A `FusionRule` is the part of the `Symmetry` interface that the tree code uses.
Sectors are elements of an arbitrary type `S` of *valid* sectors (the `is_valid_sector`
checks of `test_sanity` are therefore built into the type).
-/

namespace Cyten

/-- The fusion interface of a symmetry used by `trees.cpp`.
Models `/repo/include/cyten/symmetries/base_symmetry.h` (`trivial_sector`, `fusion_outcomes`,
`_n_symbol`, `is_abelian`). -/
structure FusionRule (S : Type) where
  /-- `trivial_sector` -/
  unit : S
  /-- `fusion_outcomes(a, b)`, in the order of the returned sector array -/
  outcomes : S → S → List S
  /-- `_n_symbol(a, b, c)`; only meaningful for allowed fusion channels -/
  rawN : S → S → S → Nat
  /-- `is_abelian()` -/
  isAbelian : Bool

/-- `BaseSymmetry::can_fuse_to`, `/repo/src/symmetries/base_symmetry.cpp:284-294`. -/
def FusionRule.canFuseTo {S : Type} [DecidableEq S] (R : FusionRule S) (a b c : S) : Bool :=
  (R.outcomes a b).any (fun x => x == c)

/-- `BaseSymmetry::n_symbol`, `/repo/src/symmetries/base_symmetry.cpp:129-136`. -/
def FusionRule.nSymbol {S : Type} [DecidableEq S] (R : FusionRule S) (a b c : S) : Nat :=
  if R.canFuseTo a b c then R.rawN a b c else 0

/-- What the documentation of `fusion_outcomes`/`_n_symbol` promises: outcomes are listed without
duplicates, multiplicities of allowed channels are positive, and an abelian symmetry has
multiplicity one everywhere
(`/repo/include/cyten/symmetries/base_symmetry.h`, docs of `fusion_outcomes`, `_n_symbol`). -/
structure FusionRule.Lawful {S : Type} (R : FusionRule S) : Prop where
  nodup : ∀ a b, (R.outcomes a b).Nodup
  rawN_pos : ∀ a b c, c ∈ R.outcomes a b → 0 < R.rawN a b c
  abelian_one : R.isAbelian = true → ∀ a b c, c ∈ R.outcomes a b → R.rawN a b c = 1

/-- `FusionTree`, `/repo/include/cyten/symmetries/trees.h` and the constructor
`/repo/src/symmetries/trees.cpp:310-351`.  `num_uncoupled` etc. are derived quantities here.
Multiplicity labels are `int64` in C++; here natural numbers (negative labels are rejected by
`test_sanity`). The symmetry is a separate argument of the functions below. -/
structure FusionTree (S : Type) where
  uncoupled : List S
  coupled : S
  areDual : List Bool
  inner : List S
  mult : List Nat
deriving DecidableEq, Repr

namespace FusionTree

variable {S : Type}

/-- `vertex_labels(n)`, `/repo/src/symmetries/trees.cpp:978-998`.
`none` stands for an out-of-bounds access. -/
def vertexLabels (t : FusionTree S) (n : Nat) : Option (S × S × Nat × S) :=
  let numVertices := t.uncoupled.length - 1
  let ab : Option (S × S) :=
    if n = 0 then
      match t.uncoupled[0]?, t.uncoupled[1]? with
      | some a, some b => some (a, b)
      | _, _ => none
    else
      match t.inner[n - 1]?, t.uncoupled[n + 1]? with
      | some a, some b => some (a, b)
      | _, _ => none
  let c : Option S := if n = numVertices - 1 then some t.coupled else t.inner[n]?
  match ab, t.mult[n]?, c with
  | some (a, b), some mu, some c => some (a, b, mu, c)
  | _, _, _ => none

/-- `FusionTree::test_sanity`, `/repo/src/symmetries/trees.cpp:353-380`: the assertions hold.
(The asserts on valid sectors are built into the type `S`; `mu >= 0` into `Nat`.) -/
structure Sane [DecidableEq S] (R : FusionRule S) (t : FusionTree S) : Prop where
  len_dual : t.areDual.length = t.uncoupled.length
  len_inner : t.inner.length = t.uncoupled.length - 2
  len_mult : t.mult.length = t.uncoupled.length - 1
  zero_legs : t.uncoupled = [] → t.coupled = R.unit
  one_leg : ∀ a, t.uncoupled = [a] → a = t.coupled
  vertices : ∀ n, n < t.uncoupled.length - 1 →
    ∃ a b mu c, t.vertexLabels n = some (a, b, mu, c) ∧
      0 < R.nSymbol a b c ∧ mu < R.nSymbol a b c

/-- `FusionTree::from_empty`, `/repo/src/symmetries/trees.cpp:414-423`. -/
def fromEmpty (R : FusionRule S) : FusionTree S := ⟨[], R.unit, [], [], []⟩

/-- `FusionTree::from_sector`, `/repo/src/symmetries/trees.cpp:425-434`. -/
def fromSector (a : S) (isDual : Bool) : FusionTree S := ⟨[a], a, [isDual], [], []⟩

/-- loop of `from_abelian_symmetry`, `/repo/src/symmetries/trees.cpp:396-404`:
the list of running fusion outcomes (`outcomes[0]`; `none` if there is no outcome). -/
def abelianOutcomes (R : FusionRule S) (last : S) : List S → Option (List S)
  | [] => some []
  | a :: rest =>
    match (R.outcomes last a).head? with
    | none => none
    | some f =>
      match abelianOutcomes R f rest with
      | none => none
      | some fs => some (f :: fs)

/-- `FusionTree::from_abelian_symmetry`, `/repo/src/symmetries/trees.cpp:382-412`. -/
def fromAbelianSymmetry (R : FusionRule S) (uncoupled : List S) (areDual : List Bool) :
    Option (FusionTree S) :=
  match uncoupled, areDual with
  | [], _ => some (fromEmpty R)
  | [a], d :: _ => some (fromSector a d)
  | [_], [] => none
  | a :: b :: rest, _ =>
    match abelianOutcomes R a (b :: rest) with
    | none => none
    | some fs =>
      match fs.getLast? with
      | none => none
      | some c => some ⟨uncoupled, c, areDual, fs.dropLast, List.replicate (rest.length + 1) 0⟩

/-- `FusionTree::extended`, `/repo/src/symmetries/trees.cpp:1174-1201`
(for an empty tree the code asserts `mu == 0`, and drops it). -/
def extended (t : FusionTree S) (newUncoupled : S) (mu : Nat) (newCoupled : S) (isDual : Bool) :
    FusionTree S :=
  { uncoupled := t.uncoupled ++ [newUncoupled]
    coupled := newCoupled
    areDual := t.areDual ++ [isDual]
    inner := if 2 ≤ t.uncoupled.length then t.inner ++ [t.coupled] else t.inner
    mult := if t.uncoupled.length = 0 then [] else t.mult ++ [mu] }

/-- `FusionTree::insert`, `/repo/src/symmetries/trees.cpp:1203-1216`. -/
def insert (t t2 : FusionTree S) : FusionTree S :=
  { uncoupled := t2.uncoupled ++ t.uncoupled.drop 1
    coupled := t.coupled
    areDual := t2.areDual ++ t.areDual.drop 1
    inner := t2.inner ++ t.uncoupled.take 1 ++ t.inner
    mult := t2.mult ++ t.mult }

/-- `FusionTree::split`, `/repo/src/symmetries/trees.cpp:1395-1428`. -/
def split (t : FusionTree S) (n : Nat) : Except String (FusionTree S × FusionTree S) :=
  if n < 2 then .error "Left tree has no vertices (n < 2)"
  else if t.uncoupled.length ≤ n then .error "Right tree has no vertices (n >= num_uncoupled)"
  else
    match t.inner[n - 2]? with
    | none => .error "out of bounds"
    | some cut =>
      .ok (⟨t.uncoupled.take n, cut, t.areDual.take n, t.inner.take (n - 2), t.mult.take (n - 1)⟩,
           ⟨cut :: t.uncoupled.drop n, t.coupled, false :: t.areDual.drop n,
            t.inner.drop (n - 1), t.mult.drop (n - 1)⟩)

/-- `FusionTree::split_bottom_vertex`, `/repo/src/symmetries/trees.cpp:1430-1452`;
returns (rest tree, coupled, mu, last uncoupled). -/
def splitBottomVertex (R : FusionRule S) (t : FusionTree S) :
    Except String (FusionTree S × S × Nat × S) :=
  match t.uncoupled with
  | [] => .error "Cant split empty tree"
  | [_] => .ok (fromEmpty R, t.coupled, 0, t.coupled)
  | [a, b] =>
    match t.areDual[0]?, t.mult[0]? with
    | some d, some mu => .ok (fromSector a d, t.coupled, mu, b)
    | _, _ => .error "out of bounds"
  | _ :: _ :: _ :: _ =>
    match t.inner.getLast?, t.mult.getLast?, t.uncoupled.getLast? with
    | some i, some mu, some b =>
      .ok (⟨t.uncoupled.dropLast, i, t.areDual.dropLast, t.inner.dropLast, t.mult.dropLast⟩,
           t.coupled, mu, b)
    | _, _, _ => .error "out of bounds"

end FusionTree

/-! ## The iterable `fusion_trees` -/

namespace FusionTrees

variable {S : Type} [DecidableEq S]

/-- `fusion_trees::all_trees`, `/repo/src/symmetries/trees.cpp:1551-1624`. -/
def allTrees (R : FusionRule S) (uncoupled : List S) (coupled : S) (areDual : List Bool) :
    List (FusionTree S) :=
  match uncoupled with
  | [] => if coupled = R.unit then [⟨[], coupled, [], [], []⟩] else []
  | [a] => if a = coupled then [⟨[a], coupled, areDual, [], []⟩] else []
  | [a, b] =>
    (List.range (R.nSymbol a b coupled)).map fun mu => ⟨[a, b], coupled, areDual, [], [mu]⟩
  | a1 :: a2 :: a3 :: rest =>
    (R.outcomes a1 a2).flatMap fun b =>
      let leftTree : FusionTree S := ⟨[a1, a2], b, areDual.take 2, [], [0]⟩
      (allTrees R (b :: a3 :: rest) coupled (false :: areDual.drop 2)).flatMap fun restTree =>
        let tree := restTree.insert leftTree
        (List.range (R.rawN a1 a2 b)).map fun mu => { tree with mult := tree.mult.set 0 mu }
termination_by uncoupled.length

/-- `fusion_trees::size`, `/repo/src/symmetries/trees.cpp:1626-1655`. -/
def size (R : FusionRule S) (uncoupled : List S) (coupled : S) : Nat :=
  match uncoupled with
  | [] => if coupled = R.unit then 1 else 0
  | [a] => if a = coupled then 1 else 0
  | [a, b] => R.nSymbol a b coupled
  | a1 :: a2 :: a3 :: rest =>
    ((R.outcomes a1 a2).map fun b => R.rawN a1 a2 b * size R (b :: a3 :: rest) coupled).sum
termination_by uncoupled.length

/-- Inner loop of `compute_index` over fusion outcomes,
`/repo/src/symmetries/trees.cpp:1736-1754`.  `rest` is `uncoupled[i+2:]`. Returns the updated
`idx` and the multiplicity of the target sector, or `none` if `sector_found` stays false. -/
def scanOutcomes (R : FusionRule S) (left next : S) (rest : List S) (coupled target : S)
    (leftMulti : Nat) : List S → Nat → Option (Nat × Nat)
  | [], _ => none
  | x :: xs, idx =>
    let multi := R.rawN left next x
    if x = target then some (idx, multi)
    else scanOutcomes R left next rest coupled target leftMulti xs
      (idx + leftMulti * multi * size R (x :: rest) coupled)

/-- Outer loop of `compute_index` over `i + 2 < num_uncoupled`,
`/repo/src/symmetries/trees.cpp:1729-1758`; as a recursion over the suffixes
`rest = uncoupled[i+1:]` and `inner = inner_sectors[i:]`. Returns the final `idx`, the last
`left_sec`, and `max_multis`. -/
def indexLoop (R : FusionRule S) (coupled : S) (left : S) (rest inner : List S)
    (leftMulti idx : Nat) (maxMultis : List Nat) : Except String (Nat × S × List Nat) :=
  match rest with
  | next :: next2 :: rest' =>
    match inner with
    | [] => .error "out of bounds"
    | target :: inner' =>
      match scanOutcomes R left next (next2 :: rest') coupled target leftMulti
          (R.outcomes left next) idx with
      | none => .error "Inconsistent inner sector."
      | some (idx', multi) =>
        indexLoop R coupled target (next2 :: rest') inner' (leftMulti * multi) idx'
          (maxMultis ++ [multi])
  | _ => .ok (idx, left, maxMultis)
termination_by rest.length

/-- Shift of the index from multiplicities, `/repo/src/symmetries/trees.cpp:1778-1787`. -/
def multShift (mult maxMultis : List Nat) : Nat :=
  ((List.range mult.length).map fun i => mult.getD i 0 * (maxMultis.take i).prod).sum

/-- `fusion_trees::compute_index`, `/repo/src/symmetries/trees.cpp:1708-1783`. -/
def computeIndex (R : FusionRule S) (uncoupled : List S) (coupled : S) (tree : FusionTree S) :
    Except String Nat :=
  match uncoupled with
  | [] => if coupled = R.unit then .ok 0 else .error "Inconsistent coupled sector."
  | [a] => if a = coupled then .ok 0 else .error "Inconsistent coupled sector."
  | a :: b :: rest =>
    match indexLoop R coupled a (b :: rest) tree.inner 1 0 [] with
    | .error e => .error e
    | .ok (idx, left, maxMultis) =>
      match (b :: rest).getLast? with
      | none => .error "out of bounds"
      | some last =>
        if ¬ R.canFuseTo left last coupled then .error "Inconsistent inner sector."
        else
          let maxMultis := maxMultis ++ [R.rawN left last coupled]
          if tree.mult.length ≠ maxMultis.length then .error "Inconsistent multiplicity."
          else if ¬ (List.zip tree.mult maxMultis).all (fun p => p.1 < p.2) then
            .error "Inconsistent multiplicity."
          else if R.isAbelian then .ok idx
          else .ok (idx + multShift tree.mult maxMultis)

/-- `fusion_trees::index`, `/repo/src/symmetries/trees.cpp:1685-1706`
(the symmetry check is omitted: both sides use the same `R`). -/
def index (R : FusionRule S) (uncoupled : List S) (coupled : S) (areDual : List Bool)
    (tree : FusionTree S) : Except String Nat :=
  if uncoupled ≠ tree.uncoupled then .error "Inconsistent uncoupled sectors"
  else if coupled ≠ tree.coupled then .error "Inconsistent coupled sector"
  else if areDual ≠ tree.areDual then .error "Inconsistent dualities"
  else computeIndex R uncoupled coupled tree

end FusionTrees
end Cyten
