import Verif.Model.Tools
import Verif.Model.Labels

/-!
# Model of `PermuteLegsInstructionEngine`, `src/backends/fusion_tree_permute.cpp`

The engine turns a permutation of the legs of a tensor into braids of neighbouring legs, bends of the last
leg of the codomain or the domain, and twists.  The parallel vectors `target_positions`, `should_bend`,
`levels` are one list of records.  `int64` indices that can be negative are integers.
-/

namespace Cyten.Permute
open Cyten.Tools

/-- `Instruction`, include/cyten/backends/fusion_tree_mapping.h: `BraidInstruction{codomain, idx,
overbraid}`, `BendInstruction{bend_down}`, `TwistInstruction{codomain, idcs, overtwist}`. -/
inductive Instr
  | braid (codomain : Bool) (idx : ℕ) (over : Bool)
  | bend (down : Bool)
  | twist (codomain : Bool) (idcs : List ℕ) (over : Bool)
deriving DecidableEq

/-- `ShouldBend`, include/cyten/backends/fusion_tree_permute.h -/
inductive Bend
  | none
  | left
  | right
deriving DecidableEq

/-- `BraidChiralityUnspecifiedError`, or any other failure: a failed assertion, an index out of range, an
empty optional that is read. -/
inductive Err
  | chirality
  | other
deriving DecidableEq

/-- The entries of `target_positions`, `should_bend`, `levels` at one position. -/
structure LegSt where
  target : Option ℕ
  bend : Bend
  level : Option ℤ
deriving DecidableEq

/-- The members of the engine. -/
structure Eng where
  numLegs : ℕ
  sym : Bool
  nCod : ℕ
  nDom : ℕ
  legs : List LegSt
  instrs : List Instr

/-- `bend_right[old_idx].value() ? Right : Left` -/
def bendOf : Option (Option Bool) → Except Err Bend
  | some (some true) => .ok .right
  | some (some false) => .ok .left
  | _ => .error .other

/-- src/backends/fusion_tree_permute.cpp:84-103: one round of the loops of the constructor: the leg `old`
goes to position `new`; it has to bend if `bends`. -/
def initLeg (bendRight : List (Option Bool)) (legs : List LegSt) (old new : ℕ) (bends : Bool) :
    Except Err (List LegSt) :=
  match legs[old]? with
  | none => .error .other
  | some l =>
    if bends then (bendOf bendRight[old]?).map fun b => legs.set old { l with target := some new, bend := b }
    else .ok (legs.set old { l with target := some new })

/-- The loop over `codomain_idcs`, src/backends/fusion_tree_permute.cpp:84-92, from `new_codom_idx` on. -/
def initCod (nCod : ℕ) (bendRight : List (Option Bool)) : List LegSt → ℕ → List ℕ → Except Err (List LegSt)
  | legs, _, [] => .ok legs
  | legs, n, old :: rest => (initLeg bendRight legs old n (decide (nCod ≤ old))).bind fun legs' =>
      initCod nCod bendRight legs' (n + 1) rest

/-- The loop over `domain_idcs`, src/backends/fusion_tree_permute.cpp:93-102, from `new_dom_idx` on. -/
def initDom (nCod numLegs : ℕ) (bendRight : List (Option Bool)) :
    List LegSt → ℕ → List ℕ → Except Err (List LegSt)
  | legs, _, [] => .ok legs
  | legs, n, old :: rest =>
    (initLeg bendRight legs old (numLegs - 1 - n) (decide (old < nCod))).bind fun legs' =>
      initDom nCod numLegs bendRight legs' (n + 1) rest

/-- src/backends/fusion_tree_permute.cpp:67-103: the constructor. -/
def Eng.make (nCod nDom : ℕ) (cod dom : List ℕ) (levels : List (Option ℤ)) (bendRight : List (Option Bool))
    (sym : Bool) : Except Err Eng :=
  let legs := (List.range (nCod + nDom)).map fun i => (⟨none, .none, (levels[i]?).join⟩ : LegSt)
  (initCod nCod bendRight legs 0 cod).bind fun legs =>
    (initDom nCod (nCod + nDom) bendRight legs 0 dom).map fun legs =>
      ⟨nCod + nDom, sym, nCod, nDom, legs, []⟩

/-- src/backends/fusion_tree_permute.cpp:190-205 `compare_levels`, of two legs. -/
def compareLevels (sym : Bool) (l1 l2 : Option ℤ) : Except Err Bool :=
  if sym then .ok true
  else match l1, l2 with
    | some a, some b => if a = b then .error .chirality else .ok (decide (b < a))
    | _, _ => .error .chirality

/-- `over.has_value() ? *over : compare_levels(idx, idx + 1)`,
src/backends/fusion_tree_permute.cpp:400 -/
def chooseOver (sym : Bool) (over : Option Bool) (l1 l2 : Option ℤ) : Except Err Bool :=
  match over with
  | some o => .ok o
  | none => compareLevels sym l1 l2

/-- Exchange of two neighbouring entries. -/
def swapNext {α : Type} (l : List α) (i : ℕ) : List α :=
  match l[i]?, l[i + 1]? with
  | some x, some y => (l.set i y).set (i + 1) x
  | _, _ => l

/-- src/backends/fusion_tree_permute.cpp:392-419 `swap`. -/
def Eng.swap (e : Eng) (idx : ℤ) (over : Option Bool) : Except Err Eng :=
  match Labels.toValidIdx idx e.numLegs with
  | none => .error .other
  | some i =>
    match e.legs[i]?, e.legs[i + 1]? with
    | some x, some y =>
      (chooseOver e.sym over x.level y.level).bind fun o =>
        if i < e.nCod then
          if i + 1 < e.nCod then
            .ok { e with instrs := e.instrs ++ [Instr.braid true i o], legs := swapNext e.legs i }
          else .error .other
        else .ok { e with instrs := e.instrs ++ [Instr.braid false (e.numLegs - 2 - i) o],
                          legs := swapNext e.legs i }
    | _, _ => .error .other

/-- Several calls of `swap` in a row. -/
def Eng.swaps (over : Option Bool) : Eng → List ℕ → Except Err Eng
  | e, [] => .ok e
  | e, j :: js => (e.swap j over).bind fun e' => Eng.swaps over e' js

/-- src/backends/fusion_tree_permute.cpp:363-390 `move_leg`. -/
def Eng.moveLeg (e : Eng) (start goal : ℤ) (over : Option Bool) : Except Err Eng :=
  match Labels.toValidIdx start e.numLegs, Labels.toValidIdx goal e.numLegs with
  | some s, some g =>
    if decide (s < e.nCod) != decide (g < e.nCod) then .error .other
    else if s < g then e.swaps over (List.range' s (g - s))
    else e.swaps (over.map not) (List.range' g (s - g)).reverse
  | _, _ => .error .other

/-- src/backends/fusion_tree_permute.cpp:346-361 `bend`. -/
def Eng.bend (e : Eng) (down : Bool) : Except Err Eng :=
  let p := if down then e.nCod else e.nCod - 1
  match e.legs[p]? with
  | none => .error .other
  | some l =>
    if l.bend = .none ∨ (if down then e.nDom = 0 else e.nCod = 0) then .error .other
    else .ok { e with
      instrs := e.instrs ++ [.bend down]
      legs := e.legs.set p { l with bend := .none }
      nCod := if down then e.nCod + 1 else e.nCod - 1
      nDom := if down then e.nDom - 1 else e.nDom + 1 }

/-- The loop `for (n = 0; n < count; ++n) bend(down)`. -/
def Eng.bends (down : Bool) : Eng → ℕ → Except Err Eng
  | e, 0 => .ok e
  | e, n + 1 => (e.bend down).bind fun e' => Eng.bends down e' n

/-- The entry of `should_bend`. -/
def Eng.bendAt (e : Eng) (i : ℕ) : Bend := (e.legs[i]?.map (·.bend)).getD .none

/-- src/backends/fusion_tree_permute.cpp:213-219: the loop over the legs `legs` that bend to the left; the
last argument is `num_left_bends`. -/
def Eng.gatherLeft : Eng → List ℕ → ℕ → Except Err (Eng × ℕ)
  | e, [], n => .ok (e, n)
  | e, leg :: rest, n =>
    if e.bendAt leg = .left then (e.moveLeg leg n none).bind fun e' => Eng.gatherLeft e' rest (n + 1)
    else Eng.gatherLeft e rest n

/-- src/backends/fusion_tree_permute.cpp:220-226: the loop over the legs that bend to the right. -/
def Eng.gatherRight : Eng → List ℕ → ℕ → Except Err (Eng × ℕ)
  | e, [], n => .ok (e, n)
  | e, leg :: rest, n =>
    if e.bendAt leg = .right then
      (e.moveLeg leg ((e.nCod : ℤ) - 1 - n) none).bind fun e' => Eng.gatherRight e' rest (n + 1)
    else Eng.gatherRight e rest n

/-- src/backends/fusion_tree_permute.cpp:207-228 `do_initial_codomain_permutation`; the result contains the
numbers of bends to the left and to the right. -/
def Eng.initialCodomain (e : Eng) : Except Err (Eng × ℕ × ℕ) :=
  (e.gatherLeft (List.range e.nCod) 0).bind fun r =>
    (r.1.gatherRight (List.range r.1.nCod).reverse 0).map fun r' => (r'.1, r.2, r'.2)

/-- A twist of the first `n` legs, if there are any: src/backends/fusion_tree_permute.cpp:247-251, 322-326. -/
def Eng.twist (e : Eng) (codomain : Bool) (n : ℕ) (over : Bool) : Eng :=
  if 0 < n then { e with instrs := e.instrs ++ [.twist codomain (List.range n) over] } else e

/-- src/backends/fusion_tree_permute.cpp:252-256: the loop over `n` below `count`, downwards; `total` is
`num_left_bends`. -/
def Eng.codLeftBends (total : ℕ) : Eng → ℕ → Except Err Eng
  | e, 0 => .ok e
  | e, n + 1 =>
    (e.moveLeg n ((e.nCod : ℤ) - 1) (some true)).bind fun e1 =>
      (e1.bend false).bind fun e2 =>
        (e2.moveLeg e2.nCod ((n : ℤ) - total) (some true)).bind fun e3 => Eng.codLeftBends total e3 n

/-- src/backends/fusion_tree_permute.cpp:230-257 `do_codomain_bends` -/
def Eng.codomainBends (e : Eng) (numLeft numRight : ℕ) : Except Err Eng :=
  (e.bends false numRight).bind fun e1 => (e1.twist true numLeft true).codLeftBends numLeft numLeft

/-- The positions with the given bend. -/
def Eng.bending (e : Eng) (b : Bend) : List ℕ := (List.range e.numLegs).filter fun i => e.bendAt i = b

/-- `target_positions[i].value()` -/
def Eng.targetAt (e : Eng) (i : ℕ) : ℕ := ((e.legs[i]?).bind (·.target)).getD 0

/-- src/backends/fusion_tree_permute.cpp:268-302: the permutation of the legs.  The targets are distinct, so
that the result of `std::sort` is the one of a stable sort. -/
def Eng.domainPerm (e : Eng) : List ℕ :=
  List.range e.nCod ++ e.bending .right ++
    ((List.range' e.nCod (e.numLegs - e.nCod)).filter fun i => e.bendAt i = .none).insertionSort
      (fun i j => e.targetAt i ≤ e.targetAt j) ++
    e.bending .left

/-- `for (swap_idx : permutation_as_swaps(perm)) swap(swap_idx)`; `permutation_as_swaps`
(src/backends/fusion_tree_permute.cpp:25-65) is the same function as the one of `tools.misc`. -/
def Eng.swapsOf (e : Eng) (perm : List ℕ) : Except Err Eng :=
  match permutationAsSwaps perm with
  | none => .error .other
  | some js => e.swaps none js

/-- src/backends/fusion_tree_permute.cpp:259-307 `do_domain_permutation` -/
def Eng.domainPermutation (e : Eng) : Except Err (Eng × ℕ × ℕ) :=
  (e.swapsOf e.domainPerm).map fun e' => (e', (e.bending .left).length, (e.bending .right).length)

/-- src/backends/fusion_tree_permute.cpp:327-331: the loop over `n` below `count`, downwards. -/
def Eng.domLeftBends (total : ℕ) : Eng → ℕ → Except Err Eng
  | e, 0 => .ok e
  | e, n + 1 =>
    (e.moveLeg (-1 - (n : ℤ)) e.nCod (some true)).bind fun e1 =>
      (e1.bend true).bind fun e2 =>
        (e2.moveLeg ((e2.nCod : ℤ) - 1) ((total : ℤ) - 1 - n) (some true)).bind fun e3 =>
          Eng.domLeftBends total e3 n

/-- src/backends/fusion_tree_permute.cpp:309-332 `do_domain_bends` -/
def Eng.domainBends (e : Eng) (numLeft numRight : ℕ) : Except Err Eng :=
  (e.bends true numRight).bind fun e1 => (e1.twist false numLeft false).domLeftBends numLeft numLeft

/-- src/backends/fusion_tree_permute.cpp:334-344 `do_final_codomain_permutation` -/
def Eng.finalCodomain (e : Eng) : Except Err Eng :=
  e.swapsOf (inversePermutation ((List.range e.nCod).map e.targetAt))

/-- src/backends/fusion_tree_permute.cpp:126-131: the assertions at the end. -/
def Eng.done (e : Eng) : Bool :=
  (List.range e.legs.length).all (fun i => (e.legs[i]?.bind (·.target)) == some i) &&
    e.legs.all fun l => decide (l.bend = .none)

/-- src/backends/fusion_tree_permute.cpp:105-134 `evaluate_instructions` -/
def Eng.evaluate (e : Eng) : Except Err (List Instr) :=
  e.initialCodomain.bind fun r1 =>
    (r1.1.codomainBends r1.2.1 r1.2.2).bind fun e1 =>
      e1.domainPermutation.bind fun r2 =>
        (r2.1.domainBends r2.2.1 r2.2.2).bind fun e2 =>
          e2.finalCodomain.bind fun e3 => if e3.done then .ok e3.instrs else .error .other

/-- The constructor and `evaluate_instructions`, as called in
src/backends/fusion_tree_backend.cpp:1511-1518. -/
def instructions (nCod nDom : ℕ) (cod dom : List ℕ) (levels : List (Option ℤ))
    (bendRight : List (Option Bool)) (sym : Bool) : Except Err (List Instr) :=
  (Eng.make nCod nDom cod dom levels bendRight sym).bind Eng.evaluate

/-- src/backends/fusion_tree_permute.cpp:156-183: the effect of an instruction on the lists of the legs in the
codomain and in the domain (method `verify`); `none`: a failed assertion.  Moreover the pair of legs that
cross (the left one first, seen in the order of the legs of the tensor) with the chirality. -/
def Instr.apply : Instr → List ℕ × List ℕ → Option ((List ℕ × List ℕ) × Option (ℕ × ℕ × Bool))
  | .braid true i o, (c, d) =>
    match c[i]?, c[i + 1]? with
    | some x, some y => some ((swapNext c i, d), some (x, y, o))
    | _, _ => none
  | .braid false i o, (c, d) =>
    match d[i]?, d[i + 1]? with
    | some x, some y => some ((c, swapNext d i), some (y, x, o))
    | _, _ => none
  | .bend true, (c, d) => d.getLast?.map fun x => ((c ++ [x], d.dropLast), none)
  | .bend false, (c, d) => c.getLast?.map fun x => ((c.dropLast, d ++ [x]), none)
  | .twist codomain idcs _, (c, d) =>
    if idcs ≠ [] ∧ ∀ i ∈ idcs, i < (if codomain then c else d).length then some ((c, d), none) else none

/-- src/backends/fusion_tree_permute.cpp:136-188 `verify`: the final lists, and the crossings. -/
def execute : List Instr → List ℕ × List ℕ → Option ((List ℕ × List ℕ) × List (ℕ × ℕ × Bool))
  | [], s => some (s, [])
  | i :: is, s => (i.apply s).bind fun r => (execute is r.1).map fun q => (q.1, r.2.toList ++ q.2)

/-- The initial lists, src/backends/fusion_tree_permute.cpp:145-150. -/
def initialLegs (nCod nDom : ℕ) : List ℕ × List ℕ :=
  (List.range nCod, (List.range' nCod nDom).reverse)

end Cyten.Permute
