import Verif.Model.Spaces

/-!
# Model of (nested) legs and leg pipes, `src/symmetries/spaces.cpp`

A leg is an `ElementarySpace` or a `LegPipe` of legs.  (`AbelianLegPipe` has its own model; as a
leg it is an elementary space.)  `num_legs`, `dim`, `_basis_perm` are functions here, since the
constructor computes them from the arguments.  `none` is an exception.
-/

namespace Cyten.Spaces
open Cyten.Tools

/-- `Leg`: an `ElementarySpace` or a `LegPipe(legs, is_dual, combine_cstyle)`,
include/cyten/symmetries/spaces.h:40-230. -/
inductive Leg (S : Type)
  | space (e : ESpace S)
  | pipe (legs : List (Leg S)) (isDual cstyle : Bool)

namespace Leg
variable {S : Type} [LinearOrder S]

mutual
/-- `dual_leg`, src/symmetries/spaces.cpp:694-703 (`LegPipe`) and 1668-1679
(`ElementarySpace`). -/
def dual : Leg S → Leg S
  | .space e => .space e.dual
  | .pipe legs d c => .pipe (dualAll legs).reverse (!d) (!c)
/-- `dual_leg` of each entry (before the reversal). -/
def dualAll : List (Leg S) → List (Leg S)
  | [] => []
  | l :: ls => l.dual :: dualAll ls
end

mutual
/-- `dim`, src/symmetries/spaces.cpp:668-672. -/
def dim (sym : Sym S) : Leg S → ℕ
  | .space e => e.dim sym
  | .pipe legs _ _ => dimAll sym legs
/-- The product of the dimensions. -/
def dimAll (sym : Sym S) : List (Leg S) → ℕ
  | [] => 1
  | l :: ls => l.dim sym * dimAll sym ls
end

mutual
/-- `flat_legs`, src/symmetries/spaces.cpp:198-202, 711-720. -/
def flatLegs : Leg S → List (Leg S)
  | .space e => [.space e]
  | .pipe legs _ _ => flatAll legs
/-- Concatenation of the `flat_legs`. -/
def flatAll : List (Leg S) → List (Leg S)
  | [] => []
  | l :: ls => l.flatLegs ++ flatAll ls
end

mutual
/-- `num_flat_legs`, src/symmetries/spaces.cpp:210-214, 733-741. -/
def numFlat : Leg S → ℕ
  | .space _ => 1
  | .pipe legs _ _ => numFlatAll legs
/-- The sum of the `num_flat_legs`. -/
def numFlatAll : List (Leg S) → ℕ
  | [] => 0
  | l :: ls => l.numFlat + numFlatAll ls
end

/-- `offsets` of src/symmetries/spaces.cpp:757-763: running sums. -/
def offsetsFrom (running : ℕ) : List ℕ → List ℕ
  | [] => []
  | n :: ns => running :: offsetsFrom (running + n) ns

/-- `num_flat_legs` of each entry. -/
def numFlats (legs : List (Leg S)) : List ℕ := legs.map numFlat

/-- `offsets` of src/symmetries/spaces.cpp:753-766. -/
def pipeOffsets (legs : List (Leg S)) (cstyle : Bool) (offset : ℕ) : List ℕ :=
  if cstyle then offsetsFrom offset (numFlats legs)
  else (offsetsFrom offset (numFlats legs).reverse).reverse

mutual
/-- `_flat_leg_permutation`, src/symmetries/spaces.cpp:216-220, 743-773. -/
def flatPerm : Leg S → ℕ → List ℕ
  | .space _, offset => [offset]
  | .pipe legs _ cstyle, offset =>
    if legs.length = numFlatAll legs then
      if cstyle then List.range' offset legs.length else (List.range' offset legs.length).reverse
    else flatPermAll legs (pipeOffsets legs cstyle offset)
/-- The loop of src/symmetries/spaces.cpp:767-771. -/
def flatPermAll : List (Leg S) → List ℕ → List ℕ
  | l :: ls, o :: os => l.flatPerm o ++ flatPermAll ls os
  | _, _ => []
end

/-- `flat_leg_permutation(legs)`, src/symmetries/spaces.cpp:3747-3764. -/
def flatLegPermutation (legs : List (Leg S)) : List ℕ :=
  flatPermAll legs (offsetsFrom 0 (numFlats legs))

/-- `basis_perm()` if the stored permutation is `p`, src/symmetries/spaces.cpp:141-151. -/
def permOrId (sym : Sym S) (l : Leg S) (p : Option (List ℕ)) : List ℕ :=
  match p with
  | some p => p
  | none => List.range (l.dim sym)

/-- src/symmetries/spaces.cpp:629-655 `combined_basis_perm`: no permutation if no leg has one. -/
def combinedPerm (sym : Sym S) (legs : List (Leg S)) (perms : List (Option (List ℕ)))
    (cstyle : Bool) : Option (Option (List ℕ)) :=
  if perms.all Option.isNone then some none
  else if sym.canDrop then
    (combinePermutations (List.zipWith (permOrId sym) legs perms) cstyle).map some
  else none

mutual
/-- `_basis_perm` as set by the constructors (`none`: one of the constructors raises). -/
def perm (sym : Sym S) : Leg S → Option (Option (List ℕ))
  | .space e => some e.perm
  | .pipe legs _ cstyle => (permAll sym legs).bind fun ps => combinedPerm sym legs ps cstyle
/-- `_basis_perm` of each entry. -/
def permAll (sym : Sym S) : List (Leg S) → Option (List (Option (List ℕ)))
  | [] => some []
  | l :: ls => (l.perm sym).bind fun p => (permAll sym ls).map fun ps => p :: ps
end

/-- `ElementarySpace::equals_es`, src/symmetries/spaces.cpp:1523-1552 (equal symmetries). -/
def beqSpace (sym : Sym S) (e f : ESpace S) : Bool :=
  if e.isDual != f.isDual then false
  else if e.defining.length != f.defining.length then false
  else if e.mults != f.mults then false
  else if e.defining != f.defining then false
  else if e.perm.isSome || f.perm.isSome then e.basisPerm sym == f.basisPerm sym
  else true

mutual
/-- `operator==`, src/symmetries/spaces.cpp:795-822 (`LegPipe`), 1502-1521
(`ElementarySpace`). -/
def beq (sym : Sym S) : Leg S → Leg S → Bool
  | .space e, .space f => beqSpace sym e f
  | .pipe ls d c, .pipe ls' d' c' =>
    if d != d' then false
    else if c != c' then false
    else if ls.length != ls'.length then false
    else beqAll sym ls ls'
  | .space _, .pipe _ _ _ => false
  | .pipe _ _ _, .space _ => false
/-- The loop of src/symmetries/spaces.cpp:816-820. -/
def beqAll (sym : Sym S) : List (Leg S) → List (Leg S) → Bool
  | l :: ls, l' :: ls' => beq sym l l' && beqAll sym ls ls'
  | [], _ => true
  | _ :: _, [] => true
end

mutual
/-- Every pipe has at least one leg (`legs.at(0)` in the constructor,
src/symmetries/spaces.cpp:673). -/
def WF : Leg S → Prop
  | .space _ => True
  | .pipe legs _ _ => legs ≠ [] ∧ WFAll legs
/-- Well-formedness of each entry. -/
def WFAll : List (Leg S) → Prop
  | [] => True
  | l :: ls => l.WF ∧ WFAll ls
end

end Leg
end Cyten.Spaces
