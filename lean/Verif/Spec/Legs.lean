import Verif.Model.Legs

/-! # Specification: the combined basis of a nested pipe -/

namespace Cyten.Spaces.Spec
open Cyten.Spaces

variable {S : Type} [LinearOrder S]

/-- All concatenations of one entry per list, the last one varies fastest. -/
def prodC : List (List (List ℕ)) → List (List ℕ)
  | [] => [[]]
  | b :: bs => b.flatMap fun x => (prodC bs).map (x ++ ·)

/-- All concatenations of one entry per list, the first one varies fastest. -/
def prodF : List (List (List ℕ)) → List (List ℕ)
  | [] => [[]]
  | b :: bs => (prodF bs).flatMap fun y => b.map (· ++ y)

mutual
/-- The combined basis of a leg: the multi-index of the flat legs at every index of the leg.  For a
pipe with `combine_cstyle` the index of the last leg varies fastest, otherwise of the first. -/
def combinedBasis (sym : Sym S) : Leg S → List (List ℕ)
  | .space e => (List.range (e.dim sym)).map fun i => [i]
  | .pipe legs _ cstyle =>
    if cstyle then prodC (combinedAll sym legs) else prodF (combinedAll sym legs)
/-- The combined basis of each leg. -/
def combinedAll (sym : Sym S) : List (Leg S) → List (List (List ℕ))
  | [] => []
  | l :: ls => combinedBasis sym l :: combinedAll sym ls
end

/-- `l[p[0]], l[p[1]], ...` -/
def permuted {α : Type} (l : List α) (p : List ℕ) : List α := p.filterMap fun i => l[i]?

mutual
/-- A leg with the basis permutations written out (a missing permutation is the identity). -/
def explicitPerms (sym : Sym S) : Leg S → Leg S
  | .space e => .space { e with perm := some (match e.perm with
      | some p => p
      | none => List.range (e.dim sym)) }
  | .pipe legs d c => .pipe (explicitAll sym legs) d c
/-- `explicitPerms` of each leg -/
def explicitAll (sym : Sym S) : List (Leg S) → List (Leg S)
  | [] => []
  | l :: ls => explicitPerms sym l :: explicitAll sym ls
end

end Cyten.Spaces.Spec
