import Verif.Model.Trees
import Mathlib.Data.Complex.Basic
import Mathlib.Analysis.Complex.Norm

/-!
# Model of braids, twists and leg bending of fusion trees
(`/repo/src/symmetries/trees.cpp`). Complex128 is modelled by exact `ℂ`.
-/

namespace Cyten

open scoped ComplexConjugate

/-- The topological data of a symmetry used by the tree moves: `r_symbol`, `c_symbol`, `f_symbol`,
`b_symbol`, `sqrt_qdim`, `frobenius_schur`, `topological_twist`, `dual_sector`
(`/repo/include/cyten/symmetries/base_symmetry.h`). Arrays are functions of their multiplicity
indices. -/
structure TopoData (S : Type) where
  /-- `r_symbol(a, b, c)[mu]` -/
  rSym : S → S → S → Nat → ℂ
  /-- `c_symbol(a, b, c, d, e, f)[mu, nu, kappa, lambda]` -/
  cSym : S → S → S → S → S → S → Nat → Nat → Nat → Nat → ℂ
  /-- `f_symbol(a, b, c, d, e, f)[mu, nu, kappa, lambda]` -/
  fSym : S → S → S → S → S → S → Nat → Nat → Nat → Nat → ℂ
  /-- `b_symbol(a, b, c)[mu, nu]` -/
  bSym : S → S → S → Nat → Nat → ℂ
  /-- `sqrt_qdim(a)` -/
  sqrtQdim : S → ℝ
  /-- `frobenius_schur(a)` -/
  frobSchur : S → ℤ
  /-- `topological_twist(a)` -/
  twist : S → ℂ
  /-- `dual_sector(a)` -/
  dual : S → S

/-- `FusionTreeLinearCombination` (a `std::map` from trees to coefficients), as association list. -/
abbrev TreeLC (S : Type) := List (FusionTree S × ℂ)

/-- Coefficient of a tree in a linear combination. -/
def coeffOf {T : Type} [DecidableEq T] (l : List (T × ℂ)) (t : T) : ℂ :=
  (l.map fun p => if p.1 = t then p.2 else 0).sum

/-- Linear extension of a map on trees to linear combinations (this is how the callers iterate the
moves, e.g. `/repo/src/backends/fusion_tree_mapping.cpp`; the accumulation `dest[tree] += coeff` is
`map_add_coeff`, `/repo/src/symmetries/trees.cpp:300-307`). -/
def bindLC {T U : Type} (l : List (T × ℂ)) (f : T → List (U × ℂ)) : List (U × ℂ) :=
  l.flatMap fun p => (f p.1).map fun q => (q.1, p.2 * q.2)

/-- Loop ranges of the C-move, `/repo/src/symmetries/trees.cpp:938-972`: intermediate sectors `f`
of `a ⊗ c` that fuse with `b` to `d`, and multiplicity labels `kappa`, `lambda`. -/
def FusionRule.channels {S : Type} [DecidableEq S] (R : FusionRule S) (a c b d : S) :
    List (S × Nat × Nat) :=
  ((R.outcomes a c).filter fun f => R.canFuseTo f b d).flatMap fun f =>
    (List.range (R.nSymbol a c f)).flatMap fun kappa =>
      (List.range (R.nSymbol f b d)).map fun lam => (f, kappa, lam)

open Classical in
/-- `FusionTree::braid(j, overbraid, cutoff, do_conj)`, `/repo/src/symmetries/trees.cpp:892-976`.
`none` if `j` is out of range (the code asserts). -/
noncomputable def FusionTree.braid {S : Type} [DecidableEq S] (R : FusionRule S) (D : TopoData S)
    (t : FusionTree S) (j : Nat) (overbraid : Bool) (cutoff : ℝ) (doConj : Bool) :
    Option (TreeLC S) :=
  if j = 0 then
    match t.vertexLabels 0, t.areDual[0]?, t.areDual[1]? with
    | some (a, b, mu, c), some d0, some d1 =>
      let ai := if overbraid then D.rSym a b c mu else conj (D.rSym b a c mu)
      let ai := if doConj then conj ai else ai
      some [({ t with
        uncoupled := (t.uncoupled.set 0 b).set 1 a
        areDual := (t.areDual.set 0 d1).set 1 d0 }, ai)]
    | _, _, _ => none
  else
    match t.vertexLabels (j - 1), t.vertexLabels j, t.areDual[j]?, t.areDual[j+1]? with
    | some (a, b, mu, e), some (_, c, nu, d), some d0, some d1 =>
      let xnew : FusionTree S := { t with
        uncoupled := (t.uncoupled.set j c).set (j + 1) b
        areDual := (t.areDual.set j d1).set (j + 1) d0 }
      let all : TreeLC S := (R.channels a c b d).map fun (f, kappa, lam) =>
        let ai := if overbraid then D.cSym a b c d e f mu nu kappa lam
          else conj (D.cSym a c b d f e kappa lam mu nu)
        let ai := if doConj then conj ai else ai
        ({ xnew with
            inner := xnew.inner.set (j - 1) f
            mult := (xnew.mult.set (j - 1) kappa).set j lam }, ai)
      some (all.filter fun p => ¬ ‖p.2‖ < cutoff)
    | _, _, _, _ => none

end Cyten
