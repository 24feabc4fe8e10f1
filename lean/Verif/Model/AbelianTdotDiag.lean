import Verif.Model.AbelianLegs
import Verif.Model.AbelianDiag

/-!
# Model of `tdot` with a `DiagonalTensor` or the `Identity` (abelian backend)

`src/tensors/ops_algebra.cpp`: the branches of `tdot_py` that are not the generic contraction.  The other
tensor is a `SymmetricTensor`.  Labels are not modelled.
-/

namespace Cyten.Abelian
open Cyten.Spaces

variable {S K : Type} [DecidableEq S]

/-- A `DiagonalTensor`: its leg and the blocks (include/cyten/tensors/diagonal_tensor.h). -/
structure DTensor (S K : Type) where
  leg : BLeg S
  data : DEnts K

/-- src/tensors/diagonal_tensor.cpp `as_SymmetricTensor` (src/backends/abelian.cpp:935-943). -/
def DTensor.full [Zero K] (d : DTensor S K) : STensor S K := ⟨[d.leg], [d.leg], fullFromDiagonal d.data⟩

/-- src/tensors/ops_algebra.cpp:1574-1625 `scale_axis_py` of a symmetric tensor; `none`: the exception
"Incompatible legs".  (The transpose of a diagonal tensor has the same blocks,
src/backends/abelian.cpp:1009-1017.) -/
def scaleAxisPy [Mul K] [Zero K] (dual : S → S) (t : STensor S K) (d : DTensor S K) (n : ℕ) :
    Option (STensor S K) :=
  let l := (coDomainLegs t.cod t.dom).getD n ⟨[], []⟩
  if l = d.leg ∨ l = d.leg.dual dual then
    some ⟨t.cod, t.dom, scaleAxis t.data d.data t.numLegs n⟩
  else none

/-- src/tensors/ops_algebra.cpp:1373-1506 `partial_trace_py` of a symmetric tensor for one pair of legs;
`none`: an exception. -/
def partialTracePy [AddCommMonoid K] (dual : S → S) (t : STensor S K) (i j : ℕ) : Option (Res S K) :=
  if i = j ∨ ¬ i < t.numLegs ∨ ¬ j < t.numLegs then none
  else if asCodomainLeg dual t.cod t.dom i ≠ asDomainLeg dual t.cod t.dom j then none
  else
    (partialTrace dual (coDomainLegs t.cod t.dom) t.cod.length [(i, j)] t.data).map fun u =>
      let rem := remainingLegs t.numLegs [(i, j)]
      if t.numLegs = 2 then Res.scalar (u.map fun p => p.2.val []).sum
      else Res.tensor ⟨(rem.filter (· < t.cod.length)).map (asCodomainLeg dual t.cod t.dom),
        ((rem.filter fun n => !(n < t.cod.length)).reverse).map (asDomainLeg dual t.cod t.dom), u⟩

/-- src/tensors/ops_legs.cpp:250-282 `bend_legs_py` with a given number of codomain legs, symmetric braid. -/
def STensor.bendLegs (dual : S → S) (t : STensor S K) (nCod : ℕ) : STensor S K :=
  t.permuteLegs dual (List.range nCod) (List.range' nCod (t.numLegs - nCod)).reverse

/-- `bend_legs(res, num_domain_legs=0)`, `bend_legs(res, num_codomain_legs=0)`; a number is not a tensor:
`none`, an exception (`num_legs` of a number). -/
def Res.bendAll (dual : S → S) (toCodomain : Bool) : Res S K → Option (Res S K)
  | .tensor t => some (.tensor (t.bendLegs dual (if toCodomain then t.numLegs else 0)))
  | .scalar _ => none

/-- src/tensors/ops_algebra.cpp:1648-1673: the checks of `tdot_py`. -/
def tdotChecks (dual : S → S) (a b : STensor S K) (legs1 legs2 : List ℕ) : Prop :=
  legs1.Nodup ∧ legs2.Nodup ∧ legs2.length = legs1.length ∧ (∀ n ∈ legs1, n < a.numLegs) ∧
    (∀ n ∈ legs2, n < b.numLegs) ∧
    legs1.map (asDomainLeg dual a.cod a.dom) = legs2.map (asCodomainLeg dual b.cod b.dom)

instance (dual : S → S) (a b : STensor S K) (legs1 legs2 : List ℕ) :
    Decidable (tdotChecks dual a b legs1 legs2) := by unfold tdotChecks; infer_instance

variable [AddCommMonoid K] [Mul K] [Star K]

/-- src/tensors/ops_algebra.cpp:1648-1673, 1842-1861 `tdot_py` with a `DiagonalTensor` as second tensor. -/
def tdotDiagRight (R : FusionRule S) (dual : S → S) (a : STensor S K) (d : DTensor S K)
    (legs1 legs2 : List ℕ) : Option (Res S K) :=
  if ¬ tdotChecks dual a d.full legs1 legs2 then none
  else
    match legs1 with
    | [] => tdot R dual a d.full legs1 legs2
    | [n] => (scaleAxisPy dual a d n).map fun t =>
        .tensor (t.permuteLegs dual (otherLegs t.numLegs [n]) [n])
    | n :: m :: _ => (scaleAxisPy dual a d n).bind fun t =>
        (partialTracePy dual t n m).bind fun r =>
          if a.numLegs = 2 then some r else r.bendAll dual true

/-- src/tensors/ops_algebra.cpp:1648-1673, 1820-1841 `tdot_py` with a `DiagonalTensor` as first tensor.
With one contracted leg the legs are permuted with `codomain=legs1_idcs`, the number of the leg of the
*diagonal* tensor (line 1829). -/
def tdotDiagLeft (R : FusionRule S) (dual : S → S) (d : DTensor S K) (b : STensor S K)
    (legs1 legs2 : List ℕ) : Option (Res S K) :=
  if ¬ tdotChecks dual d.full b legs1 legs2 then none
  else
    match legs2 with
    | [] => tdot R dual d.full b legs1 legs2
    | [n] => (scaleAxisPy dual b d n).bind fun t =>
        if legs1.getD 0 0 < t.numLegs then
          some (.tensor (t.permuteLegs dual legs1 (otherLegs t.numLegs legs1).reverse))
        else none
    | n :: m :: _ => (scaleAxisPy dual b d n).bind fun t =>
        (partialTracePy dual t n m).bind fun r =>
          if b.numLegs = 2 then some r else r.bendAll dual false

/-- The identity on a leg as a symmetric tensor: src/backends/abelian.cpp:1790-1826 `eye_data` of one leg. -/
def idTensor [One K] (leg : BLeg S) : DTensor S K :=
  ⟨leg, leg.mults.zipIdx.map fun p => (p.2, List.replicate p.1 1)⟩

/-- src/tensors/ops_algebra.cpp:1789-1800 `tdot_py` with an `Identity` as first tensor. -/
def tdotIdLeft [One K] (R : FusionRule S) (dual : S → S) (leg : BLeg S) (b : STensor S K)
    (legs1 legs2 : List ℕ) : Option (Res S K) :=
  if ¬ tdotChecks dual (idTensor leg : DTensor S K).full b legs1 legs2 then none
  else
    match legs2 with
    | [] => tdot R dual (idTensor leg : DTensor S K).full b legs1 legs2
    | [_] => some (.tensor (b.permuteLegs dual legs2 (otherLegs b.numLegs legs2).reverse))
    | n :: m :: _ => (partialTracePy dual b n m).bind fun r => r.bendAll dual false

/-- src/tensors/ops_algebra.cpp:1803-1816 `tdot_py` with an `Identity` as second tensor: with one
contracted leg the permuted tensor is computed and ignored, the first tensor is returned. -/
def tdotIdRight [One K] (R : FusionRule S) (dual : S → S) (a : STensor S K) (leg : BLeg S)
    (legs1 legs2 : List ℕ) : Option (Res S K) :=
  if ¬ tdotChecks dual a (idTensor leg : DTensor S K).full legs1 legs2 then none
  else
    match legs1 with
    | [] => tdot R dual a (idTensor leg : DTensor S K).full legs1 legs2
    | [_] => some (.tensor a)
    | n :: m :: _ => (partialTracePy dual a n m).bind fun r => r.bendAll dual true

end Cyten.Abelian
