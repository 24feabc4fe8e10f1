import Verif.Model.AbelianGrid
import Verif.Model.AbelianLegs
import Verif.Model.AbelianNorm
import Verif.Model.AbelianExp

/-!
# Model of `ChargedTensor` with the abelian backend

src/tensors/charged_tensor.cpp and the branches for charged tensors of src/tensors/ops_algebra.cpp.
`none` is an exception.  The charge leg is an `ElementarySpace` (a `LegPipe` only arises from two charge
legs, whose `state_tensor_product` is not implemented by any backend).  Labels and devices are not
modelled; a dtype is real or complex.
-/

namespace Cyten.Abelian
open Cyten.Tables Cyten.Tools Cyten.Spaces Cyten.FusionTrees

variable {S : Type}

/-- A number together with its dtype (`real`: a real dtype). -/
structure Num where
  val : ℂ
  real : Bool

/-- A charged tensor: the codomain, the domain, the charge leg, the data of the invariant part (with the
domain `charge :: dom`), the dtype of the invariant part, and the state on the charge leg, in the public
basis order of the charge leg. -/
structure Charged (S : Type) where
  cod : List (ESpace S)
  dom : List (ESpace S)
  charge : ESpace S
  data : Ents ℂ
  real : Bool
  state : Option (List ℂ)

namespace Charged

/-- `to_dtype` of the entries of the state, src/block_backend/numpy.cpp:472-479: `astype` of a real dtype
drops the imaginary parts. -/
noncomputable def castState (real : Bool) (s : List ℂ) : List ℂ :=
  if real then s.map fun z => (z.re : ℂ) else s

/-- src/tensors/charged_tensor.cpp:30-65 the constructor: the state gets the dtype of the invariant
part. -/
noncomputable def make (cod dom : List (ESpace S)) (charge : ESpace S) (data : Ents ℂ) (real : Bool)
    (state : Option (List ℂ)) : Charged S :=
  ⟨cod, dom, charge, data, real, state.map (castState real)⟩

/-- The legs of a charged tensor, in the order of the axes. -/
def legs (t : Charged S) : List (ESpace S) := t.cod ++ t.dom.reverse

/-- The legs of the invariant part; the charge leg is the last one. -/
def invLegs (t : Charged S) : List (ESpace S) := t.cod ++ (t.charge :: t.dom).reverse

/-- The invariant part as a symmetric tensor. -/
def inv (sym : Sym S) (t : Charged S) : STensor S ℂ :=
  ⟨t.cod.map (toBLeg sym), (t.charge :: t.dom).map (toBLeg sym), t.data⟩

/-- `tdot(block, state, {-1}, {0})` -/
def contractLast (b : Blk ℂ) (s : List ℂ) : Blk ℂ :=
  ⟨b.shape.dropLast, fun idx => ((List.range (b.shape.getLastD 0)).map fun n =>
    b.val (idx ++ [n]) * s.getD n 0).sum⟩

/-- src/tensors/charged_tensor.cpp:520-539 `to_dense_block` without `leg_order` -/
def toDense (sym : Sym S) (t : Charged S) : Option (Blk ℂ) :=
  t.state.map fun s => contractLast (Abelian.toDense sym t.invLegs t.data) s

/-- src/tensors/charged_tensor.cpp:425-449 `_get_item` -/
def getItem [LinearOrder S] (sym : Sym S) (t : Charged S) (idx : List ℤ) : Option ℂ :=
  t.state.bind fun s =>
    if 10 < s.length then none
    else ((List.range s.length).mapM fun (n : ℕ) =>
      (getElement sym t.invLegs t.data (idx ++ [Int.ofNat n])).map fun x => s.getD n 0 * x).map List.sum

/-- src/tensors/charged_tensor.cpp:172-207 `from_dense_block` for a charge leg of dimension one; `real`: the
dtype of the block. -/
noncomputable def fromDense [LinearOrder S] (sym : Sym S) (R : FusionRule S) (cod dom : List (ESpace S))
    (charge : ESpace S) (a : Blk ℂ) (real : Bool) (tol : ℝ) : Option (Charged S) :=
  if charge.dim sym ≠ 1 then none
  else (Abelian.fromDense sym R cod (charge :: dom) ⟨a.shape ++ [1], fun i => a.val i.dropLast⟩ tol).map
    fun data => make cod dom charge data real (some [1])

/-- src/tensors/ops_algebra.cpp:1557-1566 `scalar_multiply_py` -/
noncomputable def scalarMultiply (a : Num) (v : Charged S) : Charged S :=
  match v.state with
  | none => make v.cod v.dom v.charge (Abelian.mul a.val v.data) (a.real && v.real) none
  | some s => make v.cod v.dom v.charge v.data v.real (some (s.map fun x => a.val * x))

/-- The codomains and the domains of two charged tensors are equal, src/tensors/ops_algebra.cpp:966-967. -/
def sameSpaces [LinearOrder S] (sym : Sym S) (v w : Charged S) : Bool :=
  sameLegs sym v.cod w.cod && sameLegs sym v.dom w.dom

/-- src/tensors/ops_algebra.cpp:952-1019 `linear_combination_py` of two charged tensors.  The quotient of the
states is not a number if the first state vanishes (here: `none`). -/
noncomputable def linearCombination [LinearOrder S] (sym : Sym S) (a : Num) (v : Charged S) (b : Num)
    (w : Charged S) : Option (Charged S) :=
  if !sameSpaces sym v w then none
  else if !Leg.beqSpace sym v.charge w.charge then none
  else
    match v.state, w.state with
    | none, none =>
      some (make v.cod v.dom v.charge (Abelian.linearCombination a.val v.data b.val w.data)
        (a.real && v.real && (b.real && w.real)) none)
    | some sv, some sw =>
      if v.charge.dim sym ≠ 1 then none
      else if sv.getD 0 0 = 0 then none
      else
        some (make v.cod v.dom v.charge
          (Abelian.linearCombination a.val v.data (b.val * (sw.getD 0 0 / sv.getD 0 0)) w.data)
          (a.real && v.real && (b.real && w.real && v.real)) (some sv))
    | _, _ => none

/-- src/tensors/ops_algebra.cpp:1062-1083 `norm_py` -/
noncomputable def norm (sym : Sym S) (t : Charged S) : Option ℝ :=
  t.state.map fun s =>
    if t.charge.dim sym = 1 then ‖s.getD 0 0‖ * Abelian.norm t.data
    else (contractLast (Abelian.toDense sym t.invLegs t.data) s).norm

/-- src/tensors/ops_algebra.cpp:468-505 `almost_equal_py` of two charged tensors: `some p`, the result is
true if and only if `p` holds. -/
noncomputable def almostEqual [LinearOrder S] (sym : Sym S) (v w : Charged S) (rtol atol : ℝ) :
    Option Prop :=
  if !Leg.beqSpace sym v.charge w.charge then none
  else
    match v.state, w.state with
    | none, none => some (Abelian.almostEqual v.data w.data rtol atol)
    | some sv, some sw =>
      if v.charge.dim sym ≠ 1 then none
      else some (Abelian.almostEqual (Abelian.mul (sw.getD 0 0) v.data)
        (Abelian.mul (sv.getD 0 0) w.data) rtol atol)
    | _, _ => none

/-- The dense block of the result of a contraction. -/
def denseRes (sym : Sym S) (legs : List (ESpace S)) : Res S ℂ → Blk ℂ
  | .tensor t => Abelian.toDense sym legs t.data
  | .scalar x => ⟨[], fun _ => x⟩

/-- `dagger_py` of a symmetric tensor -/
def daggerSym (t : STensor S ℂ) : STensor S ℂ := ⟨t.dom, t.cod, Abelian.dagger t.data⟩

/-- src/tensors/ops_algebra.cpp:699-788 `inner_py(A, B, do_dagger = True)` of two charged tensors.
`bend_legs` does not change the order of the legs: the composition of the bent tensors is the one at
the end of `tdot_py` (ops_algebra.cpp:1903-1917) for all legs but the charge legs. -/
noncomputable def inner [LinearOrder S] (sym : Sym S) (R : FusionRule S) (A B : Charged S) : Option ℂ :=
  if !sameSpaces sym A B then none
  else
    A.state.bind fun sa => B.state.bind fun sb =>
      let n := A.legs.length
      (tdot R sym.dual (daggerSym (A.inv sym)) (B.inv sym) (List.range' 1 n).reverse (List.range n)).map
        fun res =>
          let tmp := contractLast (denseRes sym [A.charge, B.charge] res) sb
          ((List.range (tmp.shape.headD 0)).map fun k => star (sa.getD k 0) * tmp.val [k]).sum

/-- src/tensors/ops_algebra.cpp:841-880 `inner_py(A, B, do_dagger)` of a symmetric tensor and a charged
tensor. -/
noncomputable def innerSym [LinearOrder S] (sym : Sym S) (R : FusionRule S) (A : GTensor S ℂ)
    (B : Charged S) (doDagger : Bool) : Option ℂ :=
  if !(if doDagger then sameLegs sym A.cod B.cod && sameLegs sym A.dom B.dom
      else sameLegs sym A.cod B.dom && sameLegs sym A.dom B.cod) then none
  else
    B.state.bind fun s =>
      if multWhere sym B.charge R.unit = 0 then some 0
      else
        let n := A.cod.length + A.dom.length
        let a : STensor S ℂ := ⟨A.cod.map (toBLeg sym), A.dom.map (toBLeg sym), A.data⟩
        (tdot R sym.dual (if doDagger then daggerSym a else a) (B.inv sym) (List.range n)
          (List.range n).reverse).map fun res =>
            (contractLast (denseRes sym [B.charge] res) (if doDagger then s.map star else s)).val []

end Charged

end Cyten.Abelian
