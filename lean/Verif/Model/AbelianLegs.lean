import Verif.Model.AbelianDiag

/-!
# Model of contractions of single legs with the abelian backend

`scale_axis`, `partial_trace`, `partial_compose` of `src/backends/abelian.cpp`, and `permute_legs`,
`compose`, `partial_compose`, `tdot` of `src/tensors/ops_legs.cpp`, `src/tensors/helpers.cpp` and
`src/tensors/ops_algebra.cpp` for symmetric tensors.
-/

namespace Cyten.Abelian
open Cyten.Tables Cyten.Tools Cyten.FusionTrees

variable {K : Type}

/-! ## `scale_axis` -/

/-- src/block_backend/numpy.cpp:1373-1385 `scale_axis`: multiply with `factors[None, :, None]` (for a
factor of the length of the axis). -/
def Blk.scaleAxis [Mul K] [Zero K] (b : Blk K) (factors : List K) (axis : ℕ) : Blk K :=
  ⟨b.shape, fun i => b.val i * factors.getD (i.getD axis 0) 0⟩

/-- The order of `lexsort_indices` for a single column, src/backends/block_inds.cpp:290-299. -/
def colLe (leg : ℕ) (p q : List ℕ × Blk K) : Prop := p.1.getD leg 0 ≤ q.1.getD leg 0

instance (leg : ℕ) : DecidableRel (colLe (K := K) leg) := fun _ _ => Nat.decLe _ _

/-- src/backends/abelian.cpp:3222-3227: the callback of `scale_axis`. -/
def scalePair [Mul K] [Zero K] (a : Ents K) (d : DEnts K) (leg : ℕ) (ij : ℕ × ℕ) :
    Option (List ℕ × Blk K) :=
  a[ij.1]?.bind fun p => d[ij.2]?.map fun q => (p.1, p.2.scaleAxis q.2 leg)

/-- src/backends/abelian.cpp:3177-3232 `scale_axis` -/
def scaleAxis [Mul K] [Zero K] (a : Ents K) (d : DEnts K) (numLegs leg : ℕ) : Ents K :=
  let as := if leg = numLegs - 1 then a else a.insertionSort (colLe leg)
  mkData ((commonLoop cmpLexsort false true (as.length + d.length) 0
    (as.map fun p => [p.1.getD leg 0]) 0 (d.map fun q => [q.1])).filterMap (scalePair as d leg)) false

/-! ## `partial_trace` -/

/-- src/block_backend/numpy.cpp:1166-1195 `trace_partial` -/
def Blk.tracePartial [AddCommMonoid K] (a : Blk K) (idcs1 idcs2 remaining : List ℕ) : Blk K :=
  let p := a.permuteAxes (remaining ++ idcs1 ++ idcs2)
  let dim := (idcs1.map fun i => a.shape.getD i 0).prod
  let r := p.reshape (p.shape.take remaining.length ++ [dim, dim])
  ⟨p.shape.take remaining.length, fun i => ((List.range dim).map fun x => r.val (i ++ [x, x])).sum⟩

/-- src/backends/abelian.cpp:3010-3020: the update of `res_map`.  The map is a list in the order of
insertion; its order does not matter, since `make_data` sorts the rows. -/
def addBlock [Add K] (m : Ents K) (key : List ℕ) (b : Blk K) : Ents K :=
  match m with
  | [] => [(key, b)]
  | p :: m => if p.1 = key then (p.1, p.2.add b) :: m else p :: addBlock m key b

section PartialTrace
variable {S : Type} [DecidableEq S]

/-- src/backends/abelian.cpp:2986-3009: a block is on the diagonal with respect to a pair of legs.
`legs` are the legs `get_leg_co_domain(n)`, `k` is the number of codomain legs. -/
def onDiagonal (dual : S → S) (legs : List (BLeg S)) (k : ℕ) (row : List ℕ) (pr : ℕ × ℕ) : Bool :=
  if (decide (pr.1 < k) != decide (pr.2 < k)) then row.getD pr.1 0 == row.getD pr.2 0
  else
    ((legs[pr.1]?.bind fun l => l.sectors[row.getD pr.1 0]?) ==
      (legs[pr.2]?.bind fun l => l.sectors[row.getD pr.2 0]?).map dual)

/-- src/backends/abelian.cpp:2970-2976: the legs that are not traced. -/
def remainingLegs (n : ℕ) (pairs : List (ℕ × ℕ)) : List ℕ :=
  (List.range n).filter fun i => !(pairs.any fun pr => pr.1 == i || pr.2 == i)

/-- src/backends/abelian.cpp:3010-3025: the loop of `partial_trace`. -/
def partialTraceMap [AddCommMonoid K] (dual : S → S) (legs : List (BLeg S)) (k : ℕ)
    (pairs : List (ℕ × ℕ)) (T : Ents K) : Ents K :=
  let rem := remainingLegs legs.length pairs
  (T.filter fun p => pairs.all (onDiagonal dual legs k p.1)).foldl (fun m p =>
    addBlock m (rem.map fun c => p.1.getD c 0)
      (p.2.tracePartial (pairs.map Prod.fst) (pairs.map Prod.snd) rem)) []

/-- src/backends/abelian.cpp:2953-3081 `partial_trace`, the data of the result; `none`: the exception
for several blocks of a scalar. -/
def partialTrace [AddCommMonoid K] (dual : S → S) (legs : List (BLeg S)) (k : ℕ)
    (pairs : List (ℕ × ℕ)) (T : Ents K) : Option (Ents K) :=
  let res := partialTraceMap dual legs k pairs T
  if (remainingLegs legs.length pairs).isEmpty then
    match res with
    | [] => some (mkData [([], ⟨[], fun _ => 0⟩)] true)
    | [p] => some (mkData [([], ⟨[], fun _ => p.2.val []⟩)] true)
    | _ => none
  else some (mkData res false)

end PartialTrace

/-! ## `partial_compose` -/

/-- src/backends/abelian.cpp:2890-2894, 2904-2910, 2940-2946: permute the axes of all blocks and the
columns of `block_inds`, then sort. -/
def permuteData (a : Ents K) (perm : List ℕ) : Ents K :=
  mkData (a.map fun p => (perm.map fun c => p.1.getD c 0, p.2.permuteAxes perm)) false

section
variable {S : Type} [DecidableEq S]

/-- The dual of a leg: the dual sectors in the same order. -/
def BLeg.dual (dual : S → S) (l : BLeg S) : BLeg S := ⟨l.sectors.map dual, l.mults⟩

/-- The legs `get_leg_co_domain(n)` of a tensor: the codomain, then the domain in reversed order. -/
def coDomainLegs (cod dom : List (BLeg S)) : List (BLeg S) := cod ++ dom.reverse

/-- src/tensors/tensor.cpp:706-714 `_as_codomain_leg` -/
def asCodomainLeg (dual : S → S) (cod dom : List (BLeg S)) (n : ℕ) : BLeg S :=
  let l := (coDomainLegs cod dom).getD n ⟨[], []⟩
  if n < cod.length then l else l.dual dual

/-- src/tensors/tensor.cpp:716-724 `_as_domain_leg` -/
def asDomainLeg (dual : S → S) (cod dom : List (BLeg S)) (n : ℕ) : BLeg S :=
  let l := (coDomainLegs cod dom).getD n ⟨[], []⟩
  if n < cod.length then l.dual dual else l

/-- src/backends/abelian.cpp:2852-2951 `partial_compose`; `none`: the exceptions of `make_stride`.
`first` is `a_first_leg`. -/
def partialCompose [AddCommMonoid K] [Mul K] (R : FusionRule S) (dual : S → S)
    (codA domA codB domB : List (BLeg S)) (a b : Ents K) (first : ℕ) : Option (Ents K) :=
  let inCod := decide (first < codA.length)
  let nA := codA.length + domA.length
  let nB := codB.length + domB.length
  let numContr := if inCod then domB.length else codB.length
  let numAdd := if inCod then codB.length else domB.length
  let permB := if inCod then List.range' codB.length domB.length ++ List.range codB.length
    else List.range nB
  let bData := if inCod then permuteData b permB else b
  let permA := List.range first ++ List.range' (first + numContr) (nA - (first + numContr)) ++
    List.range' first numContr
  let aData := permuteData a permA
  let modCodomain := (permA.take (nA - numContr)).map (asCodomainLeg dual codA domA)
  let modDomain := ((permB.drop numContr).map (asDomainLeg dual codB domB)).reverse
  let contr := (permB.take numContr).map fun n => (coDomainLegs codB domB).getD n ⟨[], []⟩
  (composeWorker R modCodomain contr modDomain aData bData).map fun res =>
    permuteData res (List.range first ++ List.range' (nA - numContr) numAdd ++
      List.range' first (nA - numContr - first))

/-! ## Symmetric tensors with their legs -/

deriving instance DecidableEq for BLeg

/-- A `SymmetricTensor` of an abelian symmetry, without labels, dtype and device
(include/cyten/tensors/symmetric_tensor.h). -/
structure STensor (S K : Type) where
  cod : List (BLeg S)
  dom : List (BLeg S)
  data : Ents K

/-- The result of a contraction: a tensor, or a scalar if no legs are left. -/
inductive Res (S K : Type)
  | tensor (t : STensor S K)
  | scalar (x : K)

def STensor.numLegs (t : STensor S K) : ℕ := t.cod.length + t.dom.length

/-- src/tensors/ops_legs.cpp:332-639 `permute_legs_py` for leg numbers (`codomain_v`, `domain_v`, as
determined in lines 358-413) and a symmetric tensor with an abelian symmetry and symmetric braid. -/
def STensor.permuteLegs (dual : S → S) (t : STensor S K) (cod dom : List ℕ) : STensor S K :=
  if cod = List.range t.cod.length ∧ dom = (List.range' t.cod.length t.dom.length).reverse then t
  else ⟨cod.map (asCodomainLeg dual t.cod t.dom), dom.map (asDomainLeg dual t.cod t.dom),
    Abelian.permuteLegs t.data cod dom⟩

/-- The legs that are not in `legs`, in ascending order: src/tensors/ops_legs.cpp:363-368. -/
def otherLegs (n : ℕ) (legs : List ℕ) : List ℕ := (List.range n).filter fun i => !(legs.contains i)

/-- src/tensors/helpers.cpp:259-294 `_compose_SymmetricTensors` without the labels. -/
def composeSym [AddCommMonoid K] [Mul K] [Star K] (R : FusionRule S) (a b : STensor S K) :
    Option (Res S K) :=
  if a.cod.isEmpty && b.dom.isEmpty then
    (inner (a.dom.reverse.map fun l => l.sectors.length) a.data b.data false).map Res.scalar
  else (compose R a.cod b.cod b.dom a.data b.data).map fun d => Res.tensor ⟨a.cod, b.dom, d⟩

/-- src/tensors/ops_algebra.cpp:1627-1918 `tdot_py` for symmetric tensors and leg numbers; `none`: the
exceptions for invalid arguments. -/
def tdot [AddCommMonoid K] [Mul K] [Star K] (R : FusionRule S) (dual : S → S) (a b : STensor S K)
    (legs1 legs2 : List ℕ) : Option (Res S K) :=
  if ¬ legs1.Nodup ∨ ¬ legs2.Nodup then none
  else if legs2.length ≠ legs1.length then none
  else if ¬ (∀ n ∈ legs1, n < a.numLegs) ∨ ¬ (∀ n ∈ legs2, n < b.numLegs) then none
  else if legs1.map (asDomainLeg dual a.cod a.dom) ≠ legs2.map (asCodomainLeg dual b.cod b.dom) then none
  else
    composeSym R (a.permuteLegs dual (otherLegs a.numLegs legs1) legs1)
      (b.permuteLegs dual legs2 (otherLegs b.numLegs legs2).reverse)

/-- src/tensors/ops_algebra.cpp:1180-1371 `partial_compose_py` for symmetric tensors; `none`: the
exceptions. -/
def partialComposePy [AddCommMonoid K] [Mul K] (R : FusionRule S) (dual : S → S) (a b : STensor S K)
    (first : ℕ) : Option (STensor S K) :=
  if first < a.cod.length then
    let n := b.dom.length
    if ¬ 0 < n ∨ ¬ first + n - 1 < a.cod.length ∨ ¬ n < a.cod.length then none
    else if (a.cod.drop first).take n ≠ b.dom then none
    else (partialCompose R dual a.cod a.dom b.cod b.dom a.data b.data first).map fun d =>
      ⟨a.cod.take first ++ b.cod ++ a.cod.drop (first + n), a.dom, d⟩
  else
    let n := b.cod.length
    let last := first + n - 1
    if ¬ 0 < n ∨ ¬ last < a.numLegs ∨ ¬ n < a.dom.length then none
    else
      let d := a.numLegs - 1 - last
      if (a.dom.drop d).take n ≠ b.cod then none
      else (partialCompose R dual a.cod a.dom b.cod b.dom a.data b.data first).map fun x =>
        ⟨a.cod, a.dom.take d ++ b.dom ++ a.dom.drop (d + n), x⟩

end

end Cyten.Abelian
