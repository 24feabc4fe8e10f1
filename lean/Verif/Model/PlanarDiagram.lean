import Verif.Model.Planar

/-!
# Model of `ContractionTree` and `PlanarDiagram` (src/tensors/planar.cpp)

The names of intermediate results are `"{a} @ {b}"`.  The names of the tensors contain no `@`
(`_as_valid_name`), hence such a name is the list of the names of the tensors; it does not say how they were
contracted.  Dimensions, costs and charge legs are not modelled.
-/

namespace Cyten.Planar

/-- The name of a tensor or of an intermediate result. -/
abbrev TName := List String

/-- The label of a leg in `evaluate`, `"{name}:{label}"` (src/tensors/planar.cpp:1108-1119, 1190-1198). -/
abbrev Leg := String × String

/-- The errors of a diagram: too many matches; the diagram is disconnected; no contraction is left; a tensor does
not exist; a leg does not exist; an error of the planar contraction or trace; the number of legs does not match;
inconsistent open legs; the order is empty. -/
inductive DErr
  | matches
  | disconnected
  | popLeaf
  | noTensor
  | noLeg
  | planar (e : PErr)
  | count
  | openLegs
  | empty
deriving DecidableEq

/-! ## Contraction trees -/

/-- src/tensors/planar.cpp:683-700 `ContractionTreeNode`; the values of inner nodes are not used. -/
inductive CTree
  | leaf (v : TName)
  | node (l r : CTree)
deriving DecidableEq

namespace CTree

/-- src/tensors/planar.cpp:743-753 `get_leaves`: the leaves from left to right … -/
def leaves : CTree → List TName
  | leaf v => [v]
  | node l r => l.leaves ++ r.leaves

/-- The number of nodes below the root, src/tensors/planar.cpp:851-856 `num_nodes`. -/
def nodesBelow : CTree → ℕ
  | leaf _ => 0
  | node l r => 2 + l.nodesBelow + r.nodesBelow

/-- src/tensors/planar.cpp:851-856 `num_nodes` -/
def numNodes (t : CTree) : ℕ := 1 + t.nodesBelow

/-- src/tensors/planar.cpp:858-863 `num_inner_nodes` -/
def numInner (t : CTree) : ℕ := 1 + t.nodesBelow - t.leaves.length

/-- src/tensors/planar.cpp:770-790 `pop_contraction`: two leaves with the same parent are removed; the parent
becomes a leaf. -/
def pop : CTree → Option (TName × TName × CTree)
  | leaf _ => none
  | node (node a b) r => (pop (node a b)).map fun x => (x.1, x.2.1, node x.2.2 r)
  | node (leaf a) (node b c) => (pop (node b c)).map fun x => (x.1, x.2.1, node (leaf a) x.2.2)
  | node (leaf a) (leaf b) => some (a, b, leaf (a ++ b))

end CTree

/-- The loop body of `from_contraction_order`, src/tensors/planar.cpp:877-924. -/
def orderStep (contracted : List (CTree × List String)) (p : String × String) :
    Except DErr (List (CTree × List String)) :=
  if p.1 = p.2 then .ok contracted
  else
    let m1 := (List.range contracted.length).filter fun n => p.1 ∈ (contracted.getD n (.leaf [], [])).2
    let m2 := (List.range contracted.length).filter fun n => p.2 ∈ (contracted.getD n (.leaf [], [])).2
    if 1 < m1.length ∨ 1 < m2.length then .error .matches
    else
      match m1, m2 with
      | [], [] => .ok (contracted ++ [(.node (.leaf [p.1]) (.leaf [p.2]), [p.1, p.2])])
      | [], n2 :: _ =>
        let c2 := contracted.getD n2 (.leaf [], [])
        .ok (contracted.set n2 (.node (.leaf [p.1]) c2.1, p.1 :: c2.2))
      | n1 :: _, [] =>
        let c1 := contracted.getD n1 (.leaf [], [])
        .ok (contracted.set n1 (.node c1.1 (.leaf [p.2]), c1.2 ++ [p.2]))
      | n1 :: _, n2 :: _ =>
        if m1 = m2 then .ok contracted
        else
          let c1 := contracted.getD n1 (.leaf [], [])
          let c2 := contracted.getD n2 (.leaf [], [])
          .ok ((contracted.set n1 (.node c1.1 c2.1, c1.2 ++ c2.2)).eraseIdx n2)

/-- src/tensors/planar.cpp:865-929 `from_contraction_order` -/
def fromContractionOrder (order : List (String × String)) : Except DErr CTree :=
  if order = [] then .error .empty
  else
    (order.foldlM orderStep []).bind fun contracted =>
      match contracted with
      | [c] => .ok c.1
      | _ => .error .disconnected

/-! ## Contractions -/

/-- The legs of placeholders with the given labels (`get_leg_idcs` of labels). -/
def legIndices (labels : List Leg) : List Leg → Except DErr (List ℕ)
  | [] => .ok []
  | l :: ls => if l ∈ labels then (legIndices labels ls).map fun r => labels.idxOf l :: r else .error .noLeg

/-- src/tensors/planar.cpp:2151-2208 `planar_contraction` of placeholders: the labels of the result. -/
def contractLabels (A B la lb : List Leg) : Except DErr (List Leg) :=
  (legIndices A la).bind fun i1 => (legIndices B lb).bind fun i2 =>
    match contractionLegs A.length B.length i1 i2 with
    | .error e => .error (.planar e)
    | .ok (_, o1, _, o2) => .ok (o1.map (fun i => A.getD i ("", "")) ++ o2.map fun i => B.getD i ("", ""))

/-- A contraction of the leg `l1` of `t1` with the leg `l2` of `t2`. -/
structure Contr where
  t1 : TName
  l1 : Leg
  t2 : TName
  l2 : Leg
deriving DecidableEq

/-- src/tensors/planar.cpp:1564-1579, 1616-1631: the legs that are contracted now. -/
def Contr.between (ta tb : TName) (c : Contr) : Option (Leg × Leg) :=
  if c.t1 = ta ∧ c.t2 = tb then some (c.l1, c.l2)
  else if c.t1 = tb ∧ c.t2 = ta then some (c.l2, c.l1)
  else none

/-- src/tensors/planar.cpp:1594-1602, 1644-1651: the contractions refer to the result. -/
def Contr.rename (ta tb : TName) (c : Contr) : Contr :=
  { c with t1 := if c.t1 = ta ∨ c.t1 = tb then ta ++ tb else c.t1,
           t2 := if c.t2 = ta ∨ c.t2 = tb then ta ++ tb else c.t2 }

/-- src/tensors/planar.cpp:1556-1605, 1607-1655 `_do_contractions`: the remaining tensors, and the pairs of legs that
were contracted.  `std::map` is a list with unique keys; the order of the keys is not used.  The contraction of a
leaf of the tree raises an error, hence the number of inner nodes of the tree bounds the number of iterations
(`fuel`). -/
def doContractions : ℕ → List (TName × List Leg) → List Contr → CTree →
    Except DErr (List (TName × List Leg) × List (Leg × Leg))
  | fuel, tensors, contractions, order =>
    if tensors.length ≤ 1 then .ok (tensors, [])
    else
      match fuel with
      | 0 => .error .popLeaf
      | fuel + 1 =>
        match order.pop with
        | none => .error .popLeaf
        | some (ta, tb, order') =>
          match tensors.lookup ta, tensors.lookup tb with
          | some A, some B =>
            let pairs := contractions.filterMap (Contr.between ta tb)
            (contractLabels A B (pairs.map Prod.fst) (pairs.map Prod.snd)).bind fun res =>
              let tensors' := ((tensors.filter fun x => x.1 ≠ ta ++ tb) ++ [(ta ++ tb, res)]).filter fun x =>
                x.1 ≠ ta ∧ x.1 ≠ tb
              let contractions' := (contractions.filter fun c => (c.between ta tb).isNone).map (Contr.rename ta tb)
              (doContractions fuel tensors' contractions' order').map fun r => (r.1, pairs ++ r.2)
          | _, _ => .error .noTensor

/-! ## Diagrams -/

/-- An instruction: contract the leg `l1` of `t1` with the leg `l2` of `t2`, or (`t2` is not given) rename the open
leg `l1` to `l2`. -/
structure DInstr where
  t1 : String
  l1 : String
  t2 : Option String
  l2 : String
deriving DecidableEq

/-- src/tensors/planar.cpp:1205-1212: the open legs and their new labels. -/
def openLegs (definition : List DInstr) : List (Leg × String) :=
  definition.filterMap fun d => match d.t2 with | none => some ((d.t1, d.l1), d.l2) | some _ => none

/-- src/tensors/planar.cpp:1213-1222: the traces. -/
def tracesOf (definition : List DInstr) : List (String × Leg × Leg) :=
  definition.filterMap fun d =>
    match d.t2 with | none => none | some t2 => if d.t1 = t2 then some (d.t1, (d.t1, d.l1), (t2, d.l2)) else none

/-- src/tensors/planar.cpp:1223-1234: the contractions. -/
def contractionsOf (definition : List DInstr) : List Contr :=
  definition.filterMap fun d =>
    match d.t2 with
    | none => none
    | some t2 => if d.t1 = t2 then none else some ⟨[d.t1], (d.t1, d.l1), [t2], (t2, d.l2)⟩

/-- src/tensors/planar.cpp:2432-2549: `planar_partial_trace` of a placeholder: the labels of the result. -/
def traceLabels (labels : List Leg) (pairs : List (Leg × Leg)) : Except DErr (List Leg) :=
  (legIndices labels (pairs.map Prod.fst)).bind fun i1 => (legIndices labels (pairs.map Prod.snd)).bind fun i2 =>
    match partialTraceLegs labels.length (i1.zip i2) with
    | .error e => .error (.planar e)
    | .ok r => .ok (r.map fun i => labels.getD i ("", ""))

/-- src/tensors/planar.cpp:1672-1684 `_do_traces`: all traces of a tensor at once. -/
def doTraces (traces : List (String × Leg × Leg)) : List (String × List Leg) → Except DErr (List (TName × List Leg))
  | [] => .ok []
  | (name, labels) :: ts =>
    let pairs := traces.filterMap fun x => if x.1 = name then some x.2 else none
    (if pairs = [] then .ok labels else traceLabels labels pairs).bind fun r =>
      (doTraces traces ts).map fun rs => ([name], r) :: rs

/-- src/tensors/planar.cpp:1744-1789 `_extract_result`: the legs of the result with their new labels. -/
def extractResult (tensors : List (TName × List Leg)) (opens : List (Leg × String)) :
    Except DErr (List (Leg × String)) :=
  match tensors with
  | [(_, labels)] =>
    if opens.length ≠ labels.length then .error .openLegs
    else if ¬ ((∀ l ∈ labels, l ∈ opens.map Prod.fst) ∧ ∀ l ∈ opens.map Prod.fst, l ∈ labels) then .error .openLegs
    else .ok (labels.map fun l => (l, (opens.reverse.lookup l).getD ""))
  | _ => .error .openLegs

/-- src/tensors/planar.cpp:1173-1246 `evaluate` of a diagram with placeholders (the tensors of the diagram itself):
the legs of the result with their labels, and the pairs of legs that are connected. -/
def evaluate (tensors : List (String × List String)) (definition : List DInstr) (order : CTree) :
    Except DErr (List (Leg × String) × List (Leg × Leg)) :=
  let prepared := tensors.map fun t => (t.1, t.2.map fun l => (t.1, l))
  (doTraces (tracesOf definition) prepared).bind fun traced =>
    (doContractions order.numInner traced (contractionsOf definition) order).bind fun r =>
      (extractResult r.1 (openLegs definition)).map fun res =>
        (res, (tracesOf definition).map Prod.snd ++ r.2)

/-- The legs that occur in an instruction. -/
def DInstr.legs (d : DInstr) : List Leg :=
  match d.t2 with | none => [(d.t1, d.l1)] | some t2 => [(d.t1, d.l1), (t2, d.l2)]

/-- src/tensors/planar.cpp:1505-1553 `verify_diagram` (with the check of the number of leaves in the constructor,
979-981): all tensors and legs in the definition exist, the number of legs is right, and the evaluation with
placeholders succeeds. -/
def verifyDiagram (tensors : List (String × List String)) (definition : List DInstr) (order : CTree) :
    Except DErr (List (Leg × String) × List (Leg × Leg)) :=
  if order.leaves.length ≠ tensors.length then .error .disconnected
  else if ¬ ∀ x ∈ definition.flatMap DInstr.legs, ∃ t ∈ tensors, t.1 = x.1 ∧ x.2 ∈ t.2 then .error .noLeg
  else if (tensors.map fun t => t.2.length).sum ≠ (definition.flatMap DInstr.legs).length then .error .count
  else evaluate tensors definition order

/-! ## Changing diagrams -/

/-- src/tensors/planar.cpp:1833-1843 `_find_open_leg_definition` -/
def findOpen (definition : List DInstr) (name leg : String) : Option ℕ :=
  definition.findIdx? fun d => decide (d.t2 = none ∧ d.t1 = name ∧ d.l1 = leg)

/-- src/tensors/planar.cpp:1029-1068 the loop of `add_tensor` over the extra definition: the positions of the
definitions of open legs that are contracted with the new tensor.  All errors are `noLeg`. -/
def outdatedOf (definition : List DInstr) (new : String) : List DInstr → Except DErr (List ℕ)
  | [] => .ok []
  | d :: ds =>
    match d.t2 with
    | none => outdatedOf definition new ds
    | some t2 =>
      if d.t1 = new ∧ t2 = new then outdatedOf definition new ds
      else if d.t1 = new then
        match findOpen definition t2 d.l2 with
        | none => .error .noLeg
        | some n => (outdatedOf definition new ds).map (n :: ·)
      else if t2 = new then
        match findOpen definition d.t1 d.l1 with
        | none => .error .noLeg
        | some n => (outdatedOf definition new ds).map (n :: ·)
      else .error .noLeg

/-- src/tensors/planar.cpp:1010-1077 `add_tensor`: the new definition. -/
def addTensor (definition : List DInstr) (new : String) (extra : List DInstr) : Except DErr (List DInstr) :=
  (outdatedOf definition new extra).map fun outdated =>
    (definition.zipIdx.filter fun x => x.2 ∉ outdated).map Prod.fst ++ extra

/-- src/tensors/planar.cpp:1464-1476: the legs that were contracted with the removed tensor. -/
def freed (name : String) (d : DInstr) : Option Leg :=
  match d.t2 with
  | none => none
  | some t2 =>
    if d.t1 = name ∧ t2 = name then none
    else if d.t1 = name then some (t2, d.l2)
    else if t2 = name then some (d.t1, d.l1)
    else none

/-- src/tensors/planar.cpp:1477-1490: the labels of the freed legs that are given in the extra definition; all errors are
`openLegs`. -/
def takeOpen : List Leg → List DInstr → Except DErr (List DInstr × List Leg)
  | legs, [] => .ok ([], legs)
  | legs, d :: ds =>
    if d.t2 ≠ none then .error .openLegs
    else if (d.t1, d.l1) ∈ legs then (takeOpen (legs.erase (d.t1, d.l1)) ds).map fun r => (d :: r.1, r.2)
    else .error .openLegs

/-- src/tensors/planar.cpp:1451-1503 `remove_tensor`: the new definition. -/
def removeTensor (definition : List DInstr) (name : String) (extra : List DInstr) : Except DErr (List DInstr) :=
  (takeOpen (definition.filterMap (freed name)) extra).map fun r =>
    (definition.filter fun d => d.t1 ≠ name ∧ d.t2 ≠ some name) ++ r.1 ++
      r.2.map fun l => ⟨l.1, l.2, none, l.2⟩

end Cyten.Planar
