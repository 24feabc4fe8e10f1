import Mathlib.Data.List.Sort
import Mathlib.Data.Nat.Basic

/-!
# Model of the leg bookkeeping of `src/tensors/planar.cpp`

Legs are given by valid non-negative indices, i.e. after `get_leg_idcs`.  An `int64` that cannot be negative is a
natural number.
-/

namespace Cyten.Planar

/-- The errors: `AssertionError`; `std::invalid_argument` about the arguments; the internal consistency checks; an
access to an element of an empty vector (undefined behaviour); an index that is not in a vector
(`index_of`, src/tensors/planar.cpp:52-61). -/
inductive PErr
  | assertion
  | unspecified
  | nonPlanar
  | inconsistent
  | internal
  | emptyVector
  | notFound
  | lengths
deriving DecidableEq

/-- src/tensors/planar.cpp:136-147 `range_of(start, stop)` -/
def rangeOf (start stop : ℕ) : List ℕ := List.range' start (stop - start)

/-- src/tensors/planar.cpp:155-161 `reversed_range` -/
def reversedRange (start stop : ℕ) : List ℕ := (rangeOf start stop).reverse

/-- src/tensors/planar.cpp:52-61 `index_of` -/
def indexOf (l : List ℕ) (x : ℕ) : Except PErr ℕ := if x ∈ l then .ok (l.idxOf x) else .error .notFound

/-! ## `parse_leg_bipartition` -/

/-- src/tensors/planar.cpp:2963-2968: the positions `i` with `sorted_legs[i + 1] != sorted_legs[i] + 1`. -/
def jumps (l : List ℕ) : List ℕ :=
  (List.range (l.length - 1)).filter fun i => l.getD (i + 1) 0 ≠ l.getD i 0 + 1

/-- src/tensors/planar.cpp:2942-2988 `parse_leg_bipartition`.  The loop of the assertions is one condition; the
elements are distinct, so that the result of `std::ranges::sort` is the one of any other sorting algorithm. -/
def parseLegBipartition (legs : List ℕ) (n : ℕ) : Except PErr (List ℕ × List ℕ) :=
  if ¬ (legs.Nodup ∧ ∀ l ∈ legs, l < n) then .error .assertion
  else if legs = [] then .ok ([], rangeOf 0 n)
  else if legs.length = n then .ok (rangeOf 0 n, [])
  else
    let sorted := legs.insertionSort (· ≤ ·)
    match jumps sorted with
    | [] => .ok (sorted, rangeOf (sorted.getLastD 0 + 1) n ++ rangeOf 0 (sorted.headD 0))
    | [j] =>
      if sorted.headD 0 = 0 ∧ sorted.getLastD 0 + 1 = n then
        let last := sorted.getD j 0
        let first := sorted.getD (j + 1) 0
        .ok (rangeOf first n ++ rangeOf 0 (last + 1), rangeOf (last + 1) first)
      else .error .nonPlanar
    | _ => .error .nonPlanar

/-! ## `planar_contraction`: the checks -/

/-- src/tensors/planar.cpp:2064-2083, 2165-2179: the checks of `planar_contraction` (they are the same for tensors
and for placeholders); the result is `contr1, open1, contr2, open2`. -/
def contractionLegs (n1 n2 : ℕ) (legs1 legs2 : List ℕ) : Except PErr (List ℕ × List ℕ × List ℕ × List ℕ) :=
  if legs2.length ≠ legs1.length then .error .lengths
  else
    (parseLegBipartition legs1 n1).bind fun p1 =>
      (parseLegBipartition legs2 n2).bind fun p2 =>
        let contr2 := p1.1.map fun c => legs2.getD (legs1.idxOf c) 0
        if (List.range (contr2.length - 1)).any fun i => contr2.getD (i + 1) 0 ≠ (contr2.getD i 0 + (n2 - 1)) % n2 then
          .error .nonPlanar
        else .ok (p1.1, p1.2, contr2, p2.2)

/-! ## `planar_partial_trace`: the checks -/

/-- src/tensors/planar.cpp:2280-2288 (and the other five copies): the partners of the leg `l`. -/
def partners (pairs : List (ℕ × ℕ)) (l : ℕ) : List ℕ :=
  pairs.flatMap fun p => (if p.2 = l then [p.1] else []) ++ (if p.1 = l then [p.2] else [])

/-- The loop over the legs `ls` of one of the two halves, src/tensors/planar.cpp:2277-2298, 2299-2319, 2320-2340, 2458-2478, 2479-2499, 2500-2520:
the partner of a traced leg has to be in the same half (`inside`: the first half); the result says whether all legs
are traced. -/
def halfTraced (pairs : List (ℕ × ℕ)) (inside : Bool) (l1 l2 : ℕ) : List ℕ → Except PErr Bool
  | [] => .ok true
  | l :: ls =>
    if l ∈ pairs.flatMap fun p => [p.1, p.2] then
      match partners pairs l with
      | [o] => if decide (l1 < o ∧ o < l2) = inside then halfTraced pairs inside l1 l2 ls else .error .nonPlanar
      | _ => .error .nonPlanar
    else (halfTraced pairs inside l1 l2 ls).map fun _ => false

/-- src/tensors/planar.cpp:2259-2344, 2444-2524: the checks for one pair of legs. -/
def checkPair (n : ℕ) (pairs : List (ℕ × ℕ)) (p : ℕ × ℕ) : Except PErr Unit :=
  let l1 := min p.1 p.2
  let l2 := max p.1 p.2
  if l1 = l2 then .error .nonPlanar
  else
    (halfTraced pairs true l1 l2 (rangeOf (l1 + 1) l2)).bind fun first =>
      (halfTraced pairs false l1 l2 (rangeOf (l2 + 1) n)).bind fun second =>
        (halfTraced pairs false l1 l2 (rangeOf 0 l1)).bind fun second' =>
          if first || (second && second') then .ok () else .error .nonPlanar

/-- src/tensors/planar.cpp:2248-2344, 2432-2524: the checks of `planar_partial_trace` (the same for tensors and
placeholders). -/
def checkPairs (n : ℕ) (pairs : List (ℕ × ℕ)) : List (ℕ × ℕ) → Except PErr Unit
  | [] => .ok ()
  | p :: ps => (checkPair n pairs p).bind fun _ => checkPairs n pairs ps

/-- src/tensors/planar.cpp:2432-2549 `planar_partial_trace` of a placeholder, without the dimensions: the legs of
the result. -/
def partialTraceLegs (n : ℕ) (pairs : List (ℕ × ℕ)) : Except PErr (List ℕ) :=
  (checkPairs n pairs pairs).map fun _ =>
    (List.range n).filter fun l => l ∉ pairs.flatMap fun p => [p.1, p.2]

/-! ## `planar_permute_legs` -/

/-- src/tensors/planar.cpp:2577-2597: the domain determines the codomain. -/
def domainStep (n : ℕ) (codomain : Option (List ℕ)) (domain : Option (List ℕ)) : Except PErr (Option (List ℕ)) :=
  match domain with
  | none => .ok codomain
  | some [] => .ok codomain
  | some (d0 :: ds) =>
    let dom := d0 :: ds
    if dom ≠ ((List.range dom.length).map fun i => (dom.getLastD 0 + i) % n).reverse then .error .nonPlanar
    else
      let codomain2 := (List.range (n - dom.length)).map fun i => (d0 + 1 + i) % n
      match codomain with
      | none => .ok (some codomain2)
      | some c => if c ≠ codomain2 then .error .inconsistent else .ok (some c)

/-- src/tensors/planar.cpp:2598-2618: the codomain determines the domain. -/
def codomainStep (n : ℕ) (codomain : Option (List ℕ)) (domain : Option (List ℕ)) : Except PErr (Option (List ℕ)) :=
  match codomain with
  | none => .ok domain
  | some [] => .ok domain
  | some (c0 :: cs) =>
    let cod := c0 :: cs
    if cod ≠ (List.range cod.length).map fun i => (c0 + i) % n then .error .nonPlanar
    else
      let domain2 := ((List.range (n - cod.length)).map fun i => (cod.getLastD 0 + 1 + i) % n).reverse
      match domain with
      | none => .ok (some domain2)
      | some d => if d ≠ domain2 then .error .inconsistent else .ok (some d)

/-- src/tensors/planar.cpp:2552-2621: the arguments of `planar_permute_legs`. -/
def parsePermute (n : ℕ) (codomain domain : Option (List ℕ)) : Except PErr (List ℕ × List ℕ) :=
  if codomain = none ∧ domain = none then .error .unspecified
  else if (codomain = none ∧ domain = some []) ∨ (domain = none ∧ codomain = some []) then .error .unspecified
  else
    (domainStep n codomain domain).bind fun cod =>
      (codomainStep n cod domain).bind fun dom =>
        match cod, dom with
        | some c, some d => .ok (c, d)
        | _, _ => .error .emptyVector

/-- A call of `permute_legs` with `levels = None`: the codomain, the domain, `bend_right` for each leg. -/
structure Call where
  cod : List ℕ
  dom : List ℕ
  bendRight : List (Option Bool)
deriving DecidableEq

/-- `vec.assign(a, x); vec.insert(end, b, y); vec.insert(end, c, z)` -/
def three (a : ℕ) (x : Option Bool) (b : ℕ) (y : Option Bool) (c : ℕ) (z : Option Bool) : List (Option Bool) :=
  List.replicate a x ++ List.replicate b y ++ List.replicate c z

/-- src/tensors/planar.cpp:2624-2629 `codomain_staying` -/
def codStaying (K : ℕ) (co : List ℕ) : List ℕ := (List.range K).filter fun i => i ∈ co

/-- src/tensors/planar.cpp:2630-2635 `domain_staying`: positions in the domain. -/
def domStaying (K D : ℕ) (dom : List ℕ) : List ℕ := (List.range D).filter fun i => K + D - 1 - i ∈ dom

/-- src/tensors/planar.cpp:2638-2642 `codomain_winding` -/
def codWinding (K : ℕ) (co : List ℕ) : Bool :=
  decide (codStaying K co ≠ []) && decide (0 ∈ co) && decide (K - 1 ∈ co) && decide (co.idxOf (K - 1) < co.idxOf 0)

/-- src/tensors/planar.cpp:2643-2647 `domain_winding` -/
def domWinding (K D : ℕ) (dom : List ℕ) : Bool :=
  decide (domStaying K D dom ≠ []) && decide (K ∈ dom) && decide (K + D - 1 ∈ dom) &&
    decide (dom.idxOf K < dom.idxOf (K + D - 1))

/-- src/tensors/planar.cpp:2669-2696: the two calls if the codomain winds. -/
def codWindingCalls (K D : ℕ) (co : List ℕ) : Except PErr (List Call) :=
  let bendUp := K - (codStaying K co).length
  let dontBend := co.getLastD 0 + 1
  (indexOf co (K - 1)).bind fun i =>
    let bendTwice := i + 1
    if dontBend + bendUp + bendTwice ≠ K then .error .internal
    else .ok [⟨rangeOf 0 dontBend, reversedRange dontBend (K + D), List.replicate (K + D) (some true)⟩,
      ⟨rangeOf (dontBend + bendUp) (K + D) ++ rangeOf 0 dontBend, reversedRange dontBend (K - bendTwice),
        List.replicate (K + D) (some false)⟩]

/-- src/tensors/planar.cpp:2697-2722: the two calls if the domain winds. -/
def domWindingCalls (K D : ℕ) (dom : List ℕ) : Except PErr (List Call) :=
  let bendDown := D - (domStaying K D dom).length
  let dontBend := dom.headD 0 + 1 - K
  (indexOf dom (K + D - 1)).bind fun i =>
    let bendTwice := dom.length - i
    if bendTwice + bendDown + dontBend ≠ D then .error .internal
    else .ok [⟨rangeOf (K + dontBend) (K + D) ++ rangeOf 0 K, reversedRange K (K + dontBend),
        List.replicate (K + D) (some false)⟩,
      ⟨rangeOf 0 bendDown, reversedRange bendDown (K + D), List.replicate (K + D) (some true)⟩]

/-- src/tensors/planar.cpp:2729-2754: the directions if the codomain is empty; `n` is the number of legs. -/
def emptyCodBends (n : ℕ) (co : List ℕ) (staying : ℕ) : Except PErr (List (Option Bool)) :=
  let left := if n - 1 ∈ co ∧ n ≠ 1 then co.idxOf (n - 1) + 1 else 0
  let right := if 0 ∈ co then co.length - co.idxOf 0 else 0
  let left := if staying = 0 ∧ left = n ∧ right = n then 0 else left
  if left + staying + right ≠ n then .error .internal
  else .ok (three right (some true) staying none left (some false))

/-- src/tensors/planar.cpp:2755-2780: the directions if the domain is empty. -/
def emptyDomBends (n : ℕ) (dom : List ℕ) (staying : ℕ) : Except PErr (List (Option Bool)) :=
  let left := if 0 ∈ dom ∧ n ≠ 1 then dom.idxOf 0 + 1 else 0
  let right := if n - 1 ∈ dom then dom.length - dom.idxOf (n - 1) else 0
  let left := if staying = 0 ∧ left = n ∧ right = n then 0 else left
  if left + staying + right ≠ n then .error .internal
  else .ok (three left (some false) staying none right (some true))

/-- src/tensors/planar.cpp:2781-2814: the directions if no leg of the codomain stays. -/
def codUpBends (K D : ℕ) (dom : List ℕ) : Except PErr (List (Option Bool)) :=
  let st := domStaying K D dom
  match st with
  | [] => .error .emptyVector
  | left :: _ =>
    let right := D - 1 - st.getLastD 0
    if left + st.length + right ≠ D then .error .internal
    else if st.length = D then
      (indexOf dom (K + D - 1)).map fun l => three l (some false) (K - l) (some true) D none
    else if left = 0 then .ok (three K (some false) right (some true) st.length none)
    else if right = 0 then .ok (three K (some true) st.length none left (some false))
    else .error .internal

/-- src/tensors/planar.cpp:2815-2848: the directions if no leg of the domain stays. -/
def domDownBends (K D : ℕ) (co : List ℕ) : Except PErr (List (Option Bool)) :=
  let st := codStaying K co
  match st with
  | [] => .error .emptyVector
  | left :: _ =>
    let right := K - 1 - st.getLastD 0
    if left + st.length + right ≠ K then .error .internal
    else if st.length = K then
      (indexOf co 0).map fun l => three K none (D - l) (some true) l (some false)
    else if left = 0 then .ok (three st.length none right (some true) D (some false))
    else if right = 0 then .ok (three left (some false) st.length none D (some true))
    else .error .internal

/-- src/tensors/planar.cpp:2849-2869: the directions if some legs stay in the codomain and some in the domain. -/
def generalBends (K D : ℕ) (co dom : List ℕ) : Except PErr (List (Option Bool)) :=
  match codStaying K co, domStaying K D dom with
  | cl :: cs, dl :: ds =>
    let cr := K - 1 - (cl :: cs).getLastD 0
    let dr := D - 1 - (dl :: ds).getLastD 0
    if ¬ (cl = 0 ∨ dl = 0) then .error .internal
    else if ¬ (cr = 0 ∨ dr = 0) then .error .internal
    else .ok (three cl (some false) (cl :: cs).length none cr (some true) ++
      three dr (some true) (dl :: ds).length none dl (some false))
  | _, _ => .error .emptyVector

/-- src/tensors/planar.cpp:2620-2875: the calls of `permute_legs` that `planar_permute_legs` makes, one after the
other (none, if the tensor is returned unchanged), for a tensor with `K` legs in the codomain and `D` legs in the
domain. -/
def permuteCalls (K D : ℕ) (co dom : List ℕ) : Except PErr (List Call) :=
  let cs := codStaying K co
  let ds := domStaying K D dom
  let call := fun b => [(⟨co, dom, b⟩ : Call)]
  if codWinding K co && domWinding K D dom then .error .internal
  else if cs = [] ∧ ds = [] ∧ co ≠ [] ∧ dom ≠ [] then
    if K < D then .ok (call (three K (some false) D (some true) 0 none))
    else .ok (call (three K (some true) D (some false) 0 none))
  else if codWinding K co then codWindingCalls K D co
  else if domWinding K D dom then domWindingCalls K D dom
  else if cs.length = K ∧ ds.length = D then .ok []
  else if K = 0 then (emptyCodBends (K + D) co ds.length).map call
  else if D = 0 then (emptyDomBends (K + D) dom cs.length).map call
  else if cs = [] then (codUpBends K D dom).map call
  else if ds = [] then (domDownBends K D co).map call
  else (generalBends K D co dom).map call

/-- src/tensors/planar.cpp:2552-2875 `planar_permute_legs`: the codomain and the domain of the result, and the
calls of `permute_legs`. -/
def planarPermuteLegs (K D : ℕ) (codomain domain : Option (List ℕ)) :
    Except PErr ((List ℕ × List ℕ) × List Call) :=
  (parsePermute (K + D) codomain domain).bind fun p => (permuteCalls K D p.1 p.2).map fun c => (p, c)

end Cyten.Planar
