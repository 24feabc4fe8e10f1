import Verif.Model.Planar

/-!
# Model of `planar_contraction` (src/tensors/planar.cpp)

A tensor is represented by the names of its legs, in the codomain and in the domain (both from left to right).  A
contraction results in the list of the pairs of names that are contracted and in the names of the open legs.
-/

namespace Cyten.Planar

/-- The names of the legs of a tensor. -/
structure Diag (α : Type) where
  cod : List α
  dom : List α
deriving DecidableEq

/-- The order of `tensor.legs`: codomain from left to right, then domain from right to left. -/
def Diag.legs {α : Type} (t : Diag α) : List α := t.cod ++ t.dom.reverse

/-- The original tensor, with its legs numbered. -/
def Diag.numbered (K D : ℕ) : Diag ℕ := ⟨List.range K, (List.range' K D).reverse⟩

/-- Give names to numbered legs. -/
def Diag.map {α β : Type} (f : α → β) (t : Diag α) : Diag β := ⟨t.cod.map f, t.dom.map f⟩

/-- src/tensors/ops_algebra.cpp:614-684 `compose`: the domain of the first tensor with the codomain of the second
one (`check_leg_seq`: the same number of legs). -/
def compose {α : Type} (t1 t2 : Diag α) : Except PErr (List (α × α) × Diag α) :=
  if t1.dom.length ≠ t2.cod.length then .error .lengths
  else .ok (t1.dom.zip t2.cod, ⟨t1.cod, t2.dom⟩)

/-- src/tensors/ops_algebra.cpp:1180-1371 `partial_compose`: the legs of the first tensor from `first` on with all
legs of the domain or all legs of the codomain of the second one; the legs of the second tensor replace them. -/
def partialCompose {α : Type} (t1 t2 : Diag α) (first : ℕ) : Except PErr (List (α × α) × Diag α) :=
  if first < t1.cod.length then
    let num := t2.dom.length
    if ¬ (0 < num ∧ first + num ≤ t1.cod.length ∧ num < t1.cod.length) then .error .lengths
    else .ok (((t1.cod.drop first).take num).zip t2.dom,
      ⟨t1.cod.take first ++ t2.cod ++ t1.cod.drop (first + num), t1.dom⟩)
  else
    let num := t2.cod.length
    if ¬ (0 < num ∧ first + num ≤ t1.legs.length ∧ num < t1.dom.length) then .error .lengths
    else
      let df := t1.legs.length - (first + num)
      .ok (((t1.dom.drop df).take num).zip t2.cod,
        ⟨t1.cod, t1.dom.take df ++ t2.dom ++ t1.dom.drop (df + num)⟩)

/-- `planar_permute_legs` of the original tensor (`planarPermuteLegs`). -/
def permuted (K D : ℕ) (c d : Option (List ℕ)) : Except PErr (Diag ℕ) :=
  (planarPermuteLegs K D c d).map fun r => ⟨r.1.1, r.1.2⟩

/-- `std::ranges::min_element` of a list that is not empty. -/
def minOf (l : List ℕ) : ℕ := l.foldl min (l.headD 0)

/-- `std::ranges::max_element` of a list that is not empty. -/
def maxOf (l : List ℕ) : ℕ := l.foldl max (l.headD 0)

/-- src/tensors/planar.cpp:3020-3025: `bend_right` -/
def bendRight (K n : ℕ) (contr : List ℕ) : Bool :=
  if 0 < K ∧ K - 1 ∈ contr ∧ K ∈ contr then true
  else if 0 ∈ contr ∧ 0 < n ∧ n - 1 ∈ contr then false
  else true

/-- src/tensors/planar.cpp:2989-3092 `_planar_contraction_helper`: the tensor after the bends, and the first leg for
`partial_compose`. -/
def helper (K D : ℕ) (contr : List ℕ) (domain : Bool) : Except PErr (Diag ℕ × Option ℕ) :=
  let n := K + D
  let unchanged : Except PErr (Diag ℕ × Option ℕ) := .ok (Diag.numbered K D, some (minOf contr))
  if contr = [] then
    (if domain then permuted K D (some (rangeOf 0 n)) none else permuted K D none (some (reversedRange 0 n))).map
      fun t => (t, none)
  else if contr.length = n then
    (if domain then permuted K D none (some contr) else permuted K D (some contr) none).map fun t => (t, none)
  else
    match bendRight K n contr, domain with
    | true, true =>
      let num := K - minOf contr
      if 0 < num then (permuted K D (some (rangeOf 0 (K - num))) (some (reversedRange (K - num) n))).map fun t =>
        (t, some (minOf contr))
      else unchanged
    | true, false =>
      let num := maxOf contr + 1 - K
      if 0 < num then (permuted K D (some (rangeOf 0 (K + num))) (some (reversedRange (K + num) n))).map fun t =>
        (t, some (minOf contr))
      else unchanged
    | false, true =>
      let inCod := contr.filter fun l => l < K
      if inCod = [] then unchanged
      else
        let num := maxOf inCod + 1
        (permuted K D (some (rangeOf num K)) (some (rangeOf K n ++ rangeOf 0 num).reverse)).map fun t =>
          (t, some (n - contr.length))
    | false, false =>
      let inDom := contr.filter fun l => K ≤ l
      if inDom = [] then unchanged
      else
        let num := n - minOf inDom
        if 0 < num then
          (permuted K D (some (rangeOf (n - num) n ++ rangeOf 0 K)) (some (reversedRange K (n - num)))).map fun t =>
            (t, some 0)
        else unchanged

/-- `*partial_compose_leg`: undefined behaviour if there is no value. -/
def deref (o : Option ℕ) : Except PErr ℕ := match o with | some x => .ok x | none => .error .emptyVector

/-- src/tensors/planar.cpp:2085-2102: the number of contracted legs in the codomain. -/
def bendUp (K : ℕ) (contr : List ℕ) : ℕ := (contr.filter fun l => l < K).length

/-- src/tensors/planar.cpp:2103: whether the contracted legs go up for `tensor1`. -/
def goesUp (K1 K2 : ℕ) (contr1 contr2 : List ℕ) : Bool :=
  decide (bendUp K1 contr1 + (contr1.length - bendUp K2 contr2) < (contr1.length - bendUp K1 contr1) + bendUp K2 contr2)

/-- src/tensors/planar.cpp:2048-2149 `planar_contraction` of tensors with `K1`, `K2` legs in the codomain and `D1`,
`D2` in the domain: the contracted pairs and the result; the legs of the first tensor have the names
`(false, i)`, those of the second one `(true, i)`. -/
def planarContraction (K1 D1 K2 D2 : ℕ) (legs1 legs2 : List ℕ) :
    Except PErr (List ((Bool × ℕ) × (Bool × ℕ)) × Diag (Bool × ℕ)) :=
  (contractionLegs (K1 + D1) (K2 + D2) legs1 legs2).bind fun (contr1, open1, contr2, open2) =>
    let num := contr1.length
    let up1 := bendUp K1 contr1
    let up2 := bendUp K2 contr2
    let down1 := num - up1
    let down2 := num - up2
    let n1 : Diag ℕ → Diag (Bool × ℕ) := Diag.map (Prod.mk false)
    let n2 : Diag ℕ → Diag (Bool × ℕ) := Diag.map (Prod.mk true)
    if goesUp K1 K2 contr1 contr2 then
      let away1 := D1 + up1 - num
      let away2 := K2 + down2 - num
      if away2 < away1 then
        (helper K1 D1 contr1 true).bind fun (t1, leg) =>
          (permuted K2 D2 (some contr2.reverse) (some open2.reverse)).bind fun t2 =>
            if num < t1.dom.length then (deref leg).bind fun l => partialCompose (n1 t1) (n2 t2) l
            else compose (n1 t1) (n2 t2)
      else
        (helper K2 D2 contr2 false).bind fun (t2, leg) =>
          (permuted K1 D1 (some open1) (some contr1.reverse)).bind fun t1 =>
            if num < t2.cod.length then (deref leg).bind fun l => partialCompose (n2 t2) (n1 t1) l
            else compose (n1 t1) (n2 t2)
    else
      let away1 := K1 + down1 - num
      let away2 := D2 + up2 - num
      if away2 < away1 then
        (helper K1 D1 contr1 false).bind fun (t1, leg) =>
          (permuted K2 D2 (some open2) (some contr2)).bind fun t2 =>
            if num < t1.cod.length then (deref leg).bind fun l => partialCompose (n1 t1) (n2 t2) l
            else compose (n2 t2) (n1 t1)
      else
        (helper K2 D2 contr2 true).bind fun (t2, leg) =>
          (permuted K1 D1 (some contr1) (some open1.reverse)).bind fun t1 =>
            if num < t2.dom.length then (deref leg).bind fun l => partialCompose (n2 t2) (n1 t1) l
            else compose (n2 t2) (n1 t1)

end Cyten.Planar
