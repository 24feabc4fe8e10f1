import Verif.Model.PlanarContract

/-!
# Model of `planar_partial_trace` for tensors (src/tensors/planar.cpp)

A tensor is represented by the names of its legs; the legs of the given tensor are numbered.
-/

namespace Cyten.Planar

/-- src/tensors/planar.cpp:2256-2259: `traced_legs` -/
def tracedLegs (pairs : List (ℕ × ℕ)) : List ℕ := pairs.flatMap fun p => [p.1, p.2]

/-- src/tensors/planar.cpp:2354-2371: `num_up_bends` and `num_down_bends`. -/
def traceBends (n : ℕ) (pairs : List (ℕ × ℕ)) : ℕ × ℕ :=
  pairs.foldl (fun acc p =>
    let l1 := min p.1 p.2
    let l2 := max p.1 p.2
    if (rangeOf (l1 + 1) l2).all fun l => decide (l ∈ tracedLegs pairs) then acc
    else (max acc.1 (l1 + 1), max acc.2 (n - l2))) (0, 0)

/-- src/tensors/planar.cpp:2373-2415: the tensor that is traced and the pairs of its legs, in the fusion tree
backend.  The indices `idx - num_up_bends` are taken modulo the number of legs (`py_mod`); in the model, this is
`idx + (n - num_up_bends)`. -/
def traceBent (K D : ℕ) (pairs : List (ℕ × ℕ)) : Except PErr (Diag ℕ × List (ℕ × ℕ)) :=
  let n := K + D
  let up := (traceBends n pairs).1
  let down := (traceBends n pairs).2
  if down = 0 then
    if up ≠ 0 then .error .internal else .ok (Diag.numbered K D, pairs)
  else if down < up then
    let inCod := if D ≤ down then down - D else 0
    (permuted K D (some (rangeOf (n - down) n ++ rangeOf 0 (K - inCod))) (some (reversedRange K (n - down)))).map
      fun t => (t, pairs.map fun p => ((p.1 + down) % n, (p.2 + down) % n))
  else
    let inDom := if K ≤ up then up - K else 0
    (permuted K D (some (rangeOf up K)) (some (reversedRange 0 up ++ reversedRange (K + inDom) n))).map
      fun t => (t, pairs.map fun p => ((p.1 + (n - up)) % n, (p.2 + (n - up)) % n))

/-- src/tensors/planar.cpp:2248-2430 `planar_partial_trace`: the tensor and the pairs of legs that are given to
`partial_trace`, whose first check (src/tensors/ops_algebra.cpp:1399-1402, no duplicates) is included.  `ft`: the
backend is the fusion tree backend. -/
def planarPartialTrace (ft : Bool) (K D : ℕ) (pairs : List (ℕ × ℕ)) : Except PErr (Diag ℕ × List (ℕ × ℕ)) :=
  (checkPairs (K + D) pairs pairs).bind fun _ =>
    (if ft then traceBent K D pairs else .ok (Diag.numbered K D, pairs)).bind fun r =>
      if ¬ (tracedLegs r.2).Nodup then .error .assertion else .ok r

end Cyten.Planar
