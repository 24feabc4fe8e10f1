import Mathlib.Data.List.Sort
import Mathlib.Data.List.Nodup

/-!
# `Coupling.permute`: adjacent transpositions and the braids of a permutation of sites

Models `is_permutation`, `adjacent_transpositions` and the bookkeeping of `Coupling::permute`
(src/models/couplings.cpp).  Tensors enter only through their leg labels; the braid of two legs is
`permute_legs` (C01–C06, C45).
-/

namespace Cyten.CouplingPermute

/-- `is_permutation`: the sorted copy is `0, 1, 2, ...`; entries are `int64`
(src/models/couplings.cpp:73-84). -/
def isPermutation (p : List ℤ) : Bool :=
  (p.mergeSort (fun a b => decide (a ≤ b))).zipIdx.all fun x => decide (x.1 = (x.2 : ℤ))

/-- `std::swap(v[i], v[j])` with valid indices (src/models/couplings.cpp:356-357, 779-782). -/
def swapAt {α : Type} (v : List α) (i j : ℕ) : List α :=
  match v[i]?, v[j]? with
  | some a, some b => (v.set i b).set j a
  | _, _ => v

/-- The search for `value` from `target_pos` on; `target_pos` if not found
(src/models/couplings.cpp:347-353). -/
def findFrom (w : List ℕ) (target value : ℕ) : ℕ :=
  match (List.range' target (w.length - target)).find? (fun i => decide (w[i]? = some value)) with
  | some i => i
  | none => target

/-- The inner loop `while (cur > target_pos)` with `cur = target_pos + d`: record `cur - 1`, swap,
decrement (src/models/couplings.cpp:354-359). -/
def bubble (target : ℕ) : ℕ → List ℕ → List ℕ → List ℕ × List ℕ
  | 0, w, s => (w, s)
  | d + 1, w, s => bubble target d (swapAt w (target + d) (target + d + 1)) (s ++ [target + d])

/-- The loop over `target_pos` (src/models/couplings.cpp:345-360). -/
def adjLoop : ℕ → List ℕ → List ℕ → List ℕ → List ℕ × List ℕ
  | _, [], w, s => (w, s)
  | target, value :: rest, w, s =>
    let cur := findFrom w target value
    let r := bubble target (cur - target) w s
    adjLoop (target + 1) rest r.1 r.2

/-- `adjacent_transpositions` (src/models/couplings.cpp:337-362). -/
def adjacentTranspositions (p : List ℕ) : List ℕ :=
  (adjLoop 0 p (List.range p.length) []).2

/-- What the loop of `Coupling::permute` carries along: the labels `p{i}` of the codomain and
`p{i}*` of the domain by their site number, the sites, and the levels, each in the current order
(src/models/couplings.cpp:721-731). -/
structure State (σ : Type) where
  codomain : List ℕ
  domain : List ℕ
  sites : List σ
  levels : List (Option ℤ)

/-- One braid that was done: the numbers of the sites at `pos` and `pos + 1`, and whether the first
goes over the second (src/models/couplings.cpp:733-783). -/
structure Crossing where
  first : ℕ
  second : ℕ
  isOver : Bool
deriving DecidableEq, Repr

/-- The chirality of a step: the explicit entry of `over_braid`, else the levels at the two
positions; `none` is a `BraidChiralityUnspecifiedError`
(src/models/couplings.cpp:734-750). -/
def chirality (overBraid : Option (List (Option Bool))) (step pos : ℕ) (levels : List (Option ℤ)) :
    Option Bool :=
  match overBraid.bind fun l => (l[step]?).join with
  | some b => some b
  | none =>
    match (levels[pos]?).join, (levels[pos + 1]?).join with
    | some l1, some l2 => if l1 = l2 then none else some (decide (l1 > l2))
    | _, _ => none

/-- The loop of `Coupling::permute` over the elementary transpositions
(src/models/couplings.cpp:732-783). -/
def permuteLoop {σ : Type} (overBraid : Option (List (Option Bool))) :
    ℕ → List ℕ → State σ → List Crossing → Option (State σ × List Crossing)
  | _, [], st, log => some (st, log)
  | step, pos :: rest, st, log =>
    match chirality overBraid step pos st.levels with
    | none => none
    | some ov =>
      permuteLoop overBraid (step + 1) rest
        { codomain := swapAt st.codomain pos (pos + 1)
          domain := swapAt st.domain pos (pos + 1)
          sites := swapAt st.sites pos (pos + 1)
          levels := swapAt st.levels pos (pos + 1) }
        (log ++ [⟨st.codomain.getD pos 0, st.codomain.getD (pos + 1) 0, ov⟩])

/-- The relabelling `p{permutation[k]} -> p{k}` applied to labels; unknown labels stay
(src/models/couplings.cpp:785-791). -/
def relabel (p : List ℕ) (labels : List ℕ) : List ℕ :=
  labels.map fun x => if x ∈ p then p.idxOf x else x

/-- The result of `Coupling::permute`: the sites handed to `from_tensor`, the labels of the tensor
handed to it, the new levels and the braids that were done. -/
structure Result (σ : Type) where
  sites : List σ
  codomain : List ℕ
  domain : List ℕ
  levels : List ℤ
  log : List Crossing

/-- `Coupling::permute` without the cache; `none` is an exception.  `levels0` are the stored levels
`_levels` of the coupling (src/models/couplings.cpp:679-800).  The check of `from_tensor` that the
labels are `p0, p1, ...` in order is included (src/models/couplings.cpp:519-533). -/
def permute {σ : Type} (sites : List σ) (levels0 : List ℤ) (p : List ℕ)
    (levels : Option (List (Option ℤ))) (overBraid : Option (List (Option Bool))) :
    Option (Result σ) :=
  let n := sites.length
  if isPermutation (p.map Int.ofNat) = false then none
  else
    let lv := levels.getD (levels0.map some)
    if lv.length ≠ n then none
    else
      let swaps := adjacentTranspositions p
      if (overBraid.map List.length).getD swaps.length ≠ swaps.length then none
      else
        match permuteLoop overBraid 0 swaps ⟨List.range n, List.range n, sites, lv⟩ [] with
        | none => none
        | some (st, log) =>
          let cod := relabel p st.codomain
          let dom := relabel p st.domain
          if cod = List.range n ∧ dom = List.range n then
            some ⟨st.sites, cod, dom, p.map fun i => levels0.getD i 0, log⟩
          else none

end Cyten.CouplingPermute
