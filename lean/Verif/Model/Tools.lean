import Mathlib.Data.Nat.Notation
import Mathlib.Algebra.BigOperators.Group.List.Defs
import Mathlib.Data.List.Sort

/-!
# Model of the permutation, stride and grid helpers of `cyten.tools.misc`

numpy integer arrays are lists of natural numbers (indices); `none` is an exception.
-/

namespace Cyten.Tools

/-! ## Permutations -/

/-- cyten/tools/misc.py:172-174 `is_permutation`: `sorted(perm) == [*range(len(perm))]`. -/
def isPermutation (perm : List ℕ) : Bool :=
  perm.insertionSort (· ≤ ·) == List.range perm.length

/-- The loop `inv[perm[i]] = i` from `i` on (numpy fancy assignment writes in this order). -/
def scatter (inv : List ℕ) : ℕ → List ℕ → List ℕ
  | _, [] => inv
  | i, p :: ps => scatter (inv.set p i) (i + 1) ps

/-- cyten/tools/misc.py:177-205, src/symmetries/spaces.cpp:40-51,
src/tensors/ops_legs.cpp:179-189 `inverse_permutation`.  The uninitialised array is modelled by
zeros. -/
def inversePermutation (perm : List ℕ) : List ℕ :=
  scatter (List.replicate perm.length 0) 0 perm

/-- cyten/tools/misc.py:208-238, src/symmetries/spaces.cpp:939-952 `rank_data`, for an arbitrary
`argsort`. -/
def rankData {α : Type} (argsort : List α → List ℕ) (a : List α) : List ℕ :=
  inversePermutation (argsort a)

/-- The position that the rolled array of cyten/tools/misc.py:86-87 gives to position `x`: the
item at `cur` moves to `target`, those in between move up by one. -/
def rolled (target cur x : ℕ) : ℕ :=
  if target ≤ x ∧ x < cur then x + 1 else if x = cur ∧ target ≤ cur then target else x

/-- The main loop of `permutation_as_swaps`, cyten/tools/misc.py:79-88, from `target_pos` on;
the last argument is `permutation[target_pos:-1]`. -/
def swapLoop : ℕ → List ℕ → List ℕ → List ℕ
  | _, _, [] => []
  | target, current, orig :: rest =>
    let cur := current.getD orig 0
    ((List.range' target (cur - target)).reverse) ++
      swapLoop (target + 1) (current.map (rolled target cur)) rest

/-- cyten/tools/misc.py:59-88 `permutation_as_swaps`: the list of swaps `j <-> j + 1`. -/
def permutationAsSwaps (perm : List ℕ) : Option (List ℕ) :=
  if (∀ x ∈ perm, x ∈ List.range perm.length) ∧ (∀ x ∈ List.range perm.length, x ∈ perm) then
    some (swapLoop 0 (List.range perm.length) perm.dropLast)
  else none

/-! ## Strides and grids -/

/-- The loop of `make_stride` over the shape entries (in F-style order). -/
def strideLoop (stride : ℕ) : List ℕ → List ℕ
  | [] => []
  | s :: ss => stride :: strideLoop (stride * s) ss

/-- src/symmetries/spaces.cpp:2773-2792 `make_stride` (int64 arithmetic without overflow). -/
def makeStride (shape : List ℕ) (cstyle : Bool) : List ℕ :=
  if cstyle then (strideLoop 1 shape.reverse).reverse else strideLoop 1 shape

/-- `np.iinfo(int).max` -/
def maxInt : ℕ := 2 ^ 63 - 1

/-- cyten/tools/misc.py:256-281 `make_stride`: `IndexError` for an empty shape, and the
`AssertionError` of `assert stride * shape[0] < _MAX_INT` (the same expression for both styles),
where `stride` is the last stride computed. -/
def makeStridePy (shape : List ℕ) (cstyle : Bool) : Option (List ℕ) :=
  match shape with
  | [] => none
  | s0 :: ss =>
    let last := if cstyle then ss.prod else (s0 :: ss).dropLast.prod
    if last * s0 < maxInt then some (makeStride (s0 :: ss) cstyle) else none

/-- C-style grid: `np.indices(shape).reshape(len(shape), -1).T`: the last index varies fastest. -/
def gridC : List ℕ → List (List ℕ)
  | [] => [[]]
  | s :: ss => (List.range s).flatMap fun i => (gridC ss).map (i :: ·)

/-- F-style grid: `np.indices(shape).T.reshape(-1, len(shape))`: the first index varies
fastest. -/
def gridF (shape : List ℕ) : List (List ℕ) := (gridC shape.reverse).map List.reverse

/-- cyten/tools/misc.py:284-333 `make_grid`. -/
def makeGrid (shape : List ℕ) (cstyle : Bool) : List (List ℕ) :=
  if cstyle then gridC shape else gridF shape

/-- src/symmetries/spaces.cpp:2794-2805 `grid_entry`. -/
def gridEntry (m : ℕ) (strides shape : List ℕ) (n : ℕ) : ℕ :=
  (m / strides.getD n 1) % shape.getD n 1

/-- src/backends/block_inds.cpp:556-571 `BlockInds::pack`, for one row. -/
def packRow (strides row : List ℕ) : ℕ := (List.zipWith (· * ·) row strides).sum

/-- cyten/tools/misc.py:160-169 `combine_permutations`:
`sum(p * s for p, s in zip(np.ix_(*perms), strides)).reshape(-1, order)`: the entry at the
multi-index `row` is `sum_k perms[k][row[k]] * strides[k]`, listed in the order of the grid.
`none`: an argument is no permutation, or there is none at all. -/
def combinePermutations (perms : List (List ℕ)) (cstyle : Bool) : Option (List ℕ) :=
  if perms.all isPermutation then
    match makeStridePy (perms.map List.length) cstyle with
    | none => none
    | some strides =>
      some ((makeGrid (perms.map List.length) cstyle).map fun row =>
        packRow strides (List.zipWith (fun p i => p.getD i 0) perms row))
  else none

end Cyten.Tools
