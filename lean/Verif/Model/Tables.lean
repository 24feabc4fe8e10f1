import Mathlib.Order.Defs.LinearOrder
import Mathlib.Data.Nat.Notation

/-!
# Model of sorted tables of rows (`SectorArray`, `BlockInds`) and the merge iterations

A row is a list of entries from a linear order (`int64` in the code), a table is a list of rows.
-/

namespace Cyten.Tables

section Cmp
variable {ι : Type} [LinearOrder ι]

/-- The loop of `cmp_lexsort` over the columns, given in reverse order. -/
def cmpRev : List ι → List ι → Ordering
  | x :: xs, y :: ys => if x < y then .lt else if x > y then .gt else cmpRev xs ys
  | _, _ => .eq

/-- src/backends/block_inds.cpp:260-289 `BlockInds::cmp_lexsort` and
src/symmetries/sector_array.cpp:97-125 `cmp_lexsort`: compare the last column first (the order
of `np.lexsort(arr.T)`), over the common number of columns, then the number of columns. -/
def cmpLexsort (a b : List ι) : Ordering :=
  let n := if a.length < b.length then a.length else b.length
  match cmpRev (a.take n).reverse (b.take n).reverse with
  | .lt => .lt
  | .gt => .gt
  | .eq =>
    if a.length < b.length then .lt else if a.length > b.length then .gt else .eq

end Cmp

section Merge
variable {α : Type}

/-- The loop of `iter_common_sorted` from the positions `i`, `j` on; the lists are the suffixes of
the tables from `i` and `j` on.
src/symmetries/sector_array.cpp:283-318 `SectorArray::iter_common_sorted`,
src/backends/block_inds.cpp:592-624 `BlockInds::iter_common_sorted`,
src/backends/abelian.cpp:184-202 `iter_common_sorted_1d` (both strict),
cyten/tools/misc.py:417-438 and 440-480. The first argument bounds the number of rounds. -/
def commonLoop (cmp : α → α → Ordering) (aStrict bStrict : Bool) :
    ℕ → ℕ → List α → ℕ → List α → List (ℕ × ℕ)
  | 0, _, _, _, _ => []
  | fuel + 1, i, x :: xs, j, y :: ys =>
    match cmp x y with
    | .lt => commonLoop cmp aStrict bStrict fuel (i + 1) xs j (y :: ys)
    | .gt => commonLoop cmp aStrict bStrict fuel i (x :: xs) (j + 1) ys
    | .eq =>
      (i, j) ::
        commonLoop cmp aStrict bStrict fuel (if bStrict then i + 1 else i)
          (if bStrict then xs else x :: xs) (if aStrict then j + 1 else j)
          (if aStrict then ys else y :: ys)
  | _ + 1, _, _, _, _ => []

/-- `iter_common_sorted`: the pairs that are yielded, in order; `none` is the exception raised
if neither table is declared strictly sorted.  Each round advances at least one of the two
positions, so `len(a) + len(b)` rounds are enough for the loop to end. -/
def iterCommonSorted (cmp : α → α → Ordering) (a b : List α) (aStrict bStrict : Bool) :
    Option (List (ℕ × ℕ)) :=
  if !aStrict && !bStrict then none
  else some (commonLoop cmp aStrict bStrict (a.length + b.length) 0 a 0 b)

/-- The trailing loop `for (; i < n; ++i)`: the indices from `i` on, for the rows left. -/
def tailLoop : ℕ → List α → List ℕ
  | _, [] => []
  | i, _ :: xs => i :: tailLoop (i + 1) xs

/-- src/backends/block_inds.cpp:626-657 `BlockInds::iter_common_noncommon_sorted`,
cyten/tools/misc.py:383-414 and 482-512, from the positions `i`, `j` on. -/
def noncommonLoop (cmp : α → α → Ordering) :
    ℕ → ℕ → List α → ℕ → List α → List (Option ℕ × Option ℕ)
  | fuel + 1, i, x :: xs, j, y :: ys =>
    match cmp x y with
    | .lt => (some i, none) :: noncommonLoop cmp fuel (i + 1) xs j (y :: ys)
    | .gt => (none, some j) :: noncommonLoop cmp fuel i (x :: xs) (j + 1) ys
    | .eq => (some i, some j) :: noncommonLoop cmp fuel (i + 1) xs (j + 1) ys
  | _, i, xs, j, ys =>
    (tailLoop i xs).map (fun i => (some i, none)) ++ (tailLoop j ys).map fun j => (none, some j)

/-- `iter_common_noncommon_sorted`: what is yielded, in order. -/
def iterCommonNoncommon (cmp : α → α → Ordering) (a b : List α) : List (Option ℕ × Option ℕ) :=
  noncommonLoop cmp (a.length + b.length) 0 a 0 b

/-- The loop of `find_row_differences`: the indices `i ≥ 1` at which the row differs from the
previous one. -/
def diffLoop [DecidableEq α] : ℕ → α → List α → List ℕ
  | _, _, [] => []
  | i, p, x :: xs => if p ≠ x then i :: diffLoop (i + 1) x xs else diffLoop (i + 1) x xs

/-- src/symmetries/sector_array.cpp:143-164 and src/backends/block_inds.cpp:308-336
`find_row_differences`. -/
def findRowDifferences [DecidableEq α] (rows : List α) (includeLen : Bool) : List ℕ :=
  match rows with
  | [] => if includeLen then [0] else []
  | x :: xs =>
    0 :: diffLoop 1 x xs ++ (if includeLen then [(x :: xs).length] else [])

end Merge

end Cyten.Tables
