import Verif.Model.TreePairMapping

/-!
# Model of `FusionTree::insert_at`, `FusionTree::outer` and `FusionTreeBackend::outer`

`src/symmetries/trees.cpp`, `src/backends/fusion_tree_backend.cpp`.  Arithmetic is exact; legs are not pipes.
A `std::map` is an association list with distinct keys: nothing proved depends on its order.
-/

namespace Cyten.FT
open Cyten.Abelian Cyten.Spaces Cyten.Tools Cyten.Mappings

variable {S K : Type}

/-- `_f_symbol(a, b, c, d, e, f)[mu, nu, kappa, lambda]`, include/cyten/symmetries/base_symmetry.h:62 -/
abbrev FSym (S K : Type) := S → S → S → S → S → S → ℕ → ℕ → ℕ → ℕ → K

/-- `TreePartsKey`, src/symmetries/trees.cpp:1290: the new inner sectors and multiplicities -/
abbrev PartsKey (S : Type) := List S × List ℕ

/-- src/symmetries/trees.cpp:1299-1331: what one round of the loop of `insert_at` makes of one key (before the factor
`amplitude`).  Accesses beyond the end, which do not occur for trees that pass `test_sanity`, give `coupled` or `0`
here. -/
def insertMoves [DecidableEq S] (R : FusionRule S) (F : FSym S K) (small : K → Bool) (a dInitial : S)
    (t2 : FusionTree S) (i : ℕ) (key : PartsKey S) : UMap (PartsKey S) K :=
  let b := if 1 < i then t2.inner.getD (i - 2) t2.coupled else t2.uncoupled.getD 0 t2.coupled
  let c := t2.uncoupled.getD i t2.coupled
  let d := key.1.headD dInitial
  let e := if key.1.isEmpty then t2.coupled else t2.inner.getD (i - 1) t2.coupled
  let multi := t2.mult.getD (i - 1) 0
  ((R.channels a b c d).map fun q =>
    ((q.1 :: key.1, q.2.1 :: q.2.2 :: key.2.tail), F a b c d e q.1 multi (key.2.headD 0) q.2.1 q.2.2)).filter
      fun p => !small p.2

/-- src/symmetries/trees.cpp:1295-1335: the loop `for (i = t2.num_uncoupled - 1; i > 0; --i)` -/
def insertLoop [DecidableEq S] [CommRing K] (R : FusionRule S) (F : FSym S K) (small : K → Bool) (a dInitial : S)
    (t2 : FusionTree S) : ℕ → UMap (PartsKey S) K → UMap (PartsKey S) K
  | 0, parts => parts
  | i + 1, parts => insertLoop R F small a dInitial t2 i
    (parts.foldl (fun res p => (insertMoves R F small a dInitial t2 (i + 1) p.1).foldl
      (fun res q => res.addTo q.1 (q.2 * p.2)) res) [])

/-- src/symmetries/trees.cpp:1218-1351 `FusionTree::insert_at(n, t2, eps)`; `small`: the absolute value is less than
`eps`.  The assertions on `uncoupled[n]` and `are_dual[n]` (1224-1226) are not part of the model. -/
def insertAt [DecidableEq S] [CommRing K] (R : FusionRule S) (F : FSym S K) (small : K → Bool) (t : FusionTree S)
    (n : ℕ) (t2 : FusionTree S) : UMap (FusionTree S) K :=
  if t2.uncoupled.length = 0 then
    [(⟨t.uncoupled.take n ++ t.uncoupled.drop (n + 1), t.coupled, t.areDual.take n ++ t.areDual.drop (n + 1),
      t.inner.take (n - 1) ++ t.inner.drop (n - 1 + 1), t.mult.take (n - 1) ++ t.mult.drop (n - 1 + 1)⟩, 1)]
  else if t2.uncoupled.length - 1 = 0 then
    if t2.areDual.getD 0 false then [({ t with areDual := t.areDual.set n true }, 1)] else [(t, 1)]
  else if t.uncoupled.length - 1 = 0 then [(t2, 1)]
  else if n = 0 then [(t.insert t2, 1)]
  else
    let left := t.inner.take (n - 1)
    let right := t.inner.drop (n - 1)
    let a := if left.length = 0 then t.uncoupled.getD 0 t.coupled else left.getLastD t.coupled
    let dInitial := if n = t.uncoupled.length - 1 then t.coupled else right.headD t.coupled
    (insertLoop R F small a dInitial t2 (t2.uncoupled.length - 1) [(([], [t.mult.getD (n - 1) 0]), 1)]).map fun p =>
      (⟨t.uncoupled.take n ++ t2.uncoupled ++ t.uncoupled.drop (n + 1), t.coupled,
        t.areDual.take n ++ t2.areDual ++ t.areDual.drop (n + 1), left ++ p.1.1 ++ right,
        t.mult.take (n - 1) ++ p.1.2 ++ t.mult.drop n⟩, p.2)

/-- src/symmetries/trees.cpp:1353-1393 `FusionTree::outer(right_tree, eps)` -/
def treeOuter [DecidableEq S] [CommRing K] (R : FusionRule S) (F : FSym S K) (small : K → Bool)
    (t right : FusionTree S) : UMap (FusionTree S) K :=
  if t.uncoupled.length = 0 then [(right, 1)]
  else if right.uncoupled.length = 0 then [(t, 1)]
  else ((R.outcomes t.coupled right.coupled).flatMap fun c =>
      (List.range (R.rawN t.coupled right.coupled c)).map fun m =>
        insertAt R F small ⟨t.uncoupled ++ [right.coupled], c, t.areDual ++ [false],
          if t.uncoupled.length ≤ 1 then [] else t.inner ++ [t.coupled], t.mult ++ [m]⟩ t.uncoupled.length right).foldl
    (fun res l => l.foldl (fun res q => res.addTo q.1 q.2) res) []

/-! ## The backend -/

/-- src/backends/fusion_tree_backend.cpp:2519-2546: the loop over `domain->iter_uncoupled` of `tree_block_iter`; the
width of a forest is the largest one of the rounds of the inner loop. (`prod(multiplicities)` is
`tree_block_size(uncoupled)`.) -/
def blockIterCols [LinearOrder S] (R : FusionRule S) (cod dom : Side S) (c : S) (ais : List (UItem S)) :
    List (UItem S) → ℕ → List (Placed S × Placed S)
  | [], _ => []
  | bi :: bis, i2 =>
    let width := (ais.map fun ai => if (cod.trees R c ai).isEmpty then 0
      else (dom.trees R c bi).length * dom.size bi).foldl max 0
    rowLoop R false cod dom c bi i2 ais 0 ++ blockIterCols R cod dom c ais bis (i2 + width)

/-- src/backends/fusion_tree_backend.cpp:2504-2549 `tree_block_iter`: the calls of `fn`; an index of a coupled sector
out of range is skipped here. -/
def treeBlockIter [LinearOrder S] (R : FusionRule S) (dim : S → ℕ) (sectors : List S) (cod dom : Side S) (D : FEnts K) :
    List (FusionTree S × FusionTree S × Mat K) :=
  D.flatMap fun e => match sectors[e.1.1]? with
    | none => []
    | some c => (blockIterCols R cod dom c (iterUncoupledSlices dim cod.spaces) (iterUncoupledSlices dim dom.spaces) 0).map
      fun v => (v.1.tree, v.2.tree,
        e.2.slice (v.1.start, v.1.start + cod.size v.1.item) (v.2.start, v.2.start + dom.size v.2.item))

/-- src/backends/fusion_tree_backend.cpp:2636-2639: `outer`, `permute_axes({0, 2, 1, 3})`,
`combine_legs({{0, 1}, {2, 3}})` -/
def outerBlock [Mul K] (a b : Mat K) : Mat K :=
  let r := ((Blk.outer a.toBlk b.toBlk).permuteAxes [0, 2, 1, 3]).reshape [a.rows * b.rows, a.cols * b.cols]
  ⟨a.rows * b.rows, a.cols * b.cols, fun m n => r.val [m, n]⟩

/-- src/backends/fusion_tree_backend.cpp:2651-2662: `block[s1, s2] = block[s1, s2] + factor * new_tree_block` -/
def Mat.addSlice [Add K] [Mul K] (M : Mat K) (s1 s2 : ℕ × ℕ) (x : K) (b : Mat K) : Mat K :=
  ⟨M.rows, M.cols, fun m n =>
    if s1.1 ≤ m ∧ m < s1.2 ∧ s2.1 ≤ n ∧ n < s2.2 then M.val m n + x * b.val (m - s1.1) (n - s2.1) else M.val m n⟩

/-- src/backends/fusion_tree_backend.cpp:2648-2663: the body of the loop over `new_codom_trees` -/
def outerAdd [LinearOrder S] [CommRing K] [StarRing K] (R : FusionRule S) (cod' : Side S) (k : ℕ) (dslc : ℕ × ℕ)
    (y : FusionTree S × K) (b : Mat K) (D : FEnts K) (x : FusionTree S × K) : Option (FEnts K) :=
  if x.1.coupled ≠ y.1.coupled then some D
  else match TProd.treeBlockSlice R cod'.spaces x.1, D[k]? with
    | some cslc, some e => some (D.set k (e.1, e.2.addSlice cslc dslc (star x.2 * y.2) b))
    | _, _ => none

/-- src/backends/fusion_tree_backend.cpp:2642-2664: the body of the loop over `new_dom_trees` -/
def outerDom [LinearOrder S] [CommRing K] [StarRing K] (R : FusionRule S) (cod' dom' : Side S) (ld' : BLeg S)
    (xs : UMap (FusionTree S) K) (b : Mat K) (D : FEnts K) (y : FusionTree S × K) : Option (FEnts K) :=
  match TProd.treeBlockSlice R dom'.spaces y.1, blockIndFromCoupled D ld' y.1.coupled with
  | some dslc, some (some k) => xs.foldlM (outerAdd R cod' k dslc y b) D
  | some _, some none => some D
  | _, _ => none

/-- src/backends/fusion_tree_backend.cpp:2631-2664: the body of the two loops over the tree blocks -/
def outerPair [LinearOrder S] [CommRing K] [StarRing K] (R : FusionRule S) (F : FSym S K) (small : K → Bool)
    (cod' dom' : Side S) (ld' : BLeg S) (D : FEnts K)
    (v : (FusionTree S × FusionTree S × Mat K) × (FusionTree S × FusionTree S × Mat K)) : Option (FEnts K) :=
  (treeOuter R F small v.1.2.1 v.2.2.1).foldlM
    (outerDom R cod' dom' ld' (treeOuter R F small v.1.1 v.2.1) (outerBlock v.1.2.2 v.2.2.2)) D

/-- A product of two sides: `TensorProduct::from_partial_products`, src/symmetries/spaces.cpp (C28) -/
def Side.append (s1 s2 : Side S) : Side S := ⟨s1.spaces ++ s2.spaces, s1.areDual ++ s2.areDual⟩

/-- src/backends/fusion_tree_backend.cpp:2608-2667 `outer`; `lc'`, `ld'`: the coupled sectors of the products; `big`: the
norm of a block is at least `fusion_tree_eps` -/
def outer [LinearOrder S] [CommRing K] [StarRing K] (R : FusionRule S) (F : FSym S K) (small : K → Bool)
    (big : Mat K → Bool) (dim : S → ℕ) (sa sb : List S) (codA domA codB domB : Side S) (lc' ld' : BLeg S)
    (a b : FEnts K) : Option (FEnts K) :=
  (((treeBlockIter R dim sa codA domA a).flatMap fun x =>
    (treeBlockIter R dim sb codB domB b).map fun y => (x, y)).foldlM
    (outerPair R F small (codA.append codB) (domA.append domB) ld') (zeroData lc' ld' true)).map
    (discardZeroBlocks big)

end Cyten.FT
