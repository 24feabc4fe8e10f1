import Verif.Model.Legs

/-!
# Model of `TensorProduct`, `src/symmetries/spaces.cpp`

Sectors and multiplicities of products, and the tree-block layout of the fusion tree backend.
`FusionRule` is the fusion part of the symmetry, `Sym` its dimensions and duals.
-/

namespace Cyten.Spaces
open Cyten.Tools Cyten.FusionTrees

variable {S : Type} [LinearOrder S]

/-- One entry of `fusion_outcomes_broadcast` (abelian symmetries, one outcome each). -/
def fuse2 (R : FusionRule S) (a b : S) : S := (R.outcomes a b).headD R.unit

/-- One row of `multiple_fusion_broadcast`, src/symmetries/base_symmetry.cpp:259-282. -/
def multipleFusion (R : FusionRule S) : List S → S
  | [] => R.unit
  | a :: rest => rest.foldl (fuse2 R) a

/-- The case of one factor, src/symmetries/spaces.cpp:2009-2017. -/
def sortedSpace (x : SpaceData S) : List S × List ℕ :=
  if x.order = some .sorted then (x.sectors, x.mults)
  else (gather x.sectors (lexsortIndices x.sectors), gather x.mults (lexsortIndices x.sectors))

/-- All combinations of one sector per space, src/symmetries/spaces.cpp:2019-2040: for the
combination `m` the sectors and the product of the multiplicities. -/
def abelianCombination (spaces : List (SpaceData S)) (m : ℕ) : List S × ℕ :=
  let nums := spaces.map fun x => x.sectors.length
  let idcs := (List.range spaces.length).map (gridEntry m (makeStride nums false) nums)
  ((List.zipWith (fun (x : SpaceData S) i => x.sectors[i]?) spaces idcs).reduceOption,
    (List.zipWith (fun (x : SpaceData S) i => x.mults.getD i 0) spaces idcs).prod)

/-- src/symmetries/spaces.cpp:2018-2046: the abelian case. -/
def calcAbelian (R : FusionRule S) (spaces : List (SpaceData S)) : List S × List ℕ :=
  let combs := (List.range (spaces.map fun x => x.sectors.length).prod).map
    (abelianCombination spaces)
  uniqueSorted (combs.map fun c => multipleFusion R c.1) (combs.map Prod.snd)

/-- The loop body of src/symmetries/spaces.cpp:2054-2068: all outcomes of fusing `sectors` with
the last space. `unique` is `has_unique_fusion()`. -/
def combineLast (R : FusionRule S) (unique : Bool) (sm : List S × List ℕ) (last : SpaceData S) :
    List (S × ℕ) :=
  (last.sectors.zip last.mults).flatMap fun q =>
    (sm.1.zip sm.2).flatMap fun p =>
      (R.outcomes p.1 q.1).map fun c =>
        (c, if unique then p.2 * q.2 else p.2 * q.2 * R.rawN p.1 q.1 c)

/-- src/symmetries/spaces.cpp:2048-2072: the recursion for non-abelian symmetries; the argument is
the list of spaces in reversed order. -/
def calcRev (R : FusionRule S) (unique : Bool) : List (SpaceData S) → List S × List ℕ
  | [] => ([R.unit], [1])
  | [x] => sortedSpace x
  | last :: x :: rest =>
    let c := combineLast R unique (calcRev R unique (x :: rest)) last
    uniqueSorted (c.map Prod.fst) (c.map Prod.snd)

/-- src/symmetries/spaces.cpp:2001-2072 `calc_sectors_of_spaces`. -/
def calcSectors (R : FusionRule S) (unique : Bool) (spaces : List (SpaceData S)) :
    List S × List ℕ :=
  if R.isAbelian && decide (2 ≤ spaces.length) then calcAbelian R spaces
  else calcRev R unique spaces.reverse

mutual
/-- `flat_spaces`, src/symmetries/spaces.cpp:204-208, 722-731. -/
def Leg.leaves : Leg S → List (ESpace S)
  | .space e => [e]
  | .pipe legs _ _ => leavesAll legs
/-- `flat_spaces` of a list of legs. -/
def Leg.leavesAll : List (Leg S) → List (ESpace S)
  | [] => []
  | l :: ls => l.leaves ++ leavesAll ls
end

/-- `TensorProduct`: `factors`, `sector_decomposition`, `multiplicities`. -/
structure TProd (S : Type) where
  factors : List (Leg S)
  sectors : List S
  mults : List ℕ

namespace TProd

/-- A `TensorProduct` as a `Space`, src/symmetries/spaces.cpp:2131-2139. -/
def toSpace (t : TProd S) : SpaceData S := ⟨t.sectors, t.mults, some .sorted⟩

/-- The flat spaces of a list of factors as `Space`s. -/
def flatSpaces (sym : Sym S) (factors : List (Leg S)) : List (SpaceData S) :=
  (Leg.leavesAll factors).map (ESpace.toSpace sym)

/-- The constructor, src/symmetries/spaces.cpp:2074-2152 (without given sectors). -/
def make (sym : Sym S) (R : FusionRule S) (unique : Bool) (factors : List (Leg S)) : TProd S :=
  let sm := calcSectors R unique (flatSpaces sym factors)
  ⟨factors, sm.1, sm.2⟩

/-- `as_space(leg)`, src/symmetries/spaces.cpp:2090-2098, 684-692. -/
def legSpace (sym : Sym S) (R : FusionRule S) (unique : Bool) : Leg S → SpaceData S
  | .space e => e.toSpace sym
  | .pipe legs _ _ => (make sym R unique legs).toSpace

/-- src/symmetries/spaces.cpp:2164-2189 `from_partial_products`; `none` for no products. -/
def fromPartialProducts (R : FusionRule S) (unique : Bool) (products : List (TProd S)) :
    Option (TProd S) :=
  if products.isEmpty then none
  else
    let sm := calcSectors R unique (products.map toSpace)
    some ⟨products.flatMap (·.factors), sm.1, sm.2⟩

/-- src/symmetries/spaces.cpp:2191-2203 `dual_space`. -/
def dual (sym : Sym S) (t : TProd S) : TProd S :=
  let s := sortSectors (t.sectors.map sym.dual) t.mults
  ⟨(t.factors.map Leg.dual).reverse, s.1, s.2.1⟩

/-- `factors[:pos]` has this length, src/symmetries/spaces.cpp:2396-2398. -/
def insertPos (n : ℕ) (pos : ℤ) : ℕ :=
  if pos < 0 then (max 0 ((n : ℤ) + pos)).toNat else (min pos n).toNat

/-- src/symmetries/spaces.cpp:2387-2406 `insert_multiply`. -/
def insertMultiply (sym : Sym S) (R : FusionRule S) (unique : Bool) (t : TProd S) (other : Leg S)
    (pos : ℤ) : TProd S :=
  let sm := calcSectors R unique [t.toSpace, legSpace sym R unique other]
  let at_ := insertPos t.factors.length pos
  ⟨t.factors.take at_ ++ [other] ++ t.factors.drop at_, sm.1, sm.2⟩

/-- src/symmetries/spaces.cpp:2512-2517 `left_multiply`. -/
def leftMultiply (sym : Sym S) (R : FusionRule S) (unique : Bool) (t : TProd S) (other : Leg S) :
    TProd S := insertMultiply sym R unique t other 0

/-- src/symmetries/spaces.cpp:2540-2544 `right_multiply`. -/
def rightMultiply (sym : Sym S) (R : FusionRule S) (unique : Bool) (t : TProd S) (other : Leg S) :
    TProd S := insertMultiply sym R unique t other (-1)

/-- The loop of src/symmetries/spaces.cpp:2526-2535: the indices of the new factors; `none`: not a
permutation. -/
def permIdcs (n : ℕ) : List ℤ → List ℕ → Option (List ℕ)
  | [], seen => some seen
  | i :: is, seen =>
    match Labels.toValidIdx i n with
    | none => none
    | some k => if k ∈ seen then none else permIdcs n is (seen ++ [k])

/-- src/symmetries/spaces.cpp:2519-2538 `permuted`. -/
def permuted (t : TProd S) (perm : List ℤ) : Option (TProd S) :=
  if perm.length ≠ t.factors.length then none
  else
    match permIdcs t.factors.length perm [] with
    | none => none
    | some idcs => some ⟨idcs.filterMap fun i => t.factors[i]?, t.sectors, t.mults⟩

/-! ## Tree blocks -/

/-- The item `m` of `iter_uncoupled`, src/symmetries/spaces.cpp:2477-2508: one sector and its
multiplicity per flat leg. -/
def uncoupledItem (spaces : List (SpaceData S)) (m : ℕ) : List S × List ℕ :=
  let nums := spaces.map fun x => x.sectors.length
  let idcs := (List.range spaces.length).map (gridEntry m (makeStride nums true) nums)
  ((List.zipWith (fun (x : SpaceData S) i => x.sectors[i]?) spaces idcs).reduceOption,
    List.zipWith (fun (x : SpaceData S) i => x.mults.getD i 0) spaces idcs)

/-- src/symmetries/spaces.cpp:2463-2511 `iter_uncoupled` (without the slices). -/
def iterUncoupled (spaces : List (SpaceData S)) : List (List S × List ℕ) :=
  if spaces.isEmpty then [([], [])]
  else (List.range (spaces.map fun x => x.sectors.length).prod).map (uncoupledItem spaces)

/-- The inner loops of `iter_tree_blocks` for one coupled sector,
src/symmetries/spaces.cpp:2420-2433: the trees of one item of `iter_uncoupled` from `start` on. -/
def treeItems (size : ℕ) (mults : List ℕ) :
    List (FusionTree S) → ℕ → List (FusionTree S × (ℕ × ℕ) × List ℕ)
  | [], _ => []
  | t :: ts, start => (t, (start, start + size), mults) :: treeItems size mults ts (start + size)

/-- The loops of src/symmetries/spaces.cpp:2419-2434 for one coupled sector, from `start` on. -/
def treeBlocksFrom (R : FusionRule S) (areDual : List Bool) (coupled : S) :
    List (List S × List ℕ) → ℕ → List (FusionTree S × (ℕ × ℕ) × List ℕ)
  | [], _ => []
  | item :: items, start =>
    let trees := allTrees R item.1 coupled areDual
    treeItems item.2.prod item.2 trees start ++
      treeBlocksFrom R areDual coupled items (start + trees.length * item.2.prod)

/-- src/symmetries/spaces.cpp:2408-2439 `iter_tree_blocks`, for one coupled sector. -/
def iterTreeBlocks (R : FusionRule S) (areDual : List Bool) (spaces : List (SpaceData S))
    (coupled : S) : List (FusionTree S × (ℕ × ℕ) × List ℕ) :=
  treeBlocksFrom R areDual coupled (iterUncoupled spaces) 0

/-- The loop of src/symmetries/spaces.cpp:2443-2452, from `start` on. -/
def forestBlocksFrom (R : FusionRule S) (coupled : S) :
    List (List S × List ℕ) → ℕ → List (List S × (ℕ × ℕ))
  | [], _ => []
  | item :: items, start =>
    let width := FusionTrees.size R item.1 coupled * item.2.prod
    if width = 0 then forestBlocksFrom R coupled items start
    else (item.1, (start, start + width)) :: forestBlocksFrom R coupled items (start + width)

/-- src/symmetries/spaces.cpp:2441-2461 `iter_forest_blocks`, for one coupled sector. -/
def iterForestBlocks (R : FusionRule S) (spaces : List (SpaceData S)) (coupled : S) :
    List (List S × (ℕ × ℕ)) :=
  forestBlocksFrom R coupled (iterUncoupled spaces) 0

/-- The loop of src/symmetries/spaces.cpp:2365-2375 and 2571-2581: the start of the forest block
and the tree block size of the item; `none`: not found. -/
def findForest (R : FusionRule S) (coupled : S) (uncoupled : List S) :
    List (List S × List ℕ) → ℕ → Option (ℕ × ℕ)
  | [], _ => none
  | item :: items, start =>
    if item.1 = uncoupled then some (start, item.2.prod)
    else findForest R coupled uncoupled items
      (start + FusionTrees.size R item.1 coupled * item.2.prod)

/-- src/symmetries/spaces.cpp:2561-2590 `tree_block_slice`. -/
def treeBlockSlice (R : FusionRule S) (spaces : List (SpaceData S)) (tree : FusionTree S) :
    Option (ℕ × ℕ) :=
  match findForest R tree.coupled tree.uncoupled (iterUncoupled spaces) 0 with
  | none => none
  | some (start, size) =>
    match FusionTrees.index R tree.uncoupled tree.coupled tree.areDual tree with
    | .error _ => none
    | .ok k => some (start + size * k, start + size * k + size)

/-- src/symmetries/spaces.cpp:2546-2559 `tree_block_size`. -/
def treeBlockSize (spaces : List (SpaceData S)) (uncoupled : List S) : ℕ :=
  (List.zipWith (fun (x : SpaceData S) s => x.sectorMultiplicity s) spaces uncoupled).prod

/-- src/symmetries/spaces.cpp:2351-2360 `forest_block_size`. -/
def forestBlockSize (R : FusionRule S) (spaces : List (SpaceData S)) (uncoupled : List S)
    (coupled : S) : ℕ := FusionTrees.size R uncoupled coupled * treeBlockSize spaces uncoupled

/-- src/symmetries/spaces.cpp:2362-2385 `forest_block_slice`. -/
def forestBlockSlice (R : FusionRule S) (spaces : List (SpaceData S)) (uncoupled : List S)
    (coupled : S) : Option (ℕ × ℕ) :=
  match findForest R coupled uncoupled (iterUncoupled spaces) 0 with
  | none => none
  | some (start, _) => some (start, start + forestBlockSize R spaces uncoupled coupled)

/-- src/symmetries/spaces.cpp:2205-2212 `block_size` of a coupled sector. -/
def blockSize (t : TProd S) (coupled : S) : ℕ := t.toSpace.sectorMultiplicity coupled

end TProd
end Cyten.Spaces
