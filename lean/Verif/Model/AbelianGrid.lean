import Verif.Model.AbelianDense
import Verif.Model.Legs

/-!
# Model of `tensor_from_grid` and of the constructors of the abelian backend

src/tensors/constructors.cpp and src/backends/abelian.cpp.  `none` is an exception.  All legs are
`ElementarySpace`s; dtypes and devices are not modelled.
-/

namespace Cyten.Abelian
open Cyten.Tables Cyten.Tools Cyten.Spaces Cyten.FusionTrees

variable {S K : Type}

/-! ## Constructors of block data -/

/-- The shapes of the blocks of a row: src/backends/abelian.cpp:848-850, 1944-1948, 2009-2012 -/
def rowShape (legs : List (BLeg S)) (row : List ℕ) : List ℕ :=
  List.zipWith (fun (l : BLeg S) i => l.mults.getD i 0) legs row

/-- src/backends/abelian.cpp:830-857 `zero_data` -/
def zeroData [DecidableEq S] [Zero K] (R : FusionRule S) (codom dom : List (BLeg S))
    (allBlocks : Bool) : Option (Ents K) :=
  if allBlocks then
    (validBlockInds R codom dom).map fun rows =>
      mkData (rows.map fun row => (row, Blk.zeros (rowShape (legOrder codom dom) row))) true
  else some (mkData [] true)

/-- src/backends/abelian.cpp:1996-2031 `from_sector_block_func`: the function gets the shape and the
coupled sector. -/
def fromSectorBlockFunc [DecidableEq S] (R : FusionRule S) (func : List ℕ → S → Blk K)
    (codom dom : List (BLeg S)) : Option (Ents K) :=
  (validBlockInds R codom dom).map fun rows =>
    mkData (rows.map fun row => (row, func (rowShape (legOrder codom dom) row)
      (fusedCharge R codom (row.take codom.length)))) true

/-! ## `tensor_from_grid` -/

/-- A symmetric tensor: codomain, domain, data. -/
structure GTensor (S K : Type) where
  cod : List (ESpace S)
  dom : List (ESpace S)
  data : Ents K

/-- src/symmetries/spaces.cpp:601-615 `sector_decomposition_where` -/
def whereSector? [DecidableEq S] (sym : Sym S) (e : ESpace S) (s : S) : Option ℕ :=
  (e.sectors sym).findIdx? fun t => t == s

/-- The multiplicity of a sector or 0: src/tensors/constructors.cpp:446-448 -/
def multWhere [DecidableEq S] (sym : Sym S) (e : ESpace S) (s : S) : ℕ :=
  match whereSector? sym e s with
  | some i => e.mults.getD i 0
  | none => 0

/-- `left_mult_slices` and `right_mult_slices`, src/tensors/constructors.cpp:440-463 -/
def multSlices [DecidableEq S] (sym : Sym S) (total : ESpace S) (spaces : List (ESpace S)) :
    List (List ℕ) :=
  (total.sectors sym).map fun s => sliceBoundaries 0 (spaces.map fun x => multWhere sym x s)

/-- `b[slices] = b[slices] + v`, src/backends/abelian.cpp:242-246, with the broadcasting of numpy: an
axis of length one of `v` is repeated; other axes must have the length of the slice. -/
def Blk.addSlice [Add K] (res : Blk K) (sl : List (ℕ × ℕ)) (v : Blk K) : Option (Blk K) :=
  if v.shape.length = sl.length ∧
      (List.zipWith (fun d (s : ℕ × ℕ) => d == s.2 - s.1 || d == 1) v.shape sl).all id then
    some ⟨res.shape, fun idx =>
      if inSlices idx sl then
        res.val idx + v.val (List.zipWith (fun x (p : ℕ × ℕ × ℕ) => if p.1 = 1 then 0 else x - p.2.1)
          idx (v.shape.zip sl))
      else res.val idx⟩
  else none

/-- Find the block of a row, or create it, and add to it: src/backends/abelian.cpp:1932-1973 -/
def addAt [Zero K] [Add K] (row shape : List ℕ) (sl : List (ℕ × ℕ)) (v : Blk K) :
    Ents K → Option (Ents K)
  | [] => ((Blk.zeros shape).addSlice sl v).map fun b => [(row, b)]
  | q :: T =>
    if q.1 = row then (q.2.addSlice sl v).map fun b => (q.1, b) :: T
    else (addAt row shape sl v T).map fun T' => q :: T'

/-- A block of a tensor of the grid with the place of the tensor. -/
structure GItem (S K : Type) where
  i : ℕ
  j : ℕ
  op : GTensor S K
  row : List ℕ
  blk : Blk K

/-- The three loops of src/backends/abelian.cpp:1903-1911. -/
def gridItems (grid : List (List (Option (GTensor S K)))) : List (GItem S K) :=
  grid.zipIdx.flatMap fun r => r.1.zipIdx.flatMap fun o =>
    match o.1 with
    | none => []
    | some op => op.data.map fun p => ⟨r.2, o.2, op, p.1, p.2⟩

/-- The body of the loops, src/backends/abelian.cpp:1911-1973; `left` and `right` are the first leg of
the new codomain and the last leg of the new domain. -/
def gridStep [DecidableEq S] [Zero K] [Add K] (sym : Sym S) (cod dom : List (ESpace S))
    (left right : ESpace S) (lsl rsl : List (List ℕ)) (it : GItem S K) (acc : Ents K) :
    Option (Ents K) :=
  it.op.cod.head?.bind fun lspace =>
  (lspace.sectors sym)[it.row.getD 0 0]?.bind fun lsec =>
  (whereSector? sym left lsec).bind fun lind =>
  it.op.dom.getLast?.bind fun rspace =>
  (rspace.sectors sym)[it.row.getD cod.length 0]?.bind fun rsec =>
  (whereSector? sym right rsec).bind fun rind =>
  let row := (it.row.set 0 lind).set cod.length rind
  let shape := rowShape ((legOrder cod dom).map (toBLeg sym)) row
  let full : List (ℕ × ℕ) := shape.map fun d => (0, d)
  let lb := lsl.getD lind []
  let rb := rsl.getD rind []
  addAt row shape ((full.set 0 (lb.getD it.i 0, lb.getD (it.i + 1) 0)).set cod.length
    (rb.getD it.j 0, rb.getD (it.j + 1) 0)) it.blk acc

/-- All rounds of the loops. -/
def gridLoop [DecidableEq S] [Zero K] [Add K] (sym : Sym S) (cod dom : List (ESpace S))
    (left right : ESpace S) (lsl rsl : List (List ℕ)) : List (GItem S K) → Ents K → Option (Ents K)
  | [], acc => some acc
  | it :: its, acc =>
    (gridStep sym cod dom left right lsl rsl it acc).bind
      (gridLoop sym cod dom left right lsl rsl its)

/-- src/backends/abelian.cpp:1874-1978 `from_grid` -/
def fromGrid [DecidableEq S] [Zero K] [Add K] (sym : Sym S) (grid : List (List (Option (GTensor S K))))
    (cod dom : List (ESpace S)) (lsl rsl : List (List ℕ)) : Option (Ents K) :=
  cod.head?.bind fun left => dom.getLast?.bind fun right =>
    (gridLoop sym cod dom left right lsl rsl (gridItems grid) []).map fun T => mkData T false

/-- `factor_slices_equal`, src/tensors/constructors.cpp:61-73 -/
def sameLegs [LinearOrder S] (sym : Sym S) (a b : List (ESpace S)) : Bool :=
  a.length == b.length && (List.zipWith (Leg.beqSpace sym) a b).all id

/-- The checks of the legs, src/tensors/constructors.cpp:347-368 -/
def gridLegsOk [LinearOrder S] (sym : Sym S) (ref op : GTensor S K) : Bool :=
  op.cod.length == ref.cod.length && op.dom.length == ref.dom.length &&
    sameLegs sym op.cod.tail ref.cod.tail && sameLegs sym op.dom.dropLast ref.dom.dropLast &&
    !op.cod.isEmpty && !op.dom.isEmpty

/-- The first tensor of a column, src/tensors/constructors.cpp:378-397 -/
def firstInColumn (grid : List (List (Option (GTensor S K)))) (j : ℕ) : Option (GTensor S K) :=
  grid.findSome? fun row => (row[j]?).join

/-- The first tensor of a row, src/tensors/constructors.cpp:409-425 -/
def firstInRow (row : List (Option (GTensor S K))) : Option (GTensor S K) := row.findSome? id

/-- src/tensors/constructors.cpp:303-502 `tensor_from_grid` -/
def tensorFromGrid [LinearOrder S] [Zero K] [Add K] (sym : Sym S)
    (grid : List (List (Option (GTensor S K)))) : Option (GTensor S K) :=
  grid.flatten.reduceOption.head?.bind fun ref =>
  if !(grid.flatten.reduceOption.all (gridLegsOk sym ref)) then none
  else grid.head?.bind fun row0 =>
  if !(grid.all fun row => row.length == row0.length) then none
  else ((List.range row0.length).mapM (firstInColumn grid)).bind fun rightOps =>
  (rightOps.mapM fun (op : GTensor S K) => op.dom.getLast?).bind fun rights =>
  (grid.mapM firstInRow).bind fun leftOps =>
  (leftOps.mapM fun (op : GTensor S K) => op.cod.head?).bind fun lefts =>
  lefts.head?.bind fun l0 => (l0.directSum sym lefts.tail).bind fun left =>
  rights.head?.bind fun r0 => (r0.directSum sym rights.tail).bind fun right =>
  let cod := left :: ref.cod.tail
  let dom := ref.dom.dropLast ++ [right]
  (fromGrid sym grid cod dom (multSlices sym left lefts) (multSlices sym right rights)).map
    fun data => ⟨cod, dom, data⟩

end Cyten.Abelian
