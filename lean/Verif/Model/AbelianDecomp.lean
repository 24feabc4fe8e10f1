import Verif.Model.AbelianDiag

/-!
# Model of the matrix decompositions of the abelian backend

`qr`, `lq`, `svd` and `eigh` of `src/backends/abelian.cpp` act on tensors with one leg in the codomain
and one in the domain.  The decompositions of single blocks (LAPACK, through the block backend) are
arguments of the model.
-/

namespace Cyten.Abelian
open Cyten.Tables Cyten.Tools Cyten.Spaces

variable {S K : Type}

/-- The indices of a common sector in the codomain leg, the domain leg and the new leg, and the block
of the tensor, if there is one. -/
structure DecItem (K : Type) where
  j : ℕ
  k : ℕ
  n : ℕ
  blk : Option (Blk K)

/-- src/symmetries/spaces.cpp:601-615 `sector_decomposition_where` of a sector that is present. -/
def whereSector [DecidableEq S] (sym : Sym S) (e : ESpace S) (s : S) : ℕ :=
  (e.sectors sym).findIdx fun t => t == s

/-- src/backends/block_inds.cpp:573-590 `searchsorted_column`, for column 1. -/
def searchCol (T : Ents K) (value : ℕ) : ℕ → ℕ → ℕ → ℕ
  | 0, lo, _ => lo
  | fuel + 1, lo, hi =>
    if lo < hi then
      let mid := lo + (hi - lo) / 2
      if ((T[mid]?.map Prod.fst).getD []).getD 1 0 < value then searchCol T value fuel (mid + 1) hi
      else searchCol T value fuel lo mid
    else lo

/-- The block at the running index, if it belongs to row `j`, src/backends/abelian.cpp:3122-3123 -/
def blockAt (T : Ents K) (i j : ℕ) : Option (Blk K) :=
  T[i]?.bind fun p => if p.1.getD 0 0 = j then some p.2 else none

/-- The loop of src/backends/abelian.cpp:3102-3140 (`qr`), 2330-2368 (`lq`), 3498-3540 (`svd`); the
argument list contains the common sectors with their indices in the two sorted decompositions, `n`
counts the rounds, `i` is the running index. `is_dual` decides whether `sector_order` of a leg is
`"sorted"`. -/
def decLoop [DecidableEq S] (sym : Sym S) (c d l : ESpace S) (T : Ents K) :
    ℕ → ℕ → List (S × ℕ × ℕ) → List (DecItem K)
  | _, _, [] => []
  | n, i, (s, j0, k0) :: rest =>
    let j := if c.isDual then whereSector sym c s else j0
    let k := if d.isDual then whereSector sym d s else k0
    let i' := if d.isDual then searchCol T k T.length 0 T.length else i
    let n' := if l.isDual then whereSector sym l s else n
    ⟨j, k, n', blockAt T i' j⟩ ::
      decLoop sym c d l T (n + 1) (if (blockAt T i' j).isSome then i' + 1 else i') rest

/-- `TensorProduct([leg]).sector_decomposition`, src/symmetries/spaces.cpp:2009-2017 -/
def tpSectors [LinearOrder S] (sym : Sym S) (e : ESpace S) : List S :=
  (sortedSpace (e.toSpace sym)).1

/-- `iter_common_sorted_arrays` of the two sector decompositions, with the sectors. -/
def commonPairs [LinearOrder S] (sym : Sym S) (c d : ESpace S) : List (S × ℕ × ℕ) :=
  ((iterCommonSorted compare (tpSectors sym c) (tpSectors sym d) true true).getD []).filterMap
    fun p => (tpSectors sym c)[p.1]?.map fun s => (s, p.1, p.2)

/-- All rounds of the loop. -/
def decItems [LinearOrder S] (sym : Sym S) (c d l : ESpace S) (T : Ents K) : List (DecItem K) :=
  decLoop sym c d l T 0 0 (commonPairs sym c d)

/-- `eye_matrix(a)[:, :b]` and `eye_matrix(a)[:b, :]` -/
def eyeSlice [Zero K] [One K] (a b : ℕ) : Blk K :=
  ⟨[a, b], fun i => if i.getD 0 0 = i.getD 1 0 then 1 else 0⟩

/-- The new leg: src/tensors/helpers.cpp:614-615 -/
def newLeg [LinearOrder S] (sym : Sym S) (c d : ESpace S) (isDual : Bool) : Option (ESpace S) :=
  largestCommon sym
    [⟨tpSectors sym c, (sortedSpace (c.toSpace sym)).2, some .sorted⟩,
      ⟨tpSectors sym d, (sortedSpace (d.toSpace sym)).2, some .sorted⟩] isDual

section
variable [LinearOrder S] [Zero K] [One K] (sym : Sym S) (c d l : ESpace S)

/-- The left factor of a decomposition with a block for each common sector, src/backends/abelian.cpp
3122-3146, 3527-3563: `f` gives the left factor of a block; identity blocks for missing ones. -/
def leftFull (f : Blk K → Blk K) (items : List (DecItem K)) : Ents K :=
  mkData (items.map fun it => ([it.j, it.n],
    (it.blk.map f).getD (eyeSlice (c.mults.getD it.j 0) (l.mults.getD it.n 0)))) (!l.isDual)

/-- The left factor with blocks only for the present blocks, src/backends/abelian.cpp:2353-2357, 2379. -/
def leftPart (f : Blk K → Blk K) (items : List (DecItem K)) : Ents K :=
  mkData (items.filterMap fun it => it.blk.map fun b => ([it.j, it.n], f b)) (!l.isDual)

/-- The right factor with a block for each common sector, src/backends/abelian.cpp:2353-2381,
3527-3563. -/
def rightFull (f : Blk K → Blk K) (items : List (DecItem K)) : Ents K :=
  mkData (items.map fun it => ([it.n, it.k],
    (it.blk.map f).getD (eyeSlice (l.mults.getD it.n 0) (d.mults.getD it.k 0)))) (!d.isDual)

/-- The right factor with blocks only for the present blocks, src/backends/abelian.cpp:3122-3146. -/
def rightPart (f : Blk K → Blk K) (items : List (DecItem K)) : Ents K :=
  mkData (items.filterMap fun it => it.blk.map fun b => ([it.n, it.k], f b)) (!d.isDual)

/-- src/backends/abelian.cpp:3083-3151 `qr`; `f` is `matrix_qr(block, full=False)`. -/
def qr (f : Blk K → Blk K × Blk K) (T : Ents K) : Ents K × Ents K :=
  let items := decItems sym c d l T
  (leftFull c l (fun b => (f b).1) items, rightPart d (fun b => (f b).2) items)

/-- src/backends/abelian.cpp:2303-2382 `lq`; `f` is `matrix_lq(block, full=False)`. -/
def lq (f : Blk K → Blk K × Blk K) (T : Ents K) : Ents K × Ents K :=
  let items := decItems sym c d l T
  (leftPart l (fun b => (f b).1) items, rightFull d l (fun b => (f b).2) items)

/-- `make_data` for the blocks of a diagonal tensor. -/
def mkDiag (ents : DEnts K) (isSorted : Bool) : DEnts K :=
  if isSorted then ents
  else ents.insertionSort fun p q => cmpLexsort [p.1, p.1] [q.1, q.1] ≠ .gt

/-- src/backends/abelian.cpp:3460-3568 `svd`; `f` is `matrix_svd(block)`. -/
def svd (f : Blk K → Blk K × List K × Blk K) (T : Ents K) : Ents K × DEnts K × Ents K :=
  let items := decItems sym c d l T
  (leftFull c l (fun b => (f b).1) items,
    mkDiag (items.filterMap fun it => it.blk.map fun b => (it.n, (f b).2.1)) (!l.isDual),
    rightFull d l (fun b => (f b).2.2) items)

end

/-- src/backends/abelian.cpp:1758-1788 `eigh`, for a leg with the multiplicities `mults`; `f` is
`block_backend->eigh`.  The blocks of `eye_data` are replaced by the eigenvectors. -/
def eigh [Zero K] [One K] (mults : List ℕ) (f : Blk K → List K × Blk K) (T : Ents K) : DEnts K × Ents K :=
  (T.map fun p => (p.1.getD 0 0, (f p.2).1),
    T.foldl (fun v p => v.modify (p.1.getD 0 0) fun q => (q.1, (f p.2).2)) (eyeData [mults]))

end Cyten.Abelian
