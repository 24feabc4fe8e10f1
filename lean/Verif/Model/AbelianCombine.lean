import Verif.Model.AbelianDense
import Verif.Model.AbelianPipe

/-!
# Model of `combine_legs` and `split_legs` of the abelian backend, `src/backends/abelian.cpp`

The legs of the tensor before and after are described by one list of segments in the order of the
tensor legs (`conventional_leg_order`): a leg that stays, or a pipe with its legs.
-/

namespace Cyten.Abelian
open Cyten.Tables Cyten.Tools Cyten.Spaces

variable {S K : Type} [LinearOrder S]

/-- A leg that stays, or a pipe (in the domain or not). -/
inductive Seg (S : Type)
  | keep (e : ESpace S)
  | pipe (p : APipe S) (inDomain : Bool)

namespace Seg

/-- The legs before combining, in the order of the tensor legs: for a pipe in the domain this is the
reversed order of `pipe.legs`. -/
def legs : Seg S → List (ESpace S)
  | keep e => [e]
  | pipe p d => if d then p.legs.reverse else p.legs

/-- The leg after combining. -/
def leg : Seg S → ESpace S
  | keep e => e
  | pipe p _ => p.toESpace

/-- Does the order of the axes have to be reversed? `cstyles`: src/backends/abelian.cpp:1082,
src/block_backend/block_backend.cpp:815-816, src/backends/abelian.cpp:3345-3347 -/
def rev : Seg S → Bool
  | keep _ => false
  | pipe p d => !(p.cstyle != d)

/-- src/backends/abelian.cpp:1083-1103: the row of `block_ind_map` for the block indices of the legs
of a pipe. -/
def pipeRow (p : APipe S) (d : Bool) (chunk : List ℕ) : PipeRow :=
  let m := packRow (makeStride (APipe.numSectors p.legs) p.cstyle) (if d then chunk.reverse else chunk)
  (p.rows[(inversePermutation p.sort).getD m 0]?).getD ⟨0, 0, [], 0⟩

/-- The block index of the new leg, src/backends/abelian.cpp:1069-1110. -/
def newIdx : Seg S → List ℕ → ℕ
  | keep _, chunk => chunk.getD 0 0
  | pipe p d, chunk => (pipeRow p d chunk).J

/-- The slice of the new leg, src/backends/abelian.cpp:1138-1174. -/
def slice : Seg S → List ℕ → ℕ × ℕ
  | keep e, chunk => (0, e.mults.getD (chunk.getD 0 0) 0)
  | pipe p d, chunk => ((pipeRow p d chunk).start, (pipeRow p d chunk).stop)

/-- The block indices of the legs and the slice for a block index of the combined leg:
src/backends/abelian.cpp:3271-3290, 3348-3378. -/
def choices : Seg S → ℕ → List (List ℕ × ℕ × ℕ)
  | keep e, b => [([b], 0, e.mults.getD b 0)]
  | pipe p d, b =>
    (List.range (p.mapSlices.getD (b + 1) 0 - p.mapSlices.getD b 0)).filterMap fun k =>
      p.rows[p.mapSlices.getD b 0 + k]?.map fun r =>
        (if d then r.idcs.reverse else r.idcs, r.start, r.stop)

end Seg

/-- The loops over the groups, src/backends/abelian.cpp:1065-1119 (and 1142-1175): the legs before the
group stay, then comes the group with its pipe. A group is given by its first index; it has as many
legs as the pipe.  `j` is the number of legs already considered. -/
def segments (legs : List (ESpace S)) (numCodomain : ℕ) : ℕ → List (ℕ × APipe S) → List (Seg S)
  | j, [] => (legs.drop j).map Seg.keep
  | j, (g, p) :: rest =>
    ((legs.drop j).take (g - j)).map Seg.keep ++
      Seg.pipe p (decide (numCodomain ≤ g)) :: segments legs numCodomain (g + p.legs.length) rest

/-- Cut a list into pieces of the given lengths. -/
def chunks : List ℕ → List ℕ → List (List ℕ)
  | [], _ => []
  | w :: ws, l => l.take w :: chunks ws (l.drop w)

/-- The number of legs of each segment. -/
def widths (segs : List (Seg S)) : List ℕ := segs.map fun s => s.legs.length

/-- A row of `res_block_inds`, src/backends/abelian.cpp:1065-1119. -/
def combineRow (segs : List (Seg S)) (row : List ℕ) : List ℕ :=
  List.zipWith Seg.newIdx segs (chunks (widths segs) row)

/-- A row of `block_slices`, src/backends/abelian.cpp:1138-1184. -/
def combineSlices (segs : List (Seg S)) (row : List ℕ) : List (ℕ × ℕ) :=
  List.zipWith Seg.slice segs (chunks (widths segs) row)

/-- The permutation of the axes that reverses some of the pieces, `k` is the first axis.
src/block_backend/block_backend.cpp:792-816, src/backends/abelian.cpp:3326-3347 -/
def axesPerm : ℕ → List (ℕ × Bool) → List ℕ
  | _, [] => []
  | k, (w, rev) :: ws =>
    (if rev then (List.range' k w).reverse else List.range' k w) ++ axesPerm (k + w) ws

/-- The lengths of the pieces, and whether they are reversed. -/
def pieces (segs : List (Seg S)) : List (ℕ × Bool) := segs.map fun s => (s.legs.length, s.rev)

/-- src/block_backend/block_backend.cpp:783-829 `combine_legs` -/
def Blk.combineLegs (ws : List (ℕ × Bool)) (b : Blk K) : Blk K :=
  (b.permuteAxes (axesPerm 0 ws)).reshape ((chunks (ws.map Prod.fst) b.shape).map List.prod)

/-- A block with the row and the slices of the new block. -/
structure CombEnt (K : Type) where
  row : List ℕ
  sl : List (ℕ × ℕ)
  blk : Blk K

/-- src/backends/abelian.cpp:1021-1219 `combine_legs` -/
def combineSegs [Zero K] (segs : List (Seg S)) (T : Ents K) : Ents K :=
  let es := (T.map fun p => (⟨combineRow segs p.1, combineSlices segs p.1, p.2⟩ : CombEnt K)).insertionSort
    fun x y => cmpLexsort x.row y.row ≠ .gt
  mkData ((groups es (findRowDifferences (es.map (·.row)) true)).filterMap fun g =>
    g.head?.map fun e0 =>
      (e0.row, g.foldl (fun res e => res.setSlice e.sl (e.blk.combineLegs (pieces segs)))
        (Blk.zeros (List.zipWith (fun (s : Seg S) b => s.leg.mults.getD b 0) segs e0.row)))) true

/-- src/backends/abelian.cpp:1021-1219 `combine_legs` with the arguments `leg_idcs_combine` (the first
index of each group) and `pipes`. -/
def combineLegs [Zero K] (legs : List (ESpace S)) (numCodomain : ℕ) (groups : List (ℕ × APipe S))
    (T : Ents K) : Ents K :=
  combineSegs (segments legs numCodomain 0 groups) T

/-- The rows of the grid of src/backends/abelian.cpp:3292-3315 (`np.indices`, last index fastest). -/
def splitChoices : List (Seg S) → List ℕ → List (List (List ℕ × ℕ × ℕ))
  | [], _ => [[]]
  | _ :: _, [] => []
  | s :: ss, b :: bs => (s.choices b).flatMap fun c => (splitChoices ss bs).map (c :: ·)

/-- src/backends/abelian.cpp:3395-3430: a new block. -/
def splitBlock (segs : List (Seg S)) (b : Blk K) (ch : List (List ℕ × ℕ × ℕ)) : Blk K :=
  let shape := List.zipWith (fun (e : ESpace S) i => e.mults.getD i 0) (segs.flatMap Seg.legs)
    (ch.flatMap Prod.fst)
  let perm := axesPerm 0 (pieces segs)
  ((b.getSlice (ch.map Prod.snd)).reshape (perm.map fun i => shape.getD i 0)).permuteAxes perm

/-- src/backends/abelian.cpp:3234-3433 `split_legs`: the pipes of the segments are split. -/
def splitSegs (segs : List (Seg S)) (T : Ents K) : Ents K :=
  mkData (T.flatMap fun p => (splitChoices segs p.1).map fun ch =>
    (ch.flatMap Prod.fst, splitBlock segs p.2 ch)) false

end Cyten.Abelian
