import Verif.Model.FTData
import Verif.Model.AbelianDecomp

/-!
# Model of the matrix decompositions of the fusion tree backend

`qr`, `lq`, `svd` and `eigh` of `src/backends/fusion_tree_backend.cpp`.  The decompositions of single blocks
(LAPACK, through the block backend) are arguments of the model.
-/

namespace Cyten.FT
open Cyten.Abelian Cyten.Spaces

variable {S K A : Type}

/-- One round of the loops: the numbers of a common sector in the codomain, the domain and on the new leg, and
the block of the tensor, if there is one. -/
structure FItem (K : Type) where
  i : ℕ
  j : ℕ
  n : ℕ
  blk : Option (Mat K)

/-- The loop of src/backends/fusion_tree_backend.cpp:2141-2163 (`qr`), 2083-2106 (`lq`), 2203-2233 (`svd`): the
second argument contains the blocks that have not been processed, the first counts the rounds. -/
def fdecLoop : ℕ → FEnts K → List (ℕ × ℕ) → List (FItem K)
  | _, _, [] => []
  | n, [], ij :: rest => ⟨ij.1, ij.2, n, none⟩ :: fdecLoop (n + 1) [] rest
  | n, e :: es, ij :: rest =>
    if e.1.1 = ij.1 then ⟨ij.1, ij.2, n, some e.2⟩ :: fdecLoop (n + 1) es rest
    else ⟨ij.1, ij.2, n, none⟩ :: fdecLoop (n + 1) (e :: es) rest

/-- All rounds. -/
def fdecItems [LinearOrder S] (cod dom : BLeg S) (a : FEnts K) : List (FItem K) :=
  fdecLoop 0 a ((Cyten.Tables.iterCommonSorted compare cod.sectors dom.sectors true true).getD [])

/-- The data made of the rows and blocks that the rounds append. -/
def collect (items : List (FItem K)) (key : FItem K → ℕ × ℕ) (g : FItem K → Option A) (isSorted : Bool) :
    List ((ℕ × ℕ) × A) :=
  mkData (items.filterMap fun it => (g it).map fun b => (key it, b)) isSorted

/-- `eye_matrix(a)[:, :b]` and `eye_matrix(b)[:a, :]` -/
def fEye [Zero K] [One K] (a b : ℕ) : Mat K := ⟨a, b, fun i j => if i = j then 1 else 0⟩

section
variable [LinearOrder S] [Zero K] [One K] (cod dom new : BLeg S)

/-- A left factor with identity columns for missing blocks, src/backends/fusion_tree_backend.cpp:2147-2161. -/
def fLeftFull (f : Mat K → Mat K) (items : List (FItem K)) : FEnts K :=
  collect items (fun it => (it.i, it.n))
    (fun it => some ((it.blk.map f).getD (fEye (cod.mults.getD it.i 0) (new.mults.getD it.n 0)))) false

/-- A right factor with identity rows for missing blocks, src/backends/fusion_tree_backend.cpp:2087-2105. -/
def fRightFull (f : Mat K → Mat K) (items : List (FItem K)) : FEnts K :=
  collect items (fun it => (it.n, it.j))
    (fun it => some ((it.blk.map f).getD (fEye (new.mults.getD it.n 0) (dom.mults.getD it.j 0)))) false

/-- src/backends/fusion_tree_backend.cpp:2124-2181 `qr`; `f` is `matrix_qr(block, full=False)`. -/
def fqr (f : Mat K → Mat K × Mat K) (a : FEnts K) : FEnts K × FEnts K :=
  let items := fdecItems cod dom a
  (fLeftFull cod new (fun b => (f b).1) items,
    collect items (fun it => (it.n, it.j)) (fun it => it.blk.map fun b => (f b).2) false)

/-- src/backends/fusion_tree_backend.cpp:2069-2122 `lq`; `f` is `matrix_lq(block, full=False)`. -/
def flq (f : Mat K → Mat K × Mat K) (a : FEnts K) : FEnts K × FEnts K :=
  let items := fdecItems cod dom a
  (collect items (fun it => (it.i, it.n)) (fun it => it.blk.map fun b => (f b).1) true,
    fRightFull dom new (fun b => (f b).2) items)

/-- src/backends/fusion_tree_backend.cpp:2183-2252 `svd`; `f` is `matrix_svd(block)`. -/
def fsvd (f : Mat K → Mat K × List K × Mat K) (a : FEnts K) :
    FEnts K × List ((ℕ × ℕ) × List K) × FEnts K :=
  let items := fdecItems cod dom a
  (fLeftFull cod new (fun b => (f b).1) items,
    collect items (fun it => (it.n, it.n)) (fun it => it.blk.map fun b => (f b).2.1) false,
    fRightFull dom new (fun b => (f b).2.2) items)

/-- The loop of src/backends/fusion_tree_backend.cpp:2048-2063: the blocks of the eigenvectors. -/
def feighLoop (f : Mat K → List K × Mat K) : ℕ → FEnts K → ℕ → FEnts K
  | _, _, 0 => []
  | i, [], n + 1 => ((i, i), Mat.eye (cod.mults.getD i 0)) :: feighLoop f (i + 1) [] n
  | i, e :: es, n + 1 =>
    if i = e.1.1 then ((i, i), (f e.2).2) :: feighLoop f (i + 1) es n
    else ((i, i), Mat.eye (cod.mults.getD i 0)) :: feighLoop f (i + 1) (e :: es) n

/-- src/backends/fusion_tree_backend.cpp:2032-2067 `eigh`; `f` is `block_backend->eigh`.  The eigenvalues get the
rows of the blocks of the tensor. -/
def feigh (f : Mat K → List K × Mat K) (a : FEnts K) : List ((ℕ × ℕ) × List K) × FEnts K :=
  (mkData (a.map fun e => (e.1, (f e.2).1)) true, mkData (feighLoop cod f 0 a cod.sectors.length) false)

end

/-- src/tensors/helpers.cpp:614-616: the new leg, and the (co)domain that consists of it. -/
def fNewLeg [LinearOrder S] (sym : Sym S) (cod dom : BLeg S) (isDual : Bool) : Option (ESpace S) :=
  largestCommon sym [⟨cod.sectors, cod.mults, some .sorted⟩, ⟨dom.sectors, dom.mults, some .sorted⟩] isDual

/-- `TensorProduct([leg])`, src/symmetries/spaces.cpp:2009-2017 -/
def tpOne [LinearOrder S] (sym : Sym S) (e : ESpace S) : BLeg S :=
  ⟨(sortedSpace (e.toSpace sym)).1, (sortedSpace (e.toSpace sym)).2⟩

end Cyten.FT
