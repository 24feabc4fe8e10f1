import Verif.Model.AbelianData
import Verif.Props.Tables
import Verif.Lemmas.Tools

/-!
# Specification vocabulary for block-sparse tensors

A tensor with legs `0, …, n-1` (the codomain legs followed by the domain legs in reversed order) is
described by the multiplicities `M[k]` of the sectors of each leg.  A basis vector of leg `k` is a
pair (number `s` of a sector, number `x < M[k][s]` within the sector), so a basis vector of the
tensor space is a pair of lists `row` (sector numbers) and `pos` (numbers within the sectors).
-/

namespace Cyten.Abelian.Spec
open Cyten.Tools Cyten.Props Cyten.Abelian

variable {K : Type}

/-- The shape of the block for the sectors `row`. -/
def shapeOf (M : List (List ℕ)) (row : List ℕ) : List ℕ :=
  List.zipWith (fun (m : List ℕ) i => m.getD i 0) M row

/-- `(row, pos)` is a basis vector of the tensor space. -/
def IsIndex (M : List (List ℕ)) (row pos : List ℕ) : Prop :=
  InShape row (M.map List.length) ∧ InShape pos (shapeOf M row)

/-- All basis vectors of the tensor space. -/
def basis (M : List (List ℕ)) : List (List ℕ × List ℕ) :=
  (gridC (M.map List.length)).flatMap fun row => (gridC (shapeOf M row)).map fun pos => (row, pos)

/-- The entry of the tensor at a basis vector: the sum of all blocks, put at the place given by
their row of sector numbers. -/
def dense [AddCommMonoid K] (T : Ents K) (row pos : List ℕ) : K :=
  (T.map fun p => if p.1 = row then p.2.val pos else 0).sum

/-- Consistent data: sector numbers in range, blocks of the right shape, rows strictly increasing in
the order of `np.lexsort` (so without duplicates). -/
structure Sane (M : List (List ℕ)) (T : Ents K) : Prop where
  inRange : ∀ p ∈ T, InShape p.1 (M.map List.length)
  shapes : ∀ p ∈ T, p.2.shape = shapeOf M p.1
  sorted : StrictlySorted (T.map Prod.fst)

end Cyten.Abelian.Spec
