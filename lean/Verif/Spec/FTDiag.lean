import Verif.Model.FTDiag
import Verif.Spec.FTDiagonal
import Verif.Props.AbelianDiag

/-! # Specification: values of diagonal tensors of the fusion tree backend -/

namespace Cyten.FT.Spec
open Cyten.Abelian Cyten.FT Cyten.Spaces Cyten.Tools

variable {S K : Type}

/-- What a diagonal tensor means: a number for every sector `s` and every `m` below its multiplicity; `co` are the
sorted sectors of the leg. -/
def value [DecidableEq S] [Zero K] (co : BLeg S) (D : DEnts K) (s : S) (m : ℕ) : K := diagValue co (asRows D) s m

/-- `s` is a sector of the leg and `m` is below its multiplicity. -/
def InLeg [DecidableEq S] (co : BLeg S) (s : S) (m : ℕ) : Prop := s ∈ co.sectors ∧ m < mult co s

/-- The basis vector with the number `k` of the leg (in the order of the backend) belongs to the sector `s`, to the
vector `d` of the sector and to the multiplicity index `m`. -/
def DenseIndex (dim : S → ℕ) (leg : SpaceData S) (k : ℕ) (s : S) (d m : ℕ) : Prop :=
  ∃ j n, leg.sectors[j]? = some s ∧ leg.mults[j]? = some n ∧ d < dim s ∧ m < n ∧
    k = ((List.zipWith (fun s m => dim s * m) leg.sectors leg.mults).take j).sum + d * n + m

/-- `co` is the `TensorProduct` of the one leg `leg`: the same sectors with the same multiplicities, sorted. -/
structure SortedLeg [LinearOrder S] (leg : SpaceData S) (co : BLeg S) : Prop where
  coupled : Coupled co
  len : leg.sectors.length = leg.mults.length
  nodup : leg.sectors.Nodup
  mem : ∀ s, s ∈ co.sectors ↔ s ∈ leg.sectors
  mult : ∀ (j : ℕ) (s : S), leg.sectors[j]? = some s → leg.mults[j]? = some (mult co s)

/-- Consistent data of a projection that keeps the indices `mk s` of the sector `s`; `large` and `small` are the
sorted sectors of the legs. -/
structure ProjectionData [LinearOrder S] (large small : BLeg S) (M : List ((ℕ × ℕ) × List Bool)) (mk : S → List Bool) :
    Prop where
  coupledLarge : Coupled large
  coupledSmall : Coupled small
  block : ∀ e ∈ M, ∃ s, small.sectors[e.1.1]? = some s ∧ large.sectors[e.1.2]? = some s ∧ e.2 = mk s
  sorted : (M.map fun e => e.1.2).Pairwise (· < ·)
  stored : ∀ s ∈ small.sectors, ∃ e ∈ M, small.sectors[e.1.1]? = some s
  len : ∀ s ∈ large.sectors, (mk s).length = mult large s
  count : ∀ s ∈ small.sectors, mult small s = (mk s).count true

/-- A dense vector whose entries do not depend on the vector of the sector. -/
def Symmetric1 [Zero K] (dim : S → ℕ) (leg : SpaceData S) (a : List K) : Prop :=
  ∀ k k' s d d' m, DenseIndex dim leg k s d m → DenseIndex dim leg k' s d' m → a.getD k 0 = a.getD k' 0

end Cyten.FT.Spec
