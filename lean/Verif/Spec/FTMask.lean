import Verif.Spec.FTDiagonal
import Verif.Model.AbelianMask

/-! # Specification: masks of the fusion tree backend -/

namespace Cyten.FT.Spec
open Cyten.Abelian Cyten.FT Cyten.Spaces Cyten.Tools Cyten.FusionTrees

variable {S : Type}

/-- The index `j` of the small leg is the index `i` of the large leg: `i` is kept and `j` indices before it are. -/
def MaskIndex (m : List Bool) (j i : ℕ) : Prop := m[i]? = some true ∧ (m.take i).count true = j

/-- The index `new` after the contraction comes from the index `old` before it: if the large leg is contracted,
the new index belongs to the small leg. -/
def MaskRel (largeLeg : Bool) (m : List Bool) (new old : ℕ) : Prop :=
  if largeLeg then MaskIndex m new old else MaskIndex m old new

/-- Consistent data of a mask that keeps the indices `mk u` of the sector `u`: a block is stored for every sector
of which something is kept; `dom` is the domain of the mask (the large or the small leg). -/
structure MaskOK [LinearOrder S] (large small : SpaceData S) (dom : BLeg S) (D : List ((ℕ × ℕ) × List Bool))
    (mk : S → List Bool) : Prop where
  coupled : Coupled dom
  bound : ∀ e ∈ D, e.1.2 < dom.sectors.length
  sorted : (D.map fun e => e.1.2).Pairwise (· < ·)
  block : ∀ e ∈ D, ∀ u, dom.sectors[e.1.2]? = some u → e.2 = mk u
  stored : ∀ u, (∃ e ∈ D, dom.sectors[e.1.2]? = some u) ↔ 0 < (mk u).count true
  largeMult : ∀ u, large.sectorMultiplicity u = (mk u).length
  smallMult : ∀ u, small.sectorMultiplicity u = (mk u).count true

end Cyten.FT.Spec
