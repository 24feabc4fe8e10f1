import Verif.Model.FTMaskOps
import Verif.Spec.FTDiag

/-! # Specification: masks of the fusion tree backend -/

namespace Cyten.FT.Spec
open Cyten.Abelian Cyten.FT Cyten.Spaces Cyten.Tools

variable {S : Type}

/-- Consistent data of a mask (as projection) that keeps the indices `mk s` of the sector `s`: the small leg has exactly
the sectors of which something is kept; `large` and `small` are the sorted sectors of the legs. -/
structure KeepsData [LinearOrder S] (large small : BLeg S) (M : List ((ℕ × ℕ) × List Bool)) (mk : S → List Bool) : Prop
    extends ProjectionData large small M mk where
  sub : ∀ s ∈ small.sectors, s ∈ large.sectors
  kept : ∀ s ∈ large.sectors, s ∈ small.sectors ↔ true ∈ mk s

/-- The result of a function that makes a projection which keeps `mk s` of the sector `s`: the defining sectors of the
new leg are sorted, its duality is that of the large leg, and the data are consistent. -/
def Makes [LinearOrder S] (sym : Sym S) (isDual : Bool) (co : BLeg S) (r : FMask S) (mk : S → List Bool) : Prop :=
  r.small.defining.Pairwise (· < ·) ∧ r.small.isDual = isDual ∧ r.small.defining.length = r.small.mults.length ∧
  (∃ st, SortedLeg (r.small.toSpace sym) st) ∧ ∀ st, SortedLeg (r.small.toSpace sym) st → KeepsData co st r.data mk

end Cyten.FT.Spec
