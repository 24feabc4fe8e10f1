import Verif.Model.FTScale
import Verif.Props.FTData

/-! # Specification: diagonal tensors of the fusion tree backend -/

namespace Cyten.FT.Spec
open Cyten.Abelian Cyten.FT Cyten.Spaces Cyten.Tools Cyten.FusionTrees

variable {S K A : Type}

/-- Consistent data of a diagonal tensor or a mask on the leg with the sectors `leg`: blocks of dimension one. -/
structure DSane (leg : BLeg S) (D : List ((ℕ × ℕ) × List A)) : Prop where
  diag : ∀ e ∈ D, e.1.1 = e.1.2 ∧ e.1.1 < leg.sectors.length
  shape : ∀ e ∈ D, e.2.length = leg.mults.getD e.1.1 0
  sorted : (D.map fun e => e.1.2).Pairwise (· < ·)

/-- What a diagonal tensor means: a number for every sector `s` and every `m` below its multiplicity. -/
def diagValue [DecidableEq S] [Zero K] (leg : BLeg S) (D : FDiag K) (s : S) (m : ℕ) : K :=
  match D.find? fun e => leg.sectors[e.1.1]? == some s with
  | some e => e.2.getD m 0
  | none => 0

/-- The row (or column) `p` of the block of the coupled sector `c` belongs to the fusion tree `t` and to the
multiplicity indices `ms` of its uncoupled sectors (`TensorProduct::iter_tree_blocks`). -/
def TreeRow [LinearOrder S] (R : FusionRule S) (s : Side S) (c : S) (t : FusionTree S) (ms : List ℕ) (p : ℕ) :
    Prop :=
  ∃ st en mults, (t, (st, en), mults) ∈ TProd.iterTreeBlocks R s.areDual s.spaces c ∧
    List.Forall₂ (· < ·) ms mults ∧ p = st + packRow (makeStride mults true) ms

end Cyten.FT.Spec
