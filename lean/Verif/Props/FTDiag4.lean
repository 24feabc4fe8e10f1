import Verif.Props.FTDiag2
import Verif.Props.FTDiag3

/-!
# Concrete diagonal tensors that meet the hypotheses of `C91_*`

A dual leg with the unsorted sectors 2, 0, -1, of dimensions 3, 1, 2 and multiplicities 1, 3, 2.
-/

namespace Cyten.FT.DiagExample
open Cyten.Abelian Cyten.FT Cyten.FT.Spec Cyten.Spaces Cyten.Tools Cyten.Props

def co : BLeg ℤ := ⟨[-1, 0, 2], [2, 3, 1]⟩
def leg : SpaceData ℤ := ⟨[2, 0, -1], [1, 3, 2], some .dualSorted⟩
def dim : ℤ → ℕ := fun s => s.natAbs + 1
def D : DEnts ℚ := [(0, [5, -7]), (2, [4])]
def E : DEnts ℚ := [(0, [1, 2]), (1, [3, 0, -1])]
def small : BLeg ℤ := ⟨[0, 2], [2, 1]⟩
def mk : ℤ → List Bool := fun s => if s = 0 then [true, false, true] else if s = 2 then [true] else [false, false]
def M : List ((ℕ × ℕ) × List Bool) := [((0, 1), [true, false, true]), ((1, 2), [true])]

theorem coupled : Coupled co := ⟨by decide, by decide⟩
theorem sane : Abelian.Spec.DSane co.mults D := ⟨by decide, by decide⟩
theorem saneE : Abelian.Spec.DSane co.mults E := ⟨by decide, by decide⟩

theorem sorted : SortedLeg leg co := by
  refine ⟨coupled, by decide, by decide, fun s => ?_, fun j s h => ?_⟩
  · simp only [co, leg, List.mem_cons, List.not_mem_nil, or_false]; omega
  · obtain ⟨hj, rfl⟩ := List.getElem?_eq_some_iff.1 h
    have : j < 3 := hj
    obtain rfl | rfl | rfl : j = 0 ∨ j = 1 ∨ j = 2 := by omega
    all_goals (clear h this; revert hj; decide)

theorem projection : ProjectionData co small M mk := by
  refine ⟨coupled, ⟨by decide, by decide⟩, ?_, by decide, by decide, by decide, by decide⟩
  intro e he
  simp only [M, List.mem_cons, List.not_mem_nil, or_false] at he
  obtain rfl | rfl := he
  · exact ⟨0, by decide, by decide, by decide⟩
  · exact ⟨2, by decide, by decide, by decide⟩

/-- Values of the stored and of the missing blocks, and the dense block in the order of the unsorted leg. -/
example : value co D (-1) 1 = -7 ∧ value co D 2 0 = 4 ∧ value co D 0 2 = 0 ∧
    diagToBlock dim leg co D = [4, 4, 4, 0, 0, 0, 5, -7, 5, -7] := by decide +kernel

/-- Back from the dense block -/
example : diagFromBlock dim (fun x y => decide (x = y)) leg co [4, 4, 4, 0, 0, 0, 5, -7, 5, -7] =
    some [(0, [5, -7]), (1, [0, 0, 0]), (2, [(4 : ℚ)])] := by decide +kernel

/-- A block that is not symmetric is refused. -/
example : diagFromBlock dim (fun x y => decide (x = y)) leg co [(4 : ℚ), 4, 4, 0, 0, 0, 5, -7, 5, 7] = none := by
  decide +kernel

/-- The sum, with blocks missing on both sides; the product keeps the common block only. -/
example : diagBinary co (List.zipWith (· + ·)) false D E = [(0, [6, -5]), (1, [3, 0, -1]), (2, [4])] ∧
    diagBinary co (List.zipWith (· * ·)) true D E = [(0, [5, -14])] := by decide +kernel

example : diagMax co D = some 5 ∧ diagTrace [2, 1, 3] D = (8 : ℚ) := by decide +kernel

/-- A mask that drops a whole sector: the block numbers are those of the small leg. -/
example : diagApplyMask E M = [(0, [3, -1])] ∧ diagApplyMask D M = [(1, [4])] := by decide +kernel

/-- The transpose lives on the dual leg with the sectors -2, 0, 1. -/
example : diagTranspose (fun s : ℤ => -s) co D = [(0, [4]), (2, [5, -7])] := by decide +kernel

example : diagFromFull (some fun x : ℚ => decide (x = 0)) (diagFull D) = some D := by decide +kernel

/-- Sector number 0 of the dual leg is the charge 2, number 2 in the co-domain. -/
example : diagGetElement true leg co D 0 2 = some 4 ∧ diagGetElement true leg co D 2 3 = some (-7) := by decide +kernel

/-- The theorems apply. -/
example : ∀ s m, InLeg co s m → value co (diagUnary co (List.map fun x : ℚ => x + 1) false D) s m = value co D s m + 1 :=
  (C91_unary coupled _ false (by simp) D sane).2

example : ∃ D', diagFromBlock dim (fun x y => decide (x = y)) leg co (diagToBlock dim leg co D) = some D' ∧
    ∀ s m, InLeg co s m → value co D' s m = value co D s m :=
  C91_tensor_round_trip sorted dim (by decide +kernel) _ (by simp) D sane

example : Abelian.Spec.DSane small.mults (diagApplyMask E M) := (C91_apply_mask M mk projection E saneE).1

end Cyten.FT.DiagExample
