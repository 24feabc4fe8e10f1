import Verif.Model.FTData
import Mathlib.Analysis.Normed.Ring.Basic

/-!
# Model of `almost_equal` of the fusion tree backend
-/

namespace Cyten.FT

variable {K : Type}

/-- src/block_backend/numpy.cpp:881-887 `max_abs` is at most `atol` (not larger than `atol`, the tests of
src/backends/fusion_tree_backend.cpp:575-583).  `np.max` of a block without entries raises; blocks have entries. -/
def Mat.maxAbsLe [Norm K] (a : Mat K) (atol : ℝ) : Prop := ∀ m < a.rows, ∀ n < a.cols, ‖a.val m n‖ ≤ atol

/-- src/block_backend/numpy.cpp:577-585 `allclose` of two blocks of equal shape (exact arithmetic). -/
def Mat.allclose [Sub K] [Norm K] (a b : Mat K) (rtol atol : ℝ) : Prop :=
  ∀ m < a.rows, ∀ n < a.cols, ‖a.val m n - b.val m n‖ ≤ atol + rtol * ‖b.val m n‖

/-- src/backends/fusion_tree_backend.cpp:571-588: the test in one round of the loop. -/
def ftAlmostPick [Sub K] [Norm K] (rtol atol : ℝ) : Option ((ℕ × ℕ) × Mat K) × Option ((ℕ × ℕ) × Mat K) → Prop
  | (some p, none) => p.2.maxAbsLe atol
  | (none, some q) => q.2.maxAbsLe atol
  | (some p, some q) => p.2.allclose q.2 rtol atol
  | (none, none) => True

/-- src/backends/fusion_tree_backend.cpp:559-590 `almost_equal` returns true. -/
def ftAlmostEqual [Sub K] [Norm K] (a b : FEnts K) (rtol atol : ℝ) : Prop :=
  ∀ o ∈ iterAll (fun e : (ℕ × ℕ) × Mat K => e.1.1) (fun e : (ℕ × ℕ) × Mat K => e.1.1) a b, ftAlmostPick rtol atol o

end Cyten.FT
