import Mathlib.Data.List.Basic

/-!
# Saving and loading masked arrays

Models `save_masked_array` and `load_masked_array` of cyten/tools/hdf5_io.py.  Arrays are flat lists; a
missing mask (`np.ma.nomask`) is a mask without `True`, as in numpy's broadcasting; equality of elements is
decidable equality (no nan).
-/

namespace Cyten.Hdf5

/-- `np.ma.MaskedArray`: data and mask of the same length, and the fill value. -/
structure Masked (V : Type) where
  data : List V
  mask : List Bool
  fill : V
  deriving DecidableEq

/-- What is stored: data and mask, or the filled array only (cyten/tools/hdf5_io.py:666-686). -/
inductive MaskedStored (V : Type) where
  | both (data : List V) (mask : List Bool) (fill : V)
  | filled (xs : List V) (fill : V)

/-- `obj.filled()` (cyten/tools/hdf5_io.py:668). -/
def Masked.filled {V : Type} (a : Masked V) : List V :=
  List.zipWith (fun x m => if m then a.fill else x) a.data a.mask

/-- `np.any((filled == fill_value) == obj.mask)` (cyten/tools/hdf5_io.py:670). -/
def Masked.needsMask {V : Type} [DecidableEq V] (a : Masked V) : Bool :=
  (List.zipWith (fun x m => decide (decide (x = a.fill) = m)) a.filled a.mask).any id

/-- `save_masked_array` (cyten/tools/hdf5_io.py:666-686). -/
def saveMasked {V : Type} [DecidableEq V] (a : Masked V) : MaskedStored V :=
  if a.needsMask then .both a.data a.mask a.fill else .filled a.filled a.fill

/-- `load_masked_array`, with `np.ma.masked_equal` for a stored filled array
(cyten/tools/hdf5_io.py:1046-1058). -/
def loadMasked {V : Type} [DecidableEq V] : MaskedStored V → Masked V
  | .both d m v => ⟨d, m, v⟩
  | .filled xs v => ⟨xs, xs.map fun x => decide (x = v), v⟩

end Cyten.Hdf5
