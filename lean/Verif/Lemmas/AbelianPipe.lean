import Verif.Model.AbelianPipe
import Verif.Lemmas.Fusion4
import Verif.Lemmas.Spaces2

/-! # Lemmas on `AbelianLegPipe`: the block index map -/

namespace Cyten.Spaces
open Cyten.Tables Cyten.Tools Cyten.FusionTrees

set_option linter.unusedSectionVars false

variable {S : Type} [LinearOrder S]

namespace APipe

theorem rawEntries_eq (sym : Sym S) (R : FusionRule S) (legs : List (ESpace S))
    (isDual cstyle : Bool) : rawEntries sym R legs isDual cstyle =
      (makeGrid (numSectors legs) cstyle).map (entry sym R legs isDual) := by
  have := map_range_grid (numSectors legs) cstyle (entry sym R legs isDual)
  rw [← this]
  unfold rawEntries numSectors
  simp only [List.length_map]

/-- The rows of one block, from the offset `acc` on. -/
def rowsFrom (J : ℕ) : ℕ → List (PipeEntry S) → List PipeRow
  | _, [] => []
  | acc, e :: es => ⟨acc, acc + e.mult, e.idcs, J⟩ :: rowsFrom J (acc + e.mult) es

theorem sum_slice (l : List ℕ) (a b : ℕ) (h : a ≤ b) :
    (l.take b).sum - (l.take a).sum = (slice l a b).sum := by
  have : l.take b = l.take a ++ slice l a b := by
    unfold slice
    rw [← List.take_append_drop a (l.take b), List.take_take, Nat.min_eq_left h, List.drop_take]
  rw [this, List.sum_append]
  omega

theorem take_sum_mono (l : List ℕ) (a b : ℕ) (h : a ≤ b) : (l.take a).sum ≤ (l.take b).sum := by
  have : l.take b = l.take a ++ slice l a b := by
    unfold slice
    rw [← List.take_append_drop a (l.take b), List.take_take, Nat.min_eq_left h, List.drop_take]
  rw [this, List.sum_append]
  omega

theorem rows_slice (T : List (PipeEntry S)) (J a0 : ℕ) (n a : ℕ) (h0 : a0 ≤ a)
    (hb : a + n ≤ T.length) :
    ((List.range' a n).filterMap fun m => T[m]?.map fun e =>
      (⟨((T.map (·.mult)).take m).sum - ((T.map (·.mult)).take a0).sum,
        ((T.map (·.mult)).take (m + 1)).sum - ((T.map (·.mult)).take a0).sum, e.idcs, J⟩ : PipeRow)) =
      rowsFrom J (((T.map (·.mult)).take a).sum - ((T.map (·.mult)).take a0).sum)
        (slice T a (a + n)) := by
  induction n generalizing a with
  | zero => simp [slice, rowsFrom]
  | succ n ih =>
    have ha : a < T.length := by omega
    have hs : slice T a (a + (n + 1)) = T[a] :: slice T (a + 1) (a + 1 + n) := by
      unfold slice
      rw [List.drop_eq_getElem_cons ha, show a + (n + 1) - a = n + 1 by omega,
        show a + 1 + n - (a + 1) = n by omega, List.take_succ_cons]
    have hsum : ((T.map (·.mult)).take (a + 1)).sum = ((T.map (·.mult)).take a).sum + T[a].mult := by
      rw [List.take_succ_eq_append_getElem (by simpa using ha), List.sum_append]
      simp
    have hm := take_sum_mono (T.map (·.mult)) a0 a h0
    rw [List.range'_succ, hs, rowsFrom, List.filterMap_cons_some (b := _) (by
      rw [List.getElem?_eq_getElem ha]; rfl), ih (a + 1) (by omega) (by omega), hsum]
    have hm := take_sum_mono (T.map (·.mult)) a0 a h0
    have e1 : ((T.map (·.mult)).take a).sum + T[a].mult - ((T.map (·.mult)).take a0).sum =
        ((T.map (·.mult)).take a).sum - ((T.map (·.mult)).take a0).sum + T[a].mult := by omega
    rw [e1]

theorem consecutive_map_fst (l : List ℕ) : (consecutive l).map Prod.fst = l.dropLast := by
  unfold consecutive
  induction l with
  | nil => rfl
  | cons a l ih =>
    cases l with
    | nil => rfl
    | cons b l => simpa using ih

theorem consecutive_map (f : ℕ → ℕ) (l : List ℕ) :
    consecutive (l.map f) = (consecutive l).map fun r => (f r.1, f r.2) := by
  unfold consecutive
  rw [← List.map_tail, List.zip_map]
  rfl

/-- The block index map in terms of the runs of equal sectors. -/
theorem bunch_eq (T : List (PipeEntry S)) :
    (bunch T).1 = (runsOf (·.sector) T).filterMap (fun g => g.head?.map (·.sector)) ∧
    (bunch T).2.1 = (runsOf (·.sector) T).map (fun g => (g.map (·.mult)).sum) ∧
    (bunch T).2.2.2 = (runsOf (·.sector) T).zipIdx.flatMap fun gk => rowsFrom gk.2 0 gk.1 := by
  set diffs := findRowDifferences (T.map (·.sector)) true with hd
  have hc : (consecutive diffs).map (fun r => slice T r.1 r.2) = runsOf (·.sector) T :=
    slices_eq_runs _ T
  have hr : ∀ r ∈ consecutive diffs, r.1 < r.2 ∧ r.2 ≤ T.length := consecutive_range T _
  have hget : ∀ i ≤ T.length, (sliceBoundaries 0 (T.map (·.mult))).getD i 0 =
      ((T.map (·.mult)).take i).sum := fun i hi => sliceBoundaries_getD _ _ (by simpa using hi)
  refine ⟨?_, ?_, ?_⟩
  · have := runsOf_heads (fun e : PipeEntry S => e.sector) T
    rw [← this]
    unfold bunch
    simp only
    rw [← hd, ← consecutive_map_fst, List.filterMap_map]
    rfl
  · unfold bunch
    simp only
    rw [← hd, consecutive_map, List.map_map, ← hc, List.map_map]
    apply List.map_congr_left
    intro r hrm
    have := hr r hrm
    simp only [Function.comp_apply]
    rw [hget _ this.2, hget _ (by omega), sum_slice _ _ _ this.1.le, slice_map]
  · unfold bunch
    simp only
    rw [← hd, ← hc]
    rw [List.zipIdx_map, List.flatMap_map]
    apply List.flatMap_congr
    rintro ⟨r, k⟩ hrk
    have hk := mem_zipIdx' hrk
    have hrm := List.mem_of_getElem? hk
    have hb := hr r hrm
    simp only at hk ⊢
    have hstart : (diffs.map fun d => (sliceBoundaries 0 (T.map (·.mult))).getD d 0).getD k 0 =
        ((T.map (·.mult)).take r.1).sum := by
      have h1 : diffs[k]? = some r.1 := by
        unfold consecutive at hk
        exact (List.getElem?_zip_eq_some.1 hk).1
      rw [List.getD_eq_getElem?_getD, List.getElem?_map, h1]
      simp only [Option.map_some, Option.getD_some]
      exact hget _ (by omega)
    rw [hstart]
    have := rows_slice T k r.1 (r.2 - r.1) r.1 le_rfl (by omega)
    rw [show r.1 + (r.2 - r.1) = r.2 by omega, Nat.sub_self] at this
    refine Eq.trans ?_ this
    apply List.filterMap_congr
    intro m hm
    rw [List.mem_range'_1] at hm
    have hm2 : m < T.length := by omega
    rw [hget m (by omega), hget (m + 1) (by omega)]

end APipe
end Cyten.Spaces
