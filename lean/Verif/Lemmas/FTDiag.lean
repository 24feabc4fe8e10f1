import Verif.Props.FTDiag2
import Verif.Lemmas.FTDense
import Verif.Lemmas.FTScale2

/-! # Lemmas on the dense blocks of diagonal tensors of the fusion tree backend -/

namespace Cyten.FT
open Cyten.Abelian Cyten.Spaces Cyten.Tools Cyten.FT.Spec Cyten.Props Cyten.ListSum
open Cyten.Abelian.Spec (diagEntry IsDiagIndex)

variable {S K L P : Type} [LinearOrder S]

/-- The sizes of the slices of a leg. -/
def sizes (dim : S → ℕ) (leg : SpaceData S) : List ℕ := List.zipWith (fun s m => dim s * m) leg.sectors leg.mults

theorem sizes_get {dim : S → ℕ} {leg : SpaceData S} {j : ℕ} {s : S} {n : ℕ} (hs : leg.sectors[j]? = some s)
    (hn : leg.mults[j]? = some n) : (sizes dim leg)[j]? = some (dim s * n) := by
  simp [sizes, List.getElem?_zipWith, hs, hn]

theorem spaceSlice_eq {dim : S → ℕ} {leg : SpaceData S} {j : ℕ} {s : S} {n : ℕ} (hs : leg.sectors[j]? = some s)
    (hn : leg.mults[j]? = some n) :
    spaceSlice dim leg j = (((sizes dim leg).take j).sum, ((sizes dim leg).take j).sum + (sizes dim leg).getD j 0) := by
  obtain ⟨hi, rfl⟩ := List.getElem?_eq_some_iff.1 hs
  obtain ⟨hm, rfl⟩ := List.getElem?_eq_some_iff.1 hn
  obtain ⟨h1, h2⟩ := cells_get dim leg j hi hm
  have hl : j < (List.zipWith (fun s m => dim s * m) leg.sectors leg.mults).length := by
    simp; omega
  have h3 : (spaceSlice dim leg j).1 = ((sizes dim leg).take j).sum := sliceBoundaries_getD _ j hl.le
  rw [h3] at h2
  have h4 : (sizes dim leg).getD j 0 = dim leg.sectors[j] * leg.mults[j] := by
    rw [List.getD_eq_getElem?_getD, sizes_get hs hn]; rfl
  rw [h4]
  exact Prod.ext h3 h2

theorem setSlice1_get [Zero K] (res b : List K) (lo n : ℕ) (hb : b.length = n)
    (hn : lo + n ≤ res.length) :
    (setSlice1 res (lo, lo + n) b).length = res.length ∧
    ∀ k, (setSlice1 res (lo, lo + n) b).getD k 0 =
      if lo ≤ k ∧ k < lo + n then b.getD (k - lo) 0 else res.getD k 0 := by
  unfold setSlice1
  have hl : (res.take lo).length = lo := by rw [List.length_take]; omega
  constructor
  · simp only [List.length_append, List.length_take, List.length_drop]
    omega
  · intro k
    simp only [List.getD_eq_getElem?_getD]
    rw [List.append_assoc]
    by_cases h1 : k < lo
    · rw [List.getElem?_append_left (by omega), List.getElem?_take, if_pos h1, if_neg (by omega)]
    · rw [List.getElem?_append_right (by omega), hl]
      by_cases h2 : k - lo < n
      · rw [List.getElem?_append_left (by omega), if_pos (by omega)]
      · rw [List.getElem?_append_right (by omega), if_neg (by omega), hb, List.getElem?_drop,
          show lo + n + (k - lo - n) = k by omega]

/-- A fold of assignments to the slices of different sectors. -/
theorem foldl_slices [Zero K] (ws : List ℕ) (D : DEnts K)
    (hD : ∀ p ∈ D, p.1 < ws.length ∧ p.2.length = ws.getD p.1 0)
    (hnd : (D.map Prod.fst).Nodup) (res : List K) (hl : res.length = ws.sum) :
    (D.foldl (fun res p => setSlice1 res ((ws.take p.1).sum, (ws.take p.1).sum + ws.getD p.1 0) p.2) res).length =
      ws.sum ∧
    ∀ b off, IsDiagIndex ws b off →
      (D.foldl (fun res p => setSlice1 res ((ws.take p.1).sum, (ws.take p.1).sum + ws.getD p.1 0) p.2) res).getD
          ((ws.take b).sum + off) 0 =
        match D.lookup b with
        | some u => u.getD off 0
        | none => res.getD ((ws.take b).sum + off) 0 := by
  induction D generalizing res with
  | nil => exact ⟨hl, fun _ _ _ => rfl⟩
  | cons p D ih =>
    obtain ⟨hp1, hp2⟩ := hD p List.mem_cons_self
    have hfit : (ws.take p.1).sum + ws.getD p.1 0 ≤ res.length := by
      rw [hl]
      have h1 := take_sum_succ ws p.1 _ (List.getElem?_eq_getElem hp1)
      have h2 := take_sum_mono ws (p.1 + 1) ws.length hp1
      rw [List.take_length] at h2
      rw [List.getD_eq_getElem?_getD, List.getElem?_eq_getElem hp1, Option.getD_some]
      omega
    obtain ⟨s1, s2⟩ := setSlice1_get res p.2 (ws.take p.1).sum (ws.getD p.1 0) hp2 hfit
    rw [List.foldl_cons]
    rw [List.map_cons, List.nodup_cons] at hnd
    obtain ⟨i1, i2⟩ := ih (fun q hq => hD q (List.mem_cons_of_mem _ hq)) hnd.2 _ (s1.trans hl)
    refine ⟨i1, fun b off hb => ?_⟩
    rw [i2 b off hb]
    have hlk : List.lookup b (p :: D) = if b = p.1 then some p.2 else D.lookup b := lookup_cons b p D
    rw [hlk]
    have hin := take_sum_lt (b' := p.1) hb.1 hp1 hb.2
    rw [take_sum_succ ws p.1 _ (List.getElem?_eq_getElem hp1)] at hin
    have hg : ws.getD p.1 0 = ws[p.1] := by
      rw [List.getD_eq_getElem?_getD, List.getElem?_eq_getElem hp1]; rfl
    by_cases hbp : b = p.1
    · rw [if_pos hbp]
      have hn : D.lookup b = none := by
        rw [lookup_none_iff]
        intro q hq he
        exact hnd.1 (List.mem_map.2 ⟨q, hq, by rw [he, hbp]⟩)
      rw [hn]
      simp only
      rw [s2, if_pos (by rw [hg]; exact hin.2 hbp.symm), hbp, Nat.add_sub_cancel_left]
    · rw [if_neg hbp]
      cases D.lookup b with
      | some u => rfl
      | none =>
        simp only
        rw [s2, if_neg (by rw [hg]; exact fun hc => hbp (hin.1 hc).symm)]

/-- Entries of a repeated list. -/
theorem getD_replicate_flatten [Zero K] (b : List K) (n d m : ℕ) (hd : d < n) (hm : m < b.length) :
    (List.replicate n b).flatten.getD (d * b.length + m) 0 = b.getD m 0 := by
  induction n generalizing d with
  | zero => omega
  | succ n ih =>
    rw [List.replicate_succ, List.flatten_cons]
    cases d with
    | zero =>
      rw [Nat.zero_mul, Nat.zero_add, List.getD_append _ _ _ _ hm]
    | succ d =>
      rw [List.getD_append_right _ _ _ _ (by rw [Nat.succ_mul]; omega)]
      have : (d + 1) * b.length + m - b.length = d * b.length + m := by rw [Nat.succ_mul]; omega
      rw [this, ih d (by omega)]

/-- Every index of the leg belongs to one sector, vector and multiplicity index. -/
theorem denseIndex_exists (dim : S → ℕ) (leg : SpaceData S) (hlen : leg.sectors.length = leg.mults.length) (k : ℕ)
    (hk : k < spaceDim dim leg) : ∃ s d m, DenseIndex dim leg k s d m := by
  have key : ∀ (ws : List ℕ) (k : ℕ), k < ws.sum → ∃ j w, ws[j]? = some w ∧ (ws.take j).sum ≤ k ∧
      k < (ws.take j).sum + w := by
    intro ws
    induction ws with
    | nil => intro k h; simp at h
    | cons w ws ih =>
      intro k h
      by_cases hw : k < w
      · exact ⟨0, w, by simp, by simp, by simpa using hw⟩
      · rw [List.sum_cons] at h
        obtain ⟨j, v, h1, h2, h3⟩ := ih (k - w) (by omega)
        refine ⟨j + 1, v, by simpa using h1, ?_, ?_⟩
        · rw [List.take_succ_cons, List.sum_cons]; omega
        · rw [List.take_succ_cons, List.sum_cons]; omega
  obtain ⟨j, w, h1, h2, h3⟩ := key (sizes dim leg) k hk
  have hj : j < (sizes dim leg).length := (List.getElem?_eq_some_iff.1 h1).1
  have hj1 : j < leg.sectors.length := by simp [sizes] at hj; omega
  have hj2 : j < leg.mults.length := by rw [← hlen]; exact hj1
  have hs := List.getElem?_eq_getElem hj1
  have hn := List.getElem?_eq_getElem hj2
  rw [sizes_get hs hn] at h1
  have hw : dim leg.sectors[j] * leg.mults[j] = w := Option.some.inj h1
  set n := leg.mults[j] with hn'
  have hpos : 0 < n := by
    rcases Nat.eq_zero_or_pos n with h | h
    · rw [h, Nat.mul_zero] at hw; omega
    · exact h
  set off := k - ((sizes dim leg).take j).sum with hoff
  refine ⟨leg.sectors[j], off / n, off % n, j, n, hs, hn, ?_, Nat.mod_lt _ hpos, ?_⟩
  · rw [Nat.div_lt_iff_lt_mul hpos, hw]; omega
  · have h5 : off / n * n + off % n = off := Nat.div_add_mod' off n
    show k = ((sizes dim leg).take j).sum + off / n * n + off % n
    omega

theorem denseIndex_unique (dim : S → ℕ) (leg : SpaceData S) {k s d m s' d' m'}
    (h : DenseIndex dim leg k s d m) (h' : DenseIndex dim leg k s' d' m') : s = s' ∧ d = d' ∧ m = m' := by
  obtain ⟨j, n, a1, a2, a3, a4, a5⟩ := h
  obtain ⟨j', n', b1, b2, b3, b4, b5⟩ := h'
  have e1 : IsDiagIndex (sizes dim leg) j (d * n + m) := by
    have := sizes_get (dim := dim) a1 a2
    refine ⟨(List.getElem?_eq_some_iff.1 this).1, ?_⟩
    rw [List.getD_eq_getElem?_getD, this]
    show d * n + m < dim s * n
    have : (d + 1) * n ≤ dim s * n := Nat.mul_le_mul_right _ a3
    rw [Nat.succ_mul] at this
    omega
  have hb := sizes_get (dim := dim) b1 b2
  have hj' := (List.getElem?_eq_some_iff.1 hb)
  have hin := take_sum_lt (b' := j') e1.1 hj'.1 e1.2
  rw [take_sum_succ _ j' _ hb] at hin
  have hjj : j' = j := by
    refine hin.1 ⟨?_, ?_⟩
    · show ((sizes dim leg).take j').sum ≤ ((sizes dim leg).take j).sum + (d * n + m)
      have : k = ((sizes dim leg).take j').sum + d' * n' + m' := b5
      have : k = ((sizes dim leg).take j).sum + d * n + m := a5
      omega
    · show ((sizes dim leg).take j).sum + (d * n + m) < _
      have q1 : k = ((sizes dim leg).take j').sum + d' * n' + m' := b5
      have q2 : k = ((sizes dim leg).take j).sum + d * n + m := a5
      have : (d' + 1) * n' ≤ dim s' * n' := Nat.mul_le_mul_right _ b3
      rw [Nat.succ_mul] at this
      omega
  subst hjj
  rw [a1] at b1
  rw [a2] at b2
  cases b1
  cases b2
  refine ⟨rfl, ?_⟩
  have e : d * n + m = d' * n + m' := by omega
  have hd : d = d' := by
    have h1 : (d * n + m) / n = d := by
      rw [Nat.add_comm, Nat.add_mul_div_right _ _ (by omega), Nat.div_eq_of_lt a4, Nat.zero_add]
    have h2 : (d' * n + m') / n = d' := by
      rw [Nat.add_comm, Nat.add_mul_div_right _ _ (by omega), Nat.div_eq_of_lt b4, Nat.zero_add]
    rw [← h1, e, h2]
  subst hd
  exact ⟨rfl, by omega⟩

end Cyten.FT
