import Verif.Model.FusionSymbol
import Mathlib.Algebra.BigOperators.Group.List.Basic
import Mathlib.Tactic.Ring
import Mathlib.Data.List.GetD

namespace Cyten.FSym
variable {K : Type}

theorem flatMap_range_getD (n m : ℕ) (f : ℕ → List K) (hl : ∀ i, (f i).length = m) (z : K)
    (i j : ℕ) (hi : i < n) (hj : j < m) :
    ((List.range n).flatMap f).getD (i * m + j) z = (f i).getD j z := by
  induction n with
  | zero => omega
  | succ n ih =>
    have hlen : ∀ n, ((List.range n).flatMap f).length = n * m := by
      intro n
      induction n with
      | zero => simp
      | succ n ih =>
        rw [List.range_succ, List.flatMap_append, List.length_append, ih]
        simp [hl, Nat.succ_mul]
    rw [List.range_succ, List.flatMap_append]
    by_cases h : i < n
    · have : i * m + j < n * m := by
        have : (i + 1) * m ≤ n * m := Nat.mul_le_mul_right _ h
        rw [Nat.succ_mul] at this; omega
      rw [List.getD_append _ _ _ _ (by rw [hlen]; exact this), ih h]
    · have e : i = n := by omega
      subst e
      rw [List.getD_append_right _ _ _ _ (by rw [hlen]; omega), hlen, Nat.add_sub_cancel_left]
      simp

/-- reading back an array filled entry by entry -/
theorem build_get [Zero K] (rk s0 s1 s2 s3 : ℕ) (f : ℕ → ℕ → ℕ → ℕ → K) (i0 i1 i2 i3 : ℕ)
    (h0 : i0 < s0) (h1 : i1 < s1) (h2 : i2 < s2) (h3 : i3 < s3) :
    (build rk s0 s1 s2 s3 f).get i0 i1 i2 i3 = f i0 i1 i2 i3 := by
  have len1 : ∀ (n m : ℕ) (g : ℕ → List K), (∀ i, (g i).length = m) →
      ((List.range n).flatMap g).length = n * m := by
    intro n m g hg
    induction n with
    | zero => simp
    | succ n ih =>
      rw [List.range_succ, List.flatMap_append, List.length_append, ih]
      simp [hg, Nat.succ_mul]
  have l3 : ∀ i0 i1 i2 : ℕ, ((List.range s3).map fun i3 => f i0 i1 i2 i3).length = s3 := by
    intros; simp
  have l2 : ∀ i0 i1 : ℕ, ((List.range s2).flatMap fun i2 => (List.range s3).map fun i3 =>
      f i0 i1 i2 i3).length = s2 * s3 := fun i0 i1 => len1 _ _ _ (l3 i0 i1)
  have l1 : ∀ i0 : ℕ, ((List.range s1).flatMap fun i1 => (List.range s2).flatMap fun i2 =>
      (List.range s3).map fun i3 => f i0 i1 i2 i3).length = s1 * (s2 * s3) :=
    fun i0 => len1 _ _ _ (l2 i0)
  unfold get build
  rw [if_pos ⟨h0, h1, h2, h3⟩]
  have b3 : i2 * s3 + i3 < s2 * s3 := by
    have : (i2 + 1) * s3 ≤ s2 * s3 := Nat.mul_le_mul_right _ h2
    rw [Nat.succ_mul] at this; omega
  have b2 : i1 * (s2 * s3) + (i2 * s3 + i3) < s1 * (s2 * s3) := by
    have : (i1 + 1) * (s2 * s3) ≤ s1 * (s2 * s3) := Nat.mul_le_mul_right _ h1
    rw [Nat.succ_mul] at this; omega
  have e : ((i0 * s1 + i1) * s2 + i2) * s3 + i3 =
      i0 * (s1 * (s2 * s3)) + (i1 * (s2 * s3) + (i2 * s3 + i3)) := by ring
  simp only [e]
  rw [flatMap_range_getD _ _ _ l1 0 _ _ h0 b2, flatMap_range_getD _ _ _ (l2 i0) 0 _ _ h1 b3,
    flatMap_range_getD _ _ _ (l3 i0 i1) 0 _ _ h2 h3]
  rw [List.getD_eq_getElem _ _ (by simpa using h3)]
  simp

/-- number of entries -/
theorem build_length (rk s0 s1 s2 s3 : ℕ) (f : ℕ → ℕ → ℕ → ℕ → K) :
    (build rk s0 s1 s2 s3 f).data.length = s0 * s1 * s2 * s3 := by
  simp only [build, List.length_flatMap, List.length_map, List.length_range]
  simp [List.map_const', List.sum_replicate, Nat.mul_assoc]

/-- `kron`: the entry at `(i0, …)` is the product of the entries at the quotients and remainders. -/
theorem kron_get [Zero K] [Mul K] (a b : FSym K) (hr : a.rank = b.rank) (i0 i1 i2 i3 : ℕ)
    (h0 : i0 < a.s0 * b.s0) (h1 : i1 < a.s1 * b.s1) (h2 : i2 < a.s2 * b.s2)
    (h3 : i3 < a.s3 * b.s3) :
    ∃ s, a.kron b = some s ∧ s.rank = a.rank ∧
      s.shape = (a.s0 * b.s0, a.s1 * b.s1, a.s2 * b.s2, a.s3 * b.s3) ∧
      s.get i0 i1 i2 i3 = a.get (i0 / b.s0) (i1 / b.s1) (i2 / b.s2) (i3 / b.s3) *
        b.get (i0 % b.s0) (i1 % b.s1) (i2 % b.s2) (i3 % b.s3) := by
  unfold kron
  rw [if_neg (by simp [hr])]
  exact ⟨_, rfl, rfl, rfl, build_get _ _ _ _ _ _ _ _ _ _ h0 h1 h2 h3⟩

theorem bcast_one_left (n : ℕ) : bcast 1 n = some n := by
  unfold bcast; split
  · next h => rw [h]
  · rfl

theorem bcast_one_right (n : ℕ) : bcast n 1 = some n := by
  unfold bcast
  by_cases h : n = 1 <;> simp [h]

theorem bcast_self (n : ℕ) : bcast n n = some n := by simp [bcast]

theorem bidx {n i : ℕ} (h : i < n) : (if n = 1 then 0 else i) = i := by
  split <;> omega

theorem conj_get [Zero K] [InvolutiveStar K] (hz : star (0 : K) = 0) (s : FSym K) (i j k l : ℕ) :
    s.conj.get i j k l = star (s.get i j k l) := by
  unfold get conj
  simp only
  split
  · have := List.getD_map (l := s.data) (n := (((i * s.s1 + j) * s.s2 + k) * s.s3 + l)) star (d := (0 : K))
    rw [hz] at this
    exact this
  · exact hz.symm

theorem scale_get [MulZeroClass K] (s : FSym K) (c : K) (i j k l : ℕ) :
    (s.scale c).get i j k l = s.get i j k l * c := by
  unfold get scale
  simp only
  split
  · have := List.getD_map (l := s.data) (n := (((i * s.s1 + j) * s.s2 + k) * s.s3 + l))
      (fun v => v * c) (d := (0 : K))
    rw [zero_mul] at this
    exact this
  · exact (zero_mul c).symm

/-- `R1[None, :, None, None] * F * R2[None, None, :, None]` as in `_c_symbol`. -/
theorem cSym_get [MulZeroClass K] (R1 F R2 : FSym K) (n0 n1 n2 n3 : ℕ)
    (hF : F.shape = (n0, n1, n2, n3)) (hFr : F.rank = 4)
    (h1 : R1.shape = (n1, 1, 1, 1)) (h2 : R2.shape = (n2, 1, 1, 1)) :
    ∃ s, (do
        let R1e ← R1.reshaped 4 1 (R1.s0 * R1.s1 * R1.s2 * R1.s3) 1 1
        let R2e ← R2.reshaped 4 1 1 (R2.s0 * R2.s1 * R2.s2 * R2.s3) 1
        let x ← R1e.multiply F
        x.multiply R2e) = some s ∧ s.rank = 4 ∧ s.shape = (n0, n1, n2, n3) ∧
      ∀ i0 < n0, ∀ i1 < n1, ∀ i2 < n2, ∀ i3 < n3,
        s.get i0 i1 i2 i3 = R1.get i1 0 0 0 * F.get i0 i1 i2 i3 * R2.get i2 0 0 0 := by
  obtain ⟨r1, a0, a1, a2, a3, d1⟩ := R1
  obtain ⟨r2, b0, b1, b2, b3, d2⟩ := R2
  obtain ⟨rf, c0, c1, c2, c3, df⟩ := F
  simp only [shape, Prod.mk.injEq] at hF h1 h2
  obtain ⟨rfl, rfl, rfl, rfl⟩ := hF
  obtain ⟨rfl, rfl, rfl, rfl⟩ := h1
  obtain ⟨rfl, rfl, rfl, rfl⟩ := h2
  simp only at hFr
  subst hFr
  simp only [reshaped, Nat.mul_one, Nat.one_mul, if_true, Option.bind_eq_bind, Option.bind_some,
    multiply, ne_eq, not_true_eq_false, if_false, bcast_one_left, bcast_self, build,
    bcast_one_right]
  refine ⟨_, rfl, rfl, rfl, ?_⟩
  intro i0 q0 i1 q1 i2 q2 i3 q3
  rw [← build, build_get _ _ _ _ _ _ _ _ _ _ q0 q1 q2 q3]
  rw [bidx q0, bidx q1, bidx q2, bidx q3, ← build, build_get _ _ _ _ _ _ _ _ _ _ q0 q1 q2 q3]
  rw [bidx q0, bidx q1, bidx q2, bidx q3]
  congr 1
  · congr 1
    simp [get, q1]
  · simp [get, q2]

end Cyten.FSym
