import Verif.Model.SU2
import Mathlib.Tactic.Ring
import Mathlib.Tactic.LinearCombination
import Mathlib.Data.Finset.Card
import Mathlib.Data.List.Nodup
import Mathlib.Algebra.BigOperators.Group.List.Basic
import Mathlib.Algebra.BigOperators.Ring.List
import Mathlib.Analysis.SpecialFunctions.Trigonometric.Basic
import Mathlib.Tactic.Positivity
import Mathlib.Tactic.FieldSimp

namespace Cyten
open Spec

theorem cast16_id {x : ℤ} (h1 : -32768 ≤ x) (h2 : x ≤ 32767) : cast16 x = x := by
  unfold cast16
  rw [Int.bmod_def]; omega

/-- `lo, lo+2, …` (`n` entries) -/
def ap (lo : ℤ) (n : ℕ) : List ℤ := (List.range n).map fun (i : ℕ) => lo + 2 * (i : ℤ)

theorem mem_ap {lo : ℤ} {n : ℕ} {c : ℤ} :
    c ∈ ap lo n ↔ lo ≤ c ∧ c < lo + 2 * n ∧ (c - lo) % 2 = 0 := by
  unfold ap
  simp only [List.mem_map, List.mem_range]
  constructor
  · rintro ⟨i, hi, rfl⟩; omega
  · rintro ⟨h1, h2, h3⟩; exact ⟨((c - lo) / 2).toNat, by omega, by omega⟩

theorem nodup_ap (lo : ℤ) (n : ℕ) : (ap lo n).Nodup := by
  unfold ap
  refine List.Nodup.map ?_ List.nodup_range
  intro i j h
  simp at h; exact h

theorem ap_succ (lo : ℤ) (n : ℕ) : ap lo (n + 1) = ap lo n ++ [lo + 2 * n] := by
  simp [ap, List.range_succ]

/-- two duplicate-free lists matched by a bijection have the same length -/
theorem length_eq_of_bij {l l' : List ℤ} (hl : l.Nodup) (hl' : l'.Nodup) (t : ℤ)
    (h : ∀ x, x ∈ l ↔ x + t ∈ l') : l.length = l'.length := by
  have h1 : (l.map (· + t)).Nodup := hl.map (fun x y h => by simpa using h)
  have h2 : (l.map (· + t)).Perm l' := by
    rw [List.perm_ext_iff_of_nodup h1 hl']
    intro y
    simp only [List.mem_map]
    constructor
    · rintro ⟨x, hx, rfl⟩; exact (h x).1 hx
    · intro hy; exact ⟨y - t, (h _).2 (by simpa using hy), by ring⟩
  simpa using h2.length_eq

namespace SU2

theorem fusionOutcomes_eq {a b : ℤ} (ha : valid a) (hb : valid b) (h : a + b ≤ 32767) :
    fusionOutcomes a b = some (ap (a - b).natAbs (min a b + 1).toNat) := by
  unfold fusionOutcomes valid at *
  simp only
  rw [cast16_id (x := ((a - b).natAbs : ℤ)) (by omega) (by omega),
    cast16_id (x := a + b) (by omega) (by omega), Int.tdiv_eq_ediv_of_nonneg (by omega)]
  have hn : (a + b - ((a - b).natAbs : ℤ)) / 2 + 1 = min a b + 1 := by omega
  rw [hn, if_neg (by omega)]
  refine congrArg some ?_
  unfold ap
  apply List.map_congr_left
  intro i hi
  rw [List.mem_range] at hi
  rw [cast16_id (x := 2 * (i : ℤ)) (by omega) (by omega), cast16_id (by omega) (by omega)]

theorem sum_dim (lo : ℤ) (n : ℕ) :
    ((ap lo n).map sectorDim).sum = n * (lo + n) := by
  induction n with
  | zero => simp [ap]
  | succ n ih =>
    rw [ap_succ, List.map_append, List.sum_append, ih]
    simp [sectorDim]; ring

end SU2

namespace SU2k

theorem out_eq {k a b : ℤ} (hk : k ≤ 32767) (ha : 0 ≤ a ∧ a ≤ k) (hb : 0 ≤ b ∧ b ≤ k) :
    out k a b = ap (a - b).natAbs (min (min a b) (k - max a b) + 1).toNat := by
  unfold out
  simp only
  rw [Int.tdiv_eq_ediv_of_nonneg (by omega)]
  have hn : (min (a + b) (2 * k - a - b) - ((a - b).natAbs : ℤ)) / 2 + 1 =
      min (min a b) (k - max a b) + 1 := by omega
  rw [hn]
  unfold ap
  apply List.map_congr_left
  intro i hi
  rw [List.mem_range] at hi
  rw [cast16_id (by omega) (by omega)]

theorem mem_out {k a b c : ℤ} (hk : k ≤ 32767) (ha : 0 ≤ a ∧ a ≤ k) (hb : 0 ≤ b ∧ b ≤ k) :
    c ∈ out k a b ↔ a - b ≤ c ∧ b - a ≤ c ∧ c ≤ a + b ∧ c ≤ 2 * k - a - b ∧ (a + b + c) % 2 = 0 := by
  rw [out_eq hk ha hb, mem_ap]
  omega

/-- lower / upper end of the channels `f` of `(ab)c → d` -/
def lo (a b c d : ℤ) : ℤ := max (max (a - b) (b - a)) (max (c - d) (d - c))
def hi (k a b c d : ℤ) : ℤ := min (min (a + b) (2 * k - a - b)) (min (c + d) (2 * k - c - d))

theorem lo_le (a b c d : ℤ) : a - b ≤ lo a b c d ∧ b - a ≤ lo a b c d ∧ c - d ≤ lo a b c d ∧
    d - c ≤ lo a b c d := by unfold lo; omega
theorem lo_or (a b c d : ℤ) : lo a b c d = a - b ∨ lo a b c d = b - a ∨ lo a b c d = c - d ∨
    lo a b c d = d - c := by unfold lo; omega
theorem le_hi (k a b c d : ℤ) : hi k a b c d ≤ a + b ∧ hi k a b c d ≤ 2 * k - a - b ∧
    hi k a b c d ≤ c + d ∧ hi k a b c d ≤ 2 * k - c - d := by unfold hi; omega
theorem hi_or (k a b c d : ℤ) : hi k a b c d = a + b ∨ hi k a b c d = 2 * k - a - b ∨
    hi k a b c d = c + d ∨ hi k a b c d = 2 * k - c - d := by unfold hi; omega

theorem width_le (k a b c d : ℤ) : hi k a b c d - lo a b c d ≤ hi k b c a d - lo b c a d := by
  obtain ⟨l1, l2, l3, l4⟩ := lo_le a b c d
  obtain ⟨h1, h2, h3, h4⟩ := le_hi k a b c d
  rcases lo_or b c a d with h | h | h | h <;> rcases hi_or k b c a d with h' | h' | h' | h' <;>
    rw [h, h'] <;> omega

theorem width_ge (k a b c d : ℤ) : hi k b c a d - lo b c a d ≤ hi k a b c d - lo a b c d := by
  obtain ⟨l1, l2, l3, l4⟩ := lo_le b c a d
  obtain ⟨h1, h2, h3, h4⟩ := le_hi k b c a d
  rcases lo_or a b c d with h | h | h | h <;> rcases hi_or k a b c d with h' | h' | h' | h' <;>
    rw [h, h'] <;> omega

theorem lo_parity (a b c d : ℤ) (h : (a + b + c + d) % 2 = 0) : (lo a b c d - a - b) % 2 = 0 := by
  rcases lo_or a b c d with h | h | h | h <;> omega

theorem channelL {k a b c d x : ℤ} (hk : k ≤ 32767) (ha : 0 ≤ a ∧ a ≤ k) (hb : 0 ≤ b ∧ b ≤ k)
    (hc : 0 ≤ c ∧ c ≤ k) :
    (x ∈ out k a b ∧ d ∈ out k x c) ↔ lo a b c d ≤ x ∧ x ≤ hi k a b c d ∧ (a + b + x) % 2 = 0 ∧
      (a + b + c + d) % 2 = 0 := by
  have hx : x ∈ out k a b ∧ d ∈ out k x c ↔ (0 ≤ x ∧ x ≤ k) ∧ x ∈ out k a b ∧ d ∈ out k x c := by
    constructor
    · rintro ⟨h1, h2⟩
      have := (mem_out hk ha hb).1 h1
      exact ⟨by omega, h1, h2⟩
    · exact fun h => h.2
  rw [hx]
  unfold lo hi
  constructor
  · rintro ⟨h0, h1, h2⟩
    rw [mem_out hk ha hb] at h1
    rw [mem_out hk h0 hc] at h2
    omega
  · intro h
    have h0 : 0 ≤ x ∧ x ≤ k := by omega
    refine ⟨h0, ?_, ?_⟩
    · rw [mem_out hk ha hb]; omega
    · rw [mem_out hk h0 hc]; omega

theorem channelR {k a b c d x : ℤ} (hk : k ≤ 32767) (ha : 0 ≤ a ∧ a ≤ k) (hb : 0 ≤ b ∧ b ≤ k)
    (hc : 0 ≤ c ∧ c ≤ k) :
    (x ∈ out k b c ∧ d ∈ out k a x) ↔ lo b c a d ≤ x ∧ x ≤ hi k b c a d ∧ (b + c + x) % 2 = 0 ∧
      (a + b + c + d) % 2 = 0 := by
  have hx : x ∈ out k b c ∧ d ∈ out k a x ↔ (0 ≤ x ∧ x ≤ k) ∧ x ∈ out k b c ∧ d ∈ out k a x := by
    constructor
    · rintro ⟨h1, h2⟩
      have := (mem_out hk hb hc).1 h1
      exact ⟨by omega, h1, h2⟩
    · exact fun h => h.2
  rw [hx]
  unfold lo hi
  constructor
  · rintro ⟨h0, h1, h2⟩
    rw [mem_out hk hb hc] at h1
    rw [mem_out hk ha h0] at h2
    omega
  · intro h
    have h0 : 0 ≤ x ∧ x ≤ k := by omega
    refine ⟨h0, ?_, ?_⟩
    · rw [mem_out hk hb hc]; omega
    · rw [mem_out hk ha h0]; omega

theorem assoc_count {k a b c d : ℤ} (hk : k ≤ 32767) (ha : 0 ≤ a ∧ a ≤ k) (hb : 0 ≤ b ∧ b ≤ k)
    (hc : 0 ≤ c ∧ c ≤ k) :
    ((out k a b).filter fun f => d ∈ out k f c).length =
      ((out k b c).filter fun e => d ∈ out k a e).length := by
  have n1 : (out k a b).Nodup := by rw [out_eq hk ha hb]; exact nodup_ap _ _
  have n2 : (out k b c).Nodup := by rw [out_eq hk hb hc]; exact nodup_ap _ _
  apply length_eq_of_bij (n1.filter _) (n2.filter _) (lo b c a d - lo a b c d)
  intro x
  rw [List.mem_filter, List.mem_filter]
  simp only [decide_eq_true_eq]
  rw [channelL hk ha hb hc, channelR hk ha hb hc]
  have w1 := width_le k a b c d
  have w2 := width_ge k a b c d
  by_cases hp : (a + b + c + d) % 2 = 0
  · have p1 := lo_parity a b c d hp
    have p2 := lo_parity b c a d (by omega)
    omega
  · simp [hp]

theorem fusionRing (k : ℤ) (hk1 : 1 ≤ k) (hk : k ≤ 32767) (right : Bool) :
    (cat k right).FusionRing where
  unit_valid := by show (0 : ℤ) ≤ 0 ∧ (0 : ℤ) ≤ k; omega
  closed a b ha hb c hc := by
    have := (mem_out hk ha hb).1 hc
    simp only [cat] at *; omega
  nodup a b ha hb := by
    show (out k a b).Nodup
    rw [out_eq hk ha hb]; exact nodup_ap _ _
  unit_left a ha := by
    show out k 0 a = [a]
    rw [out_eq hk ⟨le_refl _, by omega⟩ ha]
    simp only [cat] at ha
    have h1 : (min (min 0 a) (k - max 0 a) + 1).toNat = 1 := by omega
    rw [h1]; simp [ap]; omega
  unit_right a ha := by
    show out k a 0 = [a]
    rw [out_eq hk ha ⟨le_refl _, by omega⟩]
    simp only [cat] at ha
    have h1 : (min (min a 0) (k - max a 0) + 1).toNat = 1 := by omega
    rw [h1]; simp [ap]; omega
  comm a b ha hb c := by
    show c ∈ out k a b ↔ c ∈ out k b a
    rw [mem_out hk ha hb, mem_out hk hb ha]; omega
  assoc a b c d ha hb hc _ := assoc_count hk ha hb hc
  dual_valid a ha := ha
  dual_dual a _ := rfl
  dual_iff a b ha hb := by
    show 0 ∈ out k a b ↔ b = a
    rw [mem_out hk ha hb]
    simp only [cat] at ha hb
    omega

end SU2k
end Cyten
