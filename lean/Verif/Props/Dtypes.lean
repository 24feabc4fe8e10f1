import Verif.Model.Dtypes
import Mathlib.Data.List.Basic
import Mathlib.Order.Basic
import Mathlib.Tactic.SplitIfs

/-!
# C17: dtype promotion is the least upper bound

The specification order is independent of the numeric codes of the implementation: a dtype has
a *kind* (boolean, integer, single precision, double precision) and is real or complex.  `b`
can hold what `a` holds (`Below a b`) if its kind is at least that of `a`, and it is complex if
`a` is.
-/

namespace Cyten.Props
open Cyten.Dtypes

/-- boolean < integer < single < double precision -/
def dtypeKind : Dtype → Nat
  | .bool => 0
  | .int64 => 1
  | .float32 => 2
  | .complex64 => 2
  | .float64 => 3
  | .complex128 => 3

def IsComplexDtype (d : Dtype) : Prop := d = .complex64 ∨ d = .complex128

instance (d : Dtype) : Decidable (IsComplexDtype d) :=
  inferInstanceAs (Decidable (_ ∨ _))

def DtypeBelow (a b : Dtype) : Prop :=
  dtypeKind a ≤ dtypeKind b ∧ (IsComplexDtype a → IsComplexDtype b)

instance (a b : Dtype) : Decidable (DtypeBelow a b) :=
  inferInstanceAs (Decidable (_ ∧ _))

/-- `DtypeBelow` is a partial order: least upper bounds are unique. -/
theorem dtypeBelow_antisymm {a b : Dtype} (h : DtypeBelow a b) (h' : DtypeBelow b a) :
    a = b := by
  cases a <;> cases b <;> revert h h' <;> decide

theorem dtypeBelow_refl (a : Dtype) : DtypeBelow a a := by cases a <;> decide

private theorem foldl_max (ds : List Dtype) (d : Dtype) :
    let r := ds.foldl (fun res t => if t.val > res.val then t else res) d
    (r = d ∨ r ∈ ds) ∧ d.val ≤ r.val ∧ ∀ t ∈ ds, t.val ≤ r.val := by
  induction ds generalizing d with
  | nil => simp
  | cons x xs ih =>
    simp only [List.foldl_cons]
    have := ih (if x.val > d.val then x else d)
    obtain ⟨h1, h2, h3⟩ := this
    refine ⟨?_, ?_, ?_⟩
    · rcases h1 with h1 | h1
      · split_ifs at h1 with h
        · exact Or.inr (by rw [if_pos h, h1]; exact List.mem_cons_self)
        · exact Or.inl (by rw [if_neg h]; exact h1)
      · exact Or.inr (List.mem_cons_of_mem _ h1)
    · refine Nat.le_trans ?_ h2
      split_ifs with h <;> omega
    · intro t ht
      rcases List.mem_cons.1 ht with rfl | ht
      · refine Nat.le_trans ?_ h2
        split_ifs with h <;> omega
      · exact h3 t ht

private theorem isComplex_iff (d : Dtype) : isComplex d = true ↔ IsComplexDtype d := by
  cases d <;> decide

private theorem isReal_iff (d : Dtype) : isReal d = true ↔ ¬ IsComplexDtype d := by
  cases d <;> decide

private theorem below_of_val {a b : Dtype} (h : a.val ≤ b.val)
    (hc : IsComplexDtype a → IsComplexDtype b) : DtypeBelow a b := by
  cases a <;> cases b <;> revert h hc <;> decide

/-- **C17**: the promoted dtype of a non-empty list exists (no exception), every argument is
below it, and it is below every other dtype with that property: it is *the* least upper bound. -/
theorem C17_common_is_lub (ds : List Dtype) (hne : ds ≠ []) :
    ∃ r, common ds = some r ∧ (∀ d ∈ ds, DtypeBelow d r) ∧
      ∀ u, (∀ d ∈ ds, DtypeBelow d u) → DtypeBelow r u := by
  obtain ⟨d, ds', rfl⟩ := List.exists_cons_of_ne_nil hne
  have hf := foldl_max (d :: ds') d
  simp only [common]
  generalize hr : (d :: ds').foldl (fun res t => if t.val > res.val then t else res) d = r at hf ⊢
  obtain ⟨hmem, -, hall⟩ := hf
  have hmem : r ∈ d :: ds' := by
    rcases hmem with h | h
    · rw [h]; exact List.mem_cons_self
    · exact h
  split_ifs with h1 h2
  · obtain ⟨t, ht, htc⟩ := List.any_eq_true.1 h2
    rw [isComplex_iff] at htc
    have hrt := hall t ht
    rw [isReal_iff] at h1
    have hr64 : r = .float64 := by
      cases t <;> cases r <;> revert htc hrt h1 <;> decide
    subst hr64
    refine ⟨.complex128, rfl, ?_, ?_⟩
    · intro x _; cases x <;> decide
    · intro u hu
      have a := hu _ hmem
      have b := hu _ ht
      cases t <;> cases u <;> revert htc a b <;> decide
  · refine ⟨r, rfl, ?_, fun u hu => hu r hmem⟩
    intro x hx
    refine below_of_val (hall x hx) fun hc => ?_
    exact absurd (List.any_eq_true.2 ⟨x, hx, (isComplex_iff x).2 hc⟩) h2
  · refine ⟨r, rfl, ?_, fun u hu => hu r hmem⟩
    intro x hx
    refine below_of_val (hall x hx) fun _ => ?_
    rw [isReal_iff] at h1
    exact not_not.1 h1

/-- **C17**: the promoted dtype depends only on the *set* of dtypes: order and repetition are
irrelevant. -/
theorem C17_common_set (ds es : List Dtype) (h : ∀ d, d ∈ ds ↔ d ∈ es) :
    common ds = common es := by
  by_cases hne : ds = []
  · subst hne
    have : es = [] := List.eq_nil_iff_forall_not_mem.2 fun d hd => by simpa using (h d).2 hd
    rw [this]
  · have hne' : es ≠ [] := by
      rintro rfl
      exact hne (List.eq_nil_iff_forall_not_mem.2 fun d hd => by simpa using (h d).1 hd)
    obtain ⟨r, h1, h2, h3⟩ := C17_common_is_lub ds hne
    obtain ⟨r', h1', h2', h3'⟩ := C17_common_is_lub es hne'
    rw [h1, h1', dtypeBelow_antisymm (h3 r' fun d hd => h2' d ((h d).1 hd))
      (h3' r fun d hd => h2 d ((h d).2 hd))]

/-- **C17**: the promoted dtype is complex exactly if an argument is. -/
theorem C17_common_complex (ds : List Dtype) (r : Dtype) (h : common ds = some r) :
    IsComplexDtype r ↔ ∃ d ∈ ds, IsComplexDtype d := by
  have hne : ds ≠ [] := by rintro rfl; simp [common] at h
  obtain ⟨r', h1, h2, h3⟩ := C17_common_is_lub ds hne
  have : r' = r := by rw [h] at h1; exact (Option.some.inj h1).symm
  subst this
  constructor
  · intro hc
    by_contra hno
    have hno : ∀ d ∈ ds, ¬ IsComplexDtype d := fun d hd hc => hno ⟨d, hd, hc⟩
    have : DtypeBelow r' .float64 := h3 .float64 fun d hd => by
      have := hno d hd
      cases d <;> revert this <;> decide
    cases r' <;> revert hc this <;> decide
  · rintro ⟨d, hd, hc⟩
    exact (h2 d hd).2 hc

/-- **C17**: promotion can be done in stages: grouping the arguments does not matter. -/
theorem C17_common_append (ds es : List Dtype) (a b : Dtype) (ha : common ds = some a)
    (hb : common es = some b) : common (ds ++ es) = common [a, b] := by
  have hne : ds ≠ [] := by rintro rfl; simp [common] at ha
  have hne' : es ≠ [] := by rintro rfl; simp [common] at hb
  obtain ⟨r, h1, h2, h3⟩ := C17_common_is_lub ds hne
  obtain ⟨r', h1', h2', h3'⟩ := C17_common_is_lub es hne'
  obtain rfl : r = a := by rw [ha] at h1; exact (Option.some.inj h1).symm
  obtain rfl : r' = b := by rw [hb] at h1'; exact (Option.some.inj h1').symm
  obtain ⟨s, k1, k2, k3⟩ := C17_common_is_lub (ds ++ es) (by simp [hne])
  obtain ⟨t, l1, l2, l3⟩ := C17_common_is_lub [r, r'] (by simp)
  rw [k1, l1]
  have trans : ∀ {x y z : Dtype}, DtypeBelow x y → DtypeBelow y z → DtypeBelow x z :=
    fun p q => ⟨Nat.le_trans p.1 q.1, fun h => q.2 (p.2 h)⟩
  refine congrArg some (dtypeBelow_antisymm (k3 t ?_) (l3 s ?_))
  · intro d hd
    rcases List.mem_append.1 hd with hd | hd
    · exact trans (h2 d hd) (l2 r (by simp))
    · exact trans (h2' d hd) (l2 r' (by simp))
  · intro d hd
    simp only [List.mem_cons, List.not_mem_nil, or_false] at hd
    rcases hd with rfl | rfl
    · exact h3 s fun d hd => k2 d (by simp [hd])
    · exact h3' s fun d hd => k2 d (by simp [hd])

/-- **C17**: `to_complex` and `to_real` stay at the same precision, give a complex resp. real
dtype, and fail exactly on booleans and integers. -/
theorem C17_to_complex_to_real (d : Dtype) :
    (toComplex d = none ↔ dtypeKind d < 2) ∧ (toReal d = none ↔ dtypeKind d < 2) ∧
    (∀ c, toComplex d = some c → IsComplexDtype c ∧ dtypeKind c = dtypeKind d) ∧
    (∀ c, toReal d = some c → ¬ IsComplexDtype c ∧ dtypeKind c = dtypeKind d) ∧
    (epsExp d = none ↔ dtypeKind d < 2) := by
  cases d <;> refine ⟨by decide, by decide, ?_, ?_, by decide⟩ <;> intro c <;> cases c <;> decide

-- the hypotheses are met: a mixed list, promoted beyond each of its members
example : common [.complex64, .bool, .float64, .complex64] = some .complex128 := by decide
example : common [.int64, .float32] = some .float32 := by decide
example : common [] = none := by decide

end Cyten.Props
