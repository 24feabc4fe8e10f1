import Mathlib.Algebra.BigOperators.Group.List.Lemmas
import Mathlib.Algebra.BigOperators.Ring.List
import Mathlib.Tactic.Abel

/-! # Sums over lists -/

namespace Cyten.ListSum
variable {α β M : Type} [AddCommMonoid M]

theorem sum_zero (l : List α) (f : α → M) (h : ∀ x ∈ l, f x = 0) : (l.map f).sum = 0 := by
  rw [List.map_congr_left h]; simp

theorem sum_congr (l : List α) {f g : α → M} (h : ∀ x ∈ l, f x = g x) :
    (l.map f).sum = (l.map g).sum := by
  rw [List.map_congr_left h]

theorem sum_add (l : List α) (f g : α → M) :
    (l.map fun x => f x + g x).sum = (l.map f).sum + (l.map g).sum := by
  induction l with
  | nil => simp
  | cons x l ih => simp only [List.map_cons, List.sum_cons, ih]; abel

theorem sum_comm (l : List α) (m : List β) (f : α → β → M) :
    (l.map fun x => (m.map fun y => f x y).sum).sum =
      (m.map fun y => (l.map fun x => f x y).sum).sum := by
  induction l with
  | nil => simp
  | cons x l ih => simp only [List.map_cons, List.sum_cons, ih, sum_add]

theorem sum_single (l : List α) [DecidableEq α] (hnd : l.Nodup) (a : α) (f : α → M) :
    (l.map fun x => if a = x then f x else 0).sum = if a ∈ l then f a else 0 := by
  induction l with
  | nil => simp
  | cons x l ih =>
    rw [List.nodup_cons] at hnd
    rw [List.map_cons, List.sum_cons, ih hnd.2]
    by_cases h : a = x
    · subst h
      rw [if_pos rfl, if_neg hnd.1, add_zero, if_pos List.mem_cons_self]
    · rw [if_neg h, zero_add]
      simp [h]

theorem sum_single' (l : List α) [DecidableEq α] (hnd : l.Nodup) (a : α) (ha : a ∈ l) (f : α → M)
    (hf : ∀ x ∈ l, x ≠ a → f x = 0) : (l.map f).sum = f a := by
  rw [← if_pos (c := a ∈ l) ha (t := f a) (e := 0), ← sum_single l hnd a f]
  refine sum_congr l fun x hx => ?_
  by_cases h : a = x
  · rw [if_pos h]
  · rw [if_neg h, hf x hx (Ne.symm h)]

theorem sum_ite (l : List α) (c : Prop) [Decidable c] (f : α → M) :
    (l.map fun x => if c then f x else 0).sum = if c then (l.map f).sum else 0 := by
  by_cases h : c
  · simp [h]
  · simp [h]

theorem sum_flatMap (l : List α) (g : α → List β) (f : β → M) :
    ((l.flatMap g).map f).sum = (l.map fun x => ((g x).map f).sum).sum := by
  induction l with
  | nil => simp
  | cons x l ih => simp [ih]

theorem sum_filterMap (l : List α) (g : α → Option β) (f : β → M) :
    ((l.filterMap g).map f).sum = (l.map fun x => ((g x).map f).getD 0).sum := by
  induction l with
  | nil => simp
  | cons x l ih =>
    rw [List.filterMap_cons, List.map_cons, List.sum_cons, ← ih]
    cases h : g x <;> simp

theorem sum_filter (l : List α) (p : α → Bool) (f : α → M) :
    ((l.filter p).map f).sum = (l.map fun x => if p x then f x else 0).sum := by
  induction l with
  | nil => simp
  | cons x l ih =>
    rw [List.filter_cons, List.map_cons, List.sum_cons, ← ih]
    by_cases h : p x <;> simp [h]

theorem foldl_add_eq (l : List M) (a : M) : l.foldl (· + ·) a = a + l.sum := by
  induction l generalizing a with
  | nil => simp
  | cons x l ih => simp [ih, add_assoc]

variable {R : Type} [NonUnitalNonAssocSemiring R]

theorem mul_sum (l : List α) (a : R) (f : α → R) :
    a * (l.map f).sum = (l.map fun x => a * f x).sum := by
  induction l with
  | nil => simp
  | cons x l ih => simp [mul_add, ih]

theorem sum_mul (l : List α) (a : R) (f : α → R) :
    (l.map f).sum * a = (l.map fun x => f x * a).sum := by
  induction l with
  | nil => simp
  | cons x l ih => simp [add_mul, ih]

theorem sum_mul_sum (l : List α) (m : List β) (f : α → R) (g : β → R) :
    (l.map f).sum * (m.map g).sum = (l.map fun x => (m.map fun y => f x * g y).sum).sum := by
  rw [sum_mul]
  exact sum_congr l fun x _ => mul_sum m (f x) g

end Cyten.ListSum
