import Verif.Lemmas.AbelianData
import Mathlib.Data.Rat.Defs
import Mathlib.Algebra.Star.Basic

/-! # Concrete block-sparse tensors, used to show that hypotheses can be met -/

namespace Cyten.Abelian.Example
open Cyten.Tables Cyten.Tools Cyten.Props Spec

/-- decidable form of consistency -/
def saneB {K : Type} (M : List (List ℕ)) (T : Ents K) : Bool :=
  (T.all fun p => p.1.length == M.length &&
    (List.zipWith (fun (x : ℕ) (m : List ℕ) => decide (x < m.length)) p.1 M).all id &&
    (p.2.shape == shapeOf M p.1)) &&
  (T.map Prod.fst).Pairwise (fun r s => decide (r.reverse < s.reverse) = true)

theorem inShape_of_zip {r : List ℕ} {M : List (List ℕ)} (hl : r.length = M.length)
    (h : (List.zipWith (fun (x : ℕ) (m : List ℕ) => decide (x < m.length)) r M).all id = true) :
    InShape r (M.map List.length) := by
  induction r generalizing M with
  | nil => cases M with
    | nil => exact List.Forall₂.nil
    | cons => simp at hl
  | cons x r ih => cases M with
    | nil => simp at hl
    | cons m M =>
      simp only [List.zipWith_cons_cons, List.all_cons, id, Bool.and_eq_true,
        decide_eq_true_eq] at h
      exact List.Forall₂.cons h.1 (ih (by simpa using hl) h.2)

theorem sane_of_saneB {K : Type} {M : List (List ℕ)} {T : Ents K} (h : saneB M T = true) :
    Sane M T := by
  unfold saneB at h
  rw [Bool.and_eq_true, List.all_eq_true, decide_eq_true_eq] at h
  have h1 : ∀ p ∈ T, p.1.length = M.length ∧ InShape p.1 (M.map List.length) ∧
      p.2.shape = shapeOf M p.1 := by
    intro p hp
    have := h.1 p hp
    rw [Bool.and_eq_true, Bool.and_eq_true, beq_iff_eq, beq_iff_eq] at this
    exact ⟨this.1.1, inShape_of_zip this.1.1 this.1.2, this.2⟩
  refine ⟨fun p hp => (h1 p hp).2.1, fun p hp => (h1 p hp).2.2, ?_⟩
  refine List.Pairwise.imp_of_mem (fun {r s} hr hs hrs => ?_) h.2
  obtain ⟨p, hp, rfl⟩ := List.mem_map.1 hr
  obtain ⟨q, hq, rfl⟩ := List.mem_map.1 hs
  exact (rowLt_key (h1 p hp).1 (h1 q hq).1).2 (by simpa using hrs)

instance (r s : List ℕ) : Decidable (InShape r s) :=
  inferInstanceAs (Decidable (List.Forall₂ (· < ·) r s))

/-- multiplicities of two legs with two sectors each -/
def M : List (List ℕ) := [[1, 2], [1, 2]]

/-- blocks at `(0,0)` and `(1,1)` with entries numbered from `s` -/
def T (s : ℤ) : Ents ℤ :=
  [([0, 0], ⟨[1, 1], fun _ => s⟩), ([1, 1], ⟨[2, 2], fun i => s + 2 * i.getD 0 0 + i.getD 1 0⟩)]

/-- only the block at `(1,1)` -/
def U (s : ℤ) : Ents ℤ := [([1, 1], ⟨[2, 2], fun i => s * i.getD 0 0 + i.getD 1 0⟩)]

theorem sane_T (s : ℤ) : Sane M (T s) := sane_of_saneB (by rfl)
theorem sane_U (s : ℤ) : Sane M (U s) := sane_of_saneB (by rfl)

end Cyten.Abelian.Example
