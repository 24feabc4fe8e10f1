import Verif.Lemmas.CatBraid
import Verif.Props.AbelianSym

/-!
# C06 for concrete symmetries
-/

namespace Cyten.Props
open Cyten Cyten.Spec

/-- **C06** for every multiplicity-free unitary braided category: braiding back and forth is the
identity (all trees over valid sectors, any position, either order, no cutoff). -/
theorem C06_braid_inverse_category {S : Type} [DecidableEq S] (A : Cat S ℂ) (hA : A.UnitaryBraided)
    (ab : Bool) (qdim : S → ℝ) (fs : S → ℤ) (θ : S → ℂ)
    (t : FusionTree {a // A.valid a}) (h : t.Sane (catRule A hA.ring ab)) (j : Nat)
    (hj : j + 1 < t.uncoupled.length) (ov cj : Bool) :
    ∃ l, t.braid (catRule A hA.ring ab) (catTopo A hA.ring qdim fs θ) j ov 0 cj = some l ∧
      ∀ t', coeffOf (bindLC l fun s =>
        (s.braid (catRule A hA.ring ab) (catTopo A hA.ring qdim fs θ) j (!ov) 0 cj).getD []) t' =
          if t = t' then 1 else 0 := by
  obtain ⟨l, h1, _, h3⟩ := C06_braid_inverse (catRule A hA.ring ab) (catRule_lawful hA.ring ab)
    (catTopo A hA.ring qdim fs θ) (catTopo_unitary hA ab qdim fs θ) t h j hj ov cj 0
    (by intro a b c d e f m n k l hlt; exact absurd hlt (not_lt.2 (norm_nonneg _)))
  exact ⟨l, h1, h3⟩

/-- The odd fermion sector. -/
def fOdd : {a // FermionParity.cat.valid a} := ⟨1, by simp [FermionParity.cat]⟩

/-- Non-vacuity: three odd fermions fusing (via the vacuum) to an odd fermion form a sane tree, so
`C06_braid_inverse_category` applies to both of its braids … -/
example : FusionTree.Sane (catRule FermionParity.cat C11_fermion_parity.ring true)
    ⟨[fOdd, fOdd, fOdd], fOdd, [false, true, false], [⟨0, by simp [FermionParity.cat]⟩], [0, 0]⟩ where
  len_dual := rfl
  len_inner := rfl
  len_mult := rfl
  zero_legs := by simp
  one_leg := by simp
  vertices := by
    intro n hn
    have hn' : n = 0 ∨ n = 1 := by simp at hn; omega
    rcases hn' with rfl | rfl
    · refine ⟨_, _, _, _, rfl, ?_, ?_⟩ <;> rw [nSymbol_catRule] <;>
        simp [FermionParity.cat, fOdd] <;> decide +kernel
    · refine ⟨_, _, _, _, rfl, ?_, ?_⟩ <;> rw [nSymbol_catRule] <;>
        simp [FermionParity.cat, fOdd] <;> decide +kernel

/-- … and the exchange sign of two odd fermions is `-1`. -/
example : FermionParity.cat.R 1 1 0 = -1 := by
  norm_num [FermionParity.cat, FermionParity.sign]

end Cyten.Props
