import Verif.Spec.Category
import Verif.Model.TreesBraid
import Verif.Lemmas.TreesBraid
import Verif.Props.TreesBraid
import Mathlib.Tactic.LinearCombination

/-! From the symbols of a multiplicity-free unitary braided category to the fusion rule and
topological data on valid sectors used by the tree code. -/

namespace Cyten
open Spec Spec.Cat
open scoped ComplexConjugate

variable {S : Type} [DecidableEq S]

/-- The fusion rule on the type of valid sectors. -/
def catRule (A : Cat S ℂ) (h : A.FusionRing) (isAbelian : Bool) : FusionRule {a // A.valid a} where
  unit := ⟨A.unit, h.unit_valid⟩
  outcomes a b := (A.out a.1 b.1).pmap Subtype.mk (fun c hc => h.closed a.1 b.1 a.2 b.2 c hc)
  rawN _ _ _ := 1
  isAbelian := isAbelian

/-- The topological data on the type of valid sectors; `b_symbol` is
`BaseSymmetry::_b_symbol`, `/repo/src/symmetries/base_symmetry.cpp:398-404`. -/
noncomputable def catTopo (A : Cat S ℂ) (h : A.FusionRing) (qdim : S → ℝ) (fs : S → ℤ) (θ : S → ℂ) :
    TopoData {a // A.valid a} where
  rSym a b c _ := A.R a.1 b.1 c.1
  cSym a b c d e f _ _ _ _ := A.C a.1 b.1 c.1 d.1 e.1 f.1
  fSym a b c d e f _ _ _ _ := A.F a.1 b.1 c.1 d.1 e.1 f.1
  bSym a b c _ _ := conj (A.F a.1 b.1 (A.dual b.1) a.1 A.unit c.1) * (Real.sqrt (qdim b.1) : ℂ)
  sqrtQdim a := Real.sqrt (qdim a.1)
  frobSchur a := fs a.1
  twist a := θ a.1
  dual a := ⟨A.dual a.1, h.dual_valid a.1 a.2⟩

variable {A : Cat S ℂ}

theorem mem_catRule (h : A.FusionRing) (ab : Bool) (a b c : {a // A.valid a}) :
    c ∈ (catRule A h ab).outcomes a b ↔ c.1 ∈ A.out a.1 b.1 := by
  simp only [catRule, List.mem_pmap]
  constructor
  · rintro ⟨x, hx, rfl⟩; exact hx
  · intro hc; exact ⟨c.1, hc, rfl⟩

theorem canFuse_catRule (h : A.FusionRing) (ab : Bool) (a b c : {a // A.valid a}) :
    (catRule A h ab).canFuseTo a b c = decide (c.1 ∈ A.out a.1 b.1) := by
  rw [Bool.eq_iff_iff]
  simp only [FusionRule.canFuseTo, List.any_eq_true, beq_iff_eq, decide_eq_true_eq]
  rw [← mem_catRule h ab]
  constructor
  · rintro ⟨x, hx, rfl⟩; exact hx
  · intro hc; exact ⟨c, hc, rfl⟩

theorem nSymbol_catRule (h : A.FusionRing) (ab : Bool) (a b c : {a // A.valid a}) :
    (catRule A h ab).nSymbol a b c = if c.1 ∈ A.out a.1 b.1 then 1 else 0 := by
  unfold FusionRule.nSymbol
  rw [canFuse_catRule]
  simp only [decide_eq_true_eq]
  rfl

theorem catRule_lawful (h : A.FusionRing) (ab : Bool) : (catRule A h ab).Lawful where
  nodup a b := by
    apply List.Nodup.pmap _ (h.nodup a.1 b.1 a.2 b.2)
    intro x _ y _ e
    simpa using e
  rawN_pos _ _ _ _ := Nat.one_pos
  abelian_one _ _ _ _ _ := rfl

/-- Sums over channels are sums over `chL`. -/
theorem sum_channels (h : A.FusionRing) (ab : Bool) (a c b d : {a // A.valid a})
    (g : S → ℂ) :
    (((catRule A h ab).channels a c b d).map fun z => g z.1.1).sum =
      ((A.chL a.1 c.1 b.1 d.1).map g).sum := by
  have hch : ((catRule A h ab).channels a c b d).map (fun z => z.1.1) =
      A.chL a.1 c.1 b.1 d.1 := by
    unfold FusionRule.channels chL
    have key : ∀ (l : List S) (hl : ∀ x ∈ l, A.valid x) (hm : ∀ x ∈ l, x ∈ A.out a.1 c.1),
        (((l.pmap Subtype.mk hl).filter
          fun f => (catRule A h ab).canFuseTo f b d).flatMap fun f =>
            (List.range ((catRule A h ab).nSymbol a c f)).flatMap fun kappa =>
              (List.range ((catRule A h ab).nSymbol f b d)).map fun lam =>
                (f, kappa, lam)).map (fun z => z.1.1) =
          l.filter fun f => d.1 ∈ A.out f b.1 := by
      intro l
      induction l with
      | nil => intro _ _; rfl
      | cons x l ih =>
        intro hl hm
        have ih' := ih (fun y hy => hl y (List.mem_cons_of_mem _ hy))
          (fun y hy => hm y (List.mem_cons_of_mem _ hy))
        rw [List.pmap_cons, List.filter_cons, List.filter_cons, canFuse_catRule]
        by_cases hd : d.1 ∈ A.out x b.1
        · simp only [hd, decide_true, if_true, List.flatMap_cons, List.map_append,
            nSymbol_catRule, hm x (by simp)]
          simp only [nSymbol_catRule] at ih'
          simpa using ih'
        · simp only [hd, decide_false]
          simpa using ih'
    exact key (A.out a.1 c.1) _ (fun x hx => hx)
  rw [← hch, List.map_map]
  rfl

theorem mem_channels_chL (h : A.FusionRing) (ab : Bool) (a c b d : {a // A.valid a})
    (x : {a // A.valid a} × Nat × Nat) (hx : x ∈ (catRule A h ab).channels a c b d) :
    x.1.1 ∈ A.chL a.1 c.1 b.1 d.1 ∧ x.2.1 = 0 ∧ x.2.2 = 0 := by
  have hx' := (mem_channels (R := catRule A h ab) (a := a) (c := c) (b := b) (d := d)
    (f := x.1) (k := x.2.1) (l := x.2.2)).1 hx
  rw [nSymbol_catRule, nSymbol_catRule] at hx'
  obtain ⟨h1, h2⟩ := hx'
  split at h1
  · split at h2
    · rename_i q1 q2
      refine ⟨?_, by omega, by omega⟩
      simp only [chL, List.mem_filter, decide_eq_true_eq]
      exact ⟨q1, q2⟩
    · omega
  · omega

/-- Unitarity of the braiding (in the sense needed by C06) for every multiplicity-free unitary
braided category. -/
theorem catTopo_unitary (hA : A.UnitaryBraided) (ab : Bool) (qdim : S → ℝ) (fs : S → ℤ)
    (θ : S → ℂ) :
    Props.BraidUnitary (catRule A hA.ring ab) (catTopo A hA.ring qdim fs θ) := by
  have hring := hA.ring
  -- list identifications
  have eqR : ∀ a b c d, A.valid a → A.valid b → A.valid c → A.valid d →
      A.chL a b c d = A.chR c a b d := by
    intro a b c d ha hb hc hd
    unfold chL chR
    apply List.filter_congr
    intro x hx
    have hv := hring.closed a b ha hb x hx
    simp only [hring.comm x c hv hc d]
  have permL : ∀ a b c d, A.valid a → A.valid b → A.valid c → A.valid d →
      (A.chL a c b d).Perm (A.chL c a b d) := by
    intro a b c d ha hb hc hd
    unfold chL
    apply List.Perm.filter
    exact (List.perm_ext_iff_of_nodup (hring.nodup a c ha hc) (hring.nodup c a hc ha)).2
      (fun x => hring.comm a c ha hc x)
  -- C in terms of F and R
  have hCval : ∀ a b c d e f, A.valid a → A.valid b → A.valid c → A.valid d →
      e ∈ A.chL a b c d → f ∈ A.chL a c b d →
      A.C a b c d e f = A.R e c d * A.F c a b d e f * star (A.R a c f) := by
    intro a b c d e f ha hb hc hd he hf
    simp only [chL, List.mem_filter, decide_eq_true_eq] at he hf
    exact hA.cFromFR a b c d e f ha hb hc hd he.1 he.2 hf.1 hf.2
  have rphase : ∀ a b c, A.valid a → A.valid b → c ∈ A.out a b →
      A.R a b c * star (A.R a b c) = 1 := fun a b c => hA.rPhase a b c
  constructor
  · intro a b c
    rw [nSymbol_catRule, nSymbol_catRule]
    simp only [hring.comm a.1 b.1 a.2 b.2 c.1]
  · intro a b c mu hmu
    rw [nSymbol_catRule] at hmu
    split at hmu
    · exact rphase a.1 b.1 c.1 a.2 b.2 ‹_›
    · omega
  · intro a b c d x y hx hy
    obtain ⟨hx1, hx2, hx3⟩ := mem_channels_chL hring ab a b c d x hx
    obtain ⟨hy1, hy2, hy3⟩ := mem_channels_chL hring ab a b c d y hy
    have h1 := sum_channels hring ab a c b d (fun z => A.C a.1 b.1 c.1 d.1 x.1.1 z *
      conj (A.C a.1 b.1 c.1 d.1 y.1.1 z))
    show (((catRule A hring ab).channels a c b d).map fun z => A.C a.1 b.1 c.1 d.1 x.1.1 z.1.1 *
      conj (A.C a.1 b.1 c.1 d.1 y.1.1 z.1.1)).sum = _
    rw [h1]
    have hxm := hx1
    have hym := hy1
    simp only [chL, List.mem_filter, decide_eq_true_eq] at hxm hym
    have hxv := hring.closed _ _ a.2 b.2 _ hxm.1
    have hyv := hring.closed _ _ a.2 b.2 _ hym.1
    have step : ((A.chL a.1 c.1 b.1 d.1).map fun z => A.C a.1 b.1 c.1 d.1 x.1.1 z *
        conj (A.C a.1 b.1 c.1 d.1 y.1.1 z)) =
        (A.chL a.1 c.1 b.1 d.1).map fun z => (A.R x.1.1 c.1 d.1 * star (A.R y.1.1 c.1 d.1)) *
          (star (A.F c.1 a.1 b.1 d.1 y.1.1 z) * A.F c.1 a.1 b.1 d.1 x.1.1 z) := by
      apply List.map_congr_left
      intro z hz
      rw [hCval _ _ _ _ _ _ a.2 b.2 c.2 d.2 hx1 hz, hCval _ _ _ _ _ _ a.2 b.2 c.2 d.2 hy1 hz]
      have hz' := hz
      simp only [chL, List.mem_filter, decide_eq_true_eq] at hz'
      have := rphase a.1 c.1 z a.2 c.2 hz'.1
      simp only [← Complex.star_def, star_mul', star_star]
      linear_combination (A.R x.1.1 c.1 d.1 * star (A.R y.1.1 c.1 d.1) *
          (star (A.F c.1 a.1 b.1 d.1 y.1.1 z) * A.F c.1 a.1 b.1 d.1 x.1.1 z)) * this
    rw [step, List.sum_map_mul_left,
      ((permL a.1 b.1 c.1 d.1 a.2 b.2 c.2 d.2).map _).sum_eq,
      hA.fUnitary.cols c.1 a.1 b.1 d.1 c.2 a.2 b.2 d.2 y.1.1
        (by rw [← eqR _ _ _ _ a.2 b.2 c.2 d.2]; exact hy1) x.1.1
        (by rw [← eqR _ _ _ _ a.2 b.2 c.2 d.2]; exact hx1)]
    by_cases hxy : x = y
    · subst hxy
      simp only [if_true, mul_one]
      exact rphase _ _ _ hxv c.2 hxm.2
    · have : ¬ (y.1.1 = x.1.1) := by
        intro e
        apply hxy
        refine Prod.ext (Subtype.ext e.symm) (Prod.ext ?_ ?_)
        · rw [hx2, hy2]
        · rw [hx3, hy3]
      rw [if_neg this, if_neg hxy, mul_zero]
  · intro a b c d x y hx hy
    obtain ⟨hx1, hx2, hx3⟩ := mem_channels_chL hring ab a c b d x hx
    obtain ⟨hy1, hy2, hy3⟩ := mem_channels_chL hring ab a c b d y hy
    have h1 := sum_channels hring ab a b c d (fun z => conj (A.C a.1 b.1 c.1 d.1 z x.1.1) *
      (A.C a.1 b.1 c.1 d.1 z y.1.1))
    show (((catRule A hring ab).channels a b c d).map fun z =>
      conj (A.C a.1 b.1 c.1 d.1 z.1.1 x.1.1) * (A.C a.1 b.1 c.1 d.1 z.1.1 y.1.1)).sum = _
    rw [h1]
    have hxm := hx1
    have hym := hy1
    simp only [chL, List.mem_filter, decide_eq_true_eq] at hxm hym
    have step : ((A.chL a.1 b.1 c.1 d.1).map fun z => conj (A.C a.1 b.1 c.1 d.1 z x.1.1) *
        (A.C a.1 b.1 c.1 d.1 z y.1.1)) =
        (A.chL a.1 b.1 c.1 d.1).map fun z => (A.R a.1 c.1 x.1.1 * star (A.R a.1 c.1 y.1.1)) *
          (A.F c.1 a.1 b.1 d.1 z y.1.1 * star (A.F c.1 a.1 b.1 d.1 z x.1.1)) := by
      apply List.map_congr_left
      intro z hz
      rw [hCval _ _ _ _ _ _ a.2 b.2 c.2 d.2 hz hx1, hCval _ _ _ _ _ _ a.2 b.2 c.2 d.2 hz hy1]
      have hz' := hz
      simp only [chL, List.mem_filter, decide_eq_true_eq] at hz'
      have hzv := hring.closed _ _ a.2 b.2 _ hz'.1
      have := rphase z c.1 d.1 hzv c.2 hz'.2
      simp only [← Complex.star_def, star_mul', star_star]
      linear_combination ((A.R a.1 c.1 x.1.1 * star (A.R a.1 c.1 y.1.1)) *
          (A.F c.1 a.1 b.1 d.1 z y.1.1 * star (A.F c.1 a.1 b.1 d.1 z x.1.1))) * this
    rw [step, List.sum_map_mul_left, eqR _ _ _ _ a.2 b.2 c.2 d.2,
      hA.fUnitary.rows c.1 a.1 b.1 d.1 c.2 a.2 b.2 d.2 y.1.1
        ((permL _ _ _ _ a.2 b.2 c.2 d.2).mem_iff.1 hy1) x.1.1
        ((permL _ _ _ _ a.2 b.2 c.2 d.2).mem_iff.1 hx1)]
    by_cases hxy : x = y
    · subst hxy
      simp only [if_true, mul_one]
      exact rphase _ _ _ a.2 c.2 hxm.1
    · have : ¬ (y.1.1 = x.1.1) := by
        intro e
        apply hxy
        refine Prod.ext (Subtype.ext e.symm) (Prod.ext ?_ ?_)
        · rw [hx2, hy2]
        · rw [hx3, hy3]
      rw [if_neg this, if_neg hxy, mul_zero]

end Cyten
