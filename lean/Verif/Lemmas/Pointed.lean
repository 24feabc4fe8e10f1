import Verif.Spec.Category
import Mathlib.Tactic.Ring

/-! Reduction of the category equations for pointed (abelian) fusion rules. -/

namespace Cyten.Spec.Cat
variable {S K : Type} [DecidableEq S] [CommRing K] [StarRing K]

/-- `A` has a unique fusion outcome `m a b`, which makes the valid sectors an abelian group. -/
structure Pointed (A : Cat S K) (m : S → S → S) : Prop where
  out_eq : ∀ a b, A.valid a → A.valid b → A.out a b = [m a b]
  unit_valid : A.valid A.unit
  closed : ∀ a b, A.valid a → A.valid b → A.valid (m a b)
  one_mul : ∀ a, A.valid a → m A.unit a = a
  comm : ∀ a b, A.valid a → A.valid b → m a b = m b a
  assoc : ∀ a b c, A.valid a → A.valid b → A.valid c → m (m a b) c = m a (m b c)
  dual_valid : ∀ a, A.valid a → A.valid (A.dual a)
  dual_mul : ∀ a, A.valid a → m a (A.dual a) = A.unit

variable {A : Cat S K} {m : S → S → S}

namespace Pointed

theorem dual_unique (h : Pointed A m) {a b} (ha : A.valid a) (hb : A.valid b)
    (e : m a b = A.unit) : b = A.dual a := by
  have hd := h.dual_valid a ha
  calc b = m A.unit b := (h.one_mul b hb).symm
    _ = m (m a (A.dual a)) b := by rw [h.dual_mul a ha]
    _ = m (m (A.dual a) a) b := by rw [h.comm a _ ha hd]
    _ = m (A.dual a) (m a b) := h.assoc _ _ _ hd ha hb
    _ = m (A.dual a) A.unit := by rw [e]
    _ = m A.unit (A.dual a) := h.comm _ _ hd h.unit_valid
    _ = A.dual a := h.one_mul _ hd

theorem fusionRing (h : Pointed A m) : A.FusionRing where
  unit_valid := h.unit_valid
  closed := by
    intro a b ha hb c hc
    rw [h.out_eq a b ha hb] at hc
    simp only [List.mem_singleton] at hc
    exact hc ▸ h.closed a b ha hb
  nodup := by intro a b ha hb; rw [h.out_eq a b ha hb]; simp
  unit_left := by intro a ha; rw [h.out_eq _ _ h.unit_valid ha, h.one_mul a ha]
  unit_right := by
    intro a ha; rw [h.out_eq _ _ ha h.unit_valid, h.comm _ _ ha h.unit_valid, h.one_mul a ha]
  comm := by
    intro a b ha hb c
    rw [h.out_eq _ _ ha hb, h.out_eq _ _ hb ha, h.comm a b ha hb]
  assoc := by
    intro a b c d ha hb hc hd
    rw [h.out_eq _ _ ha hb, h.out_eq _ _ hb hc]
    simp only [List.filter_cons, List.filter_nil,
      h.out_eq _ _ (h.closed _ _ ha hb) hc, h.out_eq _ _ ha (h.closed _ _ hb hc),
      List.mem_singleton, h.assoc a b c ha hb hc]
    split <;> rfl
  dual_valid := h.dual_valid
  dual_dual := by
    intro a ha
    symm
    apply h.dual_unique (h.dual_valid a ha) ha
    rw [h.comm _ _ (h.dual_valid a ha) ha, h.dual_mul a ha]
  dual_iff := by
    intro a b ha hb
    rw [h.out_eq _ _ ha hb, List.mem_singleton]
    constructor
    · intro e; exact h.dual_unique ha hb e.symm
    · rintro rfl; exact (h.dual_mul a ha).symm

/-- Equations on the reduced symbols that imply all category equations. -/
theorem unitaryBraided (h : Pointed A m) (f : S → S → S → K) (r : S → S → K)
    (hf : ∀ a b c, A.valid a → A.valid b → A.valid c →
      A.F a b c (m (m a b) c) (m b c) (m a b) = f a b c)
    (hr : ∀ a b, A.valid a → A.valid b → A.R a b (m a b) = r a b)
    (hC : ∀ a b c, A.valid a → A.valid b → A.valid c →
      A.C a b c (m (m a b) c) (m a b) (m a c) = r (m a b) c * f c a b * star (r a c))
    (fu : ∀ a b c, A.valid a → A.valid b → A.valid c → f a b c * star (f a b c) = 1)
    (ru : ∀ a b, A.valid a → A.valid b → r a b * star (r a b) = 1)
    (pent : ∀ a b c d, A.valid a → A.valid b → A.valid c → A.valid d →
      f (m a b) c d * f a b (m c d) = f a b c * f a (m b c) d * f b c d)
    (hex : ∀ a b c, A.valid a → A.valid b → A.valid c →
      r c a * f a c b * r c b = f c a b * r c (m a b) * f a b c)
    (hex' : ∀ a b c, A.valid a → A.valid b → A.valid c →
      star (r a c) * f a c b * star (r b c) = f c a b * star (r (m a b) c) * f a b c) :
    A.UnitaryBraided := by
  have cl := h.closed
  have oe := h.out_eq
  have as := h.assoc
  -- membership in an outcome list is an equation
  have mem : ∀ {a b c}, A.valid a → A.valid b → c ∈ A.out a b → c = m a b := by
    intro a b c ha hb hc
    rw [oe a b ha hb] at hc
    simpa using hc
  have hchL : ∀ a b c d, A.valid a → A.valid b → A.valid c →
      ∀ x ∈ A.chL a b c d, x = m a b ∧ d = m (m a b) c := by
    intro a b c d ha hb hc x hx
    simp only [chL, List.mem_filter, decide_eq_true_eq] at hx
    have := mem ha hb hx.1
    subst this
    exact ⟨rfl, mem (cl _ _ ha hb) hc hx.2⟩
  have hchR : ∀ a b c d, A.valid a → A.valid b → A.valid c →
      ∀ x ∈ A.chR a b c d, x = m b c ∧ d = m a (m b c) := by
    intro a b c d ha hb hc x hx
    simp only [chR, List.mem_filter, decide_eq_true_eq] at hx
    have := mem hb hc hx.1
    subst this
    exact ⟨rfl, mem ha (cl _ _ hb hc) hx.2⟩
  have chL_eq : ∀ a b c, A.valid a → A.valid b → A.valid c →
      A.chL a b c (m (m a b) c) = [m a b] := by
    intro a b c ha hb hc
    simp [chL, oe a b ha hb, oe _ _ (cl _ _ ha hb) hc]
  have chR_eq : ∀ a b c, A.valid a → A.valid b → A.valid c →
      A.chR a b c (m (m a b) c) = [m b c] := by
    intro a b c ha hb hc
    simp [chR, oe b c hb hc, oe _ _ ha (cl _ _ hb hc), as a b c ha hb hc]
  refine ⟨h.fusionRing, ?_, ⟨?_, ?_⟩, ?_, ?_, ?_, ?_⟩
  · intro a b c ha hb hc
    rw [mem ha hb hc, hr a b ha hb]
    exact ru a b ha hb
  · intro a b c d ha hb hc hd x hx y hy
    obtain ⟨rfl, rfl⟩ := hchL a b c d ha hb hc x hx
    obtain ⟨rfl, _⟩ := hchL a b c _ ha hb hc y hy
    simp [chR_eq a b c ha hb hc, hf a b c ha hb hc, fu a b c ha hb hc]
  · intro a b c d ha hb hc hd x hx y hy
    obtain ⟨rfl, hd'⟩ := hchR a b c d ha hb hc x hx
    obtain ⟨rfl, _⟩ := hchR a b c _ ha hb hc y hy
    rw [← as a b c ha hb hc] at hd'
    subst hd'
    have := fu a b c ha hb hc
    rw [mul_comm] at this
    simp [chL_eq a b c ha hb hc, hf a b c ha hb hc, this]
  · intro a b c d ha hb hc hd x hx g hg e he j hj i hi h1 h2
    have hab := cl _ _ ha hb
    have hbc := cl _ _ hb hc
    have hcd := cl _ _ hc hd
    have := mem ha hb hx; subst this
    have := mem hab hc hg; subst this
    have habc := cl _ _ hab hc
    have := mem habc hd he; subst this
    have := mem hc hd hj; subst this
    have := mem hb hcd hi; subst this
    have e1 : m (m (m a b) c) d = m (m a b) (m c d) := as _ _ _ hab hc hd
    have e2 : m a (m b c) = m (m a b) c := (as _ _ _ ha hb hc).symm
    have e3 : m b (m c d) = m (m b c) d := (as _ _ _ hb hc hd).symm
    have e4 : m (m (m a b) c) d = m (m a (m b c)) d := by rw [e2]
    have hfil : ((A.out b c).filter fun h => m (m a b) c ∈ A.out a h ∧ m b (m c d) ∈ A.out h d)
        = [m b c] := by
      simp [oe b c hb hc, oe _ _ ha hbc, oe _ _ hbc hd, e2, e3]
    rw [hfil]
    simp only [List.map_cons, List.map_nil, List.sum_cons, List.sum_nil, add_zero]
    rw [hf _ _ _ hab hc hd, e1, hf _ _ _ ha hb hcd, hf _ _ _ ha hb hc, ← e1, e4, e3, ← e2,
      hf _ _ _ ha hbc hd, hf _ _ _ hb hc hd]
    exact pent a b c d ha hb hc hd
  · intro a b c d ha hb hc hd e he hd' g hg hdg
    have := mem hc ha he; subst this
    have := mem (cl _ _ hc ha) hb hd'; subst this
    have := mem hc hb hg; subst this
    have hab := cl _ _ ha hb
    have e1 : m (m c a) b = m (m a c) b := by rw [h.comm _ _ hc ha]
    have e2 : m (m c a) b = m c (m a b) := as _ _ _ hc ha hb
    have e3 : m (m c a) b = m (m a b) c := by rw [e2, h.comm _ _ hc hab]
    have hfil : ((A.out a b).filter fun f => m (m c a) b ∈ A.out c f) = [m a b] := by
      simp [oe a b ha hb, oe _ _ hc hab, e2]
    rw [hfil]
    simp only [List.map_cons, List.map_nil, List.sum_cons, List.sum_nil, add_zero]
    have q1 : A.F a c b (m (m c a) b) (m c b) (m c a) = f a c b := by
      rw [e1, h.comm c a hc ha]; exact hf _ _ _ ha hc hb
    have q2 : A.F a b c (m (m c a) b) (m c b) (m a b) = f a b c := by
      rw [e3, h.comm c b hc hb]; exact hf _ _ _ ha hb hc
    rw [q1, q2, hf _ _ _ hc ha hb, hr _ _ hc ha, hr _ _ hc hb, e2, hr _ _ hc hab]
    exact hex a b c ha hb hc
  · intro a b c d ha hb hc hd e he hd' g hg hdg
    have := mem hc ha he; subst this
    have := mem (cl _ _ hc ha) hb hd'; subst this
    have := mem hc hb hg; subst this
    have hab := cl _ _ ha hb
    have e1 : m (m c a) b = m (m a c) b := by rw [h.comm _ _ hc ha]
    have e2 : m (m c a) b = m c (m a b) := as _ _ _ hc ha hb
    have e3 : m (m c a) b = m (m a b) c := by rw [e2, h.comm _ _ hc hab]
    have hfil : ((A.out a b).filter fun f => m (m c a) b ∈ A.out c f) = [m a b] := by
      simp [oe a b ha hb, oe _ _ hc hab, e2]
    rw [hfil]
    simp only [List.map_cons, List.map_nil, List.sum_cons, List.sum_nil, add_zero]
    have q1 : A.F a c b (m (m c a) b) (m c b) (m c a) = f a c b := by
      rw [e1, h.comm c a hc ha]; exact hf _ _ _ ha hc hb
    have q2 : A.F a b c (m (m c a) b) (m c b) (m a b) = f a b c := by
      rw [e3, h.comm c b hc hb]; exact hf _ _ _ ha hb hc
    have q3 : A.R a c (m c a) = r a c := by rw [h.comm c a hc ha]; exact hr _ _ ha hc
    have q4 : A.R b c (m c b) = r b c := by rw [h.comm c b hc hb]; exact hr _ _ hb hc
    have q5 : A.R (m a b) c (m (m c a) b) = r (m a b) c := by rw [e3]; exact hr _ _ hab hc
    rw [q1, q2, hf _ _ _ hc ha hb, q3, q4, q5]
    exact hex' a b c ha hb hc
  · intro a b c d e x ha hb hc hd he hde hx hdx
    have := mem ha hb he; subst this
    have hab := cl _ _ ha hb
    have := mem hab hc hde; subst this
    have := mem ha hc hx; subst this
    rw [hC _ _ _ ha hb ‹A.valid c›, hr _ _ hab ‹A.valid c›, hr _ _ ha ‹A.valid c›]
    congr 2
    have e2 : m (m c a) b = m (m a b) c := by
      rw [as _ _ _ ‹A.valid c› ha hb, h.comm _ _ ‹A.valid c› hab]
    have := hf c a b ‹A.valid c› ha hb
    rw [e2, h.comm c a ‹A.valid c› ha] at this
    exact this.symm

end Pointed
end Cyten.Spec.Cat
