import Verif.Lemmas.ProductSym2

namespace Cyten
open Spec

section
variable {n : ℕ} {A B : Cat (List ℤ) ℂ}

theorem pairs_sum {K : Type} [CommSemiring K] (l m : List (List ℤ))
    (g g1 g2 : List ℤ → K) (hg : ∀ x ∈ l, ∀ y ∈ m, g (x ++ y) = g1 x * g2 y) :
    ((pairs l m).map g).sum = (l.map g1).sum * (m.map g2).sum := by
  have := sum_pairs l m (fun _ => true) (fun _ => true) (fun _ => true) g g1 g2
    (by simp) (fun x hx y hy _ _ => hg x hx y hy)
  simpa using this

theorem cons_qdim (hA : A.FusionRing) (hn : ∀ a, A.valid a → a.length = n) {d1 d2 : List ℤ → ℝ}
    (q1 : A.QdimCharacter d1) (q2 : B.QdimCharacter d2) :
    (consCat n A B).QdimCharacter fun a => d1 (a.take n) * d2 (a.drop n) := by
  constructor
  · intro a ha; exact mul_pos (q1.pos _ ha.1) (q2.pos _ ha.2)
  · have hu := hn _ hA.unit_valid
    show d1 ((A.unit ++ B.unit).take n) * d2 ((A.unit ++ B.unit).drop n) = 1
    rw [List.take_left' hu, List.drop_left' hu, q1.unit, q2.unit, mul_one]
  · intro a b ha hb
    have e : ((consCat n A B).out a b) = pairs (A.out (a.take n) (b.take n))
      (B.out (a.drop n) (b.drop n)) := rfl
    rw [e, pairs_sum _ _ _ d1 d2, ← q1.mul _ _ ha.1 hb.1, ← q2.mul _ _ ha.2 hb.2]
    · ring
    · intro x hx y _
      have hv := cons_out_len hA hn ha.1 hb.1 x hx
      rw [List.take_left' hv, List.drop_left' hv]
  · intro a ha
    have h1 := hn _ (hA.dual_valid _ ha.1)
    simp only [consCat]
    rw [List.take_left' h1, List.drop_left' h1, q1.dual _ ha.1, q2.dual _ ha.2]

theorem cons_ribbon (hA : A.FusionRing) (hn : ∀ a, A.valid a → a.length = n) {d1 d2 : List ℤ → ℝ}
    {t1 t2 : List ℤ → ℂ} (q1 : A.Ribbon d1 t1) (q2 : B.Ribbon d2 t2) :
    (consCat n A B).Ribbon (fun a => d1 (a.take n) * d2 (a.drop n))
      fun a => t1 (a.take n) * t2 (a.drop n) := by
  constructor
  · intro a ha
    have e : ((consCat n A B).out a a) = pairs (A.out (a.take n) (a.take n))
      (B.out (a.drop n) (a.drop n)) := rfl
    rw [e, pairs_sum _ _ _ (fun b => (d1 b : ℂ) * A.R (a.take n) (a.take n) b)
      (fun b => (d2 b : ℂ) * B.R (a.drop n) (a.drop n) b), ← q1.formula _ ha.1, ← q2.formula _ ha.2]
    · push_cast; ring
    · intro x hx y _
      have hv := cons_out_len hA hn ha.1 ha.1 x hx
      simp only [consCat]
      rw [List.take_left' hv, List.drop_left' hv]
      push_cast; ring
  · intro a ha
    rw [star_mul']
    calc _ = (t1 (a.take n) * star (t1 (a.take n))) * (t2 (a.drop n) * star (t2 (a.drop n))) := by
          ring
      _ = 1 := by rw [q1.phase _ ha.1, q2.phase _ ha.2, mul_one]
  · intro a b c ha hb hc
    rw [mem_cons_out hA hn ha.1 hb.1] at hc
    have h1 := q1.balance _ _ _ ha.1 hb.1 hc.1
    have h2 := q2.balance _ _ _ ha.2 hb.2 hc.2
    rw [← h1, ← h2]
    simp only [consCat]; ring
  · intro a ha
    have h1 := hn _ (hA.dual_valid _ ha.1)
    simp only [consCat]
    rw [List.take_left' h1, List.drop_left' h1, q1.dual _ ha.1, q2.dual _ ha.2]

/-- the twist is determined by quantum dimensions and R-symbols -/
theorem ribbon_default {S : Type} [DecidableEq S] (A : Cat S ℂ) (hA : A.FusionRing) {d : S → ℝ}
    {t : S → ℂ} (hd : A.QdimCharacter d)
    (h : A.Ribbon d t) : A.Ribbon d (defaultTwist A d) := by
  have e : ∀ a, A.valid a → defaultTwist A d a = t a := by
    intro a ha
    have h1 : (d a : ℂ) ≠ 0 := by exact_mod_cast (hd.pos a ha).ne'
    unfold defaultTwist
    rw [← h.formula a ha, mul_div_cancel_left₀ _ h1]
  constructor
  · intro a ha; rw [e a ha]; exact h.formula a ha
  · intro a ha; rw [e a ha]; exact h.phase a ha
  · intro a b c ha hb hc
    rw [e a ha, e b hb, e c (hA.closed _ _ ha hb _ hc)]; exact h.balance a b c ha hb hc
  · intro a ha
    rw [e a ha, e _ (hA.dual_valid a ha)]; exact h.dual a ha

end

namespace ProductSym

theorem foldl_max (l : List Factor) (r : ℕ) :
    r ≤ l.foldl (fun s g => if g.style > s then g.style else s) r ∧
    (∀ f ∈ l, f.style ≤ l.foldl (fun s g => if g.style > s then g.style else s) r) := by
  induction l generalizing r with
  | nil => simp
  | cons f l ih =>
    simp only [List.foldl_cons, List.mem_cons]
    obtain ⟨h1, h2⟩ := ih (if f.style > r then f.style else r)
    constructor
    · refine le_trans ?_ h1; split <;> omega
    · rintro g (rfl | hg)
      · refine le_trans ?_ h1; split <;> omega
      · exact h2 g hg

theorem style_le (fs : List Factor) : ∀ f ∈ fs, f.style ≤ maxStyle fs := by
  cases fs with
  | nil => simp
  | cons f fs =>
    intro g hg
    rcases List.mem_cons.1 hg with rfl | h
    · exact (foldl_max fs _).1
    · exact (foldl_max fs _).2 g h

/-- product of the factors' quantum dimensions -/
def qprod (fs : List Factor) (a : List ℤ) : ℝ :=
  ((slices 0 fs).map fun p => p.2.qdim (slice a p)).prod

theorem qprod_cons (f : Factor) (fs : List Factor) (a : List ℤ) :
    qprod (f :: fs) a = f.qdim (a.take f.len) * qprod fs (a.drop f.len) := by
  unfold qprod
  rw [slices_cons]
  simp only [List.map_cons, List.prod_cons, List.map_map, slice_zero, Function.comp_def,
    slice_shift]

theorem slices_mem (k : ℕ) (fs : List Factor) : ∀ p ∈ slices k fs, p.2 ∈ fs := by
  induction fs generalizing k with
  | nil => simp [slices]
  | cons f fs ih =>
    intro p hp
    simp only [slices, List.mem_cons] at hp
    rcases hp with rfl | h
    · simp
    · exact List.mem_cons_of_mem _ (ih _ p h)

/-- `qdim` is the product of the factors' quantum dimensions (also through the abelian shortcut) -/
theorem qdim_eq (fs : List Factor)
    (hs : ∀ f ∈ fs, f.style = 0 → ∀ a, f.cat.valid a → f.qdim a = 1)
    (a : List ℤ) (ha : valid fs a) : qdim fs a = qprod fs a := by
  unfold qdim qprod
  rw [foldl_mul, one_mul]
  split
  · rename_i h
    symm
    apply List.prod_eq_one
    intro x hx
    simp only [List.mem_map] at hx
    obtain ⟨p, hp, rfl⟩ := hx
    have hm := slices_mem 0 fs p hp
    exact hs p.2 hm (by have := style_le fs p.2 hm; omega) _ (ha.2 p hp)
  · rfl

theorem qprod_character (fs : List Factor) (h : ∀ f ∈ fs, f.cat.UnitaryBraidedFR)
    (hn : ∀ f ∈ fs, ∀ a, f.cat.valid a → a.length = f.len)
    (hq : ∀ f ∈ fs, f.cat.QdimCharacter f.qdim) :
    (prodCat fs).QdimCharacter (qprod fs) := by
  induction fs with
  | nil => constructor <;> simp [prodCat, oneCat, qprod, slices]
  | cons f fs ih =>
    have i := ih (fun g hg => h g (by simp [hg])) (fun g hg => hn g (by simp [hg]))
      (fun g hg => hq g (by simp [hg]))
    have := cons_qdim (h f (by simp)).ring (hn f (by simp)) (hq f (by simp)) i
    have e : qprod (f :: fs) = fun a => f.qdim (a.take f.len) * qprod fs (a.drop f.len) :=
      funext (qprod_cons f fs)
    rw [e]; exact this

theorem character_congr {S : Type} [DecidableEq S] {A : Cat S ℂ} (hA : A.FusionRing) {d d' : S → ℝ}
    (h : A.QdimCharacter d) (e : ∀ a, A.valid a → d' a = d a) : A.QdimCharacter d' := by
  constructor
  · intro a ha; rw [e a ha]; exact h.pos a ha
  · rw [e _ hA.unit_valid]; exact h.unit
  · intro a b ha hb
    rw [e a ha, e b hb, h.mul a b ha hb]
    exact congrArg List.sum (List.map_congr_left fun c hc => (e c (hA.closed _ _ ha hb c hc)).symm)
  · intro a ha; rw [e a ha, e _ (hA.dual_valid a ha)]; exact h.dual a ha

theorem ribbon_congr {S : Type} [DecidableEq S] {A : Cat S ℂ} (hA : A.FusionRing) {d d' : S → ℝ}
    {t : S → ℂ} (h : A.Ribbon d t) (e : ∀ a, A.valid a → d' a = d a) : A.Ribbon d' t := by
  refine ⟨?_, h.phase, h.balance, h.dual⟩
  intro a ha
  rw [e a ha, h.formula a ha]
  refine congrArg List.sum (List.map_congr_left fun c hc => ?_)
  rw [e c (hA.closed _ _ ha ha c hc)]

def tprod (fs : List (Factor × (List ℤ → ℂ))) (a : List ℤ) : ℂ := match fs with
  | [] => 1
  | f :: fs => f.2 (a.take f.1.len) * tprod fs (a.drop f.1.len)

theorem tprod_ribbon (fs : List Factor) (h : ∀ f ∈ fs, f.cat.UnitaryBraidedFR)
    (hn : ∀ f ∈ fs, ∀ a, f.cat.valid a → a.length = f.len)
    (hr : ∀ f ∈ fs, f.cat.Ribbon f.qdim (defaultTwist f.cat f.qdim)) :
    (prodCat fs).Ribbon (qprod fs) (tprod (fs.map fun f => (f, defaultTwist f.cat f.qdim))) := by
  induction fs with
  | nil => constructor <;> simp [prodCat, oneCat, qprod, slices, tprod]
  | cons f fs ih =>
    have i := ih (fun g hg => h g (by simp [hg])) (fun g hg => hn g (by simp [hg]))
      (fun g hg => hr g (by simp [hg]))
    have := cons_ribbon (h f (by simp)).ring (hn f (by simp)) (hr f (by simp)) i
    have e : qprod (f :: fs) = fun a => f.qdim (a.take f.len) * qprod fs (a.drop f.len) :=
      funext (qprod_cons f fs)
    rw [e]; exact this

theorem cat_qdim (fs : List Factor) (hne : fs ≠ []) (h : ∀ f ∈ fs, f.cat.UnitaryBraidedFR)
    (hn : ∀ f ∈ fs, ∀ a, f.cat.valid a → a.length = f.len)
    (hs : ∀ f ∈ fs, f.style = 0 → ∀ a, f.cat.valid a → f.qdim a = 1)
    (hq : ∀ f ∈ fs, f.cat.QdimCharacter f.qdim) : (cat fs).QdimCharacter (qdim fs) := by
  have h0 : ({ cat fs with C := fun _ _ _ _ _ _ => 0 } : Cat (List ℤ) ℂ).QdimCharacter (qprod fs) := by
    rw [cat_eq fs hne hn]; exact qprod_character fs h hn hq
  have h1 : (cat fs).QdimCharacter (qprod fs) := ⟨h0.pos, h0.unit, h0.mul, h0.dual⟩
  exact character_congr (cat_unitaryBraided fs hne hn h).ring h1 fun a ha => qdim_eq fs hs a ha

theorem cat_ribbon (fs : List Factor) (hne : fs ≠ []) (h : ∀ f ∈ fs, f.cat.UnitaryBraidedFR)
    (hn : ∀ f ∈ fs, ∀ a, f.cat.valid a → a.length = f.len)
    (hs : ∀ f ∈ fs, f.style = 0 → ∀ a, f.cat.valid a → f.qdim a = 1)
    (hq : ∀ f ∈ fs, f.cat.QdimCharacter f.qdim)
    (hr : ∀ f ∈ fs, f.cat.Ribbon f.qdim (defaultTwist f.cat f.qdim)) :
    (cat fs).Ribbon (qdim fs) (defaultTwist (cat fs) (qdim fs)) := by
  have h0 : ({ cat fs with C := fun _ _ _ _ _ _ => 0 } : Cat (List ℤ) ℂ).Ribbon (qprod fs)
      (tprod (fs.map fun f => (f, defaultTwist f.cat f.qdim))) := by
    rw [cat_eq fs hne hn]; exact tprod_ribbon fs h hn hr
  have hR := (cat_unitaryBraided fs hne hn h).ring
  have h1 : (cat fs).Ribbon (qprod fs) (tprod (fs.map fun f => (f, defaultTwist f.cat f.qdim))) :=
    ⟨h0.formula, h0.phase, h0.balance, h0.dual⟩
  exact ribbon_default _ hR (cat_qdim fs hne h hn hs hq)
    (ribbon_congr hR h1 fun a ha => qdim_eq fs hs a ha)

/-! ### multiplicities -/

theorem n_eq (fs : List Factor) (a b c : List ℤ)
    (hs : ∀ p ∈ slices 0 fs, p.2.style ≤ 10 → p.2.n (slice a p) (slice b p) (slice c p) = 1) :
    n fs a b c = ((slices 0 fs).map fun p => p.2.n (slice a p) (slice b p) (slice c p)).prod := by
  unfold n
  rw [foldl_mul, one_mul]
  split
  · rename_i h
    symm
    apply List.prod_eq_one
    intro x hx
    simp only [List.mem_map] at hx
    obtain ⟨p, hp, rfl⟩ := hx
    exact hs p hp (by have := style_le fs p.2 (slices_mem 0 fs p hp); omega)
  · rfl

end ProductSym
end Cyten
