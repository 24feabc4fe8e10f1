import Verif.Spec.Category

/-!
Exact evaluation of the category equations in a computable ring, and transport along an
evaluation map to `ℂ`.  (The kernel evaluates the checks; nothing compiled is trusted.)
-/

set_option linter.unusedSectionVars false

namespace Cyten.Spec.Cat
variable {S K : Type} [DecidableEq S] [Zero K] [One K] [Add K] [Mul K] [Star K]

/-- `φ` evaluates `K` in `ℂ`, and `eqB` is a sound equality test for values. -/
structure Eval (φ : K → ℂ) (eqB : K → K → Bool) : Prop where
  zero : φ 0 = 0
  one : φ 1 = 1
  add : ∀ x y, φ (x + y) = φ x + φ y
  mul : ∀ x y, φ (x * y) = φ x * φ y
  star : ∀ x, φ (star x) = star (φ x)
  sound : ∀ x y, eqB x y = true → φ x = φ y

def all4 (secs : List S) (p : S → S → S → S → Bool) : Bool :=
  secs.all fun a => secs.all fun b => secs.all fun c => secs.all fun d => p a b c d

theorem all4_iff (secs : List S) (p : S → S → S → S → Bool) :
    all4 secs p = true ↔ ∀ a ∈ secs, ∀ b ∈ secs, ∀ c ∈ secs, ∀ d ∈ secs, p a b c d = true := by
  simp [all4, List.all_eq_true]

def ringCheck (A : Cat S K) (secs : List S) : Bool :=
  decide (A.unit ∈ secs) &&
  (secs.all fun a => decide (A.out A.unit a = [a]) && decide (A.out a A.unit = [a]) &&
    decide (A.dual a ∈ secs) && decide (A.dual (A.dual a) = a)) &&
  (secs.all fun a => secs.all fun b => (A.out a b).all (fun c => decide (c ∈ secs)) &&
    decide (A.out a b).Nodup && (A.out a b).all (fun c => decide (c ∈ A.out b a)) &&
    decide (A.unit ∈ A.out a b ↔ b = A.dual a)) &&
  all4 secs fun a b c d => decide (((A.out a b).filter fun f => d ∈ A.out f c).length =
      ((A.out b c).filter fun e => d ∈ A.out a e).length)

def rCheck (A : Cat S K) (eqB : K → K → Bool) (secs : List S) : Bool :=
  secs.all fun a => secs.all fun b => (A.out a b).all fun c =>
    eqB (A.R a b c * star (A.R a b c)) 1

def fCheck (A : Cat S K) (eqB : K → K → Bool) (secs : List S) : Bool :=
  all4 secs fun a b c d =>
    ((A.chL a b c d).all fun f => (A.chL a b c d).all fun f' =>
      eqB (((A.chR a b c d).map fun e => A.F a b c d e f * star (A.F a b c d e f')).sum)
        (if f = f' then 1 else 0)) &&
    ((A.chR a b c d).all fun e => (A.chR a b c d).all fun e' =>
      eqB (((A.chL a b c d).map fun f => star (A.F a b c d e f) * A.F a b c d e' f).sum)
        (if e = e' then 1 else 0))

def pentCheck (A : Cat S K) (eqB : K → K → Bool) (secs : List S) : Bool :=
  all4 secs fun a b c d =>
    (A.out a b).all fun f => (A.out f c).all fun g => (A.out g d).all fun e =>
      (A.out c d).all fun j => (A.out b j).all fun i =>
        !(decide (e ∈ A.out f j) && decide (e ∈ A.out a i)) ||
        eqB (A.F f c d e j g * A.F a b j e i f)
          (((A.out b c).filter fun h => g ∈ A.out a h ∧ i ∈ A.out h d).map fun h =>
            A.F a b c g h f * A.F a h d e i g * A.F b c d i j h).sum

def hexCheck (A : Cat S K) (eqB : K → K → Bool) (secs : List S) : Bool :=
  all4 secs fun a b c d =>
    (A.out c a).all fun e => !(decide (d ∈ A.out e b)) || (A.out c b).all fun g =>
      !(decide (d ∈ A.out a g)) ||
      (eqB (A.R c a e * A.F a c b d g e * A.R c b g)
        (((A.out a b).filter fun f => d ∈ A.out c f).map fun f =>
          A.F c a b d f e * A.R c f d * A.F a b c d g f).sum &&
       eqB (star (A.R a c e) * A.F a c b d g e * star (A.R b c g))
        (((A.out a b).filter fun f => d ∈ A.out c f).map fun f =>
          A.F c a b d f e * star (A.R f c d) * A.F a b c d g f).sum)

/-- `C = R F R̄` for the allowed labels with `(b, c)` satisfying `P`. -/
def cCheck (A : Cat S K) (eqB : K → K → Bool) (secs : List S) (P : S → S → Bool) : Bool :=
  all4 secs fun a b c d => !(P b c) ||
    ((A.out a b).all fun e => !(decide (d ∈ A.out e c)) || (A.out a c).all fun f =>
      !(decide (d ∈ A.out f b)) ||
        eqB (A.C a b c d e f) (A.R e c d * A.F c a b d e f * star (A.R a c f)))

/-- `A'` is the image of `A`. -/
structure Image (A : Cat S K) (A' : Cat S ℂ) (φ : K → ℂ) (secs : List S) : Prop where
  valid : ∀ a, A'.valid a ↔ a ∈ secs
  unit : A'.unit = A.unit
  out : A'.out = A.out
  dual : A'.dual = A.dual
  F : ∀ a b c d e f, A'.F a b c d e f = φ (A.F a b c d e f)
  R : ∀ a b c, A'.R a b c = φ (A.R a b c)
  C : ∀ a b c d e f, A'.C a b c d e f = φ (A.C a b c d e f)

variable {A : Cat S K} {A' : Cat S ℂ} {φ : K → ℂ} {eqB : K → K → Bool} {secs : List S}

theorem Eval.sum (h : Eval φ eqB) (l : List K) : φ l.sum = (l.map φ).sum := by
  induction l with
  | nil => simp [h.zero]
  | cons x l ih => simp [h.add, ih]

theorem Eval.ite (h : Eval φ eqB) (p : Prop) [Decidable p] :
    φ (if p then 1 else 0) = if p then 1 else 0 := by
  split <;> simp [h.zero, h.one]

theorem Image.chL_eq (hi : Image A A' φ secs) (a b c d : S) : A'.chL a b c d = A.chL a b c d := by
  unfold chL; rw [hi.out]
theorem Image.chR_eq (hi : Image A A' φ secs) (a b c d : S) : A'.chR a b c d = A.chR a b c d := by
  unfold chR; rw [hi.out]

theorem ring_of_check (hi : Image A A' φ secs) (h : ringCheck A secs = true) : A'.FusionRing := by
  simp only [ringCheck, Bool.and_eq_true, List.all_eq_true, decide_eq_true_eq, all4_iff] at h
  obtain ⟨⟨⟨h0, h1⟩, h2⟩, h3⟩ := h
  constructor
  · rw [hi.valid, hi.unit]; exact h0
  · intro a b ha hb c hc
    rw [hi.valid] at *
    rw [hi.out] at hc
    exact (h2 a ha b hb).1.1.1 c hc
  · intro a b ha hb
    rw [hi.valid] at *
    rw [hi.out]; exact (h2 a ha b hb).1.1.2
  · intro a ha; rw [hi.valid] at ha; rw [hi.out, hi.unit]; exact (h1 a ha).1.1.1
  · intro a ha; rw [hi.valid] at ha; rw [hi.out, hi.unit]; exact (h1 a ha).1.1.2
  · intro a b ha hb c
    rw [hi.valid] at *
    rw [hi.out]
    exact ⟨(h2 a ha b hb).1.2 c, (h2 b hb a ha).1.2 c⟩
  · intro a b c d ha hb hc hd
    rw [hi.valid] at *
    rw [hi.out]
    exact h3 a ha b hb c hc d hd
  · intro a ha; rw [hi.valid] at *; rw [hi.dual]; exact (h1 a ha).1.2
  · intro a ha; rw [hi.valid] at *; rw [hi.dual]; exact (h1 a ha).2
  · intro a b ha hb
    rw [hi.valid] at *
    rw [hi.dual, hi.out, hi.unit]; exact (h2 a ha b hb).2

theorem rPhase_of_check (he : Eval φ eqB) (hi : Image A A' φ secs)
    (h : rCheck A eqB secs = true) : A'.RPhase := by
  simp only [rCheck, List.all_eq_true] at h
  intro a b c ha hb hc
  rw [hi.valid] at ha hb
  rw [hi.out] at hc
  have := he.sound _ _ (h a ha b hb c hc)
  rw [he.mul, he.star, he.one] at this
  rw [hi.R]; exact this

theorem fUnitary_of_check (he : Eval φ eqB) (hi : Image A A' φ secs)
    (h : fCheck A eqB secs = true) : A'.FUnitary := by
  simp only [fCheck, all4_iff, Bool.and_eq_true, List.all_eq_true] at h
  constructor
  · intro a b c d ha hb hc hd f hf f' hf'
    rw [hi.valid] at ha hb hc hd
    rw [hi.chL_eq] at hf hf'
    have := he.sound _ _ ((h a ha b hb c hc d hd).1 f hf f' hf')
    rw [he.sum, he.ite, List.map_map] at this
    rw [hi.chR_eq, ← this]
    congr 1
    apply List.map_congr_left
    intro e _
    simp [Function.comp, he.mul, he.star, hi.F]
  · intro a b c d ha hb hc hd e hf e' hf'
    rw [hi.valid] at ha hb hc hd
    rw [hi.chR_eq] at hf hf'
    have := he.sound _ _ ((h a ha b hb c hc d hd).2 e hf e' hf')
    rw [he.sum, he.ite, List.map_map] at this
    rw [hi.chL_eq, ← this]
    congr 1
    apply List.map_congr_left
    intro e _
    simp [Function.comp, he.mul, he.star, hi.F]

theorem pentagon_of_check (he : Eval φ eqB) (hi : Image A A' φ secs)
    (h : pentCheck A eqB secs = true) : A'.Pentagon := by
  simp only [pentCheck, all4_iff, List.all_eq_true, Bool.or_eq_true, Bool.not_eq_true',
    Bool.and_eq_false_iff, decide_eq_false_iff_not] at h
  intro a b c d ha hb hc hd f hf g hg e hee j hj i hii h1 h2
  rw [hi.valid] at ha hb hc hd
  rw [hi.out] at *
  have := h a ha b hb c hc d hd f hf g hg e hee j hj i hii
  rcases this with (h' | h') | h'
  · exact absurd h1 h'
  · exact absurd h2 h'
  · have := he.sound _ _ h'
    rw [he.sum, he.mul, List.map_map] at this
    rw [hi.F, hi.F, this]
    congr 1
    apply List.map_congr_left
    intro e _
    simp [Function.comp, he.mul, hi.F]

theorem hexagons_of_check (he : Eval φ eqB) (hi : Image A A' φ secs)
    (h : hexCheck A eqB secs = true) : A'.Hexagon ∧ A'.Hexagon' := by
  simp only [hexCheck, all4_iff, List.all_eq_true, Bool.or_eq_true, Bool.not_eq_true',
    decide_eq_false_iff_not, Bool.and_eq_true] at h
  constructor
  · intro a b c d ha hb hc hd e hee hde g hg hdg
    rw [hi.valid] at ha hb hc hd
    rw [hi.out] at *
    have h1 := (h a ha b hb c hc d hd e hee).resolve_left (not_not.2 hde) g hg
    have := he.sound _ _ (h1.resolve_left (not_not.2 hdg)).1
    rw [he.sum, he.mul, he.mul, List.map_map] at this
    rw [hi.F, hi.R, hi.R, this]
    congr 1
    apply List.map_congr_left
    intro e _
    simp [Function.comp, he.mul, hi.F, hi.R]
  · intro a b c d ha hb hc hd e hee hde g hg hdg
    rw [hi.valid] at ha hb hc hd
    rw [hi.out] at *
    have h1 := (h a ha b hb c hc d hd e hee).resolve_left (not_not.2 hde) g hg
    have := he.sound _ _ (h1.resolve_left (not_not.2 hdg)).2
    rw [he.sum, he.mul, he.mul, he.star, he.star, List.map_map] at this
    rw [hi.F, hi.R, hi.R, this]
    congr 1
    apply List.map_congr_left
    intro e _
    simp [Function.comp, he.mul, he.star, hi.F, hi.R]

theorem c_of_check (he : Eval φ eqB) (hi : Image A A' φ secs) (P : S → S → Bool)
    (h : cCheck A eqB secs P = true) (a b c d e f : S) (hP : P b c = true)
    (ha : A'.valid a) (hb : A'.valid b) (hc : A'.valid c) (hd : A'.valid d)
    (h1 : e ∈ A'.out a b) (h2 : d ∈ A'.out e c) (h3 : f ∈ A'.out a c) (h4 : d ∈ A'.out f b) :
    A'.C a b c d e f = A'.R e c d * A'.F c a b d e f * star (A'.R a c f) := by
  simp only [cCheck, all4_iff, List.all_eq_true, Bool.or_eq_true, Bool.not_eq_true',
    decide_eq_false_iff_not] at h
  rw [hi.valid] at ha hb hc hd
  rw [hi.out] at *
  have q1 := (h a ha b hb c hc d hd).resolve_left (by rw [hP]; simp) e h1
  have q2 := (q1.resolve_left (not_not.2 h2)) f h3
  have := he.sound _ _ (q2.resolve_left (not_not.2 h4))
  rw [hi.C, hi.R, hi.R, hi.F, this, he.mul, he.mul, he.star]

end Cyten.Spec.Cat

namespace Cyten.Spec.Cat
variable {S K : Type} [DecidableEq S] [Zero K] [One K] [Add K] [Mul K] [Star K]

def qdimCheck (A : Cat S K) (eqB : K → K → Bool) (secs : List S) (d : S → K) : Bool :=
  eqB (d A.unit) 1 && (secs.all fun a => eqB (d (A.dual a)) (d a)) &&
  secs.all fun a => secs.all fun b => eqB (d a * d b) ((A.out a b).map d).sum

def ribbonCheck (A : Cat S K) (eqB : K → K → Bool) (secs : List S) (d θ : S → K) : Bool :=
  (secs.all fun a => eqB (d a * θ a) ((A.out a a).map fun b => d b * A.R a a b).sum &&
    eqB (θ a * star (θ a)) 1 && eqB (θ (A.dual a)) (θ a)) &&
  secs.all fun a => secs.all fun b => (A.out a b).all fun c =>
    eqB (A.R b a c * A.R a b c * (θ a * θ b)) (θ c)

variable {A : Cat S K} {A' : Cat S ℂ} {φ : K → ℂ} {eqB : K → K → Bool} {secs : List S}

theorem qdim_of_check (he : Eval φ eqB) (hi : Image A A' φ secs) (d : S → K) (d' : S → ℝ)
    (hd : ∀ a, (d' a : ℂ) = φ (d a)) (hpos : ∀ a, 0 < d' a)
    (h : qdimCheck A eqB secs d = true) : A'.QdimCharacter d' := by
  simp only [qdimCheck, Bool.and_eq_true, List.all_eq_true] at h
  obtain ⟨⟨h0, h1⟩, h2⟩ := h
  constructor
  · intro a _; exact hpos a
  · have := he.sound _ _ h0
    rw [← hd, he.one] at this
    rw [hi.unit]; exact_mod_cast this
  · intro a b ha hb
    rw [hi.valid] at ha hb
    have := he.sound _ _ (h2 a ha b hb)
    rw [he.mul, ← hd, ← hd, he.sum, List.map_map] at this
    rw [hi.out]
    have h3 : (A.out a b).map (φ ∘ d) = ((A.out a b).map d').map (fun x : ℝ => (x : ℂ)) := by
      rw [List.map_map]; apply List.map_congr_left; intro c _; simp [hd]
    have h4 : ∀ l : List ℝ, (l.map (fun x : ℝ => (x : ℂ))).sum = ((l.sum : ℝ) : ℂ) := by
      intro l
      induction l with
      | nil => simp
      | cons x l ih => rw [List.map_cons, List.sum_cons, ih]; simp
    rw [h3, h4] at this
    exact_mod_cast this
  · intro a ha
    rw [hi.valid] at ha
    have := he.sound _ _ (h1 a ha)
    rw [← hd, ← hd] at this
    rw [hi.dual]; exact_mod_cast this

theorem ribbon_of_check (he : Eval φ eqB) (hi : Image A A' φ secs) (d θ : S → K) (d' : S → ℝ)
    (θ' : S → ℂ) (hd : ∀ a, (d' a : ℂ) = φ (d a)) (hθ : ∀ a ∈ secs, θ' a = φ (θ a))
    (hr : A'.FusionRing)
    (h : ribbonCheck A eqB secs d θ = true) : A'.Ribbon d' θ' := by
  simp only [ribbonCheck, Bool.and_eq_true, List.all_eq_true] at h
  obtain ⟨h1, h2⟩ := h
  constructor
  · intro a ha
    rw [hi.valid] at ha
    have := he.sound _ _ (h1 a ha).1.1
    rw [he.mul, ← hd, he.sum, List.map_map] at this
    rw [hθ a ha, hi.out, this]
    congr 1
    apply List.map_congr_left
    intro c _
    simp [he.mul, hd, hi.R]
  · intro a ha
    rw [hi.valid] at ha
    have := he.sound _ _ (h1 a ha).1.2
    rw [he.mul, he.star, he.one] at this
    rw [hθ a ha]; exact this
  · intro a b c ha hb hc
    have hcv := (hi.valid c).1 (hr.closed a b ha hb c hc)
    rw [hi.valid] at ha hb
    rw [hi.out] at hc
    have := he.sound _ _ (h2 a ha b hb c hc)
    rw [he.mul, he.mul, he.mul] at this
    rw [hθ a ha, hθ b hb, hθ c hcv, hi.R, hi.R, this]
  · intro a ha
    have hdv := (hi.valid _).1 (hr.dual_valid a ha)
    rw [hi.valid] at ha
    have := he.sound _ _ (h1 a ha).2
    rw [hθ a ha, hθ _ hdv, hi.dual, this]

end Cyten.Spec.Cat
