import Verif.Lemmas.CostPoly
import Mathlib.Tactic.NormNum

/-!
# C23: cost polynomials

Specification: `value` evaluates a monomial resp. polynomial at actual dimensions `d ≥ 1`.  Two
costs have the same asymptotic class if each bounds the other up to a constant factor.
The statements are about the polynomials a user can build from strings (`Built`): parsed monomials
have positive exponents.
-/

namespace Cyten.Props
open Cyten.CostPoly

variable {K : Type} [LinearOrder K]

/-- The number `prod_k d_k ^ e_k`. -/
def monoValue (m : Mono K) (d : K → ℕ) : ℕ := (m.map fun p => d p.1 ^ p.2.toNat).prod

/-- The sum of the values of the terms. -/
def polyValue (p : List (Mono K)) (d : K → ℕ) : ℕ := (p.map fun m => monoValue m d).sum

/-- Polynomials obtained from strings by sums and products. -/
inductive Built : Poly K → Prop
  | ofStr (terms : List (List (K × ℤ))) (ms : List (Mono K)) :
      terms.mapM Mono.fromTokens = some ms → Built (Poly.ofMonos ms)
  | add (p q : Poly K) : Built p → Built q → Built (p.add q)
  | mul (p q : Poly K) : Built p → Built q → Built (p.mul q)

theorem mapM_valid {terms : List (List (K × ℤ))} {ms : List (Mono K)}
    (h : terms.mapM Mono.fromTokens = some ms) : ∀ m ∈ ms, Mono.Valid m := by
  induction terms generalizing ms with
  | nil => simp at h; subst h; simp
  | cons t ts ih =>
    rw [List.mapM_cons] at h
    cases h1 : Mono.fromTokens t with
    | none => rw [h1] at h; cases h
    | some m =>
      cases h2 : ts.mapM Mono.fromTokens with
      | none => rw [h1, h2] at h; cases h
      | some ms' =>
        rw [h1, h2] at h
        injection h with h
        subst h
        intro m' hm'
        rcases List.mem_cons.1 hm' with rfl | hm'
        · exact valid_fromTokens h1
        · exact ih h2 m' hm'

theorem Built.valid {p : Poly K} (h : Built p) : p.Valid := by
  induction h with
  | ofStr terms ms h =>
    refine valid_mk fun t ht => ?_
    rcases mem_setInsertAll.1 ht with ht | ht
    · simp at ht
    · exact mapM_valid h t ht
  | add p q _ _ ih1 ih2 => exact valid_add ih1 ih2
  | mul p q _ _ ih1 ih2 => exact valid_pmul ih1 ih2

private theorem eq_of {p q : Poly K} (hp : p.Valid) (hq : q.Valid)
    (h : ∀ e : K → ℤ, below p e ↔ below q e) : p.eq q = true :=
  (Poly.eq_iff hp.mono hq.mono).2 (Poly.ext' hp hq h)

/-- **C23**: `+` and `*` are commutative and associative, `*` distributes over `+`, `+` is
idempotent, all with respect to the library's `==`. -/
theorem C23_semiring (p q r : Poly K) (hp : Built p) (hq : Built q) (hr : Built r) :
    (p.add q).eq (q.add p) = true ∧
    ((p.add q).add r).eq (p.add (q.add r)) = true ∧
    (p.add p).eq p = true ∧
    (p.mul q).eq (q.mul p) = true ∧
    ((p.mul q).mul r).eq (p.mul (q.mul r)) = true ∧
    (p.mul (q.add r)).eq ((p.mul q).add (p.mul r)) = true := by
  have vp := hp.valid
  have vq := hq.valid
  have vr := hr.valid
  refine ⟨?_, ?_, ?_, ?_, ?_, ?_⟩
  · refine eq_of (valid_add vp vq) (valid_add vq vp) fun e => ?_
    rw [below_add vp vq, below_add vq vp, or_comm]
  · refine eq_of (valid_add (valid_add vp vq) vr) (valid_add vp (valid_add vq vr)) fun e => ?_
    rw [below_add (valid_add vp vq) vr, below_add vp vq, below_add vp (valid_add vq vr),
      below_add vq vr, or_assoc]
  · refine eq_of (valid_add vp vp) vp fun e => ?_
    rw [below_add vp vp, or_self]
  · refine eq_of (valid_pmul vp vq) (valid_pmul vq vp) fun e => ?_
    rw [below_mul vp vq, below_mul vq vp]
    constructor
    · rintro ⟨a, ha, b, hb, h⟩; exact ⟨b, hb, a, ha, fun x => by rw [add_comm]; exact h x⟩
    · rintro ⟨a, ha, b, hb, h⟩; exact ⟨b, hb, a, ha, fun x => by rw [add_comm]; exact h x⟩
  · refine eq_of (valid_pmul (valid_pmul vp vq) vr) (valid_pmul vp (valid_pmul vq vr)) fun e => ?_
    rw [below_mul' (valid_pmul vp vq) vr, below_mul' vp (valid_pmul vq vr)]
    constructor
    · rintro ⟨f, g, hf, hg, h⟩
      obtain ⟨f1, f2, h1, h2, h3⟩ := (below_mul' vp vq f).1 hf
      refine ⟨f1, fun x => f2 x + g x, h1, (below_mul' vq vr _).2 ⟨f2, g, h2, hg, fun x => le_refl _⟩,
        fun x => ?_⟩
      have := h x; have := h3 x; show e x ≤ f1 x + (f2 x + g x); omega
    · rintro ⟨f, g, hf, hg, h⟩
      obtain ⟨g1, g2, h1, h2, h3⟩ := (below_mul' vq vr g).1 hg
      refine ⟨fun x => f x + g1 x, g2, (below_mul' vp vq _).2 ⟨f, g1, hf, h1, fun x => le_refl _⟩, h2,
        fun x => ?_⟩
      have := h x; have := h3 x; show e x ≤ f x + g1 x + g2 x; omega
  · refine eq_of (valid_pmul vp (valid_add vq vr)) (valid_add (valid_pmul vp vq) (valid_pmul vp vr))
      fun e => ?_
    rw [below_mul' vp (valid_add vq vr), below_add (valid_pmul vp vq) (valid_pmul vp vr),
      below_mul' vp vq, below_mul' vp vr]
    constructor
    · rintro ⟨f, g, hf, hg, h⟩
      rcases (below_add vq vr g).1 hg with hg | hg
      · exact Or.inl ⟨f, g, hf, hg, h⟩
      · exact Or.inr ⟨f, g, hf, hg, h⟩
    · rintro (⟨f, g, hf, hg, h⟩ | ⟨f, g, hf, hg, h⟩)
      · exact ⟨f, g, hf, (below_add vq vr g).2 (Or.inl hg), h⟩
      · exact ⟨f, g, hf, (below_add vq vr g).2 (Or.inr hg), h⟩

/-- **C23**: the empty polynomial is neutral for `+` and absorbing for `*`; the polynomial `1`
(one term without factors) is neutral for `*`. -/
theorem C23_neutral (p : Poly K) (hp : Built p) :
    (p.add []).eq p = true ∧ (p.mul []).eq [] = true ∧ (p.mul [[]]).eq p = true := by
  have vp := hp.valid
  have v0 : Poly.Valid ([] : Poly K) := ⟨List.Pairwise.nil, by simp, by simp⟩
  have v1 : Poly.Valid ([[]] : Poly K) := ⟨by simp, by simp [valid_nil], by simp⟩
  have b0 : ∀ e : K → ℤ, ¬ below ([] : Poly K) e := by rintro e ⟨t, ht, -⟩; simp at ht
  refine ⟨?_, ?_, ?_⟩
  · refine eq_of (valid_add vp v0) vp fun e => ?_
    rw [below_add vp v0]; simp [b0]
  · refine eq_of (valid_pmul vp v0) v0 fun e => ?_
    rw [below_mul vp v0]; simp [b0]
  · refine eq_of (valid_pmul vp v1) vp fun e => ?_
    rw [below_mul vp v1]
    simp [lookup_nil, below]

/-- **C23**: `==` of (parsed) polynomials is an equivalence relation and a congruence, in fact it
holds exactly if the sets of terms agree as sets of exponent functions. -/
theorem C23_eq (p q : Poly K) (hp : Built p) (hq : Built q) :
    p.eq q = true ↔
      ∀ e : K → ℤ, (∃ t ∈ p, ∀ x, lookup t x = e x) ↔ (∃ t ∈ q, ∀ x, lookup t x = e x) := by
  rw [Poly.eq_iff hp.valid.mono hq.valid.mono]
  constructor
  · rintro rfl e; exact Iff.rfl
  · intro h
    refine sorted_ext hp.valid.sorted hq.valid.sorted fun m => ⟨fun hm => ?_, fun hm => ?_⟩
    · obtain ⟨t, ht, h'⟩ := (h (lookup m)).1 ⟨m, hm, fun _ => rfl⟩
      rwa [← Mono.ext' (hq.valid.mono t ht) (hp.valid.mono m hm) h']
    · obtain ⟨t, ht, h'⟩ := (h (lookup m)).2 ⟨m, hm, fun _ => rfl⟩
      rwa [← Mono.ext' (hp.valid.mono t ht) (hq.valid.mono m hm) h']

/-- **C23**: monomials multiply like numbers. -/
theorem C23_mono_value (t1 t2 : List (K × ℤ)) (a b : Mono K) (ha : Mono.fromTokens t1 = some a)
    (hb : Mono.fromTokens t2 = some b) (d : K → ℕ) :
    monoValue (a.mul b) d = monoValue a d * monoValue b d :=
  evalMono_mul (valid_fromTokens ha) (valid_fromTokens hb) d

private theorem sum_le_of_mem {ts us : List (Mono K)} (d : K → ℕ)
    (h : ∀ t ∈ ts, ∃ u ∈ us, monoValue t d ≤ monoValue u d) :
    polyValue ts d ≤ ts.length * polyValue us d := by
  have mem_le : ∀ (us : List (Mono K)), ∀ u ∈ us, monoValue u d ≤ polyValue us d := fun us u hu =>
    List.le_sum_of_mem (List.mem_map_of_mem hu)
  induction ts with
  | nil => simp [polyValue]
  | cons t ts ih =>
    obtain ⟨u, hu, hle⟩ := h t List.mem_cons_self
    have h1 := ih fun t' ht' => h t' (List.mem_cons_of_mem _ ht')
    have h2 := mem_le us u hu
    have : polyValue (t :: ts) d = monoValue t d + polyValue ts d := by simp [polyValue]
    rw [this, List.length_cons, Nat.add_mul, Nat.one_mul, Nat.add_comm]
    exact Nat.add_le_add h1 (Nat.le_trans hle h2)

private theorem sublist_le {ts us : List (Mono K)} (d : K → ℕ) (hts : ts.Nodup)
    (h : ts ⊆ us) : polyValue ts d ≤ polyValue us d := by
  obtain ⟨l, hp, hs⟩ := List.subperm_of_subset hts h
  unfold polyValue
  rw [← (hp.map _).sum_eq]
  exact List.Sublist.sum_le_sum (hs.map _) (by simp)

/-- **C23**: simplification does not change the asymptotic class: at all dimensions `≥ 1` the
simplified polynomial is at most the original one, and the original one at most the number of its
terms times the simplified one. -/
theorem C23_simplify_class (ts : List (Mono K)) (toks : List (List (K × ℤ)))
    (h : toks.mapM Mono.fromTokens = some ts) (d : K → ℕ) (hd : ∀ x, 1 ≤ d x) :
    polyValue (Poly.mk ts) d ≤ polyValue ts d ∧
    polyValue ts d ≤ ts.length * polyValue (Poly.mk ts) d := by
  have hv := mapM_valid h
  have nd : ∀ {l : List (Mono K)}, l.Pairwise (· < ·) → l.Nodup := fun hl =>
    hl.imp fun h => ne_of_lt h
  refine ⟨sublist_le d (nd (valid_mk hv).sorted) fun t ht => ((mem_simplify hv).1 ht).1, ?_⟩
  refine sum_le_of_mem d fun t ht => ?_
  obtain ⟨u, hu, hle⟩ := exists_max hv ht
  exact ⟨u, hu, evalMono_mono (hv t ht) ((valid_mk hv).mono u hu) d hd hle⟩

/-- **C23**: sums and products of polynomials have the asymptotic class of the sums and products of
the values. -/
theorem C23_ops_class (p q : Poly K) (hp : Built p) (hq : Built q) (d : K → ℕ) (hd : ∀ x, 1 ≤ d x) :
    (polyValue (p.add q) d ≤ polyValue p d + polyValue q d ∧
      polyValue p d + polyValue q d ≤ (p.length + q.length) * polyValue (p.add q) d) ∧
    (polyValue (p.mul q) d ≤ (p.mul q).length * (polyValue p d * polyValue q d) ∧
      polyValue p d * polyValue q d ≤ p.length * q.length * polyValue (p.mul q) d) := by
  have vp := hp.valid
  have vq := hq.valid
  have mem_le : ∀ (us : List (Mono K)), ∀ u ∈ us, monoValue u d ≤ polyValue us d := fun us u hu =>
    List.le_sum_of_mem (List.mem_map_of_mem hu)
  have nd : ∀ {l : List (Mono K)}, l.Pairwise (· < ·) → l.Nodup := fun hl =>
    hl.imp fun h => ne_of_lt h
  have vadd : ∀ t ∈ setInsertAll p q, Mono.Valid t := fun t ht =>
    (mem_setInsertAll.1 ht).elim (vp.mono t) (vq.mono t)
  have vmul := valid_rawMul vp.mono vq.mono
  refine ⟨⟨?_, ?_⟩, ?_, ?_⟩
  · have : polyValue p d + polyValue q d = polyValue (p ++ q) d := by simp [polyValue]
    rw [this]
    refine sublist_le d (nd (valid_add vp vq).sorted) fun t ht => ?_
    rw [List.mem_append, ← mem_setInsertAll]
    exact ((mem_simplify vadd).1 ht).1
  · have : polyValue p d + polyValue q d = polyValue (p ++ q) d := by simp [polyValue]
    rw [this, ← List.length_append]
    refine sum_le_of_mem d fun t ht => ?_
    have ht' : t ∈ setInsertAll p q := mem_setInsertAll.2 (List.mem_append.1 ht)
    obtain ⟨u, hu, hle⟩ := exists_max vadd ht'
    exact ⟨u, hu, evalMono_mono (vadd t ht') ((valid_add vp vq).mono u hu) d hd hle⟩
  · have h1 : ∀ t ∈ p.mul q, monoValue t d ≤ polyValue p d * polyValue q d := by
      intro t ht
      obtain ⟨a, ha, b, hb, rfl⟩ := mem_rawMul.1 ((mem_simplify vmul).1 ht).1
      have : monoValue (a.mul b) d = monoValue a d * monoValue b d :=
        evalMono_mul (vp.mono a ha) (vq.mono b hb) d
      rw [this]
      exact Nat.mul_le_mul (mem_le p a ha) (mem_le q b hb)
    have h2 := List.sum_le_card_nsmul ((p.mul q).map fun m => monoValue m d)
      (polyValue p d * polyValue q d) (by
        intro x hx
        obtain ⟨t, ht, rfl⟩ := List.mem_map.1 hx
        exact h1 t ht)
    simpa [polyValue] using h2
  · have hone : ∀ a ∈ p, monoValue a d * polyValue q d ≤ q.length * polyValue (p.mul q) d := by
      intro a ha
      have : monoValue a d * polyValue q d = polyValue (q.map fun b => a.mul b) d := by
        unfold polyValue
        rw [← List.sum_map_mul_left, List.map_map]
        congr 1
        apply List.map_congr_left
        intro b hb
        exact (evalMono_mul (vp.mono a ha) (vq.mono b hb) d).symm
      rw [this]
      have h3 := sum_le_of_mem (ts := q.map fun b => a.mul b) (us := p.mul q) d (by
        intro t ht
        obtain ⟨b, hb, rfl⟩ := List.mem_map.1 ht
        have hm : a.mul b ∈ rawMul p q := mem_rawMul.2 ⟨a, ha, b, hb, rfl⟩
        obtain ⟨u, hu, hle⟩ := exists_max vmul hm
        exact ⟨u, hu, evalMono_mono (vmul _ hm) ((valid_pmul vp vq).mono u hu) d hd hle⟩)
      simpa using h3
    have : polyValue p d * polyValue q d = (p.map fun a => monoValue a d * polyValue q d).sum := by
      unfold polyValue
      rw [List.sum_map_mul_right]
    rw [this]
    have h4 := List.sum_le_card_nsmul (p.map fun a => monoValue a d * polyValue q d)
      (q.length * polyValue (p.mul q) d) (by
        intro x hx
        obtain ⟨a, ha, rfl⟩ := List.mem_map.1 hx
        exact hone a ha)
    simpa [Nat.mul_assoc] using h4

/-- **C23**: no term of a built polynomial is bounded by another term (it is fully simplified). -/
theorem C23_reduced (p : Poly K) (hp : Built p) (t u : Mono K) (ht : t ∈ p) (hu : u ∈ p)
    (h : ∀ x, lookup t x ≤ lookup u x) : t = u := hp.valid.anti t ht u hu h

/-- **C23**: `prod` multiplies all its arguments. -/
theorem C23_prod (p : Poly K) (qs : List (Poly K)) :
    p.prod qs = qs.foldl Poly.mul p := by
  induction qs generalizing p with
  | nil => rfl
  | cons q qs ih =>
    cases qs with
    | nil => rfl
    | cons r qs => rw [Poly.prod, ih]; · rfl
                   · simp

/-- **C23**, a defect outside parsed input: the public constructor accepts zero exponents; then
`==` of monomials (which ignores them) is not respected by `==` of polynomials. -/
theorem C23_zero_exponent_defect :
    ∃ a b : Mono ℤ, a.eq b = true ∧ ∃ p : Poly ℤ,
      (Poly.mk [a]).eq (Poly.mk [b]) = true ∧
      (p.add (Poly.mk [a])).eq (p.add (Poly.mk [b])) = false := by
  refine ⟨[], [toLex (0, 0)], by decide, [[]], by decide, by decide⟩

/-- **C23**, a defect outside parsed input: with a negative exponent (accepted by the public
constructor) the terms `1` and `x^-1` are each negligible against the other, and the sum of both is
the empty polynomial. -/
theorem C23_negative_exponent_defect :
    Poly.mk [([] : Mono ℤ), [toLex (0, -1)]] = [] := by decide

-- non-trivial instance: x^2 y + x^3 built from tokens (keys 0 and 1)
example : Built (Poly.ofMonos [[toLex ((0 : ℤ), 2), toLex (1, 1)], [toLex (0, 3)]]) :=
  .ofStr [[(0, 2), (1, 1)], [(0, 3)]] _ (by decide)
example : Poly.ofMonos [[toLex ((0 : ℤ), (2 : ℤ)), toLex (1, 1)], [toLex (0, 2)], [toLex (0, 3)]] =
    [[toLex (0, 2), toLex (1, 1)], [toLex (0, 3)]] := by decide

end Cyten.Props
