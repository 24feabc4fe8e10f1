import Verif.Model.ProductSym
import Mathlib.Algebra.BigOperators.Group.List.Basic
import Mathlib.Algebra.BigOperators.Ring.List
import Mathlib.Tactic.Ring
import Mathlib.Data.List.Nodup

namespace Cyten
open Spec

/-- all concatenations -/
def pairs (l m : List (List ℤ)) : List (List ℤ) := l.flatMap fun x => m.map fun y => x ++ y

theorem mem_pairs {n : ℕ} {l m : List (List ℤ)} (hl : ∀ x ∈ l, x.length = n) (x : List ℤ) :
    x ∈ pairs l m ↔ x.take n ∈ l ∧ x.drop n ∈ m := by
  unfold pairs
  simp only [List.mem_flatMap, List.mem_map]
  constructor
  · rintro ⟨y, hy, z, hz, rfl⟩
    have := hl y hy
    rw [List.take_left' this, List.drop_left' this]
    exact ⟨hy, hz⟩
  · rintro ⟨h1, h2⟩
    exact ⟨_, h1, _, h2, List.take_append_drop _ _⟩

theorem nodup_pairs {n : ℕ} {l m : List (List ℤ)} (hl : ∀ x ∈ l, x.length = n) (h1 : l.Nodup)
    (h2 : m.Nodup) : (pairs l m).Nodup := by
  unfold pairs
  rw [List.nodup_flatMap]
  refine ⟨fun x _ => h2.map (fun y z h => List.append_cancel_left h), ?_⟩
  refine List.Pairwise.imp_of_mem ?_ h1
  intro x y hx hy hxy
  simp only [Function.onFun]
  intro z hz1 hz2
  simp only [List.mem_map] at hz1 hz2
  obtain ⟨u, -, rfl⟩ := hz1
  obtain ⟨v, -, h⟩ := hz2
  exact hxy (List.append_inj_left h (by rw [hl x hx, hl y hy])).symm

/-- sums over filtered pairs factorise -/
theorem sum_pairs {K : Type} [CommSemiring K] (l m : List (List ℤ)) (p p1 p2 : List ℤ → Bool)
    (g g1 g2 : List ℤ → K)
    (hp : ∀ x ∈ l, ∀ y ∈ m, p (x ++ y) = (p1 x && p2 y))
    (hg : ∀ x ∈ l, ∀ y ∈ m, p1 x = true → p2 y = true → g (x ++ y) = g1 x * g2 y) :
    (((pairs l m).filter p).map g).sum =
      ((l.filter p1).map g1).sum * ((m.filter p2).map g2).sum := by
  have inner : ∀ x ∈ l, ((((m.map fun y => x ++ y)).filter p).map g).sum =
      if p1 x then g1 x * ((m.filter p2).map g2).sum else 0 := by
    intro x hx
    have hp' := hp x hx
    have hg' := hg x hx
    clear hp hg
    induction m with
    | nil => simp
    | cons y m ih =>
      have i2 := ih (fun z hz => hp' z (List.mem_cons_of_mem _ hz))
        (fun z hz => hg' z (List.mem_cons_of_mem _ hz))
      have hy := hp' y (by simp)
      have hgy := hg' y (by simp)
      simp only [List.map_cons, List.filter_cons, hy]
      cases h1 : p1 x <;> cases h2 : p2 y <;>
        simp only [h1, h2, Bool.and_true, Bool.and_false, Bool.false_eq_true, if_false, if_true,
          List.map_cons, List.sum_cons] at i2 ⊢
      · exact i2
      · exact i2
      · exact i2
      · rw [i2, hgy h1 h2]; ring
  unfold pairs
  clear hp hg
  induction l with
  | nil => simp
  | cons x l ih =>
    rw [List.flatMap_cons, List.filter_append, List.map_append, List.sum_append,
      ih (fun z hz => inner z (List.mem_cons_of_mem _ hz)), inner x (by simp), List.filter_cons]
    cases h : p1 x <;> simp [add_mul]

theorem length_pairs (l m : List (List ℤ)) (p p1 p2 : List ℤ → Bool)
    (hp : ∀ x ∈ l, ∀ y ∈ m, p (x ++ y) = (p1 x && p2 y)) :
    ((pairs l m).filter p).length = (l.filter p1).length * (m.filter p2).length := by
  have := sum_pairs (K := ℕ) l m p p1 p2 (fun _ => 1) (fun _ => 1) (fun _ => 1) hp
    (by intros; rfl)
  simpa using this

/-- binary product on concatenated sectors -/
def consCat (n : ℕ) (A B : Cat (List ℤ) ℂ) : Cat (List ℤ) ℂ where
  valid a := A.valid (a.take n) ∧ B.valid (a.drop n)
  unit := A.unit ++ B.unit
  out a b := pairs (A.out (a.take n) (b.take n)) (B.out (a.drop n) (b.drop n))
  dual a := A.dual (a.take n) ++ B.dual (a.drop n)
  F a b c d e f := A.F (a.take n) (b.take n) (c.take n) (d.take n) (e.take n) (f.take n) *
    B.F (a.drop n) (b.drop n) (c.drop n) (d.drop n) (e.drop n) (f.drop n)
  R a b c := A.R (a.take n) (b.take n) (c.take n) * B.R (a.drop n) (b.drop n) (c.drop n)
  C _ _ _ _ _ _ := 0

section
variable {n : ℕ} {A B : Cat (List ℤ) ℂ}

theorem eq_iff_take_drop (n : ℕ) (x y : List ℤ) : x = y ↔ x.take n = y.take n ∧ x.drop n = y.drop n := by
  constructor
  · rintro rfl; exact ⟨rfl, rfl⟩
  · rintro ⟨h1, h2⟩
    rw [← List.take_append_drop n x, ← List.take_append_drop n y, h1, h2]

theorem cons_out_len (hA : A.FusionRing) (hn : ∀ a, A.valid a → a.length = n) {a b : List ℤ}
    (ha : A.valid a) (hb : A.valid b) : ∀ x ∈ A.out a b, x.length = n :=
  fun x hx => hn x (hA.closed a b ha hb x hx)

theorem mem_cons_out (hA : A.FusionRing) (hn : ∀ a, A.valid a → a.length = n) {a b : List ℤ}
    (ha : A.valid (a.take n)) (hb : A.valid (b.take n)) (x : List ℤ) :
    x ∈ (consCat n A B).out a b ↔ x.take n ∈ A.out (a.take n) (b.take n) ∧
      x.drop n ∈ B.out (a.drop n) (b.drop n) :=
  mem_pairs (cons_out_len hA hn ha hb) x

theorem cons_ring (hA : A.FusionRing) (hB : B.FusionRing) (hn : ∀ a, A.valid a → a.length = n) :
    (consCat n A B).FusionRing := by
  have hu := hn _ hA.unit_valid
  have hut : (consCat n A B).unit.take n = A.unit := List.take_left' hu
  have hud : (consCat n A B).unit.drop n = B.unit := List.drop_left' hu
  have filtL : ∀ a b c d, (consCat n A B).valid a → (consCat n A B).valid b →
      (consCat n A B).valid c → (((consCat n A B).out a b).filter fun f =>
        d ∈ (consCat n A B).out f c).length =
      ((A.out (a.take n) (b.take n)).filter fun f => d.take n ∈ A.out f (c.take n)).length *
      ((B.out (a.drop n) (b.drop n)).filter fun f => d.drop n ∈ B.out f (c.drop n)).length := by
    intro a b c d ha hb hc
    apply length_pairs
    intro x hx y hy
    have hv := hA.closed _ _ ha.1 hb.1 x hx
    have hxl := hn x hv
    have ht : (x ++ y).take n = x := List.take_left' hxl
    have hd : (x ++ y).drop n = y := List.drop_left' hxl
    rw [Bool.eq_iff_iff]
    simp only [decide_eq_true_eq, Bool.and_eq_true]
    rw [mem_cons_out hA hn (by rw [ht]; exact hv) hc.1, ht, hd]
  have filtR : ∀ a b c d, (consCat n A B).valid a → (consCat n A B).valid b →
      (consCat n A B).valid c → (((consCat n A B).out b c).filter fun f =>
        d ∈ (consCat n A B).out a f).length =
      ((A.out (b.take n) (c.take n)).filter fun f => d.take n ∈ A.out (a.take n) f).length *
      ((B.out (b.drop n) (c.drop n)).filter fun f => d.drop n ∈ B.out (a.drop n) f).length := by
    intro a b c d ha hb hc
    apply length_pairs
    intro x hx y hy
    have hv := hA.closed _ _ hb.1 hc.1 x hx
    have hxl := hn x hv
    have ht : (x ++ y).take n = x := List.take_left' hxl
    have hd : (x ++ y).drop n = y := List.drop_left' hxl
    rw [Bool.eq_iff_iff]
    simp only [decide_eq_true_eq, Bool.and_eq_true]
    rw [mem_cons_out hA hn ha.1 (by rw [ht]; exact hv), ht, hd]
  constructor
  · show A.valid _ ∧ B.valid _
    rw [hut, hud]; exact ⟨hA.unit_valid, hB.unit_valid⟩
  · intro a b ha hb c hc
    rw [mem_cons_out hA hn ha.1 hb.1] at hc
    exact ⟨hA.closed _ _ ha.1 hb.1 _ hc.1, hB.closed _ _ ha.2 hb.2 _ hc.2⟩
  · intro a b ha hb
    exact nodup_pairs (cons_out_len hA hn ha.1 hb.1) (hA.nodup _ _ ha.1 hb.1) (hB.nodup _ _ ha.2 hb.2)
  · intro a ha
    show pairs _ _ = _
    rw [hut, hud, hA.unit_left _ ha.1, hB.unit_left _ ha.2]
    simp [pairs]
  · intro a ha
    show pairs _ _ = _
    rw [hut, hud, hA.unit_right _ ha.1, hB.unit_right _ ha.2]
    simp [pairs]
  · intro a b ha hb c
    rw [mem_cons_out hA hn ha.1 hb.1, mem_cons_out hA hn hb.1 ha.1, hA.comm _ _ ha.1 hb.1,
      hB.comm _ _ ha.2 hb.2]
  · intro a b c d ha hb hc hd
    have e1 := filtL a b c d ha hb hc
    have e2 := filtR a b c d ha hb hc
    have e3 := hA.assoc _ _ _ _ ha.1 hb.1 hc.1 hd.1
    have e4 := hB.assoc _ _ _ _ ha.2 hb.2 hc.2 hd.2
    have e : ∀ {x y p q r s : ℕ}, x = p * q → y = r * s → p = r → q = s → x = y := by
      rintro _ _ _ _ _ _ rfl rfl rfl rfl; rfl
    refine e (p := _) (q := _) (r := _) (s := _) ?_ ?_ e3 e4
    · convert e1
    · convert e2
  · intro a ha
    have h1 := hn _ (hA.dual_valid _ ha.1)
    show A.valid _ ∧ B.valid _
    simp only [consCat]
    rw [List.take_left' h1, List.drop_left' h1]
    exact ⟨hA.dual_valid _ ha.1, hB.dual_valid _ ha.2⟩
  · intro a ha
    have h1 := hn _ (hA.dual_valid _ ha.1)
    simp only [consCat]
    rw [List.take_left' h1, List.drop_left' h1, hA.dual_dual _ ha.1, hB.dual_dual _ ha.2,
      List.take_append_drop]
  · intro a b ha hb
    have h1 := hn _ (hA.dual_valid _ ha.1)
    rw [mem_cons_out hA hn ha.1 hb.1, hut, hud, hA.dual_iff _ _ ha.1 hb.1,
      hB.dual_iff _ _ ha.2 hb.2, eq_iff_take_drop n b]
    simp only [consCat]
    rw [List.take_left' h1, List.drop_left' h1]

theorem cons_rPhase (hA : A.FusionRing) (hn : ∀ a, A.valid a → a.length = n) (rA : A.RPhase)
    (rB : B.RPhase) : (consCat n A B).RPhase := by
  intro a b c ha hb hc
  rw [mem_cons_out hA hn ha.1 hb.1] at hc
  have h1 := rA _ _ _ ha.1 hb.1 hc.1
  have h2 := rB _ _ _ ha.2 hb.2 hc.2
  show A.R _ _ _ * B.R _ _ _ * star (A.R _ _ _ * B.R _ _ _) = 1
  rw [star_mul']
  calc _ = (A.R (a.take n) (b.take n) (c.take n) * star (A.R (a.take n) (b.take n) (c.take n))) *
      (B.R (a.drop n) (b.drop n) (c.drop n) * star (B.R (a.drop n) (b.drop n) (c.drop n))) := by ring
    _ = 1 := by rw [h1, h2, mul_one]

theorem cons_FUnitary (hA : A.FusionRing) (hn : ∀ a, A.valid a → a.length = n) (uA : A.FUnitary)
    (uB : B.FUnitary) : (consCat n A B).FUnitary := by
  have memL : ∀ a b c d x, (consCat n A B).valid a → (consCat n A B).valid b →
      (consCat n A B).valid c → (x ∈ (consCat n A B).chL a b c d ↔
        x.take n ∈ A.chL (a.take n) (b.take n) (c.take n) (d.take n) ∧
        x.drop n ∈ B.chL (a.drop n) (b.drop n) (c.drop n) (d.drop n)) := by
    intro a b c d x ha hb hc
    simp only [Cat.chL, List.mem_filter, decide_eq_true_eq]
    rw [mem_cons_out hA hn ha.1 hb.1]
    constructor
    · rintro ⟨⟨h1, h2⟩, h3⟩
      rw [mem_cons_out hA hn (hA.closed _ _ ha.1 hb.1 _ h1) hc.1] at h3
      exact ⟨⟨h1, h3.1⟩, h2, h3.2⟩
    · rintro ⟨⟨h1, h3⟩, h2, h4⟩
      rw [mem_cons_out hA hn (hA.closed _ _ ha.1 hb.1 _ h1) hc.1]
      exact ⟨⟨h1, h2⟩, h3, h4⟩
  have memR : ∀ a b c d x, (consCat n A B).valid a → (consCat n A B).valid b →
      (consCat n A B).valid c → (x ∈ (consCat n A B).chR a b c d ↔
        x.take n ∈ A.chR (a.take n) (b.take n) (c.take n) (d.take n) ∧
        x.drop n ∈ B.chR (a.drop n) (b.drop n) (c.drop n) (d.drop n)) := by
    intro a b c d x ha hb hc
    simp only [Cat.chR, List.mem_filter, decide_eq_true_eq]
    rw [mem_cons_out hA hn hb.1 hc.1]
    constructor
    · rintro ⟨⟨h1, h2⟩, h3⟩
      rw [mem_cons_out hA hn ha.1 (hA.closed _ _ hb.1 hc.1 _ h1)] at h3
      exact ⟨⟨h1, h3.1⟩, h2, h3.2⟩
    · rintro ⟨⟨h1, h3⟩, h2, h4⟩
      rw [mem_cons_out hA hn ha.1 (hA.closed _ _ hb.1 hc.1 _ h1)]
      exact ⟨⟨h1, h2⟩, h3, h4⟩
  have ite_mul_ite : ∀ (p q : Prop) [Decidable p] [Decidable q],
      (if p then (1 : ℂ) else 0) * (if q then 1 else 0) = if p ∧ q then 1 else 0 := by
    intro p q _ _; by_cases p <;> by_cases q <;> simp [*]
  constructor
  · intro a b c d ha hb hc hd f hf f' hf'
    rw [memL a b c d _ ha hb hc] at hf hf'
    have h1 := uA.rows _ _ _ _ ha.1 hb.1 hc.1 hd.1 _ hf.1 _ hf'.1
    have h2 := uB.rows _ _ _ _ ha.2 hb.2 hc.2 hd.2 _ hf.2 _ hf'.2
    have : (if f = f' then (1 : ℂ) else 0) = (if f.take n = f'.take n then 1 else 0) *
        (if f.drop n = f'.drop n then 1 else 0) := by
      rw [ite_mul_ite]; simp only [← eq_iff_take_drop]
    rw [this, ← h1, ← h2]
    apply sum_pairs
    · intro x hx y hy
      have hv := hA.closed _ _ hb.1 hc.1 x hx
      have ht : (x ++ y).take n = x := List.take_left' (hn x hv)
      have hd : (x ++ y).drop n = y := List.drop_left' (hn x hv)
      rw [Bool.eq_iff_iff]
      simp only [decide_eq_true_eq, Bool.and_eq_true]
      rw [mem_cons_out hA hn ha.1 (by rw [ht]; exact hv), ht, hd]
    · intro x hx y hy _ _
      have hv := hA.closed _ _ hb.1 hc.1 x hx
      have ht : (x ++ y).take n = x := List.take_left' (hn x hv)
      have hd : (x ++ y).drop n = y := List.drop_left' (hn x hv)
      simp only [consCat, ht, hd, star_mul']; ring
  · intro a b c d ha hb hc hd f hf f' hf'
    rw [memR a b c d _ ha hb hc] at hf hf'
    have h1 := uA.cols _ _ _ _ ha.1 hb.1 hc.1 hd.1 _ hf.1 _ hf'.1
    have h2 := uB.cols _ _ _ _ ha.2 hb.2 hc.2 hd.2 _ hf.2 _ hf'.2
    have : (if f = f' then (1 : ℂ) else 0) = (if f.take n = f'.take n then 1 else 0) *
        (if f.drop n = f'.drop n then 1 else 0) := by
      rw [ite_mul_ite]; simp only [← eq_iff_take_drop]
    rw [this, ← h1, ← h2]
    apply sum_pairs
    · intro x hx y hy
      have hv := hA.closed _ _ ha.1 hb.1 x hx
      have ht : (x ++ y).take n = x := List.take_left' (hn x hv)
      have hd : (x ++ y).drop n = y := List.drop_left' (hn x hv)
      rw [Bool.eq_iff_iff]
      simp only [decide_eq_true_eq, Bool.and_eq_true]
      rw [mem_cons_out hA hn (by rw [ht]; exact hv) hc.1, ht, hd]
    · intro x hx y hy _ _
      have hv := hA.closed _ _ ha.1 hb.1 x hx
      have ht : (x ++ y).take n = x := List.take_left' (hn x hv)
      have hd : (x ++ y).drop n = y := List.drop_left' (hn x hv)
      simp only [consCat, ht, hd, star_mul']; ring

theorem cons_pentagon (hA : A.FusionRing) (hB : B.FusionRing)
    (hn : ∀ a, A.valid a → a.length = n) (pA : A.Pentagon)
    (pB : B.Pentagon) : (consCat n A B).Pentagon := by
  have hR := cons_ring hA hB hn
  intro a b c d ha hb hc hd f hf g hg e he j hj i hi h1 h2
  have vf := hR.closed _ _ ha hb _ hf
  have vg := hR.closed _ _ vf hc _ hg
  have vj := hR.closed _ _ hc hd _ hj
  have vi := hR.closed _ _ hb vj _ hi
  rw [mem_cons_out hA hn ha.1 hb.1] at hf
  rw [mem_cons_out hA hn vf.1 hc.1] at hg
  rw [mem_cons_out hA hn vg.1 hd.1] at he
  rw [mem_cons_out hA hn hc.1 hd.1] at hj
  rw [mem_cons_out hA hn hb.1 vj.1] at hi
  rw [mem_cons_out hA hn vf.1 vj.1] at h1
  rw [mem_cons_out hA hn ha.1 vi.1] at h2
  have q1 := pA _ _ _ _ ha.1 hb.1 hc.1 hd.1 _ hf.1 _ hg.1 _ he.1 _ hj.1 _ hi.1 h1.1 h2.1
  have q2 := pB _ _ _ _ ha.2 hb.2 hc.2 hd.2 _ hf.2 _ hg.2 _ he.2 _ hj.2 _ hi.2 h1.2 h2.2
  have lhs : (consCat n A B).F f c d e j g * (consCat n A B).F a b j e i f =
      (A.F (f.take n) (c.take n) (d.take n) (e.take n) (j.take n) (g.take n) *
        A.F (a.take n) (b.take n) (j.take n) (e.take n) (i.take n) (f.take n)) *
      (B.F (f.drop n) (c.drop n) (d.drop n) (e.drop n) (j.drop n) (g.drop n) *
        B.F (a.drop n) (b.drop n) (j.drop n) (e.drop n) (i.drop n) (f.drop n)) := by
    simp only [consCat]; ring
  rw [lhs, q1, q2]
  symm
  apply sum_pairs
  · intro x hx y hy
    have hv := hA.closed _ _ hb.1 hc.1 x hx
    have ht : (x ++ y).take n = x := List.take_left' (hn x hv)
    have hd' : (x ++ y).drop n = y := List.drop_left' (hn x hv)
    rw [Bool.eq_iff_iff]
    simp only [decide_eq_true_eq, Bool.and_eq_true]
    rw [mem_cons_out hA hn ha.1 (by rw [ht]; exact hv),
      mem_cons_out hA hn (by rw [ht]; exact hv) hd.1, ht, hd']
    tauto
  · intro x hx y hy _ _
    have hv := hA.closed _ _ hb.1 hc.1 x hx
    have ht : (x ++ y).take n = x := List.take_left' (hn x hv)
    have hd' : (x ++ y).drop n = y := List.drop_left' (hn x hv)
    simp only [consCat, ht, hd']; ring

theorem cons_hexagon (hA : A.FusionRing) (hB : B.FusionRing)
    (hn : ∀ a, A.valid a → a.length = n) (pA : A.Hexagon)
    (pB : B.Hexagon) : (consCat n A B).Hexagon := by
  have hR := cons_ring hA hB hn
  intro a b c d ha hb hc hd e he hde g hg hdg
  have ve := hR.closed _ _ hc ha _ he
  have vg := hR.closed _ _ hc hb _ hg
  rw [mem_cons_out hA hn hc.1 ha.1] at he
  rw [mem_cons_out hA hn ve.1 hb.1] at hde
  rw [mem_cons_out hA hn hc.1 hb.1] at hg
  rw [mem_cons_out hA hn ha.1 vg.1] at hdg
  have q1 := pA _ _ _ _ ha.1 hb.1 hc.1 hd.1 _ he.1 hde.1 _ hg.1 hdg.1
  have q2 := pB _ _ _ _ ha.2 hb.2 hc.2 hd.2 _ he.2 hde.2 _ hg.2 hdg.2
  have lhs : (consCat n A B).R c a e * (consCat n A B).F a c b d g e * (consCat n A B).R c b g =
      (A.R (c.take n) (a.take n) (e.take n) *
        A.F (a.take n) (c.take n) (b.take n) (d.take n) (g.take n) (e.take n) *
        A.R (c.take n) (b.take n) (g.take n)) *
      (B.R (c.drop n) (a.drop n) (e.drop n) *
        B.F (a.drop n) (c.drop n) (b.drop n) (d.drop n) (g.drop n) (e.drop n) *
        B.R (c.drop n) (b.drop n) (g.drop n)) := by
    simp only [consCat]; ring
  rw [lhs, q1, q2]
  symm
  apply sum_pairs
  · intro x hx y hy
    have hv := hA.closed _ _ ha.1 hb.1 x hx
    have ht : (x ++ y).take n = x := List.take_left' (hn x hv)
    have hd' : (x ++ y).drop n = y := List.drop_left' (hn x hv)
    rw [Bool.eq_iff_iff]
    simp only [decide_eq_true_eq, Bool.and_eq_true]
    rw [mem_cons_out hA hn hc.1 (by rw [ht]; exact hv), ht, hd']
  · intro x hx y hy _ _
    have hv := hA.closed _ _ ha.1 hb.1 x hx
    have ht : (x ++ y).take n = x := List.take_left' (hn x hv)
    have hd' : (x ++ y).drop n = y := List.drop_left' (hn x hv)
    simp only [consCat, ht, hd']; ring

theorem cons_hexagon' (hA : A.FusionRing) (hB : B.FusionRing)
    (hn : ∀ a, A.valid a → a.length = n) (pA : A.Hexagon')
    (pB : B.Hexagon') : (consCat n A B).Hexagon' := by
  have hR := cons_ring hA hB hn
  intro a b c d ha hb hc hd e he hde g hg hdg
  have ve := hR.closed _ _ hc ha _ he
  have vg := hR.closed _ _ hc hb _ hg
  rw [mem_cons_out hA hn hc.1 ha.1] at he
  rw [mem_cons_out hA hn ve.1 hb.1] at hde
  rw [mem_cons_out hA hn hc.1 hb.1] at hg
  rw [mem_cons_out hA hn ha.1 vg.1] at hdg
  have q1 := pA _ _ _ _ ha.1 hb.1 hc.1 hd.1 _ he.1 hde.1 _ hg.1 hdg.1
  have q2 := pB _ _ _ _ ha.2 hb.2 hc.2 hd.2 _ he.2 hde.2 _ hg.2 hdg.2
  have lhs : star ((consCat n A B).R a c e) * (consCat n A B).F a c b d g e *
        star ((consCat n A B).R b c g) =
      (star (A.R (a.take n) (c.take n) (e.take n)) *
        A.F (a.take n) (c.take n) (b.take n) (d.take n) (g.take n) (e.take n) *
        star (A.R (b.take n) (c.take n) (g.take n))) *
      (star (B.R (a.drop n) (c.drop n) (e.drop n)) *
        B.F (a.drop n) (c.drop n) (b.drop n) (d.drop n) (g.drop n) (e.drop n) *
        star (B.R (b.drop n) (c.drop n) (g.drop n))) := by
    simp only [consCat, star_mul']; ring
  rw [lhs, q1, q2]
  symm
  apply sum_pairs
  · intro x hx y hy
    have hv := hA.closed _ _ ha.1 hb.1 x hx
    have ht : (x ++ y).take n = x := List.take_left' (hn x hv)
    have hd' : (x ++ y).drop n = y := List.drop_left' (hn x hv)
    rw [Bool.eq_iff_iff]
    simp only [decide_eq_true_eq, Bool.and_eq_true]
    rw [mem_cons_out hA hn hc.1 (by rw [ht]; exact hv), ht, hd']
  · intro x hx y hy _ _
    have hv := hA.closed _ _ ha.1 hb.1 x hx
    have ht : (x ++ y).take n = x := List.take_left' (hn x hv)
    have hd' : (x ++ y).drop n = y := List.drop_left' (hn x hv)
    simp only [consCat, ht, hd', star_mul']; ring

theorem cons_FR (hn : ∀ a, A.valid a → a.length = n) (hA : A.UnitaryBraidedFR)
    (hB : B.UnitaryBraidedFR) : (consCat n A B).UnitaryBraidedFR :=
  ⟨cons_ring hA.ring hB.ring hn, cons_rPhase hA.ring hn hA.rPhase hB.rPhase,
    cons_FUnitary hA.ring hn hA.fUnitary hB.fUnitary,
    cons_pentagon hA.ring hB.ring hn hA.pentagon hB.pentagon,
    cons_hexagon hA.ring hB.ring hn hA.hexagon hB.hexagon,
    cons_hexagon' hA.ring hB.ring hn hA.hexagon' hB.hexagon'⟩

end
end Cyten
