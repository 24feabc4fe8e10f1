import Verif.Model.ProductSymN
import Verif.Lemmas.CatNProd
import Verif.Lemmas.FusionSymbol

/-! # Products of symmetries with fusion multiplicities: the fold of `kron` -/

namespace Cyten.ProductSymN
open Spec CatNProd

/-- The symbols of allowed labels are arrays whose axes are the multiplicities. -/
structure Shapes (f : FactorN) : Prop where
  F : ∀ a b c d e g, f.valid a → f.valid b → f.valid c → f.valid d → f.valid e → f.valid g →
    0 < (facCat f).N b c e → 0 < (facCat f).N a e d → 0 < (facCat f).N a b g →
    0 < (facCat f).N g c d →
    ∃ s, f.F a b c d e g = some s ∧ s.rank = 4 ∧
      s.shape = ((facCat f).N b c e, (facCat f).N a e d, (facCat f).N a b g, (facCat f).N g c d) ∧
      s.data.length =
        (facCat f).N b c e * (facCat f).N a e d * (facCat f).N a b g * (facCat f).N g c d
  R : ∀ a b c, f.valid a → f.valid b → f.valid c → 0 < (facCat f).N a b c →
    ∃ s, f.R a b c = some s ∧ s.rank = 1 ∧ s.shape = ((facCat f).N a b c, 1, 1, 1) ∧
      s.data.length = (facCat f).N a b c

theorem foldlM_congr_mem {α β : Type} (l : List α) (g g' : β → α → Option β) (x : β)
    (h : ∀ y, ∀ p ∈ l, g y p = g' y p) : l.foldlM g x = l.foldlM g' x := by
  induction l generalizing x with
  | nil => rfl
  | cons p l ih =>
    rw [List.foldlM_cons, List.foldlM_cons, h x p (by simp)]
    congr 1
    funext y
    exact ih y fun y p hp => h y p (by simp [hp])

theorem slices_append (k : ℕ) (fs : List FactorN) (f : FactorN) :
    slices k (fs ++ [f]) = slices k fs ++ [(k + (fs.map FactorN.len).sum, f)] := by
  induction fs generalizing k with
  | nil => simp [slices]
  | cons g fs ih => simp [slices, ih, Nat.add_assoc]

theorem slices_bound (k : ℕ) (fs : List FactorN) :
    ∀ p ∈ slices k fs, p.1 + p.2.len ≤ k + (fs.map FactorN.len).sum := by
  induction fs generalizing k with
  | nil => simp [slices]
  | cons g fs ih =>
    intro p hp
    simp only [slices, List.mem_cons] at hp
    rcases hp with rfl | hp
    · simp [← Nat.add_assoc]
    · have := ih _ p hp
      simp only [List.map_cons, List.sum_cons]
      omega

theorem slices_mem (k : ℕ) (fs : List FactorN) : ∀ p ∈ slices k fs, p.2 ∈ fs := by
  induction fs generalizing k with
  | nil => simp [slices]
  | cons f fs ih =>
    intro p hp
    simp only [slices, List.mem_cons] at hp
    rcases hp with rfl | h
    · simp
    · exact List.mem_cons_of_mem _ (ih _ p h)

theorem slice_take (fs : List FactorN) (a : List ℤ) (p : ℕ × FactorN) (hp : p ∈ slices 0 fs) :
    slice (a.take (fs.map FactorN.len).sum) p = slice a p := by
  have := slices_bound 0 fs p hp
  unfold slice
  rw [List.drop_take, List.take_take, Nat.min_eq_left (by omega)]

theorem cartesian_append (ls : List (List (List ℤ))) (l : List (List ℤ)) :
    ProductSym.cartesian (ls ++ [l]) = pairs (ProductSym.cartesian ls) l := by
  induction ls with
  | nil => simp [ProductSym.cartesian, pairs]
  | cons x ls ih =>
    simp only [List.cons_append, ProductSym.cartesian, ih, pairs]
    rw [List.flatMap_assoc]
    refine List.flatMap_congr fun y _ => ?_
    simp only [List.map_flatMap, List.map_map, List.flatMap_map]
    refine List.flatMap_congr fun z _ => ?_
    refine List.map_congr_left fun w _ => ?_
    simp

/-- the product without the special case of no factors and without the shortcut for `_n_symbol` -/
noncomputable def base (fs : List FactorN) : FactorN where
  len := (fs.map FactorN.len).sum
  style := 20
  valid := valid fs
  unit := (fs.map FactorN.unit).flatten
  out a b := ProductSym.cartesian ((slices 0 fs).map fun p => p.2.out (slice a p) (slice b p))
  dual := dual fs
  n a b c := ((slices 0 fs).map fun p => p.2.n (slice a p) (slice b p) (slice c p)).prod
  F := fSym fs
  R := rSym fs
  qdim a := ((slices 0 fs).map fun p => p.2.qdim (slice a p)).prod

section
variable (fs : List FactorN) (f : FactorN)

theorem valid_append (hlen : ∀ a, f.valid a → a.length = f.len) (a : List ℤ) :
    valid (fs ++ [f]) a ↔ valid fs (a.take (fs.map FactorN.len).sum) ∧
      f.valid (a.drop (fs.map FactorN.len).sum) := by
  unfold valid
  rw [slices_append, List.map_append, List.sum_append]
  simp only [List.mem_append, List.mem_singleton, List.map_cons, List.map_nil, List.sum_singleton,
    Nat.zero_add]
  constructor
  · rintro ⟨h1, h2⟩
    refine ⟨⟨by rw [List.length_take, h1]; omega, fun p hp => ?_⟩, ?_⟩
    · rw [slice_take fs a p hp]; exact h2 p (Or.inl hp)
    · have := h2 _ (Or.inr rfl)
      unfold slice at this
      simp only at this
      rwa [List.take_of_length_le (by rw [List.length_drop, h1]; omega)] at this
  · rintro ⟨⟨h1, h2⟩, h3⟩
    have l := hlen _ h3
    rw [List.length_drop] at l
    rw [List.length_take] at h1
    have ll : a.length = (fs.map FactorN.len).sum + f.len := by
      have : (fs.map FactorN.len).sum ≤ a.length := by omega
      omega
    refine ⟨ll, ?_⟩
    rintro p (hp | rfl)
    · rw [← slice_take fs a p hp]; exact h2 p hp
    · unfold slice
      simp only
      rwa [List.take_of_length_le (by rw [List.length_drop, ll]; omega)]

theorem slice_last (hlen : ∀ a, f.valid a → a.length = f.len) (a : List ℤ)
    (ha : valid (fs ++ [f]) a) :
    slice a ((fs.map FactorN.len).sum, f) = a.drop (fs.map FactorN.len).sum := by
  have h := hlen _ ((valid_append fs f hlen a).1 ha).2
  unfold slice
  exact List.take_of_length_le h.le

theorem fSym_append (hlen : ∀ a, f.valid a → a.length = f.len) (a b c d e g : List ℤ)
    (ha : valid (fs ++ [f]) a) (hb : valid (fs ++ [f]) b) (hc : valid (fs ++ [f]) c)
    (hd : valid (fs ++ [f]) d) (he : valid (fs ++ [f]) e) (hg : valid (fs ++ [f]) g) :
    fSym (fs ++ [f]) a b c d e g =
      (fSym fs (a.take (fs.map FactorN.len).sum) (b.take (fs.map FactorN.len).sum)
        (c.take (fs.map FactorN.len).sum) (d.take (fs.map FactorN.len).sum)
        (e.take (fs.map FactorN.len).sum) (g.take (fs.map FactorN.len).sum)).bind fun res =>
      (f.F (a.drop (fs.map FactorN.len).sum) (b.drop (fs.map FactorN.len).sum)
        (c.drop (fs.map FactorN.len).sum) (d.drop (fs.map FactorN.len).sum)
        (e.drop (fs.map FactorN.len).sum) (g.drop (fs.map FactorN.len).sum)).bind fun Fi =>
      res.kron Fi := by
  unfold fSym
  rw [slices_append, List.foldlM_append, foldlM_congr_mem (slices 0 fs) _ (fun res p => do
    let Fi ← p.2.F (slice (a.take (fs.map FactorN.len).sum) p)
      (slice (b.take (fs.map FactorN.len).sum) p) (slice (c.take (fs.map FactorN.len).sum) p)
      (slice (d.take (fs.map FactorN.len).sum) p) (slice (e.take (fs.map FactorN.len).sum) p)
      (slice (g.take (fs.map FactorN.len).sum) p)
    res.kron Fi)]
  · simp only [List.foldlM_cons, List.foldlM_nil, Nat.zero_add, slice_last fs f hlen a ha,
      slice_last fs f hlen b hb, slice_last fs f hlen c hc, slice_last fs f hlen d hd,
      slice_last fs f hlen e he, slice_last fs f hlen g hg, Option.bind_eq_bind, bind_pure]
  · intro y p hp
    simp only [slice_take fs _ p hp]

theorem rSym_append (hlen : ∀ a, f.valid a → a.length = f.len) (a b c : List ℤ)
    (ha : valid (fs ++ [f]) a) (hb : valid (fs ++ [f]) b) (hc : valid (fs ++ [f]) c) :
    rSym (fs ++ [f]) a b c =
      (rSym fs (a.take (fs.map FactorN.len).sum) (b.take (fs.map FactorN.len).sum)
        (c.take (fs.map FactorN.len).sum)).bind fun res =>
      (f.R (a.drop (fs.map FactorN.len).sum) (b.drop (fs.map FactorN.len).sum)
        (c.drop (fs.map FactorN.len).sum)).bind fun Fi =>
      res.kron Fi := by
  unfold rSym
  rw [slices_append, List.foldlM_append, foldlM_congr_mem (slices 0 fs) _ (fun res p => do
    let Fi ← p.2.R (slice (a.take (fs.map FactorN.len).sum) p)
      (slice (b.take (fs.map FactorN.len).sum) p) (slice (c.take (fs.map FactorN.len).sum) p)
    res.kron Fi)]
  · simp only [List.foldlM_cons, List.foldlM_nil, Nat.zero_add, slice_last fs f hlen a ha,
      slice_last fs f hlen b hb, slice_last fs f hlen c hc, Option.bind_eq_bind, bind_pure]
  · intro y p hp
    simp only [slice_take fs _ p hp]

/-- `Q` has the data of the product of `fs ++ [f]`, possibly computing `_n_symbol` differently. -/
structure Like (Q : FactorN) : Prop where
  valid : ∀ a, Q.valid a ↔ valid (fs ++ [f]) a
  unit : Q.unit = (base (fs ++ [f])).unit
  out : Q.out = (base (fs ++ [f])).out
  dual : Q.dual = (base (fs ++ [f])).dual
  n : ∀ a b c, Q.valid a → Q.valid b → c ∈ Q.out a b → Q.n a b c = (base (fs ++ [f])).n a b c
  F : Q.F = fSym (fs ++ [f])
  R : Q.R = rSym (fs ++ [f])

variable {fs f}

theorem shape_zero_iff (s : FSym ℂ) {x y z w : ℕ} (h : s.shape = (x, y, z, w)) :
    s.s0 = x ∧ s.s1 = y ∧ s.s2 = z ∧ s.s3 = w := by
  simpa [FSym.shape] using h

/-- one more factor: the data are a binary product, and the shapes are the multiplicities -/
theorem like_prod {Q : FactorN} (hQ : Like fs f Q) (hlen : ∀ a, f.valid a → a.length = f.len)
    (hr : (facCat f).FusionRing) (hs : Shapes f) (br : (facCat (base fs)).FusionRing)
    (bs : Shapes (base fs)) :
    IsProd (fs.map FactorN.len).sum (facCat Q) (facCat (base fs)) (facCat f) ∧ Shapes Q := by
  set m := (fs.map FactorN.len).sum with hm
  have hv : ∀ a, Q.valid a ↔ valid fs (a.take m) ∧ f.valid (a.drop m) := fun a =>
    (hQ.valid a).trans (valid_append fs f hlen a)
  have hv' : ∀ a, Q.valid a → valid (fs ++ [f]) a := fun a ha => (hQ.valid a).1 ha
  have hbl : ∀ a, valid fs a → a.length = m := fun a ha => ha.1
  have hout : ∀ a b, Q.valid a → Q.valid b → Q.out a b =
      pairs ((base fs).out (a.take m) (b.take m)) (f.out (a.drop m) (b.drop m)) := by
    intro a b ha hb
    rw [hQ.out]
    show ProductSym.cartesian _ = _
    rw [slices_append, List.map_append, List.map_cons, List.map_nil, cartesian_append]
    simp only [Nat.zero_add, ← hm]
    rw [slice_last fs f hlen a (hv' a ha), slice_last fs f hlen b (hv' b hb)]
    congr 2
    refine List.map_congr_left fun p hp => ?_
    rw [slice_take fs a p hp, slice_take fs b p hp]
  have hmem : ∀ a b c, Q.valid a → Q.valid b → (c ∈ Q.out a b ↔
      c.take m ∈ (base fs).out (a.take m) (b.take m) ∧ c.drop m ∈ f.out (a.drop m) (b.drop m)) := by
    intro a b c ha hb
    rw [hout a b ha hb]
    exact mem_pairs (fun y hy => hbl y (br.closed _ _ ((hv a).1 ha).1 ((hv b).1 hb).1 y hy)) c
  have hN : ∀ a b c, Q.valid a → Q.valid b → Q.valid c → (facCat Q).N a b c =
      (facCat (base fs)).N (a.take m) (b.take m) (c.take m) *
        (facCat f).N (a.drop m) (b.drop m) (c.drop m) := by
    intro a b c ha hb hc
    simp only [facCat]
    have e := hmem a b c ha hb
    have en : (base (fs ++ [f])).n a b c = (base fs).n (a.take m) (b.take m) (c.take m) *
        f.n (a.drop m) (b.drop m) (c.drop m) := by
      show List.prod _ = List.prod _ * _
      rw [slices_append, List.map_append, List.map_cons, List.map_nil, List.prod_append,
        List.prod_singleton]
      simp only [Nat.zero_add, ← hm]
      rw [slice_last fs f hlen a (hv' a ha), slice_last fs f hlen b (hv' b hb),
        slice_last fs f hlen c (hv' c hc)]
      congr 2
      refine List.map_congr_left fun p hp => ?_
      rw [slice_take fs a p hp, slice_take fs b p hp, slice_take fs c p hp]
    by_cases h1 : c.take m ∈ (base fs).out (a.take m) (b.take m)
    · by_cases h2 : c.drop m ∈ f.out (a.drop m) (b.drop m)
      · rw [if_pos (e.2 ⟨h1, h2⟩), if_pos h1, if_pos h2, hQ.n a b c ha hb (e.2 ⟨h1, h2⟩), en]
      · rw [if_neg fun q => h2 (e.1 q).2, if_neg h2, Nat.mul_zero]
    · rw [if_neg fun q => h1 (e.1 q).1, if_neg h1, Nat.zero_mul]
  have hF : ∀ a b c d e g, Q.valid a → Q.valid b → Q.valid c → Q.valid d → Q.valid e → Q.valid g →
      0 < (facCat Q).N b c e → 0 < (facCat Q).N a e d → 0 < (facCat Q).N a b g →
      0 < (facCat Q).N g c d →
      ∃ s t u, fSym fs (a.take m) (b.take m) (c.take m) (d.take m) (e.take m) (g.take m) = some s ∧
        f.F (a.drop m) (b.drop m) (c.drop m) (d.drop m) (e.drop m) (g.drop m) = some t ∧
        Q.F a b c d e g = some u ∧ s.kron t = some u ∧ s.rank = 4 ∧ t.rank = 4 ∧
        s.shape = ((facCat (base fs)).N (b.take m) (c.take m) (e.take m),
          (facCat (base fs)).N (a.take m) (e.take m) (d.take m),
          (facCat (base fs)).N (a.take m) (b.take m) (g.take m),
          (facCat (base fs)).N (g.take m) (c.take m) (d.take m)) ∧
        t.shape = ((facCat f).N (b.drop m) (c.drop m) (e.drop m),
          (facCat f).N (a.drop m) (e.drop m) (d.drop m),
          (facCat f).N (a.drop m) (b.drop m) (g.drop m),
          (facCat f).N (g.drop m) (c.drop m) (d.drop m)) := by
    intro a b c d e g ha hb hc hd he hg p1 p2 p3 p4
    rw [hN _ _ _ hb hc he, mul_pos_iff_of_nat] at p1
    rw [hN _ _ _ ha he hd, mul_pos_iff_of_nat] at p2
    rw [hN _ _ _ ha hb hg, mul_pos_iff_of_nat] at p3
    rw [hN _ _ _ hg hc hd, mul_pos_iff_of_nat] at p4
    have va := (hv a).1 ha
    have vb := (hv b).1 hb
    have vc := (hv c).1 hc
    have vd := (hv d).1 hd
    have ve := (hv e).1 he
    have vg := (hv g).1 hg
    obtain ⟨s, s1, s2, s3, -⟩ := bs.F _ _ _ _ _ _ va.1 vb.1 vc.1 vd.1 ve.1 vg.1 p1.1 p2.1 p3.1 p4.1
    obtain ⟨t, t1, t2, t3, -⟩ := hs.F _ _ _ _ _ _ va.2 vb.2 vc.2 vd.2 ve.2 vg.2 p1.2 p2.2 p3.2 p4.2
    have s1' : fSym fs (a.take m) (b.take m) (c.take m) (d.take m) (e.take m) (g.take m) = some s := s1
    obtain ⟨u, hu⟩ : ∃ u, s.kron t = some u := by
      unfold FSym.kron
      rw [if_neg (by rw [s2, t2]; simp)]
      exact ⟨_, rfl⟩
    refine ⟨s, t, u, s1', t1, ?_, hu, s2, t2, s3, t3⟩
    rw [hQ.F, fSym_append fs f hlen a b c d e g (hv' a ha) (hv' b hb) (hv' c hc) (hv' d hd)
      (hv' e he) (hv' g hg), ← hm, s1', t1]
    exact hu
  have hR : ∀ a b c, Q.valid a → Q.valid b → Q.valid c → 0 < (facCat Q).N a b c →
      ∃ s t u, rSym fs (a.take m) (b.take m) (c.take m) = some s ∧
        f.R (a.drop m) (b.drop m) (c.drop m) = some t ∧
        Q.R a b c = some u ∧ s.kron t = some u ∧ s.rank = 1 ∧ t.rank = 1 ∧
        s.shape = ((facCat (base fs)).N (a.take m) (b.take m) (c.take m), 1, 1, 1) ∧
        t.shape = ((facCat f).N (a.drop m) (b.drop m) (c.drop m), 1, 1, 1) := by
    intro a b c ha hb hc p1
    rw [hN _ _ _ ha hb hc, mul_pos_iff_of_nat] at p1
    have va := (hv a).1 ha
    have vb := (hv b).1 hb
    have vc := (hv c).1 hc
    obtain ⟨s, s1, s2, s3, -⟩ := bs.R _ _ _ va.1 vb.1 vc.1 p1.1
    obtain ⟨t, t1, t2, t3, -⟩ := hs.R _ _ _ va.2 vb.2 vc.2 p1.2
    have s1' : rSym fs (a.take m) (b.take m) (c.take m) = some s := s1
    obtain ⟨u, hu⟩ : ∃ u, s.kron t = some u := by
      unfold FSym.kron
      rw [if_neg (by rw [s2, t2]; simp)]
      exact ⟨_, rfl⟩
    refine ⟨s, t, u, s1', t1, ?_, hu, s2, t2, s3, t3⟩
    rw [hQ.R, rSym_append fs f hlen a b c (hv' a ha) (hv' b hb) (hv' c hc), ← hm, s1', t1]
    exact hu
  have shp : Shapes Q := by
    constructor
    · intro a b c d e g ha hb hc hd he hg p1 p2 p3 p4
      obtain ⟨s, t, u, -, -, e3, e4, e5, e6, e7, e8⟩ := hF a b c d e g ha hb hc hd he hg p1 p2 p3 p4
      refine ⟨u, e3, ?_⟩
      obtain ⟨w1, w2, w3, w4⟩ := shape_zero_iff s e7
      obtain ⟨z1, z2, z3, z4⟩ := shape_zero_iff t e8
      unfold FSym.kron at e4
      rw [if_neg (by rw [e5, e6]; simp), Option.some.injEq] at e4
      subst e4
      refine ⟨e5, ?_, ?_⟩
      · show (s.s0 * t.s0, s.s1 * t.s1, s.s2 * t.s2, s.s3 * t.s3) = _
        rw [w1, w2, w3, w4, z1, z2, z3, z4, hN _ _ _ hb hc he, hN _ _ _ ha he hd,
          hN _ _ _ ha hb hg, hN _ _ _ hg hc hd]
      · rw [FSym.build_length, w1, w2, w3, w4, z1, z2, z3, z4, hN _ _ _ hb hc he,
          hN _ _ _ ha he hd, hN _ _ _ ha hb hg, hN _ _ _ hg hc hd]
    · intro a b c ha hb hc p1
      obtain ⟨s, t, u, -, -, e3, e4, e5, e6, e7, e8⟩ := hR a b c ha hb hc p1
      refine ⟨u, e3, ?_⟩
      obtain ⟨w1, w2, w3, w4⟩ := shape_zero_iff s e7
      obtain ⟨z1, z2, z3, z4⟩ := shape_zero_iff t e8
      unfold FSym.kron at e4
      rw [if_neg (by rw [e5, e6]; simp), Option.some.injEq] at e4
      subst e4
      refine ⟨e5, ?_, ?_⟩
      · show (s.s0 * t.s0, s.s1 * t.s1, s.s2 * t.s2, s.s3 * t.s3) = _
        rw [w1, w2, w3, w4, z1, z2, z3, z4, hN _ _ _ ha hb hc]
      · rw [FSym.build_length, w1, w2, w3, w4, z1, z2, z3, z4, hN _ _ _ ha hb hc]
        simp
  refine ⟨?_, shp⟩
  constructor
  · exact hbl
  · exact hv
  · show Q.unit = (base fs).unit ++ f.unit
    rw [hQ.unit]
    simp [base]
  · exact hout
  · intro a ha
    show Q.dual a = (base fs).dual _ ++ f.dual _
    rw [hQ.dual]
    show dual (fs ++ [f]) a = dual fs _ ++ _
    unfold dual
    rw [slices_append, List.map_append, List.flatten_append, List.map_cons, List.map_nil]
    simp only [Nat.zero_add, ← hm, List.flatten_cons, List.flatten_nil, List.append_nil]
    rw [slice_last fs f hlen a (hv' a ha)]
    congr 2
    refine List.map_congr_left fun p hp => ?_
    rw [slice_take fs a p hp]
  · exact hN
  · intro a b c d e g i j k l ha hb hc hd he hg h1 h2 h3 h4
    obtain ⟨s, t, u, e1, e2, e3, e4, e5, e6, e7, e8⟩ := hF a b c d e g ha hb hc hd he hg
      (by omega) (by omega) (by omega) (by omega)
    obtain ⟨w1, w2, w3, w4⟩ := shape_zero_iff s e7
    obtain ⟨z1, z2, z3, z4⟩ := shape_zero_iff t e8
    rw [hN _ _ _ hb hc he] at h1
    rw [hN _ _ _ ha he hd] at h2
    rw [hN _ _ _ ha hb hg] at h3
    rw [hN _ _ _ hg hc hd] at h4
    obtain ⟨u', k1, k2, k3, k4⟩ := FSym.kron_get s t (by rw [e5, e6]) i j k l
      (by rw [w1, z1]; exact h1) (by rw [w2, z2]; exact h2) (by rw [w3, z3]; exact h3)
      (by rw [w4, z4]; exact h4)
    rw [e4, Option.some.injEq] at k1
    subst k1
    show entry (Q.F a b c d e g) i j k l = entry (fSym fs _ _ _ _ _ _) _ _ _ _ *
      entry (f.F _ _ _ _ _ _) _ _ _ _
    rw [e1, e2, e3]
    show u.get i j k l = s.get _ _ _ _ * t.get _ _ _ _
    rw [k4, z1, z2, z3, z4]
  · intro a b c i ha hb hc h1
    obtain ⟨s, t, u, e1, e2, e3, e4, e5, e6, e7, e8⟩ := hR a b c ha hb hc (by omega)
    obtain ⟨w1, w2, w3, w4⟩ := shape_zero_iff s e7
    obtain ⟨z1, z2, z3, z4⟩ := shape_zero_iff t e8
    rw [hN _ _ _ ha hb hc] at h1
    obtain ⟨u', k1, k2, k3, k4⟩ := FSym.kron_get s t (by rw [e5, e6]) i 0 0 0
      (by rw [w1, z1]; exact h1) (by rw [w2, z2]; exact Nat.one_pos)
      (by rw [w3, z3]; exact Nat.one_pos) (by rw [w4, z4]; exact Nat.one_pos)
    rw [e4, Option.some.injEq] at k1
    subst k1
    show entry (Q.R a b c) i 0 0 0 = entry (rSym fs _ _ _) _ _ _ _ * entry (f.R _ _ _) _ _ _ _
    rw [e1, e2, e3]
    show u.get i 0 0 0 = s.get _ _ _ _ * t.get _ _ _ _
    rw [k4, z1, z2, z3, z4, Nat.zero_div, Nat.zero_mod]

end

/-- no factor: the trivial category -/
theorem base_nil_core : Core (facCat (base [])) ∧ Shapes (base []) := by
  have hv : ∀ a, (facCat (base [])).valid a ↔ a = [] := by
    intro a
    show valid [] a ↔ _
    simp [valid, slices]
  have ho : ∀ a b, (facCat (base [])).out a b = [[]] := fun _ _ => rfl
  have hN : ∀ a b, (facCat (base [])).N a b [] = 1 := by
    intro a b
    simp [facCat, base, slices, ProductSym.cartesian]
  have hF : ∀ a b c d e f, (facCat (base [])).F a b c d e f 0 0 0 0 = 1 := by
    intro a b c d e f
    show entry (fSym [] a b c d e f) 0 0 0 0 = 1
    simp [fSym, slices, entry, FSym.one4D, FSym.get]
  have hR : ∀ a b c, (facCat (base [])).R a b c 0 = 1 := by
    intro a b c
    show entry (rSym [] a b c) 0 0 0 0 = 1
    simp [rSym, slices, entry, FSym.one1D, FSym.get]
  have hU : (facCat (base [])).unit = [] := rfl
  have hD : ∀ a, (facCat (base [])).dual a = [] := fun _ => rfl
  have hcR : ∀ a b c, (facCat (base [])).chR a b c [] = [([], 0, 0)] := by
    intro a b c
    simp [CatN.chR, ho, hN]
  have hcL : ∀ a b c, (facCat (base [])).chL a b c [] = [([], 0, 0)] := by
    intro a b c
    simp [CatN.chL, ho, hN]
  refine ⟨⟨?_, ?_, ?_, ?_, ?_, ?_, ?_⟩, ?_⟩
  · constructor
    · rw [hv]; exact hU
    · intro a b _ _ c hc; rw [ho] at hc; rw [hv]; simpa using hc
    · intro a b _ _; rw [ho]; simp
    · intro a b c _ _ hc; rw [hv] at hc; subst hc; rw [ho, hN]; simp
    · intro a c ha hc; rw [hv] at ha hc; subst ha hc; rw [hN]; simp
    · intro a c ha hc; rw [hv] at ha hc; subst ha hc; rw [hN]; simp
    · intro a b c _ _ hc; rw [hv] at hc; subst hc; rw [hN, hN]
    · intro a b c d _ _ _ hd; rw [hv] at hd; subst hd; simp [ho, hN]
    · intro a _; rw [hv]; exact hD a
    · intro a ha; rw [hv] at ha; subst ha; rfl
    · intro a b _ hb; rw [hv] at hb; subst hb; rw [hU, hN, hD]; simp
    · intro a b c ha hb hc; rw [hv] at ha hb hc; subst ha hb hc; rw [hN, hN]
  · constructor
    · intro a b c _ _ hc μ hμ
      rw [ho, List.mem_singleton] at hc; subst hc
      rw [hN] at hμ
      have : μ = 0 := by omega
      subst this
      rw [hR]; simp
    · intro a _; rw [hR, hR]; simp
  · constructor
    · intro a b c d _ _ _ hd x hx x' hx'
      rw [hv] at hd; subst hd
      rw [hcR, List.mem_singleton] at hx hx'; subst hx hx'
      simp [hcL, CatN.FM, hF]
    · intro a b c d _ _ _ hd x hx x' hx'
      rw [hv] at hd; subst hd
      rw [hcL, List.mem_singleton] at hx hx'; subst hx hx'
      simp [hcR, CatN.FM, hF]
  · intro b c d _ _ hd μ hμ ν hν
    rw [ho, List.mem_singleton] at hd; subst hd
    rw [hN] at hμ hν
    have e1 : μ = 0 := by omega
    have e2 : ν = 0 := by omega
    subst e1 e2
    simp [hF]
  · intro a b c d ha hb hc hd f hf g hg e he j hj i hi hm μ hμ ν hν ρ hρ γ hγ δ hδ κ hκ
    rw [ho, List.mem_singleton] at hf hg he hj hi
    subst hf hg he hj hi
    rw [hN] at hμ hν hρ hγ hδ hκ
    have e1 : μ = 0 := by omega
    have e2 : ν = 0 := by omega
    have e3 : ρ = 0 := by omega
    have e4 : γ = 0 := by omega
    have e5 : δ = 0 := by omega
    have e6 : κ = 0 := by omega
    subst e1 e2 e3 e4 e5 e6
    simp [ho, hN, hF]
  · intro a b c d ha hb hc hd e he g hg α hα β hβ μ hμ ν hν
    rw [hv] at hd; subst hd
    rw [ho, List.mem_singleton] at he hg
    subst he hg
    rw [hN] at hα hβ hμ hν
    have e1 : μ = 0 := by omega
    have e2 : ν = 0 := by omega
    have e3 : α = 0 := by omega
    have e4 : β = 0 := by omega
    subst e1 e2 e3 e4
    simp [ho, hN, hF, hR]
  · intro a b c d ha hb hc hd e he g hg α hα β hβ μ hμ ν hν
    rw [hv] at hd; subst hd
    rw [ho, List.mem_singleton] at he hg
    subst he hg
    rw [hN] at hα hβ hμ hν
    have e1 : μ = 0 := by omega
    have e2 : ν = 0 := by omega
    have e3 : α = 0 := by omega
    have e4 : β = 0 := by omega
    subst e1 e2 e3 e4
    simp [ho, hN, hF, hR]
  · have hv2 : ∀ a, (base []).valid a → a = [] := fun a ha => (hv a).1 ha
    constructor
    · intro a b c d e g ha hb hc hd he hg _ _ _ _
      have q := hv2
      rw [q d hd, q e he, q g hg, hN, hN, hN, hN]
      exact ⟨FSym.one4D, rfl, rfl, rfl, rfl⟩
    · intro a b c ha hb hc _
      rw [hv2 c hc, hN]
      exact ⟨FSym.one1D, rfl, rfl, rfl, rfl⟩

/-- what is assumed of every factor -/
structure Good (f : FactorN) : Prop where
  len : ∀ a, f.valid a → a.length = f.len
  core : Core (facCat f)
  shapes : Shapes f

theorem base_core (fs : List FactorN) (h : ∀ f ∈ fs, Good f) :
    Core (facCat (base fs)) ∧ Shapes (base fs) := by
  induction fs using List.reverseRecOn with
  | nil => exact base_nil_core
  | append_singleton fs f ih =>
    obtain ⟨i1, i2⟩ := ih fun g hg => h g (by simp [hg])
    have hf := h f (by simp)
    obtain ⟨p, s⟩ := like_prod (fs := fs) (f := f) (Q := base (fs ++ [f]))
      ⟨fun _ => Iff.rfl, rfl, rfl, rfl, fun _ _ _ _ _ _ => rfl, rfl, rfl⟩ hf.len hf.core.ring hf.shapes
      i1.ring i2
    exact ⟨core_of_prod p i1 hf.core, s⟩

theorem foldl_max (l : List FactorN) (r : ℕ) :
    r ≤ l.foldl (fun s g => if g.style > s then g.style else s) r ∧
    (∀ f ∈ l, f.style ≤ l.foldl (fun s g => if g.style > s then g.style else s) r) := by
  induction l generalizing r with
  | nil => simp
  | cons f l ih =>
    simp only [List.foldl_cons, List.mem_cons]
    obtain ⟨h1, h2⟩ := ih (if f.style > r then f.style else r)
    constructor
    · refine le_trans ?_ h1; split <;> omega
    · rintro g (rfl | hg)
      · refine le_trans ?_ h1; split <;> omega
      · exact h2 g hg

theorem style_le (fs : List FactorN) : ∀ f ∈ fs, f.style ≤ maxStyle fs := by
  cases fs with
  | nil => simp
  | cons f fs =>
    intro g hg
    rcases List.mem_cons.1 hg with rfl | h
    · exact (foldl_max fs _).1
    · exact (foldl_max fs _).2 g h

theorem foldl_mul' {M : Type} [Monoid M] {α : Type} (l : List α) (g : α → M) (r : M) :
    l.foldl (fun r p => r * g p) r = r * (l.map g).prod := by
  induction l generalizing r with
  | nil => simp
  | cons x l ih => simp [ih, mul_assoc]

/-- outcomes of the product restrict to outcomes of the factors -/
theorem mem_base_out (fs : List FactorN) (h : ∀ f ∈ fs, Good f) (a b c : List ℤ)
    (ha : valid fs a) (hb : valid fs b) :
    c ∈ (base fs).out a b ↔ c.length = (fs.map FactorN.len).sum ∧
      ∀ p ∈ slices 0 fs, slice c p ∈ p.2.out (slice a p) (slice b p) := by
  induction fs using List.reverseRecOn generalizing a b c with
  | nil => simp [base, slices, ProductSym.cartesian]
  | append_singleton fs f ih =>
    have hf := h f (by simp)
    have h' : ∀ g ∈ fs, Good g := fun g hg => h g (by simp [hg])
    obtain ⟨i1, i2⟩ := base_core fs h'
    obtain ⟨P, -⟩ := like_prod (fs := fs) (f := f) (Q := base (fs ++ [f]))
      ⟨fun _ => Iff.rfl, rfl, rfl, rfl, fun _ _ _ _ _ _ => rfl, rfl, rfl⟩ hf.len hf.core.ring hf.shapes
      i1.ring i2
    have e := mem_out P i1.ring ha hb c
    have va := (valid_append fs f hf.len a).1 ha
    have vb := (valid_append fs f hf.len b).1 hb
    refine e.trans ?_
    show c.take _ ∈ (base fs).out _ _ ∧ c.drop _ ∈ f.out _ _ ↔ _
    rw [ih h' _ _ _ va.1 vb.1, slices_append]
    simp only [List.mem_append, List.mem_singleton, List.map_append, List.sum_append, List.map_cons,
      List.map_nil, List.sum_singleton, Nat.zero_add]
    constructor
    · rintro ⟨⟨l1, l2⟩, l3⟩
      have ll := hf.len _ (hf.core.ring.closed _ _ va.2 vb.2 _ l3)
      rw [List.length_drop] at ll
      rw [List.length_take] at l1
      have lc : c.length = (fs.map FactorN.len).sum + f.len := by
        have : (fs.map FactorN.len).sum ≤ c.length := by omega
        omega
      refine ⟨lc, ?_⟩
      rintro p (hp | rfl)
      · have := l2 p hp
        rwa [slice_take fs c p hp, slice_take fs a p hp, slice_take fs b p hp] at this
      · rw [slice_last fs f hf.len a ha, slice_last fs f hf.len b hb]
        unfold slice
        simp only
        rwa [List.take_of_length_le (by rw [List.length_drop, lc]; omega)]
    · rintro ⟨l1, l2⟩
      refine ⟨⟨by rw [List.length_take, l1]; omega, fun p hp => ?_⟩, ?_⟩
      · rw [slice_take fs c p hp, slice_take fs a p hp, slice_take fs b p hp]
        exact l2 p (Or.inl hp)
      · have := l2 _ (Or.inr rfl)
        rw [slice_last fs f hf.len a ha, slice_last fs f hf.len b hb] at this
        unfold slice at this
        simp only at this
        rwa [List.take_of_length_le (by rw [List.length_drop, l1]; omega)] at this

/-- `_n_symbol` with its shortcut is the product of the factors' `_n_symbol`s -/
theorem n_eq (fs : List FactorN) (h : ∀ f ∈ fs, Good f)
    (hu : ∀ f ∈ fs, f.style ≤ 10 → ∀ a b c, f.valid a → f.valid b → c ∈ f.out a b → f.n a b c = 1)
    (a b c : List ℤ) (ha : valid fs a) (hb : valid fs b) (hc : c ∈ (base fs).out a b) :
    n fs a b c = (base fs).n a b c := by
  unfold n
  show _ = List.prod _
  split
  · next hs =>
    symm
    apply List.prod_eq_one
    intro x hx
    obtain ⟨p, hp, rfl⟩ := List.mem_map.1 hx
    have hm := slices_mem 0 fs p hp
    exact hu _ hm (le_trans (style_le fs _ hm) hs) _ _ _ (ha.2 p hp) (hb.2 p hp)
      (((mem_base_out fs h a b c ha hb).1 hc).2 p hp)
  · rw [foldl_mul', one_mul]

/-- the last step of the product, with the code's `_n_symbol` -/
theorem symmetry_prod (fs : List FactorN) (f : FactorN) (h : ∀ g ∈ fs ++ [f], Good g)
    (hu : ∀ g ∈ fs ++ [f], g.style ≤ 10 → ∀ a b c, g.valid a → g.valid b → c ∈ g.out a b →
      g.n a b c = 1) :
    IsProd (fs.map FactorN.len).sum (facCat (symmetry (fs ++ [f]))) (facCat (base fs)) (facCat f) ∧
      Shapes (symmetry (fs ++ [f])) := by
  have h' : ∀ g ∈ fs, Good g := fun g hg => h g (by simp [hg])
  have hf := h f (by simp)
  obtain ⟨i1, i2⟩ := base_core fs h'
  have ho : (symmetry (fs ++ [f])).out = (base (fs ++ [f])).out := by
    funext a b
    show fusionOutcomes _ a b = _
    unfold fusionOutcomes
    simp [base]
  exact like_prod (fs := fs) (f := f) (Q := symmetry (fs ++ [f]))
    ⟨fun _ => Iff.rfl, rfl, ho, rfl, fun a b c ha hb hc =>
      n_eq _ h hu a b c ha hb (by rw [← ho]; exact hc), rfl, rfl⟩ hf.len hf.core.ring hf.shapes
    i1.ring i2

/-- the product is again a good factor -/
theorem symmetry_good (fs : List FactorN) (hne : fs ≠ []) (h : ∀ g ∈ fs, Good g)
    (hu : ∀ g ∈ fs, g.style ≤ 10 → ∀ a b c, g.valid a → g.valid b → c ∈ g.out a b →
      g.n a b c = 1) : Good (symmetry fs) := by
  obtain ⟨gs, f, rfl⟩ : ∃ gs f, fs = gs ++ [f] := ⟨_, _, (List.dropLast_append_getLast hne).symm⟩
  obtain ⟨p, s⟩ := symmetry_prod gs f h hu
  exact ⟨fun a ha => ha.1, core_of_prod p (base_core gs fun g hg => h g (by simp [hg])).1
    (h f (by simp)).core, s⟩

/-- C-symbols of a good factor -/
theorem good_C (f : FactorN) (h : Good f) : (facCat f).CFromFR ∧ (facCat f).CUnitary ∧
    ∀ a b c d e g, f.valid a → f.valid b → f.valid c → f.valid d → f.valid e → f.valid g →
      0 < (facCat f).N a b e → 0 < (facCat f).N e c d → 0 < (facCat f).N a c g →
      0 < (facCat f).N g b d →
      ∃ s, defaultC f.F f.R a b c d e g = some s ∧
        s.shape = ((facCat f).N a b e, (facCat f).N e c d, (facCat f).N a c g,
          (facCat f).N g b d) := by
  have hr := h.core.ring
  have key : ∀ a b c d e g, f.valid a → f.valid b → f.valid c → f.valid d → f.valid e → f.valid g →
      0 < (facCat f).N a b e → 0 < (facCat f).N e c d → 0 < (facCat f).N a c g →
      0 < (facCat f).N g b d →
      ∃ s, defaultC f.F f.R a b c d e g = some s ∧
        s.shape = ((facCat f).N a b e, (facCat f).N e c d, (facCat f).N a c g,
          (facCat f).N g b d) ∧
        ∀ μ < (facCat f).N a b e, ∀ ν < (facCat f).N e c d, ∀ κ < (facCat f).N a c g,
          ∀ l < (facCat f).N g b d, s.get μ ν κ l = (facCat f).R e c d ν *
            (facCat f).F c a b d e g μ ν κ l * star ((facCat f).R a c g κ) := by
    intro a b c d e g ha hb hc hd he hg p1 p2 p3 p4
    have p2' : 0 < (facCat f).N c e d := by rw [hr.comm c e d hc he hd]; exact p2
    have p3' : 0 < (facCat f).N c a g := by rw [hr.comm c a g hc ha hg]; exact p3
    obtain ⟨S, S1, S2, S3, -⟩ := h.shapes.F c a b d e g hc ha hb hd he hg p1 p2' p3' p4
    obtain ⟨r1, R1, -, R13, -⟩ := h.shapes.R e c d he hc hd p2
    obtain ⟨r2, R2, -, R23, -⟩ := h.shapes.R a c g ha hc hg p3
    rw [hr.comm c e d hc he hd, hr.comm c a g hc ha hg] at S3
    obtain ⟨s, q1, -, q3, q4⟩ := FSym.cSym_get r1 S r2.conj _ _ _ _ S3 S2 R13 R23
    refine ⟨s, ?_, q3, ?_⟩
    · unfold defaultC
      rw [S1, R1, R2]
      exact q1
    · intro μ hμ ν hν κ hκ l hl
      rw [q4 μ hμ ν hν κ hκ l hl, FSym.conj_get (star_zero ℂ)]
      show _ = entry (f.R e c d) ν 0 0 0 * entry (f.F c a b d e g) μ ν κ l *
        star (entry (f.R a c g) κ 0 0 0)
      rw [S1, R1, R2]
      rfl
  have hfr : (facCat f).CFromFR := by
    intro a b c d ha hb hc hd e he g hg μ hμ ν hν κ hκ l hl
    have ve := hr.closed a b ha hb e he
    have vg := hr.closed a c ha hc g hg
    obtain ⟨s, q1, -, q3⟩ := key a b c d e g ha hb hc hd ve vg (by omega) (by omega) (by omega)
      (by omega)
    rw [← q3 μ hμ ν hν κ hκ l hl]
    show entry (defaultC f.F f.R a b c d e g) μ ν κ l = _
    rw [q1]; rfl
  refine ⟨hfr, ?_, fun a b c d e g ha hb hc hd he hg p1 p2 p3 p4 => by
    obtain ⟨s, q1, q2, -⟩ := key a b c d e g ha hb hc hd he hg p1 p2 p3 p4
    exact ⟨s, q1, q2⟩⟩
  intro a b c d ha hb hc hd x hx x' hx'
  obtain ⟨e, μ, ν⟩ := x
  obtain ⟨e', μ', ν'⟩ := x'
  rw [mem_chL] at hx hx'
  obtain ⟨m1, m2, m3⟩ := hx
  obtain ⟨m1', m2', m3'⟩ := hx'
  simp only at m1 m2 m3 m1' m2' m3'
  have ve := hr.closed a b ha hb e m1
  have ve' := hr.closed a b ha hb e' m1'
  have step : ∀ y ∈ (facCat f).chL a c b d,
      (facCat f).CM a b c d (e, μ, ν) y * star ((facCat f).CM a b c d (e', μ', ν') y) =
      (facCat f).R e c d ν * star ((facCat f).R e' c d ν') *
        ((facCat f).FM c a b d (e, μ, ν) y * star ((facCat f).FM c a b d (e', μ', ν') y)) := by
    rintro ⟨g, κ, l⟩ hy
    rw [mem_chL] at hy
    obtain ⟨n1, n2, n3⟩ := hy
    simp only at n1 n2 n3
    have ph := h.core.rPhase.phase a c g ha hc n1 κ n2
    simp only [CatN.CM, CatN.FM]
    rw [hfr a b c d ha hb hc hd e m1 g n1 μ m2 ν m3 κ n2 l n3,
      hfr a b c d ha hb hc hd e' m1' g n1 μ' m2' ν' m3' κ n2 l n3]
    simp only [star_mul', star_star]
    have : ∀ r1 F1 q r2 F2 : ℂ, r1 * F1 * star q * (r2 * F2 * q) = (r1 * r2) * (F1 * F2) * (q * star q) := by
      intros; ring
    rw [this, ph, mul_one]
  rw [ListSum.sum_congr _ step, ← ListSum.mul_sum]
  have perm : ((facCat f).out a c).Perm ((facCat f).out c a) := by
    refine (List.perm_ext_iff_of_nodup (hr.nodup a c ha hc) (hr.nodup c a hc ha)).2 fun x => ?_
    constructor
    · intro hx
      have vx := hr.closed a c ha hc x hx
      rw [hr.mem_iff c a x hc ha vx, hr.comm c a x hc ha vx]
      exact (hr.mem_iff a c x ha hc vx).1 hx
    · intro hx
      have vx := hr.closed c a hc ha x hx
      rw [hr.mem_iff a c x ha hc vx, hr.comm a c x ha hc vx]
      exact (hr.mem_iff c a x hc ha vx).1 hx
  have sums : ∀ G : List ℤ × ℕ × ℕ → ℂ, (((facCat f).chL a c b d).map G).sum =
      (((facCat f).chL c a b d).map G).sum := by
    intro G
    rw [sum_chL, sum_chL, (perm.map _).sum_eq]
    refine ListSum.sum_congr _ fun x hx => ?_
    rw [hr.comm a c x ha hc (hr.closed c a hc ha x hx)]
  rw [sums, h.core.fUnitary.rows c a b d hc ha hb hd (e, μ, ν)
    ((mem_chR _ _ _ _ _ _).2 ⟨m1, m2, by
      show ν < _
      rwa [hr.comm c e d hc ve hd]⟩) (e', μ', ν')
    ((mem_chR _ _ _ _ _ _).2 ⟨m1', m2', by
      show ν' < _
      rwa [hr.comm c e' d hc ve' hd]⟩)]
  by_cases he : (e, μ, ν) = (e', μ', ν')
  · rw [if_pos he, mul_one]
    obtain ⟨rfl, rfl, rfl⟩ : e = e' ∧ μ = μ' ∧ ν = ν' := by simpa using he
    refine h.core.rPhase.phase e c d ve hc ?_ ν m3
    rw [hr.mem_iff e c d ve hc hd]
    omega
  · rw [if_neg he, mul_zero]

/-! ### Quantum dimensions, twists, bending -/

theorem base_qdim_append (fs : List FactorN) (f : FactorN) (hlen : ∀ a, f.valid a → a.length = f.len)
    (a : List ℤ) (ha : valid (fs ++ [f]) a) :
    (base (fs ++ [f])).qdim a = (base fs).qdim (a.take (fs.map FactorN.len).sum) *
      f.qdim (a.drop (fs.map FactorN.len).sum) := by
  show List.prod _ = List.prod _ * _
  rw [slices_append, List.map_append, List.map_cons, List.map_nil, List.prod_append,
    List.prod_singleton]
  simp only [Nat.zero_add]
  rw [slice_last fs f hlen a ha]
  congr 2
  refine List.map_congr_left fun p hp => ?_
  rw [slice_take fs a p hp]

theorem qdim_base (fs : List FactorN)
    (habelian : ∀ f ∈ fs, f.style = 0 → ∀ a, f.valid a → f.qdim a = 1) (a : List ℤ)
    (ha : valid fs a) : qdim fs a = (base fs).qdim a := by
  unfold qdim
  show _ = List.prod _
  split
  · next hs =>
    symm
    apply List.prod_eq_one
    intro x hx
    obtain ⟨p, hp, rfl⟩ := List.mem_map.1 hx
    have hm := slices_mem 0 fs p hp
    exact habelian _ hm (Nat.le_zero.1 (hs ▸ style_le fs _ hm)) _ (ha.2 p hp)
  · rw [foldl_mul', one_mul]

/-- the binary product of `base` -/
theorem base_prod (fs : List FactorN) (f : FactorN) (h : ∀ g ∈ fs ++ [f], Good g) :
    IsProd (fs.map FactorN.len).sum (facCat (base (fs ++ [f]))) (facCat (base fs)) (facCat f) := by
  obtain ⟨i1, i2⟩ := base_core fs fun g hg => h g (by simp [hg])
  have hf := h f (by simp)
  exact (like_prod (fs := fs) (f := f) (Q := base (fs ++ [f]))
    ⟨fun _ => Iff.rfl, rfl, rfl, rfl, fun _ _ _ _ _ _ => rfl, rfl, rfl⟩ hf.len hf.core.ring hf.shapes
    i1.ring i2).1

theorem base_nil_valid (a : List ℤ) (h : valid [] a) : a = [] := by
  simpa [valid, slices] using h

theorem base_qdimChar (fs : List FactorN) (h : ∀ g ∈ fs, Good g)
    (hq : ∀ g ∈ fs, (facCat g).QdimCharacter g.qdim) :
    (facCat (base fs)).QdimCharacter (base fs).qdim := by
  induction fs using List.reverseRecOn with
  | nil =>
    have ho : ∀ a b, (facCat (base [])).out a b = [[]] := fun _ _ => rfl
    have hq1 : ∀ a, (base []).qdim a = 1 := by intro a; simp [base, slices]
    have hN : ∀ a b, (facCat (base [])).N a b [] = 1 := by
      intro a b
      simp [facCat, base, slices, ProductSym.cartesian]
    refine ⟨?_, ?_, ?_, ?_⟩
    · intro a _; rw [hq1]; exact one_pos
    · rw [hq1]
    · intro a b _ _
      simp [hq1, ho, hN]
    · intro a _; rw [hq1, hq1]
  | append_singleton fs f ih =>
    have h' : ∀ g ∈ fs, Good g := fun g hg => h g (by simp [hg])
    have hf := h f (by simp)
    exact qdimChar (base_prod fs f h) (base_core fs h').1.ring hf.core.ring
      (fun a ha => base_qdim_append fs f hf.len a ha) (ih h' fun g hg => hq g (by simp [hg]))
      (hq f (by simp))

theorem symmetry_qdim_append (fs : List FactorN) (f : FactorN) (h : ∀ g ∈ fs ++ [f], Good g)
    (habelian : ∀ g ∈ fs ++ [f], g.style = 0 → ∀ a, g.valid a → g.qdim a = 1) (a : List ℤ)
    (ha : valid (fs ++ [f]) a) :
    qdim (fs ++ [f]) a = (base fs).qdim (a.take (fs.map FactorN.len).sum) *
      f.qdim (a.drop (fs.map FactorN.len).sum) := by
  rw [qdim_base _ habelian a ha, base_qdim_append fs f (h f (by simp)).len a ha]

/-- the sum of an R-symbol is the sum over the multiplicity index -/
theorem good_R_sum (f : FactorN) (h : Good f) (a b c : List ℤ) (ha : f.valid a) (hb : f.valid b)
    (hc : c ∈ f.out a b) :
    ((f.R a b c).map FSym.sum).getD 0 =
      ((List.range ((facCat f).N a b c)).map fun μ => (facCat f).R a b c μ).sum := by
  have hr := h.core.ring
  have vc := hr.closed a b ha hb c hc
  obtain ⟨s, s1, -, s3, s4⟩ := h.shapes.R a b c ha hb vc ((hr.mem_iff a b c ha hb vc).1 hc)
  obtain ⟨w1, w2, w3, w4⟩ := shape_zero_iff s s3
  show _ = ((List.range ((facCat f).N a b c)).map fun μ => entry (f.R a b c) μ 0 0 0).sum
  rw [s1]
  show s.data.foldl (· + ·) 0 = ((List.range _).map fun μ => s.get μ 0 0 0).sum
  rw [ListSum.foldl_add_eq, zero_add, ← s4]
  congr 1
  refine List.ext_getElem (by simp) fun i h1 h2 => ?_
  simp only [List.getElem_map, List.getElem_range]
  unfold FSym.get
  rw [w1, w2, w3, w4, if_pos ⟨by omega, Nat.one_pos, Nat.one_pos, Nat.one_pos⟩]
  simp only [Nat.mul_one, Nat.add_zero]
  rw [List.getD_eq_getElem _ _ h1]

/-- the twist computed by the library is the one of any ribbon structure -/
theorem twist_eq (f : FactorN) (h : Good f) (hq : (facCat f).QdimCharacter f.qdim)
    {t : List ℤ → ℂ} (ht : (facCat f).Ribbon f.qdim t) (a : List ℤ) (ha : f.valid a) :
    twist f a = t a := by
  have h1 : (f.qdim a : ℂ) ≠ 0 := by exact_mod_cast (hq.pos a ha).ne'
  have e : (f.out a a).foldl (fun res b => res + (f.qdim b : ℂ) * ((f.R a a b).map FSym.sum).getD 0) 0
      = ((f.out a a).map fun b => (f.qdim b : ℂ) * ((f.R a a b).map FSym.sum).getD 0).sum := by
    have := ListSum.foldl_add_eq
      ((f.out a a).map fun b => (f.qdim b : ℂ) * ((f.R a a b).map FSym.sum).getD 0) 0
    rw [zero_add, List.foldl_map] at this
    exact this
  unfold twist
  rw [e, div_eq_iff h1, mul_comm, ht.formula a ha, sum_fm]
  refine ListSum.sum_congr _ fun b hb => ?_
  rw [good_R_sum f h a a b ha ha hb, ListSum.mul_sum]

theorem ribbon_congr (Q : CatN (List ℤ) ℂ) (hr : Q.FusionRing) {d : List ℤ → ℝ} {t u : List ℤ → ℂ}
    (h : Q.Ribbon d t) (e : ∀ a, Q.valid a → u a = t a) : Q.Ribbon d u := by
  constructor
  · intro a ha; rw [e a ha]; exact h.formula a ha
  · intro a ha; rw [e a ha]; exact h.phase a ha
  · intro a b c ha hb hc μ hμ
    rw [e a ha, e b hb, e c (hr.closed a b ha hb c hc)]; exact h.balance a b c ha hb hc μ hμ
  · intro a ha; rw [e a ha, e _ (hr.dual_valid a ha)]; exact h.dual a ha

theorem base_ribbon (fs : List FactorN) (h : ∀ g ∈ fs, Good g)
    (ht : ∀ g ∈ fs, ∃ t, (facCat g).Ribbon g.qdim t) :
    ∃ t, (facCat (base fs)).Ribbon (base fs).qdim t := by
  induction fs using List.reverseRecOn with
  | nil =>
    have ho : ∀ a b, (facCat (base [])).out a b = [[]] := fun _ _ => rfl
    have hq1 : ∀ a, (base []).qdim a = 1 := by intro a; simp [base, slices]
    have hN : ∀ a b, (facCat (base [])).N a b [] = 1 := by
      intro a b
      simp [facCat, base, slices, ProductSym.cartesian]
    have hR : ∀ a b c, (facCat (base [])).R a b c 0 = 1 := by
      intro a b c
      show entry (rSym [] a b c) 0 0 0 0 = 1
      simp [rSym, slices, entry, FSym.one1D, FSym.get]
    refine ⟨fun _ => 1, ?_, ?_, ?_, ?_⟩
    · intro a _
      simp [hq1, ho, hN, hR]
    · intro a _; simp
    · intro a b c _ _ hc μ hμ
      rw [ho, List.mem_singleton] at hc
      subst hc
      rw [hN] at hμ
      have : μ = 0 := by omega
      subst this
      simp [hR]
    · intro a _; rfl
  | append_singleton fs f ih =>
    have h' : ∀ g ∈ fs, Good g := fun g hg => h g (by simp [hg])
    have hf := h f (by simp)
    obtain ⟨t1, q1⟩ := ih h' fun g hg => ht g (by simp [hg])
    obtain ⟨t2, q2⟩ := ht f (by simp)
    exact ⟨_, ribbonProd (base_prod fs f h) (base_core fs h').1.ring hf.core.ring
      (fun a ha => base_qdim_append fs f hf.len a ha) q1 q2⟩

/-- B-symbols of a good factor -/
theorem good_B (f : FactorN) (h : Good f) (a b c : List ℤ) (ha : f.valid a) (hb : f.valid b)
    (hc : f.valid c) (hN : 0 < (facCat f).N a b c) :
    ∃ s, defaultB f.F f.dual f.unit f.qdim a b c = some s ∧
      s.shape = ((facCat f).N a b c, (facCat f).N a b c, 1, 1) ∧
      ∀ μ < (facCat f).N a b c, ∀ ν < (facCat f).N a b c, s.get μ ν 0 0 =
        star ((facCat f).F a b (f.dual b) a f.unit c 0 0 μ ν) * ((Real.sqrt (f.qdim b) : ℝ) : ℂ) := by
  have hr := h.core.ring
  have hD : f.valid (f.dual b) := hr.dual_valid b hb
  have hU : f.valid f.unit := hr.unit_valid
  have n1 : (facCat f).N b (f.dual b) f.unit = 1 := by
    refine (hr.dual_iff b _ hb hD).trans ?_
    exact if_pos rfl
  have n2 : (facCat f).N a f.unit a = 1 := by
    refine (hr.unit_right a a ha ha).trans ?_
    simp
  have n3 : (facCat f).N c (f.dual b) a = (facCat f).N a b c := (hr.frobenius a b c ha hb hc).symm
  obtain ⟨S, S1, S2, S3, -⟩ := h.shapes.F a b (f.dual b) a f.unit c ha hb hD ha hU hc
    (by rw [n1]; exact Nat.one_pos) (by rw [n2]; exact Nat.one_pos) hN (by rw [n3]; exact hN)
  rw [n1, n2, n3] at S3
  obtain ⟨w1, w2, w3, w4⟩ := shape_zero_iff S S3
  have e : defaultB f.F f.dual f.unit f.qdim a b c = some ((FSym.build 2 S.s2 S.s3 1 1
      fun i2 i3 _ _ => S.conj.get 0 0 i2 i3).scale ((Real.sqrt (f.qdim b) : ℝ) : ℂ)) := by
    unfold defaultB
    rw [S1]
    simp [FSym.slice2d, FSym.conj, S2]
  refine ⟨_, e, ?_, ?_⟩
  · show (S.s2, S.s3, 1, 1) = _
    rw [w3, w4]
  · intro μ hμ ν hν
    rw [FSym.scale_get, FSym.build_get _ _ _ _ _ _ _ _ _ _ (by rw [w3]; exact hμ)
      (by rw [w4]; exact hν) Nat.one_pos Nat.one_pos, FSym.conj_get (star_zero ℂ)]
    show _ = star (entry (f.F a b (f.dual b) a f.unit c) 0 0 μ ν) * _
    rw [S1]; rfl

theorem good_BFrom (f : FactorN) (h : Good f) : BFrom (facCat f) f.qdim := by
  intro a b c ha hb hc μ hμ ν hν
  obtain ⟨s, s1, -, s3⟩ := good_B f h a b c ha hb hc (by omega)
  show entry (defaultB f.F f.dual f.unit f.qdim a b c) μ ν 0 0 = _
  rw [s1]
  exact s3 μ hμ ν hν

/-- product of the factors' Frobenius-Schur indicators -/
noncomputable def fsProd (fs : List FactorN) (a : List ℤ) : ℤ :=
  ((slices 0 fs).map fun p => frobeniusSchur p.2 (slice a p)).prod

theorem fsProd_append (fs : List FactorN) (f : FactorN) (hlen : ∀ a, f.valid a → a.length = f.len)
    (a : List ℤ) (ha : valid (fs ++ [f]) a) :
    fsProd (fs ++ [f]) a = fsProd fs (a.take (fs.map FactorN.len).sum) *
      frobeniusSchur f (a.drop (fs.map FactorN.len).sum) := by
  unfold fsProd
  rw [slices_append, List.map_append, List.map_cons, List.map_nil, List.prod_append,
    List.prod_singleton]
  simp only [Nat.zero_add]
  rw [slice_last fs f hlen a ha]
  congr 2
  refine List.map_congr_left fun p hp => ?_
  rw [slice_take fs a p hp]

theorem fs_pm (f : FactorN) (a : List ℤ) : frobeniusSchur f a = 1 ∨ frobeniusSchur f a = -1 := by
  unfold frobeniusSchur
  split
  · exact Or.inl rfl
  · exact Or.inr rfl

theorem fsProd_pm (fs : List FactorN) (a : List ℤ) : fsProd fs a = 1 ∨ fsProd fs a = -1 := by
  unfold fsProd
  induction slices 0 fs with
  | nil => simp
  | cons p l ih =>
    rw [List.map_cons, List.prod_cons]
    rcases ih with h1 | h1 <;> rcases fs_pm p.2 (slice a p) with h2 | h2 <;> rw [h1, h2] <;> simp

/-- the sign of the F-symbol is the indicator -/
theorem fs_eq (f : FactorN) (hq : (facCat f).QdimCharacter f.qdim) {s : List ℤ → ℤ}
    (hs : ∀ a, s a = 1 ∨ s a = -1) (hb : (facCat f).Bending f.qdim s) (a : List ℤ)
    (ha : f.valid a) : frobeniusSchur f a = s a := by
  have h1 := hb.indicator a ha
  have hd := hq.pos a ha
  unfold frobeniusSchur
  have h2 : f.qdim a * (entry (f.F a (f.dual a) a a f.unit f.unit) 0 0 0 0).re = (s a : ℝ) := by
    have := congrArg Complex.re h1
    rw [Complex.re_ofReal_mul, Complex.intCast_re] at this
    exact this
  rcases hs a with h | h
  · rw [h, Int.cast_one] at h2
    rw [h, if_pos]
    by_contra hn
    push Not at hn
    have := mul_neg_of_pos_of_neg hd hn
    linarith
  · rw [h] at h2
    rw [h, if_neg]
    intro hn
    have := mul_nonneg hd.le hn
    rw [h2] at this
    norm_num at this

theorem base_bending (fs : List FactorN) (h : ∀ g ∈ fs, Good g)
    (hq : ∀ g ∈ fs, (facCat g).QdimCharacter g.qdim)
    (hb : ∀ g ∈ fs, (facCat g).Bending g.qdim (frobeniusSchur g)) :
    (facCat (base fs)).Bending (base fs).qdim (fsProd fs) := by
  induction fs using List.reverseRecOn with
  | nil =>
    have ho : ∀ a b, (facCat (base [])).out a b = [[]] := fun _ _ => rfl
    have hq1 : ∀ a, (base []).qdim a = 1 := by intro a; simp [base, slices]
    have hN : ∀ a b, (facCat (base [])).N a b [] = 1 := by
      intro a b
      simp [facCat, base, slices, ProductSym.cartesian]
    have hF : ∀ a b c d e f, (facCat (base [])).F a b c d e f 0 0 0 0 = 1 := by
      intro a b c d e f
      show entry (fSym [] a b c d e f) 0 0 0 0 = 1
      simp [fSym, slices, entry, FSym.one4D, FSym.get]
    have hB : ∀ a b c, valid [] a → valid [] b → valid [] c → (facCat (base [])).B a b c 0 0 = 1 := by
      intro a b c ha hb hc
      have hc' := base_nil_valid c hc
      subst hc'
      rw [good_BFrom (base []) ⟨fun a ha => ha.1, base_nil_core.1, base_nil_core.2⟩ a b [] ha hb hc 0
        (by rw [hN]; exact Nat.one_pos) 0 (by rw [hN]; exact Nat.one_pos), hF, hq1]
      simp
    have hs : ∀ a, fsProd [] a = 1 := by intro a; simp [fsProd, slices]
    have hv : valid [] [] := by simp [valid, slices]
    refine ⟨?_, ?_, ?_⟩
    · intro a b c ha hb hc μ hμ μ' hμ'
      rw [ho, List.mem_singleton] at hc
      subst hc
      rw [hN] at hμ hμ'
      have e1 : μ = 0 := by omega
      have e2 : μ' = 0 := by omega
      subst e1 e2
      simp [hN, hB a b [] ha hb hv, hq1]
    · intro a b c ha hb hc μ hμ μ' hμ'
      rw [ho, List.mem_singleton] at hc
      subst hc
      rw [hN] at hμ hμ'
      have e1 : μ = 0 := by omega
      have e2 : μ' = 0 := by omega
      subst e1 e2
      have hD : valid [] ((facCat (base [])).dual b) := hv
      simp [hN, hB a b [] ha hb hv, hB [] _ a hv hD ha, hs]
    · intro a ha
      simp [hF, hq1, hs]
  | append_singleton fs f ih =>
    have h' : ∀ g ∈ fs, Good g := fun g hg => h g (by simp [hg])
    have hq' : ∀ g ∈ fs, (facCat g).QdimCharacter g.qdim := fun g hg => hq g (by simp [hg])
    have hf := h f (by simp)
    obtain ⟨c1, c2⟩ := base_core fs h'
    obtain ⟨c1', c2'⟩ := base_core (fs ++ [f]) h
    exact bendingProd (base_prod fs f h) c1.ring hf.core.ring
      (fun a ha => base_qdim_append fs f hf.len a ha) (base_qdimChar fs h' hq')
      (fun a ha => fsProd_append fs f hf.len a ha)
      (good_BFrom _ ⟨fun a ha => ha.1, c1', c2'⟩) (good_BFrom _ ⟨fun a ha => ha.1, c1, c2⟩)
      (good_BFrom _ hf) (ih h' hq' fun g hg => hb g (by simp [hg])) (hb f (by simp))

end Cyten.ProductSymN
