import Verif.Lemmas.ProductSymN
import Verif.Lemmas.LiftCatN
import Verif.Props.SU33
import Verif.Props.ProductSym

/-!
# C87: products of symmetries with fusion multiplicities

`ProductSymN.symmetry fs` is the model of `Symmetry(factors)` and `ProductSymN.cat fs` its
observable data (`n_symbol`, entries of the F-, R-, C- and B-symbols); `ProductSymN.facCat f` are the
data of one factor.  `Good f` says that the factor itself is a unitary braided category (`Core`: the
equations of `Spec.CatN` for the ring and the F- and R-symbols) whose symbols are arrays with the
multiplicities as axes (`Shapes`).
-/

namespace Cyten.Props
open Cyten Cyten.Spec Cyten.ProductSymN Cyten.CatNProd

/-- The multiplicity-free shortcut of `_n_symbol` is only taken by factors that are multiplicity
free. -/
def UniqueOK (f : FactorN) : Prop :=
  f.style ≤ 10 → ∀ a b c, f.valid a → f.valid b → c ∈ f.out a b → f.n a b c = 1

/-- `is_abelian` (the shortcut of `qdim`) is only claimed by factors with quantum dimensions 1. -/
def AbelianOK (f : FactorN) : Prop := f.style = 0 → ∀ a, f.valid a → f.qdim a = 1

/-- **C87**: the product of (one or more) unitary braided categories with arbitrary multiplicities is
a unitary braided category: ring, F- and C-unitarity, triangle, pentagon, both hexagons and
consistent C-symbols. -/
theorem C87_product_category (fs : List FactorN) (hne : fs ≠ []) (h : ∀ f ∈ fs, Good f)
    (hu : ∀ f ∈ fs, UniqueOK f) : (ProductSymN.cat fs).UnitaryBraided := by
  have g := symmetry_good fs hne h hu
  obtain ⟨c1, c2, -⟩ := good_C _ g
  exact ⟨g.core.ring, g.core.rPhase, g.core.fUnitary, g.core.triangle, g.core.pentagon,
    g.core.hexagon, g.core.hexagon', c1, c2⟩

/-- **C87**: the symbols of the product do not throw and are arrays whose axes are the product's
multiplicities, so that products can be multiplied further. -/
theorem C87_product_shapes (fs : List FactorN) (hne : fs ≠ []) (h : ∀ f ∈ fs, Good f)
    (hu : ∀ f ∈ fs, UniqueOK f) : Good (symmetry fs) :=
  symmetry_good fs hne h hu

/-- **C87**: also the C- and B-symbols. -/
theorem C87_product_shapes_cb (fs : List FactorN) (hne : fs ≠ []) (h : ∀ f ∈ fs, Good f)
    (hu : ∀ f ∈ fs, UniqueOK f) (a b c d e g : List ℤ)
    (ha : valid fs a) (hb : valid fs b) (hc : valid fs c) (hd : valid fs d) (he : valid fs e)
    (hg : valid fs g) :
    (0 < (ProductSymN.cat fs).N a b e → 0 < (ProductSymN.cat fs).N e c d →
      0 < (ProductSymN.cat fs).N a c g → 0 < (ProductSymN.cat fs).N g b d →
      ∃ s, ProductSymN.defaultC (fSym fs) (rSym fs) a b c d e g = some s ∧
        s.shape = ((ProductSymN.cat fs).N a b e, (ProductSymN.cat fs).N e c d,
          (ProductSymN.cat fs).N a c g, (ProductSymN.cat fs).N g b d)) ∧
    (0 < (ProductSymN.cat fs).N a b c →
      ∃ s, ProductSymN.defaultB (fSym fs) (dual fs) (fs.map FactorN.unit).flatten (ProductSymN.qdim fs) a b c =
        some s ∧ s.shape = ((ProductSymN.cat fs).N a b c, (ProductSymN.cat fs).N a b c, 1, 1)) := by
  have G := symmetry_good fs hne h hu
  refine ⟨(good_C _ G).2.2 a b c d e g ha hb hc hd he hg, fun hN => ?_⟩
  obtain ⟨s, s1, s2, -⟩ := good_B _ G a b c ha hb hc hN
  exact ⟨s, s1, s2⟩

/-- **C87**: `n_symbol` of the product is the product of the factors' multiplicities. -/
theorem C87_product_n (fs : List FactorN) (hne : fs ≠ []) (h : ∀ f ∈ fs, Good f)
    (hu : ∀ f ∈ fs, UniqueOK f) (a b c : List ℤ) (ha : valid fs a) (hb : valid fs b)
    (hc : valid fs c) :
    (ProductSymN.cat fs).N a b c =
      ((slices 0 fs).map fun p => (facCat p.2).N (slice a p) (slice b p) (slice c p)).prod := by
  have ho : fusionOutcomes fs a b = (base fs).out a b := by
    unfold fusionOutcomes
    simp [base, hne]
  have hm := mem_base_out fs h a b c ha hb
  show (if c ∈ fusionOutcomes fs a b then ProductSymN.n fs a b c else 0) = _
  rw [ho]
  by_cases hin : c ∈ (base fs).out a b
  · rw [if_pos hin, n_eq fs h hu a b c ha hb hin]
    show List.prod _ = _
    congr 1
    refine List.map_congr_left fun p hp => ?_
    show _ = if _ then _ else _
    rw [if_pos ((hm.1 hin).2 p hp)]
  · rw [if_neg hin]
    symm
    rw [List.prod_eq_zero_iff]
    by_contra hn
    apply hin
    refine hm.2 ⟨hc.1, fun p hp => ?_⟩
    by_contra hp'
    apply hn
    refine List.mem_map.2 ⟨p, hp, ?_⟩
    show (if _ then _ else _) = 0
    rw [if_neg hp']

/-- **C87**: the entries: with one more factor `f`, the multiplicity index of every vertex is
`i = i_first * N_f + i_f`, and the entry is the product of the entries. -/
theorem C87_product_entries (fs : List FactorN) (f : FactorN) (h : ∀ g ∈ fs ++ [f], Good g)
    (hu : ∀ g ∈ fs ++ [f], UniqueOK g) (a b c d e g : List ℤ) (i j k l : ℕ)
    (ha : valid (fs ++ [f]) a) (hb : valid (fs ++ [f]) b) (hc : valid (fs ++ [f]) c)
    (hd : valid (fs ++ [f]) d) (he : valid (fs ++ [f]) e) (hg : valid (fs ++ [f]) g) :
    let m := (fs.map FactorN.len).sum
    let N := (facCat f).N
    (i < (ProductSymN.cat (fs ++ [f])).N b c e → j < (ProductSymN.cat (fs ++ [f])).N a e d →
      k < (ProductSymN.cat (fs ++ [f])).N a b g → l < (ProductSymN.cat (fs ++ [f])).N g c d →
      (ProductSymN.cat (fs ++ [f])).F a b c d e g i j k l =
        (ProductSymN.cat fs).F (a.take m) (b.take m) (c.take m) (d.take m) (e.take m) (g.take m)
          (i / N (b.drop m) (c.drop m) (e.drop m)) (j / N (a.drop m) (e.drop m) (d.drop m))
          (k / N (a.drop m) (b.drop m) (g.drop m)) (l / N (g.drop m) (c.drop m) (d.drop m)) *
        (facCat f).F (a.drop m) (b.drop m) (c.drop m) (d.drop m) (e.drop m) (g.drop m)
          (i % N (b.drop m) (c.drop m) (e.drop m)) (j % N (a.drop m) (e.drop m) (d.drop m))
          (k % N (a.drop m) (b.drop m) (g.drop m)) (l % N (g.drop m) (c.drop m) (d.drop m))) ∧
    (i < (ProductSymN.cat (fs ++ [f])).N a b c →
      (ProductSymN.cat (fs ++ [f])).R a b c i =
        (ProductSymN.cat fs).R (a.take m) (b.take m) (c.take m)
          (i / N (a.drop m) (b.drop m) (c.drop m)) *
        (facCat f).R (a.drop m) (b.drop m) (c.drop m) (i % N (a.drop m) (b.drop m) (c.drop m))) := by
  obtain ⟨p, -⟩ := symmetry_prod fs f h hu
  exact ⟨p.F a b c d e g i j k l ha hb hc hd he hg, p.R a b c i ha hb hc⟩

/-- **C87**: quantum dimensions of the product: a character. -/
theorem C87_product_qdim (fs : List FactorN) (hne : fs ≠ []) (h : ∀ f ∈ fs, Good f)
    (hu : ∀ f ∈ fs, UniqueOK f) (hab : ∀ f ∈ fs, AbelianOK f)
    (hq : ∀ f ∈ fs, (facCat f).QdimCharacter f.qdim) :
    (ProductSymN.cat fs).QdimCharacter (ProductSymN.qdim fs) := by
  obtain ⟨gs, f, rfl⟩ : ∃ gs f, fs = gs ++ [f] := ⟨_, _, (List.dropLast_append_getLast hne).symm⟩
  have h' : ∀ g ∈ gs, Good g := fun g hg => h g (by simp [hg])
  exact qdimChar (symmetry_prod gs f h hu).1 (base_core gs h').1.ring (h f (by simp)).core.ring
    (fun a ha => symmetry_qdim_append gs f h hab a ha)
    (base_qdimChar gs h' fun g hg => hq g (by simp [hg])) (hq f (by simp))

/-- **C87**: the topological twist that the library computes for the product is a ribbon twist. -/
theorem C87_product_ribbon (fs : List FactorN) (hne : fs ≠ []) (h : ∀ f ∈ fs, Good f)
    (hu : ∀ f ∈ fs, UniqueOK f) (hab : ∀ f ∈ fs, AbelianOK f)
    (hq : ∀ f ∈ fs, (facCat f).QdimCharacter f.qdim)
    (ht : ∀ f ∈ fs, (facCat f).Ribbon f.qdim (ProductSymN.twist f)) :
    (ProductSymN.cat fs).Ribbon (ProductSymN.qdim fs) (ProductSymN.twist (symmetry fs)) := by
  have G := symmetry_good fs hne h hu
  have Q := C87_product_qdim fs hne h hu hab hq
  have key : ∃ t, (ProductSymN.cat fs).Ribbon (ProductSymN.qdim fs) t := by
    obtain ⟨gs, f, rfl⟩ : ∃ gs f, fs = gs ++ [f] := ⟨_, _, (List.dropLast_append_getLast hne).symm⟩
    have h' : ∀ g ∈ gs, Good g := fun g hg => h g (by simp [hg])
    obtain ⟨t, q1⟩ := base_ribbon gs h' fun g hg => ⟨_, ht g (by simp [hg])⟩
    exact ⟨_, ribbonProd (symmetry_prod gs f h hu).1 (base_core gs h').1.ring
      (h f (by simp)).core.ring (fun a ha => symmetry_qdim_append gs f h hab a ha) q1
      (ht f (by simp))⟩
  obtain ⟨t, q⟩ := key
  exact ribbon_congr _ G.core.ring q fun a ha => twist_eq (symmetry fs) G Q q a ha

/-- **C87**: bending: the B-symbols of the product satisfy the norm and snake equations with the
Frobenius-Schur indicator that the library computes for the product. -/
theorem C87_product_bending (fs : List FactorN) (hne : fs ≠ []) (h : ∀ f ∈ fs, Good f)
    (hu : ∀ f ∈ fs, UniqueOK f) (hab : ∀ f ∈ fs, AbelianOK f)
    (hq : ∀ f ∈ fs, (facCat f).QdimCharacter f.qdim)
    (hb : ∀ f ∈ fs, (facCat f).Bending f.qdim (frobeniusSchur f)) :
    (ProductSymN.cat fs).Bending (ProductSymN.qdim fs) (frobeniusSchur (symmetry fs)) := by
  have G := symmetry_good fs hne h hu
  have Q := C87_product_qdim fs hne h hu hab hq
  have key : (ProductSymN.cat fs).Bending (ProductSymN.qdim fs) (fsProd fs) := by
    obtain ⟨gs, f, rfl⟩ : ∃ gs f, fs = gs ++ [f] := ⟨_, _, (List.dropLast_append_getLast hne).symm⟩
    have h' : ∀ g ∈ gs, Good g := fun g hg => h g (by simp [hg])
    have hq' : ∀ g ∈ gs, (facCat g).QdimCharacter g.qdim := fun g hg => hq g (by simp [hg])
    obtain ⟨c1, c2⟩ := base_core gs h'
    have hf := h f (by simp)
    exact bendingProd (symmetry_prod gs f h hu).1 c1.ring hf.core.ring
      (fun a ha => symmetry_qdim_append gs f h hab a ha) (base_qdimChar gs h' hq')
      (fun a ha => fsProd_append gs f hf.len a ha) (good_BFrom _ G)
      (good_BFrom _ ⟨fun a ha => ha.1, c1, c2⟩) (good_BFrom _ hf)
      (base_bending gs h' hq' fun g hg => hb g (by simp [hg])) (hb f (by simp))
  have e : ∀ a, valid fs a → frobeniusSchur (symmetry fs) a = fsProd fs a :=
    fun a ha => fs_eq (symmetry fs) Q (fsProd_pm fs) key a ha
  refine ⟨key.norm, fun a b c ha hb hc μ hμ μ' hμ' => ?_, fun a ha => ?_⟩
  · rw [e b hb]; exact key.snake a b c ha hb hc μ hμ μ' hμ'
  · rw [e a ha]; exact key.indicator a ha

/-! ### Instances -/

/-- `SU3_3AnyonCategory()` as a factor; `fusion_style` is `general`,
`/repo/src/symmetries/factors/su3_3_anyon_category.cpp:217-236`. -/
noncomputable def su33Factor : FactorN where
  len := 1
  style := 20
  valid a := ∃ x, a = [x] ∧ SU33.cat.valid x
  unit := [0]
  out a b := (SU33.out (a.headD 0) (b.headD 0)).map fun z => [z]
  dual a := [SU33.dual (a.headD 0)]
  n a b c := SU33.nSym (a.headD 0) (b.headD 0) (c.headD 0)
  F a b c d e f := SU33.computeF SU33.consts (a.headD 0) (b.headD 0) (c.headD 0) (d.headD 0)
    (e.headD 0) (f.headD 0)
  R a b c := some (SU33.rSym SU33.consts (a.headD 0) (b.headD 0) (c.headD 0))
  qdim a := SU33.qdim (a.headD 0)

theorem su33_N (x y z : ℤ) : (facCat su33Factor).N [x] [y] [z] = SU33.N x y z := by
  show (if [z] ∈ (SU33.out x y).map (fun z => [z]) then SU33.nSym x y z else 0) =
    if SU33.canFuseTo x y z = true then _ else _
  have : [z] ∈ (SU33.out x y).map (fun z => [z]) ↔ SU33.canFuseTo x y z = true := by
    simp [SU33.canFuseTo]
  by_cases h : SU33.canFuseTo x y z = true
  · rw [if_pos (this.2 h), if_pos h]
  · rw [if_neg fun q => h (this.1 q), if_neg h]

theorem su33_lift : LiftCatN.IsLift (facCat su33Factor) SU33.cat where
  valid _ := Iff.rfl
  unit := rfl
  out _ _ := rfl
  dual _ := rfl
  N := su33_N
  F _ _ _ _ _ _ _ _ _ _ := rfl
  R _ _ _ _ := rfl

/-- The SU(3)_3 category is a good factor. -/
theorem su33_good : Good su33Factor := by
  refine ⟨?_, LiftCatN.core su33_lift C86_category, ?_, ?_⟩
  · rintro a ⟨x, rfl, -⟩; rfl
  · rintro a b c d e g ⟨a, rfl, ha⟩ ⟨b, rfl, hb⟩ ⟨c, rfl, hc⟩ ⟨d, rfl, hd⟩ ⟨e, rfl, he⟩ ⟨g, rfl, hg⟩
      h1 h2 h3 h4
    simp only [su33_N] at h1 h2 h3 h4 ⊢
    have M := fun x y z hx hy hz => (C86_ring.mem_iff x y z hx hy hz).2
    obtain ⟨s, s1, s2, s3⟩ := (C86_shapes a b c d ha hb hc hd).1 e (M _ _ _ hb hc he h1)
      (M _ _ _ ha he hd h2) g (M _ _ _ ha hb hg h3) (M _ _ _ hg hc hd h4)
    refine ⟨s, s1, ?_, s2, s3⟩
    have s1' : SU33.computeF SU33.consts a b c d e g = some s := s1
    revert s1'
    simp only [SU33.computeF, FSym.reshaped]
    repeat' split
    all_goals (intro hh; first | (cases hh; rfl) | cases hh)
  · rintro a b c ⟨a, rfl, ha⟩ ⟨b, rfl, hb⟩ ⟨c, rfl, hc⟩ h1
    simp only [su33_N] at h1 ⊢
    have hm := (C86_ring.mem_iff a b c ha hb hc).2 h1
    obtain ⟨q1, q2, -⟩ := C86_shapes_rb a b c ha hb hm
    refine ⟨_, rfl, ?_, q1, q2⟩
    show (SU33.rSym SU33.consts a b c).rank = 1
    unfold SU33.rSym
    split
    · split <;> rfl
    · rfl

theorem su33_qdim : (facCat su33Factor).QdimCharacter su33Factor.qdim := by
  have q := C86_qdim
  constructor
  · rintro a ⟨x, rfl, hx⟩; exact q.pos x hx
  · exact q.unit
  · rintro a b ⟨x, rfl, hx⟩ ⟨y, rfl, hy⟩
    have := q.mul x y hx hy
    rw [su33_lift.out, List.map_map]
    simp only [Function.comp_def, su33_N]
    exact this
  · rintro a ⟨x, rfl, hx⟩; exact q.dual x hx

theorem su33_twist : (facCat su33Factor).Ribbon su33Factor.qdim (ProductSymN.twist su33Factor) := by
  have q := C86_ribbon
  have t : ∀ x, ProductSymN.twist su33Factor [x] = SU33.twist x := by
    intro x
    unfold ProductSymN.twist SU33.twist
    show (((SU33.out x x).map fun z => [z]).foldl _ 0) / _ = _
    rw [List.foldl_map]
    rfl
  constructor
  · rintro a ⟨x, rfl, hx⟩
    have := q.formula x hx
    rw [t, su33_lift.out]
    simp only [sum_fm, List.map_map, Function.comp_def, su33_N] at this ⊢
    exact this
  · rintro a ⟨x, rfl, hx⟩; rw [t]; exact q.phase x hx
  · rintro a b c ⟨x, rfl, hx⟩ ⟨y, rfl, hy⟩ hc μ hμ
    obtain ⟨z, hz, rfl⟩ := (LiftCatN.mem_out' su33_lift x y c).1 hc
    rw [su33_N] at hμ
    rw [t, t, t]
    exact q.balance x y z hx hy hz μ hμ
  · rintro a ⟨x, rfl, hx⟩
    rw [su33_lift.dual, t, t]; exact q.dual x hx

theorem su33_bending :
    (facCat su33Factor).Bending su33Factor.qdim (frobeniusSchur su33Factor) := by
  have q := C86_bending
  have key : (facCat su33Factor).Bending su33Factor.qdim (fun _ => 1) := by
    have hB : ∀ x y z, SU33.cat.valid x → SU33.cat.valid y → z ∈ SU33.out x y →
        ∀ μ < SU33.N x y z, ∀ ν < SU33.N x y z,
        (facCat su33Factor).B [x] [y] [z] μ ν = SU33.cat.B x y z μ ν := by
      intro x y z hx hy hz μ _ ν _
      have e : ((Real.sqrt (su33Factor.qdim [y]) : ℝ) : ℂ) = if y = 1 then SU33.consts.s3 else 1 := by
        show ((Real.sqrt (SU33.qdim y) : ℝ) : ℂ) = _
        unfold SU33.qdim
        split
        · rfl
        · simp
      show entry (ProductSymN.defaultB su33Factor.F su33Factor.dual su33Factor.unit su33Factor.qdim
        [x] [y] [z]) μ ν 0 0 = SU33.entryOf (SU33.bSym SU33.consts x y z) μ ν 0 0
      unfold ProductSymN.defaultB SU33.bSym
      rw [e]
      rfl
    refine ⟨?_, ?_, ?_⟩
    · rintro a b c ⟨x, rfl, hx⟩ ⟨y, rfl, hy⟩ hc μ hμ μ' hμ'
      obtain ⟨z, hz, rfl⟩ := (LiftCatN.mem_out' su33_lift x y c).1 hc
      rw [su33_N] at hμ hμ' ⊢
      refine Eq.trans ?_ (q.norm x y z hx hy hz μ hμ μ' hμ')
      refine congrArg (fun s : ℂ => ((SU33.qdim x : ℝ) : ℂ) * s)
        (congrArg List.sum (List.map_congr_left fun ν hν => ?_))
      rw [List.mem_range] at hν
      rw [hB x y z hx hy hz μ hμ ν hν, hB x y z hx hy hz μ' hμ' ν hν]
    · rintro a b c ⟨x, rfl, hx⟩ ⟨y, rfl, hy⟩ hc μ hμ μ' hμ'
      obtain ⟨z, hz, rfl⟩ := (LiftCatN.mem_out' su33_lift x y c).1 hc
      have vz := C86_ring.closed x y hx hy z hz
      have hD := C86_ring.dual_valid y hy
      have hN : SU33.N x y z = SU33.N z (SU33.dual y) x := C86_ring.frobenius x y z hx hy vz
      rw [su33_N] at hμ hμ' ⊢
      rw [su33_lift.dual]
      refine Eq.trans ?_ (q.snake x y z hx hy hz μ hμ μ' hμ')
      refine congrArg List.sum (List.map_congr_left fun ν hν => ?_)
      rw [List.mem_range] at hν
      have hμN : μ < SU33.N z (SU33.dual y) x := by rw [← hN]; exact hμ
      have hμN' : μ' < SU33.N z (SU33.dual y) x := by rw [← hN]; exact hμ'
      have hνN : ν < SU33.N z (SU33.dual y) x := by rw [← hN]; exact hν
      have hx' : x ∈ SU33.out z (SU33.dual y) :=
        (C86_ring.mem_iff z _ x vz hD hx).2 (lt_of_le_of_lt (Nat.zero_le μ) hμN)
      have e2 : (facCat su33Factor).B [z] [SU33.cat.dual y] [x] μ' ν =
          SU33.cat.B z (SU33.cat.dual y) x μ' ν :=
        hB z (SU33.dual y) x vz hD hx' μ' hμN' ν hνN
      rw [hB x y z hx hy hz μ hμ ν hν, e2]
    · rintro a ⟨x, rfl, hx⟩
      exact q.indicator x hx
  have e : ∀ a, su33Factor.valid a → frobeniusSchur su33Factor a = 1 :=
    fun a ha => fs_eq su33Factor su33_qdim (fun _ => Or.inl rfl) key a ha
  refine ⟨key.norm, fun a b c ha hb hc μ hμ μ' hμ' => ?_, fun a ha => ?_⟩
  · rw [e b hb]; exact key.snake a b c ha hb hc μ hμ μ' hμ'
  · rw [e a ha]; exact key.indicator a ha

/-- **C87** for any number of copies of SU(3)_3: all laws hold. -/
theorem C87_su33_power (k : ℕ) :
    let fs := List.replicate (k + 1) su33Factor
    (ProductSymN.cat fs).UnitaryBraided ∧
    (ProductSymN.cat fs).QdimCharacter (ProductSymN.qdim fs) ∧
    (ProductSymN.cat fs).Ribbon (ProductSymN.qdim fs) (ProductSymN.twist (symmetry fs)) ∧
    (ProductSymN.cat fs).Bending (ProductSymN.qdim fs) (frobeniusSchur (symmetry fs)) := by
  have hm : ∀ f ∈ List.replicate (k + 1) su33Factor, f = su33Factor :=
    fun f hf => List.eq_of_mem_replicate hf
  have hne : List.replicate (k + 1) su33Factor ≠ [] := by simp
  have h1 : ∀ f ∈ List.replicate (k + 1) su33Factor, Good f := fun f hf => hm f hf ▸ su33_good
  have h2 : ∀ f ∈ List.replicate (k + 1) su33Factor, UniqueOK f := by
    intro f hf
    rw [hm f hf]
    intro h
    exact absurd (show (20 : ℕ) ≤ 10 from h) (by norm_num)
  have h3 : ∀ f ∈ List.replicate (k + 1) su33Factor, AbelianOK f := by
    intro f hf
    rw [hm f hf]
    intro h
    exact absurd (show (20 : ℕ) = 0 from h) (by norm_num)
  have h4 : ∀ f ∈ List.replicate (k + 1) su33Factor, (facCat f).QdimCharacter f.qdim :=
    fun f hf => hm f hf ▸ su33_qdim
  exact ⟨C87_product_category _ hne h1 h2, C87_product_qdim _ hne h1 h2 h3 h4,
    C87_product_ribbon _ hne h1 h2 h3 h4 fun f hf => hm f hf ▸ su33_twist,
    C87_product_bending _ hne h1 h2 h3 h4 fun f hf => hm f hf ▸ su33_bending⟩

/-- Non-vacuity: in SU(3)_3 × SU(3)_3 the vertex `(8,8) ⊗ (8,8) → (8,8)` has multiplicity 4. -/
example : (ProductSymN.cat [su33Factor, su33Factor]).N [1, 1] [1, 1] [1, 1] = 4 := by
  have hu : ∀ f ∈ [su33Factor, su33Factor], UniqueOK f := by
    intro f hf
    have : f = su33Factor := by simpa using hf
    rw [this]
    intro h
    exact absurd (show (20 : ℕ) ≤ 10 from h) (by norm_num)
  have hv : valid [su33Factor, su33Factor] [1, 1] := by
    have h1 : SU33.cat.valid 1 := ⟨by norm_num, by norm_num⟩
    refine ⟨rfl, ?_⟩
    intro p hp
    simp only [slices, List.mem_cons, List.not_mem_nil, or_false] at hp
    rcases hp with rfl | rfl
    · exact ⟨1, rfl, h1⟩
    · exact ⟨1, rfl, h1⟩
  rw [C87_product_n _ (by simp) (fun f hf => by
    have : f = su33Factor := by simpa using hf
    rw [this]; exact su33_good) hu _ _ _ hv hv hv]
  show (facCat su33Factor).N [1] [1] [1] * ((facCat su33Factor).N [1] [1] [1] * 1) = 4
  rw [su33_N]
  decide

end Cyten.Props
