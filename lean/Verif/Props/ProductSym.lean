import Verif.Lemmas.LiftCat
import Verif.Props.Anyons

/-!
# C10: products of symmetries

`ProductSym.cat fs` is the model of `Symmetry(factors)`; `slices 0 fs` lists each factor with the
offset of its entries, `slice a p` is that factor's part of the sector `a`.
-/

namespace Cyten.Props
open Cyten Cyten.Spec Cyten.ProductSym

/-- **C10**: the product of (one or more) unitary braided categories is a unitary braided category:
fusion ring with duals, unitarity, pentagon, both hexagons and consistent C-symbols, where sectors
are the concatenations of the factors' sectors. -/
theorem C10_product_category (fs : List Factor) (hne : fs ≠ [])
    (hlen : ∀ f ∈ fs, ∀ a, f.cat.valid a → a.length = f.len)
    (h : ∀ f ∈ fs, f.cat.UnitaryBraidedFR) : (ProductSym.cat fs).UnitaryBraided :=
  cat_unitaryBraided fs hne hlen h

/-- **C10**: fusion outcomes are exactly the componentwise ones. -/
theorem C10_product_outcomes (fs : List Factor) (hne : fs ≠ []) (a b c : List ℤ)
    (hlen : ∀ f ∈ fs, ∀ a, f.cat.valid a → a.length = f.len)
    (h : ∀ f ∈ fs, f.cat.FusionRing)
    (ha : (ProductSym.cat fs).valid a) (hb : (ProductSym.cat fs).valid b) :
    c ∈ (ProductSym.cat fs).out a b ↔ c.length = (fs.map Factor.len).sum ∧
      ∀ p ∈ slices 0 fs, slice c p ∈ p.2.cat.out (slice a p) (slice b p) := by
  show c ∈ fusionOutcomes fs a b ↔ _
  rw [fusionOutcomes_eq fs hne]
  apply mem_cartesian_iff
  intro p hp x hx
  exact hlen _ (slices_mem 0 fs p hp) _
    ((h _ (slices_mem 0 fs p hp)).closed _ _ (ha.2 p hp) (hb.2 p hp) x hx)

/-- **C10**: quantum dimensions are the products of the factors' ones, also when the abelian
shortcut is taken. -/
theorem C10_product_qdim (fs : List Factor)
    (habelian : ∀ f ∈ fs, f.style = 0 → ∀ a, f.cat.valid a → f.qdim a = 1) (a : List ℤ)
    (ha : (ProductSym.cat fs).valid a) :
    qdim fs a = ((slices 0 fs).map fun p => p.2.qdim (slice a p)).prod :=
  qdim_eq fs habelian a ha

/-- **C10**: and form a character of the product's fusion ring. -/
theorem C10_product_qdim_character (fs : List Factor) (hne : fs ≠ [])
    (hlen : ∀ f ∈ fs, ∀ a, f.cat.valid a → a.length = f.len)
    (h : ∀ f ∈ fs, f.cat.UnitaryBraidedFR)
    (habelian : ∀ f ∈ fs, f.style = 0 → ∀ a, f.cat.valid a → f.qdim a = 1)
    (hq : ∀ f ∈ fs, f.cat.QdimCharacter f.qdim) :
    (ProductSym.cat fs).QdimCharacter (qdim fs) := cat_qdim fs hne h hlen habelian hq

/-- **C10**: the topological twist that the library computes for the product is a ribbon twist. -/
theorem C10_product_ribbon (fs : List Factor) (hne : fs ≠ [])
    (hlen : ∀ f ∈ fs, ∀ a, f.cat.valid a → a.length = f.len)
    (h : ∀ f ∈ fs, f.cat.UnitaryBraidedFR)
    (habelian : ∀ f ∈ fs, f.style = 0 → ∀ a, f.cat.valid a → f.qdim a = 1)
    (hq : ∀ f ∈ fs, f.cat.QdimCharacter f.qdim)
    (hr : ∀ f ∈ fs, f.cat.Ribbon f.qdim (defaultTwist f.cat f.qdim)) :
    (ProductSym.cat fs).Ribbon (qdim fs) (defaultTwist (ProductSym.cat fs) (qdim fs)) :=
  cat_ribbon fs hne h hlen habelian hq hr

/-- **C10**: for factors with arbitrary multiplicities, `n_symbol` of the product is the product of
the factors' `n_symbol`s (0 if some component cannot fuse), also through the
`has_unique_fusion` shortcut. -/
theorem C10_product_n_symbol (fs : List Factor) (hne : fs ≠ [])
    (hlen : ∀ f ∈ fs, ∀ a, f.cat.valid a → a.length = f.len)
    (hclosed : ∀ f ∈ fs, ∀ a b, f.cat.valid a → f.cat.valid b →
      ∀ c ∈ f.cat.out a b, f.cat.valid c)
    (hunique : ∀ f ∈ fs, f.style ≤ 10 → ∀ a b c, f.cat.valid a → f.cat.valid b →
      c ∈ f.cat.out a b → f.n a b c = 1)
    (a b c : List ℤ) (ha : valid fs a) (hb : valid fs b) (hc : valid fs c) :
    nSymbol fs a b c = ((slices 0 fs).map fun p =>
      if slice c p ∈ p.2.cat.out (slice a p) (slice b p) then
        p.2.n (slice a p) (slice b p) (slice c p) else 0).prod := by
  rw [nSymbol_eq fs hne hlen hclosed hunique a b c ha hb, prodN_slices fs a b c hc.1]
  rfl

/-- **C10**: fusion with multiplicities is associative in the product if it is in every factor:
`Σ_e N_ab^e N_ec^d = Σ_e N_bc^e N_ae^d`. -/
theorem C10_product_n_assoc (fs : List Factor) (hne : fs ≠ [])
    (hlen : ∀ f ∈ fs, ∀ a, f.cat.valid a → a.length = f.len)
    (hclosed : ∀ f ∈ fs, ∀ a b, f.cat.valid a → f.cat.valid b →
      ∀ c ∈ f.cat.out a b, f.cat.valid c)
    (hunique : ∀ f ∈ fs, f.style ≤ 10 → ∀ a b c, f.cat.valid a → f.cat.valid b →
      c ∈ f.cat.out a b → f.n a b c = 1)
    (hassoc : ∀ f ∈ fs, ∀ a b c d, f.cat.valid a → f.cat.valid b → f.cat.valid c → f.cat.valid d →
      ((f.cat.out a b).map fun e => facN f a b e * facN f e c d).sum =
        ((f.cat.out b c).map fun e => facN f b c e * facN f a e d).sum)
    (a b c d : List ℤ) (ha : valid fs a) (hb : valid fs b) (hc : valid fs c) (hd : valid fs d) :
    ((fusionOutcomes fs a b).map fun e => nSymbol fs a b e * nSymbol fs e c d).sum =
      ((fusionOutcomes fs b c).map fun e => nSymbol fs b c e * nSymbol fs a e d).sum := by
  have v := fun x => (valid_iff fs hlen x)
  have := prodN_assoc fs hlen hclosed hassoc a b c d ((v a).1 ha) ((v b).1 hb) ((v c).1 hc)
    ((v d).1 hd)
  rw [fusionOutcomes_eq fs hne, fusionOutcomes_eq fs hne]
  have e1 : ((outs fs a b).map fun e => nSymbol fs a b e * nSymbol fs e c d) =
      (outs fs a b).map fun e => prodN fs a b e * prodN fs e c d :=
    List.map_congr_left fun e he => by
      have hv := prod_closed fs hlen hclosed a b e ((v a).1 ha) ((v b).1 hb) he
      rw [nSymbol_eq fs hne hlen hclosed hunique a b e ha hb,
        nSymbol_eq fs hne hlen hclosed hunique e c d ((v e).2 hv) hc]
  have e2 : ((outs fs b c).map fun e => nSymbol fs b c e * nSymbol fs a e d) =
      (outs fs b c).map fun e => prodN fs b c e * prodN fs a e d :=
    List.map_congr_left fun e he => by
      have hv := prod_closed fs hlen hclosed b c e ((v b).1 hb) ((v c).1 hc) he
      rw [nSymbol_eq fs hne hlen hclosed hunique b c e hb hc,
        nSymbol_eq fs hne hlen hclosed hunique a e d ha ((v e).2 hv)]
  rw [e1, e2, this]

/-- **C10**: `all_sectors` of a product lists every valid sector exactly once. -/
theorem C10_product_all_sectors (fs : List Factor) (hne : fs ≠ [])
    (hlen : ∀ f ∈ fs, ∀ a, f.cat.valid a → a.length = f.len)
    (hall : ∀ f ∈ fs, f.all.Nodup ∧ ∀ a, a ∈ f.all ↔ f.cat.valid a) :
    (allSectors fs).Nodup ∧ ∀ a, a ∈ allSectors fs ↔ (ProductSym.cat fs).valid a := by
  have e : allSectors fs = cartesian (fs.map Factor.all) := by simp [allSectors, hne]
  obtain ⟨h1, h2⟩ := cartesian_all fs hlen hall
  rw [e]
  exact ⟨h1, fun a => (h2 a).trans (valid_iff fs hlen a).symm⟩

/-- **C10 is false for the empty product** `Symmetry([])`: its only sector (the empty one, which is
also the trivial sector) has no fusion outcome, not even with itself. -/
theorem C10_empty_product_wrong :
    (ProductSym.cat []).valid (ProductSym.cat []).unit ∧
      (ProductSym.cat []).out (ProductSym.cat []).unit (ProductSym.cat []).unit = [] ∧
      ¬ (ProductSym.cat []).FusionRing := by
  refine ⟨by simp [ProductSym.cat, valid, slices], by simp [ProductSym.cat, fusionOutcomes], ?_⟩
  intro h
  have := h.unit_left [] (by simp [ProductSym.cat, valid, slices])
  simp [ProductSym.cat, fusionOutcomes] at this

/-! ### Instances -/

/-- `ZN(N)` as a factor. -/
def znFactor (N : ℤ) : Factor where
  len := 1
  style := 0
  cat := liftCat (ZN.cat N)
  n _ _ _ := 1
  qdim _ := 1
  all := (List.range N.toNat).map fun (i : ℕ) => [(i : ℤ)]

/-- `FermionParity()` as a factor. -/
def fermionParityFactor : Factor where
  len := 1
  style := 0
  cat := liftCat FermionParity.cat
  n _ _ _ := 1
  qdim _ := 1
  all := [[0], [1]]

/-- `FibonacciAnyonCategory(handedness)` as a factor. -/
noncomputable def fibFactor (right : Bool) : Factor where
  len := 1
  style := 10
  cat := liftCat (Fib.cat right)
  n _ _ _ := 1
  qdim a := Fib.qdim (a.headD 0)
  all := [[0], [1]]

/-- `IsingAnyonCategory(nu)` as a factor. -/
noncomputable def isingFactor (nu : ℤ) : Factor where
  len := 1
  style := 10
  cat := liftCat (Ising.cat nu)
  n _ _ _ := 1
  qdim a := Ising.qdim (a.headD 0)
  all := [[0], [1], [2]]

/-- The F/R part of a unitary braided category. -/
theorem toFR {S : Type} [DecidableEq S] {A : Cat S ℂ} (h : A.UnitaryBraided) : A.UnitaryBraidedFR :=
  ⟨h.ring, h.rPhase, h.fUnitary, h.pentagon, h.hexagon, h.hexagon'⟩

/-- **C10**, instantiated: every product of any number of factors `ZN(N)`, `FermionParity`, Fibonacci
and Ising (any odd `nu`) is a unitary braided category.  In particular `Symmetry([Ising])` has the right
C-symbols although the factor's own `_c_symbol` table is wrong (C09). -/
theorem C10_products_of_library_symmetries (fs : List Factor) (hne : fs ≠ [])
    (h : ∀ f ∈ fs, (∃ N, 2 ≤ N ∧ N ≤ 32768 ∧ f = znFactor N) ∨ f = fermionParityFactor ∨
      (∃ r, f = fibFactor r) ∨ ∃ nu : ℤ, nu % 2 = 1 ∧ f = isingFactor nu) :
    (ProductSym.cat fs).UnitaryBraided := by
  refine C10_product_category fs hne ?_ ?_
  · intro f hf a ha
    rcases h f hf with ⟨N, -, -, rfl⟩ | rfl | ⟨r, rfl⟩ | ⟨nu, -, rfl⟩ <;> exact LiftCat.len a ha
  · intro f hf
    rcases h f hf with ⟨N, h1, h2, rfl⟩ | rfl | ⟨r, rfl⟩ | ⟨nu, h1, rfl⟩
    · exact LiftCat.FR (toFR (C11_zn_group N h1 h2))
    · exact LiftCat.FR (toFR C11_fermion_parity)
    · exact LiftCat.FR (toFR (C08_fibonacci r))
    · exact LiftCat.FR (C42_ising_fr nu h1)

/-- Non-vacuity: `Z3 × FermionParity × Fibonacci`; the product of two non-trivial sectors. -/
example : (ProductSym.cat [znFactor 3, fermionParityFactor, fibFactor true]).UnitaryBraided ∧
    (ProductSym.cat [znFactor 3, fermionParityFactor, fibFactor true]).valid [2, 1, 1] ∧
    (ProductSym.cat [znFactor 3, fermionParityFactor, fibFactor true]).out [2, 1, 1] [2, 1, 1] =
      [[1, 0, 0], [1, 0, 1]] := by
  refine ⟨C10_products_of_library_symmetries _ (by simp) ?_, ?_, ?_⟩
  · intro f hf
    simp only [List.mem_cons, List.not_mem_nil, or_false] at hf
    rcases hf with rfl | rfl | rfl
    · exact Or.inl ⟨3, by norm_num, by norm_num, rfl⟩
    · exact Or.inr (Or.inl rfl)
    · exact Or.inr (Or.inr (Or.inl ⟨true, rfl⟩))
  · refine ⟨rfl, ?_⟩
    intro p hp
    simp only [slices, List.mem_cons, List.not_mem_nil, or_false] at hp
    rcases hp with rfl | rfl | rfl
    · exact ⟨2, rfl, by constructor <;> norm_num [IsInt16]⟩
    · exact ⟨1, rfl, by constructor <;> norm_num⟩
    · exact ⟨1, rfl, by constructor <;> norm_num⟩
  · decide

end Cyten.Props
