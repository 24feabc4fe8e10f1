import Verif.Lemmas.ProductSym3

namespace Cyten
open Spec
namespace ProductSym

/-- `n_symbol` of a factor, `/repo/src/symmetries/base_symmetry.cpp:129-136`. -/
def facN (f : Factor) (a b c : List ℤ) : ℕ := if c ∈ f.cat.out a b then f.n a b c else 0

def prodN : List Factor → List ℤ → List ℤ → List ℤ → ℕ
  | [], _, _, c => if c = [] then 1 else 0
  | f :: fs, a, b, c => facN f (a.take f.len) (b.take f.len) (c.take f.len) *
      prodN fs (a.drop f.len) (b.drop f.len) (c.drop f.len)

def nprod (fs : List Factor) (a b c : List ℤ) : ℕ :=
  ((slices 0 fs).map fun p => p.2.n (slice a p) (slice b p) (slice c p)).prod

theorem nprod_cons (f : Factor) (fs : List Factor) (a b c : List ℤ) :
    nprod (f :: fs) a b c = f.n (a.take f.len) (b.take f.len) (c.take f.len) *
      nprod fs (a.drop f.len) (b.drop f.len) (c.drop f.len) := by
  unfold nprod
  rw [slices_cons]
  simp only [List.map_cons, List.prod_cons, List.map_map, slice_zero, Function.comp_def,
    slice_shift]

theorem prodN_eq (fs : List Factor)
    (hn : ∀ f ∈ fs, ∀ a, f.cat.valid a → a.length = f.len)
    (hc : ∀ f ∈ fs, ∀ a b, f.cat.valid a → f.cat.valid b → ∀ c ∈ f.cat.out a b, f.cat.valid c)
    (a b c : List ℤ) (ha : (prodCat fs).valid a) (hb : (prodCat fs).valid b) :
    prodN fs a b c = if c ∈ outs fs a b then nprod fs a b c else 0 := by
  induction fs generalizing a b c with
  | nil => simp [prodN, outs, slices, cartesian, nprod]
  | cons f fs ih =>
    have i := ih (fun g hg => hn g (by simp [hg])) (fun g hg => hc g (by simp [hg]))
      (a.drop f.len) (b.drop f.len) (c.drop f.len) ha.2 hb.2
    have hl : ∀ x ∈ f.cat.out (a.take f.len) (b.take f.len), x.length = f.len :=
      fun x hx => hn f (by simp) x (hc f (by simp) _ _ ha.1 hb.1 x hx)
    simp only [prodN, outs_cons, mem_pairs hl, nprod_cons, i, facN]
    by_cases h1 : c.take f.len ∈ f.cat.out (a.take f.len) (b.take f.len) <;>
      by_cases h2 : c.drop f.len ∈ outs fs (a.drop f.len) (b.drop f.len) <;> simp [h1, h2]

theorem prod_closed (fs : List Factor)
    (hn : ∀ f ∈ fs, ∀ a, f.cat.valid a → a.length = f.len)
    (hc : ∀ f ∈ fs, ∀ a b, f.cat.valid a → f.cat.valid b → ∀ c ∈ f.cat.out a b, f.cat.valid c)
    (a b c : List ℤ) (ha : (prodCat fs).valid a) (hb : (prodCat fs).valid b) (h : c ∈ outs fs a b) :
    (prodCat fs).valid c := by
  induction fs generalizing a b c with
  | nil => simpa [outs, slices, cartesian, prodCat, oneCat] using h
  | cons f fs ih =>
    have hl : ∀ x ∈ f.cat.out (a.take f.len) (b.take f.len), x.length = f.len :=
      fun x hx => hn f (by simp) x (hc f (by simp) _ _ ha.1 hb.1 x hx)
    rw [outs_cons, mem_pairs hl] at h
    exact ⟨hc f (by simp) _ _ ha.1 hb.1 _ h.1, ih (fun g hg => hn g (by simp [hg]))
      (fun g hg => hc g (by simp [hg])) _ _ _ ha.2 hb.2 h.2⟩

theorem prodN_assoc (fs : List Factor)
    (hn : ∀ f ∈ fs, ∀ a, f.cat.valid a → a.length = f.len)
    (hc : ∀ f ∈ fs, ∀ a b, f.cat.valid a → f.cat.valid b → ∀ c ∈ f.cat.out a b, f.cat.valid c)
    (hA : ∀ f ∈ fs, ∀ a b c d, f.cat.valid a → f.cat.valid b → f.cat.valid c → f.cat.valid d →
      ((f.cat.out a b).map fun e => facN f a b e * facN f e c d).sum =
        ((f.cat.out b c).map fun e => facN f b c e * facN f a e d).sum)
    (a b c d : List ℤ) (ha : (prodCat fs).valid a) (hb : (prodCat fs).valid b)
    (hc' : (prodCat fs).valid c) (hd : (prodCat fs).valid d) :
    ((outs fs a b).map fun e => prodN fs a b e * prodN fs e c d).sum =
      ((outs fs b c).map fun e => prodN fs b c e * prodN fs a e d).sum := by
  induction fs generalizing a b c d with
  | nil => simp [prodN, outs, slices, cartesian]
  | cons f fs ih =>
    have i := ih (fun g hg => hn g (by simp [hg])) (fun g hg => hc g (by simp [hg]))
      (fun g hg => hA g (by simp [hg]))
      (a.drop f.len) (b.drop f.len) (c.drop f.len) (d.drop f.len) ha.2 hb.2 hc'.2 hd.2
    have j := hA f (by simp) _ _ _ _ ha.1 hb.1 hc'.1 hd.1
    have hl : ∀ a b, f.cat.valid a → f.cat.valid b → ∀ x ∈ f.cat.out a b, x.length = f.len :=
      fun a b ha hb x hx => hn f (by simp) x (hc f (by simp) _ _ ha hb x hx)
    rw [outs_cons, outs_cons, pairs_sum _ _ _
      (fun e => facN f (a.take f.len) (b.take f.len) e * facN f e (c.take f.len) (d.take f.len))
      (fun e => prodN fs (a.drop f.len) (b.drop f.len) e *
        prodN fs e (c.drop f.len) (d.drop f.len)), i, j, pairs_sum _ _ _
      (fun e => facN f (b.take f.len) (c.take f.len) e * facN f (a.take f.len) e (d.take f.len))
      (fun e => prodN fs (b.drop f.len) (c.drop f.len) e *
        prodN fs (a.drop f.len) e (d.drop f.len))]
    · intro x hx y hy
      simp only [prodN]
      rw [List.take_left' (hl _ _ hb.1 hc'.1 x hx), List.drop_left' (hl _ _ hb.1 hc'.1 x hx)]
      ring
    · intro x hx y hy
      simp only [prodN]
      rw [List.take_left' (hl _ _ ha.1 hb.1 x hx), List.drop_left' (hl _ _ ha.1 hb.1 x hx)]
      ring

theorem fusionOutcomes_eq (fs : List Factor) (hne : fs ≠ []) (a b : List ℤ) :
    fusionOutcomes fs a b = outs fs a b := by
  unfold fusionOutcomes outs; simp [hne]

theorem nSymbol_eq (fs : List Factor) (hne : fs ≠ [])
    (hn : ∀ f ∈ fs, ∀ a, f.cat.valid a → a.length = f.len)
    (hc : ∀ f ∈ fs, ∀ a b, f.cat.valid a → f.cat.valid b → ∀ c ∈ f.cat.out a b, f.cat.valid c)
    (hs : ∀ f ∈ fs, f.style ≤ 10 → ∀ a b c, f.cat.valid a → f.cat.valid b → c ∈ f.cat.out a b →
      f.n a b c = 1)
    (a b c : List ℤ) (ha : valid fs a) (hb : valid fs b) :
    nSymbol fs a b c = prodN fs a b c := by
  rw [prodN_eq fs hn hc a b c ((valid_iff fs hn a).1 ha) ((valid_iff fs hn b).1 hb)]
  unfold nSymbol
  rw [fusionOutcomes_eq fs hne]
  split
  · rename_i h
    refine n_eq fs a b c ?_
    rw [mem_cartesian_iff] at h
    · intro p hp hst
      exact hs _ (slices_mem 0 fs p hp) hst _ _ _ (ha.2 p hp) (hb.2 p hp) (h.2 p hp)
    · intro p hp x hx
      exact hn _ (slices_mem 0 fs p hp) _
        (hc _ (slices_mem 0 fs p hp) _ _ (ha.2 p hp) (hb.2 p hp) x hx)
  · rfl

/-- the recursion `prodN` is the product over all factors of the slices' N-symbols -/
theorem prodN_slices (fs : List Factor) (a b c : List ℤ) (h : c.length = (fs.map Factor.len).sum) :
    prodN fs a b c =
      ((slices 0 fs).map fun p => facN p.2 (slice a p) (slice b p) (slice c p)).prod := by
  induction fs generalizing a b c with
  | nil => simp at h; simp [prodN, slices, h]
  | cons f fs ih =>
    rw [slices_cons]
    simp only [List.map_cons, List.prod_cons, List.map_map, slice_zero, Function.comp_def,
      slice_shift, prodN]
    rw [ih]
    simp at h; simp [h]

/-! ### all sectors -/

theorem cartesian_all (fs : List Factor)
    (hn : ∀ f ∈ fs, ∀ a, f.cat.valid a → a.length = f.len)
    (hA : ∀ f ∈ fs, f.all.Nodup ∧ ∀ a, a ∈ f.all ↔ f.cat.valid a) :
    (cartesian (fs.map Factor.all)).Nodup ∧
      ∀ a, a ∈ cartesian (fs.map Factor.all) ↔ (prodCat fs).valid a := by
  induction fs with
  | nil => simp [cartesian, prodCat, oneCat]
  | cons f fs ih =>
    obtain ⟨i1, i2⟩ := ih (fun g hg => hn g (by simp [hg])) (fun g hg => hA g (by simp [hg]))
    obtain ⟨a1, a2⟩ := hA f (by simp)
    have hl : ∀ x ∈ f.all, x.length = f.len := fun x hx => hn f (by simp) x ((a2 x).1 hx)
    refine ⟨nodup_pairs hl a1 i1, fun a => ?_⟩
    show a ∈ pairs f.all _ ↔ _
    rw [mem_pairs hl, a2, i2]
    rfl

end ProductSym
end Cyten
