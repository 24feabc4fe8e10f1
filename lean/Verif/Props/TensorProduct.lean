import Verif.Lemmas.Fusion4
import Verif.Props.Legs2
import Verif.Props.Trees

/-! # Products of spaces: C29, C28 (products), C40 -/

namespace Cyten.Props
open Cyten.Tools Cyten.Spaces Cyten.Spaces.Spec Cyten.FusionTrees

set_option linter.unusedSectionVars false

variable {S : Type} [LinearOrder S]

/-- `test_sanity` of all the flat spaces of the factors. -/
def SaneLeaves (factors : List (Leg S)) : Prop :=
  ∀ e ∈ Leg.leavesAll factors,
    e.mults.length = e.defining.length ∧ e.defining.Pairwise (· < ·) ∧ ∀ m ∈ e.mults, 0 < m

theorem goodSpace_toSpace (sym : Sym S) (hinv : ∀ s, sym.dual (sym.dual s) = s) (e : ESpace S)
    (hl : e.mults.length = e.defining.length) (hs : e.defining.Pairwise (· < ·)) :
    GoodSpace (e.toSpace sym) := by
  have hinj : Function.Injective sym.dual := fun a b h => by rw [← hinv a, h, hinv]
  refine ⟨?_, ?_, ?_⟩
  · change (e.sectors sym).length = e.mults.length
    unfold ESpace.sectors
    split <;> simp [hl]
  · change (e.sectors sym).Nodup
    have hn : e.defining.Nodup := hs.imp ne_of_lt
    unfold ESpace.sectors
    split
    · exact hn.map hinj
    · exact hn
  · intro h
    change (e.sectors sym).Pairwise (· < ·)
    have h' : some (if e.isDual then Order.dualSorted else Order.sorted) = some Order.sorted := h
    unfold ESpace.sectors
    cases hd : e.isDual
    · simpa using hs
    · rw [hd] at h'; simp at h'

theorem SaneLeaves.good {sym : Sym S} (hinv : ∀ s, sym.dual (sym.dual s) = s)
    {factors : List (Leg S)} (h : SaneLeaves factors) :
    ∀ x ∈ TProd.flatSpaces sym factors, GoodSpace x := by
  intro x hx
  obtain ⟨e, he, rfl⟩ := List.mem_map.1 hx
  exact goodSpace_toSpace sym hinv e (h e he).1 (h e he).2.1

theorem SaneLeaves.pos {sym : Sym S} {factors : List (Leg S)} (h : SaneLeaves factors) :
    ∀ x ∈ TProd.flatSpaces sym factors, ∀ m ∈ x.mults, 0 < m := by
  intro x hx
  obtain ⟨e, he, rfl⟩ := List.mem_map.1 hx
  exact (h e he).2.2

theorem channels_eq (R : FusionRule S) (hR : R.Lawful) (spaces : List (SpaceData S)) (c : S) :
    channels R spaces c = prodV R (spaces.map spaceV) c := by
  have e : spaces.map spaceV = (pairs spaces).map vec := by
    unfold pairs; rw [List.map_map]; rfl
  rw [e, prodV_choices, sum_apply, List.map_map]
  unfold channels
  congr 1
  apply List.map_congr_left
  intro ch _
  simp only [Function.comp_apply, choiceV, Finsupp.smul_apply, smul_eq_mul]
  have := prodV_singles R hR (ch.map Prod.fst) c
  rw [List.map_map] at this
  rw [length_allTrees, ← this]
  rfl

/-! ## C29 -/

/-- **C29** (sectors). The sectors of a product are sorted and duplicate free, there is one
positive multiplicity for each, and exactly the sectors with a fusion channel occur. -/
theorem C29_sectors (sym : Sym S) (hinv : ∀ s, sym.dual (sym.dual s) = s) (R : FusionRule S)
    (unique : Bool) (hR : FusionOK R unique) (factors : List (Leg S)) (h : SaneLeaves factors) :
    let t := TProd.make sym R unique factors
    t.sectors.Pairwise (· < ·) ∧ t.mults.length = t.sectors.length ∧ (∀ m ∈ t.mults, 0 < m) ∧
      ∀ c, c ∈ t.sectors ↔ 0 < channels R (TProd.flatSpaces sym factors) c := by
  have hn := calcSectors_norm R unique hR _ (h.good hinv)
  have hp := calcSectors_pos R unique hR _ (h.good (sym := sym) hinv) h.pos
  refine ⟨hn.sorted, hn.len.symm, hp, ?_⟩
  intro c
  rw [channels_eq R hR.lawful]
  exact hn.mem_iff hp c

/-- **C29** (multiplicities). The multiplicity of `c` is the sum over all choices of one sector per
flat leg of the product of the multiplicities times the number of fusion trees to `c`. -/
theorem C29_multiplicity (sym : Sym S) (hinv : ∀ s, sym.dual (sym.dual s) = s) (R : FusionRule S)
    (unique : Bool) (hR : FusionOK R unique) (factors : List (Leg S)) (h : SaneLeaves factors)
    (c : S) :
    let t := TProd.make sym R unique factors
    multOf t.sectors t.mults c = channels R (TProd.flatSpaces sym factors) c ∧
      t.blockSize c = channels R (TProd.flatSpaces sym factors) c := by
  have hn := calcSectors_norm R unique hR _ (h.good hinv)
  have h1 : multOf (TProd.make sym R unique factors).sectors
      (TProd.make sym R unique factors).mults c = channels R (TProd.flatSpaces sym factors) c := by
    rw [channels_eq R hR.lawful, ← hn.vec, vec_zip]
    rfl
  refine ⟨h1, ?_⟩
  rw [← h1]
  refine C27_sector_multiplicity sym _ ?_ c
  exact ⟨hn.len.symm, hn.sorted.imp ne_of_lt,
    calcSectors_pos R unique hR _ (h.good (sym := sym) hinv) h.pos, fun _ => hn.sorted,
    fun hh => by cases hh⟩

/-- A character of the fusion ring, as a linear map. -/
private noncomputable def charL {K : Type} [CommSemiring K] (d : S → K) : (S →₀ ℕ) →+ K :=
  Finsupp.liftAddHom fun s => (AddMonoidHom.mulRight (d s)).comp (Nat.castAddMonoidHom K)

private theorem charL_single {K : Type} [CommSemiring K] (d : S → K) (s : S) (m : ℕ) :
    charL d (Finsupp.single s m) = m * d s := by
  simp [charL]

private theorem charL_vec {K : Type} [CommSemiring K] (d : S → K) (l : List (S × ℕ)) :
    charL d (vec l) = (l.map fun p => (p.2 : K) * d p.1).sum := by
  induction l with
  | nil => simp
  | cons p l ih => simp [charL_single, ih]

private theorem charL_mul {K : Type} [CommSemiring K] (R : FusionRule S) (hR : R.Lawful) (d : S → K)
    (hd : ∀ a b, d a * d b = ((R.outcomes a b).map fun c => (R.nSymbol a b c : K) * d c).sum)
    (v w : S →₀ ℕ) : charL d (mulL R v w) = charL d v * charL d w := by
  induction v using Finsupp.induction_linear with
  | zero => simp
  | add f g hf hg => simp [hf, hg, add_mul]
  | single a m =>
    induction w using Finsupp.induction_linear with
    | zero => simp
    | add f g hf hg => simp [hf, hg, mul_add]
    | single b n =>
      rw [mulL_single, map_nsmul, charL_single, charL_single, outV_eq R hR, map_list_sum,
        List.map_map]
      have : ((R.outcomes a b).map (charL d ∘ fun x => Finsupp.single x (R.nSymbol a b x))).sum =
          d a * d b := by
        rw [hd]
        congr 1
        apply List.map_congr_left
        intro c _
        simp [charL_single]
      rw [this]
      simp only [nsmul_eq_mul, Nat.cast_mul]
      ring

private theorem charL_foldl {K : Type} [CommSemiring K] (R : FusionRule S) (hR : R.Lawful) (d : S → K)
    (hd : ∀ a b, d a * d b = ((R.outcomes a b).map fun c => (R.nSymbol a b c : K) * d c).sum)
    (vs : List (S →₀ ℕ)) (v : S →₀ ℕ) :
    charL d (vs.foldl (fun x y => mulL R x y) v) = charL d v * (vs.map (charL d)).prod := by
  induction vs generalizing v with
  | nil => simp
  | cons w vs ih =>
    rw [List.foldl_cons, ih, charL_mul R hR d hd, List.map_cons, List.prod_cons, mul_assoc]

private theorem charL_prodV {K : Type} [CommSemiring K] (R : FusionRule S) (hR : R.Lawful) (d : S → K)
    (h1 : d R.unit = 1)
    (hd : ∀ a b, d a * d b = ((R.outcomes a b).map fun c => (R.nSymbol a b c : K) * d c).sum)
    (vs : List (S →₀ ℕ)) : charL d (prodV R vs) = (vs.map (charL d)).prod := by
  cases vs with
  | nil => simp [prodV, charL_single, h1]
  | cons v vs =>
    rw [prodV, charL_foldl R hR d hd]
    simp

/-- **C29** (dimension). For every character `d` of the fusion ring (the dimension, or the quantum
dimension of anyons), the dimension of the product is the product of the dimensions of the flat
legs. -/
theorem C29_dim {K : Type} [CommSemiring K] (sym : Sym S) (hinv : ∀ s, sym.dual (sym.dual s) = s)
    (R : FusionRule S) (unique : Bool) (hR : FusionOK R unique) (d : S → K) (h1 : d R.unit = 1)
    (hd : ∀ a b, d a * d b = ((R.outcomes a b).map fun c => (R.nSymbol a b c : K) * d c).sum)
    (factors : List (Leg S)) (h : SaneLeaves factors) :
    let t := TProd.make sym R unique factors
    ((t.sectors.zip t.mults).map fun p => (p.2 : K) * d p.1).sum =
      ((Leg.leavesAll factors).map fun e =>
        (((e.sectors sym).zip e.mults).map fun p => (p.2 : K) * d p.1).sum).prod := by
  intro t
  have hn := calcSectors_norm R unique hR _ (h.good hinv)
  have e1 : ((t.sectors.zip t.mults).map fun p => (p.2 : K) * d p.1).sum =
      charL d (prodV R ((TProd.flatSpaces sym factors).map spaceV)) := by
    rw [← hn.vec, charL_vec]
    rfl
  rw [e1, charL_prodV R hR.lawful d h1 hd, List.map_map, TProd.flatSpaces, List.map_map]
  congr 1
  apply List.map_congr_left
  intro e _
  simp only [Function.comp_apply, spaceV, charL_vec]
  rfl

/-! ## C28: the dual of a product -/

theorem SaneLeaves.dual {factors : List (Leg S)} (h : SaneLeaves factors) :
    SaneLeaves (factors.map Leg.dual).reverse := by
  intro e he
  have hd : (factors.map Leg.dual) = Leg.dualAll factors := by
    clear h he
    induction factors with
    | nil => rfl
    | cons l ls ih => rw [List.map_cons, ih, Leg.dualAll]
  rw [hd, leavesAll_dual, List.mem_reverse] at he
  obtain ⟨e', he', rfl⟩ := List.mem_map.1 he
  exact h e' he'

theorem dualAll_eq (factors : List (Leg S)) : Leg.dualAll factors = factors.map Leg.dual := by
  induction factors with
  | nil => rfl
  | cons l ls ih => rw [List.map_cons, ← ih, Leg.dualAll]

theorem spaceV_dual (sym : Sym S) (hinv : ∀ s, sym.dual (sym.dual s) = s) (e : ESpace S) :
    spaceV (e.dual.toSpace sym) = dualV sym.dual (spaceV (e.toSpace sym)) := by
  unfold spaceV
  rw [dualV_vec]
  congr 1
  have e1 : (e.dual.toSpace sym).sectors = (e.sectors sym).map sym.dual := by
    change e.dual.sectors sym = _
    unfold ESpace.sectors ESpace.dual
    cases e.isDual <;> simp [hinv, Function.comp_def]
  rw [e1]
  change List.zip ((e.sectors sym).map sym.dual) e.mults = _
  rw [List.zip_map_left]
  rfl

theorem prodV_dual (sym : Sym S) (R : FusionRule S) (hR : R.Lawful)
    (hN : FusionRingN R sym.dual) (factors : List (Leg S)) :
    prodV R ((TProd.flatSpaces sym (factors.map Leg.dual).reverse).map spaceV) =
      dualV sym.dual (prodV R ((TProd.flatSpaces sym factors).map spaceV)) := by
  rw [dualV_prodV R hR hN, TProd.flatSpaces, TProd.flatSpaces, ← dualAll_eq, leavesAll_dual]
  refine prodV_perm R hR hN ?_
  rw [List.map_map, List.map_map, List.map_map, List.map_reverse]
  refine (List.reverse_perm _).trans ?_
  rw [List.map_map]
  refine List.Perm.of_eq ?_
  apply List.map_congr_left
  intro e _
  exact spaceV_dual sym hN.dual_dual e

/-- Sorting the duals of a normal form. -/
theorem norm_sort_dual (dual : S → S) (hd : ∀ a, dual (dual a) = a) (sm : List S × List ℕ)
    (v : S →₀ ℕ) (h : Norm sm v) :
    Norm ((sortSectors (sm.1.map dual) sm.2).1, (sortSectors (sm.1.map dual) sm.2).2.1)
      (dualV dual v) := by
  have hinj : Function.Injective dual := fun a b h => by rw [← hd a, h, hd]
  have hf : (sm.1.zip sm.2).map Prod.fst = sm.1 := List.map_fst_zip (by rw [h.len])
  have hs : (sm.1.zip sm.2).map Prod.snd = sm.2 := List.map_snd_zip (by rw [h.len])
  have e := sortSectors_map (sm.1.zip sm.2) (fun p => dual p.1) Prod.snd
  have e0 : (sm.1.zip sm.2).map (fun p => dual p.1) = sm.1.map dual := by
    conv_rhs => rw [← hf, List.map_map]
    rfl
  rw [e0, hs] at e
  rw [e]
  have hperm := sortBy_perm (fun p : S × ℕ => dual p.1) (sm.1.zip sm.2)
  refine ⟨by simp, ?_, ?_⟩
  · have hle := sortBy_sorted (fun p : S × ℕ => dual p.1) (sm.1.zip sm.2)
    have hnd : ((sortBy (fun p : S × ℕ => dual p.1) (sm.1.zip sm.2)).map
        fun p => dual p.1).Nodup := by
      rw [(hperm.map _).nodup_iff, e0]
      exact List.Nodup.map hinj (h.sorted.imp ne_of_lt)
    rw [List.pairwise_map]
    rw [List.Nodup, List.pairwise_map] at hnd
    exact (hle.and hnd).imp fun h => lt_of_le_of_ne h.1 h.2
  · rw [← h.vec, dualV_vec, List.zip_map', ← vec_perm (hperm.map _)]

theorem sort_dual_pos (dual : S → S) (sm : List S × List ℕ) (hp : Pos sm) :
    Pos ((sortSectors (sm.1.map dual) sm.2).1, (sortSectors (sm.1.map dual) sm.2).2.1) := by
  intro m hm
  obtain ⟨i, _, hi⟩ := List.mem_filterMap.1 hm
  exact hp m (List.mem_of_getElem? hi)

/-- **C28** (products). The dual of a product is the product of the duals in reversed order: its
sectors and multiplicities, obtained by dualising and sorting, are those of the product built from
the dual factors. -/
theorem C28_product_dual (sym : Sym S) (R : FusionRule S) (unique : Bool) (hR : FusionOK R unique)
    (hN : FusionRingN R sym.dual) (factors : List (Leg S)) (h : SaneLeaves factors) :
    (TProd.make sym R unique factors).dual sym =
      TProd.make sym R unique (factors.map Leg.dual).reverse := by
  have hinv := hN.dual_dual
  have n1 := norm_sort_dual sym.dual hinv _ _ (calcSectors_norm R unique hR _ (h.good hinv))
  have p1 := sort_dual_pos sym.dual _ (calcSectors_pos R unique hR _ (h.good (sym := sym) hinv) h.pos)
  have n2 := calcSectors_norm R unique hR _ (h.dual.good hinv)
  have p2 := calcSectors_pos R unique hR _ (h.dual.good (sym := sym) hinv) h.dual.pos
  rw [prodV_dual sym R hR.lawful hN] at n2
  have e := n1.unique p1 n2 p2
  unfold TProd.dual TProd.make
  rw [TProd.mk.injEq]
  exact ⟨rfl, congrArg Prod.fst e, congrArg Prod.snd e⟩

/-- **C28** (products). The multiplicity of `dual c` in the dual is the one of `c`. -/
theorem C28_product_dual_multiplicity (sym : Sym S) (R : FusionRule S) (unique : Bool)
    (hR : FusionOK R unique) (hN : FusionRingN R sym.dual) (factors : List (Leg S))
    (h : SaneLeaves factors) (c : S) :
    let t := TProd.make sym R unique factors
    multOf (t.dual sym).sectors (t.dual sym).mults (sym.dual c) = multOf t.sectors t.mults c := by
  intro t
  have n0 := calcSectors_norm R unique hR _ (h.good (sym := sym) hN.dual_dual)
  have n1 := norm_sort_dual sym.dual hN.dual_dual _ _ n0
  have a1 := n1.vec
  have a0 := n0.vec
  rw [← vec_zip, ← vec_zip]
  change vec (List.zip _ _) (sym.dual c) = vec (List.zip _ _) c
  have e1 : vec ((t.dual sym).sectors.zip (t.dual sym).mults) = dualV sym.dual _ := a1
  rw [e1, dualV_apply sym.dual hN.dual_dual, ← a0]
  rfl

/-- **C28** (products). The dual of the dual of a product is the product. -/
theorem C28_product_dual_involutive (sym : Sym S) (R : FusionRule S) (unique : Bool)
    (hR : FusionOK R unique) (hN : FusionRingN R sym.dual) (factors : List (Leg S))
    (h : SaneLeaves factors) :
    ((TProd.make sym R unique factors).dual sym).dual sym = TProd.make sym R unique factors := by
  rw [C28_product_dual sym R unique hR hN factors h,
    C28_product_dual sym R unique hR hN _ h.dual]
  congr 1
  rw [List.map_reverse, List.reverse_reverse, List.map_map]
  conv_rhs => rw [← List.map_id factors]
  apply List.map_congr_left
  intro l _
  exact dual_dual_aux l

end Cyten.Props
