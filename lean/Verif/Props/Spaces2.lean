import Verif.Props.Spaces
import Mathlib.Data.List.MinMax

/-!
# C27: direct sums, common subspaces, comparison of spaces

`multOf` is the total multiplicity of a sector (`Verif.Spec.Spaces`).
-/

namespace Cyten.Props
open Cyten.Tools Cyten.Tables Cyten.Spaces Cyten.Spaces.Spec

set_option linter.unusedSectionVars false

variable {S : Type} [LinearOrder S]

/-- The invariant of `Space` (`Space::test_sanity`): distinct sectors of positive multiplicity,
sorted as declared. -/
structure ValidData (sym : Sym S) (x : SpaceData S) : Prop where
  lengths : x.mults.length = x.sectors.length
  nodup : x.sectors.Nodup
  pos : ∀ m ∈ x.mults, 0 < m
  sorted : x.order = some .sorted → x.sectors.Pairwise (· < ·)
  dualSorted : x.order = some .dualSorted → (x.sectors.map sym.dual).Pairwise (· < ·)

/-- the pairs of sectors and multiplicities -/
def SpaceData.pairs (x : SpaceData S) : List (S × ℕ) := x.sectors.zip x.mults

private theorem pairs_fst {sym : Sym S} {x : SpaceData S} (h : ValidData sym x) :
    (SpaceData.pairs x).map Prod.fst = x.sectors := List.map_fst_zip h.lengths.ge

private theorem pairs_snd {sym : Sym S} {x : SpaceData S} (h : ValidData sym x) :
    (SpaceData.pairs x).map Prod.snd = x.mults := List.map_snd_zip h.lengths.le

/-- multiplicity in a list of pairs -/
private def mo (A : List (S × ℕ)) (s : S) : ℕ := (A.map fun p => if p.1 = s then p.2 else 0).sum

private theorem mo_zero (A : List (S × ℕ)) (s : S) (h : s ∉ A.map Prod.fst) : mo A s = 0 := by
  induction A with
  | nil => rfl
  | cons p A ih =>
    simp only [List.map_cons, List.mem_cons, not_or] at h
    have := ih h.2
    unfold mo at this ⊢
    simp only [List.map_cons, List.sum_cons, this, Nat.add_zero]
    exact if_neg (Ne.symm h.1)

private theorem mo_mem (A : List (S × ℕ)) (hn : (A.map Prod.fst).Nodup) (s : S) (m : ℕ)
    (h : (s, m) ∈ A) : mo A s = m := by
  induction A with
  | nil => cases h
  | cons p A ih =>
    simp only [List.map_cons, List.nodup_cons] at hn
    rcases List.mem_cons.1 h with rfl | h
    · have := mo_zero A s hn.1
      unfold mo at this ⊢
      simp [this]
    · have hne : p.1 ≠ s := by
        intro he
        exact hn.1 (List.mem_map.2 ⟨(s, m), h, he.symm⟩)
      have := ih hn.2 h
      unfold mo at this ⊢
      simp [hne, this]

private theorem mem_iff_mo (A : List (S × ℕ)) (hn : (A.map Prod.fst).Nodup)
    (hp : ∀ p ∈ A, 0 < p.2) (s : S) (m : ℕ) : (s, m) ∈ A ↔ mo A s = m ∧ 0 < m := by
  constructor
  · intro h; exact ⟨mo_mem A hn s m h, hp _ h⟩
  · rintro ⟨h1, h2⟩
    by_cases hs : s ∈ A.map Prod.fst
    · obtain ⟨p, hp', rfl⟩ := List.mem_map.1 hs
      have := mo_mem A hn p.1 p.2 hp'
      rw [← h1, this]
      exact hp'
    · rw [mo_zero A s hs] at h1; omega

private theorem perm_iff_mo (A B : List (S × ℕ)) (hA : (A.map Prod.fst).Nodup)
    (hB : (B.map Prod.fst).Nodup) (pA : ∀ p ∈ A, 0 < p.2) (pB : ∀ p ∈ B, 0 < p.2) :
    A.Perm B ↔ ∀ s, mo A s = mo B s := by
  constructor
  · intro h s
    unfold mo
    exact (h.map _).sum_eq
  · intro h
    refine (List.perm_ext_iff_of_nodup (List.Nodup.of_map _ hA) (List.Nodup.of_map _ hB)).2 ?_
    rintro ⟨s, m⟩
    rw [mem_iff_mo A hA pA, mem_iff_mo B hB pB, h]

private theorem pairs_pos {sym : Sym S} {x : SpaceData S} (h : ValidData sym x) :
    ∀ p ∈ SpaceData.pairs x, 0 < p.2 := by
  intro p hp
  refine h.pos p.2 ?_
  rw [← pairs_snd h]
  exact List.mem_map.2 ⟨p, hp, rfl⟩

private theorem pairs_nodup {sym : Sym S} {x : SpaceData S} (h : ValidData sym x) :
    ((SpaceData.pairs x).map Prod.fst).Nodup := by rw [pairs_fst h]; exact h.nodup

private theorem multOf_pairs (x : SpaceData S) (s : S) :
    multOf x.sectors x.mults s = mo (SpaceData.pairs x) s := rfl

/-- gathering both lists by the sorting permutation of a key -/
private theorem take_sorted {sym : Sym S} {x : SpaceData S} (h : ValidData sym x) (K : S → S) :
    gather x.sectors (lexsortIndices (x.sectors.map K)) =
      (sortBy (fun p : S × ℕ => K p.1) (SpaceData.pairs x)).map Prod.fst ∧
    gather x.mults (lexsortIndices (x.sectors.map K)) =
      (sortBy (fun p : S × ℕ => K p.1) (SpaceData.pairs x)).map Prod.snd := by
  have := gather_lexsort (fun p : S × ℕ => K p.1) (SpaceData.pairs x)
  have e : (SpaceData.pairs x).map (fun p : S × ℕ => K p.1) = x.sectors.map K := by
    rw [← pairs_fst h, List.map_map]; rfl
  rw [e] at this
  constructor
  · have e2 := congrArg (fun l => gather l (lexsortIndices (x.sectors.map K))) (pairs_fst h)
    rw [← e2, gather_map, this]; rfl
  · conv_lhs => rw [← pairs_snd h]
    rw [gather_map, this]; rfl

private theorem sortBy_strict {sym : Sym S} {x : SpaceData S} (h : ValidData sym x) (K : S → S)
    (hK : Function.Injective K) :
    (sortBy (fun p : S × ℕ => K p.1) (SpaceData.pairs x)).Pairwise fun p q => K p.1 < K q.1 := by
  have hs := sortBy_sorted (fun p : S × ℕ => K p.1) (SpaceData.pairs x)
  have hn : ((sortBy (fun p : S × ℕ => K p.1) (SpaceData.pairs x)).map fun p => K p.1).Nodup := by
    refine ((sortBy_perm (fun p : S × ℕ => K p.1) (SpaceData.pairs x)).map _).nodup_iff.2 ?_
    have := (pairs_nodup h).map hK
    rwa [List.map_map] at this
  have := List.Pairwise.and hs (List.pairwise_map.1 hn)
  exact this.imp fun h => lt_of_le_of_ne h.1 h.2

/-- comparison of two rearranged lists of pairs, both strictly sorted by the same key -/
private theorem eq_iff_mo {sym : Sym S} {x y : SpaceData S} (hx : ValidData sym x)
    (hy : ValidData sym y) (K : S → S) (A B : List (S × ℕ))
    (hA : A.Perm (SpaceData.pairs x)) (hB : B.Perm (SpaceData.pairs y))
    (sA : A.Pairwise fun p q => K p.1 < K q.1) (sB : B.Pairwise fun p q => K p.1 < K q.1) :
    (A.map Prod.snd = B.map Prod.snd ∧ A.map Prod.fst = B.map Prod.fst) ↔
      ∀ s, multOf x.sectors x.mults s = multOf y.sectors y.mults s := by
  have h1 : (A.map Prod.snd = B.map Prod.snd ∧ A.map Prod.fst = B.map Prod.fst) ↔ A = B := by
    constructor
    · rintro ⟨h2, h1⟩
      have : ∀ (A B : List (S × ℕ)), A.map Prod.snd = B.map Prod.snd →
          A.map Prod.fst = B.map Prod.fst → A = B := by
        intro A
        induction A with
        | nil => intro B h2 _; symm; simpa using h2.symm
        | cons a A ih =>
          intro B h2 h1
          cases B with
          | nil => simp at h2
          | cons b B =>
            simp only [List.map_cons, List.cons.injEq] at h1 h2
            rw [ih B h2.2 h1.2, Prod.ext h1.1 h2.1]
      exact this A B h2 h1
    · rintro rfl; exact ⟨rfl, rfl⟩
  rw [h1]
  simp only [multOf_pairs]
  rw [← perm_iff_mo _ _ (pairs_nodup hx) (pairs_nodup hy) (pairs_pos hx) (pairs_pos hy)]
  constructor
  · rintro rfl; exact hA.symm.trans hB
  · intro h
    refine List.Perm.eq_of_pairwise ?_ sA sB (hA.trans (h.trans hB.symm))
    intro a b _ _ hab hba
    exact absurd hab (not_lt.2 hba.le)

private theorem beq_and_iff (a b : List ℕ) (c d : List S) :
    (a == b && c == d) = true ↔ a = b ∧ c = d := by simp

/-- **C27**: two spaces are isomorphic exactly if every sector has the same multiplicity, for every
combination of declared sortings. -/
theorem C27_is_isomorphic_to (sym : Sym S) (hd : Function.Involutive sym.dual) (x y : SpaceData S)
    (hx : ValidData sym x) (hy : ValidData sym y) :
    SpaceData.isIsomorphicTo sym x y = true ↔
      ∀ s, multOf x.sectors x.mults s = multOf y.sectors y.mults s := by
  unfold SpaceData.isIsomorphicTo
  -- rearranged pairs of one space
  have hinj := hd.injective
  have hsx : ∀ K : S → S, Function.Injective K → ∀ {z : SpaceData S}, ValidData sym z →
      takeOrAll z.sectors (some (lexsortIndices (z.sectors.map K))) =
        (sortBy (fun p : S × ℕ => K p.1) (SpaceData.pairs z)).map Prod.fst ∧
      takeOrAll z.mults (some (lexsortIndices (z.sectors.map K))) =
        (sortBy (fun p : S × ℕ => K p.1) (SpaceData.pairs z)).map Prod.snd := by
    intro K _ z hz
    exact take_sorted hz K
  have main : ∀ (K : S → S) (A B : List (S × ℕ)),
      A.Perm (SpaceData.pairs x) → B.Perm (SpaceData.pairs y) →
      (A.Pairwise fun p q => K p.1 < K q.1) → (B.Pairwise fun p q => K p.1 < K q.1) →
      takeOrAll x.sectors (isoPerm1 sym x y) = A.map Prod.fst →
      takeOrAll x.mults (isoPerm1 sym x y) = A.map Prod.snd →
      takeOrAll y.sectors (isoPerm2 sym x y) = B.map Prod.fst →
      takeOrAll y.mults (isoPerm2 sym x y) = B.map Prod.snd →
      ((if x.sectors.length ≠ y.sectors.length then false
        else
          takeOrAll x.mults (isoPerm1 sym x y) == takeOrAll y.mults (isoPerm2 sym x y) &&
            takeOrAll x.sectors (isoPerm1 sym x y) == takeOrAll y.sectors (isoPerm2 sym x y)) = true
        ↔ ∀ s, multOf x.sectors x.mults s = multOf y.sectors y.mults s) := by
    intro K A B hA hB sA sB h1 h2 h3 h4
    rw [h1, h2, h3, h4]
    have key := eq_iff_mo hx hy K A B hA hB sA sB
    split_ifs with hlen
    · simp only [Bool.false_eq_true, false_iff]
      intro h
      have h' := (key.2 h).2
      have h5 := congrArg List.length h'
      rw [List.length_map, List.length_map, hA.length_eq, hB.length_eq,
        ← List.length_map (f := Prod.fst), pairs_fst hx, ← List.length_map (f := Prod.fst),
        pairs_fst hy] at h5
      exact hlen h5
    · rw [beq_and_iff]
      exact key
  have idmap : ∀ l : List S, l.map (id : S → S) = l := fun l => List.map_id l
  have sortedPairs : ∀ {z : SpaceData S}, ValidData sym z → z.order = some .sorted →
      (SpaceData.pairs z).Pairwise fun p q => id p.1 < id q.1 := by
    intro z hz ho
    have := hz.sorted ho
    rw [← pairs_fst hz] at this
    exact List.pairwise_map.1 this
  have dualPairs : ∀ {z : SpaceData S}, ValidData sym z → z.order = some .dualSorted →
      (SpaceData.pairs z).Pairwise fun p q => sym.dual p.1 < sym.dual q.1 := by
    intro z hz ho
    have := hz.dualSorted ho
    rw [← pairs_fst hz, List.map_map] at this
    exact List.pairwise_map.1 this
  have sx := fun (K : S → S) (hK : Function.Injective K) => sortBy_strict hx K hK
  have sy := fun (K : S → S) (hK : Function.Injective K) => sortBy_strict hy K hK
  have px := fun (K : S → S) => sortBy_perm (fun p : S × ℕ => K p.1) (SpaceData.pairs x)
  have py := fun (K : S → S) => sortBy_perm (fun p : S × ℕ => K p.1) (SpaceData.pairs y)
  have hxi := hsx id Function.injective_id hx
  have hyi := hsx id Function.injective_id hy
  rw [idmap] at hxi hyi
  have hxd := hsx sym.dual hinj hx
  have hyd := hsx sym.dual hinj hy
  have fx := pairs_fst hx
  have fy := pairs_fst hy
  have mx := pairs_snd hx
  have my := pairs_snd hy
  rcases hox : x.order with _ | ox <;> rcases hoy : y.order with _ | oy
  · exact main id _ _ (px id) (py id) (sx id Function.injective_id) (sy id Function.injective_id)
      (by simp only [isoPerm1, hox, hoy]; exact hxi.1) (by simp only [isoPerm1, hox, hoy]; exact hxi.2)
      (by simp only [isoPerm2, hox, hoy]; exact hyi.1) (by simp only [isoPerm2, hox, hoy]; exact hyi.2)
  · cases oy with
    | sorted =>
      exact main id _ _ (px id) (List.Perm.refl _) (sx id Function.injective_id) (sortedPairs hy hoy)
        (by simp only [isoPerm1, hox, hoy]; exact hxi.1)
        (by simp only [isoPerm1, hox, hoy]; exact hxi.2)
        (by simp only [isoPerm2, hox, hoy]; exact fy.symm)
        (by simp only [isoPerm2, hox, hoy]; exact my.symm)
    | dualSorted =>
      exact main sym.dual _ _ (px _) (List.Perm.refl _) (sx _ hinj) (dualPairs hy hoy)
        (by simp only [isoPerm1, hox, hoy]; exact hxd.1)
        (by simp only [isoPerm1, hox, hoy]; exact hxd.2)
        (by simp only [isoPerm2, hox, hoy]; exact fy.symm)
        (by simp only [isoPerm2, hox, hoy]; exact my.symm)
  · cases ox with
    | sorted =>
      exact main id _ _ (List.Perm.refl _) (py id) (sortedPairs hx hox) (sy id Function.injective_id)
        (by simp only [isoPerm1, hox, hoy]; exact fx.symm)
        (by simp only [isoPerm1, hox, hoy]; exact mx.symm)
        (by simp only [isoPerm2, hox, hoy]; exact hyi.1)
        (by simp only [isoPerm2, hox, hoy]; exact hyi.2)
    | dualSorted =>
      exact main sym.dual _ _ (List.Perm.refl _) (py _) (dualPairs hx hox) (sy _ hinj)
        (by simp only [isoPerm1, hox, hoy]; exact fx.symm)
        (by simp only [isoPerm1, hox, hoy]; exact mx.symm)
        (by simp only [isoPerm2, hox, hoy]; exact hyd.1)
        (by simp only [isoPerm2, hox, hoy]; exact hyd.2)
  · cases ox <;> cases oy
    · exact main id _ _ (List.Perm.refl _) (List.Perm.refl _) (sortedPairs hx hox)
        (sortedPairs hy hoy)
        (by simp only [isoPerm1, hox, hoy]; exact fx.symm)
        (by simp only [isoPerm1, hox, hoy]; exact mx.symm)
        (by simp only [isoPerm2, hox, hoy]; exact fy.symm)
        (by simp only [isoPerm2, hox, hoy]; exact my.symm)
    · exact main id _ _ (List.Perm.refl _) (py id) (sortedPairs hx hox)
        (sy id Function.injective_id)
        (by simp only [isoPerm1, hox, hoy]; exact fx.symm)
        (by simp only [isoPerm1, hox, hoy]; exact mx.symm)
        (by simp only [isoPerm2, hox, hoy]; exact hyi.1)
        (by simp only [isoPerm2, hox, hoy]; exact hyi.2)
    · exact main id _ _ (px id) (List.Perm.refl _) (sx id Function.injective_id) (sortedPairs hy hoy)
        (by simp only [isoPerm1, hox, hoy]; exact hxi.1)
        (by simp only [isoPerm1, hox, hoy]; exact hxi.2)
        (by simp only [isoPerm2, hox, hoy]; exact fy.symm)
        (by simp only [isoPerm2, hox, hoy]; exact my.symm)
    · exact main sym.dual _ _ (List.Perm.refl _) (List.Perm.refl _) (dualPairs hx hox)
        (dualPairs hy hoy)
        (by simp only [isoPerm1, hox, hoy]; exact fx.symm)
        (by simp only [isoPerm1, hox, hoy]; exact mx.symm)
        (by simp only [isoPerm2, hox, hoy]; exact fy.symm)
        (by simp only [isoPerm2, hox, hoy]; exact my.symm)

/-! ## `is_subspace_of` -/

private theorem find_mo (A : List (S × ℕ)) (hn : (A.map Prod.fst).Nodup) (s : S) :
    (match A.find? fun p => p.1 == s with
      | none => 0
      | some p => p.2) = mo A s := by
  cases h : A.find? (fun p => p.1 == s) with
  | none =>
    have : s ∉ A.map Prod.fst := by
      intro hm
      obtain ⟨p, hp, rfl⟩ := List.mem_map.1 hm
      have := List.find?_eq_none.1 h p hp
      simp at this
    rw [mo_zero A s this]
  | some p =>
    have h1 := List.find?_some h
    have h2 := List.mem_of_find?_eq_some h
    simp only [beq_iff_eq] at h1
    subst h1
    simp only
    rw [mo_mem A hn p.1 p.2 h2]

theorem C27_sector_multiplicity (sym : Sym S) (x : SpaceData S) (hx : ValidData sym x) (s : S) :
    x.sectorMultiplicity s = multOf x.sectors x.mults s := find_mo _ (pairs_nodup hx) s

private theorem loop_iff (A B : List (S × ℕ)) (sA : A.Pairwise fun p q => p.1 < q.1)
    (sB : B.Pairwise fun p q => p.1 < q.1) :
    subspaceLoop A B = true ↔ ∀ p ∈ A, ∃ q ∈ B, q.1 = p.1 ∧ p.2 ≤ q.2 := by
  induction B generalizing A with
  | nil =>
    cases A with
    | nil => simp [subspaceLoop]
    | cons a A =>
      simp only [subspaceLoop, Bool.false_eq_true, false_iff]
      intro h
      obtain ⟨q, hq, -⟩ := h a List.mem_cons_self
      cases hq
  | cons b B ih =>
    cases A with
    | nil => simp [subspaceLoop]
    | cons a A =>
      have cA := List.pairwise_cons.1 sA
      have cB := List.pairwise_cons.1 sB
      rw [subspaceLoop]
      split_ifs with h1 h2
      · simp only [Bool.false_eq_true, false_iff]
        intro h
        obtain ⟨q, hq, hq1, hq2⟩ := h a List.mem_cons_self
        rcases List.mem_cons.1 hq with rfl | hq
        · omega
        · have := cB.1 q hq
          rw [hq1, h1] at this
          exact lt_irrefl _ this
      · rw [ih A cA.2 cB.2]
        constructor
        · intro h p hp
          rcases List.mem_cons.1 hp with rfl | hp
          · exact ⟨b, List.mem_cons_self, h1.symm, by omega⟩
          · obtain ⟨q, hq, hq'⟩ := h p hp
            exact ⟨q, List.mem_cons_of_mem _ hq, hq'⟩
        · intro h p hp
          obtain ⟨q, hq, hq1, hq2⟩ := h p (List.mem_cons_of_mem _ hp)
          rcases List.mem_cons.1 hq with rfl | hq
          · have := cA.1 p hp
            rw [h1, hq1] at this
            exact absurd this (lt_irrefl _)
          · exact ⟨q, hq, hq1, hq2⟩
      · rw [ih (a :: A) sA cB.2]
        constructor
        · intro h p hp
          obtain ⟨q, hq, hq'⟩ := h p hp
          exact ⟨q, List.mem_cons_of_mem _ hq, hq'⟩
        · intro h p hp
          obtain ⟨q0, hq0, hq01, -⟩ := h a List.mem_cons_self
          have hba : b.1 < a.1 := by
            rcases List.mem_cons.1 hq0 with rfl | hq0
            · exact absurd hq01.symm h1
            · rw [← hq01]; exact cB.1 q0 hq0
          obtain ⟨q, hq, hq1, hq2⟩ := h p hp
          rcases List.mem_cons.1 hq with rfl | hq
          · have : a.1 ≤ p.1 := by
              rcases List.mem_cons.1 hp with rfl | hp
              · exact le_rfl
              · exact (cA.1 p hp).le
            rw [← hq1] at this
            exact absurd hba (not_lt.2 this)
          · exact ⟨q, hq, hq1, hq2⟩

private theorem count_iff (x : SpaceData S) (B : List (S × ℕ)) :
    (subspaceCount x B = none ↔ ∃ b ∈ B, x.sectorMultiplicity b.1 > b.2) ∧
    (∀ n, subspaceCount x B = some n →
      n = (B.filter fun b => decide (x.sectorMultiplicity b.1 ≠ 0)).length) := by
  induction B with
  | nil => simp [subspaceCount]
  | cons b B ih =>
    rw [subspaceCount]
    split_ifs with h1 h2
    · refine ⟨?_, ?_⟩
      · rw [ih.1]
        simp [h1]
      · intro n hn
        rw [ih.2 n hn, List.filter_cons]
        simp [h1]
    · refine ⟨?_, by intro n hn; cases hn⟩
      simp [h2]
    · refine ⟨?_, ?_⟩
      · rw [Option.map_eq_none_iff, ih.1]
        simp [h2]
      · intro n hn
        obtain ⟨k, hk, rfl⟩ := Option.map_eq_some_iff.1 hn
        rw [ih.2 k hk, List.filter_cons]
        simp [h1]

/-- **C27**: `is_subspace_of` is the pointwise order of the multiplicities. -/
theorem C27_is_subspace_of (sym : Sym S) (x y : SpaceData S) (hx : ValidData sym x)
    (hy : ValidData sym y) :
    x.isSubspaceOf y = true ↔
      ∀ s, multOf x.sectors x.mults s ≤ multOf y.sectors y.mults s := by
  have hpt : (∀ p ∈ SpaceData.pairs x, ∃ q ∈ SpaceData.pairs y, q.1 = p.1 ∧ p.2 ≤ q.2) ↔
      ∀ s, multOf x.sectors x.mults s ≤ multOf y.sectors y.mults s := by
    simp only [multOf_pairs]
    constructor
    · intro h s
      by_cases hs : s ∈ (SpaceData.pairs x).map Prod.fst
      · obtain ⟨p, hp, rfl⟩ := List.mem_map.1 hs
        obtain ⟨q, hq, hq1, hq2⟩ := h p hp
        rw [mo_mem _ (pairs_nodup hx) p.1 p.2 hp, ← hq1, mo_mem _ (pairs_nodup hy) q.1 q.2 hq]
        exact hq2
      · rw [mo_zero _ s hs]; exact Nat.zero_le _
    · intro h p hp
      have h1 := mo_mem _ (pairs_nodup hx) p.1 p.2 hp
      have h2 := h p.1
      have h3 := pairs_pos hx p hp
      refine ⟨(p.1, mo (SpaceData.pairs y) p.1), ?_, rfl, by simp only; omega⟩
      exact (mem_iff_mo _ (pairs_nodup hy) (pairs_pos hy) _ _).2 ⟨rfl, by omega⟩
  unfold SpaceData.isSubspaceOf
  split_ifs with h1 h2
  · simp only [true_iff]
    intro s
    have : x.sectors = [] := by simpa using h1
    simp [this, multOf]
  · simp only [Bool.and_eq_true, decide_eq_true_eq] at h2
    rw [← hpt]
    have sp : ∀ {z : SpaceData S}, ValidData sym z → z.order = some .sorted →
        (SpaceData.pairs z).Pairwise fun p q => p.1 < q.1 := by
      intro z hz ho
      have := hz.sorted ho
      rw [← pairs_fst hz] at this
      exact List.pairwise_map.1 this
    exact loop_iff _ _ (sp hx h2.1) (sp hy h2.2)
  · rw [← hpt]
    obtain ⟨c1, c2⟩ := count_iff x (y.sectors.zip y.mults)
    change (subspaceCount x (SpaceData.pairs y) = none ↔ _) at c1
    change (∀ n, subspaceCount x (SpaceData.pairs y) = some n → _) at c2
    change (match subspaceCount x (SpaceData.pairs y) with
      | none => false
      | some n => decide (x.sectors.length ≤ n)) = true ↔ _
    have hmul : ∀ s, x.sectorMultiplicity s = mo (SpaceData.pairs x) s :=
      fun s => C27_sector_multiplicity sym x hx s
    cases hc : subspaceCount x (SpaceData.pairs y) with
    | none =>
      simp only [Bool.false_eq_true, false_iff]
      obtain ⟨b, hb, hgt⟩ := c1.1 hc
      intro h
      rw [hmul] at hgt
      have hpos : 0 < mo (SpaceData.pairs x) b.1 := by omega
      have hm := (mem_iff_mo _ (pairs_nodup hx) (pairs_pos hx) b.1 _).2 ⟨rfl, hpos⟩
      obtain ⟨q, hq, hq1, hq2⟩ := h _ hm
      have e1 := mo_mem _ (pairs_nodup hy) q.1 q.2 hq
      have e2 := mo_mem _ (pairs_nodup hy) b.1 b.2 hb
      simp only at hq1 hq2
      rw [hq1, e2] at e1
      omega
    | some n =>
      simp only [decide_eq_true_eq]
      have hle : ∀ b ∈ SpaceData.pairs y, x.sectorMultiplicity b.1 ≤ b.2 := by
        intro b hb
        by_contra hcon
        have := c1.2 ⟨b, hb, by omega⟩
        rw [hc] at this
        cases this
      rw [c2 n hc]
      change _ ≤ ((SpaceData.pairs y).filter fun b => decide (x.sectorMultiplicity b.1 ≠ 0)).length ↔ _
      -- the found sectors of `y` are the sectors of `x` that occur in `y`
      have hfn : ((SpaceData.pairs y).filter fun b =>
          decide (x.sectorMultiplicity b.1 ≠ 0)).length =
          (x.sectors.filter fun s => decide (s ∈ y.sectors)).length := by
        rw [← List.length_map (f := Prod.fst)]
        refine List.Perm.length_eq ((List.perm_ext_iff_of_nodup ?_ ?_).2 ?_)
        · exact (pairs_nodup hy).sublist (List.filter_sublist.map _)
        · exact hx.nodup.filter _
        · intro s
          simp only [List.mem_map, List.mem_filter, decide_eq_true_eq]
          constructor
          · rintro ⟨b, ⟨hb, hne⟩, rfl⟩
            refine ⟨?_, by rw [← pairs_fst hy]; exact List.mem_map.2 ⟨b, hb, rfl⟩⟩
            rw [hmul] at hne
            rw [← pairs_fst hx]
            by_contra hcon
            exact hne (mo_zero _ _ hcon)
          · rintro ⟨h1, h2⟩
            rw [← pairs_fst hy] at h2
            obtain ⟨b, hb, rfl⟩ := List.mem_map.1 h2
            refine ⟨b, ⟨hb, ?_⟩, rfl⟩
            rw [← pairs_fst hx] at h1
            obtain ⟨p, hp, hp1⟩ := List.mem_map.1 h1
            rw [hmul, ← hp1, mo_mem _ (pairs_nodup hx) p.1 p.2 hp]
            have := pairs_pos hx p hp
            omega
      rw [hfn]
      constructor
      · intro hlen p hp
        have hall : x.sectors.filter (fun s => decide (s ∈ y.sectors)) = x.sectors :=
          List.Sublist.eq_of_length_le List.filter_sublist hlen
        have hpx : p.1 ∈ x.sectors := by rw [← pairs_fst hx]; exact List.mem_map.2 ⟨p, hp, rfl⟩
        rw [← hall] at hpx
        have hpy := (List.mem_filter.1 hpx).2
        simp only [decide_eq_true_eq] at hpy
        rw [← pairs_fst hy] at hpy
        obtain ⟨q, hq, hq1⟩ := List.mem_map.1 hpy
        refine ⟨q, hq, hq1, ?_⟩
        have := hle q hq
        rw [hmul, hq1, mo_mem _ (pairs_nodup hx) p.1 p.2 hp] at this
        exact this
      · intro h
        have hall : x.sectors.filter (fun s => decide (s ∈ y.sectors)) = x.sectors := by
          rw [List.filter_eq_self]
          intro s hs
          rw [← pairs_fst hx] at hs
          obtain ⟨p, hp, rfl⟩ := List.mem_map.1 hs
          obtain ⟨q, hq, hq1, -⟩ := h p hp
          simp only [decide_eq_true_eq]
          rw [← hq1, ← pairs_fst hy]
          exact List.mem_map.2 ⟨q, hq, rfl⟩
        rw [hall]

/-! ## Common subspaces -/

private theorem compare_cmpKey (x y : S) : CmpKey compare id x y :=
  ⟨compare_lt_iff_lt, compare_eq_iff_eq, compare_gt_iff_gt⟩

private theorem common_spec (sym : Sym S) (x y : SpaceData S) (hx : ValidData sym x)
    (hy : ValidData sym y) :
    ((commonSectors x y).map Prod.fst).Nodup ∧
    ∀ s k, (s, k) ∈ commonSectors x y ↔
      ∃ m n, (s, m) ∈ SpaceData.pairs x ∧ (s, n) ∈ SpaceData.pairs y ∧ k = min m n := by
  unfold commonSectors
  split_ifs with ho
  · simp only [Bool.and_eq_true, decide_eq_true_eq] at ho
    have sx := hx.sorted ho.1
    have sy := hy.sorted ho.2
    simp only [iterCommonSorted, Bool.not_true, Bool.and_self, Bool.false_eq_true, if_false,
      Option.getD_some]
    have hmem := mem_commonLoop compare (id : S → S) true true (Or.inl rfl) _ 0 x.sectors 0 y.sectors
      le_rfl (fun a _ b _ => compare_cmpKey a b) (sx.imp fun h => h.le) (sy.imp fun h => h.le)
      (fun _ => sx) (fun _ => sy)
    have hsorted := commonLoop_sorted (compare : S → S → Ordering) true true
      (x.sectors.length + y.sectors.length) 0 x.sectors 0 y.sectors
    set L := commonLoop compare true true (x.sectors.length + y.sectors.length) 0 x.sectors 0 y.sectors
      with hL
    have hM : ∀ (i j : ℕ), (i, j) ∈ L ↔ ∃ s, x.sectors[i]? = some s ∧ y.sectors[j]? = some s := by
      intro i j
      rw [hmem]
      constructor
      · rintro ⟨k, l, a, b, h1, h2, h3, h4⟩
        simp only [id] at h3
        subst h3
        simp only [Nat.zero_add, Prod.mk.injEq] at h4
        obtain ⟨rfl, rfl⟩ := h4
        exact ⟨a, h1, h2⟩
      · rintro ⟨s, h1, h2⟩
        exact ⟨i, j, s, s, h1, h2, rfl, by simp⟩
    set f : ℕ × ℕ → Option (S × ℕ) := fun p =>
      match x.sectors[p.1]?, x.mults[p.1]?, y.mults[p.2]? with
      | some s, some m, some n => some (s, min m n)
      | _, _, _ => none with hf
    have hfspec : ∀ p s k, f p = some (s, k) ↔ ∃ m n, x.sectors[p.1]? = some s ∧
        x.mults[p.1]? = some m ∧ y.mults[p.2]? = some n ∧ k = min m n := by
      intro p s k
      simp only [hf]
      cases h1 : x.sectors[p.1]? with
      | none => simp
      | some s' =>
        cases h2 : x.mults[p.1]? with
        | none => simp
        | some m =>
          cases h3 : y.mults[p.2]? with
          | none => simp
          | some n =>
            simp only [Option.some.injEq, Prod.mk.injEq]
            constructor
            · rintro ⟨h1, h2⟩
              exact ⟨m, n, h1, rfl, rfl, h2.symm⟩
            · rintro ⟨m', n', h1, h2, h3, h4⟩
              subst h2 h3
              exact ⟨h1, h4.symm⟩
    constructor
    · -- first components strictly increase along L
      have hL1 : L.Pairwise fun p q => p.1 < q.1 :=
        hsorted.imp fun h => h.2.2.1 rfl
      have : ∀ L' : List (ℕ × ℕ), (∀ p ∈ L', p ∈ L) → (L'.Pairwise fun p q => p.1 < q.1) →
          ((L'.filterMap f).map Prod.fst).Nodup := by
        intro L'
        induction L' with
        | nil => intro _ _; simp
        | cons p L' ih =>
          intro hsub hp
          have hc := List.pairwise_cons.1 hp
          have hi := ih (fun q hq => hsub q (List.mem_cons_of_mem _ hq)) hc.2
          rw [List.filterMap_cons]
          cases hfp : f p with
          | none => exact hi
          | some v =>
            simp only [List.map_cons, List.nodup_cons]
            refine ⟨?_, hi⟩
            intro hmem'
            obtain ⟨w, hw, hwv⟩ := List.mem_map.1 hmem'
            obtain ⟨q, hq, hfq⟩ := List.mem_filterMap.1 hw
            obtain ⟨-, -, e1, -⟩ := (hfspec p v.1 v.2).1 hfp
            obtain ⟨-, -, e2, -⟩ := (hfspec q w.1 w.2).1 hfq
            have hlt := hc.1 q hq
            rw [hwv] at e2
            obtain ⟨l1, g1⟩ := List.getElem?_eq_some_iff.1 e1
            obtain ⟨l2, g2⟩ := List.getElem?_eq_some_iff.1 e2
            have := (List.Nodup.getElem_inj_iff hx.nodup).1 (g1.trans g2.symm)
            omega
      exact this L (fun p h => h) hL1
    · intro s k
      rw [List.mem_filterMap]
      constructor
      · rintro ⟨⟨i, j⟩, hp, hfp⟩
        obtain ⟨m, n, h1, h2, h3, h4⟩ := (hfspec _ s k).1 hfp
        obtain ⟨s', e1, e2⟩ := (hM i j).1 hp
        simp only at h1 h2 h3
        rw [h1] at e1
        cases e1
        exact ⟨m, n, List.mem_iff_getElem?.2 ⟨i, List.getElem?_zip_eq_some.2 ⟨h1, h2⟩⟩,
          List.mem_iff_getElem?.2 ⟨j, List.getElem?_zip_eq_some.2 ⟨e2, h3⟩⟩, h4⟩
      · rintro ⟨m, n, h1, h2, h3⟩
        obtain ⟨i, hi⟩ := List.mem_iff_getElem?.1 h1
        obtain ⟨j, hj⟩ := List.mem_iff_getElem?.1 h2
        have hi' := List.getElem?_zip_eq_some.1 hi
        have hj' := List.getElem?_zip_eq_some.1 hj
        exact ⟨(i, j), (hM i j).2 ⟨s, hi'.1, hj'.1⟩,
          (hfspec _ s k).2 ⟨m, n, hi'.1, hi'.2, hj'.2, h3⟩⟩
  · change (((SpaceData.pairs x).filterMap fun p =>
      match (SpaceData.pairs y).find? fun q => q.1 == p.1 with
      | none => none
      | some q => some (p.1, min p.2 q.2)).map Prod.fst).Nodup ∧ _
    set f : S × ℕ → Option (S × ℕ) := fun p =>
      match (SpaceData.pairs y).find? fun q => q.1 == p.1 with
      | none => none
      | some q => some (p.1, min p.2 q.2) with hf
    have hfspec : ∀ p v, f p = some v ↔ ∃ n, (p.1, n) ∈ SpaceData.pairs y ∧ v = (p.1, min p.2 n) := by
      intro p v
      simp only [hf]
      cases h : (SpaceData.pairs y).find? (fun q => q.1 == p.1) with
      | none =>
        simp only [reduceCtorEq, false_iff, not_exists, not_and]
        intro n hn
        have := List.find?_eq_none.1 h _ hn
        simp at this
      | some q =>
        have h1 := List.find?_some h
        have h2 := List.mem_of_find?_eq_some h
        simp only [beq_iff_eq] at h1
        simp only [Option.some.injEq]
        constructor
        · intro hv
          exact ⟨q.2, by rw [← h1]; exact h2, hv.symm⟩
        · rintro ⟨n, hn, rfl⟩
          have e1 := mo_mem _ (pairs_nodup hy) _ _ hn
          have e2 := mo_mem _ (pairs_nodup hy) q.1 q.2 h2
          rw [h1, e1] at e2
          rw [e2]
    constructor
    · have hsub : (((SpaceData.pairs x).filterMap f).map Prod.fst).Sublist
          ((SpaceData.pairs x).map Prod.fst) := by
        generalize SpaceData.pairs x = A
        induction A with
        | nil => simp
        | cons p A ih =>
          rw [List.filterMap_cons]
          cases hfp : f p with
          | none => exact ih.cons _
          | some v =>
            obtain ⟨n, -, rfl⟩ := (hfspec p v).1 hfp
            exact ih.cons_cons _
      exact (pairs_nodup hx).sublist hsub
    · intro s k
      change (s, k) ∈ (SpaceData.pairs x).filterMap f ↔ _
      rw [List.mem_filterMap]
      constructor
      · rintro ⟨p, hp, hfp⟩
        obtain ⟨n, hn, he⟩ := (hfspec p _).1 hfp
        simp only [Prod.mk.injEq] at he
        obtain ⟨rfl, rfl⟩ := he
        exact ⟨p.2, n, hp, hn, rfl⟩
      · rintro ⟨m, n, h1, h2, rfl⟩
        exact ⟨(s, m), h1, (hfspec _ _).2 ⟨n, h2, rfl⟩⟩

private theorem multOf_dual (sym : Sym S) (hd : Function.Involutive sym.dual) (l : List S)
    (m : List ℕ) (s : S) : multOf (l.map sym.dual) m s = multOf l m (sym.dual s) := by
  unfold multOf
  rw [List.zip_map_left, List.map_map]
  congr 1
  apply List.map_congr_left
  intro p _
  simp only [Function.comp_apply, Prod.map_fst, Prod.map_snd, id]
  congr 1
  exact propext ⟨fun h => by rw [← h, hd], fun h => by rw [h, hd]⟩

private theorem multOf_pos (sectors : List S) (mults : List ℕ)
    (hl : mults.length = sectors.length) (hn : sectors.Nodup) (hp : ∀ m ∈ mults, 0 < m) :
    ∀ s, s ∈ sectors ↔ 0 < multOf sectors mults s := by
  intro s
  have hf : (sectors.zip mults).map Prod.fst = sectors := List.map_fst_zip hl.ge
  have hs2 : (sectors.zip mults).map Prod.snd = mults := List.map_snd_zip hl.le
  constructor
  · intro h
    rw [← hf] at h
    obtain ⟨p, hp', rfl⟩ := List.mem_map.1 h
    have := mo_mem (sectors.zip mults) (by rw [hf]; exact hn) p.1 p.2 hp'
    change 0 < mo (sectors.zip mults) p.1
    rw [this]
    exact hp _ (by rw [← hs2]; exact List.mem_map.2 ⟨p, hp', rfl⟩)
  · intro h
    by_contra hc
    rw [← hf] at hc
    have := mo_zero (sectors.zip mults) s hc
    change 0 < mo (sectors.zip mults) s at h
    omega

/-- The sectors of the result of `from_sector_decomposition` have the given multiplicities. -/
theorem C25_from_sector_decomposition (sym : Sym S) (hdim : DimOK sym)
    (hd : Function.Involutive sym.dual) (sectors : List S) (mults : List ℕ) (isDual : Bool)
    (perm : Option (List ℕ)) (unique : Bool) (e : ESpace S)
    (hu : unique = true → sectors.Nodup)
    (hperm : ∀ p, perm = some p → p.Perm (List.range (totalDim sym.dim sectors mults)))
    (h : ESpace.fromSectorDecomposition sym sectors (some mults) isDual perm unique = some e) :
    ValidSpace sym e ∧ e.isDual = isDual ∧
      ∀ s, multOf (e.sectors sym) e.mults s = multOf sectors mults s := by
  unfold ESpace.fromSectorDecomposition at h
  cases isDual with
  | false =>
    simp only [Bool.false_eq_true, if_false] at h
    obtain ⟨h1, h2, h3, -⟩ := C25_from_defining_sectors sym hdim sectors (some mults) false perm
      unique e hu hperm h
    refine ⟨h1, h2, ?_⟩
    intro s
    unfold ESpace.sectors
    rw [h2]
    exact h3 s
  | true =>
    simp only [if_true] at h
    obtain ⟨h1, h2, h3, -⟩ := C25_from_defining_sectors sym hdim (sectors.map sym.dual)
      (some mults) true perm unique e (fun hun => (hu hun).map hd.injective) (by
        intro p hp
        have e1 : totalDim sym.dim (sectors.map sym.dual) mults = totalDim sym.dim sectors mults := by
          unfold totalDim
          rw [List.zip_map_left, List.map_map]
          congr 1
          apply List.map_congr_left
          intro q _
          simp [hdim.dual]
        simp only [Option.getD_some]
        rw [e1]
        exact hperm p hp) h
    refine ⟨h1, h2, ?_⟩
    intro s
    unfold ESpace.sectors
    rw [h2]
    simp only [if_true]
    rw [multOf_dual sym hd, h3]
    simp only [Option.getD_some]
    rw [multOf_dual sym hd, hd]

private theorem valid_toSpace (sym : Sym S) (hd : Function.Involutive sym.dual) (e : ESpace S)
    (hv : ValidSpace sym e) (hp : ∀ m ∈ e.mults, 0 < m) : ValidData sym (e.toSpace sym) := by
  have hnd : e.defining.Nodup := hv.sorted.imp fun h => ne_of_lt h
  refine ⟨?_, ?_, hp, ?_, ?_⟩
  · change e.mults.length = (e.sectors sym).length
    rw [hv.lengths]; unfold ESpace.sectors; split <;> simp
  · change (e.sectors sym).Nodup
    unfold ESpace.sectors
    split
    · exact hnd.map hd.injective
    · exact hnd
  · intro h
    simp only [ESpace.toSpace, Option.some.injEq] at h
    change (e.sectors sym).Pairwise (· < ·)
    unfold ESpace.sectors
    split_ifs at h with hdu
    rw [if_neg hdu]
    exact hv.sorted
  · intro h
    simp only [ESpace.toSpace, Option.some.injEq] at h
    change ((e.sectors sym).map sym.dual).Pairwise (· < ·)
    unfold ESpace.sectors
    split_ifs at h with hdu
    rw [if_pos hdu, List.map_map]
    have : (sym.dual ∘ sym.dual) = id := by funext s; exact hd s
    rw [this, List.map_id]
    exact hv.sorted

private theorem mults_perm_pos (sym : Sym S) (sectors : List S) (mults : Option (List ℕ)) (isDual : Bool)
    (perm : Option (List ℕ)) (e : ESpace S)
    (h : ESpace.fromDefiningSectors sym sectors mults isDual perm true = some e) :
    ∀ m ∈ e.mults, m ∈ mults.getD (List.replicate sectors.length 1) := by
  unfold ESpace.fromDefiningSectors at h
  simp only at h
  split_ifs at h
  all_goals
    simp only [if_true, Option.some.injEq] at h
    subst h
    intro m hm
    simp only [sortSectors, gather] at hm
    obtain ⟨i, -, hi⟩ := List.mem_filterMap.1 hm
    exact List.mem_of_getElem? hi

theorem common2 (sym : Sym S) (hdim : DimOK sym) (hd : Function.Involutive sym.dual)
    (x y : SpaceData S) (hx : ValidData sym x) (hy : ValidData sym y) (isDual : Bool) :
    ∃ e, largestCommon2 sym x y isDual = some e ∧ ValidSpace sym e ∧ e.isDual = isDual ∧
      (∀ m ∈ e.mults, 0 < m) ∧ e.perm = none ∧
      ∀ s, multOf (e.sectors sym) e.mults s =
        min (multOf x.sectors x.mults s) (multOf y.sectors y.mults s) := by
  obtain ⟨hn, hm⟩ := common_spec sym x y hx hy
  unfold largestCommon2
  cases hres : ESpace.fromSectorDecomposition sym ((commonSectors x y).map Prod.fst)
      (some ((commonSectors x y).map Prod.snd)) isDual none true with
  | none =>
    unfold ESpace.fromSectorDecomposition at hres
    rw [C25_from_defining_sectors_raises] at hres
    rcases hres with ⟨m, h1, h2⟩ | ⟨-, h⟩
    · injection h1 with h1
      subst h1
      exfalso; apply h2
      split <;> simp
    · simp at h
  | some e =>
    obtain ⟨v1, v2, v3⟩ := C25_from_sector_decomposition sym hdim hd _ _ isDual none true e
      (fun _ => hn) (by intro p hp; cases hp) hres
    refine ⟨{ e with perm := none }, rfl, ⟨v1.lengths, v1.sorted, by intro p hp; cases hp⟩, v2, ?_, rfl, ?_⟩
    · intro m hm'
      unfold ESpace.fromSectorDecomposition at hres
      have := mults_perm_pos sym _ _ _ _ e hres m hm'
      simp only [Option.getD_some] at this
      obtain ⟨p, hp, rfl⟩ := List.mem_map.1 this
      obtain ⟨a, b, h1, h2, h3⟩ := (hm p.1 p.2).1 hp
      have e1 := pairs_pos hx _ h1
      have e2 := pairs_pos hy _ h2
      simp only at e1 e2
      omega
    · intro s
      change multOf (e.sectors sym) e.mults s = _
      rw [v3]
      change mo (((commonSectors x y).map Prod.fst).zip ((commonSectors x y).map Prod.snd)) s = _
      rw [List.zip_map', List.map_id'' (f := fun p : S × ℕ => (p.1, p.2)) (fun p => rfl)]
      simp only [multOf_pairs]
      by_cases hs : 0 < mo (SpaceData.pairs x) s ∧ 0 < mo (SpaceData.pairs y) s
      · refine mo_mem _ hn s _ ((hm s _).2 ⟨_, _, ?_, ?_, rfl⟩)
        · exact (mem_iff_mo _ (pairs_nodup hx) (pairs_pos hx) _ _).2 ⟨rfl, hs.1⟩
        · exact (mem_iff_mo _ (pairs_nodup hy) (pairs_pos hy) _ _).2 ⟨rfl, hs.2⟩
      · rw [mo_zero]
        · omega
        · intro hmem
          obtain ⟨p, hp, rfl⟩ := List.mem_map.1 hmem
          obtain ⟨a, b, h1, h2, -⟩ := (hm p.1 p.2).1 hp
          have e1 := (mem_iff_mo _ (pairs_nodup hx) (pairs_pos hx) _ _).1 h1
          have e2 := (mem_iff_mo _ (pairs_nodup hy) (pairs_pos hy) _ _).1 h2
          apply hs
          rw [e1.1, e2.1]
          exact ⟨e1.2, e2.2⟩

private theorem asESpace_spec (sym : Sym S) (hdim : DimOK sym) (hd : Function.Involutive sym.dual)
    (x : SpaceData S) (hx : ValidData sym x) (isDual : Bool) :
    ∃ e, x.asESpace sym isDual = some e ∧ ValidSpace sym e ∧ e.isDual = isDual ∧
      ∀ s, multOf (e.sectors sym) e.mults s = multOf x.sectors x.mults s := by
  unfold SpaceData.asESpace
  by_cases hord : x.order = some (if isDual = true then Order.dualSorted else Order.sorted)
  · rw [if_pos hord]
    refine ⟨_, rfl, ⟨?_, ?_, by intro p hp; cases hp⟩, rfl, ?_⟩
    · cases isDual <;> simp [hx.lengths]
    · cases isDual with
      | true => exact hx.dualSorted hord
      | false => exact hx.sorted hord
    · intro s
      unfold ESpace.sectors
      cases isDual with
      | true =>
        simp only [if_true]
        rw [multOf_dual sym hd, multOf_dual sym hd, hd]
      | false => rfl
  · rw [if_neg hord]
    cases hres : ESpace.fromSectorDecomposition sym x.sectors (some x.mults) isDual none true with
    | none =>
      have := hres
      unfold ESpace.fromSectorDecomposition at this
      rw [C25_from_defining_sectors_raises] at this
      rcases this with ⟨m, h1, h2⟩ | ⟨-, h⟩
      · injection h1 with h1
        subst h1
        exfalso; apply h2
        split <;> simp [hx.lengths]
      · simp at h
    | some e =>
      obtain ⟨v1, v2, v3⟩ := C25_from_sector_decomposition sym hdim hd _ _ isDual none true e
        (fun _ => hx.nodup) (by intro p hp; cases hp) hres
      exact ⟨e, hres, v1, v2, v3⟩

/-- **C27**: `from_largest_common_subspace` of any number of spaces: it raises exactly for an empty
list; otherwise the multiplicity of every sector is the minimum of those in the spaces. -/
theorem C27_largest_common_subspace (sym : Sym S) (hdim : DimOK sym)
    (hd : Function.Involutive sym.dual) (spaces : List (SpaceData S))
    (hv : ∀ x ∈ spaces, ValidData sym x) (isDual : Bool) :
    (spaces = [] → largestCommon sym spaces isDual = none) ∧
    (spaces ≠ [] → ∃ e, largestCommon sym spaces isDual = some e ∧ ValidSpace sym e ∧
      e.isDual = isDual ∧
      ∀ s, (∀ x ∈ spaces, multOf (e.sectors sym) e.mults s ≤ multOf x.sectors x.mults s) ∧
        ∃ x ∈ spaces, multOf (e.sectors sym) e.mults s = multOf x.sectors x.mults s) := by
  constructor
  · rintro rfl; rw [largestCommon]
  intro hne
  induction hn : spaces.length using Nat.strong_induction_on generalizing spaces isDual with
  | _ n ih =>
    match spaces, hv, hne, hn with
    | [x], hv, _, _ =>
      rw [largestCommon]
      obtain ⟨e, h1, h2, h3, h4⟩ := asESpace_spec sym hdim hd x (hv x List.mem_cons_self) isDual
      refine ⟨e, h1, h2, h3, fun s => ⟨?_, x, List.mem_cons_self, h4 s⟩⟩
      intro y hy
      rw [List.mem_singleton.1 hy, h4 s]
    | [x, y], hv, _, _ =>
      rw [largestCommon]
      obtain ⟨e, h1, h2, h3, -, -, h4⟩ := common2 sym hdim hd x y (hv x List.mem_cons_self)
        (hv y (by simp)) isDual
      refine ⟨e, h1, h2, h3, fun s => ⟨?_, ?_⟩⟩
      · intro z hz
        rw [h4 s]
        simp only [List.mem_cons, List.not_mem_nil, or_false] at hz
        rcases hz with rfl | rfl <;> omega
      · rw [h4 s]
        rcases Nat.le_total (multOf x.sectors x.mults s) (multOf y.sectors y.mults s) with h | h
        · exact ⟨x, by simp, by omega⟩
        · exact ⟨y, by simp, by omega⟩
    | x :: y :: z :: rest, hv, _, hn =>
      rw [largestCommon]
      obtain ⟨p, h1, h2, h3, h3', -, h4⟩ := common2 sym hdim hd x y (hv x (by simp))
        (hv y (by simp)) false
      rw [h1]
      simp only
      obtain ⟨e, g1, g2, g3, g4⟩ := ih (n - 1) (by simp at hn; omega)
        (p.toSpace sym :: z :: rest) (by
          intro w hw
          rcases List.mem_cons.1 hw with rfl | hw
          · exact valid_toSpace sym hd p h2 h3'
          · exact hv w (by simp only [List.mem_cons] at hw ⊢; tauto)) isDual (by simp)
        (by simp at hn ⊢; omega)
      refine ⟨e, g1, g2, g3, fun s => ?_⟩
      have hp : multOf (p.toSpace sym).sectors (p.toSpace sym).mults s =
        min (multOf x.sectors x.mults s) (multOf y.sectors y.mults s) := h4 s
      obtain ⟨ga, w, hw, gw⟩ := g4 s
      constructor
      · intro w hw
        have h0 := ga (p.toSpace sym) List.mem_cons_self
        rw [hp] at h0
        rcases List.mem_cons.1 hw with rfl | hw
        · omega
        · rcases List.mem_cons.1 hw with rfl | hw
          · omega
          · exact ga w (List.mem_cons_of_mem _ hw)
      · rcases List.mem_cons.1 hw with rfl | hw
        · rw [hp] at gw
          rcases Nat.le_total (multOf x.sectors x.mults s) (multOf y.sectors y.mults s) with h | h
          · exact ⟨x, by simp, by omega⟩
          · exact ⟨y, by simp, by omega⟩
        · exact ⟨w, by simp only [List.mem_cons] at hw ⊢; tauto, gw⟩

/-! ## Direct sums -/

/-- The public states of the spaces one after the other, each shifted by the dimension of the
previous ones. -/
def sumStates (sym : Sym S) : ℕ → List (ESpace S) → List (ℕ × (S × ℕ))
  | _, [] => []
  | off, x :: xs =>
    (publicStates sym.dim x.defining x.mults (x.basisPerm sym)).map (fun p => (p.1 + off, p.2)) ++
      sumStates sym (off + x.dim sym) xs

/-- the permutation that `direct_sum` builds -/
private def sumPerm (sym : Sym S) : ℕ → List (ESpace S) → List ℕ
  | _, [] => []
  | off, x :: xs => (x.basisPerm sym).map (· + off) ++ sumPerm sym (off + x.dim sym) xs

private theorem foldl_sumPerm (sym : Sym S) (xs : List (ESpace S)) (acc : List ℕ) (off : ℕ) :
    (xs.foldl (fun (acc : List ℕ × ℕ) o =>
      (acc.1 ++ (o.basisPerm sym).map (· + acc.2), acc.2 + o.dim sym)) (acc, off)).1 =
      acc ++ sumPerm sym off xs := by
  induction xs generalizing acc off with
  | nil => simp [sumPerm]
  | cons x xs ih =>
    rw [List.foldl_cons, ih]
    simp [sumPerm]

private theorem basisPerm_spec (sym : Sym S) (hd : DimOK sym) (e : ESpace S) (hv : ValidSpace sym e) :
    (e.basisPerm sym).Perm (List.range (e.dim sym)) := by
  unfold ESpace.basisPerm
  cases h : e.perm with
  | none => exact List.Perm.refl _
  | some p => rw [C25_dim sym hd]; exact hv.perm p h

private theorem sumPerm_perm (sym : Sym S) (hd : DimOK sym) (xs : List (ESpace S))
    (hv : ∀ x ∈ xs, ValidSpace sym x) (off : ℕ) :
    (sumPerm sym off xs).Perm (List.range' off (xs.map fun x => x.dim sym).sum) := by
  induction xs generalizing off with
  | nil => simp [sumPerm]
  | cons x xs ih =>
    rw [sumPerm, List.map_cons, List.sum_cons, ← List.range'_append_1]
    refine List.Perm.append ?_ (ih (fun y hy => hv y (List.mem_cons_of_mem _ hy)) _)
    have := (basisPerm_spec sym hd x (hv x List.mem_cons_self)).map (· + off)
    rw [List.range_eq_range', show (· + off) = (off + ·) by funext n; omega,
      List.map_add_range'] at this
    simpa [Nat.add_comm] using this

private theorem zip_concat (xs : List (ESpace S)) (hl : ∀ x ∈ xs, x.mults.length = x.defining.length) :
    (xs.flatMap (·.defining)).zip (xs.flatMap (·.mults)) =
      xs.flatMap fun x => x.defining.zip x.mults :=
  zip_flatMap xs _ _ fun x hx => (hl x hx).symm

private theorem sumStates_eq (sym : Sym S) (hd : DimOK sym) (xs : List (ESpace S))
    (hv : ∀ x ∈ xs, ValidSpace sym x) (off : ℕ) :
    publicStates sym.dim (xs.flatMap (·.defining)) (xs.flatMap (·.mults)) (sumPerm sym off xs) =
      sumStates sym off xs := by
  have hz := zip_concat xs fun x hx => (hv x hx).lengths
  unfold publicStates states
  rw [hz]
  clear hz
  induction xs generalizing off with
  | nil => rfl
  | cons x xs ih =>
    simp only [sumPerm, sumStates, List.flatMap_cons, List.flatMap_append]
    rw [List.zip_append]
    · rw [ih (fun y hy => hv y (List.mem_cons_of_mem _ hy))]
      congr 1
      unfold publicStates states
      rw [List.zip_map_left]
      rfl
    · rw [List.length_map, (basisPerm_spec sym hd x (hv x List.mem_cons_self)).length_eq,
        List.length_range, C25_dim sym hd, List.length_flatMap]
      unfold totalDim
      simp only [length_block]

private theorem totalDim_concat (dim : S → ℕ) (xs : List (ESpace S))
    (hl : ∀ x ∈ xs, x.mults.length = x.defining.length) :
    totalDim dim (xs.flatMap (·.defining)) (xs.flatMap (·.mults)) =
      (xs.map fun x => totalDim dim x.defining x.mults).sum := by
  unfold totalDim
  rw [zip_concat xs hl, List.map_flatMap, List.flatMap_def, List.sum_flatten, List.map_map]
  rfl

private theorem multOf_concat (xs : List (ESpace S))
    (hl : ∀ x ∈ xs, x.mults.length = x.defining.length) (s : S) :
    multOf (xs.flatMap (·.defining)) (xs.flatMap (·.mults)) s =
      (xs.map fun x => multOf x.defining x.mults s).sum := by
  unfold multOf
  rw [zip_concat xs hl, List.map_flatMap, List.flatMap_def, List.sum_flatten, List.map_map]
  rfl

/-- **C27**: `direct_sum` raises exactly if the dualities differ; otherwise the multiplicity of
every sector and the dimension add up, and the public basis is the concatenation of the public
bases (for symmetries that have one). -/
theorem C27_direct_sum (sym : Sym S) (hd : DimOK sym) (e : ESpace S) (others : List (ESpace S))
    (hv : ∀ x ∈ e :: others, ValidSpace sym x) :
    (e.directSum sym others = none ↔ ∃ o ∈ others, o.isDual ≠ e.isDual) ∧
    ∀ r, e.directSum sym others = some r →
      ValidSpace sym r ∧ r.isDual = e.isDual ∧
      (∀ s, multOf r.defining r.mults s =
        ((e :: others).map fun x => multOf x.defining x.mults s).sum) ∧
      r.dim sym = ((e :: others).map fun x => x.dim sym).sum ∧
      (sym.canDrop = true → (publicStates sym.dim r.defining r.mults (r.basisPerm sym)).Perm
        (sumStates sym 0 (e :: others))) := by
  have hl : ∀ x ∈ e :: others, x.mults.length = x.defining.length := fun x hx => (hv x hx).lengths
  unfold ESpace.directSum
  cases others with
  | nil =>
    refine ⟨by simp, ?_⟩
    intro r hr
    simp only [List.isEmpty_nil, if_true, Option.some.injEq] at hr
    subst hr
    refine ⟨hv _ List.mem_cons_self, rfl, by simp, by simp, ?_⟩
    intro _
    simp [sumStates]
  | cons o os =>
    have hcons : ∀ {β : Type} (f : ESpace S → List β), f e ++ (o :: os).flatMap f =
        (e :: o :: os).flatMap f := fun f => rfl
    have hlen : (e.mults ++ (o :: os).flatMap (·.mults)).length =
        (e.defining ++ (o :: os).flatMap (·.defining)).length := by
      rw [hcons (·.mults), hcons (·.defining), List.length_flatMap, List.length_flatMap]
      congr 1
      exact List.map_congr_left fun x hx => hl x hx
    have hperm : (((o :: os).foldl (fun (acc : List ℕ × ℕ) o =>
        (acc.1 ++ (o.basisPerm sym).map (· + acc.2), acc.2 + o.dim sym))
        (e.basisPerm sym, e.dim sym)).1) = sumPerm sym 0 (e :: o :: os) := by
      rw [foldl_sumPerm]
      conv_rhs => rw [sumPerm]
      simp
    simp only [List.isEmpty_cons, Bool.false_eq_true, if_false]
    rw [hperm]
    by_cases hall : ((o :: os).all fun o => o.isDual == e.isDual) = true
    · rw [if_pos hall]
      have hno : ¬ ∃ o' ∈ o :: os, o'.isDual ≠ e.isDual := by
        rintro ⟨o', ho', hne⟩
        have := List.all_eq_true.1 hall o' ho'
        simp only [beq_iff_eq] at this
        exact hne this
      constructor
      · constructor
        · intro h
          rw [C25_from_defining_sectors_raises] at h
          rcases h with ⟨m, h1, h2⟩ | ⟨h1, h2⟩
          · injection h1 with h1
            subst h1
            exact absurd hlen h2
          · simp [h1] at h2
        · intro h; exact absurd h hno
      · intro r hr
        have hdims : totalDim sym.dim (e.defining ++ (o :: os).flatMap (·.defining))
            (e.mults ++ (o :: os).flatMap (·.mults)) =
            ((e :: o :: os).map fun x => x.dim sym).sum := by
          rw [hcons (·.mults), hcons (·.defining), totalDim_concat _ _ hl]
          congr 1
          apply List.map_congr_left
          intro x _
          rw [C25_dim sym hd]
        have hpp : ∀ p, (if sym.canDrop = true then some (sumPerm sym 0 (e :: o :: os)) else none) =
            some p → p.Perm (List.range (totalDim sym.dim
              (e.defining ++ (o :: os).flatMap (·.defining))
              ((some (e.mults ++ (o :: os).flatMap (·.mults))).getD (List.replicate
                (e.defining ++ (o :: os).flatMap (·.defining)).length 1)))) := by
          intro p hp
          split_ifs at hp
          injection hp with hp
          subst hp
          rw [Option.getD_some, hdims, List.range_eq_range']
          exact sumPerm_perm sym hd _ hv 0
        obtain ⟨r1, r2, r3, r4, r5, r6⟩ := C25_from_defining_sectors sym hd _ _ _ _ false r
          (by intro h; cases h) hpp hr
        simp only [Option.getD_some] at r3 r4 r5
        refine ⟨r1, r2, ?_, ?_, ?_⟩
        · intro s
          rw [r3, hcons (·.mults), hcons (·.defining), multOf_concat _ hl]
        · rw [C25_dim sym hd, r4, hdims]
        · intro hcd
          obtain ⟨p, hp, hst⟩ := r5 hcd
          have hbp : r.basisPerm sym = p := by unfold ESpace.basisPerm; rw [hp]
          rw [hbp]
          refine hst.trans ?_
          simp only [hcd, if_true, Option.getD_some]
          rw [hcons (·.mults), hcons (·.defining), sumStates_eq sym hd _ hv]
    · rw [if_neg hall]
      refine ⟨?_, by intro r hr; cases hr⟩
      simp only [true_iff]
      simp only [List.all_eq_true, beq_iff_eq, not_forall] at hall
      obtain ⟨o', ho', hne⟩ := hall
      exact ⟨o', ho', hne⟩

/-- **C27**, a defect: `is_trivial` reads `multiplicities[0]` of a space without sectors (a null
space, which `from_null_space` builds): out of bounds. On all other spaces it decides whether the
space is the monoidal unit. -/
theorem C27_is_trivial (sym : Sym S) (triv : S) (x : SpaceData S) (hx : ValidData sym x) :
    (x.isTrivial triv = none ↔ x.sectors = []) ∧
    (∀ b, x.isTrivial triv = some b → (b = true ↔ x.sectors = [triv] ∧ x.mults = [1])) := by
  obtain ⟨secs, mults, ord⟩ := x
  have hl := hx.lengths
  have hp := hx.pos
  simp only at hl hp
  unfold SpaceData.isTrivial
  match secs, mults, hl with
  | [], [], _ => simp
  | [s], [m], _ =>
    have hm := hp m (by simp)
    refine ⟨?_, ?_⟩
    · by_cases h : 1 < m
      · simp [h]
      · simp [h]
    · intro b
      by_cases h : 1 < m
      · simp only [List.length_singleton, lt_irrefl, if_false, List.getElem?_cons_zero, h, if_true,
          Option.some.injEq]
        rintro rfl
        simp
        omega
      · simp only [List.length_singleton, lt_irrefl, if_false, List.getElem?_cons_zero, h,
          Option.some.injEq]
        rintro rfl
        have : m = 1 := by omega
        simp [this]
  | s :: t :: rest, ms, _ =>
    refine ⟨by simp, ?_⟩
    intro b hb
    simp at hb
    subst hb
    simp

-- non-trivial instances
example : (ESpace.mk [-1, 0] [1, 2] false none : ESpace ℤ).directSum exU1
    [ESpace.mk [0, 3] [1, 1] false (some [1, 0])] =
    some ⟨[-1, 0, 3], [1, 3, 1], false, some [0, 1, 2, 4, 3]⟩ := by decide +kernel
example : SpaceData.isIsomorphicTo exU1 ⟨[1, 0], [2, 3], none⟩ ⟨[0, 1], [3, 2], some .sorted⟩ = true := by
  decide +kernel
example : SpaceData.isSubspaceOf (⟨[1], [2], some .sorted⟩ : SpaceData ℤ) ⟨[0, 1], [3, 2], some .sorted⟩ =
    true := by decide +kernel
example : ValidData exU1 ⟨[1, 0], [2, 3], none⟩ :=
  ⟨rfl, by decide, by decide, (by intro h; cases h), (by intro h; cases h)⟩
example : largestCommon2 exU1 ⟨[1, 0], [2, 3], none⟩ ⟨[0, 1, 2], [1, 4, 2], some .sorted⟩ false =
    some ⟨[0, 1], [1, 2], false, none⟩ := by decide +kernel

end Cyten.Props
