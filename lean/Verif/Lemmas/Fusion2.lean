import Verif.Lemmas.Fusion
import Verif.Props.Tools
import Mathlib.Data.Finset.Sort

/-!
# The computed sectors of a product
-/

set_option linter.unusedSectionVars false

namespace Cyten.Spaces
open Cyten.Spaces.Spec Cyten.FusionTrees Cyten.Tools

variable {S : Type} [LinearOrder S]

/-- A sorted, duplicate-free list of sectors with (positive) multiplicities that represents `v`. -/
structure Norm (sm : List S × List ℕ) (v : S →₀ ℕ) : Prop where
  len : sm.1.length = sm.2.length
  sorted : sm.1.Pairwise (· < ·)
  vec : vec (sm.1.zip sm.2) = v

/-- Positivity of the multiplicities. -/
def Pos (sm : List S × List ℕ) : Prop := ∀ m ∈ sm.2, 0 < m

theorem multOf_of_mem {l : List (S × ℕ)} (h : (l.map Prod.fst).Pairwise (· < ·)) {p : S × ℕ}
    (hp : p ∈ l) : vec l p.1 = p.2 := by
  induction l with
  | nil => cases hp
  | cons q l ih =>
    have hc := List.pairwise_cons.1 h
    rw [vec_cons, Finsupp.add_apply]
    rcases List.mem_cons.1 hp with rfl | hp'
    · have : vec l p.1 = 0 := by
        rw [vec_apply]
        have hz : ∀ x ∈ l, (if x.1 = p.1 then x.2 else 0) = 0 := by
          intro x hx
          rw [if_neg]
          exact fun e => absurd (hc.1 x.1 (List.mem_map.2 ⟨x, hx, rfl⟩)) (by rw [e]; exact lt_irrefl _)
        rw [List.map_congr_left hz]; simp
      rw [this, Finsupp.single_eq_same]; simp
    · rw [ih hc.2 hp', Finsupp.single_apply, if_neg, Nat.zero_add]
      exact fun e => absurd (hc.1 p.1 (List.mem_map.2 ⟨p, hp', rfl⟩)) (by rw [e]; exact lt_irrefl _)

theorem vec_pos_mem {l : List (S × ℕ)} {s : S} (h : 0 < vec l s) : s ∈ l.map Prod.fst := by
  rw [vec_apply] at h
  by_contra hn
  have hz : ∀ x ∈ l, (if x.1 = s then x.2 else 0) = 0 := by
    intro x hx
    rw [if_neg]
    rintro rfl
    exact hn (List.mem_map.2 ⟨x, hx, rfl⟩)
  rw [List.map_congr_left hz] at h
  simp at h

theorem Norm.mem_iff {sm : List S × List ℕ} {v : S →₀ ℕ} (h : Norm sm v) (hp : Pos sm) (s : S) :
    s ∈ sm.1 ↔ 0 < v s := by
  have hf : (sm.1.zip sm.2).map Prod.fst = sm.1 := List.map_fst_zip (by rw [h.len])
  have hs : (sm.1.zip sm.2).map Prod.snd = sm.2 := List.map_snd_zip (by rw [h.len])
  constructor
  · intro hm
    rw [← hf] at hm
    obtain ⟨p, hpm, rfl⟩ := List.mem_map.1 hm
    rw [← h.vec, multOf_of_mem (by rw [hf]; exact h.sorted) hpm]
    apply hp
    rw [← hs]
    exact List.mem_map.2 ⟨p, hpm, rfl⟩
  · intro hm
    rw [← h.vec] at hm
    rw [← hf]
    exact vec_pos_mem hm

theorem Norm.mults_eq {sm : List S × List ℕ} {v : S →₀ ℕ} (h : Norm sm v) : sm.2 = sm.1.map v := by
  have hf : (sm.1.zip sm.2).map Prod.fst = sm.1 := List.map_fst_zip (by rw [h.len])
  have hs : (sm.1.zip sm.2).map Prod.snd = sm.2 := List.map_snd_zip (by rw [h.len])
  conv_lhs => rw [← hs]
  conv_rhs => rw [← hf, List.map_map]
  apply List.map_congr_left
  intro p hp
  rw [Function.comp_apply, ← h.vec, multOf_of_mem (by rw [hf]; exact h.sorted) hp]

theorem Norm.unique {sm sm' : List S × List ℕ} {v : S →₀ ℕ} (h : Norm sm v) (hp : Pos sm)
    (h' : Norm sm' v) (hp' : Pos sm') : sm = sm' := by
  have e : sm.1 = sm'.1 := by
    refine List.Perm.eq_of_pairwise (le := (· < ·)) ?_ h.sorted h'.sorted ?_
    · intro a b _ _ h1 h2
      exact absurd h1 (lt_asymm h2)
    · rw [List.perm_ext_iff_of_nodup (h.sorted.imp ne_of_lt) (h'.sorted.imp ne_of_lt)]
      intro s
      rw [h.mem_iff hp, h'.mem_iff hp']
  have e2 : sm.2 = sm'.2 := by rw [h.mults_eq, h'.mults_eq, e]
  exact Prod.ext e e2

theorem uniqueSorted_norm (l : List (S × ℕ)) :
    Norm (uniqueSorted (l.map Prod.fst) (l.map Prod.snd)) (vec l) := by
  have e : uniqueSorted (l.map Prod.fst) (l.map Prod.snd) =
      ((merged Prod.fst Prod.snd (runsOf Prod.fst (sortBy Prod.fst l))).map Prod.fst,
        (merged Prod.fst Prod.snd (runsOf Prod.fst (sortBy Prod.fst l))).map Prod.snd) := by
    unfold uniqueSorted
    rw [sortSectors_map]
    exact mergeRuns_merged _ _ _
  rw [e]
  refine ⟨by simp, merged_sorted _ _ _ (sortBy_sorted _ _), ?_⟩
  have hz : ∀ M : List (S × ℕ), (M.map Prod.fst).zip (M.map Prod.snd) = M := by
    intro M; rw [List.zip_map']; simp
  rw [hz]
  ext s
  have := merged_sum Prod.fst Prod.snd (sortBy Prod.fst l) fun x : S => if x = s then 1 else 0
  rw [vec_apply, vec_apply]
  have h2 := ((sortBy_perm Prod.fst l).map fun p : S × ℕ => if p.1 = s then p.2 else 0).sum_eq
  rw [← h2]
  simpa using this

theorem uniqueSorted_pos (l : List (S × ℕ)) (h : ∀ p ∈ l, 0 < p.2) :
    Pos (uniqueSorted (l.map Prod.fst) (l.map Prod.snd)) := by
  have hn := uniqueSorted_norm l
  have e := hn.mults_eq
  intro m hm
  rw [e] at hm
  obtain ⟨s, hs, rfl⟩ := List.mem_map.1 hm
  -- every key comes from the list
  have hk : s ∈ l.map Prod.fst := by
    unfold uniqueSorted at hs
    rw [sortSectors_map] at hs
    rw [mergeRuns_merged] at hs
    obtain ⟨p, hp, rfl⟩ := List.mem_map.1 hs
    unfold merged at hp
    obtain ⟨g, hg, hpg⟩ := List.mem_filterMap.1 hp
    cases g with
    | nil => simp at hpg
    | cons x g =>
      simp only [List.head?_cons, Option.map_some, Option.some.injEq] at hpg
      subst hpg
      have : x ∈ sortBy Prod.fst l := by
        rw [← runsOf_flatten Prod.fst (sortBy Prod.fst l)]
        exact List.mem_flatten.2 ⟨_, hg, List.mem_cons_self⟩
      exact List.mem_map.2 ⟨x, (sortBy_perm _ _).mem_iff.1 this, rfl⟩
  obtain ⟨p, hp, rfl⟩ := List.mem_map.1 hk
  rw [vec_apply]
  have : (if p.1 = p.1 then p.2 else 0) ≤ (l.map fun q => if q.1 = p.1 then q.2 else 0).sum :=
    List.single_le_sum (by simp) _ (List.mem_map.2 ⟨p, hp, rfl⟩)
  have := h p hp
  simp at *
  omega

/-- The conditions that `Space.test_sanity` checks of a factor. -/
structure GoodSpace (x : SpaceData S) : Prop where
  len : x.sectors.length = x.mults.length
  nodup : x.sectors.Nodup
  sorted : x.order = some .sorted → x.sectors.Pairwise (· < ·)

/-- The vector of a space. -/
noncomputable def spaceV (x : SpaceData S) : S →₀ ℕ := vec (x.sectors.zip x.mults)

theorem sortedSpace_norm (x : SpaceData S) (h : GoodSpace x) : Norm (sortedSpace x) (spaceV x) := by
  unfold sortedSpace
  by_cases ho : x.order = some .sorted
  · rw [if_pos ho]
    exact ⟨h.len, h.sorted ho, rfl⟩
  · rw [if_neg ho]
    have hf : (x.sectors.zip x.mults).map Prod.fst = x.sectors := List.map_fst_zip (by rw [h.len])
    have hs : (x.sectors.zip x.mults).map Prod.snd = x.mults := List.map_snd_zip (by rw [h.len])
    have e := sortSectors_map (x.sectors.zip x.mults) Prod.fst Prod.snd
    rw [hf, hs] at e
    have e1 : gather x.sectors (lexsortIndices x.sectors) =
        (sortBy Prod.fst (x.sectors.zip x.mults)).map Prod.fst := congrArg Prod.fst e
    have e2 : gather x.mults (lexsortIndices x.sectors) =
        (sortBy Prod.fst (x.sectors.zip x.mults)).map Prod.snd := congrArg (fun y => y.2.1) e
    rw [e1, e2]
    refine ⟨by simp, ?_, ?_⟩
    · have hnd : ((sortBy Prod.fst (x.sectors.zip x.mults)).map Prod.fst).Nodup := by
        rw [((sortBy_perm _ _).map _).nodup_iff, hf]; exact h.nodup
      have hle := sortBy_sorted Prod.fst (x.sectors.zip x.mults)
      rw [List.pairwise_map]
      have hne := List.pairwise_map.1 hnd
      exact (hle.and hne).imp fun h => lt_of_le_of_ne h.1 h.2
    · have hz : ∀ M : List (S × ℕ), (M.map Prod.fst).zip (M.map Prod.snd) = M := by
        intro M; rw [List.zip_map']; simp
      rw [hz]
      exact vec_perm (sortBy_perm _ _)

theorem sortedSpace_pos (x : SpaceData S) (h : ∀ m ∈ x.mults, 0 < m) : Pos (sortedSpace x) := by
  unfold sortedSpace
  split_ifs
  · exact h
  · intro m hm
    obtain ⟨i, _, hi⟩ := List.mem_filterMap.1 hm
    exact h m (List.mem_of_getElem? hi)

theorem combineLast_vec (R : FusionRule S) (unique : Bool)
    (hu : unique = true → ∀ a b c, c ∈ R.outcomes a b → R.rawN a b c = 1)
    (sm : List S × List ℕ) (last : SpaceData S) :
    vec (combineLast R unique sm last) = mulL R (vec (sm.1.zip sm.2)) (spaceV last) := by
  unfold combineLast spaceV
  rw [map_vec, vec_flatMap]
  congr 1
  apply List.map_congr_left
  intro q _
  rw [vec_flatMap]
  have := map_vec ((mulL R).flip (Finsupp.single q.1 1)) (sm.1.zip sm.2)
  simp only [LinearMap.flip_apply] at this
  rw [this, List.smul_sum, List.map_map]
  congr 1
  apply List.map_congr_left
  intro p _
  have e : (R.outcomes p.1 q.1).map (fun c =>
        (c, if unique then p.2 * q.2 else p.2 * q.2 * R.rawN p.1 q.1 c)) =
      (R.outcomes p.1 q.1).map fun c => (c, p.2 * q.2 * R.rawN p.1 q.1 c) := by
    apply List.map_congr_left
    intro c hc
    cases unique
    · rfl
    · simp [hu rfl p.1 q.1 c hc]
  rw [e]
  simp only [Function.comp_apply, mulL_single, Nat.mul_one, one_smul, smul_smul]
  unfold outV
  generalize R.outcomes p.1 q.1 = l
  induction l with
  | nil => simp
  | cons c l ih =>
    simp only [List.map_cons, vec_cons, ih, smul_add]
    congr 1
    rw [Finsupp.smul_single, smul_eq_mul, Nat.mul_comm p.2 q.2]

theorem combineLast_pos (R : FusionRule S) (hR : R.Lawful) (unique : Bool)
    (sm : List S × List ℕ) (hsm : Pos sm) (last : SpaceData S) (hl : ∀ m ∈ last.mults, 0 < m) :
    ∀ p ∈ combineLast R unique sm last, 0 < p.2 := by
  intro p hp
  unfold combineLast at hp
  obtain ⟨q, hq, hp⟩ := List.mem_flatMap.1 hp
  obtain ⟨r, hr, hp⟩ := List.mem_flatMap.1 hp
  obtain ⟨c, hc, rfl⟩ := List.mem_map.1 hp
  have h1 : 0 < r.2 := hsm _ (List.of_mem_zip hr).2
  have h2 : 0 < q.2 := hl _ (List.of_mem_zip hq).2
  have h3 := hR.rawN_pos _ _ _ hc
  cases unique
  · exact Nat.mul_pos (Nat.mul_pos h1 h2) h3
  · exact Nat.mul_pos h1 h2

theorem calcRev_norm (R : FusionRule S) (unique : Bool)
    (hu : unique = true → ∀ a b c, c ∈ R.outcomes a b → R.rawN a b c = 1)
    (l : List (SpaceData S)) (h : ∀ x ∈ l, GoodSpace x) :
    Norm (calcRev R unique l) (prodV R (l.reverse.map spaceV)) := by
  match l with
  | [] =>
    rw [calcRev]
    exact ⟨rfl, by simp, by simp [prodV]⟩
  | [x] =>
    rw [calcRev]
    exact sortedSpace_norm x (h x List.mem_cons_self)
  | last :: x :: rest =>
    rw [calcRev]
    have ih := calcRev_norm R unique hu (x :: rest) fun y hy => h y (List.mem_cons_of_mem _ hy)
    have hn := uniqueSorted_norm (combineLast R unique (calcRev R unique (x :: rest)) last)
    rw [combineLast_vec R unique hu, ih.vec] at hn
    have e : prodV R ((last :: x :: rest).reverse.map spaceV) =
        mulL R (prodV R ((x :: rest).reverse.map spaceV)) (spaceV last) := by
      rw [List.reverse_cons, List.map_append]
      cases hr : (x :: rest).reverse with
      | nil => simp at hr
      | cons y ys =>
        simp only [List.map_cons, List.map_nil]
        exact prodV_snoc R _ _ _
    rw [e]
    exact hn
termination_by l.length

theorem calcRev_pos (R : FusionRule S) (hR : R.Lawful) (unique : Bool)
    (l : List (SpaceData S)) (h : ∀ x ∈ l, ∀ m ∈ x.mults, 0 < m) : Pos (calcRev R unique l) := by
  match l with
  | [] => rw [calcRev]; intro m hm; simp at hm; omega
  | [x] => rw [calcRev]; exact sortedSpace_pos x (h x List.mem_cons_self)
  | last :: x :: rest =>
    rw [calcRev]
    have ih := calcRev_pos R hR unique (x :: rest) fun y hy => h y (List.mem_cons_of_mem _ hy)
    exact uniqueSorted_pos _ (combineLast_pos R hR unique _ ih last (h last List.mem_cons_self))
termination_by l.length

end Cyten.Spaces
