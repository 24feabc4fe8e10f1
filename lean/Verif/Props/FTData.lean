import Verif.Model.FTData
import Verif.Lemmas.ListSum
import Verif.Lemmas.Tables
import Mathlib.Data.Matrix.Mul
import Mathlib.LinearAlgebra.Matrix.ConjTranspose
import Mathlib.LinearAlgebra.Matrix.Trace
import Mathlib.Data.List.Sort

/-!
# C61: algebra of tensors in the fusion tree backend
-/

namespace Cyten.FT.Spec
open Cyten.Abelian Cyten.FT

variable {S K : Type}

/-- The multiplicity of the coupled sector `c` (zero if it does not occur). -/
def mult [DecidableEq S] (t : BLeg S) (c : S) : ℕ := t.mults.getD (t.sectors.idxOf c) 0

/-- The coupled sectors are sorted, without duplicates, and have multiplicities. -/
structure Coupled [LinearOrder S] (t : BLeg S) : Prop where
  sorted : t.sectors.Pairwise (· < ·)
  len : t.sectors.length = t.mults.length

/-- Consistent data of a tensor (`test_tensor_sanity`, src/backends/fusion_tree_backend.cpp:418-465): the two
sector numbers of a block belong to the same sector, the shapes are the multiplicities, the rows are sorted
without duplicates. -/
structure FSane (cod dom : BLeg S) (D : FEnts K) : Prop where
  coupled : ∀ e ∈ D, ∃ c, cod.sectors[e.1.1]? = some c ∧ dom.sectors[e.1.2]? = some c
  shape : ∀ e ∈ D, e.2.rows = cod.mults.getD e.1.1 0 ∧ e.2.cols = dom.mults.getD e.1.2 0
  sorted : (D.map fun e => e.1.2).Pairwise (· < ·)

/-- The entries of a block, as a matrix of a given shape. -/
def matOf (A : Mat K) (m n : ℕ) : Matrix (Fin m) (Fin n) K := fun i j => A.val i j

/-- What a tensor means: for every coupled sector `c` a matrix, the stored block of this sector or zero. -/
def matrixOf [DecidableEq S] [Zero K] (cod dom : BLeg S) (D : FEnts K) (c : S) :
    Matrix (Fin (mult cod c)) (Fin (mult dom c)) K :=
  fun m n => match D.find? (fun e => cod.sectors[e.1.1]? == some c) with
    | some e => e.2.val m n
    | none => 0

end Cyten.FT.Spec

namespace Cyten.FT
open Cyten.Abelian Cyten.FT.Spec Cyten.ListSum

variable {S K A B : Type}

/-! ## Lists -/

theorem nodup_getElem? {l : List S} (h : l.Nodup) {i j : ℕ} {c : S} (hi : l[i]? = some c) (hj : l[j]? = some c) :
    i = j := by
  obtain ⟨h1, e1⟩ := List.getElem?_eq_some_iff.1 hi
  obtain ⟨h2, e2⟩ := List.getElem?_eq_some_iff.1 hj
  exact (List.Nodup.getElem_inj_iff h).1 (e1.trans e2.symm)

theorem mkData_perm (l : List ((ℕ × ℕ) × A)) (b : Bool) : (mkData l b).Perm l := by
  unfold mkData
  cases b
  · exact List.perm_insertionSort _ _
  · exact List.Perm.refl _

instance : Std.Total (rowLe2 (A := A)) := ⟨fun p q => by unfold rowLe2; omega⟩

instance : IsTrans ((ℕ × ℕ) × A) rowLe2 := ⟨fun p q r h1 h2 => by unfold rowLe2 at *; omega⟩

theorem mkData_sorted (l : List ((ℕ × ℕ) × A)) (h : (l.map fun e => e.1.2).Nodup) :
    ((mkData l false).map fun e => e.1.2).Pairwise (· < ·) := by
  have h1 : (l.insertionSort rowLe2).Pairwise rowLe2 := List.pairwise_insertionSort _ _
  have h2 : (l.insertionSort rowLe2).Pairwise fun p q => p.1.2 ≠ q.1.2 := by
    have := ((List.perm_insertionSort rowLe2 l).map fun e => e.1.2).nodup_iff.2 h
    exact List.pairwise_map.1 this
  show ((l.insertionSort rowLe2).map fun e => e.1.2).Pairwise (· < ·)
  rw [List.pairwise_map]
  refine (h1.and h2).imp fun {p q} hpq => ?_
  obtain ⟨h3, h4⟩ := hpq
  unfold rowLe2 at h3
  omega

theorem sum_perm [AddCommMonoid K] {l l' : List A} (h : l.Perm l') (f : A → K) :
    (l.map f).sum = (l'.map f).sum := (h.map f).sum_eq

/-- The merge of two strictly sorted lists visits the pairs with equal keys. -/
theorem sum_mergeCommon [AddCommMonoid K] (ka : A → ℕ) (kb : B → ℕ) (f : A → B → K) (fuel : ℕ) (a : List A)
    (b : List B) (hf : a.length + b.length ≤ fuel) (ha : (a.map ka).Pairwise (· < ·))
    (hb : (b.map kb).Pairwise (· < ·)) :
    ((mergeCommon ka kb fuel a b).map fun p => f p.1 p.2).sum =
      (a.map fun p => (b.map fun q => if ka p = kb q then f p q else 0).sum).sum := by
  induction fuel generalizing a b with
  | zero =>
    have : a = [] := List.length_eq_zero_iff.1 (by omega)
    subst this
    simp [mergeCommon]
  | succ fuel ih =>
    cases a with
    | nil => simp [mergeCommon]
    | cons x xs =>
      cases b with
      | nil => simp [mergeCommon]
      | cons y ys =>
        rw [List.map_cons, List.pairwise_cons] at ha hb
        have hxs : ∀ p ∈ xs, ka x < ka p := fun p hp => ha.1 _ (List.mem_map_of_mem hp)
        have hys : ∀ q ∈ ys, kb y < kb q := fun q hq => hb.1 _ (List.mem_map_of_mem hq)
        simp only [List.length_cons] at hf
        unfold mergeCommon
        by_cases h1 : ka x < kb y
        · rw [if_pos h1, ih xs (y :: ys) (by simp; omega) ha.2 (List.pairwise_cons.2 hb)]
          rw [List.map_cons, List.sum_cons]
          have : ((y :: ys).map fun q => if ka x = kb q then f x q else 0).sum = 0 := by
            refine sum_zero _ _ fun q hq => if_neg ?_
            rcases List.mem_cons.1 hq with rfl | hq
            · omega
            · have := hys q hq; omega
          rw [this, zero_add]
        · rw [if_neg h1]
          by_cases h2 : kb y < ka x
          · rw [if_pos h2, ih (x :: xs) ys (by simp; omega) (List.pairwise_cons.2 ha) hb.2]
            refine sum_congr _ fun p hp => ?_
            rw [List.map_cons, List.sum_cons, if_neg, zero_add]
            rcases List.mem_cons.1 hp with rfl | hp
            · omega
            · have := hxs p hp; omega
          · rw [if_neg h2, List.map_cons, List.sum_cons, ih xs ys (by omega) ha.2 hb.2, List.map_cons,
              List.sum_cons, List.map_cons, List.sum_cons, if_pos (by omega)]
            have e1 : (ys.map fun q => if ka x = kb q then f x q else 0).sum = 0 := by
              refine sum_zero _ _ fun q hq => if_neg ?_
              have := hys q hq; omega
            rw [e1, add_zero]
            congr 1
            refine sum_congr _ fun p hp => ?_
            rw [List.map_cons, List.sum_cons, if_neg, zero_add]
            have := hxs p hp; omega

theorem mem_mergeCommon (ka : A → ℕ) (kb : B → ℕ) (fuel : ℕ) (a : List A) (b : List B) :
    ∀ p ∈ mergeCommon ka kb fuel a b, p.1 ∈ a ∧ p.2 ∈ b ∧ ka p.1 = kb p.2 := by
  induction fuel generalizing a b with
  | zero => intro p hp; simp [mergeCommon] at hp
  | succ fuel ih =>
    intro p hp
    cases a with
    | nil => simp [mergeCommon] at hp
    | cons x xs =>
      cases b with
      | nil => simp [mergeCommon] at hp
      | cons y ys =>
        unfold mergeCommon at hp
        by_cases h1 : ka x < kb y
        · rw [if_pos h1] at hp
          obtain ⟨g1, g2, g3⟩ := ih _ _ p hp
          exact ⟨List.mem_cons_of_mem _ g1, g2, g3⟩
        · rw [if_neg h1] at hp
          by_cases h2 : kb y < ka x
          · rw [if_pos h2] at hp
            obtain ⟨g1, g2, g3⟩ := ih _ _ p hp
            exact ⟨g1, List.mem_cons_of_mem _ g2, g3⟩
          · rw [if_neg h2] at hp
            rcases List.mem_cons.1 hp with rfl | hp
            · exact ⟨by simp, by simp, by show ka x = kb y; omega⟩
            · obtain ⟨g1, g2, g3⟩ := ih _ _ p hp
              exact ⟨List.mem_cons_of_mem _ g1, List.mem_cons_of_mem _ g2, g3⟩

/-- The second components that are visited are distinct if they are distinct in the list. -/
theorem mergeCommon_sublist (ka : A → ℕ) (kb : B → ℕ) (fuel : ℕ) (a : List A) (b : List B) :
    ((mergeCommon ka kb fuel a b).map Prod.snd).Sublist b ∧
      ((mergeCommon ka kb fuel a b).map Prod.fst).Sublist a := by
  induction fuel generalizing a b with
  | zero => simp [mergeCommon]
  | succ fuel ih =>
    cases a with
    | nil => simp [mergeCommon]
    | cons x xs =>
      cases b with
      | nil => simp [mergeCommon]
      | cons y ys =>
        unfold mergeCommon
        by_cases h1 : ka x < kb y
        · rw [if_pos h1]
          exact ⟨(ih _ _).1, (ih _ _).2.trans (List.sublist_cons_self _ _)⟩
        · rw [if_neg h1]
          by_cases h2 : kb y < ka x
          · rw [if_pos h2]
            exact ⟨(ih _ _).1.trans (List.sublist_cons_self _ _), (ih _ _).2⟩
          · rw [if_neg h2, List.map_cons, List.map_cons]
            exact ⟨(ih _ _).1.cons_cons _, (ih _ _).2.cons_cons _⟩

/-- The merge of two lists visits every entry once, alone or with an entry with the same key. -/
theorem mergeAll_spec (ka : A → ℕ) (kb : B → ℕ) (fuel : ℕ) (a : List A) (b : List B)
    (hf : a.length + b.length ≤ fuel) :
    (mergeAll ka kb fuel a b).filterMap Prod.fst = a ∧ (mergeAll ka kb fuel a b).filterMap Prod.snd = b ∧
      (none, none) ∉ mergeAll ka kb fuel a b ∧
      ∀ x y, (some x, some y) ∈ mergeAll ka kb fuel a b → ka x = kb y := by
  induction fuel generalizing a b with
  | zero =>
    have h1 : a = [] := List.length_eq_zero_iff.1 (by omega)
    have h2 : b = [] := List.length_eq_zero_iff.1 (by omega)
    subst h1 h2
    simp [mergeAll]
  | succ fuel ih =>
    cases a with
    | nil =>
      cases b with
      | nil => simp [mergeAll]
      | cons y ys =>
        simp only [List.length_cons, List.length_nil] at hf
        obtain ⟨g1, g2, g3, g4⟩ := ih [] ys (by simp; omega)
        simp [mergeAll, g1, g2, g3, g4]
        exact g4
    | cons x xs =>
      cases b with
      | nil =>
        simp only [List.length_cons, List.length_nil] at hf
        obtain ⟨g1, g2, g3, g4⟩ := ih xs [] (by simp; omega)
        simp [mergeAll, g1, g2, g3, g4]
        exact g4
      | cons y ys =>
        simp only [List.length_cons] at hf
        unfold mergeAll
        by_cases h1 : ka x < kb y
        · obtain ⟨g1, g2, g3, g4⟩ := ih xs (y :: ys) (by simp; omega)
          rw [if_pos h1]
          simp [g1, g2, g3]
          exact g4
        · rw [if_neg h1]
          by_cases h2 : kb y < ka x
          · obtain ⟨g1, g2, g3, g4⟩ := ih (x :: xs) ys (by simp; omega)
            rw [if_pos h2]
            simp [g1, g2, g3]
            exact g4
          · obtain ⟨g1, g2, g3, g4⟩ := ih xs ys (by omega)
            rw [if_neg h2]
            simp [g1, g2, g3]
            rintro u v (⟨rfl, rfl⟩ | h)
            · omega
            · exact g4 u v h

/-- The key of an item that is visited. -/
def okey (ka : A → ℕ) (kb : B → ℕ) : Option A × Option B → ℕ
  | (some x, _) => ka x
  | (none, some y) => kb y
  | (none, none) => 0

theorem okey_mem (ka : A → ℕ) (kb : B → ℕ) (fuel : ℕ) (a : List A) (b : List B) :
    ∀ o ∈ mergeAll ka kb fuel a b, (∃ x ∈ a, okey ka kb o = ka x) ∨ (∃ y ∈ b, okey ka kb o = kb y) := by
  induction fuel generalizing a b with
  | zero => intro p hp; simp [mergeAll] at hp
  | succ fuel ih =>
    intro p hp
    cases a with
    | nil =>
      cases b with
      | nil => simp [mergeAll] at hp
      | cons y ys =>
        unfold mergeAll at hp
        rcases List.mem_cons.1 hp with rfl | hp
        · exact Or.inr ⟨y, by simp, rfl⟩
        · rcases ih _ _ p hp with ⟨x, hx, _⟩ | ⟨z, hz, e⟩
          · simp at hx
          · exact Or.inr ⟨z, List.mem_cons_of_mem _ hz, e⟩
    | cons x xs =>
      cases b with
      | nil =>
        unfold mergeAll at hp
        rcases List.mem_cons.1 hp with rfl | hp
        · exact Or.inl ⟨x, by simp, rfl⟩
        · rcases ih _ _ p hp with ⟨z, hz, e⟩ | ⟨z, hz, _⟩
          · exact Or.inl ⟨z, List.mem_cons_of_mem _ hz, e⟩
          · simp at hz
      | cons y ys =>
        unfold mergeAll at hp
        by_cases h1 : ka x < kb y
        · rw [if_pos h1] at hp
          rcases List.mem_cons.1 hp with rfl | hp
          · exact Or.inl ⟨x, by simp, rfl⟩
          · rcases ih _ _ p hp with ⟨z, hz, e⟩ | ⟨z, hz, e⟩
            · exact Or.inl ⟨z, List.mem_cons_of_mem _ hz, e⟩
            · exact Or.inr ⟨z, hz, e⟩
        · rw [if_neg h1] at hp
          by_cases h2 : kb y < ka x
          · rw [if_pos h2] at hp
            rcases List.mem_cons.1 hp with rfl | hp
            · exact Or.inr ⟨y, by simp, rfl⟩
            · rcases ih _ _ p hp with ⟨z, hz, e⟩ | ⟨z, hz, e⟩
              · exact Or.inl ⟨z, hz, e⟩
              · exact Or.inr ⟨z, List.mem_cons_of_mem _ hz, e⟩
          · rw [if_neg h2] at hp
            rcases List.mem_cons.1 hp with rfl | hp
            · exact Or.inl ⟨x, by simp, rfl⟩
            · rcases ih _ _ p hp with ⟨z, hz, e⟩ | ⟨z, hz, e⟩
              · exact Or.inl ⟨z, List.mem_cons_of_mem _ hz, e⟩
              · exact Or.inr ⟨z, List.mem_cons_of_mem _ hz, e⟩

/-- The items are visited in the order of their keys. -/
theorem mergeAll_sorted (ka : A → ℕ) (kb : B → ℕ) (fuel : ℕ) (a : List A) (b : List B)
    (ha : (a.map ka).Pairwise (· < ·)) (hb : (b.map kb).Pairwise (· < ·)) :
    ((mergeAll ka kb fuel a b).map (okey ka kb)).Pairwise (· < ·) := by
  induction fuel generalizing a b with
  | zero => simp [mergeAll]
  | succ fuel ih =>
    cases a with
    | nil =>
      cases b with
      | nil => simp [mergeAll]
      | cons y ys =>
        rw [List.map_cons, List.pairwise_cons] at hb
        have hys : ∀ q ∈ ys, kb y < kb q := fun q hq => hb.1 _ (List.mem_map_of_mem hq)
        unfold mergeAll
        rw [List.map_cons, List.pairwise_cons]
        refine ⟨fun k hk => ?_, ih _ _ (by simp) hb.2⟩
        obtain ⟨o, ho, rfl⟩ := List.mem_map.1 hk
        show kb y < _
        rcases okey_mem _ _ _ _ _ o ho with ⟨z, hz, e⟩ | ⟨z, hz, e⟩
        · simp at hz
        · rw [e]; exact hys z hz
    | cons x xs =>
      rw [List.map_cons, List.pairwise_cons] at ha
      have hxs : ∀ p ∈ xs, ka x < ka p := fun p hp => ha.1 _ (List.mem_map_of_mem hp)
      cases b with
      | nil =>
        unfold mergeAll
        rw [List.map_cons, List.pairwise_cons]
        refine ⟨fun k hk => ?_, ih _ _ ha.2 (by simp)⟩
        obtain ⟨o, ho, rfl⟩ := List.mem_map.1 hk
        show ka x < _
        rcases okey_mem _ _ _ _ _ o ho with ⟨z, hz, e⟩ | ⟨z, hz, e⟩
        · rw [e]; exact hxs z hz
        · simp at hz
      | cons y ys =>
        rw [List.map_cons, List.pairwise_cons] at hb
        have hys : ∀ q ∈ ys, kb y < kb q := fun q hq => hb.1 _ (List.mem_map_of_mem hq)
        unfold mergeAll
        by_cases h1 : ka x < kb y
        · rw [if_pos h1, List.map_cons, List.pairwise_cons]
          refine ⟨fun k hk => ?_, ih _ _ ha.2 (List.pairwise_cons.2 hb)⟩
          obtain ⟨o, ho, rfl⟩ := List.mem_map.1 hk
          show ka x < _
          rcases okey_mem _ _ _ _ _ o ho with ⟨z, hz, e⟩ | ⟨z, hz, e⟩
          · rw [e]; exact hxs z hz
          · rw [e]
            rcases List.mem_cons.1 hz with rfl | hz
            · exact h1
            · have := hys z hz; omega
        · rw [if_neg h1]
          by_cases h2 : kb y < ka x
          · rw [if_pos h2, List.map_cons, List.pairwise_cons]
            refine ⟨fun k hk => ?_, ih _ _ (List.pairwise_cons.2 ha) hb.2⟩
            obtain ⟨o, ho, rfl⟩ := List.mem_map.1 hk
            show kb y < _
            rcases okey_mem _ _ _ _ _ o ho with ⟨z, hz, e⟩ | ⟨z, hz, e⟩
            · rw [e]
              rcases List.mem_cons.1 hz with rfl | hz
              · exact h2
              · have := hxs z hz; omega
            · rw [e]; exact hys z hz
          · rw [if_neg h2, List.map_cons, List.pairwise_cons]
            refine ⟨fun k hk => ?_, ih _ _ ha.2 hb.2⟩
            obtain ⟨o, ho, rfl⟩ := List.mem_map.1 hk
            show ka x < _
            rcases okey_mem _ _ _ _ _ o ho with ⟨z, hz, e⟩ | ⟨z, hz, e⟩
            · rw [e]; exact hxs z hz
            · rw [e]; have := hys z hz; omega

theorem sum_filterMap_split [AddCommMonoid K] {E : Type} (l : List (Option A × Option B))
    (step : Option A × Option B → Option E) (F : E → K) (G : A → K) (H : B → K)
    (h1 : ∀ x, (some x, none) ∈ l → ∃ e, step (some x, none) = some e ∧ F e = G x)
    (h2 : ∀ y, (none, some y) ∈ l → ∃ e, step (none, some y) = some e ∧ F e = H y)
    (h3 : ∀ x y, (some x, some y) ∈ l → ∃ e, step (some x, some y) = some e ∧ F e = G x + H y)
    (h4 : (none, none) ∉ l) :
    ((l.filterMap step).map F).sum = ((l.filterMap Prod.fst).map G).sum + ((l.filterMap Prod.snd).map H).sum := by
  induction l with
  | nil => simp
  | cons o l ih =>
    have ih := ih (fun x h => h1 x (List.mem_cons_of_mem _ h)) (fun x h => h2 x (List.mem_cons_of_mem _ h))
      (fun x y h => h3 x y (List.mem_cons_of_mem _ h)) (fun h => h4 (List.mem_cons_of_mem _ h))
    obtain ⟨o1, o2⟩ := o
    cases o1 with
    | none =>
      cases o2 with
      | none => exact absurd List.mem_cons_self h4
      | some y =>
        obtain ⟨e, he, hF⟩ := h2 y List.mem_cons_self
        rw [List.filterMap_cons_some he, List.filterMap_cons_none rfl,
          List.filterMap_cons_some (f := Prod.snd) (a := ((none : Option A), some y)) (b := y) rfl,
          List.map_cons, List.sum_cons, List.map_cons, List.sum_cons, ih, hF]
        abel
    | some x =>
      cases o2 with
      | none =>
        obtain ⟨e, he, hF⟩ := h1 x List.mem_cons_self
        rw [List.filterMap_cons_some he,
          List.filterMap_cons_some (f := Prod.fst) (a := (some x, (none : Option B))) (b := x) rfl,
          List.filterMap_cons_none rfl,
          List.map_cons, List.sum_cons, List.map_cons, List.sum_cons, ih, hF]
        abel
      | some y =>
        obtain ⟨e, he, hF⟩ := h3 x y List.mem_cons_self
        rw [List.filterMap_cons_some he,
          List.filterMap_cons_some (f := Prod.fst) (a := (some x, some y)) (b := x) rfl,
          List.filterMap_cons_some (f := Prod.snd) (a := (some x, some y)) (b := y) rfl,
          List.map_cons, List.sum_cons, List.map_cons, List.sum_cons, List.map_cons, List.sum_cons, ih, hF]
        abel

/-! ## Consistent data -/

section
variable [LinearOrder S]

theorem _root_.Cyten.FT.Spec.Coupled.nodup {t : BLeg S} (h : Coupled t) : t.sectors.Nodup :=
  h.sorted.imp fun h => ne_of_lt h

theorem _root_.Cyten.FT.Spec.Coupled.lt_iff {t : BLeg S} (h : Coupled t) {i j : ℕ} {c d : S}
    (hi : t.sectors[i]? = some c) (hj : t.sectors[j]? = some d) : i < j ↔ c < d := by
  obtain ⟨h1, e1⟩ := List.getElem?_eq_some_iff.1 hi
  obtain ⟨h2, e2⟩ := List.getElem?_eq_some_iff.1 hj
  have hs := List.pairwise_iff_getElem.1 h.sorted
  rcases lt_trichotomy i j with hlt | heq | hgt
  · have := hs i j h1 h2 hlt
    rw [e1, e2] at this
    exact ⟨fun _ => this, fun _ => hlt⟩
  · subst heq
    have : c = d := by rw [← e1, ← e2]
    subst this
    simp
  · have := hs j i h2 h1 hgt
    rw [e1, e2] at this
    exact ⟨fun h => absurd h (by omega), fun h => absurd h this.not_gt⟩

theorem mult_eq {t : BLeg S} (h : Coupled t) {i : ℕ} {c : S} (hi : t.sectors[i]? = some c) :
    mult t c = t.mults.getD i 0 := by
  obtain ⟨h1, e1⟩ := List.getElem?_eq_some_iff.1 hi
  unfold mult
  rw [← e1, h.nodup.idxOf_getElem]

theorem _root_.Cyten.FT.Spec.FSane.sorted0 {cod dom : BLeg S} {D : FEnts K} (h : FSane cod dom D)
    (hc : Coupled cod) (hd : Coupled dom) : (D.map fun e => e.1.1).Pairwise (· < ·) := by
  have h1 := List.pairwise_map.1 h.sorted
  rw [List.pairwise_map]
  refine List.Pairwise.imp_of_mem (fun {p q} hp hq hpq => ?_) h1
  obtain ⟨c, c1, c2⟩ := h.coupled p hp
  obtain ⟨d, d1, d2⟩ := h.coupled q hq
  rw [hc.lt_iff c1 d1]
  exact (hd.lt_iff c2 d2).1 hpq

theorem sorted_swap {cod dom : BLeg S} (hc : Coupled cod) (hd : Coupled dom) (D : List ((ℕ × ℕ) × A))
    (h : ∀ e ∈ D, ∃ c, cod.sectors[e.1.1]? = some c ∧ dom.sectors[e.1.2]? = some c)
    (hs : (D.map fun e => e.1.1).Pairwise (· < ·)) : (D.map fun e => e.1.2).Pairwise (· < ·) := by
  have h1 := List.pairwise_map.1 hs
  rw [List.pairwise_map]
  refine List.Pairwise.imp_of_mem (fun {p q} hp hq hpq => ?_) h1
  obtain ⟨c, c1, c2⟩ := h p hp
  obtain ⟨d, d1, d2⟩ := h q hq
  rw [hd.lt_iff c2 d2]
  exact (hc.lt_iff c1 d1).1 hpq

theorem nodup_of_lt {l : List ℕ} (h : l.Pairwise (· < ·)) : l.Nodup := h.imp fun h => by omega

/-- The entry of the matrix of a sector as a sum over the blocks. -/
theorem matrixOf_sum [AddCommMonoid K] {cod dom : BLeg S} {D : FEnts K} (h : FSane cod dom D)
    (hc : Coupled cod) (hd : Coupled dom) (c : S) (m : Fin (mult cod c)) (n : Fin (mult dom c)) :
    matrixOf cod dom D c m n =
      (D.map fun e => if cod.sectors[e.1.1]? = some c then e.2.val m n else 0).sum := by
  have hs := h.sorted0 hc hd
  unfold matrixOf
  have key : ∀ l : FEnts K, (l.map fun e => e.1.1).Pairwise (· < ·) →
      (match l.find? (fun e => cod.sectors[e.1.1]? == some c) with
        | some e => e.2.val m n
        | none => 0) = (l.map fun e => if cod.sectors[e.1.1]? = some c then e.2.val m n else 0).sum := by
    intro l hl
    induction l with
    | nil => rfl
    | cons e l ih =>
      rw [List.map_cons, List.pairwise_cons] at hl
      rw [List.map_cons, List.sum_cons]
      by_cases he : cod.sectors[e.1.1]? = some c
      · rw [List.find?_cons_of_pos (by simpa using he), if_pos he]
        rw [sum_zero, add_zero]
        intro e' he'
        refine if_neg fun h' => ?_
        have := nodup_getElem? hc.nodup he h'
        have := hl.1 _ (List.mem_map_of_mem he')
        omega
      · rw [List.find?_cons_of_neg (by simpa using he), if_neg he, zero_add]
        exact ih hl.2
  exact key D hs

/-- A sum over the blocks is a sum over the sectors of the codomain. -/
theorem sum_sectors [AddCommMonoid K] {cod : BLeg S} (hc : Coupled cod) (D : FEnts K)
    (hD : ∀ e ∈ D, e.1.1 < cod.sectors.length) (f : S → (ℕ × ℕ) × Mat K → K) :
    (cod.sectors.map fun c => (D.map fun e => if cod.sectors[e.1.1]? = some c then f c e else 0).sum).sum =
      (D.map fun e => match cod.sectors[e.1.1]? with | some c => f c e | none => 0).sum := by
  rw [sum_comm]
  refine sum_congr _ fun e he => ?_
  obtain ⟨c, hcc⟩ : ∃ c, cod.sectors[e.1.1]? = some c := ⟨_, List.getElem?_eq_getElem (hD e he)⟩
  rw [hcc]
  rw [sum_single' _ hc.nodup c (List.mem_of_getElem? hcc)]
  · rw [if_pos rfl]
  · intro d _ hne
    exact if_neg fun h => hne (Option.some.inj h).symm

theorem _root_.Cyten.FT.Spec.FSane.lt {cod dom : BLeg S} {D : FEnts K} (h : FSane cod dom D) :
    ∀ e ∈ D, e.1.1 < cod.sectors.length := by
  intro e he
  obtain ⟨c, c1, -⟩ := h.coupled e he
  exact (List.getElem?_eq_some_iff.1 c1).1

theorem sum_range_fin [AddCommMonoid K] (n : ℕ) (f : ℕ → K) :
    ((List.range n).map f).sum = ∑ i : Fin n, f i := by
  rw [← Fin.sum_ofFn (f := fun i : Fin n => f i)]
  congr 1
  refine List.ext_getElem (by simp) fun i h1 h2 => by simp

/-- **C61** `linear_combination` -/
theorem C61_linear_combination [Semiring K] {cod dom : BLeg S} (hc : Coupled cod) (hd : Coupled dom)
    (v w : FEnts K) (hv : FSane cod dom v) (hw : FSane cod dom w) (x y : K) :
    FSane cod dom (linearCombination x v y w) ∧
    ∀ c, matrixOf cod dom (linearCombination x v y w) c =
      x • matrixOf cod dom v c + y • matrixOf cod dom w c := by
  obtain ⟨g1, g2, g3, g4⟩ := mergeAll_spec (fun e : (ℕ × ℕ) × Mat K => e.1.1)
    (fun e : (ℕ × ℕ) × Mat K => e.1.1) _ v w (le_refl _)
  have hmem1 : ∀ p o, (some p, o) ∈ iterAll (fun e : (ℕ × ℕ) × Mat K => e.1.1)
      (fun e : (ℕ × ℕ) × Mat K => e.1.1) v w → p ∈ v := by
    intro p o h
    rw [← g1]
    exact List.mem_filterMap.2 ⟨_, h, rfl⟩
  have hmem2 : ∀ p o, (o, some p) ∈ iterAll (fun e : (ℕ × ℕ) × Mat K => e.1.1)
      (fun e : (ℕ × ℕ) × Mat K => e.1.1) v w → p ∈ w := by
    intro p o h
    rw [← g2]
    exact List.mem_filterMap.2 ⟨_, h, rfl⟩
  have hmemr : ∀ e ∈ (iterAll (fun e : (ℕ × ℕ) × Mat K => e.1.1)
      (fun e : (ℕ × ℕ) × Mat K => e.1.1) v w).filterMap (linCombStep x y),
      ∃ p, (p ∈ v ∨ p ∈ w) ∧ e.1 = p.1 ∧ e.2.rows = p.2.rows ∧ e.2.cols = p.2.cols := by
    intro e he
    obtain ⟨⟨o1, o2⟩, ho, hoe⟩ := List.mem_filterMap.1 he
    cases o1 with
    | none =>
      cases o2 with
      | none => simp [linCombStep] at hoe
      | some q =>
        simp only [linCombStep, Option.some.injEq] at hoe
        subst hoe
        exact ⟨q, Or.inr (hmem2 _ _ ho), rfl, rfl, rfl⟩
    | some p =>
      cases o2 with
      | none =>
        simp only [linCombStep, Option.some.injEq] at hoe
        subst hoe
        exact ⟨p, Or.inl (hmem1 _ _ ho), rfl, rfl, rfl⟩
      | some q =>
        simp only [linCombStep, Option.some.injEq] at hoe
        subst hoe
        exact ⟨p, Or.inl (hmem1 _ _ ho), rfl, rfl, rfl⟩
  have hperm := mkData_perm ((iterAll (fun e : (ℕ × ℕ) × Mat K => e.1.1)
      (fun e : (ℕ × ℕ) × Mat K => e.1.1) v w).filterMap (linCombStep x y)) false
  have hsane : FSane cod dom (linearCombination x v y w) := by
    refine ⟨fun e he => ?_, fun e he => ?_, ?_⟩
    · obtain ⟨p, hp, h1, -⟩ := hmemr e (hperm.mem_iff.1 he)
      rw [h1]
      rcases hp with hp | hp
      · exact hv.coupled p hp
      · exact hw.coupled p hp
    · obtain ⟨p, hp, h1, h2, h3⟩ := hmemr e (hperm.mem_iff.1 he)
      rw [h1, h2, h3]
      rcases hp with hp | hp
      · exact hv.shape p hp
      · exact hw.shape p hp
    · refine mkData_sorted _ (nodup_of_lt (sorted_swap hc hd _ (fun e he => ?_) ?_))
      · obtain ⟨p, hp, h1, -⟩ := hmemr e he
        rw [h1]
        rcases hp with hp | hp
        · exact hv.coupled p hp
        · exact hw.coupled p hp
      · have hs := mergeAll_sorted (fun e : (ℕ × ℕ) × Mat K => e.1.1)
          (fun e : (ℕ × ℕ) × Mat K => e.1.1) (v.length + w.length) v w (hv.sorted0 hc hd) (hw.sorted0 hc hd)
        rw [List.pairwise_map] at hs ⊢
        rw [List.pairwise_filterMap]
        refine hs.imp fun {o o'} hlt e he e' he' => ?_
        have ho : ∀ o e, linCombStep x y o = some e → okey (fun e : (ℕ × ℕ) × Mat K => e.1.1)
            (fun e : (ℕ × ℕ) × Mat K => e.1.1) o = e.1.1 := by
          rintro ⟨_ | p, _ | q⟩ e h
          · simp [linCombStep] at h
          all_goals
            simp only [linCombStep, Option.some.injEq] at h
            subst h
            rfl
        rw [ho o e he, ho o' e' he'] at hlt
        exact hlt
  refine ⟨hsane, fun c => ?_⟩
  ext m n
  rw [Matrix.add_apply, Matrix.smul_apply, Matrix.smul_apply, matrixOf_sum hsane hc hd,
    matrixOf_sum hv hc hd, matrixOf_sum hw hc hd, smul_eq_mul, smul_eq_mul, ← List.sum_map_mul_left,
    ← List.sum_map_mul_left]
  refine (sum_perm hperm _).trans ?_
  have := sum_filterMap_split (iterAll (fun e : (ℕ × ℕ) × Mat K => e.1.1)
      (fun e : (ℕ × ℕ) × Mat K => e.1.1) v w) (linCombStep x y)
    (fun e => if cod.sectors[e.1.1]? = some c then e.2.val m n else 0)
    (fun e => x * if cod.sectors[e.1.1]? = some c then e.2.val m n else 0)
    (fun e => y * if cod.sectors[e.1.1]? = some c then e.2.val m n else 0)
    (fun p _ => ⟨_, rfl, by simp [Mat.smul]⟩) (fun p _ => ⟨_, rfl, by simp [Mat.smul]⟩)
    (fun p q h => ⟨_, rfl, by
      have := g4 p q h
      simp only [Mat.linComb]
      rw [this]
      by_cases hcc : cod.sectors[q.1.1]? = some c
      · simp only [if_pos hcc]
      · simp only [if_neg hcc, mul_zero, add_zero]⟩) g3
  rw [this]
  congr 1
  · exact congrArg (fun l => (List.map _ l).sum) g1
  · exact congrArg (fun l => (List.map _ l).sum) g2


/-- A sector has one block, which is its matrix, or none, and then the matrix is zero. -/
theorem block_cases [AddCommMonoid K] {cod dom : BLeg S} {D : FEnts K} (h : FSane cod dom D)
    (hc : Coupled cod) (hd : Coupled dom) (c : S) :
    (∃ e ∈ D, cod.sectors[e.1.1]? = some c ∧ dom.sectors[e.1.2]? = some c ∧ e.2.rows = mult cod c ∧
      e.2.cols = mult dom c ∧ (∀ m n, matrixOf cod dom D c m n = e.2.val m n) ∧
      ∀ f : (ℕ × ℕ) × Mat K → K, (D.map fun e => if cod.sectors[e.1.1]? = some c then f e else 0).sum = f e) ∨
    (matrixOf cod dom D c = 0 ∧
      ∀ f : (ℕ × ℕ) × Mat K → K, (D.map fun e => if cod.sectors[e.1.1]? = some c then f e else 0).sum = 0) := by
  have key : ∀ l : FEnts K, (l.map fun e => e.1.1).Pairwise (· < ·) →
      (∃ e ∈ l, cod.sectors[e.1.1]? = some c ∧
        ∀ f : (ℕ × ℕ) × Mat K → K, (l.map fun e => if cod.sectors[e.1.1]? = some c then f e else 0).sum = f e) ∨
      (∀ f : (ℕ × ℕ) × Mat K → K,
        (l.map fun e => if cod.sectors[e.1.1]? = some c then f e else 0).sum = 0) := by
    intro l hl
    induction l with
    | nil => exact Or.inr fun f => rfl
    | cons e l ih =>
      rw [List.map_cons, List.pairwise_cons] at hl
      by_cases he : cod.sectors[e.1.1]? = some c
      · refine Or.inl ⟨e, by simp, he, fun f => ?_⟩
        rw [List.map_cons, List.sum_cons, if_pos he, sum_zero, add_zero]
        intro e' he'
        refine if_neg fun h' => ?_
        have := nodup_getElem? hc.nodup he h'
        have := hl.1 _ (List.mem_map_of_mem he')
        omega
      · rcases ih hl.2 with ⟨e', m1, m2, m3⟩ | m
        · refine Or.inl ⟨e', List.mem_cons_of_mem _ m1, m2, fun f => ?_⟩
          rw [List.map_cons, List.sum_cons, if_neg he, zero_add, m3]
        · refine Or.inr fun f => ?_
          rw [List.map_cons, List.sum_cons, if_neg he, zero_add, m]
  rcases key D (h.sorted0 hc hd) with ⟨e, m1, m2, m3⟩ | m
  · obtain ⟨c', d1, d2⟩ := h.coupled e m1
    obtain rfl : c = c' := Option.some.inj (m2.symm.trans d1)
    refine Or.inl ⟨e, m1, m2, d2, ?_, ?_, fun m n => ?_, m3⟩
    · rw [mult_eq hc d1]; exact (h.shape e m1).1
    · rw [mult_eq hd d2]; exact (h.shape e m1).2
    · rw [matrixOf_sum h hc hd, m3]
  · refine Or.inr ⟨?_, m⟩
    ext i j
    rw [matrixOf_sum h hc hd, m]
    rfl

/-- **C61** `compose`: the matrix of a coupled sector is the product of the matrices of the factors. -/
theorem C61_compose [Semiring K] {cod mid dom : BLeg S} (hc : Coupled cod) (hm : Coupled mid) (hd : Coupled dom)
    (a b : FEnts K) (ha : FSane cod mid a) (hb : FSane mid dom b) :
    FSane cod dom (compose a b) ∧
    ∀ c, matrixOf cod dom (compose a b) c = matrixOf cod mid a c * matrixOf mid dom b c := by
  let I := iterCommon (fun e : (ℕ × ℕ) × Mat K => e.1.2) (fun e : (ℕ × ℕ) × Mat K => e.1.1) a b
  have hI : compose a b = mkData (I.map fun p => ((p.1.1.1, p.2.1.2), p.1.2.dot p.2.2)) false := by
    unfold compose
    by_cases h : 0 < a.length ∧ 0 < b.length
    · rw [if_pos h]
    · rw [if_neg h]
      have : I = [] := by
        show mergeCommon _ _ _ _ _ = _
        cases a with
        | nil => cases b <;> simp [mergeCommon]
        | cons x xs => cases b with
          | nil => simp [mergeCommon]
          | cons y ys => simp at h
      rw [this]
      rfl
  have hmem := mem_mergeCommon (fun e : (ℕ × ℕ) × Mat K => e.1.2) (fun e : (ℕ × ℕ) × Mat K => e.1.1)
    (a.length + b.length) a b
  have hco : ∀ p ∈ I, ∃ c, cod.sectors[p.1.1.1]? = some c ∧ mid.sectors[p.1.1.2]? = some c ∧
      mid.sectors[p.2.1.1]? = some c ∧ dom.sectors[p.2.1.2]? = some c := by
    intro p hp
    obtain ⟨p1, p2, p3⟩ := hmem p hp
    obtain ⟨c, c1, c2⟩ := ha.coupled _ p1
    obtain ⟨c', d1, d2⟩ := hb.coupled _ p2
    have p3 : p.1.1.2 = p.2.1.1 := p3
    have : c = c' := by
      rw [p3] at c2
      exact Option.some.inj (c2.symm.trans d1)
    subst this
    exact ⟨c, c1, c2, d1, d2⟩
  have hperm := mkData_perm (I.map fun p => ((p.1.1.1, p.2.1.2), p.1.2.dot p.2.2)) false
  have hsane : FSane cod dom (compose a b) := by
    rw [hI]
    refine ⟨fun e he => ?_, fun e he => ?_, mkData_sorted _ ?_⟩
    · obtain ⟨p, hp, rfl⟩ := List.mem_map.1 (hperm.mem_iff.1 he)
      obtain ⟨c, c1, -, -, c4⟩ := hco p hp
      exact ⟨c, c1, c4⟩
    · obtain ⟨p, hp, rfl⟩ := List.mem_map.1 (hperm.mem_iff.1 he)
      obtain ⟨p1, p2, p3⟩ := hmem p hp
      exact ⟨(ha.shape _ p1).1, (hb.shape _ p2).2⟩
    · rw [List.map_map]
      have h1 := (mergeCommon_sublist (fun e : (ℕ × ℕ) × Mat K => e.1.2) (fun e : (ℕ × ℕ) × Mat K => e.1.1)
        (a.length + b.length) a b).1.map fun e => e.1.2
      have h2 := (nodup_of_lt hb.sorted).sublist h1
      rw [List.map_map] at h2
      exact h2
  refine ⟨hsane, fun c => ?_⟩
  ext m n
  rw [matrixOf_sum hsane hc hd]
  have e1 : ((compose a b).map fun e => if cod.sectors[e.1.1]? = some c then e.2.val m n else 0).sum =
      (a.map fun p => if cod.sectors[p.1.1]? = some c then
        (b.map fun q => if mid.sectors[q.1.1]? = some c then (p.2.dot q.2).val m n else 0).sum else 0).sum := by
    rw [hI, sum_perm hperm, List.map_map]
    refine (sum_mergeCommon (fun e : (ℕ × ℕ) × Mat K => e.1.2) (fun e : (ℕ × ℕ) × Mat K => e.1.1)
      (fun p q => if cod.sectors[p.1.1]? = some c then (p.2.dot q.2).val m n else 0) _ a b (le_refl _)
      ha.sorted (hb.sorted0 hm hd)).trans ?_
    refine sum_congr _ fun p hp => ?_
    obtain ⟨c', c1, c2⟩ := ha.coupled p hp
    by_cases h : cod.sectors[p.1.1]? = some c
    · obtain rfl : c = c' := Option.some.inj (h.symm.trans c1)
      rw [if_pos h]
      refine sum_congr _ fun q hq => ?_
      by_cases h2 : p.1.2 = q.1.1
      · rw [if_pos h2, if_pos h, if_pos (h2 ▸ c2)]
      · rw [if_neg h2, if_neg fun h3 => h2 (nodup_getElem? hm.nodup c2 h3)]
    · rw [if_neg h]
      exact sum_zero _ _ fun q _ => by rw [if_neg h]; simp
  rw [e1, Matrix.mul_apply]
  rcases block_cases ha hc hm c with ⟨p, p1, p2, p3, p4, p5, p6, p7⟩ | ⟨p1, p2⟩
  · rw [p7]
    rcases block_cases hb hm hd c with ⟨q, q1, q2, q3, q4, q5, q6, q7⟩ | ⟨q1, q2⟩
    · rw [q7]
      show ((List.range p.2.cols).map fun k => p.2.val m k * q.2.val k n).sum = _
      rw [p5, sum_range_fin]
      exact Finset.sum_congr rfl fun k _ => by rw [p6, q6]
    · rw [q2, q1]
      simp
  · rw [p2, p1]
    simp

/-- **C61** `dagger`: the adjoint of every matrix. -/
theorem C61_dagger [Semiring K] [StarRing K] {cod dom : BLeg S} (hc : Coupled cod) (hd : Coupled dom)
    (a : FEnts K) (ha : FSane cod dom a) :
    FSane dom cod (dagger a) ∧ ∀ c, matrixOf dom cod (dagger a) c = (matrixOf cod dom a c).conjTranspose := by
  have hperm := mkData_perm (a.map fun e => ((e.1.2, e.1.1), e.2.dagger)) false
  have hsane : FSane dom cod (dagger a) := by
    refine ⟨fun e he => ?_, fun e he => ?_, mkData_sorted _ ?_⟩
    · obtain ⟨p, hp, rfl⟩ := List.mem_map.1 (hperm.mem_iff.1 he)
      obtain ⟨c, c1, c2⟩ := ha.coupled p hp
      exact ⟨c, c2, c1⟩
    · obtain ⟨p, hp, rfl⟩ := List.mem_map.1 (hperm.mem_iff.1 he)
      obtain ⟨c1, c2⟩ := ha.shape p hp
      exact ⟨c2, c1⟩
    · rw [List.map_map]
      exact nodup_of_lt (ha.sorted0 hc hd)
  refine ⟨hsane, fun c => ?_⟩
  ext m n
  rw [matrixOf_sum hsane hd hc, Matrix.conjTranspose_apply]
  refine (sum_perm hperm _).trans ?_
  rw [List.map_map]
  have e1 : (a.map ((fun e : (ℕ × ℕ) × Mat K => if dom.sectors[e.1.1]? = some c then e.2.val m n else 0) ∘
      fun e : (ℕ × ℕ) × Mat K => ((e.1.2, e.1.1), e.2.dagger))).sum =
      (a.map fun e => if cod.sectors[e.1.1]? = some c then star (e.2.val n m) else 0).sum := by
    refine sum_congr _ fun e he => ?_
    obtain ⟨c', c1, c2⟩ := ha.coupled e he
    show (if dom.sectors[e.1.2]? = some c then star (e.2.val n m) else 0) = _
    rw [c1, c2]
  rw [e1]
  rcases block_cases ha hc hd c with ⟨p, p1, p2, p3, p4, p5, p6, p7⟩ | ⟨p1, p2⟩
  · rw [p7, p6]
  · rw [p2, p1]
    simp

/-- **C61** multiplication with a scalar -/
theorem C61_mul [Semiring K] [DecidableEq K] {cod dom : BLeg S} (hc : Coupled cod) (hd : Coupled dom) (x : K)
    (a : FEnts K) (ha : FSane cod dom a) :
    FSane cod dom (mul x a) ∧ ∀ c, matrixOf cod dom (mul x a) c = x • matrixOf cod dom a c := by
  by_cases hx : x = 0
  · have : mul x a = [] := by unfold mul; rw [if_pos hx]
    rw [this, hx]
    refine ⟨⟨by simp, by simp, by simp⟩, fun c => ?_⟩
    rw [zero_smul]
    rfl
  · have : mul x a = a.map fun e => (e.1, e.2.smul x) := by unfold mul; rw [if_neg hx]; rfl
    rw [this]
    have hsane : FSane cod dom (a.map fun e => (e.1, e.2.smul x)) := by
      refine ⟨fun e he => ?_, fun e he => ?_, ?_⟩
      · obtain ⟨p, hp, rfl⟩ := List.mem_map.1 he
        exact ha.coupled p hp
      · obtain ⟨p, hp, rfl⟩ := List.mem_map.1 he
        exact ha.shape p hp
      · rw [List.map_map]
        exact ha.sorted
    refine ⟨hsane, fun c => ?_⟩
    ext m n
    rw [matrixOf_sum hsane hc hd, List.map_map, Matrix.smul_apply, smul_eq_mul]
    refine Eq.trans (sum_congr (g := fun e => if cod.sectors[e.1.1]? = some c then x * e.2.val m n else 0) _
      fun e _ => rfl) ?_
    rcases block_cases ha hc hd c with ⟨p, p1, p2, p3, p4, p5, p6, p7⟩ | ⟨p1, p2⟩
    · rw [p7, p6]
    · rw [p2, p1]
      simp

/-- Data with one block for each of the sectors of a codomain that is also the domain. -/
theorem diag_sane {t : BLeg S} (D : FEnts K) (hD : D.map (fun e => e.1) = (List.range t.sectors.length).map
    fun i => (i, i)) (hs : ∀ e ∈ D, e.2.rows = t.mults.getD e.1.1 0 ∧ e.2.cols = t.mults.getD e.1.1 0) :
    FSane t t D := by
  have hmem : ∀ e ∈ D, e.1.1 < t.sectors.length ∧ e.1.2 = e.1.1 := by
    intro e he
    have : e.1 ∈ D.map fun e => e.1 := List.mem_map_of_mem he
    rw [hD] at this
    obtain ⟨i, hi, h⟩ := List.mem_map.1 this
    rw [← h]
    exact ⟨List.mem_range.1 hi, rfl⟩
  refine ⟨fun e he => ?_, fun e he => ?_, ?_⟩
  · obtain ⟨h1, h2⟩ := hmem e he
    exact ⟨t.sectors[e.1.1], List.getElem?_eq_getElem h1, by rw [h2]; exact List.getElem?_eq_getElem h1⟩
  · rw [(hmem e he).2]
    exact hs e he
  · have : D.map (fun e => e.1.2) = (D.map fun e => e.1).map Prod.snd := by rw [List.map_map]; rfl
    rw [this, hD, List.map_map]
    have : (Prod.snd ∘ fun i : ℕ => (i, i)) = id := rfl
    rw [this, List.map_id]
    exact List.pairwise_lt_range

theorem mkData_of_sorted (l : List ((ℕ × ℕ) × A)) (h : (l.map fun e => e.1.2).Pairwise (· < ·)) :
    mkData l false = l := by
  refine List.Pairwise.insertionSort_eq ?_
  refine (List.pairwise_map.1 h).imp fun {p q} hpq => ?_
  unfold rowLe2
  omega

/-- **C61** `eye_data`: the unit matrix of every coupled sector. -/
theorem C61_eye [Semiring K] {t : BLeg S} (ht : Coupled t) :
    FSane t t (eyeData (K := K) t) ∧ ∀ c, matrixOf t t (eyeData (K := K) t) c = 1 := by
  have hsane0 : FSane t t ((List.range t.sectors.length).map fun i => ((i, i), Mat.eye (K := K) (t.mults.getD i 0))) := by
    refine diag_sane _ ?_ ?_
    · rw [List.map_map]
      rfl
    · intro e he
      obtain ⟨i, hi, rfl⟩ := List.mem_map.1 he
      exact ⟨rfl, rfl⟩
  have heq : eyeData (K := K) t = (List.range t.sectors.length).map fun i => ((i, i), Mat.eye (t.mults.getD i 0)) :=
    mkData_of_sorted _ hsane0.sorted
  rw [heq]
  refine ⟨hsane0, fun c => ?_⟩
  ext m n
  by_cases hcm : c ∈ t.sectors
  · obtain ⟨i, hi, hic⟩ := List.getElem_of_mem hcm
    rw [matrixOf_sum hsane0 ht ht, List.map_map]
    rw [sum_single' (f := _) _ List.nodup_range i (List.mem_range.2 hi)]
    · show (if t.sectors[i]? = some c then (if (m : ℕ) = n then (1 : K) else 0) else 0) = _
      rw [if_pos (by rw [List.getElem?_eq_getElem hi, hic]), Matrix.one_apply]
      simp [Fin.ext_iff]
    · intro j hj hne
      refine if_neg fun h => hne ?_
      exact nodup_getElem? ht.nodup h (by rw [List.getElem?_eq_getElem hi, hic])
  · exfalso
    have : mult t c = 0 := by
      unfold mult
      rw [List.idxOf_eq_length hcm, ht.len]
      simp
    have := m.2
    omega

/-- **C61** `inner`: the sum over the coupled sectors of the quantum dimension times the inner product of the
matrices; without `do_dagger` the trace of the product of the tensors. -/
theorem C61_inner [CommSemiring K] [StarRing K] {cod dom : BLeg S} (hc : Coupled cod) (hd : Coupled dom)
    (qd : S → K) (a b : FEnts K) (ha : FSane cod dom a) :
    (FSane cod dom b → inner (cod.sectors.map qd) a b true = (cod.sectors.map fun c =>
      qd c * ((matrixOf cod dom a c).conjTranspose * matrixOf cod dom b c).trace).sum) ∧
    (FSane dom cod b → inner (cod.sectors.map qd) a b false = (cod.sectors.map fun c =>
      qd c * (matrixOf cod dom a c * matrixOf dom cod b c).trace).sum) := by
  have hq : ∀ (i : ℕ) (c : S), cod.sectors[i]? = some c → (cod.sectors.map qd).getD i 0 = qd c := by
    intro i c h
    rw [List.getD_eq_getElem?_getD, List.getElem?_map, h]
    rfl
  -- a sum over the pairs as a sum over the sectors
  have key : ∀ (sec : (ℕ × ℕ) × Mat K → ℕ) (F : (ℕ × ℕ) × Mat K → (ℕ × ℕ) × Mat K → K),
      (∀ p ∈ a, ∀ c, cod.sectors[p.1.1]? = some c →
        (b.map fun q => if p.1.1 = sec q then F p q else 0).sum =
          (b.map fun q => if cod.sectors[sec q]? = some c then F p q else 0).sum) →
      (a.map fun p => (b.map fun q => if p.1.1 = sec q then F p q else 0).sum).sum =
        (cod.sectors.map fun c => (a.map fun p => if cod.sectors[p.1.1]? = some c then
          (b.map fun q => if cod.sectors[sec q]? = some c then F p q else 0).sum else 0).sum).sum := by
    intro sec F h
    rw [sum_sectors hc a ha.lt]
    refine sum_congr _ fun p hp => ?_
    obtain ⟨c, c1, -⟩ := ha.coupled p hp
    rw [c1, h p hp c c1]
  have hsec : ∀ (sec : (ℕ × ℕ) × Mat K → ℕ) (F : (ℕ × ℕ) × Mat K → (ℕ × ℕ) × Mat K → K),
      ∀ p ∈ a, ∀ c, cod.sectors[p.1.1]? = some c →
        (b.map fun q => if p.1.1 = sec q then F p q else 0).sum =
          (b.map fun q => if cod.sectors[sec q]? = some c then F p q else 0).sum := by
    intro sec F p hp c h
    refine sum_congr _ fun q _ => ?_
    by_cases h2 : p.1.1 = sec q
    · rw [if_pos h2, if_pos (h2 ▸ h)]
    · rw [if_neg h2, if_neg fun h3 => h2 (nodup_getElem? hc.nodup h h3)]
  constructor
  · intro hb
    refine (sum_mergeCommon (fun e : (ℕ × ℕ) × Mat K => e.1.1)
      (fun e : (ℕ × ℕ) × Mat K => if true = true then e.1.1 else e.1.2)
      (fun p q => (cod.sectors.map qd).getD p.1.1 0 * p.2.inner q.2 true) _ a b (le_refl _)
      (ha.sorted0 hc hd) (hb.sorted0 hc hd)).trans ?_
    refine (key (fun e => e.1.1) _ (hsec _ _)).trans (sum_congr _ fun c _ => ?_)
    rcases block_cases ha hc hd c with ⟨p, p1, p2, p3, p4, p5, p6, p7⟩ | ⟨p1, p2⟩
    · rw [p7]
      rcases block_cases hb hc hd c with ⟨q, q1, q2, q3, q4, q5, q6, q7⟩ | ⟨q1, q2⟩
      · rw [q7, hq _ _ p2]
        congr 1
        show ((List.range p.2.rows).map fun m => ((List.range p.2.cols).map fun n =>
          star (p.2.val m n) * q.2.val m n).sum).sum = _
        rw [p4, p5, sum_range_fin, Matrix.trace]
        simp only [Matrix.diag_apply, Matrix.mul_apply, Matrix.conjTranspose_apply, sum_range_fin, p6, q6]
        exact Finset.sum_comm
      · rw [q2, q1]
        simp
    · rw [p2, p1]
      simp
  · intro hb
    refine (sum_mergeCommon (fun e : (ℕ × ℕ) × Mat K => e.1.1)
      (fun e : (ℕ × ℕ) × Mat K => if false = true then e.1.1 else e.1.2)
      (fun p q => (cod.sectors.map qd).getD p.1.1 0 * p.2.inner q.2 false) _ a b (le_refl _)
      (ha.sorted0 hc hd) hb.sorted).trans ?_
    refine (key (fun e => e.1.2) _ (hsec _ _)).trans (sum_congr _ fun c _ => ?_)
    rcases block_cases ha hc hd c with ⟨p, p1, p2, p3, p4, p5, p6, p7⟩ | ⟨p1, p2⟩
    · rw [p7]
      have e2 : ∀ f : (ℕ × ℕ) × Mat K → K, (b.map fun q => if cod.sectors[q.1.2]? = some c then f q else 0).sum =
          (b.map fun q => if dom.sectors[q.1.1]? = some c then f q else 0).sum := by
        intro f
        refine sum_congr _ fun q hq => ?_
        obtain ⟨c', c1, c2⟩ := hb.coupled q hq
        rw [c1, c2]
      rw [e2]
      rcases block_cases hb hd hc c with ⟨q, q1, q2, q3, q4, q5, q6, q7⟩ | ⟨q1, q2⟩
      · rw [q7, hq _ _ p2]
        congr 1
        show ((List.range q.2.rows).map fun m => ((List.range q.2.cols).map fun n =>
          p.2.val n m * q.2.val m n).sum).sum = _
        rw [q4, q5, sum_range_fin, Matrix.trace]
        simp only [Matrix.diag_apply, Matrix.mul_apply, sum_range_fin, p6, q6]
        exact Finset.sum_comm
      · rw [q2, q1]
        simp
    · rw [p2, p1]
      simp

/-- **C61** `trace`: the sum over the coupled sectors of the quantum dimension times the trace of the matrix. -/
theorem C61_trace [CommSemiring K] {t : BLeg S} (ht : Coupled t) (qd : S → K) (a : FEnts K) (ha : FSane t t a) :
    traceFull (t.sectors.map qd) a = (t.sectors.map fun c => qd c * (matrixOf t t a c).trace).sum := by
  have h := sum_sectors ht a ha.lt (fun c e => qd c * e.2.trace)
  have e1 : traceFull (t.sectors.map qd) a =
      (a.map fun e => match t.sectors[e.1.1]? with | some c => qd c * e.2.trace | none => 0).sum := by
    refine sum_congr _ fun e he => ?_
    obtain ⟨c, c1, -⟩ := ha.coupled e he
    rw [c1, List.getD_eq_getElem?_getD, List.getElem?_map, c1]
    rfl
  rw [e1, ← h]
  refine sum_congr _ fun c _ => ?_
  rcases block_cases ha ht ht c with ⟨p, p1, p2, p3, p4, p5, p6, p7⟩ | ⟨p1, p2⟩
  · rw [p7]
    congr 1
    show ((List.range p.2.rows).map fun m => p.2.val m m).sum = _
    rw [p4, sum_range_fin, Matrix.trace]
    simp only [Matrix.diag_apply, p6]
  · rw [p2, p1]
    simp

/-- **C61** `norm`: its square is the inner product of the tensor with itself. -/
theorem C61_norm [CommSemiring K] [StarRing K] {cod dom : BLeg S} (hc : Coupled cod) (hd : Coupled dom)
    (qd : S → K) (a : FEnts K) (ha : FSane cod dom a) :
    normSq (cod.sectors.map qd) a = (cod.sectors.map fun c =>
      qd c * ((matrixOf cod dom a c).conjTranspose * matrixOf cod dom a c).trace).sum := by
  have h := sum_sectors hc a ha.lt (fun c e => qd c * e.2.inner e.2 true)
  have e1 : normSq (cod.sectors.map qd) a =
      (a.map fun e => match cod.sectors[e.1.1]? with | some c => qd c * e.2.inner e.2 true | none => 0).sum := by
    refine sum_congr _ fun e he => ?_
    obtain ⟨c, c1, -⟩ := ha.coupled e he
    rw [c1, List.getD_eq_getElem?_getD, List.getElem?_map, c1]
    rfl
  rw [e1, ← h]
  refine sum_congr _ fun c _ => ?_
  rcases block_cases ha hc hd c with ⟨p, p1, p2, p3, p4, p5, p6, p7⟩ | ⟨p1, p2⟩
  · rw [p7]
    congr 1
    show ((List.range p.2.rows).map fun m => ((List.range p.2.cols).map fun n =>
      star (p.2.val m n) * p.2.val m n).sum).sum = _
    rw [p4, p5, sum_range_fin, Matrix.trace]
    simp only [Matrix.diag_apply, Matrix.mul_apply, Matrix.conjTranspose_apply, sum_range_fin, p6]
    exact Finset.sum_comm
  · rw [p2, p1]
    simp


/-- The matrix of a sector is its stored block. -/
theorem matrixOf_mem [AddCommMonoid K] {cod dom : BLeg S} {D : FEnts K} (h : FSane cod dom D)
    (hc : Coupled cod) (hd : Coupled dom) {c : S} {e : (ℕ × ℕ) × Mat K} (he : e ∈ D)
    (hs : cod.sectors[e.1.1]? = some c) : matrixOf cod dom D c = matOf e.2 (mult cod c) (mult dom c) := by
  ext m n
  rw [matrixOf_sum h hc hd]
  have hnd : D.Nodup := List.Nodup.of_map _ (nodup_of_lt (h.sorted0 hc hd))
  classical
  rw [sum_single' (f := _) _ hnd e he]
  · rw [if_pos hs]
    rfl
  · intro e' he' hne
    refine if_neg fun h' => hne ?_
    have := nodup_getElem? hc.nodup hs h'
    exact List.inj_on_of_nodup_map (nodup_of_lt (h.sorted0 hc hd)) he' he this.symm

/-- The matrix of a sector without block is zero. -/
theorem matrixOf_none [AddCommMonoid K] {cod dom : BLeg S} {D : FEnts K} {c : S}
    (hs : ∀ e ∈ D, cod.sectors[e.1.1]? ≠ some c) : matrixOf cod dom D c = 0 := by
  have : D.find? (fun e => cod.sectors[e.1.1]? == some c) = none :=
    List.find?_eq_none.2 fun e he => by simpa using hs e he
  ext m n
  unfold matrixOf
  rw [this]
  rfl

/-- The pairs of positions of the sectors that occur in both spaces. -/
theorem common_spec {cod dom : BLeg S} (hc : Coupled cod) (hd : Coupled dom) :
    (∀ i j : ℕ, (i, j) ∈ (Cyten.Tables.iterCommonSorted compare cod.sectors dom.sectors true true).getD [] ↔
      ∃ c, cod.sectors[i]? = some c ∧ dom.sectors[j]? = some c) ∧
    ((Cyten.Tables.iterCommonSorted compare cod.sectors dom.sectors true true).getD []).Pairwise
      fun p q => p.1 < q.1 ∧ p.2 < q.2 := by
  simp only [Cyten.Tables.iterCommonSorted, Bool.not_true, Bool.and_self, Bool.false_eq_true, if_false,
    Option.getD_some]
  have hmem := Cyten.Tables.mem_commonLoop compare (id : S → S) true true (Or.inl rfl) _ 0 cod.sectors 0
    dom.sectors le_rfl
    (fun a _ b _ => ⟨compare_lt_iff_lt, compare_eq_iff_eq, compare_gt_iff_gt⟩)
    (hc.sorted.imp fun h => h.le) (hd.sorted.imp fun h => h.le) (fun _ => hc.sorted) (fun _ => hd.sorted)
  have hsorted := Cyten.Tables.commonLoop_sorted (compare : S → S → Ordering) true true
    (cod.sectors.length + dom.sectors.length) 0 cod.sectors 0 dom.sectors
  refine ⟨fun i j => ?_, hsorted.imp fun h => ⟨h.2.2.1 rfl, h.2.2.2 rfl⟩⟩
  rw [hmem]
  constructor
  · rintro ⟨k, l, a, b, h1, h2, h3, h4⟩
    simp only [id] at h3
    subst h3
    simp only [Nat.zero_add, Prod.mk.injEq] at h4
    obtain ⟨rfl, rfl⟩ := h4
    exact ⟨a, h1, h2⟩
  · rintro ⟨c, h1, h2⟩
    exact ⟨i, j, c, c, h1, h2, rfl, by simp⟩

/-- **C61** `from_sector_block_func`: the matrix of every coupled sector is the result of the function. -/
theorem C61_from_sector_block_func [AddCommMonoid K] {cod dom : BLeg S} (hc : Coupled cod) (hd : Coupled dom)
    (f : ℕ → ℕ → S → Mat K) (hf : ∀ m n c, (f m n c).rows = m ∧ (f m n c).cols = n) :
    FSane cod dom (fromSectorBlockFunc f cod dom) ∧
    ∀ c ∈ cod.sectors, c ∈ dom.sectors → matrixOf cod dom (fromSectorBlockFunc f cod dom) c =
      matOf (f (mult cod c) (mult dom c) c) (mult cod c) (mult dom c) := by
  obtain ⟨g1, g2⟩ := common_spec hc hd
  unfold fromSectorBlockFunc
  set L := (Cyten.Tables.iterCommonSorted compare cod.sectors dom.sectors true true).getD []
  set M := L.filterMap fun ij => cod.sectors[ij.1]?.map fun c =>
      ((ij.1, ij.2), f (cod.mults.getD ij.1 0) (dom.mults.getD ij.2 0) c) with hM
  have hmem : ∀ e, e ∈ M ↔ ∃ c, cod.sectors[e.1.1]? = some c ∧ dom.sectors[e.1.2]? = some c ∧
      e.2 = f (mult cod c) (mult dom c) c := by
    intro e
    rw [hM, List.mem_filterMap]
    constructor
    · rintro ⟨⟨i, j⟩, hij, he⟩
      obtain ⟨c, c1, c2⟩ := (g1 i j).1 hij
      simp only [c1, Option.map_some, Option.some.injEq] at he
      subst he
      exact ⟨c, c1, c2, by rw [mult_eq hc c1, mult_eq hd c2]⟩
    · rintro ⟨c, c1, c2, he⟩
      refine ⟨e.1, (g1 _ _).2 ⟨c, c1, c2⟩, ?_⟩
      rw [c1, Option.map_some, ← mult_eq hc c1, ← mult_eq hd c2, ← he]
  have hperm := mkData_perm M false
  have hsane : FSane cod dom (mkData M false) := by
    refine ⟨fun e he => ?_, fun e he => ?_, mkData_sorted _ (nodup_of_lt ?_)⟩
    · obtain ⟨c, c1, c2, -⟩ := (hmem e).1 (hperm.mem_iff.1 he)
      exact ⟨c, c1, c2⟩
    · obtain ⟨c, c1, c2, he⟩ := (hmem e).1 (hperm.mem_iff.1 he)
      rw [he, ← mult_eq hc c1, ← mult_eq hd c2]
      exact hf _ _ _
    · rw [List.pairwise_map, hM, List.pairwise_filterMap]
      refine g2.imp fun {p q} hpq e he e' he' => ?_
      obtain ⟨c, -, rfl⟩ := Option.map_eq_some_iff.1 he
      obtain ⟨c', -, rfl⟩ := Option.map_eq_some_iff.1 he'
      exact hpq.2
  refine ⟨hsane, fun c h1 h2 => ?_⟩
  obtain ⟨i, hi, hic⟩ := List.getElem_of_mem h1
  obtain ⟨j, hj, hjc⟩ := List.getElem_of_mem h2
  have e1 : cod.sectors[i]? = some c := by rw [List.getElem?_eq_getElem hi, hic]
  have e2 : dom.sectors[j]? = some c := by rw [List.getElem?_eq_getElem hj, hjc]
  exact matrixOf_mem hsane hc hd (e := ((i, j), f (mult cod c) (mult dom c) c))
    (hperm.mem_iff.2 ((hmem _).2 ⟨c, e1, e2, rfl⟩)) e1

/-- **C61** `zero_data`: every matrix is zero; on request all blocks are stored. -/
theorem C61_zero_data [AddCommMonoid K] {cod dom : BLeg S} (hc : Coupled cod) (hd : Coupled dom)
    (all : Bool) :
    FSane cod dom (zeroData (K := K) cod dom all) ∧
    (∀ c, matrixOf cod dom (zeroData (K := K) cod dom all) c = 0) ∧
    (all = true → ∀ c ∈ cod.sectors, c ∈ dom.sectors → ∃ e ∈ zeroData (K := K) cod dom all,
      cod.sectors[e.1.1]? = some c) := by
  cases all with
  | false =>
    refine ⟨⟨by simp [zeroData], by simp [zeroData], by simp [zeroData]⟩, fun c => ?_, by simp⟩
    exact matrixOf_none (by simp [zeroData])
  | true =>
    have hz : zeroData (K := K) cod dom true = dom.sectors.zipIdx.filterMap fun cj =>
        if cj.1 ∈ cod.sectors then some ((cod.sectors.idxOf cj.1, cj.2),
          Mat.zeros (cod.mults.getD (cod.sectors.idxOf cj.1) 0) (dom.mults.getD cj.2 0)) else none := rfl
    have hmem : ∀ e ∈ zeroData (K := K) cod dom true, ∃ c, cod.sectors[e.1.1]? = some c ∧
        dom.sectors[e.1.2]? = some c ∧
        e.2 = Mat.zeros (cod.mults.getD e.1.1 0) (dom.mults.getD e.1.2 0) := by
      intro e he
      rw [hz, List.mem_filterMap] at he
      obtain ⟨⟨c, j⟩, hcj, he⟩ := he
      by_cases h : c ∈ cod.sectors
      · rw [if_pos h, Option.some.injEq] at he
        subst he
        refine ⟨c, ?_, ?_, rfl⟩
        · have := List.idxOf_lt_length_of_mem h
          rw [List.getElem?_eq_getElem this, List.getElem_idxOf]
        · exact List.mem_zipIdx_iff_getElem?.1 hcj
      · rw [if_neg h] at he
        exact absurd he (by simp)
    have hsane : FSane cod dom (zeroData (K := K) cod dom true) := by
      refine ⟨fun e he => ?_, fun e he => ?_, ?_⟩
      · obtain ⟨c, c1, c2, -⟩ := hmem e he
        exact ⟨c, c1, c2⟩
      · obtain ⟨c, c1, c2, h⟩ := hmem e he
        rw [h]
        exact ⟨rfl, rfl⟩
      · rw [List.pairwise_map, hz, List.pairwise_filterMap]
        have : (dom.sectors.zipIdx.map Prod.snd).Pairwise (· < ·) := by
          rw [List.zipIdx_map_snd]
          exact List.pairwise_lt_range'
        refine (List.pairwise_map.1 this).imp fun {p q} hpq e he e' he' => ?_
        by_cases h : p.1 ∈ cod.sectors
        · by_cases h' : q.1 ∈ cod.sectors
          · rw [if_pos h, Option.some.injEq] at he
            rw [if_pos h', Option.some.injEq] at he'
            subst he he'
            exact hpq
          · rw [if_neg h'] at he'
            exact absurd he' (by simp)
        · rw [if_neg h] at he
          exact absurd he (by simp)
    refine ⟨hsane, fun c => ?_, fun _ c h1 h2 => ?_⟩
    · rcases block_cases hsane hc hd c with ⟨e, e1, e2, -, -, -, e6, -⟩ | h
      · ext m n
        rw [e6]
        obtain ⟨-, -, -, h⟩ := hmem e e1
        rw [h]
        rfl
      · exact h.1
    · obtain ⟨j, hj, hjc⟩ := List.getElem_of_mem h2
      refine ⟨((cod.sectors.idxOf c, j), Mat.zeros (cod.mults.getD (cod.sectors.idxOf c) 0) (dom.mults.getD j 0)),
        ?_, ?_⟩
      · rw [hz]
        refine List.mem_filterMap.2 ⟨(c, j), ?_, if_pos h1⟩
        rw [List.mem_zipIdx_iff_getElem?]
        show dom.sectors[j]? = some c
        rw [List.getElem?_eq_getElem hj, hjc]
      · have := List.idxOf_lt_length_of_mem h1
        rw [List.getElem?_eq_getElem this, List.getElem_idxOf]

/-- The block of the sector with number `k`, or zeros. -/
def blkAt [Zero K] (t : BLeg S) (D : FEnts K) (k : ℕ) : Mat K :=
  ((D.find? fun e => e.1.1 == k).map Prod.snd).getD (Mat.zeros (t.mults.getD k 0) (t.mults.getD k 0))

/-- One round of the loop of `act_block_diagonal_square_matrix` for every sector. -/
theorem actLoop_spec [AddCommMonoid K] (f : Mat K → Mat K) (t : BLeg S) (n i : ℕ) (D : FEnts K)
    (hs : (D.map fun e => e.1.1).Pairwise (· < ·)) (hi : ∀ e ∈ D, i ≤ e.1.1) :
    ∃ blk : ℕ → Mat K, actLoop f t i D n = (List.range' i n).map (fun k => ((k, k), f (blk k))) ∧
      ∀ k, (∃ e ∈ D, e.1.1 = k ∧ blk k = e.2) ∨
        ((∀ e ∈ D, e.1.1 ≠ k) ∧ blk k = Mat.zeros (t.mults.getD k 0) (t.mults.getD k 0)) := by
  classical
  refine ⟨blkAt t D, ?_, fun k => ?_⟩
  · induction n generalizing i D with
    | zero => cases D <;> rfl
    | succ n ih =>
      rw [List.range'_succ, List.map_cons]
      cases D with
      | nil =>
        unfold actLoop
        rw [ih (i + 1) [] (by simp) (by simp)]
        rfl
      | cons e es =>
        unfold actLoop
        rw [List.map_cons, List.pairwise_cons] at hs
        have hes : ∀ e' ∈ es, e.1.1 < e'.1.1 := fun e' h => hs.1 _ (List.mem_map_of_mem h)
        by_cases he : e.1.1 = i
        · rw [if_pos he, ih (i + 1) es hs.2 (fun e' h => by have := hes e' h; omega)]
          congr 1
          · unfold blkAt
            rw [List.find?_cons_of_pos (by simp [he])]
            rfl
          · refine List.map_congr_left fun k hk => ?_
            have hk := List.mem_range'_1.1 hk
            unfold blkAt
            rw [List.find?_cons_of_neg (by simp; omega)]
        · rw [if_neg he, ih (i + 1) (e :: es) (by rw [List.map_cons]; exact List.pairwise_cons.2 hs) (fun e' h => by
            have h1 := hi e (by simp)
            rcases List.mem_cons.1 h with rfl | h
            · omega
            · have := hes e' h; omega)]
          congr 1
          have : (e :: es).find? (fun e => e.1.1 == i) = none := by
            refine List.find?_eq_none.2 fun e' h => ?_
            have h1 := hi e (by simp)
            rcases List.mem_cons.1 h with rfl | h
            · simp [he]
            · have := hes e' h
              simp; omega
          unfold blkAt
          rw [this]
          rfl
  · unfold blkAt
    cases h : D.find? (fun e => e.1.1 == k) with
    | some e =>
      exact Or.inl ⟨e, List.mem_of_find?_eq_some h, by simpa using List.find?_some h, rfl⟩
    | none => exact Or.inr ⟨fun e he => by simpa using List.find?_eq_none.1 h e he, rfl⟩

/-- **C61** `act_block_diagonal_square_matrix`: the function acts on the matrix of every coupled sector, also
where no block is stored. -/
theorem C61_act_block_diagonal [AddCommMonoid K] {t : BLeg S} (ht : Coupled t) (f : Mat K → Mat K)
    (F : ∀ n, Matrix (Fin n) (Fin n) K → Matrix (Fin n) (Fin n) K)
    (hf : ∀ (n : ℕ) (A : Mat K), A.rows = n → A.cols = n →
      (f A).rows = n ∧ (f A).cols = n ∧ matOf (f A) n n = F n (matOf A n n))
    (a : FEnts K) (ha : FSane t t a) :
    FSane t t (actBlockDiagonal f t a) ∧
    ∀ c ∈ t.sectors, matrixOf t t (actBlockDiagonal f t a) c = F (mult t c) (matrixOf t t a c) := by
  obtain ⟨blk, h1, h2⟩ := actLoop_spec f t t.sectors.length 0 a (ha.sorted0 ht ht) (by simp)
  have hsh : ∀ k, k < t.sectors.length → (blk k).rows = t.mults.getD k 0 ∧ (blk k).cols = t.mults.getD k 0 := by
    intro k hk
    rcases h2 k with ⟨e, he, rfl, hb⟩ | ⟨-, hb⟩
    · rw [hb]
      have h3 := ha.shape e he
      obtain ⟨c, c1, c2⟩ := ha.coupled e he
      rw [nodup_getElem? ht.nodup c2 c1] at h3
      exact h3
    · rw [hb]
      exact ⟨rfl, rfl⟩
  have hsane0 : FSane t t (actLoop f t 0 a t.sectors.length) := by
    rw [h1]
    refine diag_sane _ ?_ ?_
    · rw [List.map_map, List.range_eq_range']
      rfl
    · intro e he
      obtain ⟨i, hi, rfl⟩ := List.mem_map.1 he
      obtain ⟨s1, s2⟩ := hsh i (by have := List.mem_range'_1.1 hi; omega)
      obtain ⟨g1, g2, -⟩ := hf _ (blk i) s1 s2
      exact ⟨g1, g2⟩
  have heq : actBlockDiagonal f t a = actLoop f t 0 a t.sectors.length := mkData_of_sorted _ hsane0.sorted
  rw [heq]
  refine ⟨hsane0, fun c hcm => ?_⟩
  obtain ⟨i, hi, hic⟩ := List.getElem_of_mem hcm
  have e1 : t.sectors[i]? = some c := by rw [List.getElem?_eq_getElem hi, hic]
  rw [matrixOf_mem hsane0 ht ht (e := ((i, i), f (blk i)))
    (by rw [h1]; exact List.mem_map.2 ⟨i, List.mem_range'_1.2 (by omega), rfl⟩) e1]
  obtain ⟨s1, s2⟩ := hsh i hi
  rw [← mult_eq ht e1] at s1 s2
  rw [(hf _ (blk i) s1 s2).2.2]
  congr 1
  rcases h2 i with ⟨e, he, he1, hb⟩ | ⟨hn, hb⟩
  · rw [matrixOf_mem ha ht ht he (by rw [he1]; exact e1), hb]
  · rw [matrixOf_none fun e he hh => hn e he (nodup_getElem? ht.nodup hh e1), hb]
    rfl

/-! ## Lookups -/

/-- The bisection finds the first row that is not below the value. -/
theorem searchCol_spec (a : List ((ℕ × ℕ) × A)) (hs : (a.map fun e => e.1.2).Pairwise (· < ·)) (v : ℕ)
    (fuel lo hi : ℕ) (hlh : lo ≤ hi) (hh : hi ≤ a.length) (hf : hi - lo ≤ fuel)
    (hl : ∀ (k : ℕ) (e : (ℕ × ℕ) × A), k < lo → a[k]? = some e → e.1.2 < v)
    (hr : ∀ (k : ℕ) (e : (ℕ × ℕ) × A), hi ≤ k → a[k]? = some e → v ≤ e.1.2) :
    (∀ (k : ℕ) (e : (ℕ × ℕ) × A), k < searchCol a v fuel lo hi → a[k]? = some e → e.1.2 < v) ∧
    (∀ (k : ℕ) (e : (ℕ × ℕ) × A), searchCol a v fuel lo hi ≤ k → a[k]? = some e → v ≤ e.1.2) := by
  induction fuel generalizing lo hi with
  | zero =>
    have : lo = hi := by omega
    subst this
    exact ⟨hl, hr⟩
  | succ fuel ih =>
    unfold searchCol
    by_cases h : lo < hi
    · rw [if_pos h]
      have hm : lo + (hi - lo) / 2 < hi := by omega
      have hml : lo + (hi - lo) / 2 < a.length := by omega
      have hm1 : lo ≤ lo + (hi - lo) / 2 := by omega
      simp only []
      generalize lo + (hi - lo) / 2 = mid at *
      have hmono : ∀ (k l : ℕ) (e e' : (ℕ × ℕ) × A), k ≤ l → a[k]? = some e → a[l]? = some e' →
          e.1.2 ≤ e'.1.2 := by
        intro k l e e' hkl hk hl
        rcases Nat.lt_or_eq_of_le hkl with hlt | rfl
        · obtain ⟨k1, k2⟩ := List.getElem?_eq_some_iff.1 hk
          obtain ⟨l1, l2⟩ := List.getElem?_eq_some_iff.1 hl
          have := List.pairwise_iff_getElem.1 hs k l (by simpa using k1) (by simpa using l1) hlt
          simp only [List.getElem_map] at this
          rw [k2, l2] at this
          omega
        · rw [hk] at hl
          rw [Option.some.inj hl]
      have hmid := List.getElem?_eq_getElem hml
      rw [hmid]
      simp only [Option.map_some, Option.getD_some]
      by_cases h2 : (a[mid]).1.2 < v
      · rw [if_pos h2]
        refine ih (mid + 1) hi (by omega) hh (by omega) (fun k e hk he => ?_) hr
        have := hmono k mid e _ (by omega) he hmid
        omega
      · rw [if_neg h2]
        refine ih lo mid (by omega) (by omega) (by omega) hl (fun k e hk he => ?_)
        have := hmono mid k _ e hk hmid he
        omega
    · rw [if_neg h]
      have : lo = hi := by omega
      subst this
      exact ⟨hl, hr⟩

/-- **C61** `block_ind_from_coupled` finds the block of a coupled sector, or says that there is none; it never
raises for consistent data. -/
theorem C61_block_ind_from_coupled {cod dom : BLeg S} (hd : Coupled dom) (D : FEnts K) (hD : FSane cod dom D)
    (c : S) :
    (∃ (n : ℕ) (e : (ℕ × ℕ) × Mat K), blockIndFromCoupled D dom c = some (some n) ∧ D[n]? = some e ∧
      dom.sectors[e.1.2]? = some c) ∨
    (blockIndFromCoupled D dom c = some none ∧ ∀ e ∈ D, dom.sectors[e.1.2]? ≠ some c) := by
  unfold blockIndFromCoupled
  by_cases hcm : c ∈ dom.sectors
  · rw [if_pos hcm]
    have hj : dom.sectors[dom.sectors.idxOf c]? = some c := by
      have := List.idxOf_lt_length_of_mem hcm
      rw [List.getElem?_eq_getElem this, List.getElem_idxOf]
    generalize dom.sectors.idxOf c = j at hj
    obtain ⟨s1, s2⟩ := searchCol_spec D hD.sorted j D.length 0 D.length (by omega) le_rfl (by omega)
      (fun k e h => by omega) (fun k e h he => by
        have := (List.getElem?_eq_some_iff.1 he).1
        omega)
    unfold blockIndFromDomain
    simp only []
    generalize searchCol D j D.length 0 D.length = n at s1 s2
    by_cases h1 : D[n]?.map (fun e => e.1.2) ≠ some j
    · rw [if_pos h1]
      refine Or.inr ⟨rfl, fun e he hh => ?_⟩
      have hej : e.1.2 = j := nodup_getElem? hd.nodup hh hj
      obtain ⟨k, hk⟩ := List.getElem?_of_mem he
      have hnk : n ≤ k := by
        by_contra hlt
        have := s1 k e (by omega) hk
        omega
      have hk1 := (List.getElem?_eq_some_iff.1 hk).1
      have hn : D[n]? = some D[n] := List.getElem?_eq_getElem (by omega)
      have h3 := s2 n _ le_rfl hn
      rcases Nat.lt_or_eq_of_le hnk with hlt | rfl
      · have h4 := List.pairwise_iff_getElem.1 hD.sorted n k (by simp; omega) (by simpa using hk1) hlt
        simp only [List.getElem_map] at h4
        rw [(List.getElem?_eq_some_iff.1 hk).2] at h4
        omega
      · rw [hk] at h1
        exact h1 (by simp [hej])
    · rw [if_neg h1]
      have h1 : D[n]?.map (fun e => e.1.2) = some j := not_not.1 h1
      obtain ⟨e, he, hej⟩ := Option.map_eq_some_iff.1 h1
      have h2 : D[n + 1]?.map (fun e => e.1.2) ≠ some j := by
        intro h2
        obtain ⟨e', he', hej'⟩ := Option.map_eq_some_iff.1 h2
        obtain ⟨k1, k2⟩ := List.getElem?_eq_some_iff.1 he
        obtain ⟨l1, l2⟩ := List.getElem?_eq_some_iff.1 he'
        have h4 := List.pairwise_iff_getElem.1 hD.sorted n (n + 1) (by simpa using k1) (by simpa using l1) (by omega)
        simp only [List.getElem_map] at h4
        rw [k2, l2] at h4
        omega
      rw [if_neg h2]
      exact Or.inl ⟨n, e, rfl, he, by rw [hej]; exact hj⟩
  · rw [if_neg hcm]
    exact Or.inr ⟨rfl, fun e _ h => hcm (List.mem_of_getElem? h)⟩

/-- **C61** `discard_zero_blocks`: dropping blocks that are zero does not change the tensor. -/
theorem C61_discard_zero_blocks [AddCommMonoid K] {cod dom : BLeg S} (hc : Coupled cod) (hd : Coupled dom)
    (big : Mat K → Bool) (D : FEnts K) (hD : FSane cod dom D)
    (hbig : ∀ e ∈ D, big e.2 = false → ∀ m < e.2.rows, ∀ n < e.2.cols, e.2.val m n = 0) :
    FSane cod dom (discardZeroBlocks big D) ∧
    ∀ c, matrixOf cod dom (discardZeroBlocks big D) c = matrixOf cod dom D c := by
  have hsub : (discardZeroBlocks big D).Sublist D := List.filter_sublist
  have hsane : FSane cod dom (discardZeroBlocks big D) :=
    ⟨fun e he => hD.coupled e (hsub.subset he), fun e he => hD.shape e (hsub.subset he),
      hD.sorted.sublist (hsub.map _)⟩
  refine ⟨hsane, fun c => ?_⟩
  ext m n
  rw [matrixOf_sum hsane hc hd, matrixOf_sum hD hc hd]
  unfold discardZeroBlocks
  rw [sum_filter]
  refine sum_congr _ fun e he => ?_
  by_cases hb : big e.2 = true
  · rw [if_pos hb]
  · rw [if_neg hb]
    by_cases h : cod.sectors[e.1.1]? = some c
    · rw [if_pos h]
      obtain ⟨c', c1, c2⟩ := hD.coupled e he
      obtain rfl : c = c' := Option.some.inj (h.symm.trans c1)
      obtain ⟨s1, s2⟩ := hD.shape e he
      refine (hbig e he (by simpa using hb) m ?_ n ?_).symm
      · rw [s1, ← mult_eq hc c1]; exact m.2
      · rw [s2, ← mult_eq hd c2]; exact n.2
    · rw [if_neg h]

/-! ## A case that meets the hypotheses -/

/-- Spaces with three and two coupled sectors. -/
def exCod : BLeg ℕ := { sectors := [0, 2, 5], mults := [2, 1, 1] }

/-- see `exCod` -/
def exDom : BLeg ℕ := { sectors := [2, 5], mults := [2, 1] }

/-- A tensor with a block for one of the two common sectors. -/
def exData : FEnts ℤ := [((1, 0), ⟨1, 2, fun _ n => n + 3⟩)]

example : Coupled exCod := ⟨by decide, rfl⟩

example : Coupled exDom := ⟨by decide, rfl⟩

example : FSane exCod exDom exData :=
  ⟨by simp [exData, exCod, exDom], by simp [exData, exCod, exDom], by simp [exData]⟩

example : (matrixOf exCod exDom exData 2) ⟨0, by decide⟩ ⟨1, by decide⟩ = 4 := by decide

example : blockIndFromCoupled exData exDom 2 = some (some 0) := by decide

example : blockIndFromCoupled exData exDom 5 = some none := by decide

end
end Cyten.FT
