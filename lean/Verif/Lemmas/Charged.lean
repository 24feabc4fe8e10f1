import Verif.Model.Charged
import Verif.Props.AbelianTdot
import Verif.Props.AbelianDense
import Verif.Props.AbelianLinear
import Verif.Props.AbelianInner
import Verif.Lemmas.BasisSum
import Verif.Props.Legs
import Verif.Lemmas.TruncSvd

/-!
# Lemmas about charged tensors: sums over public indices
-/

namespace Cyten.Props
open Cyten.Abelian Cyten.Abelian.Spec Cyten.Tables Cyten.Tools Cyten.ListSum Cyten.Spaces
open Cyten.FusionTrees

variable {S : Type} [LinearOrder S] {sym : Sym S}

/-! ## Public indices -/

theorem located_length {legs : List (ESpace S)} : ∀ {i r p : List ℕ}, Located sym legs i r p →
    i.length = legs.length ∧ r.length = legs.length ∧ p.length = legs.length := by
  induction legs with
  | nil =>
    intro i r p h
    cases i <;> cases r <;> cases p <;> simp [Located] at h ⊢
  | cons e es ih =>
    intro i r p h
    cases i <;> cases r <;> cases p <;> simp only [Located] at h
    have := ih h.2
    simpa using this

theorem located_append_iff {as bs : List (ESpace S)} : ∀ {i j r s p q : List ℕ}, i.length = as.length →
    r.length = as.length → p.length = as.length →
    (Located sym (as ++ bs) (i ++ j) (r ++ s) (p ++ q) ↔ Located sym as i r p ∧ Located sym bs j s q) := by
  induction as with
  | nil =>
    intro i j r s p q hi hr hp
    obtain rfl := List.length_eq_zero_iff.1 hi
    obtain rfl := List.length_eq_zero_iff.1 hr
    obtain rfl := List.length_eq_zero_iff.1 hp
    simp [Located]
  | cons e es ih =>
    intro i j r s p q hi hr hp
    cases i with
    | nil => simp at hi
    | cons a i =>
    cases r with
    | nil => simp at hr
    | cons b r =>
    cases p with
    | nil => simp at hp
    | cons c p =>
    simp only [List.cons_append, Located]
    rw [ih (by simpa using hi) (by simpa using hr) (by simpa using hp), and_assoc]

theorem located_reverse {as : List (ESpace S)} : ∀ {i r p : List ℕ}, Located sym as i r p →
    Located sym as.reverse i.reverse r.reverse p.reverse := by
  induction as with
  | nil =>
    intro i r p h
    cases i <;> cases r <;> cases p <;> simp [Located] at h ⊢
  | cons e es ih =>
    intro i r p h
    cases i <;> cases r <;> cases p <;> simp only [Located] at h
    have hl := located_length h.2
    simp only [List.reverse_cons]
    rw [located_append_iff (by simpa using hl.1) (by simpa using hl.2.1) (by simpa using hl.2.2)]
    exact ⟨ih h.2, h.1, trivial⟩

/-- Sums over public indices are sums over the basis vectors. -/
theorem sum_public {α : Type} [AddCommMonoid α] {legs : List (ESpace S)} (h : DenseOK sym legs)
    (F : List ℕ → α) (f : List ℕ → List ℕ → α)
    (hF : ∀ idx row pos, Located sym legs idx row pos → IsIndex (legMults legs) row pos → F idx = f row pos) :
    ((gridC (legs.map (ESpace.dim sym))).map F).sum =
      ((basis (legMults legs)).map fun x => f x.1 x.2).sum := by
  obtain ⟨h1, h2, h3, h4⟩ := C35_index_bijection sym legs h
  have ex : ∀ idx : List ℕ, ∃ y : List ℕ × List ℕ, InShape idx (legs.map (ESpace.dim sym)) →
      Located sym legs idx y.1 y.2 ∧ IsIndex (legMults legs) y.1 y.2 := by
    intro idx
    by_cases hi : InShape idx (legs.map (ESpace.dim sym))
    · obtain ⟨row, pos, hl⟩ := h1 idx hi
      exact ⟨(row, pos), fun _ => hl⟩
    · exact ⟨([], []), fun hi' => absurd hi' hi⟩
  choose g hg using ex
  have hmem : ∀ idx, idx ∈ gridC (legs.map (ESpace.dim sym)) ↔ InShape idx (legs.map (ESpace.dim sym)) :=
    fun idx => mem_gridC _ _
  have hperm : ((gridC (legs.map (ESpace.dim sym))).map g).Perm (basis (legMults legs)) := by
    refine (List.perm_ext_iff_of_nodup ?_ (C34_basis_nodup _)).2 ?_
    · refine List.Nodup.map_on ?_ (nodup_gridC _)
      intro x hx y hy he
      have lx := hg x ((hmem x).1 hx)
      have ly := hg y ((hmem y).1 hy)
      rw [← he] at ly
      exact h4 _ _ _ _ ly.1 lx.1
    · intro x
      rw [List.mem_map]
      constructor
      · rintro ⟨idx, hi, rfl⟩
        exact (C34_basis _ _ _).2 (hg idx ((hmem idx).1 hi)).2
      · intro hx
        obtain ⟨idx, hl, hi⟩ := h2 x.1 x.2 ((C34_basis _ _ _).1 hx)
        refine ⟨idx, (hmem idx).2 hi, ?_⟩
        obtain ⟨e1, e2⟩ := h3 idx _ _ _ _ hl (hg idx hi).1
        exact Prod.ext e1 e2
  rw [← sum_perm hperm, List.map_map]
  refine sum_congr _ fun idx hi => ?_
  obtain ⟨hl, hx⟩ := hg idx ((hmem idx).1 hi)
  exact hF idx _ _ hl hx

theorem sum_public_one {α : Type} [AddCommMonoid α] {e : ESpace S} (h : DenseOK sym [e])
    (F : ℕ → α) (f : List ℕ × List ℕ → α)
    (hF : ∀ n b o, IsPosition sym e n b o → F n = f ([b], [o])) :
    ((List.range (e.dim sym)).map F).sum = ((basis [e.mults]).map f).sum := by
  have := sum_public h (fun idx => F (idx.headD 0)) (fun r p => f (r, p)) (by
    intro idx row pos hl _
    obtain ⟨l1, l2, l3⟩ := located_length hl
    obtain ⟨n, rfl⟩ := List.length_eq_one_iff.1 l1
    obtain ⟨b, rfl⟩ := List.length_eq_one_iff.1 l2
    obtain ⟨o, rfl⟩ := List.length_eq_one_iff.1 l3
    exact hF n b o hl.1)
  simp only [List.map_cons, List.map_nil, gridC_single, List.map_map] at this
  exact this

/-! ## Contractions of all legs but the charge legs -/

section Tdot
variable {K T : Type} [NonUnitalNonAssocSemiring K] [Star K] [AddCommGroup T] [DecidableEq T]
  {R : Cyten.FusionRule T} {dual : T → T}

theorem otherLegs_of_all (n : ℕ) (l : List ℕ) (h : ∀ i, i < n → i ∈ l) : otherLegs n l = [] := by
  unfold otherLegs
  rw [List.filter_eq_nil_iff]
  intro i hi
  simp [h i (List.mem_range.1 hi)]

theorem otherLegs_last (n : ℕ) (l : List ℕ) (h : ∀ i, i ∈ l ↔ i < n) : otherLegs (n + 1) l = [n] := by
  unfold otherLegs
  rw [List.range_succ, List.filter_append, List.filter_eq_nil_iff.2]
  · simp [h n]
  · intro i hi
    simp [(h i).2 (List.mem_range.1 hi)]

theorem otherLegs_first (n : ℕ) (l : List ℕ) (h : ∀ i, i ∈ l ↔ 1 ≤ i ∧ i < n + 1) :
    otherLegs (n + 1) l = [0] := by
  unfold otherLegs
  rw [List.range_succ_eq_map, List.filter_cons, if_pos (by simp [h 0]), List.filter_eq_nil_iff.2]
  intro i hi
  obtain ⟨j, hj, rfl⟩ := List.mem_map.1 hi
  have := List.mem_range.1 hj
  simp [(h (j + 1)).2 ⟨by omega, by omega⟩]

theorem index_lengths {M : List (List ℕ)} {r p : List ℕ} (h : IsIndex M r p) :
    r.length = M.length ∧ p.length = M.length := by
  have lr : r.length = M.length := by simpa using h.1.length
  exact ⟨lr, by rw [h.2.length, length_shapeOf _ _ lr]⟩

theorem pick_last (y z : List ℕ) (hz : z.length = 1) : pick [y.length] (y ++ z) = z := by
  obtain ⟨a, rfl⟩ := List.length_eq_one_iff.1 hz
  simp [pick]

theorem pick_first (y z : List ℕ) (hz : z.length = 1) : pick [0] (z ++ y) = z := by
  obtain ⟨a, rfl⟩ := List.length_eq_one_iff.1 hz
  simp [pick]

theorem pick_tail_reverse (y z : List ℕ) (hz : z.length = 1) :
    pick (List.range' 1 y.length).reverse (z ++ y) = y.reverse := by
  obtain ⟨a, rfl⟩ := List.length_eq_one_iff.1 hz
  have : pick (List.range' 1 y.length) ([a] ++ y) = y := by
    rw [pick_range' _ _ _ (by simp; omega)]; rfl
  unfold pick at this ⊢
  rw [List.map_reverse, this]

theorem permuted_one (M : List (List ℕ)) (c : List ℕ) : permuted (M ++ [c]) [M.length] = [c] := by
  simp [permuted]

theorem tdot_charge_right (hG : GroupRule R dual) (a b : STensor T K) (ha : a.Valid R) (hb : b.Valid R)
    (M : List (List ℕ)) (c : List ℕ) (ma : a.mults = M.reverse) (mb : b.mults = M ++ [c])
    (na : a.numLegs = M.length) (nb : b.numLegs = M.length + 1) (res : Res T K)
    (h : tdot R dual a b (List.range M.length) (List.range M.length).reverse = some res)
    (rb pb : List ℕ) (hr : IsIndex [c] rb pb) :
    value res rb pb = ((basis M).map fun y =>
      dense a.data y.1.reverse y.2.reverse * dense b.data (y.1 ++ rb) (y.2 ++ pb)).sum := by
  have o1 : otherLegs a.numLegs (List.range M.length) = [] := by
    rw [na]; exact otherLegs_of_all _ _ fun i hi => List.mem_range.2 hi
  have o2 : otherLegs b.numLegs (List.range M.length).reverse = [M.length] := by
    rw [nb]; exact otherLegs_last _ _ fun i => by simp
  have := C56_tdot hG a b ha hb _ _ res h [] [] rb pb (by rw [o1]; simp [permuted, IsIndex, shapeOf, InShape])
    (by rw [o2, mb, permuted_one]; exact hr)
  rw [List.nil_append, List.nil_append] at this
  rw [this, o1, o2, ma, mb]
  have hlr := index_lengths hr
  have e1 : ∀ x ∈ basis M.reverse, (if pick [] x.1 = [] ∧ pick [] x.2 = [] then
      ((basis (M ++ [c])).map fun y => if pick [M.length] y.1 = rb ∧ pick [M.length] y.2 = pb then
        if pick (List.range M.length) x.1 = pick (List.range M.length).reverse y.1 ∧
            pick (List.range M.length) x.2 = pick (List.range M.length).reverse y.2 then
          dense a.data x.1 x.2 * dense b.data y.1 y.2 else 0 else 0).sum else 0) =
      ((basis M).map fun y => if x = (y.1.reverse, y.2.reverse) then
        dense a.data x.1 x.2 * dense b.data (y.1 ++ rb) (y.2 ++ pb) else 0).sum := by
    intro x hx
    have lx := index_lengths ((C34_basis _ _ _).1 hx)
    rw [List.length_reverse] at lx
    rw [if_pos ⟨rfl, rfl⟩]
    rw [sum_basis_append M [c] fun r p => if pick [M.length] r = rb ∧ pick [M.length] p = pb then
        if pick (List.range M.length) x.1 = pick (List.range M.length).reverse r ∧
            pick (List.range M.length) x.2 = pick (List.range M.length).reverse p then
          dense a.data x.1 x.2 * dense b.data r p else 0 else 0]
    refine sum_congr _ fun y hy => ?_
    have ly := index_lengths ((C34_basis _ _ _).1 hy)
    rw [sum_single' (basis [c]) (C34_basis_nodup _) (rb, pb) ((C34_basis _ _ _).2 hr)]
    · dsimp only
      have p1 : pick [M.length] (y.1 ++ rb) = rb := by rw [← ly.1]; exact pick_last _ _ hlr.1
      have p2 : pick [M.length] (y.2 ++ pb) = pb := by rw [← ly.2]; exact pick_last _ _ hlr.2
      have q1 : pick (List.range M.length).reverse (y.1 ++ rb) = y.1.reverse := by
        rw [pick_append_left _ _ _ (by intro c hc; simpa [ly.1] using hc), ← ly.1, pick_reverse_range]
      have q2 : pick (List.range M.length).reverse (y.2 ++ pb) = y.2.reverse := by
        rw [pick_append_left _ _ _ (by intro c hc; simpa [ly.2] using hc), ← ly.2, pick_reverse_range]
      have r1 : pick (List.range M.length) x.1 = x.1 := by
        rw [← lx.1, pick_range _ _ le_rfl, List.take_length]
      have r2 : pick (List.range M.length) x.2 = x.2 := by
        rw [← lx.2, pick_range _ _ le_rfl, List.take_length]
      rw [if_pos ⟨p1, p2⟩, q1, q2, r1, r2]
      by_cases he : x = (y.1.reverse, y.2.reverse)
      · rw [if_pos he, if_pos ⟨congrArg Prod.fst he, congrArg Prod.snd he⟩]
      · rw [if_neg he, if_neg fun hh => he (Prod.ext hh.1 hh.2)]
    · intro z hz hne
      have lz := index_lengths ((C34_basis _ _ _).1 hz)
      rw [if_neg]
      rintro ⟨h1, h2⟩
      rw [← ly.1, pick_last _ _ lz.1] at h1
      rw [← ly.2, pick_last _ _ lz.2] at h2
      exact hne (Prod.ext h1 h2)
  rw [sum_congr _ e1, sum_comm]
  refine sum_congr _ fun y hy => ?_
  have hy' : (y.1.reverse, y.2.reverse) ∈ basis M.reverse :=
    (C34_basis _ _ _).2 (isIndex_reverse ((C34_basis _ _ _).1 hy))
  rw [sum_single' (basis M.reverse) (C34_basis_nodup _) _ hy', if_pos rfl]
  intro x _ hne
  rw [if_neg hne]

theorem tdot_charge_both (hG : GroupRule R dual) (a b : STensor T K) (ha : a.Valid R) (hb : b.Valid R)
    (M : List (List ℕ)) (c c' : List ℕ) (ma : a.mults = [c] ++ M.reverse) (mb : b.mults = M ++ [c'])
    (na : a.numLegs = M.length + 1) (nb : b.numLegs = M.length + 1) (res : Res T K)
    (h : tdot R dual a b (List.range' 1 M.length).reverse (List.range M.length) = some res)
    (ra pa rb pb : List ℕ) (hra : IsIndex [c] ra pa) (hr : IsIndex [c'] rb pb) :
    value res (ra ++ rb) (pa ++ pb) = ((basis M).map fun y =>
      dense a.data (ra ++ y.1.reverse) (pa ++ y.2.reverse) * dense b.data (y.1 ++ rb) (y.2 ++ pb)).sum := by
  have o1 : otherLegs a.numLegs (List.range' 1 M.length).reverse = [0] := by
    rw [na]; exact otherLegs_first _ _ fun i => by simp; omega
  have o2 : otherLegs b.numLegs (List.range M.length) = [M.length] := by
    rw [nb]; exact otherLegs_last _ _ fun i => by simp
  have := C56_tdot hG a b ha hb _ _ res h ra pa rb pb (by rw [o1, ma]; simpa [permuted] using hra)
    (by rw [o2, mb, permuted_one]; exact hr)
  rw [this, o1, o2, ma, mb]
  have hlr := index_lengths hr
  have hla := index_lengths hra
  rw [sum_basis_append [c] M.reverse fun r p => if pick [0] r = ra ∧ pick [0] p = pa then
      ((basis (M ++ [c'])).map fun y => if pick [M.length] y.1 = rb ∧ pick [M.length] y.2 = pb then
        if pick (List.range' 1 M.length).reverse r = pick (List.range M.length) y.1 ∧
            pick (List.range' 1 M.length).reverse p = pick (List.range M.length) y.2 then
          dense a.data r p * dense b.data y.1 y.2 else 0 else 0).sum else 0]
  rw [sum_single' (basis [c]) (C34_basis_nodup _) (ra, pa) ((C34_basis _ _ _).2 hra)]
  · have e1 : ∀ x ∈ basis M.reverse, (if pick [0] (ra ++ x.1) = ra ∧ pick [0] (pa ++ x.2) = pa then
        ((basis (M ++ [c'])).map fun y => if pick [M.length] y.1 = rb ∧ pick [M.length] y.2 = pb then
          if pick (List.range' 1 M.length).reverse (ra ++ x.1) = pick (List.range M.length) y.1 ∧
              pick (List.range' 1 M.length).reverse (pa ++ x.2) = pick (List.range M.length) y.2 then
            dense a.data (ra ++ x.1) (pa ++ x.2) * dense b.data y.1 y.2 else 0 else 0).sum else 0) =
        ((basis M).map fun y => if x = (y.1.reverse, y.2.reverse) then
          dense a.data (ra ++ x.1) (pa ++ x.2) * dense b.data (y.1 ++ rb) (y.2 ++ pb) else 0).sum := by
      intro x hx
      have lx := index_lengths ((C34_basis _ _ _).1 hx)
      rw [List.length_reverse] at lx
      rw [if_pos ⟨pick_first _ _ hla.1, pick_first _ _ hla.2⟩]
      have r1 : pick (List.range' 1 M.length).reverse (ra ++ x.1) = x.1.reverse := by
        rw [← lx.1]; exact pick_tail_reverse _ _ hla.1
      have r2 : pick (List.range' 1 M.length).reverse (pa ++ x.2) = x.2.reverse := by
        rw [← lx.2]; exact pick_tail_reverse _ _ hla.2
      rw [r1, r2]
      rw [sum_basis_append M [c'] fun r p => if pick [M.length] r = rb ∧ pick [M.length] p = pb then
          if x.1.reverse = pick (List.range M.length) r ∧ x.2.reverse = pick (List.range M.length) p then
            dense a.data (ra ++ x.1) (pa ++ x.2) * dense b.data r p else 0 else 0]
      refine sum_congr _ fun y hy => ?_
      have ly := index_lengths ((C34_basis _ _ _).1 hy)
      rw [sum_single' (basis [c']) (C34_basis_nodup _) (rb, pb) ((C34_basis _ _ _).2 hr)]
      · dsimp only
        have p1 : pick [M.length] (y.1 ++ rb) = rb := by rw [← ly.1]; exact pick_last _ _ hlr.1
        have p2 : pick [M.length] (y.2 ++ pb) = pb := by rw [← ly.2]; exact pick_last _ _ hlr.2
        have q1 : pick (List.range M.length) (y.1 ++ rb) = y.1 := by
          rw [pick_range _ _ (by simp [ly.1]), ← ly.1, List.take_left]
        have q2 : pick (List.range M.length) (y.2 ++ pb) = y.2 := by
          rw [pick_range _ _ (by simp [ly.2]), ← ly.2, List.take_left]
        rw [if_pos ⟨p1, p2⟩, q1, q2]
        by_cases he : x = (y.1.reverse, y.2.reverse)
        · rw [if_pos he, if_pos ⟨by rw [he, List.reverse_reverse], by rw [he, List.reverse_reverse]⟩]
        · rw [if_neg he, if_neg fun hh => he (Prod.ext (by rw [← hh.1, List.reverse_reverse])
            (by rw [← hh.2, List.reverse_reverse]))]
      · intro z hz hne
        have lz := index_lengths ((C34_basis _ _ _).1 hz)
        rw [if_neg]
        rintro ⟨h1, h2⟩
        rw [← ly.1, pick_last _ _ lz.1] at h1
        rw [← ly.2, pick_last _ _ lz.2] at h2
        exact hne (Prod.ext h1 h2)
    dsimp only
    rw [sum_congr _ e1, sum_comm]
    refine sum_congr _ fun y hy => ?_
    have hy' : (y.1.reverse, y.2.reverse) ∈ basis M.reverse :=
      (C34_basis _ _ _).2 (isIndex_reverse ((C34_basis _ _ _).1 hy))
    rw [sum_single' (basis M.reverse) (C34_basis_nodup _) _ hy', if_pos rfl]
    intro x _ hne
    rw [if_neg hne]
  · intro z hz hne
    have lz := index_lengths ((C34_basis _ _ _).1 hz)
    refine sum_zero _ _ fun x _ => ?_
    rw [if_neg]
    rintro ⟨h1, h2⟩
    rw [pick_first _ _ lz.1] at h1
    rw [pick_first _ _ lz.2] at h2
    exact hne (Prod.ext h1 h2)

end Tdot

end Cyten.Props
