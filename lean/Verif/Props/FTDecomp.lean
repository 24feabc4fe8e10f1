import Verif.Model.FTDecomp
import Verif.Props.FTData
import Verif.Props.AbelianDecomp

/-!
# C62: matrix decompositions in the fusion tree backend

The decompositions of single blocks (LAPACK) are arguments; what they have to satisfy is stated for the blocks of
the tensor.  Then the factors multiply to the tensor in every coupled sector, and the isometries are isometries
in every coupled sector, also where the tensor has no block.
-/

namespace Cyten.FT.Spec
open Cyten.Abelian Cyten.FT
open scoped Matrix

variable {S K : Type}

/-- The (co)domain between the factors: the common coupled sectors, with the smaller multiplicity. -/
structure IsNew [LinearOrder S] (cod dom new : BLeg S) : Prop where
  coupled : Coupled new
  common : ∀ c, c ∈ new.sectors ↔ c ∈ cod.sectors ∧ c ∈ dom.sectors
  mults : ∀ c ∈ new.sectors, mult new c = min (mult cod c) (mult dom c)

/-- `q` is an `m × k` matrix and `r` a `k × n` matrix with `b = q r`, where `k = min m n`. -/
structure Factors [Semiring K] (m n : ℕ) (b q r : Mat K) : Prop where
  left : q.rows = m ∧ q.cols = min m n
  right : r.rows = min m n ∧ r.cols = n
  product : matOf q m (min m n) * matOf r (min m n) n = matOf b m n

/-- The diagonal matrix of a list. -/
def diagMat [Semiring K] (s : List K) (k : ℕ) : Matrix (Fin k) (Fin k) K :=
  Matrix.diagonal fun i => s.getD i 0

/-- `(u, s, vh)` is a singular value decomposition of `b`. -/
structure IsSVD [Semiring K] [StarRing K] (m n : ℕ) (b u : Mat K) (s : List K) (vh : Mat K) : Prop where
  left : u.rows = m ∧ u.cols = min m n
  values : s.length = min m n
  right : vh.rows = min m n ∧ vh.cols = n
  product : matOf u m (min m n) * diagMat s (min m n) * matOf vh (min m n) n = matOf b m n
  cols : (matOf u m (min m n))ᴴ * matOf u m (min m n) = 1
  rows : matOf vh (min m n) n * (matOf vh (min m n) n)ᴴ = 1

/-- `(w, v)` is an eigenvalue decomposition of `b`. -/
structure IsEigh [Semiring K] [StarRing K] (m : ℕ) (b : Mat K) (w : List K) (v : Mat K) : Prop where
  values : w.length = m
  vectors : v.rows = m ∧ v.cols = m
  product : matOf v m m * diagMat w m * (matOf v m m)ᴴ = matOf b m m
  cols : (matOf v m m)ᴴ * matOf v m m = 1
  rows : matOf v m m * (matOf v m m)ᴴ = 1

/-- Consistent data of a diagonal tensor. -/
structure FDSane (t : BLeg S) (D : List ((ℕ × ℕ) × List K)) : Prop where
  diag : ∀ e ∈ D, e.1.1 = e.1.2 ∧ e.1.1 < t.sectors.length
  len : ∀ e ∈ D, e.2.length = t.mults.getD e.1.1 0
  sorted : (D.map fun e => e.1.2).Pairwise (· < ·)

/-- The diagonal matrix of a coupled sector of a diagonal tensor. -/
def diagOf [DecidableEq S] [Semiring K] (t : BLeg S) (D : List ((ℕ × ℕ) × List K)) (c : S) :
    Matrix (Fin (mult t c)) (Fin (mult t c)) K :=
  diagMat (match D.find? (fun e => t.sectors[e.1.1]? == some c) with
    | some e => e.2
    | none => []) (mult t c)

end Cyten.FT.Spec

namespace Cyten.FT
open Cyten.Abelian Cyten.FT.Spec Cyten.ListSum Cyten.Spaces
open scoped Matrix

variable {S K A : Type}

/-! ## The rounds -/

theorem fdecLoop_spec (n : ℕ) (D : FEnts K) (L : List (ℕ × ℕ)) (hL : L.Pairwise fun p q => p.1 < q.1 ∧ p.2 < q.2)
    (hs : (D.map fun e => e.1.1).Pairwise (· < ·)) (hm : ∀ e ∈ D, ∃ p ∈ L, p.1 = e.1.1) :
    (fdecLoop n D L).map (fun it => (it.i, it.j)) = L ∧
    (fdecLoop n D L).map (fun it => it.n) = List.range' n L.length ∧
    ∀ it ∈ fdecLoop n D L, (∃ e ∈ D, e.1.1 = it.i ∧ it.blk = some e.2) ∨
      ((∀ e ∈ D, e.1.1 ≠ it.i) ∧ it.blk = none) := by
  induction L generalizing n D with
  | nil => cases D <;> simp [fdecLoop]
  | cons p L ih =>
    rw [List.pairwise_cons] at hL
    cases D with
    | nil =>
      obtain ⟨g1, g2, g3⟩ := ih (n + 1) [] hL.2 (by simp) (by simp)
      unfold fdecLoop
      refine ⟨by rw [List.map_cons, g1], by rw [List.map_cons, g2, List.length_cons, List.range'_succ], ?_⟩
      intro it hit
      rcases List.mem_cons.1 hit with rfl | hit
      · exact Or.inr ⟨by simp, rfl⟩
      · exact g3 it hit
    | cons e es =>
      rw [List.map_cons, List.pairwise_cons] at hs
      have hes : ∀ e' ∈ es, e.1.1 < e'.1.1 := fun e' h => hs.1 _ (List.mem_map_of_mem h)
      unfold fdecLoop
      by_cases he : e.1.1 = p.1
      · obtain ⟨g1, g2, g3⟩ := ih (n + 1) es hL.2 hs.2 (fun e' h => by
          obtain ⟨q, hq, hq2⟩ := hm e' (List.mem_cons_of_mem _ h)
          rcases List.mem_cons.1 hq with rfl | hq
          · have := hes e' h; omega
          · exact ⟨q, hq, hq2⟩)
        rw [if_pos he]
        refine ⟨by rw [List.map_cons, g1], by rw [List.map_cons, g2, List.length_cons, List.range'_succ], ?_⟩
        intro it hit
        rcases List.mem_cons.1 hit with rfl | hit
        · exact Or.inl ⟨e, by simp, he, rfl⟩
        · have hlt : p.1 < it.i := by
            have : (it.i, it.j) ∈ L := by rw [← g1]; exact List.mem_map_of_mem hit
            exact (hL.1 _ this).1
          rcases g3 it hit with ⟨e', h1, h2⟩ | ⟨h1, h2⟩
          · exact Or.inl ⟨e', List.mem_cons_of_mem _ h1, h2⟩
          · refine Or.inr ⟨fun e' h => ?_, h2⟩
            rcases List.mem_cons.1 h with rfl | h
            · omega
            · exact h1 e' h
      · obtain ⟨g1, g2, g3⟩ := ih (n + 1) (e :: es) hL.2 (by rw [List.map_cons]; exact List.pairwise_cons.2 hs)
          (fun e' h => by
            obtain ⟨q0, hq0, hq02⟩ := hm e (by simp)
            have hq0L : p.1 < q0.1 := by
              rcases List.mem_cons.1 hq0 with rfl | h
              · omega
              · exact (hL.1 _ h).1
            obtain ⟨q, hq, hq2⟩ := hm e' h
            rcases List.mem_cons.1 hq with rfl | hq
            · rcases List.mem_cons.1 h with rfl | h
              · omega
              · have := hes e' h; omega
            · exact ⟨q, hq, hq2⟩)
        rw [if_neg he]
        refine ⟨by rw [List.map_cons, g1], by rw [List.map_cons, g2, List.length_cons, List.range'_succ], ?_⟩
        intro it hit
        rcases List.mem_cons.1 hit with rfl | hit
        · refine Or.inr ⟨fun e' h hh => ?_, rfl⟩
          obtain ⟨q0, hq0, hq02⟩ := hm e (by simp)
          have hq0L : p.1 < q0.1 := by
            rcases List.mem_cons.1 hq0 with rfl | h
            · omega
            · exact (hL.1 _ h).1
          have hh : e'.1.1 = p.1 := hh
          rcases List.mem_cons.1 h with rfl | h
          · omega
          · have := hes e' h; omega
        · exact g3 it hit

section
variable [LinearOrder S]

/-- What the rounds are. -/
structure ItemsOK (cod dom new : BLeg S) (a : FEnts K) (items : List (FItem K)) : Prop where
  sec : ∀ it ∈ items, ∃ c, cod.sectors[it.i]? = some c ∧ dom.sectors[it.j]? = some c ∧
    new.sectors[it.n]? = some c ∧
    ((∃ e ∈ a, cod.sectors[e.1.1]? = some c ∧ it.blk = some e.2) ∨
      ((∀ e ∈ a, cod.sectors[e.1.1]? ≠ some c) ∧ it.blk = none))
  all : ∀ c, c ∈ cod.sectors → c ∈ dom.sectors → ∃ it ∈ items, cod.sectors[it.i]? = some c ∧
    dom.sectors[it.j]? = some c ∧ new.sectors[it.n]? = some c
  order : items.Pairwise fun p q => p.i < q.i ∧ p.j < q.j ∧ p.n < q.n

theorem eq_of_sorted_mem {l l' : List S} (h : l.Pairwise (· < ·)) (h' : l'.Pairwise (· < ·))
    (hm : ∀ x, x ∈ l ↔ x ∈ l') : l = l' := by
  refine List.Perm.eq_of_pairwise (le := (· < ·)) (fun a b _ _ h1 h2 => absurd h1 h2.not_gt) h h' ?_
  exact (List.perm_ext_iff_of_nodup (h.imp fun h => ne_of_lt h) (h'.imp fun h => ne_of_lt h)).2 hm

theorem items_ok {cod dom new : BLeg S} (hc : Coupled cod) (hd : Coupled dom) (hn : IsNew cod dom new)
    (a : FEnts K) (ha : FSane cod dom a) : ItemsOK cod dom new a (fdecItems cod dom a) := by
  obtain ⟨c1, c2⟩ := common_spec hc hd
  unfold fdecItems
  set L := (Cyten.Tables.iterCommonSorted compare cod.sectors dom.sectors true true).getD [] with hL
  obtain ⟨g1, g2, g3⟩ := fdecLoop_spec 0 a L c2 (ha.sorted0 hc hd) (fun e he => by
    obtain ⟨c, e1, e2⟩ := ha.coupled e he
    exact ⟨e.1, (c1 _ _).2 ⟨c, e1, e2⟩, rfl⟩)
  set items := fdecLoop 0 a L with hi
  -- the sectors of the new leg are the common sectors, in this order
  have hnew : new.sectors = L.filterMap fun p => cod.sectors[p.1]? := by
    refine eq_of_sorted_mem hn.coupled.sorted ?_ fun x => ?_
    · rw [List.pairwise_filterMap]
      refine List.Pairwise.imp_of_mem (fun {p q} _ _ hpq x hx y hy => ?_) c2
      exact (hc.lt_iff hx hy).1 hpq.1
    · rw [hn.common, List.mem_filterMap]
      constructor
      · rintro ⟨h1, h2⟩
        obtain ⟨i, hi⟩ := List.getElem?_of_mem h1
        obtain ⟨j, hj⟩ := List.getElem?_of_mem h2
        exact ⟨(i, j), (c1 _ _).2 ⟨x, hi, hj⟩, hi⟩
      · rintro ⟨⟨i, j⟩, hp, hx⟩
        obtain ⟨c, e1, e2⟩ := (c1 _ _).1 hp
        have hx : cod.sectors[i]? = some x := hx
        obtain rfl : c = x := Option.some.inj (e1.symm.trans hx)
        exact ⟨List.mem_of_getElem? e1, List.mem_of_getElem? e2⟩
  have hnewk : ∀ (k : ℕ) (p : ℕ × ℕ), L[k]? = some p → new.sectors[k]? = cod.sectors[p.1]? := by
    intro k p hk
    rw [hnew]
    have hall : ∀ l : List (ℕ × ℕ), (∀ q ∈ l, (cod.sectors[q.1]?).isSome) →
        ∀ (k : ℕ) (p : ℕ × ℕ), l[k]? = some p → (l.filterMap fun p => cod.sectors[p.1]?)[k]? = cod.sectors[p.1]? := by
      intro l
      induction l with
      | nil => intro _ k p hk; simp at hk
      | cons q l ih =>
        intro hq k p hk
        obtain ⟨x, hx⟩ := Option.isSome_iff_exists.1 (hq q (by simp))
        rw [List.filterMap_cons_some (f := fun p : ℕ × ℕ => cod.sectors[p.1]?) (a := q) (b := x) hx]
        cases k with
        | zero =>
          simp only [List.getElem?_cons_zero, Option.some.injEq] at hk ⊢
          subst hk
          exact hx.symm
        | succ k =>
          simp only [List.getElem?_cons_succ] at hk ⊢
          exact ih (fun q h => hq q (List.mem_cons_of_mem _ h)) k p hk
    refine hall L (fun q hq => ?_) k p hk
    obtain ⟨c, e1, -⟩ := (c1 q.1 q.2).1 hq
    rw [e1]
    rfl
  have hlen : items.length = L.length := by
    have := congrArg List.length g1
    rwa [List.length_map] at this
  have hat : ∀ (k : ℕ) (it : FItem K), items[k]? = some it → L[k]? = some (it.i, it.j) ∧ it.n = k := by
    intro k it hk
    refine ⟨?_, ?_⟩
    · rw [← g1, List.getElem?_map, hk]
      rfl
    · have h1 : (items.map fun it => it.n)[k]? = some it.n := by rw [List.getElem?_map, hk]; rfl
      rw [g2] at h1
      have hk' : k < L.length := by rw [← hlen]; exact (List.getElem?_eq_some_iff.1 hk).1
      rw [List.getElem?_range' hk'] at h1
      have := Option.some.inj h1
      omega
  refine ⟨fun it hit => ?_, fun c h1 h2 => ?_, ?_⟩
  · obtain ⟨k, hk⟩ := List.getElem?_of_mem hit
    obtain ⟨h1, h2⟩ := hat k it hk
    obtain ⟨c, e1, e2⟩ := (c1 it.i it.j).1 (List.mem_of_getElem? h1)
    refine ⟨c, e1, e2, by rw [h2, hnewk k _ h1]; exact e1, ?_⟩
    rcases g3 it hit with ⟨e, m1, m2, m3⟩ | ⟨m1, m2⟩
    · exact Or.inl ⟨e, m1, by rw [m2]; exact e1, m3⟩
    · exact Or.inr ⟨fun e he hh => m1 e he (nodup_getElem? hc.nodup hh e1), m2⟩
  · obtain ⟨i, hi⟩ := List.getElem?_of_mem h1
    obtain ⟨j, hj⟩ := List.getElem?_of_mem h2
    have hp : (i, j) ∈ L := (c1 _ _).2 ⟨c, hi, hj⟩
    rw [← g1] at hp
    obtain ⟨it, hit, heq⟩ := List.mem_map.1 hp
    obtain ⟨rfl, rfl⟩ := Prod.mk.inj heq
    obtain ⟨k, hk⟩ := List.getElem?_of_mem hit
    obtain ⟨m1, m2⟩ := hat k it hk
    exact ⟨it, hit, hi, hj, by rw [m2, hnewk k _ m1]; exact hi⟩
  · have o1 : (items.map fun it => (it.i, it.j)).Pairwise fun p q => p.1 < q.1 ∧ p.2 < q.2 := by rw [g1]; exact c2
    have o2 : (items.map fun it => it.n).Pairwise (· < ·) := by rw [g2]; exact List.pairwise_lt_range'
    exact ((List.pairwise_map.1 o1).and (List.pairwise_map.1 o2)).imp fun h => ⟨h.1.1, h.1.2, h.2⟩

/-! ## The data of the factors -/

theorem collect_eq (items : List (FItem K)) (key : FItem K → ℕ × ℕ) (g : FItem K → Option A) (b : Bool)
    (ho : items.Pairwise fun p q => (key p).2 < (key q).2) :
    collect items key g b = items.filterMap (fun it => (g it).map fun x => (key it, x)) ∧
    ((items.filterMap fun it => (g it).map fun x => (key it, x)).map fun e => e.1.2).Pairwise (· < ·) := by
  have hs : ((items.filterMap fun it => (g it).map fun x => (key it, x)).map fun e => e.1.2).Pairwise (· < ·) := by
    rw [List.pairwise_map, List.pairwise_filterMap]
    refine ho.imp fun {p q} hpq e he e' he' => ?_
    obtain ⟨x, -, rfl⟩ := Option.map_eq_some_iff.1 he
    obtain ⟨y, -, rfl⟩ := Option.map_eq_some_iff.1 he'
    exact hpq
  refine ⟨?_, hs⟩
  unfold collect
  cases b
  · exact mkData_of_sorted _ hs
  · rfl

theorem mem_collect (items : List (FItem K)) (key : FItem K → ℕ × ℕ) (g : FItem K → Option A) (b : Bool)
    (e : (ℕ × ℕ) × A) : e ∈ collect items key g b ↔ ∃ it ∈ items, e.1 = key it ∧ g it = some e.2 := by
  unfold collect
  rw [(mkData_perm _ _).mem_iff, List.mem_filterMap]
  constructor
  · rintro ⟨it, h1, h2⟩
    obtain ⟨x, hx, rfl⟩ := Option.map_eq_some_iff.1 h2
    exact ⟨it, h1, rfl, hx⟩
  · rintro ⟨it, h1, h2, h3⟩
    refine ⟨it, h1, ?_⟩
    rw [h3, Option.map_some, ← h2]

theorem collect_spec [AddCommMonoid K] {t1 t2 : BLeg S} (h1 : Coupled t1) (h2 : Coupled t2)
    (items : List (FItem K)) (key : FItem K → ℕ × ℕ) (g : FItem K → Option (Mat K)) (b : Bool)
    (ho : items.Pairwise fun p q => (key p).1 < (key q).1 ∧ (key p).2 < (key q).2)
    (hk : ∀ it ∈ items, ∃ c, t1.sectors[(key it).1]? = some c ∧ t2.sectors[(key it).2]? = some c ∧
      ∀ x, g it = some x → x.rows = mult t1 c ∧ x.cols = mult t2 c) :
    FSane t1 t2 (collect items key g b) ∧
    ∀ it ∈ items, ∀ c, t1.sectors[(key it).1]? = some c →
      matrixOf t1 t2 (collect items key g b) c = match g it with
        | some x => matOf x (mult t1 c) (mult t2 c)
        | none => 0 := by
  obtain ⟨q1, q2⟩ := collect_eq items key g b (ho.imp fun h => h.2)
  have hsane : FSane t1 t2 (collect items key g b) := by
    refine ⟨fun e he => ?_, fun e he => ?_, by rw [q1]; exact q2⟩
    · obtain ⟨it, m1, m2, m3⟩ := (mem_collect _ _ _ _ _).1 he
      obtain ⟨c, c1, c2, c3⟩ := hk it m1
      rw [m2]
      exact ⟨c, c1, c2⟩
    · obtain ⟨it, m1, m2, m3⟩ := (mem_collect _ _ _ _ _).1 he
      obtain ⟨c, c1, c2, c3⟩ := hk it m1
      rw [m2, ← mult_eq h1 c1, ← mult_eq h2 c2]
      exact c3 _ m3
  refine ⟨hsane, fun it hit c hc => ?_⟩
  cases hg : g it with
  | some x =>
    exact matrixOf_mem hsane h1 h2 (e := (key it, x)) ((mem_collect _ _ _ _ _).2 ⟨it, hit, rfl, hg⟩) hc
  | none =>
    refine matrixOf_none fun e he hh => ?_
    obtain ⟨it', m1, m2, m3⟩ := (mem_collect _ _ _ _ _).1 he
    rw [m2] at hh
    have heq := nodup_getElem? h1.nodup hh hc
    have hnd : (items.map fun it => (key it).1).Nodup :=
      nodup_of_lt (List.pairwise_map.2 (ho.imp fun h => h.1))
    have := List.inj_on_of_nodup_map hnd m1 hit heq
    subst this
    rw [hg] at m3
    exact absurd m3 (by simp)

/-- A sector that is not common: there is nothing on the new leg. -/
theorem new_zero {cod dom new : BLeg S} (hn : IsNew cod dom new) {c : S} (h : ¬ (c ∈ cod.sectors ∧ c ∈ dom.sectors)) :
    mult new c = 0 := by
  have : c ∉ new.sectors := fun h' => h ((hn.common c).1 h')
  unfold mult
  rw [List.idxOf_eq_length this, hn.coupled.len]
  simp

theorem noncommon {cod dom : BLeg S} [AddCommMonoid K] {a : FEnts K} (ha : FSane cod dom a) {c : S}
    (h : ¬ (c ∈ cod.sectors ∧ c ∈ dom.sectors)) : matrixOf cod dom a c = 0 := by
  refine matrixOf_none fun e he hh => h ?_
  obtain ⟨c', c1, c2⟩ := ha.coupled e he
  obtain rfl : c = c' := Option.some.inj (hh.symm.trans c1)
  exact ⟨List.mem_of_getElem? c1, List.mem_of_getElem? c2⟩

theorem mul_of_zero [Semiring K] {m k n : ℕ} (hk : k = 0) (A : Matrix (Fin m) (Fin k) K)
    (B : Matrix (Fin k) (Fin n) K) : A * B = 0 := by
  subst hk
  ext i j
  simp [Matrix.mul_apply]

theorem matrix_zero_dim {k n : ℕ} (hk : k = 0) (A B : Matrix (Fin k) (Fin n) K) : A = B := by
  subst hk
  ext i
  exact i.elim0

theorem eyeCols_ortho [Semiring K] [StarRing K] {m k : ℕ} (h : k ≤ m) :
    (matOf (fEye m k : Mat K) m k)ᴴ * matOf (fEye m k : Mat K) m k = 1 := by
  ext i j
  rw [Matrix.mul_apply]
  have : ∀ x : Fin m, (matOf (fEye m k : Mat K) m k)ᴴ i x * matOf (fEye m k : Mat K) m k x j =
      if x = Fin.castLE h i then (if i = j then 1 else 0) else 0 := by
    intro x
    show star (if (x : ℕ) = i then (1 : K) else 0) * (if (x : ℕ) = j then 1 else 0) = _
    by_cases h1 : (x : ℕ) = i
    · have h2 : x = Fin.castLE h i := Fin.ext h1
      rw [if_pos h1, if_pos h2, star_one, one_mul, h1]
      simp [Fin.ext_iff]
    · have h2 : x ≠ Fin.castLE h i := fun hh => h1 (by rw [hh]; rfl)
      rw [if_neg h1, if_neg h2]
      simp
  rw [Finset.sum_congr rfl fun x _ => this x, Finset.sum_ite_eq' Finset.univ]
  simp [Matrix.one_apply]

theorem eyeRows_ortho [Semiring K] [StarRing K] {n k : ℕ} (h : k ≤ n) :
    matOf (fEye k n : Mat K) k n * (matOf (fEye k n : Mat K) k n)ᴴ = 1 := by
  have e1 : matOf (fEye k n : Mat K) k n = (matOf (fEye n k : Mat K) n k)ᴴ := by
    ext i j
    show (if (i : ℕ) = j then (1 : K) else 0) = star (if (j : ℕ) = i then (1 : K) else 0)
    by_cases h1 : (i : ℕ) = j
    · rw [if_pos h1, if_pos h1.symm, star_one]
    · rw [if_neg h1, if_neg (fun h => h1 h.symm), star_zero]
  rw [e1, Matrix.conjTranspose_conjTranspose]
  exact eyeCols_ortho h

variable {cod dom new : BLeg S}

/-- The left factor with identity columns. -/
theorem leftFull_ok [Semiring K] [StarRing K] (hc : Coupled cod) (hd : Coupled dom) (hn : IsNew cod dom new)
    (a : FEnts K) (ha : FSane cod dom a) (f : Mat K → Mat K)
    (hf : ∀ e ∈ a, ∀ m n, e.2.rows = m → e.2.cols = n → (f e.2).rows = m ∧ (f e.2).cols = min m n ∧
      (matOf (f e.2) m (min m n))ᴴ * matOf (f e.2) m (min m n) = 1) :
    FSane cod new (fLeftFull cod new f (fdecItems cod dom a)) ∧
    (∀ c, (matrixOf cod new (fLeftFull cod new f (fdecItems cod dom a)) c)ᴴ *
      matrixOf cod new (fLeftFull cod new f (fdecItems cod dom a)) c = 1) ∧
    ∀ c, ∀ e ∈ a, cod.sectors[e.1.1]? = some c →
      matrixOf cod new (fLeftFull cod new f (fdecItems cod dom a)) c = matOf (f e.2) (mult cod c) (mult new c) := by
  have H := items_ok hc hd hn a ha
  set items := fdecItems cod dom a
  have hnm : ∀ c, c ∈ new.sectors → mult new c = min (mult cod c) (mult dom c) := hn.mults
  obtain ⟨s1, s2⟩ := collect_spec hc hn.coupled items (fun it => (it.i, it.n))
    (fun it => some ((it.blk.map f).getD (fEye (cod.mults.getD it.i 0) (new.mults.getD it.n 0)))) false
    (H.order.imp fun h => ⟨h.1, h.2.2⟩) (fun it hit => by
      obtain ⟨c, c1, c2, c3, c4⟩ := H.sec it hit
      refine ⟨c, c1, c3, fun x hx => ?_⟩
      rw [← Option.some.inj hx]
      rcases c4 with ⟨e, m1, m2, m3⟩ | ⟨-, m2⟩
      · rw [m3]
        obtain ⟨c', d1, d2⟩ := ha.coupled e m1
        obtain rfl : c = c' := Option.some.inj (m2.symm.trans d1)
        obtain ⟨g1, g2⟩ := ha.shape e m1
        obtain ⟨f1, f2, -⟩ := hf e m1 _ _ rfl rfl
        rw [hnm c (List.mem_of_getElem? c3), mult_eq hc d1, mult_eq hd d2, ← g1, ← g2]
        exact ⟨f1, f2⟩
      · rw [m2, mult_eq hc c1, mult_eq hn.coupled c3]
        exact ⟨rfl, rfl⟩)
  have hval : ∀ c, ∀ e ∈ a, cod.sectors[e.1.1]? = some c →
      matrixOf cod new (fLeftFull cod new f items) c = matOf (f e.2) (mult cod c) (mult new c) := by
    intro c e he hec
    obtain ⟨c', d1, d2⟩ := ha.coupled e he
    obtain rfl : c = c' := Option.some.inj (hec.symm.trans d1)
    obtain ⟨it, i1, i2, i3, i4⟩ := H.all c (List.mem_of_getElem? d1) (List.mem_of_getElem? d2)
    refine (s2 it i1 c i2).trans ?_
    obtain ⟨c', k1, -, -, k4⟩ := H.sec it i1
    obtain rfl : c = c' := Option.some.inj (i2.symm.trans k1)
    rcases k4 with ⟨e', m1, m2, m3⟩ | ⟨m1, -⟩
    · have : e' = e := by
        refine List.inj_on_of_nodup_map (nodup_of_lt (ha.sorted0 hc hd)) m1 he ?_
        exact nodup_getElem? hc.nodup m2 hec
      subst this
      rw [m3]
      rfl
    · exact absurd hec (m1 e he)
  refine ⟨s1, fun c => ?_, hval⟩
  by_cases hcc : c ∈ cod.sectors ∧ c ∈ dom.sectors
  · obtain ⟨it, i1, i2, i3, i4⟩ := H.all c hcc.1 hcc.2
    obtain ⟨c', k1, -, -, k4⟩ := H.sec it i1
    obtain rfl : c = c' := Option.some.inj (i2.symm.trans k1)
    have hm := hnm c (List.mem_of_getElem? i4)
    rcases k4 with ⟨e, m1, m2, m3⟩ | ⟨m1, m2⟩
    · rw [hval c e m1 m2]
      obtain ⟨c', d1, d2⟩ := ha.coupled e m1
      obtain rfl : c = c' := Option.some.inj (m2.symm.trans d1)
      obtain ⟨g1, g2⟩ := ha.shape e m1
      rw [← mult_eq hc d1] at g1
      rw [← mult_eq hd d2] at g2
      have := (hf e m1 _ _ g1 g2).2.2
      rw [← hm] at this
      exact this
    · have e1 : matrixOf cod new (fLeftFull cod new f items) c =
          matOf (fEye (mult cod c) (mult new c)) (mult cod c) (mult new c) := by
        refine (s2 it i1 c i2).trans ?_
        rw [m2, mult_eq hc i2, mult_eq hn.coupled i4]
        rfl
      rw [e1]
      exact eyeCols_ortho (by omega)
  · exact matrix_zero_dim (new_zero hn hcc) _ _

/-- The right factor with identity rows. -/
theorem rightFull_ok [Semiring K] [StarRing K] (hc : Coupled cod) (hd : Coupled dom) (hn : IsNew cod dom new)
    (a : FEnts K) (ha : FSane cod dom a) (f : Mat K → Mat K)
    (hf : ∀ e ∈ a, ∀ m n, e.2.rows = m → e.2.cols = n → (f e.2).rows = min m n ∧ (f e.2).cols = n ∧
      matOf (f e.2) (min m n) n * (matOf (f e.2) (min m n) n)ᴴ = 1) :
    FSane new dom (fRightFull dom new f (fdecItems cod dom a)) ∧
    (∀ c, matrixOf new dom (fRightFull dom new f (fdecItems cod dom a)) c *
      (matrixOf new dom (fRightFull dom new f (fdecItems cod dom a)) c)ᴴ = 1) ∧
    ∀ c, ∀ e ∈ a, cod.sectors[e.1.1]? = some c →
      matrixOf new dom (fRightFull dom new f (fdecItems cod dom a)) c = matOf (f e.2) (mult new c) (mult dom c) := by
  have H := items_ok hc hd hn a ha
  set items := fdecItems cod dom a
  have hnm : ∀ c, c ∈ new.sectors → mult new c = min (mult cod c) (mult dom c) := hn.mults
  obtain ⟨s1, s2⟩ := collect_spec hn.coupled hd items (fun it => (it.n, it.j))
    (fun it => some ((it.blk.map f).getD (fEye (new.mults.getD it.n 0) (dom.mults.getD it.j 0)))) false
    (H.order.imp fun h => ⟨h.2.2, h.2.1⟩) (fun it hit => by
      obtain ⟨c, c1, c2, c3, c4⟩ := H.sec it hit
      refine ⟨c, c3, c2, fun x hx => ?_⟩
      rw [← Option.some.inj hx]
      rcases c4 with ⟨e, m1, m2, m3⟩ | ⟨-, m2⟩
      · rw [m3]
        obtain ⟨c', d1, d2⟩ := ha.coupled e m1
        obtain rfl : c = c' := Option.some.inj (m2.symm.trans d1)
        obtain ⟨g1, g2⟩ := ha.shape e m1
        obtain ⟨f1, f2, -⟩ := hf e m1 _ _ rfl rfl
        rw [hnm c (List.mem_of_getElem? c3), mult_eq hc d1, mult_eq hd d2, ← g1, ← g2]
        exact ⟨f1, f2⟩
      · rw [m2, mult_eq hd c2, mult_eq hn.coupled c3]
        exact ⟨rfl, rfl⟩)
  have hval : ∀ c, ∀ e ∈ a, cod.sectors[e.1.1]? = some c →
      matrixOf new dom (fRightFull dom new f items) c = matOf (f e.2) (mult new c) (mult dom c) := by
    intro c e he hec
    obtain ⟨c', d1, d2⟩ := ha.coupled e he
    obtain rfl : c = c' := Option.some.inj (hec.symm.trans d1)
    obtain ⟨it, i1, i2, i3, i4⟩ := H.all c (List.mem_of_getElem? d1) (List.mem_of_getElem? d2)
    refine (s2 it i1 c i4).trans ?_
    obtain ⟨c', k1, -, -, k4⟩ := H.sec it i1
    obtain rfl : c = c' := Option.some.inj (i2.symm.trans k1)
    rcases k4 with ⟨e', m1, m2, m3⟩ | ⟨m1, -⟩
    · have : e' = e := by
        refine List.inj_on_of_nodup_map (nodup_of_lt (ha.sorted0 hc hd)) m1 he ?_
        exact nodup_getElem? hc.nodup m2 hec
      subst this
      rw [m3]
      rfl
    · exact absurd hec (m1 e he)
  refine ⟨s1, fun c => ?_, hval⟩
  by_cases hcc : c ∈ cod.sectors ∧ c ∈ dom.sectors
  · obtain ⟨it, i1, i2, i3, i4⟩ := H.all c hcc.1 hcc.2
    obtain ⟨c', k1, -, -, k4⟩ := H.sec it i1
    obtain rfl : c = c' := Option.some.inj (i2.symm.trans k1)
    have hm := hnm c (List.mem_of_getElem? i4)
    rcases k4 with ⟨e, m1, m2, m3⟩ | ⟨m1, m2⟩
    · rw [hval c e m1 m2]
      obtain ⟨c', d1, d2⟩ := ha.coupled e m1
      obtain rfl : c = c' := Option.some.inj (m2.symm.trans d1)
      obtain ⟨g1, g2⟩ := ha.shape e m1
      rw [← mult_eq hc d1] at g1
      rw [← mult_eq hd d2] at g2
      have := (hf e m1 _ _ g1 g2).2.2
      rw [← hm] at this
      exact this
    · have e1 : matrixOf new dom (fRightFull dom new f items) c =
          matOf (fEye (mult new c) (mult dom c)) (mult new c) (mult dom c) := by
        refine (s2 it i1 c i4).trans ?_
        rw [m2, mult_eq hd i3, mult_eq hn.coupled i4]
        rfl
      rw [e1]
      exact eyeRows_ortho (by omega)
  · exact matrix_zero_dim (new_zero hn hcc) _ _

/-- A factor with blocks only where the tensor has blocks. -/
theorem rightPart_ok [AddCommMonoid K] (hc : Coupled cod) (hd : Coupled dom) (hn : IsNew cod dom new)
    (a : FEnts K) (ha : FSane cod dom a) (f : Mat K → Mat K) (b : Bool)
    (hf : ∀ e ∈ a, ∀ m n, e.2.rows = m → e.2.cols = n → (f e.2).rows = min m n ∧ (f e.2).cols = n) :
    let R := collect (fdecItems cod dom a) (fun it => (it.n, it.j)) (fun it => it.blk.map f) b
    FSane new dom R ∧
    (∀ c, ∀ e ∈ a, cod.sectors[e.1.1]? = some c → matrixOf new dom R c = matOf (f e.2) (mult new c) (mult dom c)) ∧
    (∀ c, (∀ e ∈ a, cod.sectors[e.1.1]? ≠ some c) → matrixOf new dom R c = 0) := by
  intro R
  have H := items_ok hc hd hn a ha
  obtain ⟨s1, s2⟩ := collect_spec hn.coupled hd (fdecItems cod dom a) (fun it => (it.n, it.j))
    (fun it => it.blk.map f) b (H.order.imp fun h => ⟨h.2.2, h.2.1⟩) (fun it hit => by
      obtain ⟨c, c1, c2, c3, c4⟩ := H.sec it hit
      refine ⟨c, c3, c2, fun x hx => ?_⟩
      rcases c4 with ⟨e, m1, m2, m3⟩ | ⟨-, m2⟩
      · rw [m3] at hx
        rw [← Option.some.inj hx]
        obtain ⟨c', d1, d2⟩ := ha.coupled e m1
        obtain rfl : c = c' := Option.some.inj (m2.symm.trans d1)
        obtain ⟨g1, g2⟩ := ha.shape e m1
        rw [hn.mults c (List.mem_of_getElem? c3), mult_eq hc d1, mult_eq hd d2, ← g1, ← g2]
        exact hf e m1 _ _ rfl rfl
      · rw [m2] at hx
        exact absurd hx (by simp))
  refine ⟨s1, fun c e he hec => ?_, fun c hec => ?_⟩
  · obtain ⟨c', d1, d2⟩ := ha.coupled e he
    obtain rfl : c = c' := Option.some.inj (hec.symm.trans d1)
    obtain ⟨it, i1, i2, i3, i4⟩ := H.all c (List.mem_of_getElem? d1) (List.mem_of_getElem? d2)
    refine (s2 it i1 c i4).trans ?_
    obtain ⟨c', k1, -, -, k4⟩ := H.sec it i1
    obtain rfl : c = c' := Option.some.inj (i2.symm.trans k1)
    rcases k4 with ⟨e', m1, m2, m3⟩ | ⟨m1, -⟩
    · have : e' = e := by
        refine List.inj_on_of_nodup_map (nodup_of_lt (ha.sorted0 hc hd)) m1 he ?_
        exact nodup_getElem? hc.nodup m2 hec
      subst this
      rw [m3]
      rfl
    · exact absurd hec (m1 e he)
  · refine matrixOf_none fun e he hh => ?_
    obtain ⟨it, m1, m2, m3⟩ := (mem_collect _ _ _ _ _).1 he
    obtain ⟨c', k1, -, k3, k4⟩ := H.sec it m1
    rw [m2] at hh
    obtain rfl : c = c' := Option.some.inj (hh.symm.trans k3)
    rcases k4 with ⟨e', p1, p2, -⟩ | ⟨-, p2⟩
    · exact hec e' p1 p2
    · rw [p2] at m3
      exact absurd m3 (by simp)

/-- See `rightPart_ok`. -/
theorem leftPart_ok [AddCommMonoid K] (hc : Coupled cod) (hd : Coupled dom) (hn : IsNew cod dom new)
    (a : FEnts K) (ha : FSane cod dom a) (f : Mat K → Mat K) (b : Bool)
    (hf : ∀ e ∈ a, ∀ m n, e.2.rows = m → e.2.cols = n → (f e.2).rows = m ∧ (f e.2).cols = min m n) :
    let R := collect (fdecItems cod dom a) (fun it => (it.i, it.n)) (fun it => it.blk.map f) b
    FSane cod new R ∧
    (∀ c, ∀ e ∈ a, cod.sectors[e.1.1]? = some c → matrixOf cod new R c = matOf (f e.2) (mult cod c) (mult new c)) ∧
    (∀ c, (∀ e ∈ a, cod.sectors[e.1.1]? ≠ some c) → matrixOf cod new R c = 0) := by
  intro R
  have H := items_ok hc hd hn a ha
  obtain ⟨s1, s2⟩ := collect_spec hc hn.coupled (fdecItems cod dom a) (fun it => (it.i, it.n))
    (fun it => it.blk.map f) b (H.order.imp fun h => ⟨h.1, h.2.2⟩) (fun it hit => by
      obtain ⟨c, c1, c2, c3, c4⟩ := H.sec it hit
      refine ⟨c, c1, c3, fun x hx => ?_⟩
      rcases c4 with ⟨e, m1, m2, m3⟩ | ⟨-, m2⟩
      · rw [m3] at hx
        rw [← Option.some.inj hx]
        obtain ⟨c', d1, d2⟩ := ha.coupled e m1
        obtain rfl : c = c' := Option.some.inj (m2.symm.trans d1)
        obtain ⟨g1, g2⟩ := ha.shape e m1
        rw [hn.mults c (List.mem_of_getElem? c3), mult_eq hc d1, mult_eq hd d2, ← g1, ← g2]
        exact hf e m1 _ _ rfl rfl
      · rw [m2] at hx
        exact absurd hx (by simp))
  refine ⟨s1, fun c e he hec => ?_, fun c hec => ?_⟩
  · obtain ⟨c', d1, d2⟩ := ha.coupled e he
    obtain rfl : c = c' := Option.some.inj (hec.symm.trans d1)
    obtain ⟨it, i1, i2, i3, i4⟩ := H.all c (List.mem_of_getElem? d1) (List.mem_of_getElem? d2)
    refine (s2 it i1 c i2).trans ?_
    obtain ⟨c', k1, -, -, k4⟩ := H.sec it i1
    obtain rfl : c = c' := Option.some.inj (i2.symm.trans k1)
    rcases k4 with ⟨e', m1, m2, m3⟩ | ⟨m1, -⟩
    · have : e' = e := by
        refine List.inj_on_of_nodup_map (nodup_of_lt (ha.sorted0 hc hd)) m1 he ?_
        exact nodup_getElem? hc.nodup m2 hec
      subst this
      rw [m3]
      rfl
    · exact absurd hec (m1 e he)
  · refine matrixOf_none fun e he hh => ?_
    obtain ⟨it, m1, m2, m3⟩ := (mem_collect _ _ _ _ _).1 he
    obtain ⟨c', k1, -, k3, k4⟩ := H.sec it m1
    rw [m2] at hh
    obtain rfl : c = c' := Option.some.inj (hh.symm.trans k1)
    rcases k4 with ⟨e', p1, p2, -⟩ | ⟨-, p2⟩
    · exact hec e' p1 p2
    · rw [p2] at m3
      exact absurd m3 (by simp)

/-! ## The decompositions -/

/-- The shapes and the multiplicity on the new leg for a block. -/
theorem block_dims (hc : Coupled cod) (hd : Coupled dom) (hn : IsNew cod dom new) {a : FEnts K}
    (ha : FSane cod dom a) {e : (ℕ × ℕ) × Mat K} (he : e ∈ a) {c : S} (hec : cod.sectors[e.1.1]? = some c) :
    e.2.rows = mult cod c ∧ e.2.cols = mult dom c ∧ mult new c = min (mult cod c) (mult dom c) := by
  obtain ⟨c', d1, d2⟩ := ha.coupled e he
  obtain rfl : c = c' := Option.some.inj (hec.symm.trans d1)
  obtain ⟨g1, g2⟩ := ha.shape e he
  exact ⟨by rw [g1, mult_eq hc d1], by rw [g2, mult_eq hd d2],
    hn.mults c ((hn.common c).2 ⟨List.mem_of_getElem? d1, List.mem_of_getElem? d2⟩)⟩

/-- **C62** `qr` -/
theorem C62_qr [Semiring K] [StarRing K] (hc : Coupled cod) (hd : Coupled dom) (hn : IsNew cod dom new)
    (a : FEnts K) (ha : FSane cod dom a) (f : Mat K → Mat K × Mat K)
    (hf : ∀ e ∈ a, ∀ m n, e.2.rows = m → e.2.cols = n → Factors m n e.2 (f e.2).1 (f e.2).2 ∧
      (matOf (f e.2).1 m (min m n))ᴴ * matOf (f e.2).1 m (min m n) = 1) :
    FSane cod new (fqr cod dom new f a).1 ∧ FSane new dom (fqr cod dom new f a).2 ∧
    ∀ c, matrixOf cod new (fqr cod dom new f a).1 c * matrixOf new dom (fqr cod dom new f a).2 c =
        matrixOf cod dom a c ∧
      (matrixOf cod new (fqr cod dom new f a).1 c)ᴴ * matrixOf cod new (fqr cod dom new f a).1 c = 1 := by
  obtain ⟨l1, l2, l3⟩ := leftFull_ok hc hd hn a ha (fun b => (f b).1)
    (fun e he m n h1 h2 => ⟨(hf e he m n h1 h2).1.left.1, (hf e he m n h1 h2).1.left.2, (hf e he m n h1 h2).2⟩)
  obtain ⟨r1, r2, r3⟩ := rightPart_ok hc hd hn a ha (fun b => (f b).2) false
    (fun e he m n h1 h2 => (hf e he m n h1 h2).1.right)
  have hQ : (fqr cod dom new f a).1 = fLeftFull cod new (fun b => (f b).1) (fdecItems cod dom a) := rfl
  have hR : (fqr cod dom new f a).2 = collect (fdecItems cod dom a) (fun it => (it.n, it.j))
    (fun it => it.blk.map fun b => (f b).2) false := rfl
  refine ⟨l1, r1, fun c => ⟨?_, l2 c⟩⟩
  by_cases hb : ∃ e ∈ a, cod.sectors[e.1.1]? = some c
  · obtain ⟨e, he, hec⟩ := hb
    obtain ⟨b1, b2, b3⟩ := block_dims hc hd hn ha he hec
    rw [matrixOf_mem ha hc hd he hec]
    rw [hQ, hR]
    rw [l3 c e he hec, r2 c e he hec]
    have := (hf e he _ _ b1 b2).1.product
    rw [← b3] at this
    exact this
  · push Not at hb
    rw [matrixOf_none hb]
    rw [hQ, hR]
    rw [r3 c hb]
    exact Matrix.mul_zero _

/-- **C62** `lq` -/
theorem C62_lq [Semiring K] [StarRing K] (hc : Coupled cod) (hd : Coupled dom) (hn : IsNew cod dom new)
    (a : FEnts K) (ha : FSane cod dom a) (f : Mat K → Mat K × Mat K)
    (hf : ∀ e ∈ a, ∀ m n, e.2.rows = m → e.2.cols = n → Factors m n e.2 (f e.2).1 (f e.2).2 ∧
      matOf (f e.2).2 (min m n) n * (matOf (f e.2).2 (min m n) n)ᴴ = 1) :
    FSane cod new (flq cod dom new f a).1 ∧ FSane new dom (flq cod dom new f a).2 ∧
    ∀ c, matrixOf cod new (flq cod dom new f a).1 c * matrixOf new dom (flq cod dom new f a).2 c =
        matrixOf cod dom a c ∧
      matrixOf new dom (flq cod dom new f a).2 c * (matrixOf new dom (flq cod dom new f a).2 c)ᴴ = 1 := by
  obtain ⟨l1, l2, l3⟩ := rightFull_ok hc hd hn a ha (fun b => (f b).2)
    (fun e he m n h1 h2 => ⟨(hf e he m n h1 h2).1.right.1, (hf e he m n h1 h2).1.right.2, (hf e he m n h1 h2).2⟩)
  obtain ⟨r1, r2, r3⟩ := leftPart_ok hc hd hn a ha (fun b => (f b).1) true
    (fun e he m n h1 h2 => (hf e he m n h1 h2).1.left)
  have hQ : (flq cod dom new f a).1 = collect (fdecItems cod dom a) (fun it => (it.i, it.n))
    (fun it => it.blk.map fun b => (f b).1) true := rfl
  have hR : (flq cod dom new f a).2 = fRightFull dom new (fun b => (f b).2) (fdecItems cod dom a) := rfl
  refine ⟨r1, l1, fun c => ⟨?_, l2 c⟩⟩
  by_cases hb : ∃ e ∈ a, cod.sectors[e.1.1]? = some c
  · obtain ⟨e, he, hec⟩ := hb
    obtain ⟨b1, b2, b3⟩ := block_dims hc hd hn ha he hec
    rw [matrixOf_mem ha hc hd he hec]
    rw [hQ, hR]
    rw [l3 c e he hec, r2 c e he hec]
    have := (hf e he _ _ b1 b2).1.product
    rw [← b3] at this
    exact this
  · push Not at hb
    rw [matrixOf_none hb]
    rw [hQ, hR]
    rw [r3 c hb]
    exact Matrix.zero_mul _

theorem diagOf_mem [Semiring K] {t : BLeg S} (ht : Coupled t) {D : List ((ℕ × ℕ) × List K)} (hD : FDSane t D)
    {c : S} {e : (ℕ × ℕ) × List K} (he : e ∈ D) (hs : t.sectors[e.1.1]? = some c) :
    diagOf t D c = diagMat e.2 (mult t c) := by
  unfold diagOf
  cases h : D.find? (fun e => t.sectors[e.1.1]? == some c) with
  | none =>
    have := List.find?_eq_none.1 h e he
    simp [hs] at this
  | some e' =>
    have h1 := List.mem_of_find?_eq_some h
    have h2 : t.sectors[e'.1.1]? = some c := by simpa using List.find?_some h
    have h3 := nodup_getElem? ht.nodup h2 hs
    have : e' = e := by
      refine List.inj_on_of_nodup_map (nodup_of_lt hD.sorted) h1 he ?_
      rw [← (hD.diag e' h1).1, ← (hD.diag e he).1, h3]
    rw [this]

theorem diagMat_nil [Semiring K] (k : ℕ) : diagMat ([] : List K) k = 0 := by
  unfold diagMat
  ext i j
  simp [Matrix.diagonal_apply]

theorem diagOf_none [Semiring K] {t : BLeg S} {D : List ((ℕ × ℕ) × List K)} {c : S}
    (hs : ∀ e ∈ D, t.sectors[e.1.1]? ≠ some c) : diagOf t D c = 0 := by
  unfold diagOf
  rw [List.find?_eq_none.2 fun e he => by simpa using hs e he]
  exact diagMat_nil _

/-- **C62** `svd` -/
theorem C62_svd [Semiring K] [StarRing K] (hc : Coupled cod) (hd : Coupled dom) (hn : IsNew cod dom new)
    (a : FEnts K) (ha : FSane cod dom a) (f : Mat K → Mat K × List K × Mat K)
    (hf : ∀ e ∈ a, ∀ m n, e.2.rows = m → e.2.cols = n → IsSVD m n e.2 (f e.2).1 (f e.2).2.1 (f e.2).2.2) :
    FSane cod new (fsvd cod dom new f a).1 ∧ FDSane new (fsvd cod dom new f a).2.1 ∧
    FSane new dom (fsvd cod dom new f a).2.2 ∧
    (∀ c, matrixOf cod new (fsvd cod dom new f a).1 c * diagOf new (fsvd cod dom new f a).2.1 c *
        matrixOf new dom (fsvd cod dom new f a).2.2 c = matrixOf cod dom a c ∧
      (matrixOf cod new (fsvd cod dom new f a).1 c)ᴴ * matrixOf cod new (fsvd cod dom new f a).1 c = 1 ∧
      matrixOf new dom (fsvd cod dom new f a).2.2 c * (matrixOf new dom (fsvd cod dom new f a).2.2 c)ᴴ = 1) ∧
    ∀ e ∈ (fsvd cod dom new f a).2.1, ∃ e' ∈ a, e.2 = (f e'.2).2.1 := by
  have H := items_ok hc hd hn a ha
  obtain ⟨l1, l2, l3⟩ := leftFull_ok hc hd hn a ha (fun b => (f b).1)
    (fun e he m n h1 h2 => ⟨(hf e he m n h1 h2).left.1, (hf e he m n h1 h2).left.2, (hf e he m n h1 h2).cols⟩)
  obtain ⟨r1, r2, r3⟩ := rightFull_ok hc hd hn a ha (fun b => (f b).2.2)
    (fun e he m n h1 h2 => ⟨(hf e he m n h1 h2).right.1, (hf e he m n h1 h2).right.2, (hf e he m n h1 h2).rows⟩)
  have hU : (fsvd cod dom new f a).1 = fLeftFull cod new (fun b => (f b).1) (fdecItems cod dom a) := rfl
  have hS : (fsvd cod dom new f a).2.1 = collect (fdecItems cod dom a) (fun it => (it.n, it.n))
    (fun it => it.blk.map fun b => (f b).2.1) false := rfl
  have hV : (fsvd cod dom new f a).2.2 = fRightFull dom new (fun b => (f b).2.2) (fdecItems cod dom a) := rfl
  have hmem : ∀ e ∈ (fsvd cod dom new f a).2.1, ∃ it ∈ fdecItems cod dom a, e.1 = (it.n, it.n) ∧
      ∃ e' ∈ a, ∃ c, cod.sectors[e'.1.1]? = some c ∧ new.sectors[it.n]? = some c ∧ e.2 = (f e'.2).2.1 := by
    intro e he
    rw [hS] at he
    obtain ⟨it, m1, m2, m3⟩ := (mem_collect _ _ _ _ _).1 he
    obtain ⟨c, c1, c2, c3, c4⟩ := H.sec it m1
    rcases c4 with ⟨e', p1, p2, p3⟩ | ⟨-, p2⟩
    · rw [p3] at m3
      exact ⟨it, m1, m2, e', p1, c, p2, c3, (Option.some.inj m3).symm⟩
    · rw [p2] at m3
      exact absurd m3 (by simp)
  have hD : FDSane new (fsvd cod dom new f a).2.1 := by
    refine ⟨fun e he => ?_, fun e he => ?_, ?_⟩
    · obtain ⟨it, m1, m2, e', p1, c, p2, p3, p4⟩ := hmem e he
      rw [m2]
      exact ⟨rfl, (List.getElem?_eq_some_iff.1 p3).1⟩
    · obtain ⟨it, m1, m2, e', p1, c, p2, p3, p4⟩ := hmem e he
      obtain ⟨b1, b2, b3⟩ := block_dims hc hd hn ha p1 p2
      rw [m2, p4, ← mult_eq hn.coupled p3, b3]
      exact (hf e' p1 _ _ b1 b2).values
    · obtain ⟨q1, q2⟩ := collect_eq (fdecItems cod dom a) (fun it => (it.n, it.n))
        (fun it => it.blk.map fun b => (f b).2.1) false (H.order.imp fun h => h.2.2)
      rw [hS, q1]
      exact q2
  refine ⟨l1, hD, r1, fun c => ⟨?_, l2 c, r2 c⟩, fun e he => ?_⟩
  · by_cases hb : ∃ e ∈ a, cod.sectors[e.1.1]? = some c
    · obtain ⟨e, he, hec⟩ := hb
      obtain ⟨b1, b2, b3⟩ := block_dims hc hd hn ha he hec
      obtain ⟨c', d1, d2⟩ := ha.coupled e he
      obtain rfl : c = c' := Option.some.inj (hec.symm.trans d1)
      obtain ⟨it, i1, i2, i3, i4⟩ := H.all c (List.mem_of_getElem? d1) (List.mem_of_getElem? d2)
      have hs : diagOf new (fsvd cod dom new f a).2.1 c = diagMat (f e.2).2.1 (mult new c) := by
        refine diagOf_mem hn.coupled hD (e := ((it.n, it.n), (f e.2).2.1)) ?_ i4
        rw [hS]
        refine (mem_collect _ _ _ _ _).2 ⟨it, i1, rfl, ?_⟩
        obtain ⟨c', k1, -, -, k4⟩ := H.sec it i1
        obtain rfl : c = c' := Option.some.inj (i2.symm.trans k1)
        rcases k4 with ⟨e', m1, m2, m3⟩ | ⟨m1, -⟩
        · have : e' = e := by
            refine List.inj_on_of_nodup_map (nodup_of_lt (ha.sorted0 hc hd)) m1 he ?_
            exact nodup_getElem? hc.nodup m2 hec
          subst this
          rw [m3]
          rfl
        · exact absurd hec (m1 e he)
      rw [matrixOf_mem ha hc hd he hec, hs]
      rw [hU, hV]
      rw [l3 c e he hec, r3 c e he hec]
      have := (hf e he _ _ b1 b2).product
      rw [← b3] at this
      exact this
    · push Not at hb
      have hs : diagOf new (fsvd cod dom new f a).2.1 c = 0 := by
        refine diagOf_none fun e he hh => ?_
        obtain ⟨it, m1, m2, e', p1, c', p2, p3, p4⟩ := hmem e he
        rw [m2] at hh
        obtain rfl : c = c' := Option.some.inj (hh.symm.trans p3)
        exact hb e' p1 p2
      rw [matrixOf_none hb, hs, Matrix.mul_zero, Matrix.zero_mul]
  · obtain ⟨it, m1, m2, e', p1, c, p2, p3, p4⟩ := hmem e he
    exact ⟨e', p1, p4⟩

/-! ## Eigenvalue decomposition -/

theorem feighLoop_spec [Zero K] [One K] (f : Mat K → List K × Mat K) (t : BLeg S) (n i : ℕ) (D : FEnts K)
    (hs : (D.map fun e => e.1.1).Pairwise (· < ·)) (hi : ∀ e ∈ D, i ≤ e.1.1) :
    ∃ blk : ℕ → Mat K, feighLoop t f i D n = (List.range' i n).map (fun k => ((k, k), blk k)) ∧
      ∀ k, (∃ e ∈ D, e.1.1 = k ∧ blk k = (f e.2).2) ∨
        ((∀ e ∈ D, e.1.1 ≠ k) ∧ blk k = Mat.eye (t.mults.getD k 0)) := by
  refine ⟨fun k => ((D.find? fun e => e.1.1 == k).map fun e => (f e.2).2).getD (Mat.eye (t.mults.getD k 0)), ?_,
    fun k => ?_⟩
  · induction n generalizing i D with
    | zero => cases D <;> rfl
    | succ n ih =>
      rw [List.range'_succ, List.map_cons]
      cases D with
      | nil =>
        unfold feighLoop
        rw [ih (i + 1) [] (by simp) (by simp)]
        rfl
      | cons e es =>
        unfold feighLoop
        rw [List.map_cons, List.pairwise_cons] at hs
        have hes : ∀ e' ∈ es, e.1.1 < e'.1.1 := fun e' h => hs.1 _ (List.mem_map_of_mem h)
        by_cases he : i = e.1.1
        · rw [if_pos he, ih (i + 1) es hs.2 (fun e' h => by have := hes e' h; omega)]
          congr 1
          · show _ = ((i, i), (((e :: es).find? fun e => e.1.1 == i).map fun e => (f e.2).2).getD _)
            rw [List.find?_cons_of_pos (by simp [he])]
            rfl
          · refine List.map_congr_left fun k hk => ?_
            have hk := List.mem_range'_1.1 hk
            show _ = ((k, k), (((e :: es).find? fun e => e.1.1 == k).map fun e => (f e.2).2).getD _)
            rw [List.find?_cons_of_neg (by simp; omega)]
        · rw [if_neg he, ih (i + 1) (e :: es) (by rw [List.map_cons]; exact List.pairwise_cons.2 hs) (fun e' h => by
            have h1 := hi e (by simp)
            rcases List.mem_cons.1 h with rfl | h
            · omega
            · have := hes e' h; omega)]
          congr 1
          have : (e :: es).find? (fun e => e.1.1 == i) = none := by
            refine List.find?_eq_none.2 fun e' h => ?_
            have h1 := hi e (by simp)
            rcases List.mem_cons.1 h with rfl | h
            · simp; omega
            · have := hes e' h
              simp; omega
          show _ = ((i, i), (((e :: es).find? fun e => e.1.1 == i).map fun e => (f e.2).2).getD _)
          rw [this]
          rfl
  · cases h : D.find? (fun e => e.1.1 == k) with
    | some e =>
      exact Or.inl ⟨e, List.mem_of_find?_eq_some h, by simpa using List.find?_some h, by
        show (Option.map _ (D.find? _)).getD _ = _
        rw [h]
        rfl⟩
    | none => exact Or.inr ⟨fun e he => by simpa using List.find?_eq_none.1 h e he, by
        show (Option.map _ (D.find? _)).getD _ = _
        rw [h]
        rfl⟩

/-- **C62** `eigh` of a tensor whose codomain is its domain -/
theorem C62_eigh [Semiring K] [StarRing K] {t : BLeg S} (ht : Coupled t) (a : FEnts K) (ha : FSane t t a)
    (f : Mat K → List K × Mat K)
    (hf : ∀ e ∈ a, ∀ m, e.2.rows = m → e.2.cols = m → IsEigh m e.2 (f e.2).1 (f e.2).2) :
    FDSane t (feigh t f a).1 ∧ FSane t t (feigh t f a).2 ∧
    ∀ c, matrixOf t t (feigh t f a).2 c * diagOf t (feigh t f a).1 c * (matrixOf t t (feigh t f a).2 c)ᴴ =
        matrixOf t t a c ∧
      (matrixOf t t (feigh t f a).2 c)ᴴ * matrixOf t t (feigh t f a).2 c = 1 ∧
      matrixOf t t (feigh t f a).2 c * (matrixOf t t (feigh t f a).2 c)ᴴ = 1 := by
  obtain ⟨blk, h1, h2⟩ := feighLoop_spec f t t.sectors.length 0 a (ha.sorted0 ht ht) (by simp)
  have hdg : ∀ e ∈ a, e.1.1 = e.1.2 := by
    intro e he
    obtain ⟨c, c1, c2⟩ := ha.coupled e he
    exact nodup_getElem? ht.nodup c1 c2
  have hsq : ∀ e ∈ a, e.2.rows = t.mults.getD e.1.1 0 ∧ e.2.cols = t.mults.getD e.1.1 0 := by
    intro e he
    have := ha.shape e he
    rw [← hdg e he] at this
    exact this
  have hsane0 : FSane t t (feighLoop t f 0 a t.sectors.length) := by
    rw [h1]
    refine diag_sane _ ?_ ?_
    · rw [List.map_map, List.range_eq_range']
      rfl
    · intro e he
      obtain ⟨i, hi, rfl⟩ := List.mem_map.1 he
      rcases h2 i with ⟨e, he', rfl, hb⟩ | ⟨-, hb⟩
      · show (blk e.1.1).rows = _ ∧ (blk e.1.1).cols = _
        rw [hb]
        exact (hf e he' _ (hsq e he').1 (hsq e he').2).vectors
      · show (blk i).rows = _ ∧ (blk i).cols = _
        rw [hb]
        exact ⟨rfl, rfl⟩
  have heq : (feigh t f a).2 = feighLoop t f 0 a t.sectors.length := mkData_of_sorted _ hsane0.sorted
  have hD : FDSane t (feigh t f a).1 := by
    show FDSane t (a.map fun e => (e.1, (f e.2).1))
    refine ⟨fun e he => ?_, fun e he => ?_, ?_⟩
    · obtain ⟨p, hp, rfl⟩ := List.mem_map.1 he
      exact ⟨hdg p hp, ha.lt p hp⟩
    · obtain ⟨p, hp, rfl⟩ := List.mem_map.1 he
      exact (hf p hp _ (hsq p hp).1 (hsq p hp).2).values
    · rw [List.map_map]
      exact ha.sorted
  refine ⟨hD, heq ▸ hsane0, fun c => ?_⟩
  rw [heq]
  by_cases hcm : c ∈ t.sectors
  · obtain ⟨i, e1⟩ := List.getElem?_of_mem hcm
    have hil := (List.getElem?_eq_some_iff.1 e1).1
    rw [matrixOf_mem hsane0 ht ht (e := ((i, i), blk i))
      (by rw [h1]; exact List.mem_map.2 ⟨i, List.mem_range'_1.2 (by omega), rfl⟩) e1]
    rcases h2 i with ⟨e, he, he1, hb⟩ | ⟨hn, hb⟩
    · subst he1
      rw [matrixOf_mem ha ht ht he e1, diagOf_mem ht hD (e := (e.1, (f e.2).1)) (List.mem_map_of_mem he) e1]
      obtain ⟨g1, g2⟩ := hsq e he
      rw [← mult_eq ht e1] at g1 g2
      have := hf e he _ g1 g2
      show matOf (blk e.1.1) _ _ * _ * (matOf (blk e.1.1) _ _)ᴴ = _ ∧ (matOf (blk e.1.1) _ _)ᴴ * matOf (blk e.1.1) _ _ = 1 ∧
        matOf (blk e.1.1) _ _ * (matOf (blk e.1.1) _ _)ᴴ = 1
      rw [hb]
      exact ⟨this.product, this.cols, this.rows⟩
    · have hnone : ∀ e ∈ a, t.sectors[e.1.1]? ≠ some c := fun e he hh => hn e he (nodup_getElem? ht.nodup hh e1)
      have hz : diagOf t (feigh t f a).1 c = 0 := by
        refine diagOf_none fun e he => ?_
        obtain ⟨p, hp, rfl⟩ := List.mem_map.1 he
        exact hnone p hp
      have hone : matOf (blk i) (mult t c) (mult t c) = 1 := by
        rw [hb]
        ext x y
        show (if (x : ℕ) = y then (1 : K) else 0) = _
        simp [Matrix.one_apply, Fin.ext_iff]
      show matOf (blk i) _ _ * _ * (matOf (blk i) _ _)ᴴ = _ ∧ (matOf (blk i) _ _)ᴴ * matOf (blk i) _ _ = 1 ∧
        matOf (blk i) _ _ * (matOf (blk i) _ _)ᴴ = 1
      rw [matrixOf_none hnone, hz, hone]
      simp
  · have hz : mult t c = 0 := by
      unfold mult
      rw [List.idxOf_eq_length hcm, ht.len]
      simp
    exact ⟨matrix_zero_dim hz _ _, matrix_zero_dim hz _ _, matrix_zero_dim hz _ _⟩


/-! ## The new leg -/

theorem multOf_mult {t : BLeg S} (ht : Coupled t) (c : S) : Cyten.Spaces.Spec.multOf t.sectors t.mults c = mult t c := by
  by_cases hc : c ∈ t.sectors
  · obtain ⟨i, hi⟩ := List.getElem?_of_mem hc
    obtain ⟨hi1, rfl⟩ := List.getElem?_eq_some_iff.1 hi
    have hi' : i < t.mults.length := by rw [← ht.len]; exact hi1
    have hz : (t.sectors.zip t.mults).map Prod.fst = t.sectors := List.map_fst_zip (by rw [ht.len])
    have hzn : (t.sectors.zip t.mults).Nodup := List.Nodup.of_map Prod.fst (by rw [hz]; exact ht.nodup)
    have hmem : (t.sectors[i], t.mults[i]) ∈ t.sectors.zip t.mults :=
      List.mem_iff_getElem.2 ⟨i, by simp; omega, by simp⟩
    rw [mult_eq ht hi]
    unfold Cyten.Spaces.Spec.multOf
    rw [sum_single' _ hzn _ hmem]
    · rw [if_pos rfl, List.getD_eq_getElem _ _ hi']
    · rintro ⟨x, y⟩ hx hne
      rw [if_neg]
      rintro rfl
      exact hne (List.inj_on_of_nodup_map (by rw [hz]; exact ht.nodup) hx hmem rfl)
  · rw [Props.multOf_of_not_mem hc]
    unfold mult
    rw [List.idxOf_eq_length hc, ht.len]
    simp

theorem mult_pos {t : BLeg S} (ht : Coupled t) (hp : ∀ m ∈ t.mults, 0 < m) (c : S) :
    c ∈ t.sectors ↔ 0 < mult t c := by
  constructor
  · intro hc
    obtain ⟨i, hi⟩ := List.getElem?_of_mem hc
    have hi' : i < t.mults.length := by rw [← ht.len]; exact (List.getElem?_eq_some_iff.1 hi).1
    rw [mult_eq ht hi, List.getD_eq_getElem _ _ hi']
    exact hp _ (List.getElem_mem hi')
  · intro h
    by_contra hc
    unfold mult at h
    rw [List.idxOf_eq_length hc, ht.len] at h
    simp at h

/-- **C62**: the leg that `_decomposition_prepare` creates exists, and the (co)domain that consists of it has the
common coupled sectors with the smaller multiplicities. -/
theorem C62_new_leg {sym : Sym S} (hdim : Props.DimOK sym) (hdd : Function.Involutive sym.dual)
    (hc : Coupled cod) (hd : Coupled dom) (hpc : ∀ m ∈ cod.mults, 0 < m) (hpd : ∀ m ∈ dom.mults, 0 < m)
    (isDual : Bool) :
    ∃ l, fNewLeg sym cod dom isDual = some l ∧ l.isDual = isDual ∧ IsNew cod dom (tpOne sym l) := by
  have v : ∀ t : BLeg S, Coupled t → (∀ m ∈ t.mults, 0 < m) →
      Props.ValidData sym ⟨t.sectors, t.mults, some .sorted⟩ := fun t ht hp =>
    ⟨ht.len.symm, ht.nodup, hp, fun _ => ht.sorted, by simp⟩
  unfold fNewLeg
  rw [largestCommon]
  obtain ⟨l, h1, h2, h3, h4, -, h5⟩ := Props.common2 sym hdim hdd _ _ (v cod hc hpc) (v dom hd hpd) isDual
  obtain ⟨w1, w2⟩ := Props.tp_valid h2 hdd.injective h4
  have ht : Coupled (tpOne sym l) := ⟨w1.sorted rfl, w1.lengths.symm⟩
  have hm : ∀ c, mult (tpOne sym l) c = min (mult cod c) (mult dom c) := by
    intro c
    rw [← multOf_mult ht, ← multOf_mult hc, ← multOf_mult hd]
    exact (w2 c).trans (h5 c)
  refine ⟨l, h1, h3, ht, fun c => ?_, fun c _ => hm c⟩
  have hpl : ∀ m ∈ (tpOne sym l).mults, 0 < m := w1.pos
  rw [mult_pos ht hpl, hm, mult_pos hc hpc, mult_pos hd hpd]
  omega

/-- **C62**: composing the factors of `qr` gives the tensor, and composing the adjoint of the isometry with it
gives the identity, as tensors. -/
theorem C62_qr_compose [Semiring K] [StarRing K] (hc : Coupled cod) (hd : Coupled dom) (hn : IsNew cod dom new)
    (a : FEnts K) (ha : FSane cod dom a) (f : Mat K → Mat K × Mat K)
    (hf : ∀ e ∈ a, ∀ m n, e.2.rows = m → e.2.cols = n → Factors m n e.2 (f e.2).1 (f e.2).2 ∧
      (matOf (f e.2).1 m (min m n))ᴴ * matOf (f e.2).1 m (min m n) = 1) (c : S) :
    matrixOf cod dom (compose (fqr cod dom new f a).1 (fqr cod dom new f a).2) c = matrixOf cod dom a c ∧
    matrixOf new new (compose (dagger (fqr cod dom new f a).1) (fqr cod dom new f a).1) c =
      matrixOf new new (eyeData (K := K) new) c := by
  obtain ⟨q1, q2, q3⟩ := C62_qr hc hd hn a ha f hf
  obtain ⟨d1, d2⟩ := C61_dagger hc hn.coupled _ q1
  rw [(C61_compose hc hn.coupled hd _ _ q1 q2).2 c, (C61_compose hn.coupled hc hn.coupled _ _ d1 q1).2 c,
    (C61_eye hn.coupled).2 c, d2 c]
  exact q3 c

/-! ## A case that meets the hypotheses -/

/-- The space between the factors for `exCod`, `exDom`. -/
def exNew : BLeg ℕ := { sectors := [2, 5], mults := [1, 1] }

example : IsNew exCod exDom exNew := by
  refine ⟨⟨by decide, rfl⟩, fun c => ?_, fun c hc => ?_⟩
  · simp [exNew, exCod, exDom]
    omega
  · simp [exNew] at hc
    rcases hc with rfl | rfl <;> decide

/-- The block of `exData` is `1 × 2`: the first factor is the number one. -/
def exF (b : Mat ℤ) : Mat ℤ × Mat ℤ := (⟨1, 1, fun _ _ => 1⟩, b)

example : ∀ e ∈ exData, ∀ m n, e.2.rows = m → e.2.cols = n → Factors m n e.2 (exF e.2).1 (exF e.2).2 ∧
    (matOf (exF e.2).1 m (min m n))ᴴ * matOf (exF e.2).1 m (min m n) = 1 := by
  intro e he m n h1 h2
  simp only [exData, List.mem_singleton] at he
  subst he
  obtain rfl : 1 = m := h1
  obtain rfl : 2 = n := h2
  refine ⟨⟨⟨rfl, rfl⟩, ⟨rfl, rfl⟩, ?_⟩, ?_⟩
  · decide
  · decide

example : (fqr exCod exDom exNew exF exData).1.map (fun e => (e.1, e.2.rows, e.2.cols)) =
    [((1, 0), 1, 1), ((2, 1), 1, 1)] := by decide

example : (fqr exCod exDom exNew exF exData).2.map (fun e => (e.1, e.2.rows, e.2.cols)) = [((0, 0), 1, 2)] := by
  decide

end
end Cyten.FT
