import Verif.Lemmas.Charged
import Verif.Lemmas.AbelianHistory
import Verif.Lemmas.AbelianGrid2
import Verif.Props.AbelianCompare
import Verif.Props.AbelianHistory

/-!
# C84: operations on charged tensors act on the dense tensors they represent

A charged tensor stands for its invariant part with the charge leg contracted with the charged state:
`Charged.toDense`, with the entries described by `C84_to_dense`.
-/

namespace Cyten.Abelian.Spec
open Cyten.Abelian Cyten.Tables Cyten.Tools Cyten.Spaces Cyten.Props

/-- A consistent charged tensor. -/
structure Charged.Valid {S : Type} [LinearOrder S] (sym : Sym S) (R : Cyten.FusionRule S) (t : Charged S) :
    Prop where
  legs : DenseOK sym (t.cod ++ (t.charge :: t.dom).reverse)
  hom : IsHom R (t.cod.map (toBLeg sym)) ((t.charge :: t.dom).map (toBLeg sym)) t.data
  length : ∀ s, t.state = some s → s.length = t.charge.dim sym
  dtype : t.real = true → ∀ s, t.state = some s → ∀ z ∈ s, z.im = 0

/-- The public multi-indices of a list of legs. -/
def indices {S : Type} (sym : Sym S) (legs : List (ESpace S)) : List (List ℕ) :=
  gridC (legs.map (ESpace.dim sym))

end Cyten.Abelian.Spec

namespace Cyten.Props
open Cyten.Abelian Cyten.Abelian.Spec Cyten.Tables Cyten.Tools Cyten.ListSum Cyten.Spaces
open Cyten.FusionTrees

variable {S : Type} [LinearOrder S] {sym : Sym S} {R : Cyten.FusionRule S}

/-! ## Legs -/

theorem Charged.invLegs_eq (t : Charged S) : t.invLegs = t.legs ++ [t.charge] := by
  unfold Charged.invLegs Charged.legs
  rw [List.reverse_cons, List.append_assoc]

theorem legMults_append (a b : List (ESpace S)) : legMults (a ++ b) = legMults a ++ legMults b :=
  List.map_append

theorem multsOf_toBLeg (legs : List (ESpace S)) : multsOf (legs.map (toBLeg sym)) = legMults legs := by
  unfold multsOf legMults
  rw [List.map_map]
  rfl

theorem Charged.sane {t : Charged S} (h : Charged.Valid sym R t) : Sane (legMults t.invLegs) t.data := by
  have := h.hom.sane
  rw [multsOf_toBLeg, multsOf_toBLeg] at this
  unfold Charged.invLegs
  rw [legMults_append]
  simpa [legMults] using this

theorem denseOK_left {a b : List (ESpace S)} (h : DenseOK sym (a ++ b)) : DenseOK sym a :=
  ⟨h.dims, h.one, h.drop, fun e he => h.valid e (List.mem_append_left _ he)⟩

theorem denseOK_right {a b : List (ESpace S)} (h : DenseOK sym (a ++ b)) : DenseOK sym b :=
  ⟨h.dims, h.one, h.drop, fun e he => h.valid e (List.mem_append_right _ he)⟩

theorem Charged.denseOK {t : Charged S} (h : Charged.Valid sym R t) : DenseOK sym (t.legs ++ [t.charge]) := by
  rw [← Charged.invLegs_eq]; exact h.legs

/-- The state as a function on the basis of the charge leg: the entry at the public index of a basis
vector. -/
theorem exists_basis_state {e : ESpace S} (h : DenseOK sym [e]) (s : List ℂ) :
    ∃ g : List ℕ × List ℕ → ℂ, ∀ n b o, IsPosition sym e n b o → g ([b], [o]) = s.getD n 0 := by
  have : ∀ y : List ℕ × List ℕ, ∃ z : ℂ, ∀ n b o, IsPosition sym e n b o → y = ([b], [o]) → z = s.getD n 0 := by
    intro y
    by_cases hy : ∃ n b o, IsPosition sym e n b o ∧ y = ([b], [o])
    · obtain ⟨n, b, o, hp, rfl⟩ := hy
      refine ⟨s.getD n 0, fun n' b' o' hp' he => ?_⟩
      simp only [Prod.mk.injEq, List.cons.injEq, and_true] at he
      obtain ⟨rfl, rfl⟩ := he
      have := (C35_index_bijection sym [e] h).2.2.2 [n'] [n] [b] [o] ⟨hp', trivial⟩ ⟨hp, trivial⟩
      rw [List.cons.injEq] at this
      rw [this.1]
    · exact ⟨0, fun n b o hp he => absurd ⟨n, b, o, hp, he⟩ hy⟩
  choose g hg using this
  exact ⟨g, fun n b o hp => hg _ n b o hp rfl⟩

theorem invDense_shape {t : Charged S} (h : Charged.Valid sym R t) :
    (Abelian.toDense sym t.invLegs t.data).shape = t.legs.map (ESpace.dim sym) ++ [t.charge.dim sym] := by
  rw [(C35_to_dense sym t.invLegs h.legs _ (Charged.sane h)).1, Charged.invLegs_eq, List.map_append]
  rfl

theorem contractLast_shape (b : Blk ℂ) (sh : List ℕ) (d : ℕ) (hb : b.shape = sh ++ [d]) (s : List ℂ) :
    (Charged.contractLast b s).shape = sh := by
  unfold Charged.contractLast
  rw [hb]
  simp

theorem contractLast_val (b : Blk ℂ) (sh : List ℕ) (d : ℕ) (hb : b.shape = sh ++ [d]) (s : List ℂ)
    (idx : List ℕ) : (Charged.contractLast b s).val idx =
      ((List.range d).map fun n => b.val (idx ++ [n]) * s.getD n 0).sum := by
  unfold Charged.contractLast
  rw [hb]
  simp

/-! ## The dense tensor -/

/-- **C84**: `to_dense_block` raises without a state; else it has the dimensions of the legs as shape, and
its entries are those of the invariant part contracted with the state on the charge leg. -/
theorem C84_to_dense (t : Charged S) (h : Charged.Valid sym R t) :
    (t.state = none → t.toDense sym = none) ∧
    ∀ s, t.state = some s → ∃ D, t.toDense sym = some D ∧ D.shape = t.legs.map (ESpace.dim sym) ∧
      ∀ idx, D.val idx = ((List.range (t.charge.dim sym)).map fun n =>
        (Abelian.toDense sym (t.legs ++ [t.charge]) t.data).val (idx ++ [n]) * s.getD n 0).sum := by
  refine ⟨fun hs => by unfold Charged.toDense; rw [hs]; rfl, fun s hs => ⟨_, by unfold Charged.toDense; rw [hs]; rfl,
    contractLast_shape _ _ _ (invDense_shape h) _, fun idx => ?_⟩⟩
  rw [contractLast_val _ _ _ (invDense_shape h), Charged.invLegs_eq]

/-- The entries of the dense tensor in terms of the blocks. -/
theorem Charged.dense_val {t : Charged S} (h : Charged.Valid sym R t) {s : List ℂ} {D : Blk ℂ}
    (hs : t.state = some s) (hD : t.toDense sym = some D) (g : List ℕ × List ℕ → ℂ)
    (hg : ∀ n b o, IsPosition sym t.charge n b o → g ([b], [o]) = s.getD n 0) (idx row pos : List ℕ)
    (hl : Located sym t.legs idx row pos) :
    D.val idx = ((basis [t.charge.mults]).map fun y => dense t.data (row ++ y.1) (pos ++ y.2) * g y).sum := by
  obtain ⟨D', hD', -, hv⟩ := (C84_to_dense t h).2 s hs
  rw [hD] at hD'
  obtain rfl := Option.some.inj hD'
  rw [hv idx]
  refine sum_public_one (denseOK_right (Charged.denseOK h)) _ _ fun n b o hp => ?_
  obtain ⟨l1, l2, l3⟩ := located_length hl
  rw [(C35_to_dense sym _ (Charged.denseOK h) _ (by rw [← Charged.invLegs_eq]; exact Charged.sane h)).2
    (idx ++ [n]) (row ++ [b]) (pos ++ [o])
    ((located_append_iff l1 l2 l3).2 ⟨hl, hp, trivial⟩), hg n b o hp]

/-! ## Elements -/

theorem mapM_some_map {α β : Type} (l : List α) (f : α → Option β) (g : α → β)
    (h : ∀ x ∈ l, f x = some (g x)) : l.mapM f = some (l.map g) := by
  induction l with
  | nil => rfl
  | cons x l ih =>
    rw [List.mapM_cons, h x List.mem_cons_self, ih fun y hy => h y (List.mem_cons_of_mem _ hy)]
    rfl

/-- **C84**: an element `t[idcs]` is the entry of the dense tensor; a negative index counts from the
end.  Reading elements raises for states with more than ten entries. -/
theorem C84_get_item (t : Charged S) (h : Charged.Valid sym R t) (s : List ℂ) (hs : t.state = some s)
    (D : Blk ℂ) (hD : t.toDense sym = some D) (idx : List ℕ) (ints : List ℤ)
    (hi : idx ∈ indices sym t.legs) (hlen : ints.length = idx.length)
    (hw : List.Forall₂ (fun (p : ℤ × ℕ) (d : ℕ) => p.1 = p.2 ∨ p.1 = (p.2 : ℤ) - d)
      (ints.zip idx) (t.legs.map (ESpace.dim sym))) :
    t.getItem sym ints = if s.length ≤ 10 then some (D.val idx) else none := by
  have hi' : InShape idx (t.legs.map (ESpace.dim sym)) := (mem_gridC _ _).1 hi
  obtain ⟨D', hD', -, hv⟩ := (C84_to_dense t h).2 s hs
  rw [hD] at hD'
  obtain rfl := Option.some.inj hD'
  unfold Charged.getItem
  rw [hs, Option.bind_some]
  by_cases h10 : 10 < s.length
  · rw [if_pos h10, if_neg (by omega)]
  · rw [if_neg h10, if_pos (by omega), h.length s hs]
    rw [mapM_some_map _ _ (fun n => s.getD n 0 * (Abelian.toDense sym t.invLegs t.data).val (idx ++ [n]))]
    · rw [Option.map_some, hv idx, Charged.invLegs_eq]
      congr 1
      exact sum_congr _ fun n _ => mul_comm _ _
    · intro n hn
      rw [C35_get_element sym t.invLegs h.legs t.data (Charged.sane h) (idx ++ [n]) (ints ++ [Int.ofNat n])]
      · rfl
      · rw [Charged.invLegs_eq, List.map_append]
        exact List.rel_append hi' (List.Forall₂.cons (List.mem_range.1 hn) .nil)
      · rw [Charged.invLegs_eq, List.map_append, List.zip_append hlen]
        exact List.rel_append hw (List.Forall₂.cons (Or.inl rfl) .nil)

/-! ## Congruence of equal legs -/

theorem toBLeg_congr {e f : ESpace S} (h : Leg.beqSpace sym e f = true) : toBLeg sym e = toBLeg sym f := by
  obtain ⟨h1, h2, h3, -⟩ := (beqSpace_iff sym e f).1 h
  unfold toBLeg ESpace.sectors
  rw [h1, h2, h3]

theorem SameLegs.toBLeg {a b : List (ESpace S)} (h : SameLegs sym a b) :
    a.map (Abelian.toBLeg sym) = b.map (Abelian.toBLeg sym) := by
  induction h with
  | nil => rfl
  | cons h _ ih => rw [List.map_cons, List.map_cons, ih, toBLeg_congr h]

theorem SameLegs.legMults {a b : List (ESpace S)} (h : SameLegs sym a b) : legMults a = legMults b := by
  rw [← multsOf_toBLeg (sym := sym), ← multsOf_toBLeg (sym := sym), SameLegs.toBLeg h]

theorem located_congr {a b : List (ESpace S)} (h : SameLegs sym a b) : ∀ {i r p : List ℕ},
    Located sym a i r p → Located sym b i r p := by
  induction h with
  | nil => intro i r p hl; exact hl
  | @cons e f a b h _ ih =>
    intro i r p hl
    cases i <;> cases r <;> cases p <;> simp only [Located] at hl ⊢
    refine ⟨?_, ih hl.2⟩
    obtain ⟨h1, h2, h3, h4⟩ := (beqSpace_iff sym e f).1 h
    have hs : e.sectors sym = f.sectors sym := by unfold ESpace.sectors; rw [h1, h3]
    have := hl.1
    unfold IsPosition at this ⊢
    rwa [← hs, ← h2, ← h4]

theorem SameLegs.append {a b c d : List (ESpace S)} (h : SameLegs sym a b) (h' : SameLegs sym c d) :
    SameLegs sym (a ++ c) (b ++ d) := List.rel_append h h'

theorem SameLegs.reverse {a b : List (ESpace S)} (h : SameLegs sym a b) :
    SameLegs sym a.reverse b.reverse := List.rel_reverse h

theorem same_legs {v w : Charged S} (h : Charged.sameSpaces sym v w = true) : SameLegs sym v.legs w.legs := by
  unfold Charged.sameSpaces at h
  rw [Bool.and_eq_true, sameLegs_iff, sameLegs_iff] at h
  exact SameLegs.append h.1 (SameLegs.reverse h.2)

/-! ## Linear operations -/

theorem castState_eq (real : Bool) (s : List ℂ) (h : real = true → ∀ z ∈ s, z.im = 0) :
    Charged.castState real s = s := by
  unfold Charged.castState
  cases real with
  | false => rfl
  | true =>
    rw [if_pos rfl]
    conv_rhs => rw [← List.map_id s]
    exact List.map_congr_left fun z hz => Complex.ext rfl (h rfl z hz).symm

theorem getD_map_mul (a : ℂ) (s : List ℂ) (n : ℕ) : (s.map fun x => a * x).getD n 0 = a * s.getD n 0 := by
  rw [List.getD_eq_getElem?_getD, List.getD_eq_getElem?_getD, List.getElem?_map]
  cases s[n]? <;> simp

/-- **C84**: `a * v` stands for the multiple of the dense tensor, unless a complex number is multiplied to a
tensor with a real invariant part; without a state the invariant part is multiplied. -/
theorem C84_scalar_multiply (a : Num) (v : Charged S) (h : Charged.Valid sym R v) :
    ((Charged.scalarMultiply a v).cod = v.cod ∧ (Charged.scalarMultiply a v).dom = v.dom ∧
      (Charged.scalarMultiply a v).charge = v.charge) ∧
    (v.state = none → (Charged.scalarMultiply a v).state = none ∧
      ∀ row pos, dense (Charged.scalarMultiply a v).data row pos = a.val * dense v.data row pos) ∧
    ((v.real = true → a.val.im = 0) → Charged.Valid sym R (Charged.scalarMultiply a v) ∧
      ∀ D, v.toDense sym = some D → ∃ D', (Charged.scalarMultiply a v).toDense sym = some D' ∧
        D'.shape = D.shape ∧ ∀ idx, D'.val idx = a.val * D.val idx) := by
  classical
  cases hs : v.state with
  | none =>
    have e : Charged.scalarMultiply a v =
        ⟨v.cod, v.dom, v.charge, Abelian.mul a.val v.data, a.real && v.real, none⟩ := by
      unfold Charged.scalarMultiply Charged.make
      rw [hs]; rfl
    rw [e]
    refine ⟨⟨rfl, rfl, rfl⟩, fun _ => ⟨rfl, fun row pos => ?_⟩, fun _ => ⟨⟨h.legs, ?_, ?_, ?_⟩, ?_⟩⟩
    · convert C32_mul a.val v.data row pos
    · convert isHom_mul R _ _ a.val v.data h.hom
    · intro s hs'; cases hs'
    · intro _ s hs'; cases hs'
    · intro D hD
      unfold Charged.toDense at hD
      rw [hs] at hD
      cases hD
  | some s =>
    have e : Charged.scalarMultiply a v = ⟨v.cod, v.dom, v.charge, v.data, v.real,
        some (Charged.castState v.real (s.map fun x => a.val * x))⟩ := by
      unfold Charged.scalarMultiply Charged.make
      rw [hs]; rfl
    rw [e]
    refine ⟨⟨rfl, rfl, rfl⟩, fun h' => (Option.some_ne_none _ h').elim, fun hr => ?_⟩
    have him : v.real = true → ∀ z ∈ s.map (fun x => a.val * x), z.im = 0 := by
      intro hv z hz
      obtain ⟨x, hx, rfl⟩ := List.mem_map.1 hz
      rw [Complex.mul_im, hr hv, h.dtype hv s hs x hx]
      simp
    rw [castState_eq _ _ him]
    have hval : Charged.Valid sym R ⟨v.cod, v.dom, v.charge, v.data, v.real,
        some (s.map fun x => a.val * x)⟩ := by
      refine ⟨h.legs, h.hom, fun s' hs' => ?_, fun hv s' hs' => ?_⟩
      · obtain rfl := Option.some.inj hs'
        rw [List.length_map]
        exact h.length s hs
      · obtain rfl := Option.some.inj hs'
        exact him hv
    refine ⟨hval, fun D hD => ?_⟩
    obtain ⟨D1, hD1, s1, v1⟩ := (C84_to_dense v h).2 s hs
    rw [hD] at hD1
    obtain rfl := Option.some.inj hD1
    obtain ⟨D2, hD2, s2, v2⟩ := (C84_to_dense _ hval).2 _ rfl
    refine ⟨D2, hD2, s2.trans s1.symm, fun idx => ?_⟩
    rw [v1 idx, v2 idx, mul_sum]
    refine sum_congr _ fun n _ => ?_
    rw [getD_map_mul]
    exact mul_left_comm _ _ _

theorem dense_one {t : Charged S} (h : Charged.Valid sym R t) {s : List ℂ} {D : Blk ℂ} (hs : t.state = some s)
    (hD : t.toDense sym = some D) (h1 : t.charge.dim sym = 1) :
    ∃ b o, IsPosition sym t.charge 0 b o ∧ ∀ idx row pos, Located sym t.legs idx row pos →
      D.val idx = dense t.data (row ++ [b]) (pos ++ [o]) * s.getD 0 0 := by
  obtain ⟨D', hD', -, hv⟩ := (C84_to_dense t h).2 s hs
  rw [hD] at hD'
  obtain rfl := Option.some.inj hD'
  obtain ⟨row, pos, hl, -⟩ := (C35_index_bijection sym [t.charge] (denseOK_right (Charged.denseOK h))).1 [0]
    (by rw [List.map_cons, h1]; exact .cons Nat.one_pos .nil)
  obtain ⟨l1, l2, l3⟩ := located_length hl
  obtain ⟨b, rfl⟩ := List.length_eq_one_iff.1 l2
  obtain ⟨o, rfl⟩ := List.length_eq_one_iff.1 l3
  refine ⟨b, o, hl.1, fun idx row pos hl' => ?_⟩
  obtain ⟨k1, k2, k3⟩ := located_length hl'
  rw [hv idx, h1, List.range_one, List.map_cons, List.map_nil, List.sum_cons, List.sum_nil, add_zero,
    (C35_to_dense sym _ (Charged.denseOK h) _ (by rw [← Charged.invLegs_eq]; exact Charged.sane h)).2
      (idx ++ [0]) (row ++ [b]) (pos ++ [o]) ((located_append_iff k1 k2 k3).2 ⟨hl', hl.1, trivial⟩)]


theorem linComb_cases {a b : Num} {v w t : Charged S}
    (h : Charged.linearCombination sym a v b w = some t) :
    SameLegs sym v.cod w.cod ∧ SameLegs sym v.dom w.dom ∧ SameLegs sym [v.charge] [w.charge] ∧
    ((v.state = none ∧ w.state = none ∧
      t = ⟨v.cod, v.dom, v.charge, Abelian.linearCombination a.val v.data b.val w.data,
        a.real && v.real && (b.real && w.real), none⟩) ∨
    ∃ sv sw, v.state = some sv ∧ w.state = some sw ∧ v.charge.dim sym = 1 ∧ sv.getD 0 0 ≠ 0 ∧
      t = ⟨v.cod, v.dom, v.charge,
        Abelian.linearCombination a.val v.data (b.val * (sw.getD 0 0 / sv.getD 0 0)) w.data,
        a.real && v.real && (b.real && w.real && v.real),
        some (Charged.castState (a.real && v.real && (b.real && w.real && v.real)) sv)⟩) := by
  unfold Charged.linearCombination at h
  by_cases h1 : Charged.sameSpaces sym v w = true
  swap
  · rw [if_pos (by simpa using h1)] at h; cases h
  rw [if_neg (by simpa using h1)] at h
  by_cases h2 : Leg.beqSpace sym v.charge w.charge = true
  swap
  · rw [if_pos (by simpa using h2)] at h; cases h
  rw [if_neg (by simpa using h2)] at h
  have h1' := h1
  unfold Charged.sameSpaces at h1'
  rw [Bool.and_eq_true, sameLegs_iff, sameLegs_iff] at h1'
  refine ⟨h1'.1, h1'.2, .cons h2 .nil, ?_⟩
  cases hv : v.state with
  | none =>
    cases hw : w.state with
    | none =>
      rw [hv, hw] at h
      exact Or.inl ⟨rfl, rfl, (Option.some.inj h).symm⟩
    | some sw => rw [hv, hw] at h; cases h
  | some sv =>
    cases hw : w.state with
    | none => rw [hv, hw] at h; cases h
    | some sw =>
      rw [hv, hw] at h
      dsimp only at h
      by_cases h3 : v.charge.dim sym = 1
      swap
      · rw [if_pos h3] at h; cases h
      rw [if_neg (by simpa using h3)] at h
      by_cases h4 : sv.getD 0 0 = 0
      · rw [if_pos h4] at h; cases h
      rw [if_neg h4] at h
      exact Or.inr ⟨sv, sw, rfl, rfl, h3, h4, (Option.some.inj h).symm⟩

theorem hom_congr {v w : Charged S} (h1 : SameLegs sym v.cod w.cod) (h2 : SameLegs sym v.dom w.dom)
    (h3 : SameLegs sym [v.charge] [w.charge]) (hw : Charged.Valid sym R w) :
    IsHom R (v.cod.map (toBLeg sym)) ((v.charge :: v.dom).map (toBLeg sym)) w.data := by
  rw [SameLegs.toBLeg h1, show v.charge :: v.dom = [v.charge] ++ v.dom from rfl,
    SameLegs.toBLeg (SameLegs.append h3 h2)]
  exact hw.hom

theorem toDense_state {t : Charged S} {D : Blk ℂ} (h : t.toDense sym = some D) : ∃ s, t.state = some s := by
  cases hs : t.state with
  | none => unfold Charged.toDense at h; rw [hs] at h; cases h
  | some s => exact ⟨s, rfl⟩

theorem linComb_valid {a b : Num} {v w t : Charged S} (hv : Charged.Valid sym R v)
    (hw : Charged.Valid sym R w) (h : Charged.linearCombination sym a v b w = some t) :
    t.cod = v.cod ∧ t.dom = v.dom ∧ t.charge = v.charge ∧ Charged.Valid sym R t := by
  obtain ⟨l1, l2, l3, h | ⟨sv, sw, h1, h2, h3, h4, h⟩⟩ := linComb_cases h
  · obtain ⟨h1, h2, rfl⟩ := h
    exact ⟨rfl, rfl, rfl, hv.legs, isHom_linearCombination R _ _ _ _ _ _ hv.hom (hom_congr l1 l2 l3 hw),
      fun s hs => (Option.some_ne_none s hs.symm).elim, fun _ s hs => (Option.some_ne_none s hs.symm).elim⟩
  · subst h
    have hc : Charged.castState (a.real && v.real && (b.real && w.real && v.real)) sv = sv := by
      refine castState_eq _ _ fun hr => hv.dtype ?_ sv h1
      simp only [Bool.and_eq_true] at hr
      exact hr.1.2
    refine ⟨rfl, rfl, rfl, hv.legs, isHom_linearCombination R _ _ _ _ _ _ hv.hom (hom_congr l1 l2 l3 hw),
      fun s hs => ?_, fun hr s hs => ?_⟩
    · dsimp only at hs
      rw [hc] at hs
      obtain rfl := Option.some.inj hs
      exact hv.length _ h1
    · dsimp only at hs
      rw [hc] at hs
      obtain rfl := Option.some.inj hs
      simp only [Bool.and_eq_true] at hr
      exact hv.dtype hr.1.2 _ h1

/-- **C84**: `linear_combination(a, v, b, w)` of charged tensors with a one-dimensional charge leg stands for
`a v + b w`; without states the invariant parts are combined.  It raises if the spaces or the charge legs
differ, if only one state is given, or if the charge leg has another dimension.  (The state of `v` must not
vanish: the code divides by it.) -/
theorem C84_linear_combination (a b : Num) (v w : Charged S) (hv : Charged.Valid sym R v)
    (hw : Charged.Valid sym R w) :
    (∀ t, Charged.linearCombination sym a v b w = some t →
      t.cod = v.cod ∧ t.dom = v.dom ∧ t.charge = v.charge ∧ Charged.Valid sym R t) ∧
    (∀ t, Charged.linearCombination sym a v b w = some t → v.state = none → t.state = none ∧
      ∀ row pos, dense t.data row pos = a.val * dense v.data row pos + b.val * dense w.data row pos) ∧
    (∀ t DV DW, Charged.linearCombination sym a v b w = some t → v.toDense sym = some DV →
      w.toDense sym = some DW → ∃ D, t.toDense sym = some D ∧ D.shape = DV.shape ∧
        ∀ idx ∈ indices sym v.legs, D.val idx = a.val * DV.val idx + b.val * DW.val idx) ∧
    (Charged.linearCombination sym a v b w = none ↔
      ¬ (SameLegs sym v.cod w.cod ∧ SameLegs sym v.dom w.dom ∧ SameLegs sym [v.charge] [w.charge]) ∨
      (v.state = none ↔ w.state ≠ none) ∨
      ((∃ s, v.state = some s ∧ (v.charge.dim sym ≠ 1 ∨ s.getD 0 0 = 0)))) := by
  refine ⟨fun t h => linComb_valid hv hw h, fun t h hn => ?_, fun t DV DW h hDV hDW => ?_, ?_⟩
  · obtain ⟨l1, l2, l3, h | ⟨sv, sw, h1, h2, h3, h4, h⟩⟩ := linComb_cases h
    · obtain ⟨h1, h2, rfl⟩ := h
      exact ⟨rfl, fun row pos => C32_linear_combination _ _ _ _ _ hv.hom.sane (hom_congr l1 l2 l3 hw).sane _ _⟩
    · rw [hn] at h1; cases h1
  · obtain ⟨-, -, -, ht⟩ := linComb_valid hv hw h
    obtain ⟨l1, l2, l3, h | ⟨sv, sw, h1, h2, h3, h4, h⟩⟩ := linComb_cases h
    · obtain ⟨s, hs⟩ := toDense_state hDV
      rw [h.1] at hs; cases hs
    have hst : t.state = some sv := by
      subst h
      dsimp only
      rw [castState_eq]
      intro hr
      simp only [Bool.and_eq_true] at hr
      exact hv.dtype hr.1.2 _ h1
    have hch : t.charge = v.charge := by rw [h]
    have hlg : t.legs = v.legs := by rw [h]; rfl
    have hwc : SameLegs sym v.legs w.legs := SameLegs.append l1 (SameLegs.reverse l2)
    obtain ⟨D, hD, sD, -⟩ := (C84_to_dense t ht).2 sv hst
    obtain ⟨DV', hDV', sV, -⟩ := (C84_to_dense v hv).2 sv h1
    rw [hDV] at hDV'
    obtain rfl := Option.some.inj hDV'
    refine ⟨D, hD, by rw [sD, sV, hlg], fun idx hi => ?_⟩
    obtain ⟨row, pos, hl, -⟩ := (C35_index_bijection sym v.legs (denseOK_left (Charged.denseOK hv))).1 idx
      ((mem_gridC _ _).1 hi)
    have hdw : w.charge.dim sym = 1 := by
      have e := (beqSpace_iff sym _ _).1 (List.forall₂_cons.1 l3).1
      have d1 := dim_eq hv.legs.dims hv.legs.one (hv.legs.valid v.charge (by simp))
      have d2 := dim_eq hw.legs.dims hw.legs.one (hw.legs.valid w.charge (by simp))
      rw [d2, ← e.2.1, ← d1, h3]
    obtain ⟨b1, o1, p1, e1⟩ := dense_one hv h1 hDV h3
    obtain ⟨b2, o2, p2, e2⟩ := dense_one hw h2 hDW hdw
    obtain ⟨b3, o3, p3, e3⟩ := dense_one ht hst hD (by rw [hch]; exact h3)
    rw [hch] at p3
    have q2 := (located_congr (i := [0]) (r := [b2]) (p := [o2]) (SameLegs.symm l3) ⟨p2, trivial⟩).1
    have hok : DenseOK sym [v.charge] := denseOK_right (Charged.denseOK hv)
    obtain ⟨rfl, rfl⟩ := position_unique hok p1 p3
    obtain ⟨rfl, rfl⟩ := position_unique hok p1 q2
    rw [e1 idx row pos hl, e2 idx row pos (located_congr hwc hl), e3 idx row pos (by rw [hlg]; exact hl)]
    have hd : t.data = Abelian.linearCombination a.val v.data (b.val * (sw.getD 0 0 / sv.getD 0 0)) w.data := by
      rw [h]
    rw [hd, C32_linear_combination _ _ _ _ _ hv.hom.sane (hom_congr l1 l2 l3 hw).sane]
    field_simp
  · unfold Charged.linearCombination Charged.sameSpaces
    rw [← sameLegs_iff, ← sameLegs_iff]
    have e3 : SameLegs sym [v.charge] [w.charge] ↔ Leg.beqSpace sym v.charge w.charge = true := by
      unfold SameLegs; simp
    rw [e3]
    by_cases c1 : sameLegs sym v.cod w.cod = true <;> by_cases c2 : sameLegs sym v.dom w.dom = true <;>
      by_cases c3 : Leg.beqSpace sym v.charge w.charge = true <;> cases hsv : v.state <;>
      cases hsw : w.state <;> simp_all
    tauto

end Cyten.Props
