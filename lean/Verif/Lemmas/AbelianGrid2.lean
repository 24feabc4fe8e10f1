import Verif.Lemmas.AbelianGrid
import Verif.Props.AbelianCombine

/-! Lemmas for `tensor_from_grid`: sectors, slices, lists of legs. -/

namespace Cyten.Abelian
open Cyten.Tables Cyten.Tools Cyten.Spaces Cyten.Spaces.Spec Cyten.FusionTrees Cyten.Abelian.Spec
open Cyten.Props

variable {S K : Type}

section
variable [LinearOrder S] {sym : Sym S}

theorem sectors_nodup (hinj : Function.Injective sym.dual) {x : ESpace S} (hv : ValidSpace sym x) :
    (x.sectors sym).Nodup := by
  have h : x.defining.Nodup := hv.sorted.imp fun h => h.ne
  unfold ESpace.sectors
  split
  · exact h.map hinj
  · exact h

theorem mults_sectors_length {x : ESpace S} (hv : ValidSpace sym x) :
    x.mults.length = (x.sectors sym).length := by
  rw [hv.lengths]; unfold ESpace.sectors; split <;> simp

theorem whereSector?_eq {x : ESpace S} (hn : (x.sectors sym).Nodup) {b : ℕ} {s : S}
    (h : (x.sectors sym)[b]? = some s) : whereSector? sym x s = some b := by
  unfold whereSector?
  obtain ⟨hb, rfl⟩ := List.getElem?_eq_some_iff.1 h
  rw [List.findIdx?_eq_some_iff_getElem]
  refine ⟨hb, by simp, fun j hj => ?_⟩
  simp only [beq_iff_eq, Bool.not_eq_true, beq_eq_false_iff_ne]
  intro he
  have := hn.getElem_inj_iff.1 he
  omega

theorem multOf_at (l : List S) (m : List ℕ) (hn : l.Nodup) (hl : m.length = l.length) (b : ℕ) (s : S)
    (v : ℕ) (hs : l[b]? = some s) (hm : m[b]? = some v) : multOf l m s = v := by
  unfold multOf
  induction l generalizing m b with
  | nil => simp at hs
  | cons t l ih =>
    cases m with
    | nil => simp at hl
    | cons w m =>
      obtain ⟨n1, n2⟩ := List.nodup_cons.1 hn
      rw [List.zip_cons_cons, List.map_cons, List.sum_cons]
      cases b with
      | zero =>
        simp only [List.getElem?_cons_zero, Option.some.injEq] at hs hm
        subst hs hm
        have : ((l.zip m).map fun p => if p.1 = t then p.2 else 0).sum = 0 := by
          apply List.sum_eq_zero
          intro x hx
          obtain ⟨p, hp, rfl⟩ := List.mem_map.1 hx
          rw [if_neg]
          rintro rfl
          exact n1 (List.of_mem_zip hp).1
        rw [this]; simp
      | succ b =>
        rw [List.getElem?_cons_succ] at hs hm
        have hne : t ≠ s := by
          rintro rfl
          exact n1 (List.mem_of_getElem? hs)
        rw [if_neg (by simpa using hne), ih m n2 (by simpa using hl) b hs hm, Nat.zero_add]

theorem multOf_not_mem (l : List S) (m : List ℕ) (s : S) (hs : s ∉ l) : multOf l m s = 0 := by
  unfold multOf
  apply List.sum_eq_zero
  intro x hx
  obtain ⟨p, hp, rfl⟩ := List.mem_map.1 hx
  rw [if_neg]
  rintro rfl
  exact hs (List.of_mem_zip hp).1

theorem multWhere_eq (hinj : Function.Injective sym.dual) {x : ESpace S} (hv : ValidSpace sym x) (s : S) :
    multWhere sym x s = multOf (x.sectors sym) x.mults s := by
  have hn := sectors_nodup hinj hv
  unfold multWhere
  by_cases h : s ∈ x.sectors sym
  · obtain ⟨b, hb, rfl⟩ := List.mem_iff_getElem.1 h
    have hb' := List.getElem?_eq_getElem hb
    rw [whereSector?_eq hn hb']
    have hbm : b < x.mults.length := by rw [mults_sectors_length hv]; exact hb
    simp only
    rw [multOf_at _ _ hn (mults_sectors_length hv) b _ _ hb' (List.getElem?_eq_getElem hbm),
      List.getD_eq_getElem _ _ hbm]
  · have : whereSector? sym x s = none := by
      unfold whereSector?
      rw [List.findIdx?_eq_none_iff]
      intro t ht
      simp only [beq_eq_false_iff_ne]
      rintro rfl
      exact h ht
    rw [this, multOf_not_mem _ _ _ h]

/-- the vectors of the sector `s` in the first `i` spaces -/
def before (sym : Sym S) (xs : List (ESpace S)) (i : ℕ) (s : S) : ℕ :=
  ((xs.take i).map fun y => multOf (y.sectors sym) y.mults s).sum

theorem multSlices_get (hinj : Function.Injective sym.dual) (xs : List (ESpace S))
    (hv : ∀ x ∈ xs, ValidSpace sym x) (total : ESpace S) (b : ℕ) (s : S)
    (hs : (total.sectors sym)[b]? = some s) (i : ℕ) (hi : i ≤ xs.length) :
    ((multSlices sym total xs).getD b []).getD i 0 = before sym xs i s := by
  unfold multSlices before
  rw [List.getD_eq_getElem?_getD (l := List.map _ _), List.getElem?_map, hs, Option.map_some,
    Option.getD_some, sliceBoundaries_getD _ _ (by simpa using hi), ← List.map_take]
  congr 1
  exact List.map_congr_left fun x hx => multWhere_eq hinj (hv x (List.mem_of_mem_take hx)) s

theorem before_succ (xs : List (ESpace S)) (i : ℕ) (s : S) (x : ESpace S) (hx : xs[i]? = some x) :
    before sym xs (i + 1) s = before sym xs i s + multOf (x.sectors sym) x.mults s := by
  obtain ⟨h, rfl⟩ := List.getElem?_eq_some_iff.1 hx
  unfold before
  rw [List.take_succ_eq_append_getElem h, List.map_append, List.sum_append]
  simp

theorem before_mono (xs : List (ESpace S)) (s : S) {i j : ℕ} (h : i ≤ j) :
    before sym xs i s ≤ before sym xs j s := by
  unfold before
  have : xs.take j = xs.take i ++ (xs.take j).drop i := by
    conv_lhs => rw [← List.take_append_drop i (xs.take j), List.take_take, min_eq_left h]
  rw [this, List.map_append, List.sum_append]
  omega

theorem before_unique (xs : List (ESpace S)) (s : S) {i k x : ℕ} {y : ESpace S} (hy : xs[k]? = some y)
    (hx : x < multOf (y.sectors sym) y.mults s) (h1 : before sym xs i s ≤ before sym xs k s + x)
    (h2 : before sym xs k s + x < before sym xs (i + 1) s) : i = k := by
  rcases lt_trichotomy i k with h | h | h
  · have := before_mono (sym := sym) xs s (show i + 1 ≤ k from h)
    omega
  · exact h
  · have := before_mono (sym := sym) xs s (show k + 1 ≤ i from h)
    rw [before_succ xs k s y hy] at this
    omega

/-! ### legs that are equal in the sense of `==` -/

theorem beqSpace_sectors {x y : ESpace S} (h : Leg.beqSpace sym x y = true) :
    x.sectors sym = y.sectors sym ∧ x.mults = y.mults ∧ x.basisPerm sym = y.basisPerm sym ∧
      x.defining = y.defining := by
  obtain ⟨h1, h2, h3, h4⟩ := (beqSpace_iff sym x y).1 h
  exact ⟨by unfold ESpace.sectors; rw [h1, h3], h2, h4, h3⟩

theorem beqSpace_symm {x y : ESpace S} (h : Leg.beqSpace sym x y = true) :
    Leg.beqSpace sym y x = true := by
  rw [beqSpace_iff] at h ⊢
  exact ⟨h.1.symm, h.2.1.symm, h.2.2.1.symm, h.2.2.2.symm⟩

theorem beqSpace_trans {x y z : ESpace S} (h : Leg.beqSpace sym x y = true)
    (h' : Leg.beqSpace sym y z = true) : Leg.beqSpace sym x z = true := by
  rw [beqSpace_iff] at h h' ⊢
  exact ⟨h.1.trans h'.1, h.2.1.trans h'.2.1, h.2.2.1.trans h'.2.2.1, h.2.2.2.trans h'.2.2.2⟩

theorem beqSpace_position {x y : ESpace S} (h : Leg.beqSpace sym x y = true) (j b o : ℕ) :
    IsPosition sym x j b o ↔ IsPosition sym y j b o := by
  obtain ⟨h1, h2, h3, -⟩ := beqSpace_sectors h
  unfold IsPosition
  rw [h1, h2, h3]

theorem beqSpace_valid (hd : DimOK sym) {x y : ESpace S} (h : Leg.beqSpace sym x y = true)
    (hv : ValidSpace sym x) : ValidSpace sym y := by
  obtain ⟨h1, h2, h3, h4⟩ := beqSpace_sectors h
  refine ⟨by rw [← h2, ← h4]; exact hv.lengths, by rw [← h4]; exact hv.sorted, fun p hp => ?_⟩
  have e : y.basisPerm sym = p := by unfold ESpace.basisPerm; rw [hp]
  rw [← e, ← h3, ← h2, ← h4]
  obtain ⟨b1, b2⟩ := basisPerm_isPerm sym hd x hv
  rw [← b2]
  exact b1

/-- Lists of legs that are pairwise equal. -/
def SameLegs (sym : Sym S) (a b : List (ESpace S)) : Prop :=
  List.Forall₂ (fun x y => Leg.beqSpace sym x y = true) a b

theorem sameLegs_iff (a b : List (ESpace S)) : sameLegs sym a b = true ↔ SameLegs sym a b := by
  unfold sameLegs SameLegs
  simp only [Bool.and_eq_true, beq_iff_eq]
  induction a generalizing b with
  | nil => cases b <;> simp
  | cons x a ih =>
    cases b with
    | nil => simp
    | cons y b =>
      have := ih b
      simp only [List.length_cons, Nat.add_right_cancel_iff, List.zipWith_cons_cons, List.all_cons,
        id_eq, Bool.and_eq_true, List.forall₂_cons, ← this]
      tauto

theorem SameLegs.symm {a b : List (ESpace S)} (h : SameLegs sym a b) : SameLegs sym b a :=
  List.Forall₂.flip (h.imp fun _ _ h => beqSpace_symm h)

theorem SameLegs.trans {a b c : List (ESpace S)} (h : SameLegs sym a b) (h' : SameLegs sym b c) :
    SameLegs sym a c := by
  unfold SameLegs at *
  induction h generalizing c with
  | nil => exact h'
  | cons h _ ih =>
    cases h' with
    | cons h1 h2 => exact .cons (beqSpace_trans h h1) (ih h2)

theorem SameLegs.reverse {a b : List (ESpace S)} (h : SameLegs sym a b) :
    SameLegs sym a.reverse b.reverse := List.rel_reverse h

theorem SameLegs.mults {a b : List (ESpace S)} (h : SameLegs sym a b) :
    a.map ESpace.mults = b.map ESpace.mults := by
  induction h with
  | nil => rfl
  | cons h _ ih => rw [List.map_cons, List.map_cons, ih, (beqSpace_sectors h).2.1]

theorem SameLegs.blegs {a b : List (ESpace S)} (h : SameLegs sym a b) :
    a.map (toBLeg sym) = b.map (toBLeg sym) := by
  induction h with
  | nil => rfl
  | cons h _ ih =>
    rw [List.map_cons, List.map_cons, ih]
    unfold toBLeg
    rw [(beqSpace_sectors h).1, (beqSpace_sectors h).2.1]

theorem SameLegs.valid (hd : DimOK sym) {a b : List (ESpace S)} (h : SameLegs sym a b)
    (hv : ∀ x ∈ a, ValidSpace sym x) : ∀ x ∈ b, ValidSpace sym x := by
  induction h with
  | nil => simp
  | cons h _ ih =>
    intro x hx
    rcases List.mem_cons.1 hx with rfl | hx
    · exact beqSpace_valid hd h (hv _ List.mem_cons_self)
    · exact ih (fun x hx => hv x (List.mem_cons_of_mem _ hx)) x hx

theorem SameLegs.located {a b : List (ESpace S)} (h : SameLegs sym a b) {i r p : List ℕ}
    (hl : Located sym a i r p) : Located sym b i r p := by
  unfold SameLegs at h
  induction h generalizing i r p with
  | nil => exact hl
  | cons h _ ih =>
    match i, r, p, hl with
    | _ :: _, _ :: _, _ :: _, ⟨h1, h2⟩ => exact ⟨(beqSpace_position h _ _ _).1 h1, ih h2⟩

end

/-! ### lists -/

theorem exists_mapM {α β : Type} (l : List α) (f : α → Option β) (Q : ℕ → β → Prop) (n : ℕ)
    (h : ∀ i x, l[i]? = some x → ∃ y, f x = some y ∧ Q (n + i) y) :
    ∃ m, l.mapM f = some m ∧ m.length = l.length ∧ ∀ i y, m[i]? = some y → Q (n + i) y := by
  induction l generalizing n with
  | nil => exact ⟨[], rfl, rfl, by simp⟩
  | cons x l ih =>
    obtain ⟨y, hy, hQ⟩ := h 0 x rfl
    obtain ⟨m, hm, hl, hmQ⟩ := ih (n + 1) fun i z hz => by
      obtain ⟨w, h1, h2⟩ := h (i + 1) z (by simpa using hz)
      exact ⟨w, h1, by rw [show n + 1 + i = n + (i + 1) by omega]; exact h2⟩
    refine ⟨y :: m, ?_, by simp [hl], fun i z hz => ?_⟩
    · rw [List.mapM_cons, hy, hm]; rfl
    · cases i with
      | zero =>
        simp only [List.getElem?_cons_zero, Option.some.injEq] at hz
        subst hz; exact hQ
      | succ i =>
        rw [List.getElem?_cons_succ] at hz
        have := hmQ i z hz
        rwa [show n + 1 + i = n + (i + 1) by omega] at this

/-- the two parts of a multi-index with two special axes -/
theorem inShape_parts {row : List ℕ} {a b : ℕ} {L M : List ℕ} (h : InShape row (a :: (L ++ b :: M))) :
    ∃ b0 cm b1 dm, row = b0 :: (cm ++ b1 :: dm) ∧ b0 < a ∧ b1 < b ∧ InShape cm L ∧ InShape dm M := by
  obtain ⟨b0, rest, h0, h1, rfl⟩ := List.forall₂_cons_right_iff.1 h
  have h2 := List.forall₂_take_append _ _ _ h1
  have h3 := List.forall₂_drop_append _ _ _ h1
  obtain ⟨b1, dm, h4, h5, h6⟩ := List.forall₂_cons_right_iff.1 h3
  refine ⟨b0, rest.take L.length, b1, dm, ?_, h0, h4, h2, h5⟩
  rw [← h6, List.take_append_drop]

theorem set_parts {α : Type} (x y a b : α) (cm dm : List α) (n : ℕ) (hn : n = cm.length + 1) :
    ((x :: (cm ++ y :: dm)).set 0 a).set n b = a :: (cm ++ b :: dm) := by
  subst hn
  simp

theorem getD_parts (x y : ℕ) (cm dm : List ℕ) (n : ℕ) (hn : n = cm.length + 1) :
    (x :: (cm ++ y :: dm)).getD 0 0 = x ∧ (x :: (cm ++ y :: dm)).getD n 0 = y := by
  subst hn
  simp

end Cyten.Abelian
