import Verif.Lemmas.TreesIndex

namespace Cyten
open FusionTree

variable {S : Type} [DecidableEq S]

theorem chain_append (R : FusionRule S) (a : S) (bs1 bs2 cs1 cs2 : List S) (x : S)
    (ms1 ms2 : List Nat) (h1 : bs1.length = cs1.length + 1) (h2 : ms1.length = cs1.length + 1) :
    Chain R a (bs1 ++ bs2) (cs1 ++ [x] ++ cs2) (ms1 ++ ms2) ↔
      Chain R a bs1 (cs1 ++ [x]) ms1 ∧ Chain R x bs2 cs2 ms2 := by
  induction cs1 generalizing a bs1 ms1 with
  | nil =>
    match bs1, ms1, h1, h2 with
    | [b], [m], _, _ => simp [Chain]
  | cons c cs1 ih =>
    match bs1, ms1, h1, h2 with
    | b :: bs1, m :: ms1, h1, h2 =>
      simp only [List.cons_append, Chain]
      have := ih c bs1 ms1 (by simpa using h1) (by simpa using h2)
      rw [and_assoc, ← this]

theorem sane_two_le_cases (t : FusionTree S) (h : 2 ≤ t.uncoupled.length) :
    ∃ a b rest, t.uncoupled = a :: b :: rest := by
  match hu : t.uncoupled, h with
  | a :: b :: rest, _ => exact ⟨a, b, rest, rfl⟩

theorem insert_sane (R : FusionRule S) (t1 t2 : FusionTree S) (h1 : t1.Sane R) (h2 : t2.Sane R)
    (hl1 : 2 ≤ t1.uncoupled.length) (hl2 : 2 ≤ t2.uncoupled.length)
    (hc : t2.uncoupled.head? = some t1.coupled) : (t2.insert t1).Sane R := by
  obtain ⟨a, b, rest, hu⟩ := sane_two_le_cases t1 hl1
  obtain ⟨a', b', rest', hu'⟩ := sane_two_le_cases t2 hl2
  have hca : a' = t1.coupled := by simpa [hu'] using hc
  rw [sane_iff_chain R t1 a b rest hu] at h1
  rw [sane_iff_chain R t2 a' b' rest' hu'] at h2
  rw [sane_iff_chain R (t2.insert t1) a b (rest ++ b' :: rest')
    (by simp [FusionTree.insert, hu, hu'])]
  obtain ⟨hd1, hc1⟩ := h1
  obtain ⟨hd2, hc2⟩ := h2
  refine ⟨by simp [FusionTree.insert, hd1, hd2]; omega, ?_⟩
  simp only [FusionTree.insert, hu', List.take_succ_cons, List.take_zero]
  have hl := chain_length R hc1
  simp only [List.length_append, List.length_cons, List.length_nil] at hl
  have := (chain_append R a (b :: rest) (b' :: rest') t1.inner (t2.inner ++ [t2.coupled]) a'
    t1.mult t2.mult (by simp; omega) (by omega)).2 ⟨by rw [hca]; exact hc1, hc2⟩
  simpa using this

theorem split_spec (R : FusionRule S) (t : FusionTree S) (h : t.Sane R) (n : Nat) (hn : 2 ≤ n)
    (hN : n < t.uncoupled.length) :
    ∃ t1 t2, t.split n = .ok (t1, t2) ∧ t1.Sane R ∧ t2.Sane R ∧
      t1.uncoupled = t.uncoupled.take n ∧
      t2.uncoupled = t1.coupled :: t.uncoupled.drop n ∧
      t2.coupled = t.coupled ∧ t2.insert t1 = t := by
  obtain ⟨a, b, rest, hu⟩ := sane_two_le_cases t (by omega)
  have hli := h.len_inner
  have hlm := h.len_mult
  have hld := h.len_dual
  rw [sane_iff_chain R t a b rest hu] at h
  have hlt : n - 2 < t.inner.length := by omega
  refine ⟨⟨t.uncoupled.take n, t.inner[n-2], t.areDual.take n, t.inner.take (n-2),
    t.mult.take (n-1)⟩, ⟨t.inner[n-2] :: t.uncoupled.drop n, t.coupled,
    false :: t.areDual.drop n, t.inner.drop (n-1), t.mult.drop (n-1)⟩, ?_, ?_, ?_, rfl, rfl, rfl, ?_⟩
  · unfold FusionTree.split
    rw [if_neg (by omega), if_neg (by omega), List.getElem?_eq_getElem hlt]
  all_goals
    have hinner : t.inner = t.inner.take (n-2) ++ [t.inner[n-2]] ++ t.inner.drop (n-1) := by
      have := List.take_append_drop (n-2) t.inner
      rw [List.drop_eq_getElem_cons hlt] at this
      have e : n - 2 + 1 = n - 1 := by omega
      rw [e] at this
      rw [List.append_assoc]; exact this.symm
  rotate_left 2
  · simp only [FusionTree.insert, List.drop_succ_cons, List.drop_zero, List.take_succ_cons,
      List.take_zero, List.take_append_drop]
    have := hinner.symm
    obtain ⟨u, c, d, i, m⟩ := t
    simp only at this ⊢
    simp only [this]
  all_goals
    have hch := h.2
    rw [hinner] at hch
    obtain ⟨m, rfl⟩ : ∃ m, n = m + 2 := ⟨n - 2, by omega⟩
    have hb : b :: rest = (b :: rest.take m) ++ rest.drop m := by simp
    have hm' : t.mult = t.mult.take (m+1) ++ t.mult.drop (m+1) := by simp
    rw [hb, hm', List.append_assoc] at hch
    simp only [Nat.add_sub_cancel] at *
    have e2 : m + 2 - 1 = m + 1 := rfl
    rw [e2] at *
    simp only [hu, List.length_cons] at hN hli hlm hld
    have hch2 := (chain_append R a (b :: rest.take m) (rest.drop m) (t.inner.take m)
      (t.inner.drop (m+1) ++ [t.coupled]) (t.inner[m]) (t.mult.take (m+1)) (t.mult.drop (m+1))
      (by simp; omega) (by simp; omega)).1 hch
  · rw [sane_iff_chain R _ a b (rest.take m) (by simp [hu])]
    exact ⟨by simp; omega, hch2.1⟩
  · have hr : rest.drop m ≠ [] := by
      intro h0
      have := congrArg List.length h0
      simp at this; omega
    obtain ⟨y, ys, hy⟩ := List.exists_cons_of_ne_nil hr
    rw [sane_iff_chain R _ t.inner[m] y ys (by simp [hu, hy])]
    refine ⟨?_, by rw [← hy]; exact hch2.2⟩
    have := congrArg List.length hy
    simp at this ⊢; omega

theorem split_insert_spec (R : FusionRule S) (t1 t2 : FusionTree S) (h1 : t1.Sane R)
    (h2 : t2.Sane R) (hl1 : 2 ≤ t1.uncoupled.length) (hl2 : 2 ≤ t2.uncoupled.length)
    (hc : t2.uncoupled.head? = some t1.coupled) (hdual : t2.areDual.head? = some false) :
    (t2.insert t1).split t1.uncoupled.length = .ok (t1, t2) := by
  obtain ⟨a, b, rest, hu⟩ := sane_two_le_cases t1 hl1
  obtain ⟨a', b', rest', hu'⟩ := sane_two_le_cases t2 hl2
  have e1 := h1.len_inner; have e2 := h1.len_mult; have e3 := h1.len_dual
  obtain ⟨u1, c1, d1, i1, m1⟩ := t1
  obtain ⟨u2, c2, d2, i2, m2⟩ := t2
  simp only at *
  subst hu hu'
  simp at hc; subst hc
  cases d2 with
  | nil => simp at hdual
  | cons d d2 =>
    simp at hdual; subst hdual
    simp only [List.length_cons] at e1 e2 e3
    unfold FusionTree.split FusionTree.insert
    simp only [List.length_cons, List.take_succ_cons, List.take_zero, List.drop_succ_cons,
      List.drop_zero, List.cons_append, List.length_append]
    rw [if_neg (by omega), if_neg (by omega)]
    have : i1.length = rest.length := by omega
    have g : (i1 ++ [a'] ++ i2)[rest.length + 1 + 1 - 2]? = some a' := by
      rw [List.append_assoc, List.getElem?_append_right (by omega)]
      simp [this]
    rw [g]
    simp only [Except.ok.injEq, Prod.mk.injEq, FusionTree.mk.injEq, true_and, List.cons.injEq]
    have k1 : rest.length + 1 + 1 - 2 = i1.length := by omega
    have k2 : rest.length + 1 + 1 - 1 = (i1 ++ [a']).length := by simp; omega
    have k3 : rest.length + 1 + 1 - 1 = m1.length := by omega
    refine ⟨⟨?_, ?_, ?_, ?_⟩, ?_, ?_, ?_, ?_⟩
    · simp
    · rw [← e3]; simp
    · rw [k1]; simp
    · rw [k3]; simp
    · simp
    · rw [← e3]; simp
    · rw [k2]; simp
    · rw [k3]; simp

theorem extended_sane_pos (R : FusionRule S) (t : FusionTree S) (h : t.Sane R) (z c : S) (mu : Nat)
    (d : Bool) (hl : 1 ≤ t.uncoupled.length) (hmu : mu < R.nSymbol t.coupled z c) :
    (t.extended z mu c d).Sane R := by
  match hu : t.uncoupled, hl with
  | [a], _ =>
    have h' := (sane_one_iff R t a hu).1 h
    rw [sane_iff_chain R _ a z [] (by simp [extended, hu])]
    obtain ⟨rfl, h1, h2, h3⟩ := h'
    refine ⟨by simp [extended, h1], ?_⟩
    simp [extended, hu, h2, h3, Chain, hmu]
  | a :: b :: rest, _ =>
    rw [sane_iff_chain R t a b rest hu] at h
    have hlc := chain_length R h.2
    simp only [List.length_append, List.length_cons, List.length_nil] at hlc
    rw [sane_iff_chain R _ a b (rest ++ [z]) (by simp [extended, hu])]
    refine ⟨by simp [extended, h.1], ?_⟩
    simp only [extended, hu, List.length_cons, Nat.reduceLeDiff]
    have := (chain_append R a (b :: rest) [z] t.inner [c] t.coupled t.mult [mu]
      (by simp; omega) (by omega)).2 ⟨h.2, by simp [Chain, hmu]⟩
    simpa using this

theorem splitBottom_extended (R : FusionRule S) (t : FusionTree S) (h : t.Sane R) (z c : S)
    (mu : Nat) (d : Bool) (hl : 1 ≤ t.uncoupled.length) :
    (t.extended z mu c d).splitBottomVertex R = .ok (t, c, mu, z) := by
  obtain ⟨u, co, du, inn, m⟩ := t
  match u, hl with
  | [a], _ =>
    obtain ⟨rfl, h1, h2, h3⟩ := (sane_one_iff R _ a rfl).1 h
    simp only at h1 h2 h3
    match du, h1 with
    | [d0], _ =>
      subst h2 h3
      simp [extended, splitBottomVertex, fromSector]
  | [a, b], _ =>
    simp [extended, splitBottomVertex]
  | a :: b :: b2 :: rest, _ =>
    simp only [extended, splitBottomVertex, List.cons_append]
    have : (a :: b :: b2 :: (rest ++ [z])) = (a :: b :: b2 :: rest) ++ [z] := by simp
    rw [this]
    simp only [List.getLast?_concat, List.dropLast_concat]
    simp

theorem extended_splitBottom (R : FusionRule S) (t : FusionTree S) (h : t.Sane R)
    (hl : 1 ≤ t.uncoupled.length) :
    ∃ r mu z d, t.splitBottomVertex R = .ok (r, t.coupled, mu, z) ∧ r.Sane R ∧
      t.uncoupled = r.uncoupled ++ [z] ∧ t.areDual = r.areDual ++ [d] ∧
      r.extended z mu t.coupled d = t := by
  match hu : t.uncoupled, hl with
  | [a], _ =>
    obtain ⟨h0, h1, h2, h3⟩ := (sane_one_iff R t a hu).1 h
    obtain ⟨u, co, du, inn, m⟩ := t
    simp only at h0 h1 h2 h3 hu
    match du, h1 with
    | [d0], _ =>
      subst h0 h2 h3 hu
      refine ⟨fromEmpty R, 0, a, d0, by simp [splitBottomVertex], ?_, by simp [fromEmpty],
        by simp [fromEmpty], by simp [fromEmpty, extended]⟩
      rw [sane_nil_iff R _ rfl]; simp [fromEmpty]
  | [a, b], _ =>
    obtain ⟨h1, hc⟩ := (sane_iff_chain R t a b [] hu).1 h
    have hlc := chain_length R hc
    obtain ⟨u, co, du, inn, m⟩ := t
    simp only at h1 hc hu hlc
    subst hu
    simp at hlc h1
    match du, h1, m, hlc with
    | [d0, d1], _, [mu], hlc =>
      obtain rfl := hlc.1
      refine ⟨fromSector a d0, mu, b, d1, by simp [splitBottomVertex], ?_, by simp [fromSector],
        by simp [fromSector], by simp [fromSector, extended]⟩
      rw [sane_one_iff R _ a rfl]; simp [fromSector]
  | a :: b :: b2 :: rest, _ =>
    obtain ⟨h1, hc⟩ := (sane_iff_chain R t a b (b2 :: rest) hu).1 h
    have hlc := chain_length R hc
    obtain ⟨u, co, du, inn, m⟩ := t
    simp only at h1 hc hu hlc
    subst hu
    simp at hlc h1
    obtain ⟨du, d1, rfl⟩ := List.eq_nil_or_concat du |>.resolve_left (by rintro rfl; simp at h1)
    obtain ⟨inn, x, rfl⟩ := List.eq_nil_or_concat inn |>.resolve_left (by rintro rfl; simp at hlc)
    obtain ⟨m, mu, rfl⟩ := List.eq_nil_or_concat m |>.resolve_left (by rintro rfl; simp at hlc)
    simp only [List.concat_eq_append, List.length_append, List.length_singleton] at *
    obtain ⟨us, z, hz⟩ := List.eq_nil_or_concat (b2 :: rest) |>.resolve_left (by simp)
    simp only [List.concat_eq_append] at hz
    have hul : us.length = rest.length := by
      have := congrArg List.length hz; simp at this; omega
    rw [hz] at hc ⊢
    have hc' := (chain_append R a (b :: us) [z] inn [co] x m [mu] (by simp; omega)
      (by omega)).1 (by simpa using hc)
    refine ⟨⟨a :: b :: us, x, du, inn, m⟩, mu, z, d1, ?_, ?_, by simp, rfl, ?_⟩
    · rw [← hz]
      simp only [splitBottomVertex]
      rw [hz]
      have : (a :: b :: (us ++ [z])) = (a :: b :: us) ++ [z] := by simp
      rw [this]
      simp only [List.getLast?_concat, List.dropLast_concat]
    · rw [sane_iff_chain R _ a b us rfl]
      exact ⟨by simp; omega, hc'.1⟩
    · simp [extended]

end Cyten
