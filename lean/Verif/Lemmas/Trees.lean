import Verif.Model.Trees
import Mathlib.Data.List.Basic
import Mathlib.Tactic.Ring
import Mathlib.Tactic.Linarith

namespace Cyten
open FusionTree

variable {S : Type} [DecidableEq S]

/-- helper: a left-to-right chain of allowed vertices -/
def Chain (R : FusionRule S) : S → List S → List S → List Nat → Prop
  | _, [], [], [] => True
  | a, b :: bs, c :: cs, m :: ms => m < R.nSymbol a b c ∧ Chain R c bs cs ms
  | _, _, _, _ => False

theorem canFuseTo_iff (R : FusionRule S) (a b c : S) :
    R.canFuseTo a b c = true ↔ c ∈ R.outcomes a b := by
  simp [FusionRule.canFuseTo]

theorem nSymbol_of_mem (R : FusionRule S) {a b c : S} (h : c ∈ R.outcomes a b) :
    R.nSymbol a b c = R.rawN a b c := by
  simp [FusionRule.nSymbol, (canFuseTo_iff R a b c).2 h]

theorem mem_of_nSymbol_pos (R : FusionRule S) {a b c : S} (h : 0 < R.nSymbol a b c) :
    c ∈ R.outcomes a b := by
  unfold FusionRule.nSymbol at h
  split at h
  · rename_i hc; exact (canFuseTo_iff R a b c).1 hc
  · omega

theorem chain_length (R : FusionRule S) {a : S} {bs cs : List S} {ms : List Nat}
    (h : Chain R a bs cs ms) : cs.length = bs.length ∧ ms.length = bs.length := by
  induction bs generalizing a cs ms with
  | nil => cases cs <;> cases ms <;> simp_all [Chain]
  | cons b bs ih =>
    cases cs with
    | nil => simp [Chain] at h
    | cons c cs =>
      cases ms with
      | nil => simp [Chain] at h
      | cons m ms =>
        simp only [Chain] at h
        have := ih h.2
        simp [this]

theorem chain_iff (R : FusionRule S) (a : S) (bs cs : List S) (ms : List Nat) :
    Chain R a bs cs ms ↔ cs.length = bs.length ∧ ms.length = bs.length ∧
      ∀ (n : Nat) (a' b' c' : S) (m : Nat), (a :: cs)[n]? = some a' → bs[n]? = some b' →
        cs[n]? = some c' → ms[n]? = some m → m < R.nSymbol a' b' c' := by
  induction bs generalizing a cs ms with
  | nil => cases cs <;> cases ms <;> simp [Chain]
  | cons b bs ih =>
    cases cs with
    | nil => simp [Chain]
    | cons c cs =>
      cases ms with
      | nil => simp [Chain]
      | cons m ms =>
        simp only [Chain, ih, List.length_cons]
        constructor
        · rintro ⟨h0, h1, h2, h3⟩
          refine ⟨by omega, by omega, ?_⟩
          intro n a' b' c' m' ha hb hc hm
          cases n with
          | zero => simp at ha hb hc hm; subst ha hb hc hm; exact h0
          | succ n =>
            simp at ha hb hc hm
            exact h3 n a' b' c' m' ha hb hc hm
        · rintro ⟨h1, h2, h3⟩
          refine ⟨h3 0 a b c m rfl rfl rfl rfl, by omega, by omega, ?_⟩
          intro n a' b' c' m' ha hb hc hm
          exact h3 (n+1) a' b' c' m' (by simpa using ha) (by simpa using hb)
            (by simpa using hc) (by simpa using hm)

theorem vertexLabels_eq (t : FusionTree S) (a : S) (bs : List S) (n : Nat)
    (hu : t.uncoupled = a :: bs) (hi : t.inner.length = bs.length - 1)
    (hn : n < bs.length) :
    t.vertexLabels n =
      match (a :: (t.inner ++ [t.coupled]))[n]?, bs[n]?, t.mult[n]?,
        (t.inner ++ [t.coupled])[n]? with
      | some a, some b, some m, some c => some (a, b, m, c)
      | _, _, _, _ => none := by
  have hc : (t.inner ++ [t.coupled])[n]? =
      if n = bs.length - 1 then some t.coupled else t.inner[n]? := by
    split
    · rename_i h; rw [List.getElem?_append_right (by omega)]; simp [hi, h]
    · rw [List.getElem?_append_left (by omega)]
  unfold vertexLabels
  rw [hc]
  cases n with
  | zero =>
    simp only [hu]
    cases bs with
    | nil => simp at hn
    | cons b bs =>
      simp only [List.length_cons, Nat.add_sub_cancel, List.getElem?_cons_zero,
        List.getElem?_cons_succ, if_true]
      generalize (if 0 = bs.length then some t.coupled else t.inner[0]?) = o2
      cases t.mult[0]? <;> cases o2 <;> rfl
  | succ n =>
    simp only [hu]
    have h1 : (a :: (t.inner ++ [t.coupled]))[n+1]? = t.inner[n]? := by
      simp only [List.getElem?_cons_succ]
      rw [List.getElem?_append_left (by omega)]
    rw [h1]
    simp only [List.length_cons, Nat.add_sub_cancel, List.getElem?_cons_succ,
      Nat.add_eq_zero_iff, one_ne_zero, and_false, if_false]
    generalize (if n + 1 = bs.length - 1 then some t.coupled else t.inner[n + 1]?) = o2
    cases t.mult[n+1]? <;> cases o2 <;> cases t.inner[n]? <;> cases bs[n+1]? <;> rfl

theorem sane_iff_chain (R : FusionRule S) (t : FusionTree S) (a b : S) (rest : List S)
    (hu : t.uncoupled = a :: b :: rest) :
    t.Sane R ↔ t.areDual.length = rest.length + 2 ∧
      Chain R a (b :: rest) (t.inner ++ [t.coupled]) t.mult := by
  constructor
  · intro h
    refine ⟨by simpa [hu] using h.len_dual, ?_⟩
    have hi : t.inner.length = rest.length := by simpa [hu] using h.len_inner
    have hm : t.mult.length = rest.length + 1 := by simpa [hu] using h.len_mult
    rw [chain_iff]
    refine ⟨by simp [hi], by simp [hm], ?_⟩
    intro n a' b' c' m ha hb hc hm'
    have hn : n < (b :: rest).length := by
      rcases List.getElem?_eq_some_iff.1 hb with ⟨h, _⟩; exact h
    obtain ⟨a1, b1, m1, c1, hv, _, hlt⟩ := h.vertices n (by simpa [hu] using hn)
    rw [vertexLabels_eq t a (b :: rest) n hu (by simp [hi]) hn, ha, hb, hc, hm'] at hv
    simp at hv
    obtain ⟨rfl, rfl, rfl, rfl⟩ := hv
    exact hlt
  · rintro ⟨hd, hch⟩
    obtain ⟨hl1, hl2⟩ := chain_length R hch
    rw [chain_iff] at hch
    have hi : t.inner.length = rest.length := by simpa using hl1
    have hm : t.mult.length = rest.length + 1 := by simpa using hl2
    refine ⟨by simp [hu, hd], by simp [hu, hi], by simp [hu, hm], by simp [hu], by simp [hu], ?_⟩
    intro n hn
    have hn' : n < (b :: rest).length := by simpa [hu] using hn
    rw [vertexLabels_eq t a (b :: rest) n hu (by simp [hi]) hn']
    have e1 : n < (a :: (t.inner ++ [t.coupled])).length := by simp at hn' ⊢; omega
    have e2 : n < t.mult.length := by simp at hn'; omega
    have e3 : n < (t.inner ++ [t.coupled]).length := by simp at hn' ⊢; omega
    refine ⟨_, _, _, _, by
      rw [List.getElem?_eq_getElem e1, List.getElem?_eq_getElem hn', List.getElem?_eq_getElem e2,
        List.getElem?_eq_getElem e3], ?_⟩
    have := hch.2.2 n _ _ _ _ (List.getElem?_eq_getElem e1) (List.getElem?_eq_getElem hn')
      (List.getElem?_eq_getElem e3) (List.getElem?_eq_getElem e2)
    exact ⟨by omega, this⟩

theorem sane_nil_iff (R : FusionRule S) (t : FusionTree S) (hu : t.uncoupled = []) :
    t.Sane R ↔ t.coupled = R.unit ∧ t.areDual = [] ∧ t.inner = [] ∧ t.mult = [] := by
  constructor
  · intro h
    have h1 := h.len_dual; have h2 := h.len_inner; have h3 := h.len_mult
    simp [hu] at h1 h2 h3
    exact ⟨h.zero_legs hu, h1, h2, h3⟩
  · rintro ⟨h0, h1, h2, h3⟩
    exact ⟨by simp [*], by simp [*], by simp [*], by simp [*], by simp [*], by simp [*]⟩

theorem sane_one_iff (R : FusionRule S) (t : FusionTree S) (a : S) (hu : t.uncoupled = [a]) :
    t.Sane R ↔ a = t.coupled ∧ t.areDual.length = 1 ∧ t.inner = [] ∧ t.mult = [] := by
  constructor
  · intro h
    have h1 := h.len_dual; have h2 := h.len_inner; have h3 := h.len_mult
    simp [hu] at h1 h2 h3
    exact ⟨h.one_leg a hu, h1, h2, h3⟩
  · rintro ⟨h0, h1, h2, h3⟩
    exact ⟨by simp [*], by simp [*], by simp [*], by simp [*], by simp [*], by simp [*]⟩

namespace FusionTrees

theorem mem_allTrees_chain (R : FusionRule S) (a b : S) (rest : List S) (c : S) (dual : List Bool)
    (hd : dual.length = rest.length + 2) (t : FusionTree S) :
    t ∈ allTrees R (a :: b :: rest) c dual ↔
      t.uncoupled = a :: b :: rest ∧ t.coupled = c ∧ t.areDual = dual ∧
      Chain R a (b :: rest) (t.inner ++ [c]) t.mult := by
  induction rest generalizing a b dual t with
  | nil =>
    rw [allTrees]
    simp only [List.mem_map, List.mem_range]
    constructor
    · rintro ⟨mu, hmu, rfl⟩
      simp [Chain, hmu]
    · rintro ⟨h1, h2, h3, h4⟩
      obtain ⟨u, co, d, inn, mu⟩ := t
      simp only at h1 h2 h3 h4
      obtain ⟨hl1, hl2⟩ := chain_length R h4
      simp at hl1 hl2
      subst hl1
      match mu, hl2 with
      | [m], _ =>
        simp only [List.nil_append, Chain] at h4
        exact ⟨m, h4.1, by simp [h1, h2, h3]⟩
  | cons a3 rest ih =>
    rw [allTrees]
    simp only [List.mem_flatMap, List.mem_map, List.mem_range]
    constructor
    · rintro ⟨x, hx, rt, hrt, mu, hmu, rfl⟩
      rw [ih x a3 (false :: dual.drop 2) (by simp [hd])] at hrt
      obtain ⟨h1, h2, h3, h4⟩ := hrt
      have hdd : dual.take 2 ++ dual.drop 2 = dual := List.take_append_drop 2 dual
      simp only [FusionTree.insert, h1, h2, h3]
      refine ⟨by simp, by simp, by simp [hdd], ?_⟩
      simp only [List.nil_append, List.take_succ_cons, List.take_zero, List.cons_append,
        List.set_cons_zero, Chain]
      exact ⟨by rw [nSymbol_of_mem R hx]; exact hmu, h4⟩
    · rintro ⟨h1, h2, h3, h4⟩
      obtain ⟨u, co, d, inn, mult⟩ := t
      simp only at h1 h2 h3 h4
      obtain ⟨hl1, hl2⟩ := chain_length R h4
      match inn, mult, hl1, hl2 with
      | x :: inn', m :: ms, hl1, hl2 =>
        simp only [List.cons_append, Chain] at h4
        obtain ⟨hm, hch⟩ := h4
        have hx : x ∈ R.outcomes a b := mem_of_nSymbol_pos R (by omega)
        refine ⟨x, hx, ⟨x :: a3 :: rest, c, false :: dual.drop 2, inn', ms⟩, ?_, m, ?_, ?_⟩
        · rw [ih x a3 (false :: dual.drop 2) (by simp [hd])]
          exact ⟨rfl, rfl, rfl, hch⟩
        · rw [nSymbol_of_mem R hx] at hm; exact hm
        · simp [FusionTree.insert, h1, h2, h3]
      | [], _, hl1, _ => simp at hl1
      | _ :: _, [], _, hl2 => simp at hl2

theorem length_allTrees (R : FusionRule S) (unc : List S) (c : S) (dual : List Bool) :
    (allTrees R unc c dual).length = size R unc c := by
  fun_induction allTrees R unc c dual with
  | case1 dual => simp [size, *]
  | case2 => simp [size, *]
  | case3 => simp [size]
  | case4 => simp [size, *]
  | case5 => simp [size]
  | case6 dual a1 a2 a3 rest ih =>
    rw [size]
    simp only [List.length_flatMap, List.length_map, List.length_range]
    congr 1
    apply List.map_congr_left
    intro b hb
    rw [← ih b]
    simp [mul_comm]

end FusionTrees
end Cyten
