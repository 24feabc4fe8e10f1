import Verif.Model.AbelianDecomp
import Verif.Lemmas.MaskContract
import Verif.Props.AbelianAlgebra
import Verif.Lemmas.Fusion2

/-! # Lemmas on the loop of the matrix decompositions -/

namespace Cyten.Props
open Cyten.Abelian Cyten.Abelian.Spec Cyten.Tables Cyten.Tools Cyten.ListSum Cyten.Spaces

variable {S K : Type}

/-- The block `p` belongs to the sector `s`. -/
def HasSec (cs ds : List S) (p : List ℕ × Blk K) (s : S) : Prop :=
  ∃ j k : ℕ, p.1 = [j, k] ∧ cs[j]? = some s ∧ ds[k]? = some s

theorem HasSec.unique {cs ds : List S} {p : List ℕ × Blk K} {s t : S} (h : HasSec cs ds p s)
    (h' : HasSec cs ds p t) : s = t := by
  obtain ⟨j, k, e, h1, -⟩ := h
  obtain ⟨j', k', e', h1', -⟩ := h'
  rw [e] at e'
  simp only [List.cons.injEq, and_true] at e'
  rw [e'.1, h1'] at h1
  exact (Option.some.inj h1).symm

theorem rowLt_pair (j k j' k' : ℕ) : RowLt [j, k] [j', k'] ↔ k < k' ∨ (k = k' ∧ j < j') := by
  rw [rowLt_key (n := 2) rfl rfl]
  simp [List.cons_lt_cons_iff]

theorem idxOf_getElem? [DecidableEq S] {l : List S} (hn : l.Nodup) {i : ℕ} {s : S}
    (h : l[i]? = some s) : l.idxOf s = i := by
  obtain ⟨hi, rfl⟩ := List.getElem?_eq_some_iff.1 h
  exact hn.idxOf_getElem i hi

theorem getElem?_idxOf [DecidableEq S] {l : List S} {s : S} (h : s ∈ l) :
    l[l.idxOf s]? = some s := by
  have hlt := List.idxOf_lt_length_iff.2 h
  rw [List.getElem?_eq_getElem hlt, List.getElem_idxOf]

section
variable [LinearOrder S]

theorem whereSector_eq (sym : Sym S) (e : ESpace S) (s : S) :
    whereSector sym e s = (e.sectors sym).idxOf s := by
  unfold whereSector List.idxOf
  rfl

/-- The first index with a second column that is at least the value. -/
theorem searchCol_spec (T : Ents K) (v : ℕ)
    (hs : ∀ a b : ℕ, a < b → ∀ p q, T[a]? = some p → T[b]? = some q → p.1.getD 1 0 ≤ q.1.getD 1 0) :
    ∀ fuel lo hi, hi ≤ T.length → lo ≤ hi → hi - lo ≤ fuel →
      (∀ a < lo, ∀ p, T[a]? = some p → p.1.getD 1 0 < v) →
      (∀ a, hi ≤ a → ∀ p, T[a]? = some p → v ≤ p.1.getD 1 0) →
      (∀ a < searchCol T v fuel lo hi, ∀ p, T[a]? = some p → p.1.getD 1 0 < v) ∧
      (∀ a, searchCol T v fuel lo hi ≤ a → ∀ p, T[a]? = some p → v ≤ p.1.getD 1 0) := by
  intro fuel
  induction fuel with
  | zero =>
    intro lo hi _ h1 h2 ha hb
    have : lo = hi := by omega
    subst this
    exact ⟨ha, hb⟩
  | succ fuel ih =>
    intro lo hi h0 h1 h2 ha hb
    unfold searchCol
    by_cases hlt : lo < hi
    · rw [if_pos hlt]
      simp only
      have hm : lo + (hi - lo) / 2 < T.length := by omega
      have hg : (T[lo + (hi - lo) / 2]?.map Prod.fst).getD [] = (T[lo + (hi - lo) / 2]).1 := by
        rw [List.getElem?_eq_getElem hm]; rfl
      rw [hg]
      by_cases hv : (T[lo + (hi - lo) / 2]).1.getD 1 0 < v
      · rw [if_pos hv]
        refine ih _ _ h0 (by omega) (by omega) ?_ hb
        intro a haa p hp
        rcases Nat.lt_or_ge a (lo + (hi - lo) / 2) with h | h
        · exact lt_of_le_of_lt (hs _ _ h p _ hp (List.getElem?_eq_getElem hm)) hv
        · have : a = lo + (hi - lo) / 2 := by omega
          subst this
          rw [List.getElem?_eq_getElem hm] at hp
          cases hp
          exact hv
      · rw [if_neg hv]
        refine ih _ _ (by omega) (by omega) (by omega) ha ?_
        intro a haa p hp
        rcases Nat.lt_or_ge (lo + (hi - lo) / 2) a with h | h
        · exact le_trans (not_lt.1 hv) (hs _ _ h _ p (List.getElem?_eq_getElem hm) hp)
        · have : a = lo + (hi - lo) / 2 := by omega
          subst this
          rw [List.getElem?_eq_getElem hm] at hp
          cases hp
          exact not_lt.1 hv
    · rw [if_neg hlt]
      have : lo = hi := by omega
      subst this
      exact ⟨ha, hb⟩

/-- What the loop needs of its arguments. -/
structure DecOK (sym : Sym S) (c d l : ESpace S) (T : Ents K) : Prop where
  codom : ValidSpace sym c
  dom : ValidSpace sym d
  leg : ValidSpace sym l
  inj : Function.Injective sym.dual
  common : ∀ s, s ∈ l.sectors sym ↔ s ∈ c.sectors sym ∧ s ∈ d.sectors sym
  sane : Sane [c.mults, d.mults] T
  secs : ∀ p ∈ T, ∃ s, HasSec (c.sectors sym) (d.sectors sym) p s

variable {sym : Sym S} {c d l : ESpace S} {T : Ents K}

theorem DecOK.cnd (H : DecOK sym c d l T) : (c.sectors sym).Nodup := sectors_nodup H.codom H.inj
theorem DecOK.dnd (H : DecOK sym c d l T) : (d.sectors sym).Nodup := sectors_nodup H.dom H.inj
theorem DecOK.lnd (H : DecOK sym c d l T) : (l.sectors sym).Nodup := sectors_nodup H.leg H.inj

/-- The second column increases strictly. -/
theorem DecOK.col1 (H : DecOK sym c d l T) (a b : ℕ) (hab : a < b) (p q : List ℕ × Blk K)
    (hp : T[a]? = some p) (hq : T[b]? = some q) : p.1.getD 1 0 < q.1.getD 1 0 := by
  have hs := H.sane.sorted
  unfold StrictlySorted at hs
  rw [List.pairwise_map] at hs
  obtain ⟨ha, rfl⟩ := List.getElem?_eq_some_iff.1 hp
  obtain ⟨hb, rfl⟩ := List.getElem?_eq_some_iff.1 hq
  have h := List.pairwise_iff_getElem.1 hs a b ha hb hab
  obtain ⟨s, j, k, e, h1, h2⟩ := H.secs _ (List.getElem_mem ha)
  obtain ⟨s', j', k', e', h1', h2'⟩ := H.secs _ (List.getElem_mem hb)
  rw [e, e'] at h ⊢
  rcases (rowLt_pair _ _ _ _).1 h with h | ⟨rfl, hj⟩
  · exact h
  · exfalso
    rw [h2] at h2'
    cases h2'
    have := (List.getElem?_inj (List.getElem?_eq_some_iff.1 h1).1 H.cnd).1 (h1.trans h1'.symm)
    omega

theorem sectors_nondual {e : ESpace S} (h : e.isDual = false) : e.sectors sym = e.defining := by
  unfold ESpace.sectors
  rw [if_neg (by simp [h])]

theorem tpSectors_nondual {e : ESpace S} (h : e.isDual = false) : tpSectors sym e = e.sectors sym := by
  unfold tpSectors sortedSpace
  rw [if_pos (by simp [ESpace.toSpace, h])]
  rfl

theorem goodSpace_toSpace_decomp {e : ESpace S} (hv : ValidSpace sym e) (hinj : Function.Injective sym.dual) :
    GoodSpace (e.toSpace sym) := by
  refine ⟨sectors_length hv, sectors_nodup hv hinj, fun ho => ?_⟩
  have hd : e.isDual = false := by
    by_contra hc
    simp [ESpace.toSpace, hc] at ho
  show (e.sectors sym).Pairwise _
  rw [sectors_nondual hd]
  exact hv.sorted

theorem tpSectors_sorted {e : ESpace S} (hv : ValidSpace sym e) (hinj : Function.Injective sym.dual) :
    (tpSectors sym e).Pairwise (· < ·) := (sortedSpace_norm _ (goodSpace_toSpace_decomp hv hinj)).sorted

theorem mem_tpSectors (e : ESpace S) (s : S) : s ∈ tpSectors sym e ↔ s ∈ e.sectors sym := by
  unfold tpSectors sortedSpace
  split
  · rfl
  · have hp : (gather (e.sectors sym) (lexsortIndices (e.sectors sym))).Perm (e.sectors sym) := by
      have := sortSectors_map (e.sectors sym) id (fun _ => 0)
      have h2 := congrArg Prod.fst this
      simp only [sortSectors, List.map_id] at h2
      rw [h2]
      exact sortBy_perm _ _
    exact hp.mem_iff

/-- The list of common sectors. -/
theorem commonPairs_spec (hc : ValidSpace sym c) (hd : ValidSpace sym d)
    (hinj : Function.Injective sym.dual) :
    ((commonPairs sym c d).map Prod.fst).Pairwise (· < ·) ∧
    (∀ t ∈ commonPairs sym c d, (tpSectors sym c)[t.2.1]? = some t.1 ∧
      (tpSectors sym d)[t.2.2]? = some t.1) ∧
    (∀ s, s ∈ (commonPairs sym c d).map Prod.fst ↔ s ∈ c.sectors sym ∧ s ∈ d.sectors sym) := by
  have sx := tpSectors_sorted hc hinj
  have sy := tpSectors_sorted hd hinj
  unfold commonPairs
  simp only [iterCommonSorted, Bool.not_true, Bool.and_self, Bool.false_eq_true, if_false,
    Option.getD_some]
  have hmem := mem_commonLoop compare (id : S → S) true true (Or.inl rfl) _ 0 (tpSectors sym c) 0
    (tpSectors sym d) le_rfl
    (fun a _ b _ => ⟨compare_lt_iff_lt, compare_eq_iff_eq, compare_gt_iff_gt⟩)
    (sx.imp fun h => h.le) (sy.imp fun h => h.le) (fun _ => sx) (fun _ => sy)
  have hsorted := commonLoop_sorted (compare : S → S → Ordering) true true
    ((tpSectors sym c).length + (tpSectors sym d).length) 0 (tpSectors sym c) 0 (tpSectors sym d)
  set L := commonLoop compare true true ((tpSectors sym c).length + (tpSectors sym d).length) 0
    (tpSectors sym c) 0 (tpSectors sym d)
  have hM : ∀ (i j : ℕ), (i, j) ∈ L ↔ ∃ s, (tpSectors sym c)[i]? = some s ∧
      (tpSectors sym d)[j]? = some s := by
    intro i j
    rw [hmem]
    constructor
    · rintro ⟨k, l, a, b, h1, h2, h3, h4⟩
      simp only [id] at h3
      subst h3
      simp only [Nat.zero_add, Prod.mk.injEq] at h4
      obtain ⟨rfl, rfl⟩ := h4
      exact ⟨a, h1, h2⟩
    · rintro ⟨s, h1, h2⟩
      exact ⟨i, j, s, s, h1, h2, rfl, by simp⟩
  have hT : ∀ t, t ∈ L.filterMap (fun p => (tpSectors sym c)[p.1]?.map fun s => (s, p.1, p.2)) ↔
      (tpSectors sym c)[t.2.1]? = some t.1 ∧ (tpSectors sym d)[t.2.2]? = some t.1 := by
    rintro ⟨s, i, j⟩
    rw [List.mem_filterMap]
    constructor
    · rintro ⟨⟨i', j'⟩, hm, he⟩
      obtain ⟨s', h1, h2⟩ := (hM _ _).1 hm
      simp only [h1, Option.map_some, Option.some.injEq, Prod.mk.injEq] at he
      obtain ⟨rfl, rfl, rfl⟩ := he
      exact ⟨h1, h2⟩
    · rintro ⟨h1, h2⟩
      exact ⟨(i, j), (hM _ _).2 ⟨s, h1, h2⟩, by simp only at h1; simp [h1]⟩
  refine ⟨?_, fun t ht => (hT t).1 ht, fun s => ?_⟩
  · rw [List.pairwise_map, List.pairwise_filterMap]
    refine hsorted.imp fun {p q} h t ht u hu => ?_
    have hlt : p.1 < q.1 := h.2.2.1 rfl
    obtain ⟨a, ha, rfl⟩ := Option.map_eq_some_iff.1 ht
    obtain ⟨b, hb, rfl⟩ := Option.map_eq_some_iff.1 hu
    obtain ⟨h1, rfl⟩ := List.getElem?_eq_some_iff.1 ha
    obtain ⟨h2, rfl⟩ := List.getElem?_eq_some_iff.1 hb
    exact List.pairwise_iff_getElem.1 sx _ _ h1 h2 hlt
  · rw [← mem_tpSectors (sym := sym) c, ← mem_tpSectors (sym := sym) d, List.mem_map]
    constructor
    · rintro ⟨t, ht, rfl⟩
      obtain ⟨h1, h2⟩ := (hT t).1 ht
      exact ⟨List.mem_of_getElem? h1, List.mem_of_getElem? h2⟩
    · rintro ⟨h1, h2⟩
      exact ⟨(s, _, _), (hT _).2 ⟨getElem?_idxOf h1, getElem?_idxOf h2⟩, rfl⟩

/-- The item of the common sector `s`. -/
def itemOf (sym : Sym S) (c d l : ESpace S) (T : Ents K) (s : S) : DecItem K :=
  ⟨(c.sectors sym).idxOf s, (d.sectors sym).idxOf s, (l.sectors sym).idxOf s,
    getBlock T [(c.sectors sym).idxOf s, (d.sectors sym).idxOf s]⟩

theorem blockAt_eq (T : Ents K) (i j : ℕ) (p : List ℕ × Blk K) (h : T[i]? = some p) :
    blockAt T i j = if p.1.getD 0 0 = j then some p.2 else none := by
  unfold blockAt
  rw [h]
  rfl

theorem blockAt_none (T : Ents K) (i j : ℕ) (h : T[i]? = none) : blockAt T i j = none := by
  unfold blockAt
  rw [h]
  rfl

/-- A block with the first index of the sector `s` belongs to `s`. -/
theorem DecOK.sec_of_col0 (H : DecOK sym c d l T) {p : List ℕ × Blk K} (hp : p ∈ T) {s : S}
    (hs : s ∈ c.sectors sym) (h : p.1.getD 0 0 = (c.sectors sym).idxOf s) :
    HasSec (c.sectors sym) (d.sectors sym) p s := by
  obtain ⟨t, j, k, e, h1, h2⟩ := H.secs p hp
  rw [e] at h
  simp only [List.getD_cons_zero] at h
  rw [h, getElem?_idxOf hs] at h1
  cases h1
  exact ⟨j, k, e, h ▸ getElem?_idxOf hs, h2⟩

theorem DecOK.row_of_sec (H : DecOK sym c d l T) {p : List ℕ × Blk K} {s : S}
    (h : HasSec (c.sectors sym) (d.sectors sym) p s) :
    p.1 = [(c.sectors sym).idxOf s, (d.sectors sym).idxOf s] := by
  obtain ⟨j, k, e, h1, h2⟩ := h
  rw [e, idxOf_getElem? H.cnd h1, idxOf_getElem? H.dnd h2]

theorem DecOK.sec_lt (H : DecOK sym c d l T) (hd : d.isDual = false) {a b : ℕ} (hab : a < b)
    {p q : List ℕ × Blk K} (hp : T[a]? = some p) (hq : T[b]? = some q) {s t : S}
    (hs : HasSec (c.sectors sym) (d.sectors sym) p s)
    (ht : HasSec (c.sectors sym) (d.sectors sym) q t) : s < t := by
  have h := H.col1 a b hab p q hp hq
  obtain ⟨j, k, e, -, h2⟩ := hs
  obtain ⟨j', k', e', -, h2'⟩ := ht
  rw [e, e'] at h
  simp only [List.getD_cons_succ, List.getD_cons_zero] at h
  rw [sectors_nondual hd] at h2 h2'
  obtain ⟨i1, rfl⟩ := List.getElem?_eq_some_iff.1 h2
  obtain ⟨i2, rfl⟩ := List.getElem?_eq_some_iff.1 h2'
  exact List.pairwise_iff_getElem.1 H.dom.sorted _ _ i1 i2 h

variable [AddCommMonoid K]

/-- The block found by the search in the second column. -/
theorem DecOK.blockAt_search (H : DecOK sym c d l T) {s : S} (hc : s ∈ c.sectors sym) :
    blockAt T (searchCol T ((d.sectors sym).idxOf s) T.length 0 T.length) ((c.sectors sym).idxOf s) =
      getBlock T [(c.sectors sym).idxOf s, (d.sectors sym).idxOf s] := by
  obtain ⟨hlt, hge⟩ := searchCol_spec T ((d.sectors sym).idxOf s)
    (fun a b hab p q hp hq => (H.col1 a b hab p q hp hq).le) T.length 0 T.length le_rfl
    (Nat.zero_le _) (by omega) (fun a ha => by omega) (fun a ha p hp => by
      rw [List.getElem?_eq_none ha] at hp; cases hp)
  set i := searchCol T ((d.sectors sym).idxOf s) T.length 0 T.length
  by_cases hex : ∃ p ∈ T, p.1 = [(c.sectors sym).idxOf s, (d.sectors sym).idxOf s]
  · obtain ⟨p, hp, he⟩ := hex
    rw [← he, H.sane.getBlock_of_mem hp]
    obtain ⟨m, hm⟩ := List.mem_iff_getElem?.1 hp
    have hmi : m = i := by
      rcases Nat.lt_trichotomy m i with h | h | h
      · have := hlt m h p hm
        rw [he] at this
        simp at this
      · exact h
      · have hmlt := (List.getElem?_eq_some_iff.1 hm).1
        have hi : i < T.length := by omega
        have h1 := hge i le_rfl _ (List.getElem?_eq_getElem hi)
        have h2 := H.col1 i m h _ p (List.getElem?_eq_getElem hi) hm
        rw [he] at h2
        simp only [List.getD_cons_succ, List.getD_cons_zero] at h2
        omega
    rw [hmi] at hm
    rw [blockAt_eq T _ _ p hm, if_pos (by rw [he]; rfl)]
  · push Not at hex
    rw [getBlock_none hex]
    cases hT : T[i]? with
    | none => exact blockAt_none T _ _ hT
    | some p =>
      rw [blockAt_eq T _ _ p hT, if_neg]
      intro h
      have hp := List.mem_of_getElem? hT
      exact hex p hp (H.row_of_sec (H.sec_of_col0 hp hc h))

/-- The rounds of the loop: one item per common sector. -/
theorem decLoop_eq (H : DecOK sym c d l T) : ∀ (L : List (S × ℕ × ℕ)) (n i : ℕ),
    (L.map Prod.fst).Pairwise (· < ·) →
    (∀ t ∈ L, (tpSectors sym c)[t.2.1]? = some t.1 ∧ (tpSectors sym d)[t.2.2]? = some t.1) →
    (l.isDual = false → (l.sectors sym).drop n = L.map Prod.fst) →
    (d.isDual = false → (∀ a < i, ∀ p, T[a]? = some p → ∀ s,
        HasSec (c.sectors sym) (d.sectors sym) p s → s ∉ L.map Prod.fst) ∧
      (∀ a, i ≤ a → ∀ p, T[a]? = some p → ∀ s, HasSec (c.sectors sym) (d.sectors sym) p s →
        s ∈ L.map Prod.fst)) →
    decLoop sym c d l T n i L = L.map fun t => itemOf sym c d l T t.1 := by
  intro L
  induction L with
  | nil => intros; rfl
  | cons t L ih =>
    obtain ⟨s, j0, k0⟩ := t
    intro n i hsort htp hleg hrun
    unfold decLoop
    obtain ⟨h1, h2⟩ := htp _ List.mem_cons_self
    simp only at h1 h2
    have hsc : s ∈ c.sectors sym := (mem_tpSectors c s).1 (List.mem_of_getElem? h1)
    have hsd : s ∈ d.sectors sym := (mem_tpSectors d s).1 (List.mem_of_getElem? h2)
    have hsl : s ∈ l.sectors sym := (H.common s).2 ⟨hsc, hsd⟩
    have hj : (if c.isDual = true then whereSector sym c s else j0) = (c.sectors sym).idxOf s := by
      cases hcd : c.isDual with
      | true => rw [if_pos rfl, whereSector_eq]
      | false =>
        rw [if_neg (by simp)]
        rw [tpSectors_nondual hcd] at h1
        exact (idxOf_getElem? H.cnd h1).symm
    have hk : (if d.isDual = true then whereSector sym d s else k0) = (d.sectors sym).idxOf s := by
      cases hcd : d.isDual with
      | true => rw [if_pos rfl, whereSector_eq]
      | false =>
        rw [if_neg (by simp)]
        rw [tpSectors_nondual hcd] at h2
        exact (idxOf_getElem? H.dnd h2).symm
    have hn : (if l.isDual = true then whereSector sym l s else n) = (l.sectors sym).idxOf s := by
      cases hcd : l.isDual with
      | true => rw [if_pos rfl, whereSector_eq]
      | false =>
        rw [if_neg (by simp)]
        have h3 := hleg hcd
        have : (l.sectors sym)[n]? = some s := by
          have := congrArg (·[0]?) h3
          simpa using this
        exact (idxOf_getElem? H.lnd this).symm
    simp only [hj, hk, hn]
    have hsort' := List.pairwise_cons.1 (List.map_cons ▸ hsort)
    have hleg' : l.isDual = false → (l.sectors sym).drop (n + 1) = L.map Prod.fst := by
      intro h
      have := hleg h
      rw [List.map_cons] at this
      rw [← List.tail_drop, this]
      rfl
    have hnot : s ∉ L.map Prod.fst := fun h => lt_irrefl _ (hsort'.1 s h)
    have htp' : ∀ t ∈ L, (tpSectors sym c)[t.2.1]? = some t.1 ∧ (tpSectors sym d)[t.2.2]? = some t.1 :=
      fun t ht => htp t (List.mem_cons_of_mem _ ht)
    cases hdd : d.isDual with
    | true =>
      simp only [if_true]
      rw [H.blockAt_search hsc]
      rw [ih (n + 1) _ hsort'.2 htp' hleg' (by rw [hdd]; simp)]
      rfl
    | false =>
      simp only [Bool.false_eq_true, if_false]
      obtain ⟨hbef, haft⟩ := hrun hdd
      by_cases hex : ∃ p, T[i]? = some p ∧ HasSec (c.sectors sym) (d.sectors sym) p s
      · obtain ⟨p, hp, hsec⟩ := hex
        have hrow := H.row_of_sec hsec
        have hb : blockAt T i ((c.sectors sym).idxOf s) = some p.2 := by
          rw [blockAt_eq T _ _ p hp, if_pos (by rw [hrow]; rfl)]
        have hg : getBlock T [(c.sectors sym).idxOf s, (d.sectors sym).idxOf s] = some p.2 := by
          rw [← hrow]; exact H.sane.getBlock_of_mem (List.mem_of_getElem? hp)
        rw [hb, Option.isSome_some, if_pos rfl]
        rw [ih (n + 1) (i + 1) hsort'.2 htp' hleg' ?_]
        · rw [List.map_cons]
          congr 1
          unfold itemOf
          rw [hg]
        · intro _
          refine ⟨fun a ha q hq t ht hm => ?_, fun a ha q hq t ht => ?_⟩
          · rcases Nat.lt_or_ge a i with h | h
            · exact hbef a h q hq t ht (List.mem_cons_of_mem _ hm)
            · have : a = i := by omega
              subst this
              rw [hp] at hq
              cases hq
              rw [ht.unique hsec] at hm
              exact hnot hm
          · have h3 := haft a (by omega) q hq t ht
            rw [List.map_cons, List.mem_cons] at h3
            rcases h3 with rfl | h3
            · exact absurd (H.sec_lt hdd (by omega : i < a) hp hq hsec ht) (lt_irrefl _)
            · exact h3
      · have hnone : ∀ a, i ≤ a → ∀ p, T[a]? = some p → ¬ HasSec (c.sectors sym) (d.sectors sym) p s := by
          intro a ha p hp hsec
          rcases Nat.lt_or_eq_of_le ha with h | h
          · have hlt : i < T.length := lt_trans h (List.getElem?_eq_some_iff.1 hp).1
            obtain ⟨t, ht⟩ := H.secs _ (List.getElem_mem hlt)
            have h3 := haft i le_rfl _ (List.getElem?_eq_getElem hlt) t ht
            have h4 := H.sec_lt hdd h (List.getElem?_eq_getElem hlt) hp ht hsec
            rw [List.map_cons, List.mem_cons] at h3
            rcases h3 with rfl | h3
            · exact lt_irrefl _ h4
            · exact lt_asymm h4 (hsort'.1 t h3)
          · subst h
            exact hex ⟨p, hp, hsec⟩
        have hb : blockAt T i ((c.sectors sym).idxOf s) = none := by
          cases hT : T[i]? with
          | none => exact blockAt_none T _ _ hT
          | some p =>
            rw [blockAt_eq T _ _ p hT, if_neg]
            intro h
            exact hnone i le_rfl p hT (H.sec_of_col0 (List.mem_of_getElem? hT) hsc h)
        have hg : getBlock T [(c.sectors sym).idxOf s, (d.sectors sym).idxOf s] = none := by
          refine getBlock_none fun p hp he => ?_
          obtain ⟨a, ha⟩ := List.mem_iff_getElem?.1 hp
          have hsec : HasSec (c.sectors sym) (d.sectors sym) p s :=
            ⟨_, _, he, getElem?_idxOf hsc, getElem?_idxOf hsd⟩
          rcases Nat.lt_or_ge a i with h | h
          · exact hbef a h p ha s hsec (by simp)
          · exact hnone a h p ha hsec
        rw [hb, Option.isSome_none, if_neg (by simp)]
        rw [ih (n + 1) i hsort'.2 htp' hleg' ?_]
        · rw [List.map_cons]
          congr 1
          unfold itemOf
          rw [hg]
        · intro _
          refine ⟨fun a ha q hq t ht hm => hbef a ha q hq t ht (List.mem_cons_of_mem _ hm),
            fun a ha q hq t ht => ?_⟩
          have h3 := haft a ha q hq t ht
          rw [List.map_cons, List.mem_cons] at h3
          rcases h3 with rfl | h3
          · exact absurd ht (hnone a ha q hq)
          · exact h3

/-- The items of a decomposition: one for each common sector, in the order of the sectors. -/
theorem decItems_eq (H : DecOK sym c d l T) :
    ∃ ss : List S, ss.Pairwise (· < ·) ∧ (∀ s, s ∈ ss ↔ s ∈ c.sectors sym ∧ s ∈ d.sectors sym) ∧
      decItems sym c d l T = ss.map (itemOf sym c d l T) := by
  obtain ⟨h1, h2, h3⟩ := commonPairs_spec H.codom H.dom H.inj
  refine ⟨(commonPairs sym c d).map Prod.fst, h1, h3, ?_⟩
  unfold decItems
  rw [decLoop_eq H _ 0 0 h1 h2, List.map_map]
  · rfl
  · intro h
    rw [List.drop_zero]
    refine List.Perm.eq_of_pairwise (le := (· < ·)) (fun a b _ _ ha hb => absurd hb (lt_asymm ha)) ?_ h1 ?_
    · rw [sectors_nondual h]; exact H.leg.sorted
    · refine (List.perm_ext_iff_of_nodup H.lnd (h1.imp fun h => ne_of_lt h)).2 fun s => ?_
      rw [H.common, h3]
  · intro _
    refine ⟨fun a ha => by omega, fun a _ p hp s hs => (h3 s).2 ?_⟩
    obtain ⟨j, k, -, h4, h5⟩ := hs
    exact ⟨List.mem_of_getElem? h4, List.mem_of_getElem? h5⟩

end

end Cyten.Props
