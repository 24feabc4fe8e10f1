import Verif.Lemmas.TreePermute6
import Verif.Lemmas.PermuteNoBend
import Verif.Model.FactorizedMapping

/-! # The factorized mapping of fusion trees -/

namespace Cyten.FT
open Cyten.FT.Spec Cyten.Tools Cyten.ListSum Cyten.Props Cyten.Spaces Cyten.Spaces.Spec Cyten.Abelian
  Cyten.FusionTrees Cyten.Mappings Cyten.Permute

variable {S K : Type} [LinearOrder S] [CommRing K] [StarRing K]

/-- A linear combination of trees with the same tensor -/
structure TreeCol (R : FusionRule S) (T : FTensors S K) (cj : Bool) (sec : ℕ → S) (flag : ℕ → Bool) (l : List ℕ) (co : S)
    (v : (ℕ → ℕ) → ℕ → K) (col : UMap (FusionTree S) K) : Prop where
  nodup : (col.map Prod.fst).Nodup
  good : ∀ p ∈ col, p.1.Sane R ∧ p.1.coupled = co ∧ p.1.uncoupled = l.map sec ∧ p.1.areDual = l.map flag
  sum : ∀ idx : ℕ → ℕ, (∀ x ∈ l, idx x < T.dim (sec x)) → ∀ k < T.dim co,
    colSum col (fun X => conjIf cj (treeTensor T X (l.map idx) k)) = v idx k

section
variable {R : FusionRule S} {T : FTensors S K} {D : Topo S K}

theorem conjIf_sum_mul {A : Type} (cj : Bool) (l : List A) (f g : A → K) :
    conjIf cj ((l.map fun p => conjIf cj (f p) * g p).sum) = (l.map fun p => f p * conjIf cj (g p)).sum := by
  cases cj
  · simp [conjIf]
  · simp only [conjIf, if_true]
    rw [star_lsum]
    exact sum_congr _ fun p _ => by rw [star_mul', star_star]

theorem braid_treeCol (hL : GroupLaws R T D) {small : K → Bool} (hS : CutoffExact D small) (ov cj : Bool)
    {sec : ℕ → S} {flag : ℕ → Bool} {l : List ℕ} (t : FusionTree S) (h : t.Sane R) (hu : t.uncoupled = l.map sec)
    (hf : t.areDual = l.map flag) (j : ℕ) (hj : j + 1 < l.length) :
    ∃ r, braid R D small t j ov cj = some r ∧
      (∀ p ∈ r, p.1.Sane R ∧ p.1.coupled = t.coupled ∧ p.1.uncoupled = (swapNext l j).map sec ∧
        p.1.areDual = (swapNext l j).map flag) ∧
      ∀ idx : ℕ → ℕ, (∀ x ∈ l, idx x < T.dim (sec x)) → ∀ k < T.dim t.coupled,
        colSum r (fun X => conjIf cj (treeTensor T X ((swapNext l j).map idx) k)) =
          conjIf cj (treeTensor T t (l.map idx) k) := by
  obtain ⟨r, h1, h2⟩ := braid_spec (T := T) hL hS ov cj _ t h rfl j (by rw [hu]; simpa using hj)
  refine ⟨r, h1, fun p hp => ?_, fun idx hi k hk => ?_⟩
  · obtain ⟨g1, g2, g3, g4⟩ := h2.tree p hp
    exact ⟨g1, g2, by rw [g3, hu, map_swapNext], by rw [g4, hf, map_swapNext]⟩
  · rw [← h2.sum (l.map idx) (by
      rw [hu]
      exact inDims_left (d := []) fun x hx => hi x (by simpa using hx)) k hk, conjIf_sum_mul]
    unfold colSum
    simp only [map_swapNext]

theorem braid_nodup (hR : R.Lawful) {small : K → Bool} (t : FusionTree S) (h : t.Sane R) (j : ℕ)
    (hj : j + 1 < t.uncoupled.length) (ov cj : Bool) {l : UMap (FusionTree S) K} (hl : braid R D small t j ov cj = some l) :
    (l.map Prod.fst).Nodup := by
  unfold braid at hl
  by_cases h0 : j = 0
  · rw [if_pos h0] at hl
    split at hl
    · obtain rfl := Option.some.inj hl
      simp
    · cases hl
  · rw [if_neg h0] at hl
    split at hl
    · obtain rfl := Option.some.inj hl
      refine (List.Nodup.sublist (List.Sublist.map _ List.filter_sublist) ?_)
      rw [List.map_map]
      refine List.Nodup.map ?_ (channels_nodup R hR _ _ _ _)
      rintro ⟨f, ka, la⟩ ⟨f', ka', la'⟩ he
      have e1 : t.inner.set (j - 1) f = t.inner.set (j - 1) f' := congrArg FusionTree.inner he
      have e2 : (t.mult.set (j - 1) ka).set j la = (t.mult.set (j - 1) ka').set j la' := congrArg FusionTree.mult he
      have hi := h.len_inner
      have hm := h.len_mult
      have f1 := congrArg (fun l => l[j - 1]?) e1
      have f2 := congrArg (fun l => l[j - 1]?) e2
      have f3 := congrArg (fun l => l[j]?) e2
      have a1 : j - 1 < t.inner.length := by omega
      have a2 : j - 1 < t.mult.length := by omega
      have a3 : j < t.mult.length := by omega
      have a4 : j ≠ j - 1 := by omega
      simp only [List.getElem?_set_self a1] at f1
      simp only [List.getElem?_set_ne a4, List.getElem?_set_self a2] at f2
      rw [List.getElem?_set_self (by simpa using a3), List.getElem?_set_self (by simpa using a3)] at f3
      simp only [Option.some.injEq] at f1 f2 f3
      rw [f1, f2, f3]
    · cases hl

/-- The mapping as a sparse mapping -/
def TMap.toSparse : TMap S K → SMap (FusionTree S) K
  | .ident keys => keys.map fun i => (i, [(i, 1)])
  | .sparse m => m

/-- The invariant of the mapping -/
structure TMapOK (R : FusionRule S) (T : FTensors S K) (cj : Bool) (sec : FusionTree S → ℕ → S) (flag : ℕ → Bool)
    (l0 l : List ℕ) (keys : List (FusionTree S)) (m : TMap S K) : Prop where
  keys : m.toSparse.map Prod.fst = keys
  col : ∀ p ∈ m.toSparse, TreeCol R T cj (sec p.1) flag l p.1.coupled
    (fun idx k => conjIf cj (treeTensor T p.1 (l0.map idx) k)) p.2
  ident : ∀ ks, m = .ident ks → l = l0

theorem mem_rows' {m : SMap (FusionTree S) K} {p : FusionTree S × UMap (FusionTree S) K} (hp : p ∈ m)
    {q : FusionTree S × K} (hq : q ∈ p.2) : q.1 ∈ nonzeroRows m :=
  List.mem_flatMap.2 ⟨p, hp, List.mem_map_of_mem hq⟩

theorem filterMap_find {A : Type} [DecidableEq A] (other : SMap A K) (keys : List A) (f : A → UMap A K)
    (h : ∀ k ∈ keys, other.find k = some (f k)) :
    idPreCompose keys other = keys.map fun k => (k, f k) := by
  unfold idPreCompose
  induction keys with
  | nil => rfl
  | cons k keys ih =>
    rw [List.filterMap_cons, h k List.mem_cons_self, ih fun x hx => h x (List.mem_cons_of_mem _ hx)]
    rfl

theorem step_ok (hL : GroupLaws R T D) (hR : R.Lawful) {small : K → Bool} (hS : CutoffExact D small) (ov cj : Bool)
    {sec : FusionTree S → ℕ → S} {flag : ℕ → Bool} {l0 l : List ℕ} {keys : List (FusionTree S)} {m : TMap S K}
    (h : TMapOK R T cj sec flag l0 l keys m) (j : ℕ) (hj : j + 1 < l.length) :
    ∃ m', m.step (fun X => braid R D small X j ov cj) = some m' ∧
      TMapOK R T cj sec flag l0 (swapNext l j) keys m' := by
  -- each tree of a column
  have hb : ∀ p ∈ m.toSparse, ∀ q ∈ p.2, ∃ r, braid R D small q.1 j ov cj = some r ∧
      (∀ p' ∈ r, p'.1.Sane R ∧ p'.1.coupled = q.1.coupled ∧ p'.1.uncoupled = (swapNext l j).map (sec p.1) ∧
        p'.1.areDual = (swapNext l j).map flag) ∧
      ∀ idx : ℕ → ℕ, (∀ x ∈ l, idx x < T.dim (sec p.1 x)) → ∀ k < T.dim q.1.coupled,
        colSum r (fun X => conjIf cj (treeTensor T X ((swapNext l j).map idx) k)) =
          conjIf cj (treeTensor T q.1 (l.map idx) k) := by
    intro p hp q hq
    obtain ⟨g1, g2, g3, g4⟩ := (h.col p hp).good q hq
    exact braid_treeCol hL hS ov cj q.1 g1 g3 g4 j hj
  -- the rows
  have hrow : ∀ X ∈ m.rows, ∃ p ∈ m.toSparse, ∃ q ∈ p.2, q.1 = X := by
    intro X hX
    cases m with
    | ident ks => exact ⟨(X, [(X, 1)]), List.mem_map_of_mem hX, (X, 1), List.mem_cons_self, rfl⟩
    | sparse m =>
      obtain ⟨p, hp, hq⟩ := List.mem_flatMap.1 (List.mem_dedup.1 hX)
      obtain ⟨q, hq', e⟩ := List.mem_map.1 (show _ ∈ p.2.map _ from hq)
      exact ⟨p, hp, q, hq', e⟩
  obtain ⟨tm, t1, t2⟩ := find_mapM (fun X => braid R D small X j ov cj) m.rows fun X hX => by
    obtain ⟨p, hp, q, hq, rfl⟩ := hrow X hX
    obtain ⟨r, hr, -⟩ := hb p hp q hq
    rw [hr]; rfl
  -- the new column
  have hcol : ∀ p ∈ m.toSparse, TreeCol R T cj (sec p.1) flag (swapNext l j) p.1.coupled
      (fun idx k => conjIf cj (treeTensor T p.1 (l0.map idx) k))
      (bindCol p.2 fun a => (braid R D small a j ov cj).getD []) := by
    intro p hp
    obtain ⟨h1, h2, h3⟩ := bindCol_spec p.2 fun a => (braid R D small a j ov cj).getD []
    refine ⟨h1, fun x hx => ?_, fun idx hi k hk => ?_⟩
    · obtain ⟨q, hq, hx'⟩ := h2 x.1 (List.mem_map_of_mem hx)
      obtain ⟨r, hr, hg, -⟩ := hb p hp q hq
      rw [hr] at hx'
      obtain ⟨y, hy, hyx⟩ := List.mem_map.1 hx'
      obtain ⟨g1, g2, g3, g4⟩ := hg y hy
      rw [← hyx]
      exact ⟨g1, g2.trans ((h.col p hp).good q hq).2.1, g3, g4⟩
    · have hi' : ∀ x ∈ l, idx x < T.dim (sec p.1 x) := fun x hx => hi x (mem_swapNext _ _ _ hx)
      rw [h3, ← (h.col p hp).sum idx hi' k hk]
      unfold colSum
      refine sum_congr _ fun q hq => ?_
      obtain ⟨r, hr, -, hs⟩ := hb p hp q hq
      have := hs idx hi' k (by rw [((h.col p hp).good q hq).2.1]; exact hk)
      unfold colSum at this
      simp only
      rw [hr]
      simp only [Option.getD_some]
      rw [this]
  refine ⟨m.preCompose tm, ?_, ?_⟩
  · unfold TMap.step; rw [t1]; rfl
  cases m with
  | sparse m =>
    refine ⟨?_, fun p hp => ?_, fun ks hk => by cases hk⟩
    · rw [← h.keys]
      simp [TMap.preCompose, TMap.toSparse, Mappings.preCompose]
    · obtain ⟨p0, hp0, rfl⟩ := List.mem_map.1 hp
      have := hcol p0 hp0
      simp only
      rw [composeColumn_eq]
      have e : (bindCol p0.2 fun a => (tm.find a).getD []) =
          bindCol p0.2 fun a => (braid R D small a j ov cj).getD [] := by
        unfold bindCol
        refine List.foldl_ext _ _ _ fun res q hq => ?_
        simp only
        rw [t2 q.1 (List.mem_dedup.2 (mem_rows' hp0 hq))]
      rw [e]
      exact this
  | ident ks =>
    have e : idPreCompose ks tm = ks.map fun k => (k, (braid R D small k j ov cj).getD []) := by
      refine filterMap_find tm ks _ fun k hk => ?_
      rw [t2 k hk]
      obtain ⟨p, hp, q, hq, rfl⟩ := hrow k hk
      obtain ⟨r, hr, -⟩ := hb p hp q hq
      rw [hr]; rfl
    refine ⟨?_, fun p hp => ?_, fun ks hk => by cases hk⟩
    · rw [← h.keys]
      simp only [TMap.preCompose, TMap.toSparse, e, List.map_map]
      rfl
    · simp only [TMap.preCompose, TMap.toSparse] at hp
      rw [e] at hp
      obtain ⟨k, hk, rfl⟩ := List.mem_map.1 hp
      obtain ⟨r, hr, hg, hs⟩ := hb (k, [(k, 1)]) (List.mem_map_of_mem hk) (k, 1) List.mem_cons_self
      have hck := h.col (k, [(k, 1)]) (List.mem_map_of_mem hk)
      obtain ⟨g1, g2, g3, g4⟩ := hck.good (k, 1) List.mem_cons_self
      simp only at hr hs hg hck g1 g3 g4 ⊢
      rw [hr]
      refine ⟨braid_nodup hR k g1 j (by rw [g3]; simpa using hj) ov cj hr, hg, fun idx hi q hq => ?_⟩
      have hi' : ∀ x ∈ l, idx x < T.dim (sec k x) := fun x hx => hi x (mem_swapNext _ _ _ hx)
      rw [← hck.sum idx hi' q hq]
      simp only [Option.getD_some]
      rw [hs idx hi' q hq]
      simp [colSum]

/-- The invariant of the factorized mapping -/
structure FactOK (R : FusionRule S) (T : FTensors S K) (secS secF : FusionTree S → ℕ → S) (flag : ℕ → Bool)
    (c0 d0 c d : List ℕ) (ks kf : List (FusionTree S)) (m : FactMap S K) : Prop where
  split : TMapOK R T true secS flag c0 c ks m.split
  fuse : TMapOK R T false (fun Y x => T.dual (secF Y x)) (fun x => !flag x) d0 d kf m.fuse

theorem pre_ok (hL : GroupLaws R T D) (hR : R.Lawful) {small : K → Bool} (hS : CutoffExact D small)
    {secS secF : FusionTree S → ℕ → S} {flag : ℕ → Bool} {c0 d0 c d : List ℕ} {ks kf : List (FusionTree S)}
    {m : FactMap S K} (h : FactOK R T secS secF flag c0 d0 c d ks kf m) (i : Instr) (hi : i.isBraid = true)
    {s : List ℕ × List ℕ} {o : Option (ℕ × ℕ × Bool)} (ha : i.apply (c, d) = some (s, o)) :
    ∃ m', FactMap.pre R D small m i = some m' ∧ FactOK R T secS secF flag c0 d0 s.1 s.2 ks kf m' := by
  match i, hi, ha with
  | .braid true j ov, _, ha =>
    simp only [Instr.apply] at ha
    rcases h1 : c[j]? with _ | x
    · rw [h1] at ha; cases ha
    rcases h2 : c[j + 1]? with _ | y
    · rw [h1, h2] at ha; cases ha
    rw [h1, h2] at ha
    simp only [Option.some.injEq, Prod.mk.injEq] at ha
    obtain ⟨rfl, rfl⟩ := ha
    have hj : j + 1 < c.length := (List.getElem?_eq_some_iff.1 h2).1
    obtain ⟨t, t1, t2⟩ := step_ok hL hR hS (!ov) true h.split j hj
    refine ⟨{ m with split := t }, ?_, t2, h.fuse⟩
    simp only [FactMap.pre]
    rw [t1]; rfl
  | .braid false j ov, _, ha =>
    simp only [Instr.apply] at ha
    rcases h1 : d[j]? with _ | x
    · rw [h1] at ha; cases ha
    rcases h2 : d[j + 1]? with _ | y
    · rw [h1, h2] at ha; cases ha
    rw [h1, h2] at ha
    simp only [Option.some.injEq, Prod.mk.injEq] at ha
    obtain ⟨rfl, rfl⟩ := ha
    have hj : j + 1 < d.length := (List.getElem?_eq_some_iff.1 h2).1
    obtain ⟨t, t1, t2⟩ := step_ok hL hR hS ov false h.fuse j hj
    refine ⟨{ m with fuse := t }, ?_, h.split, t2⟩
    simp only [FactMap.pre]
    rw [t1]; rfl

theorem pres_ok (hL : GroupLaws R T D) (hR : R.Lawful) {small : K → Bool} (hS : CutoffExact D small)
    {secS secF : FusionTree S → ℕ → S} {flag : ℕ → Bool} {c0 d0 : List ℕ} {ks kf : List (FusionTree S)}
    (ins : List Instr) (hb : ∀ i ∈ ins, i.isBraid = true) {c d : List ℕ}
    {m : FactMap S K} (h : FactOK R T secS secF flag c0 d0 c d ks kf m)
    {s : List ℕ × List ℕ} {tr : List (ℕ × ℕ × Bool)} (ha : execute ins (c, d) = some (s, tr)) :
    ∃ m', ins.foldlM (FactMap.pre R D small) m = some m' ∧ FactOK R T secS secF flag c0 d0 s.1 s.2 ks kf m' := by
  induction ins generalizing c d m tr with
  | nil =>
    simp only [execute, Option.some.injEq, Prod.mk.injEq] at ha
    obtain ⟨rfl, -⟩ := ha
    exact ⟨m, rfl, h⟩
  | cons i ins ih =>
    simp only [execute] at ha
    rcases h1 : i.apply (c, d) with _ | ⟨⟨c', d'⟩, o⟩
    · rw [h1] at ha; cases ha
    rw [h1] at ha
    simp only [Option.bind_some, Option.map_eq_some_iff, Prod.mk.injEq] at ha
    obtain ⟨⟨s', tr'⟩, h2, rfl, rfl⟩ := ha
    obtain ⟨m1, h3, h4⟩ := pre_ok hL hR hS h i (hb i List.mem_cons_self) h1
    obtain ⟨m2, h5, h6⟩ := ih (fun x hx => hb x (List.mem_cons_of_mem _ hx)) h4 h2
    refine ⟨m2, ?_, h6⟩
    rw [List.foldlM_cons, h3]; exact h5

end

end Cyten.FT
