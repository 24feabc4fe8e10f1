import Verif.Lemmas.TreeMapping

/-! # The mapping of pairs of fusion trees for a list of instructions -/

namespace Cyten.FT
open Cyten.FT.Spec Cyten.Tools Cyten.ListSum Cyten.Props Cyten.Permute Cyten.Mappings

variable {S K : Type} [LinearOrder S] [CommRing K] [StarRing K]

omit [StarRing K] in
theorem composeColumn_eq {A : Type} [DecidableEq A] (other : SMap A K) (col : UMap A K) :
    composeColumn other col = bindCol col fun a => (other.find a).getD [] := by
  unfold composeColumn bindCol
  congr 1
  funext res p
  unfold composeStep
  rcases h : other.find p.1 with _ | l <;> simp [h]

omit [StarRing K] in
theorem splittingColumn_eq (tm : SMap (FusionTree S) K) (col : UMap (FusionTree S × FusionTree S) K) :
    splittingColumn tm col = bindCol col fun J => ((tm.find J.1).getD []).map fun q => ((q.1, J.2), q.2) := by
  unfold splittingColumn bindCol
  congr 1
  funext res p
  rcases h : tm.find p.1.1 with _ | l
  · simp [h]
  · simp only [h, Option.getD_some, List.foldl_map]

omit [StarRing K] in
theorem fusionColumn_eq (tm : SMap (FusionTree S) K) (col : UMap (FusionTree S × FusionTree S) K) :
    fusionColumn tm col = bindCol col fun J => ((tm.find J.2).getD []).map fun q => ((J.1, q.1), q.2) := by
  unfold fusionColumn bindCol
  congr 1
  funext res p
  rcases h : tm.find p.1.2 with _ | l
  · simp [h]
  · simp only [h, Option.getD_some, List.foldl_map]

section
variable {R : FusionRule S} {T : FTensors S K} {D : Topo S K} {sec : FusionTree S × FusionTree S → ℕ → S}
  {flag : ℕ → Bool}

/-- The invariant of the mapping; each column has its own sectors -/
def MapOK (R : FusionRule S) (T : FTensors S K) (sec : FusionTree S × FusionTree S → ℕ → S) (flag : ℕ → Bool) (c d : List ℕ)
    (v : FusionTree S × FusionTree S → (ℕ → ℕ) → K) (m : PMap S K) : Prop :=
  ∀ p ∈ m, ColOK R T (sec p.1) flag c d (v p.1) p.2

omit [StarRing K] in
theorem mem_rows {m : PMap S K} {p : (FusionTree S × FusionTree S) × UMap (FusionTree S × FusionTree S) K} (hp : p ∈ m)
    {q : (FusionTree S × FusionTree S) × K} (hq : q ∈ p.2) : q.1 ∈ nonzeroRows m :=
  List.mem_flatMap.2 ⟨p, hp, List.mem_map_of_mem hq⟩

theorem preBend_ok {c d c' d' : List ℕ} {v : FusionTree S × FusionTree S → (ℕ → ℕ) → K} {m : PMap S K}
    (h : MapOK R T sec flag c d v m) (down : Bool) (hp : ∀ x, x ∈ c ++ d → x ∈ c' ++ d')
    (hb : ∀ (sec : ℕ → S) J, Good R T sec flag c d J → ∃ l, bendLeg R D J.1 J.2 down = some l ∧
      MoveOK R T sec flag c d c' d' J l) :
    ∃ m', preBend R D m down = some m' ∧ m'.map Prod.fst = m.map Prod.fst ∧ MapOK R T sec flag c' d' v m' := by
  have hg : ∀ J ∈ (nonzeroRows m).dedup, ∃ sec : ℕ → S, Good R T sec flag c d J := by
    intro J hJ
    obtain ⟨p, hp, hq⟩ := List.mem_flatMap.1 (List.mem_dedup.1 hJ)
    obtain ⟨q, hq', rfl⟩ := List.mem_map.1 (show _ ∈ p.2.map _ from hq)
    exact ⟨_, (h p hp).good q hq'⟩
  obtain ⟨tm, h1, h2⟩ := find_mapM (fun J : FusionTree S × FusionTree S => bendLeg R D J.1 J.2 down)
    (nonzeroRows m).dedup fun J hJ => by
      obtain ⟨sec', hs⟩ := hg J hJ
      obtain ⟨l, hl, -⟩ := hb sec' J hs
      rw [hl]; rfl
  refine ⟨preCompose m tm, ?_, ?_, ?_⟩
  · unfold preBend; rw [h1]; rfl
  · simp [preCompose]
  · intro p hp'
    obtain ⟨q, hq, rfl⟩ := List.mem_map.1 hp'
    simp only
    rw [composeColumn_eq]
    refine bindCol_ok (h q hq) hp _ fun r hr => ?_
    rw [h2 r.1 (List.mem_dedup.2 (mem_rows hq hr))]
    obtain ⟨l, hl, hm⟩ := hb _ r.1 ((h q hq).good r hr)
    rw [hl]
    exact hm

theorem preCod_ok {c d c' d' : List ℕ} {v : FusionTree S × FusionTree S → (ℕ → ℕ) → K} {m : PMap S K}
    (h : MapOK R T sec flag c d v m) (f : FusionTree S → Option (UMap (FusionTree S) K))
    (hp : ∀ x, x ∈ c ++ d → x ∈ c' ++ d')
    (hb : ∀ (sec : ℕ → S) X, X.Sane R → X.uncoupled = c.map sec → ∃ l, f X = some l ∧ ∀ Y, Good R T sec flag c d (X, Y) →
      MoveOK R T sec flag c d c' d' (X, Y) (l.map fun q => ((q.1, Y), q.2))) :
    ∃ m', preTree true f m = some m' ∧ m'.map Prod.fst = m.map Prod.fst ∧ MapOK R T sec flag c' d' v m' := by
  have hg : ∀ X ∈ ((nonzeroRows m).map Prod.fst).dedup, X.Sane R ∧ ∃ sec : ℕ → S, X.uncoupled = c.map sec := by
    intro J hJ
    obtain ⟨X, hX, rfl⟩ := List.mem_map.1 (List.mem_dedup.1 hJ)
    obtain ⟨p, hp, hq⟩ := List.mem_flatMap.1 hX
    obtain ⟨q, hq', rfl⟩ := List.mem_map.1 (show _ ∈ p.2.map _ from hq)
    exact ⟨((h p hp).good q hq').left, _, ((h p hp).good q hq').leftU⟩
  obtain ⟨tm, h1, h2⟩ := find_mapM f ((nonzeroRows m).map Prod.fst).dedup fun J hJ => by
      obtain ⟨h1, sec', h2⟩ := hg J hJ
      obtain ⟨l, hl, -⟩ := hb sec' J h1 h2
      rw [hl]; rfl
  refine ⟨m.map fun p => (p.1, splittingColumn tm p.2), ?_, ?_, ?_⟩
  · unfold preTree; rw [if_pos rfl, h1]; rfl
  · simp
  · intro p hp'
    obtain ⟨q, hq, rfl⟩ := List.mem_map.1 hp'
    simp only
    rw [splittingColumn_eq]
    refine bindCol_ok (h q hq) hp _ fun r hr => ?_
    have hgr := (h q hq).good r hr
    rw [h2 r.1.1 (List.mem_dedup.2 (List.mem_map_of_mem (mem_rows hq hr)))]
    obtain ⟨l, hl, hm⟩ := hb _ r.1.1 hgr.left hgr.leftU
    rw [hl]
    exact hm r.1.2 hgr

theorem preDom_ok {c d c' d' : List ℕ} {v : FusionTree S × FusionTree S → (ℕ → ℕ) → K} {m : PMap S K}
    (h : MapOK R T sec flag c d v m) (f : FusionTree S → Option (UMap (FusionTree S) K))
    (hp : ∀ x, x ∈ c ++ d → x ∈ c' ++ d')
    (hb : ∀ (sec : ℕ → S) Y, Y.Sane R → Y.uncoupled = d.map (fun x => T.dual (sec x)) → ∃ l, f Y = some l ∧
      ∀ X, Good R T sec flag c d (X, Y) →
        MoveOK R T sec flag c d c' d' (X, Y) (l.map fun q => ((X, q.1), q.2))) :
    ∃ m', preTree false f m = some m' ∧ m'.map Prod.fst = m.map Prod.fst ∧ MapOK R T sec flag c' d' v m' := by
  have hg : ∀ X ∈ ((nonzeroRows m).map Prod.snd).dedup, X.Sane R ∧
      ∃ sec : ℕ → S, X.uncoupled = d.map (fun x => T.dual (sec x)) := by
    intro J hJ
    obtain ⟨X, hX, rfl⟩ := List.mem_map.1 (List.mem_dedup.1 hJ)
    obtain ⟨p, hp, hq⟩ := List.mem_flatMap.1 hX
    obtain ⟨q, hq', rfl⟩ := List.mem_map.1 (show _ ∈ p.2.map _ from hq)
    exact ⟨((h p hp).good q hq').right, _, ((h p hp).good q hq').rightU⟩
  obtain ⟨tm, h1, h2⟩ := find_mapM f ((nonzeroRows m).map Prod.snd).dedup fun J hJ => by
      obtain ⟨h1, sec', h2⟩ := hg J hJ
      obtain ⟨l, hl, -⟩ := hb sec' J h1 h2
      rw [hl]; rfl
  refine ⟨m.map fun p => (p.1, fusionColumn tm p.2), ?_, ?_, ?_⟩
  · unfold preTree; rw [if_neg (by simp), h1]; rfl
  · simp
  · intro p hp'
    obtain ⟨q, hq, rfl⟩ := List.mem_map.1 hp'
    simp only
    rw [fusionColumn_eq]
    refine bindCol_ok (h q hq) hp _ fun r hr => ?_
    have hgr := (h q hq).good r hr
    rw [h2 r.1.2 (List.mem_dedup.2 (List.mem_map_of_mem (mem_rows hq hr)))]
    obtain ⟨l, hl, hm⟩ := hb _ r.1.2 hgr.right hgr.rightU
    rw [hl]
    exact hm r.1.1 hgr

theorem mem_swapNext {α : Type} (l : List α) (j : ℕ) (x : α) (h : x ∈ l) : x ∈ swapNext l j := by
  rw [swapNext_eq]
  exact (swapAdj_perm l j).mem_iff.2 h

theorem same_ok {sec : ℕ → S} (c d : List ℕ) (J : FusionTree S × FusionTree S) (h : Good R T sec flag c d J) :
    MoveOK R T sec flag c d c d J [(J, 1)] := by
  refine ⟨fun p hp => ?_, fun idx _ => ?_⟩
  · obtain rfl := List.mem_singleton.1 hp
    exact h
  · simp [colSum]

theorem instruction_ok (hL : GroupLaws R T D) {small : K → Bool} (hS : CutoffExact D small) {c d : List ℕ}
    {v : FusionTree S × FusionTree S → (ℕ → ℕ) → K} {m : PMap S K} (h : MapOK R T sec flag c d v m) (i : Instr)
    {s : List ℕ × List ℕ} {o : Option (ℕ × ℕ × Bool)} (ha : i.apply (c, d) = some (s, o)) :
    ∃ m', preInstruction R D small m i = some m' ∧ m'.map Prod.fst = m.map Prod.fst ∧
      MapOK R T sec flag s.1 s.2 v m' := by
  match i, ha with
  | .braid true j ov, ha =>
    simp only [Instr.apply] at ha
    rcases h1 : c[j]? with _ | x
    · rw [h1] at ha; cases ha
    rcases h2 : c[j + 1]? with _ | y
    · rw [h1, h2] at ha; cases ha
    rw [h1, h2] at ha
    simp only [Option.some.injEq, Prod.mk.injEq] at ha
    obtain ⟨rfl, rfl⟩ := ha
    have hj : j + 1 < c.length := (List.getElem?_eq_some_iff.1 h2).1
    refine preCod_ok h _ (fun x hx => ?_) fun sec X hX hU => braid_cod_ok hL hS c d j (!ov) hj X hX hU
    rcases List.mem_append.1 hx with hx | hx
    · exact List.mem_append_left _ (mem_swapNext _ _ _ hx)
    · exact List.mem_append_right _ hx
  | .braid false j ov, ha =>
    simp only [Instr.apply] at ha
    rcases h1 : d[j]? with _ | x
    · rw [h1] at ha; cases ha
    rcases h2 : d[j + 1]? with _ | y
    · rw [h1, h2] at ha; cases ha
    rw [h1, h2] at ha
    simp only [Option.some.injEq, Prod.mk.injEq] at ha
    obtain ⟨rfl, rfl⟩ := ha
    have hj : j + 1 < d.length := (List.getElem?_eq_some_iff.1 h2).1
    refine preDom_ok h _ (fun x hx => ?_) fun sec X hX hU => braid_dom_ok hL hS c d j ov hj X hX hU
    rcases List.mem_append.1 hx with hx | hx
    · exact List.mem_append_left _ hx
    · exact List.mem_append_right _ (mem_swapNext _ _ _ hx)
  | .bend true, ha =>
    simp only [Instr.apply, Option.map_eq_some_iff, Prod.mk.injEq] at ha
    obtain ⟨x, hx, rfl, rfl⟩ := ha
    obtain ⟨d', rfl⟩ := List.getLast?_eq_some_iff.1 hx
    simp only [List.dropLast_concat]
    refine preBend_ok h true (fun y hy => ?_) fun sec J hJ => bend_down_ok hL c d' x J hJ
    simp only [List.mem_append] at hy ⊢; tauto
  | .bend false, ha =>
    simp only [Instr.apply, Option.map_eq_some_iff, Prod.mk.injEq] at ha
    obtain ⟨x, hx, rfl, rfl⟩ := ha
    obtain ⟨c', rfl⟩ := List.getLast?_eq_some_iff.1 hx
    simp only [List.dropLast_concat]
    refine preBend_ok h false (fun y hy => ?_) fun sec J hJ => bend_up_ok hL c' d x J hJ
    simp only [List.mem_append] at hy ⊢; tauto
  | .twist co idcs ov, ha =>
    simp only [Instr.apply] at ha
    have hs : s = (c, d) := by
      by_cases hc : idcs ≠ [] ∧ ∀ i ∈ idcs, i < (if co then c else d).length
      · rw [if_pos hc] at ha
        simp only [Option.some.injEq, Prod.mk.injEq] at ha
        exact ha.1.symm
      · rw [if_neg hc] at ha; cases ha
    subst hs
    have ht : ∀ t : FusionTree S, twist D t idcs ov = some [(t, 1)] := by
      intro t; unfold twist; rw [if_pos hL.trivial]
    cases co
    · exact preDom_ok h _ (fun x hx => hx) fun sec Y hY hU => ⟨_, ht Y, fun X hg => same_ok c d (X, Y) hg⟩
    · exact preCod_ok h _ (fun x hx => hx) fun sec X hX hU => ⟨_, ht X, fun Y hg => same_ok c d (X, Y) hg⟩

theorem instructions_ok (hL : GroupLaws R T D) {small : K → Bool} (hS : CutoffExact D small) (ins : List Instr)
    {c d : List ℕ} {v : FusionTree S × FusionTree S → (ℕ → ℕ) → K} {m : PMap S K} (h : MapOK R T sec flag c d v m)
    {s : List ℕ × List ℕ} {tr : List (ℕ × ℕ × Bool)} (ha : execute ins (c, d) = some (s, tr)) :
    ∃ m', ins.foldlM (preInstruction R D small) m = some m' ∧ m'.map Prod.fst = m.map Prod.fst ∧
      MapOK R T sec flag s.1 s.2 v m' := by
  induction ins generalizing c d m tr with
  | nil =>
    simp only [execute, Option.some.injEq, Prod.mk.injEq] at ha
    obtain ⟨rfl, -⟩ := ha
    exact ⟨m, rfl, rfl, h⟩
  | cons i ins ih =>
    simp only [execute] at ha
    rcases h1 : i.apply (c, d) with _ | ⟨⟨c', d'⟩, o⟩
    · rw [h1] at ha; cases ha
    rw [h1] at ha
    simp only [Option.bind_some, Option.map_eq_some_iff, Prod.mk.injEq] at ha
    obtain ⟨⟨s', tr'⟩, h2, rfl, rfl⟩ := ha
    obtain ⟨m1, h3, h4, h5⟩ := instruction_ok hL hS h i h1
    obtain ⟨m2, h6, h7, h8⟩ := ih h5 h2
    refine ⟨m2, ?_, h7.trans h4, h8⟩
    rw [List.foldlM_cons, h3]; exact h6

omit [StarRing K] in
theorem assign_new {A V : Type} [DecidableEq A] (m : UMap A V) (k : A) (x : V) (h : k ∉ m.map Prod.fst) :
    m.assign k x = m ++ [(k, x)] := by
  induction m with
  | nil => rfl
  | cons p m ih =>
    obtain ⟨k', w⟩ := p
    simp only [List.map_cons, List.mem_cons, not_or] at h
    unfold UMap.assign
    rw [if_neg (Ne.symm h.1), ih h.2]; rfl

omit [StarRing K] in
theorem fromIdentity_eq {A : Type} [DecidableEq A] (keys : List A) (h : keys.Nodup) :
    (fromIdentity keys : SMap A K) = keys.map fun i => (i, [(i, 1)]) := by
  unfold fromIdentity
  suffices H : ∀ (keys : List A) (res : SMap A K), (res.map Prod.fst ++ keys).Nodup →
      keys.foldl (fun res i => UMap.assign res i [(i, 1)]) res = res ++ keys.map fun i => (i, [(i, 1)]) by
    exact H keys [] (by simpa using h)
  intro keys
  induction keys with
  | nil => intro res _; simp
  | cons k keys ih =>
    intro res hn
    have hk : k ∉ res.map Prod.fst := by
      intro hk
      rw [List.nodup_append] at hn
      exact hn.2.2 k hk k List.mem_cons_self rfl
    rw [List.foldl_cons, assign_new res k _ hk, ih _ (by simpa using hn)]
    simp

theorem identity_ok (c d : List ℕ) (keys : List (FusionTree S × FusionTree S)) (hn : keys.Nodup)
    (h : ∀ J ∈ keys, Good R T (sec J) flag c d J) :
    MapOK R T sec flag c d (fun J idx => pairVal T c d idx J) (fromIdentity keys : PMap S K) := by
  intro p hp
  rw [fromIdentity_eq keys hn] at hp
  obtain ⟨J, hJ, rfl⟩ := List.mem_map.1 hp
  refine ⟨by simp, fun q hq => ?_, fun idx _ => by simp [colSum]⟩
  obtain rfl := List.mem_singleton.1 hq
  exact h J hJ

end

end Cyten.FT
