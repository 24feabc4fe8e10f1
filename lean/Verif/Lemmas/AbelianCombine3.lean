import Verif.Lemmas.AbelianCombine2

/-! # The data of `combine_legs` and `split_legs` -/

namespace Cyten.Abelian
open Cyten.Tables Cyten.Tools Cyten.Spaces Cyten.Spaces.Spec Cyten.Props Cyten.Abelian.Spec
open Cyten.Spaces.APipe

variable {S K : Type} [LinearOrder S]

theorem runsOf_rev_sorted {β : Type} (key : β → List ℕ) (l : List β)
    (h : l.Pairwise fun x y => (key x).reverse ≤ (key y).reverse) :
    (runsOf key l).Pairwise fun g g' => ∀ x ∈ g, ∀ y ∈ g', (key x).reverse < (key y).reverse := by
  have h2 := runsOf_sorted (fun x => (key x).reverse) l h
  have e : ∀ (i1 i2 : DecidableEq (List ℕ)) (l : List β),
      @runsOf _ i1 _ (fun x => (key x).reverse) l = @runsOf _ i2 _ key l := by
    intro i1 i2 l
    obtain rfl : i1 = i2 := Subsingleton.elim _ _
    induction l with
    | nil => rfl
    | cons x l ih =>
      rw [runsOf, runsOf, ih]
      split
      · simp only [List.reverse_inj]
      · rfl
  rw [e _ inferInstance] at h2
  exact h2

/-- All elements of the list with the key of a run are in the run. -/
theorem run_complete {β : Type} {key : β → List ℕ} {l : List β}
    (h : l.Pairwise fun x y => (key x).reverse ≤ (key y).reverse) {g : List β} (hg : g ∈ runsOf key l)
    {x y : β} (hx : x ∈ g) (hy : y ∈ l) (hk : key y = key x) : y ∈ g := by
  rw [← runsOf_flatten key l] at hy
  obtain ⟨g', hg', hyg⟩ := List.mem_flatten.1 hy
  by_cases he : g' = g
  · rwa [he] at hyg
  · exfalso
    have hs := runsOf_rev_sorted key l h
    haveI : Std.Symm fun g g' : List β =>
        ∀ x ∈ g, ∀ y ∈ g', g ≠ g' → (key x).reverse ≠ (key y).reverse :=
      ⟨fun a b hab x hx y hy hne => (hab y hy x hx (Ne.symm hne)).symm⟩
    have := List.Pairwise.forall_of_forall
      (R := fun g g' : List β => ∀ x ∈ g, ∀ y ∈ g', g ≠ g' → (key x).reverse ≠ (key y).reverse)
      (fun a ha x hx y hy hne => absurd rfl hne)
      (hs.imp fun {a b} hab x hx y hy _ => (hab x hx y hy).ne) hg' hg y hyg x hx he
    exact this (by rw [hk])

section Fold

/-- Write blocks into a block. -/
def writeAll (ws : List (ℕ × Bool)) (res : Blk K) (g : List (CombEnt K)) : Blk K :=
  g.foldl (fun res e => res.setSlice e.sl (e.blk.combineLegs ws)) res

theorem writeAll_spec (ws : List (ℕ × Bool)) (res : Blk K) (g : List (CombEnt K)) (i : List ℕ) :
    (writeAll ws res g).shape = res.shape ∧
    ((∀ e ∈ g, inSlices i e.sl = false) → (writeAll ws res g).val i = res.val i) ∧
    (∀ e ∈ g, inSlices i e.sl = true → (∀ f ∈ g, inSlices i f.sl = true → f = e) →
      (writeAll ws res g).val i =
        (e.blk.combineLegs ws).val (List.zipWith (fun x (s : ℕ × ℕ) => x - s.1) i e.sl)) := by
  induction g generalizing res with
  | nil => exact ⟨rfl, fun _ => rfl, by simp⟩
  | cons q T ih =>
    obtain ⟨i1, i2, i3⟩ := ih (res.setSlice q.sl (q.blk.combineLegs ws))
    unfold writeAll at i1 i2 i3 ⊢
    refine ⟨i1, fun hn => ?_, fun p hp hin hu => ?_⟩
    · rw [List.foldl_cons, i2 fun p hp => hn p (List.mem_cons_of_mem _ hp)]
      show (if _ then _ else _) = _
      rw [hn q List.mem_cons_self]
      rfl
    · rw [List.foldl_cons]
      by_cases hpT : p ∈ T
      · exact i3 p hpT hin fun r hr => hu r (List.mem_cons_of_mem _ hr)
      · have hpq : q = p := by
          rcases List.mem_cons.1 hp with h | h
          · exact h.symm
          · exact absurd h hpT
        subst hpq
        rw [i2]
        · show (if _ then _ else _) = _
          rw [if_pos hin]
        · intro r hr
          by_contra hne
          have := hu r (List.mem_cons_of_mem _ hr) (by simpa using hne)
          exact hpT (this ▸ hr)

end Fold

section Combine
variable {segs : List (Seg S)} {T : Ents K}

/-- The prepared entries. -/
def combEnts (segs : List (Seg S)) (T : Ents K) : List (CombEnt K) :=
  (T.map fun p => (⟨combineRow segs p.1, combineSlices segs p.1, p.2⟩ : CombEnt K)).insertionSort
    fun x y => cmpLexsort x.row y.row ≠ .gt

/-- The new entry of a group. -/
def groupEnt [Zero K] (segs : List (Seg S)) (g : List (CombEnt K)) : Option (List ℕ × Blk K) :=
  g.head?.map fun e0 => (e0.row, writeAll (pieces segs)
    (Blk.zeros (List.zipWith (fun (s : Seg S) b => s.leg.mults.getD b 0) segs e0.row)) g)

theorem combineSegs_eq [Zero K] (segs : List (Seg S)) (T : Ents K) :
    combineSegs segs T = (runsOf (·.row) (combEnts segs T)).filterMap (groupEnt segs) := by
  unfold combineSegs
  show mkData ((groups (combEnts segs T) (findRowDifferences ((combEnts segs T).map (·.row)) true)).filterMap
    (groupEnt segs)) true = _
  rw [groups_eq_runs]
  rfl

theorem mem_combEnts {e : CombEnt K} : e ∈ combEnts segs T ↔
    ∃ p ∈ T, e = ⟨combineRow segs p.1, combineSlices segs p.1, p.2⟩ := by
  unfold combEnts
  rw [(List.perm_insertionSort _ _).mem_iff, List.mem_map]
  exact ⟨fun ⟨p, hp, he⟩ => ⟨p, hp, he.symm⟩, fun ⟨p, hp, he⟩ => ⟨p, hp, he.symm⟩⟩

theorem combEnts_sorted (hs : ∀ s ∈ segs, SegOK s)
    (hr : ∀ p ∈ T, InShape p.1 ((oldM segs).map List.length)) :
    (combEnts segs T).Pairwise fun x y => x.row.reverse ≤ y.row.reverse := by
  refine insertionSort_key_sorted _ (fun e : CombEnt K => e.row.reverse) _ ?_
  intro x hx y hy
  obtain ⟨p, hp, rfl⟩ := List.mem_map.1 hx
  obtain ⟨q, hq, rfl⟩ := List.mem_map.1 hy
  exact cmp_le_iff (by
    rw [(combineRow_inShape hs (hr p hp)).length, (combineRow_inShape hs (hr q hq)).length])

theorem newShape_eq (segs : List (Seg S)) (row : List ℕ) :
    List.zipWith (fun (s : Seg S) b => s.leg.mults.getD b 0) segs row = shapeOf (newM segs) row := by
  unfold shapeOf newM legMults
  rw [List.map_map, List.zipWith_map_left]
  rfl

/-- The result of `combine_legs` is consistent. -/
theorem sane_combineSegs [Zero K] (hs : ∀ s ∈ segs, SegOK s) (hT : Sane (oldM segs) T) :
    Sane (newM segs) (combineSegs segs T) := by
  have hso := combEnts_sorted hs hT.inRange
  have key : ∀ q ∈ combineSegs segs T, ∃ g ∈ runsOf (·.row) (combEnts segs T), ∃ e ∈ g,
      q.1 = e.row ∧ q.2.shape = shapeOf (newM segs) e.row := by
    intro q hq
    rw [combineSegs_eq] at hq
    obtain ⟨g, hg, hq⟩ := List.mem_filterMap.1 hq
    obtain ⟨e0, he0, rfl⟩ := Option.map_eq_some_iff.1 hq
    exact ⟨g, hg, e0, List.mem_of_mem_head? he0, rfl,
      (writeAll_spec _ _ _ []).1.trans (newShape_eq segs e0.row)⟩
  have hes : ∀ g ∈ runsOf (·.row) (combEnts segs T), ∀ e ∈ g, e ∈ combEnts segs T := by
    intro g hg e he
    have := List.mem_flatten.2 ⟨g, hg, he⟩
    rwa [runsOf_flatten] at this
  have hrow : ∀ e ∈ combEnts segs T, InShape e.row ((newM segs).map List.length) := by
    intro e he
    obtain ⟨p, hp, rfl⟩ := mem_combEnts.1 he
    exact combineRow_inShape hs (hT.inRange p hp)
  refine ⟨?_, ?_, ?_⟩
  · intro q hq
    obtain ⟨g, hg, e, he, h1, -⟩ := key q hq
    rw [h1]
    exact hrow e (hes g hg e he)
  · intro q hq
    obtain ⟨g, hg, e, he, h1, h2⟩ := key q hq
    rw [h1]; exact h2
  · rw [combineSegs_eq]
    unfold StrictlySorted
    rw [List.pairwise_map, List.pairwise_filterMap]
    refine (runsOf_rev_sorted (fun e : CombEnt K => e.row) _ hso).imp_of_mem fun {g g'} hg hg' hlt => ?_
    intro q hq q' hq'
    obtain ⟨e, he, rfl⟩ := Option.map_eq_some_iff.1 hq
    obtain ⟨e', he', rfl⟩ := Option.map_eq_some_iff.1 hq'
    have he := List.mem_of_mem_head? he
    have he' := List.mem_of_mem_head? he'
    exact (rowLt_key (hrow e (hes g hg e he)).length (hrow e' (hes g' hg' e' he')).length).2
      (hlt e he e' he')

/-- The entries of the result of `combine_legs`. -/
theorem dense_combineSegs [AddCommMonoid K] (hs : ∀ s ∈ segs, SegOK s) (hT : Sane (oldM segs) T)
    {row pos row' pos' : List ℕ} (hf : Fuses segs row pos row' pos') :
    dense (combineSegs segs T) row' pos' = dense T row pos := by
  have hso := combEnts_sorted hs hT.inRange
  have hsane := sane_combineSegs hs hT
  obtain ⟨f1, -, f3⟩ := hf.fun_
  have hin := hf.inSlices hs
  by_cases hm : ∃ e ∈ combEnts segs T, e.row = row'
  · obtain ⟨e, he, her⟩ := hm
    have he' := he
    rw [← runsOf_flatten (·.row) (combEnts segs T)] at he'
    obtain ⟨g, hg, heg⟩ := List.mem_flatten.1 he'
    have hsub : ∀ f ∈ g, f ∈ combEnts segs T := by
      intro f hf
      have := List.mem_flatten.2 ⟨g, hg, hf⟩
      rwa [runsOf_flatten] at this
    have hne := runsOf_ne_nil (·.row) _ g hg
    obtain ⟨e0, he0⟩ : ∃ e0, g.head? = some e0 := by
      cases g with
      | nil => exact absurd rfl hne
      | cons a g => exact ⟨a, rfl⟩
    have hr0 : e0.row = row' := by
      rw [← her]
      exact runsOf_key (·.row) _ g hg e0 (List.mem_of_mem_head? he0) e heg
    have hmem : (row', writeAll (pieces segs)
        (Blk.zeros (List.zipWith (fun (s : Seg S) b => s.leg.mults.getD b 0) segs row')) g) ∈
        combineSegs segs T := by
      rw [combineSegs_eq]
      refine List.mem_filterMap.2 ⟨g, hg, ?_⟩
      unfold groupEnt
      rw [he0, Option.map_some, hr0]
    rw [hsane.dense_of_mem hmem]
    obtain ⟨-, w2, w3⟩ := writeAll_spec (pieces segs)
      (Blk.zeros (List.zipWith (fun (s : Seg S) b => s.leg.mults.getD b 0) segs row')) g pos'
    have huniq : ∀ f ∈ g, inSlices pos' f.sl = true →
        ∃ p ∈ T, p.1 = row ∧ f = ⟨combineRow segs p.1, combineSlices segs p.1, p.2⟩ := by
      intro f hfg hfin
      obtain ⟨p, hp, rfl⟩ := mem_combEnts.1 (hsub f hfg)
      have hrow : combineRow segs p.1 = row' := by
        rw [← her]
        exact runsOf_key (·.row) _ g hg _ hfg e heg
      exact ⟨p, hp, hf.row_uniq hs (hT.inRange p hp) hrow hfin, rfl⟩
    by_cases hp : ∃ p ∈ T, p.1 = row
    · obtain ⟨p, hp, rfl⟩ := hp
      rw [hT.dense_of_mem hp]
      have hpe : (⟨combineRow segs p.1, combineSlices segs p.1, p.2⟩ : CombEnt K) ∈ combEnts segs T :=
        mem_combEnts.2 ⟨p, hp, rfl⟩
      have hpg := run_complete hso hg heg hpe (by rw [her]; exact f1.symm)
      show (writeAll _ _ _).val _ = _
      rw [w3 _ hpg hin ?_]
      · show (p.2.combineLegs (pieces segs)).val _ = _
        rw [f3, ← hT.shapes p hp]
        refine combineLegs_val _ _ _ ?_ ?_
        · rw [hT.shapes p hp]; exact hf.old.2
        · rw [hT.shapes p hp, total_pieces, length_shapeOf _ _ (isIndex_length hf.old).1]
      · intro f hfg hfin
        obtain ⟨q, hq, hq1, rfl⟩ := huniq f hfg hfin
        rw [hT.eq_of_fst hq hp hq1]
    · rw [dense_of_not_mem fun p hp' he => hp ⟨p, hp', he⟩]
      show (writeAll _ _ _).val _ = _
      rw [w2]
      · rfl
      · intro f hfg
        rw [Bool.eq_false_iff]
        intro hfin
        obtain ⟨q, hq, hq1, -⟩ := huniq f hfg hfin
        exact hp ⟨q, hq, hq1⟩
  · rw [dense_of_not_mem, dense_of_not_mem]
    · intro p hp he
      exact hm ⟨_, mem_combEnts.2 ⟨p, hp, rfl⟩, by rw [f1, ← he]⟩
    · intro q hq he
      rw [combineSegs_eq] at hq
      obtain ⟨g, hg, hq⟩ := List.mem_filterMap.1 hq
      obtain ⟨e0, he0, rfl⟩ := Option.map_eq_some_iff.1 hq
      refine hm ⟨e0, ?_, he⟩
      have := List.mem_flatten.2 ⟨g, hg, List.mem_of_mem_head? he0⟩
      rwa [runsOf_flatten] at this

end Combine

section Split
variable {segs : List (Seg S)} {T : Ents K}

theorem prods_eq (hs : ∀ s ∈ segs, SegOK s) {row : List ℕ} (h : InShape row ((oldM segs).map List.length)) :
    (combineSlices segs row).map (fun s => s.2 - s.1) =
      (chunks ((pieces segs).map Prod.fst) (shapeOf (oldM segs) row)).map List.prod := by
  induction segs generalizing row with
  | nil => rfl
  | cons s ss ih =>
    rw [oldM_cons, List.map_append] at h
    have hl := h.length
    rw [List.length_append, List.length_map, List.length_map, length_legMults] at hl
    have ht : (row.take s.legs.length).length = s.legs.length := by rw [List.length_take]; omega
    rw [← List.take_append_drop s.legs.length row] at h ⊢
    obtain ⟨a, b⟩ := (inShape_append_iff (by rw [ht, List.length_map, length_legMults])).1 h
    have ih := ih (fun x hx => hs x (List.mem_cons_of_mem _ hx)) b
    have hl4 : (legMults s.legs).length = (row.take s.legs.length).length := by
      rw [length_legMults, ht]
    rw [(combineRow_cons ht).2, oldM_cons, shapeOf_append hl4, List.map_cons, ih]
    have l4 : (shapeOf (legMults s.legs) (row.take s.legs.length)).length = s.legs.length := by
      rw [length_shapeOf _ _ hl4.symm, length_legMults]
    show _ = (List.map List.prod (List.take s.legs.length _ ::
      chunks ((pieces ss).map Prod.fst) (List.drop s.legs.length _)))
    rw [List.take_left' l4, List.drop_left' l4, List.map_cons]
    have := (hs s List.mem_cons_self).size _ a
    congr 1
    omega

/-- A block of the result of `split_legs`. -/
theorem splitBlock_spec (hs : ∀ s ∈ segs, SegOK s) (b : Blk K) (ch : List (List ℕ × ℕ × ℕ))
    {row : List ℕ} (h : InShape row ((oldM segs).map List.length)) (h1 : ch.flatMap Prod.fst = row)
    (h2 : ch.map Prod.snd = combineSlices segs row) :
    (splitBlock segs b ch).shape = shapeOf (oldM segs) row ∧
    ∀ pos row' pos', Fuses segs row pos row' pos' → (splitBlock segs b ch).val pos = b.val pos' := by
  have hlen : row.length = (oldM segs).length := by simpa using h.length
  have hsh : List.zipWith (fun (e : ESpace S) i => e.mults.getD i 0) (segs.flatMap Seg.legs)
      (ch.flatMap Prod.fst) = shapeOf (oldM segs) row := by
    rw [h1]
    unfold shapeOf oldM legMults
    rw [List.zipWith_map_left]
  have hb : (b.getSlice (ch.map Prod.snd)).shape =
      (chunks ((pieces segs).map Prod.fst) (shapeOf (oldM segs) row)).map List.prod := by
    rw [h2, ← prods_eq hs h]
    rfl
  have htot : (shapeOf (oldM segs) row).length = total (pieces segs) := by
    rw [total_pieces, length_shapeOf _ _ hlen]
  unfold splitBlock
  simp only [hsh]
  constructor
  · show pick (axesPerm 0 (pieces segs)) (pick (axesPerm 0 (pieces segs)) _) = _
    rw [pick_axesPerm0 _ _ htot, pick_axesPerm0 _ _ (by rw [length_revChunks _ _ htot, htot]),
      revChunks_revChunks _ _ htot]
  · intro pos row' pos' hf
    rw [(split_val (pieces segs) _ _ pos hf.old.2 htot hb).2]
    show b.val (List.zipWith (fun x s => x + s.1) _ (ch.map Prod.snd)) = _
    rw [h2, ← hf.fun_.2.1]

/-- The entries of `split_legs` before sorting. -/
def splitEnts (segs : List (Seg S)) (T : Ents K) : Ents K :=
  T.flatMap fun p => (splitChoices segs p.1).map fun ch =>
    (ch.flatMap Prod.fst, splitBlock segs p.2 ch)

theorem mem_splitEnts (hs : ∀ s ∈ segs, SegOK s) (hT : Sane (newM segs) T) {q : List ℕ × Blk K}
    (hq : q ∈ splitEnts segs T) : InShape q.1 ((oldM segs).map List.length) ∧
    ∃ p ∈ T, combineRow segs q.1 = p.1 ∧ q.2.shape = shapeOf (oldM segs) q.1 ∧
      ∀ pos row' pos', Fuses segs q.1 pos row' pos' → q.2.val pos = p.2.val pos' := by
  obtain ⟨p, hp, hq⟩ := List.mem_flatMap.1 hq
  obtain ⟨ch, hch, rfl⟩ := List.mem_map.1 hq
  obtain ⟨row, h1, h2, h3, h4, -⟩ := (mem_splitChoices hs (hT.inRange p hp) ch).1 hch
  obtain ⟨s1, s2⟩ := splitBlock_spec hs p.2 ch h1 h3 h4
  simp only [h3]
  exact ⟨h1, p, hp, h2, s1, s2⟩

theorem splitEnts_of_row (hs : ∀ s ∈ segs, SegOK s) (hT : Sane (newM segs) T)
    {row : List ℕ} (h : InShape row ((oldM segs).map List.length)) {p : List ℕ × Blk K} (hp : p ∈ T)
    (he : combineRow segs row = p.1) : ∃ q ∈ splitEnts segs T, q.1 = row := by
  have : ∃ ch : List (List ℕ × ℕ × ℕ), ch.flatMap Prod.fst = row ∧
      ch.map Prod.snd = combineSlices segs row ∧ ch.map (fun x => x.1.length) = widths segs := by
    clear he
    induction segs generalizing row T p with
    | nil =>
      cases h
      exact ⟨[], rfl, rfl, rfl⟩
    | cons s ss ih =>
      rw [oldM_cons, List.map_append] at h
      have hl := h.length
      rw [List.length_append, List.length_map, List.length_map, length_legMults] at hl
      have ht : (row.take s.legs.length).length = s.legs.length := by rw [List.length_take]; omega
      rw [← List.take_append_drop s.legs.length row] at h ⊢
      obtain ⟨a, b⟩ := (inShape_append_iff (by rw [ht, List.length_map, length_legMults])).1 h
      obtain ⟨ch, c1, c2, c3⟩ := ih (T := [(combineRow ss (row.drop s.legs.length), ⟨shapeOf (newM ss)
        (combineRow ss (row.drop s.legs.length)), p.2.val⟩)])
        (fun x hx => hs x (List.mem_cons_of_mem _ hx)) ⟨by
          intro q hq
          rw [List.mem_singleton.1 hq]
          exact combineRow_inShape (fun x hx => hs x (List.mem_cons_of_mem _ hx)) b,
          by intro q hq; rw [List.mem_singleton.1 hq], by simp [StrictlySorted]⟩ b List.mem_cons_self
      refine ⟨(row.take s.legs.length, s.slice (row.take s.legs.length)) :: ch, ?_, ?_, ?_⟩
      · rw [List.flatMap_cons, c1]
      · rw [(combineRow_cons ht).2, List.map_cons, c2]
      · rw [List.map_cons, c3, ht]; rfl
  obtain ⟨ch, c1, c2, c3⟩ := this
  have hmem := (mem_splitChoices hs (hT.inRange p hp) ch).2 ⟨row, h, he, c1, c2, c3⟩
  exact ⟨_, List.mem_flatMap.2 ⟨p, hp, List.mem_map_of_mem hmem⟩, c1⟩

theorem nodup_splitEnts (hs : ∀ s ∈ segs, SegOK s) (hT : Sane (newM segs) T) :
    ((splitEnts segs T).map Prod.fst).Nodup := by
  unfold splitEnts
  rw [List.map_flatMap, List.nodup_flatMap]
  constructor
  · intro p hp
    rw [List.map_map]
    exact nodup_splitChoices hs (hT.inRange p hp)
  · have hnd := hT.nodup
    unfold List.Nodup at hnd
    rw [List.pairwise_map] at hnd
    refine hnd.imp_of_mem fun {p p'} hp hp' hne => ?_
    intro x hx hx'
    simp only [List.map_map] at hx hx'
    obtain ⟨ch, hch, rfl⟩ := List.mem_map.1 hx
    obtain ⟨ch', hch', he⟩ := List.mem_map.1 hx'
    have he' : ch'.flatMap Prod.fst = ch.flatMap Prod.fst := he
    obtain ⟨row, -, h2, h3, -, -⟩ := (mem_splitChoices hs (hT.inRange p hp) ch).1 hch
    obtain ⟨row', -, h2', h3', -, -⟩ := (mem_splitChoices hs (hT.inRange p' hp') ch').1 hch'
    exact hne (by rw [← h2, ← h2', ← h3, ← h3', he'])

/-- The result of `split_legs` is consistent. -/
theorem sane_splitSegs (hs : ∀ s ∈ segs, SegOK s) (hT : Sane (newM segs) T) :
    Sane (oldM segs) (splitSegs segs T) := by
  refine sane_mkData (T := splitEnts segs T) ?_ ?_ (nodup_splitEnts hs hT)
  · intro q hq
    exact (mem_splitEnts hs hT hq).1
  · intro q hq
    obtain ⟨-, p, -, -, h, -⟩ := mem_splitEnts hs hT hq
    exact h

/-- The entries of the result of `split_legs`. -/
theorem dense_splitSegs [AddCommMonoid K] (hs : ∀ s ∈ segs, SegOK s) (hT : Sane (newM segs) T)
    {row pos row' pos' : List ℕ} (hf : Fuses segs row pos row' pos') :
    dense (splitSegs segs T) row pos = dense T row' pos' := by
  have hsane := sane_splitSegs hs hT
  by_cases hm : ∃ q ∈ splitSegs segs T, q.1 = row
  · obtain ⟨q, hq, rfl⟩ := hm
    obtain ⟨-, p, hp, h1, -, h2⟩ := mem_splitEnts hs hT (mem_mkData.1 hq)
    rw [hsane.dense_of_mem hq, h2 _ _ _ hf, hf.fun_.1, h1, hT.dense_of_mem hp]
  · rw [dense_of_not_mem fun p hp he => hm ⟨p, hp, he⟩, dense_of_not_mem]
    intro p hp he
    obtain ⟨q, hq, hr⟩ := splitEnts_of_row hs hT hf.old.1 hp (by rw [← hf.fun_.1, he])
    exact hm ⟨q, mem_mkData.2 hq, hr⟩

end Split

end Cyten.Abelian
