import Verif.Lemmas.FTDiag

/-!
# C91: dense blocks of diagonal tensors of the fusion tree backend
-/

namespace Cyten.FT
open Cyten.Abelian Cyten.Spaces Cyten.Tools Cyten.FT.Spec Cyten.Props Cyten.ListSum
open Cyten.Abelian.Spec (diagEntry IsDiagIndex)

variable {S K L P : Type} [LinearOrder S]

/-- The number of a sector in the leg. -/
theorem _root_.Cyten.FT.Spec.SortedLeg.number {leg : SpaceData S} {co : BLeg S} (h : SortedLeg leg co) {i : ℕ} {s : S}
    (hi : co.sectors[i]? = some s) : leg.sectors[leg.sectors.idxOf s]? = some s ∧
      leg.mults[leg.sectors.idxOf s]? = some (Spec.mult co s) := by
  have hm : s ∈ leg.sectors := (h.mem s).1 (List.mem_of_getElem? hi)
  have h1 : leg.sectors[leg.sectors.idxOf s]? = some s := by
    rw [List.getElem?_eq_getElem (List.idxOf_lt_length_of_mem hm), List.getElem_idxOf]
  exact ⟨h1, h.mult _ _ h1⟩

theorem _root_.Cyten.FT.Spec.SortedLeg.idxOf {leg : SpaceData S} {co : BLeg S} (h : SortedLeg leg co) {j : ℕ} {s : S}
    (hj : leg.sectors[j]? = some s) : leg.sectors.idxOf s = j := by
  have hm : s ∈ leg.sectors := List.mem_of_getElem? hj
  have h1 : leg.sectors[leg.sectors.idxOf s]? = some s := by
    rw [List.getElem?_eq_getElem (List.idxOf_lt_length_of_mem hm), List.getElem_idxOf]
  exact nodup_getElem? h.nodup h1 hj

/-- The sector of an index of the leg. -/
theorem denseIndex_inLeg {leg : SpaceData S} {co : BLeg S} (h : SortedLeg leg co) {dim : S → ℕ} {k : ℕ} {s : S}
    {d m : ℕ} (hk : DenseIndex dim leg k s d m) : InLeg co s m ∧ d < dim s ∧
      k = ((sizes dim leg).take (leg.sectors.idxOf s)).sum + (d * Spec.mult co s + m) := by
  obtain ⟨j, n, h1, h2, h3, h4, h5⟩ := hk
  have h6 := h.mult j s h1
  rw [h2] at h6
  have hn : n = Spec.mult co s := Option.some.inj h6
  refine ⟨⟨(h.mem s).2 (List.mem_of_getElem? h1), hn ▸ h4⟩, h3, ?_⟩
  rw [h.idxOf h1, ← hn]
  show k = ((List.zipWith (fun s m => dim s * m) leg.sectors leg.mults).take j).sum + (d * n + m)
  omega

theorem inLeg_denseIndex {leg : SpaceData S} {co : BLeg S} (h : SortedLeg leg co) {dim : S → ℕ} {s : S} {d m : ℕ}
    (hm : InLeg co s m) (hd : d < dim s) :
    DenseIndex dim leg (((sizes dim leg).take (leg.sectors.idxOf s)).sum + (d * Spec.mult co s + m)) s d m := by
  obtain ⟨i, hi, _⟩ := inLeg_index h.coupled hm
  obtain ⟨h1, h2⟩ := h.number hi
  refine ⟨_, _, h1, h2, hd, hm.2, ?_⟩
  show _ = ((sizes dim leg).take _).sum + _ + _
  omega

/-- The number of the sector `i` of the co-domain in the leg. -/
def legNumber (leg : SpaceData S) (co : BLeg S) (i : ℕ) : ℕ := (co.sectors[i]?.map leg.sectors.idxOf).getD 0

/-- What is written for a block. -/
def spread (dim : S → ℕ) (leg : SpaceData S) (co : BLeg S) (p : ℕ × List K) : ℕ × List K :=
  (legNumber leg co p.1, (co.sectors[p.1]?.map fun c => (List.replicate (dim c) p.2).flatten).getD [])

/-- **C91** (to block). The dense block of a diagonal tensor repeats the values of a sector for every vector of the
sector; `leg` has its sectors in any order. -/
theorem C91_to_block [Zero K] {leg : SpaceData S} {co : BLeg S} (h : SortedLeg leg co) (dim : S → ℕ) (D : DEnts K)
    (hD : Abelian.Spec.DSane co.mults D) :
    (diagToBlock dim leg co D).length = spaceDim dim leg ∧
    ∀ k s d m, DenseIndex dim leg k s d m → (diagToBlock dim leg co D).getD k 0 = value co D s m := by
  have hin : ∀ p ∈ D, ∃ c, co.sectors[p.1]? = some c := fun p hp => by
    have : p.1 < co.sectors.length := by rw [h.coupled.len]; exact (hD.shapes p hp).1
    exact ⟨_, List.getElem?_eq_getElem this⟩
  let ws := sizes dim leg
  have hE : diagToBlock dim leg co D = (D.map (spread dim leg co)).foldl (fun res p =>
      setSlice1 res ((ws.take p.1).sum, (ws.take p.1).sum + ws.getD p.1 0) p.2) (zeros1 (spaceDim dim leg)) := by
    unfold diagToBlock
    rw [List.foldl_map]
    refine List.foldl_ext _ _ _ fun res p hp => ?_
    obtain ⟨c, hc⟩ := hin p hp
    obtain ⟨h1, h2⟩ := h.number hc
    simp only [diagPut, spread, legNumber, hc, Option.map_some, Option.getD_some]
    rw [spaceSlice_eq h1 h2]
  have hsh : ∀ p ∈ D.map (spread dim leg co), p.1 < ws.length ∧ p.2.length = ws.getD p.1 0 := by
    intro q hq
    obtain ⟨p, hp, rfl⟩ := List.mem_map.1 hq
    obtain ⟨c, hc⟩ := hin p hp
    obtain ⟨h1, h2⟩ := h.number hc
    have hz := sizes_get (dim := dim) h1 h2
    simp only [spread, legNumber, hc, Option.map_some, Option.getD_some]
    refine ⟨(List.getElem?_eq_some_iff.1 hz).1, ?_⟩
    rw [List.getD_eq_getElem?_getD, hz, List.length_flatten, List.map_replicate, List.sum_replicate,
      (hD.shapes p hp).2, ← mult_eq h.coupled hc]
    rfl
  have hinj : ∀ p ∈ D, ∀ q ∈ D, legNumber leg co p.1 = legNumber leg co q.1 → p = q := by
    intro p hp q hq he
    obtain ⟨c, hc⟩ := hin p hp
    obtain ⟨c', hc'⟩ := hin q hq
    simp only [legNumber, hc, hc', Option.map_some, Option.getD_some] at he
    have h1 := (h.number hc).1
    rw [he, (h.number hc').1] at h1
    have : c' = c := Option.some.inj h1
    subst this
    exact List.inj_on_of_nodup_map (nodup_of_lt hD.sorted) hp hq (nodup_getElem? h.coupled.nodup hc hc')
  have hnd : ((D.map (spread dim leg co)).map Prod.fst).Nodup := by
    rw [List.map_map]
    have h0 : D.Nodup := List.Nodup.of_map _ (nodup_of_lt hD.sorted)
    rw [List.Nodup, List.pairwise_map]
    refine h0.imp_of_mem fun {p q} hp hq hne he => hne ?_
    exact hinj p hp q hq he
  obtain ⟨f1, f2⟩ := foldl_slices ws _ hsh hnd (zeros1 (K := K) (spaceDim dim leg)) (by simp [zeros1]; rfl)
  rw [hE]
  refine ⟨f1, fun k s d m hk => ?_⟩
  obtain ⟨g1, g2, g3⟩ := denseIndex_inLeg h hk
  obtain ⟨i, hi, hd⟩ := inLeg_index h.coupled g1
  obtain ⟨h1, h2⟩ := h.number hi
  have hz := sizes_get (dim := dim) h1 h2
  have hix : IsDiagIndex ws (leg.sectors.idxOf s) (d * Spec.mult co s + m) := by
    refine ⟨(List.getElem?_eq_some_iff.1 hz).1, ?_⟩
    show _ < (sizes dim leg).getD _ 0
    rw [List.getD_eq_getElem?_getD, hz]
    show d * Spec.mult co s + m < dim s * Spec.mult co s
    have : (d + 1) * Spec.mult co s ≤ dim s * Spec.mult co s := Nat.mul_le_mul_right _ g2
    rw [Nat.succ_mul] at this
    have := g1.2
    omega
  rw [g3, f2 _ _ hix, value_eq h.coupled _ hi]
  unfold diagEntry
  cases hx : D.lookup i with
  | none =>
    have : (D.map (spread dim leg co)).lookup (leg.sectors.idxOf s) = none := by
      rw [lookup_none_iff]
      intro q hq he
      obtain ⟨p, hp, rfl⟩ := List.mem_map.1 hq
      obtain ⟨c, hc⟩ := hin p hp
      simp only [spread, legNumber, hc, Option.map_some, Option.getD_some] at he
      have h3 := (h.number hc).1
      rw [he, h1] at h3
      have : s = c := Option.some.inj h3
      subst this
      exact lookup_none_iff.1 hx p hp (nodup_getElem? h.coupled.nodup hc hi)
    rw [this]
    simp [zeros1, List.getD_eq_getElem?_getD, List.getElem?_replicate]
    split <;> rfl
  | some x =>
    have hm := lookup_mem hx
    have hl : (D.map (spread dim leg co)).lookup (leg.sectors.idxOf s) = some (List.replicate (dim s) x).flatten := by
      have hq : (leg.sectors.idxOf s, (List.replicate (dim s) x).flatten) ∈ D.map (spread dim leg co) :=
        List.mem_map.2 ⟨_, hm, by simp [spread, legNumber, hi]⟩
      generalize D.map (spread dim leg co) = E at hnd hq
      clear f1 f2 hE hsh
      induction E with
      | nil => simp at hq
      | cons e E ih =>
        rw [List.map_cons, List.nodup_cons] at hnd
        rw [lookup_cons]
        rcases List.mem_cons.1 hq with rfl | hq
        · rw [if_pos rfl]
        · rw [if_neg, ih hnd.2 hq]
          rintro he
          exact hnd.1 (List.mem_map.2 ⟨_, hq, he⟩)
    rw [hl]
    have hxl : x.length = Spec.mult co s := by rw [mult_eq h.coupled hi]; exact hD.lookup_length hx
    simp only [Option.getD_some]
    rw [← hxl]
    exact getD_replicate_flatten x (dim s) d m g2 (by rw [hxl]; exact g1.2)

/-! ## From a block -/

theorem slice1_getD [Zero K] (l : List K) (a n x : ℕ) (hx : x < n) :
    (getSlice1 l (a, a + n)).getD x 0 = l.getD (a + x) 0 := by
  unfold getSlice1 slice
  simp only [List.getD_eq_getElem?_getD, List.getElem?_take, List.getElem?_drop, Nat.add_sub_cancel_left, if_pos hx]

/-- The entries of the sector `s` in a dense block: a list for every vector of the sector. -/
def sectorRows [Zero K] (dim : S → ℕ) (leg : SpaceData S) (co : BLeg S) (a : List K) (s : S) : List (List K) :=
  (List.range (dim s)).map fun d => (List.range (Spec.mult co s)).map fun m =>
    a.getD (((sizes dim leg).take (leg.sectors.idxOf s)).sum + (d * Spec.mult co s + m)) 0

/-- The averages of the entries of a sector over its vectors. -/
def average [Field K] (dim : S → ℕ) (leg : SpaceData S) (co : BLeg S) (a : List K) (s : S) : List K :=
  (List.range (Spec.mult co s)).map fun m => ((List.range (dim s)).map fun d =>
    a.getD (((sizes dim leg).take (leg.sectors.idxOf s)).sum + (d * Spec.mult co s + m)) 0).sum / (dim s : K)

theorem diagSector_eq [Field K] {leg : SpaceData S} {co : BLeg S} (h : SortedLeg leg co) (dim : S → ℕ)
    (near : List (List K) → List (List K) → Bool) (a : List K) (ha : a.length = spaceDim dim leg) {i : ℕ} {s : S}
    (hi : co.sectors[i]? = some s) :
    diagSector dim near leg a s (co.mults.getD i 0) =
      if near (sectorRows dim leg co a s) (List.replicate (dim s) (average dim leg co a s)) then
        some (average dim leg co a s) else none := by
  obtain ⟨h1, h2⟩ := h.number hi
  have hz := sizes_get (dim := dim) h1 h2
  have hsl := spaceSlice_eq (dim := dim) h1 h2
  have hg : (sizes dim leg).getD (leg.sectors.idxOf s) 0 = dim s * Spec.mult co s := by
    rw [List.getD_eq_getElem?_getD, hz]; rfl
  rw [hg] at hsl
  have hm := mult_eq h.coupled hi
  unfold diagSector
  rw [if_pos (List.mem_of_getElem? h1), ← hm]
  set st := ((sizes dim leg).take (leg.sectors.idxOf s)).sum with hst
  have hfit : st + dim s * Spec.mult co s ≤ a.length := by
    rw [ha]
    have e1 := take_sum_succ (sizes dim leg) _ _ hz
    have e2 := take_sum_mono (sizes dim leg) (leg.sectors.idxOf s + 1) (sizes dim leg).length
      (List.getElem?_eq_some_iff.1 hz).1
    rw [List.take_length] at e2
    show _ ≤ (sizes dim leg).sum
    omega
  have hlen : (getSlice1 a (spaceSlice dim leg (leg.sectors.idxOf s))).length = dim s * Spec.mult co s := by
    rw [hsl]
    simp [getSlice1, slice]
    omega
  simp only [hlen, if_true]
  have hrows : rows2 (getSlice1 a (spaceSlice dim leg (leg.sectors.idxOf s))) (dim s) (Spec.mult co s) =
      sectorRows dim leg co a s := by
    unfold rows2 sectorRows
    refine List.map_congr_left fun d hd => List.map_congr_left fun m hm => ?_
    rw [List.mem_range] at hd hm
    have : (d + 1) * Spec.mult co s ≤ dim s * Spec.mult co s := Nat.mul_le_mul_right _ hd
    rw [Nat.succ_mul] at this
    rw [hsl, slice1_getD _ _ _ _ (by omega)]
  rw [hrows]
  have hav : ((List.range (Spec.mult co s)).map fun x =>
      ((sectorRows dim leg co a s).map fun r => r.getD x 0).sum / (dim s : K)) = average dim leg co a s := by
    unfold average sectorRows
    refine List.map_congr_left fun m hm => ?_
    rw [List.mem_range] at hm
    congr 2
    rw [List.map_map]
    refine List.map_congr_left fun d _ => ?_
    simp only [Function.comp]
    rw [List.getD_eq_getElem?_getD, List.getElem?_map, List.getElem?_range hm]
    rfl
  rw [hav]

theorem mapM_range_some {A : Type} (n : ℕ) (f : ℕ → Option A) (g : ℕ → A) (h : ∀ i < n, f i = some (g i)) :
    (List.range n).mapM f = some ((List.range n).map g) := by
  have : ∀ l : List ℕ, (∀ i ∈ l, f i = some (g i)) → l.mapM f = some (l.map g) := by
    intro l
    induction l with
    | nil => intro _; rfl
    | cons x l ih =>
      intro hl
      rw [List.mapM_cons, hl x List.mem_cons_self, ih fun i hi => hl i (List.mem_cons_of_mem _ hi)]
      rfl
  exact this _ fun i hi => h i (List.mem_range.1 hi)

/-- The diagonal tensor of the averages -/
def averages [Field K] (dim : S → ℕ) (leg : SpaceData S) (co : BLeg S) (a : List K) : DEnts K :=
  (List.range co.sectors.length).map fun i => (i, (co.sectors[i]?.map (average dim leg co a)).getD [])

theorem averages_spec [Field K] {leg : SpaceData S} {co : BLeg S} (h : SortedLeg leg co) (dim : S → ℕ) (a : List K) :
    Abelian.Spec.DSane co.mults (averages dim leg co a) ∧
    ∀ s m, InLeg co s m → value co (averages dim leg co a) s m = (average dim leg co a s).getD m 0 := by
  have hS : Abelian.Spec.DSane co.mults (averages dim leg co a) := by
    refine ⟨fun p hp => ?_, ?_⟩
    · obtain ⟨i, hi, rfl⟩ := List.mem_map.1 hp
      rw [List.mem_range] at hi
      refine ⟨by rw [← h.coupled.len]; exact hi, ?_⟩
      have hs := List.getElem?_eq_getElem hi
      simp [hs, average, mult_eq h.coupled hs]
    · unfold averages
      rw [List.map_map]
      have : (Prod.fst ∘ fun i : ℕ => (i, (co.sectors[i]?.map (average dim leg co a)).getD [])) = id := rfl
      rw [this, List.map_id]
      exact List.pairwise_lt_range
  refine ⟨hS, fun s m hm => ?_⟩
  obtain ⟨i, hi, _⟩ := inLeg_index h.coupled hm
  rw [value_eq h.coupled _ hi]
  unfold diagEntry
  have hq : (i, average dim leg co a s) ∈ averages dim leg co a :=
    List.mem_map.2 ⟨i, List.mem_range.2 (List.getElem?_eq_some_iff.1 hi).1, by simp [hi]⟩
  have := lookup_of_mem hS.sorted hq
  simp only at this
  rw [this]
  rfl

theorem fromBlock_isSome [Field K] {leg : SpaceData S} {co : BLeg S} (h : SortedLeg leg co) (dim : S → ℕ)
    (near : List (List K) → List (List K) → Bool) (a : List K) (ha : a.length = spaceDim dim leg) :
    ((∀ s ∈ co.sectors, near (sectorRows dim leg co a s) (List.replicate (dim s) (average dim leg co a s)) = true) →
      diagFromBlock dim near leg co a = some (averages dim leg co a)) ∧
    ((diagFromBlock dim near leg co a).isSome → ∀ s ∈ co.sectors,
      near (sectorRows dim leg co a s) (List.replicate (dim s) (average dim leg co a s)) = true) := by
  constructor
  · intro hn
    unfold diagFromBlock averages
    refine mapM_range_some _ _ _ fun i hi => ?_
    have hs := List.getElem?_eq_getElem hi
    simp only [hs]
    rw [diagSector_eq h dim near a ha hs, if_pos (hn _ (List.getElem_mem hi))]
    rfl
  · intro hsome s hs
    unfold diagFromBlock at hsome
    rw [mapM_isSome_iff] at hsome
    obtain ⟨i, hi, e⟩ := List.mem_iff_getElem.1 hs
    have hs' : co.sectors[i]? = some s := by rw [List.getElem?_eq_getElem hi, e]
    have := hsome i (List.mem_range.2 hi)
    simp only [hs'] at this
    rw [diagSector_eq h dim near a ha hs'] at this
    by_contra hne
    rw [if_neg hne] at this
    simp at this

/-- **C91** (from block). The value of a sector and a multiplicity index is the average of the entries of the block
over the vectors of the sector. -/
theorem C91_from_block [Field K] {leg : SpaceData S} {co : BLeg S} (h : SortedLeg leg co) (dim : S → ℕ)
    (near : List (List K) → List (List K) → Bool) (a : List K) (ha : a.length = spaceDim dim leg) (D : DEnts K)
    (hD : diagFromBlock dim near leg co a = some D) :
    Abelian.Spec.DSane co.mults D ∧ ∀ s m, InLeg co s m → ∀ f : ℕ → K,
      (∀ d k, DenseIndex dim leg k s d m → a.getD k 0 = f d) →
      value co D s m = ((List.range (dim s)).map f).sum / (dim s : K) := by
  obtain ⟨g1, g2⟩ := fromBlock_isSome h dim near a ha
  have hDe : D = averages dim leg co a := by
    have := g1 (g2 (by rw [hD]; rfl))
    rw [hD] at this
    exact Option.some.inj this
  rw [hDe]
  obtain ⟨a1, a2⟩ := averages_spec h dim a
  refine ⟨a1, fun s m hm f hf => ?_⟩
  rw [a2 s m hm]
  unfold average
  rw [List.getD_eq_getElem?_getD, List.getElem?_map, List.getElem?_range hm.2]
  simp only [Option.map_some, Option.getD_some]
  congr 2
  refine List.map_congr_left fun d hd => ?_
  exact hf d _ (inLeg_denseIndex h hm (List.mem_range.1 hd))

theorem symmetric_rows [Field K] {leg : SpaceData S} {co : BLeg S} (h : SortedLeg leg co) (dim : S → ℕ)
    (hdim : ∀ s ∈ co.sectors, (dim s : K) ≠ 0) (a : List K) (hs : Symmetric1 dim leg a) (s : S) (hm : s ∈ co.sectors) :
    sectorRows dim leg co a s = List.replicate (dim s) (average dim leg co a s) := by
  refine List.eq_replicate_iff.2 ⟨by simp [sectorRows], ?_⟩
  intro r hr
  obtain ⟨d, hd, rfl⟩ := List.mem_map.1 hr
  rw [List.mem_range] at hd
  unfold average
  refine List.map_congr_left fun m hm' => ?_
  rw [List.mem_range] at hm'
  have hl : InLeg co s m := ⟨hm, hm'⟩
  have : ((List.range (dim s)).map fun d' =>
      a.getD (((sizes dim leg).take (leg.sectors.idxOf s)).sum + (d' * Spec.mult co s + m)) 0) =
      List.replicate (dim s) (a.getD (((sizes dim leg).take (leg.sectors.idxOf s)).sum + (d * Spec.mult co s + m)) 0) := by
    refine List.eq_replicate_iff.2 ⟨by simp, ?_⟩
    intro x hx
    obtain ⟨d', hd', rfl⟩ := List.mem_map.1 hx
    exact hs _ _ s d' d m (inLeg_denseIndex h hl (List.mem_range.1 hd')) (inLeg_denseIndex h hl hd)
  rw [this, List.sum_replicate, nsmul_eq_mul, mul_div_cancel_left₀ _ (hdim s hm)]

/-- **C91** (acceptance). With an exact comparison a block is accepted iff it is symmetric. -/
theorem C91_from_block_accepts [Field K] {leg : SpaceData S} {co : BLeg S} (h : SortedLeg leg co) (dim : S → ℕ)
    (hdim : ∀ s ∈ co.sectors, (dim s : K) ≠ 0) (near : List (List K) → List (List K) → Bool)
    (hnear : ∀ x y, near x y = true ↔ x = y) (a : List K) (ha : a.length = spaceDim dim leg) :
    (diagFromBlock dim near leg co a).isSome ↔ Symmetric1 dim leg a := by
  obtain ⟨g1, g2⟩ := fromBlock_isSome h dim near a ha
  constructor
  · intro hsome k k' s d d' m hk hk'
    obtain ⟨e1, e2, e3⟩ := denseIndex_inLeg h hk
    obtain ⟨_, e4, e5⟩ := denseIndex_inLeg h hk'
    have hr := (hnear _ _).1 (g2 hsome s e1.1)
    have key : ∀ d, d < dim s → a.getD (((sizes dim leg).take (leg.sectors.idxOf s)).sum + (d * Spec.mult co s + m)) 0 =
        (average dim leg co a s).getD m 0 := by
      intro d hd
      have h1 := congrArg (fun l => (l.getD d []).getD m 0) hr
      simp only [sectorRows] at h1
      rw [List.getD_eq_getElem?_getD (l := List.map _ _), List.getElem?_map, List.getElem?_range hd,
        List.getD_eq_getElem?_getD (l := List.replicate _ _), List.getElem?_replicate, if_pos hd] at h1
      simp only [Option.map_some, Option.getD_some] at h1
      rw [List.getD_eq_getElem?_getD (l := List.map _ _), List.getElem?_map, List.getElem?_range e1.2] at h1
      exact h1
    rw [e3, e5, key d e2, key d' e4]
  · intro hs
    rw [g1 fun s hm => (hnear _ _).2 (symmetric_rows h dim hdim a hs s hm)]
    rfl

/-- **C91** (round trip of blocks). A symmetric block is accepted, and `diagonal_as_block` gives it back. -/
theorem C91_block_round_trip [Field K] {leg : SpaceData S} {co : BLeg S} (h : SortedLeg leg co) (dim : S → ℕ)
    (hdim : ∀ s ∈ co.sectors, (dim s : K) ≠ 0) (near : List (List K) → List (List K) → Bool)
    (hnear : ∀ x, near x x = true) (a : List K) (ha : a.length = spaceDim dim leg) (hs : Symmetric1 dim leg a) :
    ∃ D, diagFromBlock dim near leg co a = some D ∧ diagToBlock dim leg co D = a := by
  obtain ⟨g1, g2⟩ := fromBlock_isSome h dim near a ha
  have hr := fun s hm => symmetric_rows h dim hdim a hs s hm
  have hD := g1 fun s hm => by rw [hr s hm]; exact hnear _
  obtain ⟨d1, d2⟩ := C91_from_block h dim near a ha _ hD
  refine ⟨_, hD, ?_⟩
  obtain ⟨t1, t2⟩ := C91_to_block h dim _ d1
  refine List.ext_getElem (by rw [t1, ha]) fun k k1 k2 => ?_
  rw [t1] at k1
  obtain ⟨s, d, m, hk⟩ := denseIndex_exists dim leg h.len k k1
  obtain ⟨e1, e2, _⟩ := denseIndex_inLeg h hk
  have h1 := t2 k s d m hk
  rw [d2 s m e1 (fun _ => a.getD k 0) (fun d' k' hk' => hs k' k s d' d m hk' hk), List.map_const', List.length_range,
    List.sum_replicate, nsmul_eq_mul, mul_div_cancel_left₀ _ (hdim s e1.1)] at h1
  rw [List.getD_eq_getElem _ _ (by rw [t1]; exact k1), List.getD_eq_getElem _ _ k2] at h1
  exact h1

/-- **C91** (round trip of tensors). The dense block of a diagonal tensor is accepted and gives back its values. -/
theorem C91_tensor_round_trip [Field K] {leg : SpaceData S} {co : BLeg S} (h : SortedLeg leg co) (dim : S → ℕ)
    (hdim : ∀ s ∈ co.sectors, (dim s : K) ≠ 0) (near : List (List K) → List (List K) → Bool)
    (hnear : ∀ x, near x x = true) (D : DEnts K) (hD : Abelian.Spec.DSane co.mults D) :
    ∃ D', diagFromBlock dim near leg co (diagToBlock dim leg co D) = some D' ∧
      ∀ s m, InLeg co s m → value co D' s m = value co D s m := by
  obtain ⟨t1, t2⟩ := C91_to_block h dim D hD
  have hs : Symmetric1 dim leg (diagToBlock dim leg co D) := by
    intro k k' s d d' m hk hk'
    rw [t2 k s d m hk, t2 k' s d' m hk']
  obtain ⟨g1, g2⟩ := fromBlock_isSome h dim near _ t1
  have hD' := g1 fun s hm => by rw [symmetric_rows h dim hdim _ hs s hm]; exact hnear _
  refine ⟨_, hD', fun s m hm => ?_⟩
  obtain ⟨d1, d2⟩ := C91_from_block h dim near _ t1 _ hD'
  rw [d2 s m hm (fun _ => value co D s m) (fun d k hk => t2 k s d m hk), List.map_const', List.length_range,
    List.sum_replicate, nsmul_eq_mul, mul_div_cancel_left₀ _ (hdim s hm.1)]

/-- **C91** (entries). `D[k, k]` is the value at the sector and the multiplicity index of the basis vector; if the leg
is not a dual its sectors are sorted. -/
theorem C91_get_element [Zero K] {leg : SpaceData S} {co : BLeg S} (h : SortedLeg leg co) (isDual : Bool)
    (hsorted : isDual = false → leg.sectors = co.sectors) (D : DEnts K) (hD : Abelian.Spec.DSane co.mults D)
    (j w : ℕ) (s : S) (hj : leg.sectors[j]? = some s) :
    diagGetElement isDual leg co D j w = some (value co D s (w % Spec.mult co s)) := by
  have hm : s ∈ co.sectors := (h.mem s).2 (List.mem_of_getElem? hj)
  have hmul : leg.mults.getD j 0 = Spec.mult co s := by
    rw [List.getD_eq_getElem?_getD, h.mult j s hj]; rfl
  have hnum : (if isDual then (leg.sectors[j]?.bind fun c =>
      if c ∈ co.sectors then some (co.sectors.idxOf c) else none) else some j) = some (co.sectors.idxOf s) := by
    cases isDual with
    | true => simp [hj, hm]
    | false =>
      rw [hsorted rfl] at hj
      have h1 : co.sectors[co.sectors.idxOf s]? = some s := by
        rw [List.getElem?_eq_getElem (List.idxOf_lt_length_of_mem hm), List.getElem_idxOf]
      rw [nodup_getElem? h.coupled.nodup h1 hj]
      rfl
  have hrows : Spec.DSane co (asRows D) := by
    refine ⟨fun e he => ?_, fun e he => ?_, ?_⟩
    · obtain ⟨p, hp, rfl⟩ := List.mem_map.1 he
      exact ⟨rfl, by rw [h.coupled.len]; exact (hD.shapes p hp).1⟩
    · obtain ⟨p, hp, rfl⟩ := List.mem_map.1 he
      exact (hD.shapes p hp).2
    · unfold asRows
      rw [List.map_map]
      exact hD.sorted
  have hb : blockIndFromDomain (asRows D) (co.sectors.idxOf s) = blockIndFromCoupled (asRows D) co s := by
    unfold blockIndFromCoupled
    rw [if_pos hm]
  unfold diagGetElement
  simp only [hnum, Option.bind_some, hb, hmul]
  unfold value diagValue
  rcases lookup_diag h.coupled (asRows D) hrows s with ⟨n, e, h1, h2, _, h4⟩ | ⟨h1, h2⟩
  · rw [h1, h4]
    unfold asRows at h2
    rw [List.getElem?_map] at h2
    obtain ⟨p, hp, rfl⟩ := Option.map_eq_some_iff.1 h2
    simp [hp]
  · rw [h1, h2]
    rfl

end Cyten.FT
