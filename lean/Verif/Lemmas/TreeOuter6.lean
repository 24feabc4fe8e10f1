import Verif.Lemmas.TreeOuter5
import Verif.Lemmas.TreePermute3

/-! # `FusionTreeBackend::outer`: the blocks of the result -/

namespace Cyten.FT
open Cyten.FT.Spec Cyten.Tools Cyten.ListSum Cyten.Props Cyten.Spaces Cyten.Spaces.Spec Cyten.Abelian
  Cyten.FusionTrees Cyten.Mappings

variable {S K : Type} [LinearOrder S] [CommRing K] [StarRing K]
variable {R : FusionRule S} {T : FTensors S K} {F : FSym S K}

theorem foldlM_sum {A B : Type} {P : B → Prop} (val : B → K) (f : B → A → Option B) (g : A → K) (l : List A)
    (h : ∀ a ∈ l, ∀ b, P b → ∃ b', f b a = some b' ∧ P b' ∧ val b' = val b + g a) (b : B) (hb : P b) :
    ∃ b', l.foldlM f b = some b' ∧ P b' ∧ val b' = val b + (l.map g).sum := by
  induction l generalizing b with
  | nil => exact ⟨b, rfl, hb, by simp⟩
  | cons a l ih =>
    obtain ⟨b1, h1, h2, h3⟩ := h a List.mem_cons_self b hb
    obtain ⟨b2, g1, g2, g3⟩ := ih (fun x hx => h x (List.mem_cons_of_mem _ hx)) b1 h2
    refine ⟨b2, by rw [List.foldlM_cons, h1]; exact g1, g2, ?_⟩
    rw [g3, h3, List.map_cons, List.sum_cons]; ring

theorem set_map_fst {A B : Type} (D : List (A × B)) (k : ℕ) (e : A × B) (h : D[k]? = some e) (M : B) :
    (D.set k (e.1, M)).map Prod.fst = D.map Prod.fst := by
  rw [List.map_set]
  refine List.ext_getElem? fun i => ?_
  rw [List.getElem?_set]
  by_cases hi : k = i
  · subst hi
    have hl := (List.getElem?_eq_some_iff.1 h).1
    rw [if_pos rfl, if_pos (by simpa using hl), List.getElem?_map, h]; rfl
  · rw [if_neg hi]

section
variable {lc ld : BLeg S} {D : FEnts K}

theorem fsane_set (hD : FSane lc ld D) {k : ℕ} {e : (ℕ × ℕ) × Mat K} (h : D[k]? = some e) {M : Mat K}
    (h1 : M.rows = e.2.rows) (h2 : M.cols = e.2.cols) : FSane lc ld (D.set k (e.1, M)) := by
  have he := List.mem_of_getElem? h
  refine ⟨fun x hx => ?_, fun x hx => ?_, ?_⟩
  · rcases List.mem_or_eq_of_mem_set hx with hx | rfl
    · exact hD.coupled x hx
    · exact hD.coupled e he
  · rcases List.mem_or_eq_of_mem_set hx with hx | rfl
    · exact hD.shape x hx
    · simp only; rw [h1, h2]; exact hD.shape e he
  · have := set_map_fst D k e h M
    have h3 : (D.set k (e.1, M)).map (fun e => e.1.2) = D.map fun e => e.1.2 := by
      have := congrArg (List.map Prod.snd) this
      simpa [List.map_map, Function.comp_def] using this
    rw [h3]; exact hD.sorted

theorem blkVal_set (hD : FSane lc ld D) (hc : Coupled lc) (hd : Coupled ld) {k : ℕ} {e : (ℕ × ℕ) × Mat K}
    (h : D[k]? = some e) {c : S} (hcc : lc.sectors[e.1.1]? = some c) {M : Mat K}
    (h1 : M.rows = e.2.rows) (h2 : M.cols = e.2.cols) (c' : S) (r t : ℕ) :
    blkVal lc (D.set k (e.1, M)) c' r t = if c' = c then M.val r t else blkVal lc D c' r t := by
  have hD' := fsane_set hD h h1 h2
  have hl := (List.getElem?_eq_some_iff.1 h).1
  by_cases hcc' : c' = c
  · subst hcc'
    rw [if_pos rfl]
    exact blkVal_mem hD' hc hd (e := (e.1, M)) (List.mem_iff_getElem?.2 ⟨k, by rw [List.getElem?_set_self hl]⟩) hcc r t
  · rw [if_neg hcc']
    unfold blkVal
    congr 1
    refine List.ext_getElem? fun i => ?_
    rw [List.getElem?_map, List.getElem?_map, List.getElem?_set]
    by_cases hi : k = i
    · subst hi
      rw [if_pos rfl, if_pos hl, h]
      simp only [Option.map_some, hcc]
      rw [if_neg (by intro hh; exact hcc' (Option.some.inj hh).symm), if_neg (by intro hh; exact hcc' (Option.some.inj hh).symm)]
    · rw [if_neg hi]

/-- The slice of a tree -/
def slc (R : FusionRule S) (s : Side S) (t : FusionTree S) : ℕ × ℕ := (TProd.treeBlockSlice R s.spaces t).getD (0, 0)

/-- What one pair of new trees adds to an entry of a block -/
def addVal (R : FusionRule S) (cod' dom' : Side S) (c : S) (r t : ℕ) (b : Mat K) (y x : FusionTree S × K) : K :=
  if x.1.coupled = y.1.coupled ∧ y.1.coupled = c ∧ (slc R cod' x.1).1 ≤ r ∧ r < (slc R cod' x.1).2 ∧
      (slc R dom' y.1).1 ≤ t ∧ t < (slc R dom' y.1).2 then
    star x.2 * y.2 * b.val (r - (slc R cod' x.1).1) (t - (slc R dom' y.1).1) else 0

/-- What all blocks of the result satisfy during the loops -/
def Filled (lc ld : BLeg S) (D : FEnts K) : Prop :=
  FSane lc ld D ∧ ∀ c ∈ lc.sectors, c ∈ ld.sectors → ∃ e ∈ D, ld.sectors[e.1.2]? = some c

theorem filled_keys {D' : FEnts K} (h : Filled lc ld D) (hs : FSane lc ld D') (hk : D'.map Prod.fst = D.map Prod.fst) :
    Filled lc ld D' := by
  refine ⟨hs, fun c h1 h2 => ?_⟩
  obtain ⟨e, he, hc⟩ := h.2 c h1 h2
  have : e.1 ∈ D'.map Prod.fst := by rw [hk]; exact List.mem_map_of_mem he
  obtain ⟨e', he', h'⟩ := List.mem_map.1 this
  exact ⟨e', he', by rw [h']; exact hc⟩

variable {cod' dom' : Side S}

theorem outerAdd_spec (hc : Coupled lc) (hd : Coupled ld) (k : ℕ) (y : FusionTree S × K) (b : Mat K)
    (keys : List (ℕ × ℕ)) (ij : ℕ × ℕ) (hk : keys[k]? = some ij) (hij : lc.sectors[ij.1]? = some y.1.coupled)
    (c : S) (r t : ℕ) (x : FusionTree S × K)
    (hx : x.1.coupled = y.1.coupled → (TProd.treeBlockSlice R cod'.spaces x.1).isSome)
    (D : FEnts K) (hD : FSane lc ld D ∧ D.map Prod.fst = keys) :
    ∃ D', outerAdd R cod' k (slc R dom' y.1) y b D x = some D' ∧ (FSane lc ld D' ∧ D'.map Prod.fst = keys) ∧
      blkVal lc D' c r t = blkVal lc D c r t + addVal R cod' dom' c r t b y x := by
  unfold outerAdd addVal
  by_cases hxy : x.1.coupled = y.1.coupled
  · rw [if_neg (by simpa using hxy)]
    obtain ⟨s, hs⟩ := Option.isSome_iff_exists.1 (hx hxy)
    have hg : (D.map Prod.fst)[k]? = some ij := by rw [hD.2]; exact hk
    rw [List.getElem?_map] at hg
    obtain ⟨e, he, rfl⟩ := Option.map_eq_some_iff.1 hg
    have hsl : slc R cod' x.1 = s := by unfold slc; rw [hs]; rfl
    rw [hs, he, hsl]
    simp only
    refine ⟨_, rfl, ⟨fsane_set hD.1 he rfl rfl, (set_map_fst D k e he _).trans hD.2⟩, ?_⟩
    refine (blkVal_set hD.1 hc hd he hij (M := e.2.addSlice s (slc R dom' y.1) (star x.2 * y.2) b) rfl rfl c r t).trans ?_
    by_cases hcy : c = y.1.coupled
    · rw [if_pos hcy]
      have hm := blkVal_mem hD.1 hc hd (List.mem_of_getElem? he) hij r t
      rw [hcy, hm]
      simp only [Mat.addSlice]
      by_cases hcov : s.1 ≤ r ∧ r < s.2 ∧ (slc R dom' y.1).1 ≤ t ∧ t < (slc R dom' y.1).2
      · rw [if_pos hcov, if_pos (And.intro hxy (And.intro (by trivial) hcov))]
      · rw [if_neg hcov, if_neg (fun h => hcov h.2.2), add_zero]
    · rw [if_neg hcy, if_neg (fun h => hcy h.2.1.symm), add_zero]
  · rw [if_pos (by simpa using hxy), if_neg (fun h => hxy h.1)]
    exact ⟨D, rfl, hD, (add_zero _).symm⟩

theorem outerDom_spec (hc : Coupled lc) (hd : Coupled ld) (xs : UMap (FusionTree S) K) (b : Mat K)
    (c : S) (r t : ℕ) (y : FusionTree S × K) (hy : (TProd.treeBlockSlice R dom'.spaces y.1).isSome)
    (hys : y.1.coupled ∈ ld.sectors)
    (hx : ∀ x ∈ xs, (TProd.treeBlockSlice R cod'.spaces x.1).isSome ∧ x.1.coupled ∈ lc.sectors)
    (D : FEnts K) (hD : Filled lc ld D) :
    ∃ D', outerDom R cod' dom' ld xs b D y = some D' ∧ Filled lc ld D' ∧
      blkVal lc D' c r t = blkVal lc D c r t + (xs.map (addVal R cod' dom' c r t b y)).sum := by
  unfold outerDom
  obtain ⟨s, hs⟩ := Option.isSome_iff_exists.1 hy
  have hsl : slc R dom' y.1 = s := by unfold slc; rw [hs]; rfl
  rcases C61_block_ind_from_coupled hd D hD.1 y.1.coupled with ⟨n, e, h1, h2, h3⟩ | ⟨h1, h2⟩
  · rw [hs, h1, ← hsl]
    simp only
    obtain ⟨c', g1, g2⟩ := hD.1.coupled e (List.mem_of_getElem? h2)
    obtain rfl := Option.some.inj (h3.symm.trans g2)
    obtain ⟨D', q1, q2, q3⟩ := foldlM_sum (P := fun D' => FSane lc ld D' ∧ D'.map Prod.fst = D.map Prod.fst)
      (fun D' => blkVal lc D' c r t) (outerAdd R cod' n (slc R dom' y.1) y b) (addVal R cod' dom' c r t b y) xs
      (fun x hx' D1 hD1 => outerAdd_spec hc hd n y b _ e.1 (by rw [List.getElem?_map, h2]; rfl) g1 c r t x
        (fun _ => (hx x hx').1) D1 hD1) D ⟨hD.1, rfl⟩
    exact ⟨D', q1, filled_keys hD q2.1 q2.2, q3⟩
  · rw [hs, h1]
    refine ⟨D, rfl, hD, ?_⟩
    rw [sum_zero _ _ fun x hx' => ?_, add_zero]
    unfold addVal
    rw [if_neg]
    rintro ⟨hxy, -⟩
    obtain ⟨e, he, hce⟩ := hD.2 _ (hx x hx').2 (hxy ▸ hys)
    exact h2 e he (hxy ▸ hce)

/-- The new trees of a pair belong to the product spaces. -/
def TreesOK (R : FusionRule S) (s : Side S) (l : BLeg S) (xs : UMap (FusionTree S) K) : Prop :=
  ∀ x ∈ xs, (TProd.treeBlockSlice R s.spaces x.1).isSome ∧ x.1.coupled ∈ l.sectors

theorem outerPair_spec (hc : Coupled lc) (hd : Coupled ld) (small : K → Bool) (c : S) (r t : ℕ)
    (v : (FusionTree S × FusionTree S × Mat K) × (FusionTree S × FusionTree S × Mat K))
    (h1 : TreesOK R cod' lc (treeOuter R F small v.1.1 v.2.1))
    (h2 : TreesOK R dom' ld (treeOuter R F small v.1.2.1 v.2.2.1)) (D : FEnts K) (hD : Filled lc ld D) :
    ∃ D', outerPair R F small cod' dom' ld D v = some D' ∧ Filled lc ld D' ∧
      blkVal lc D' c r t = blkVal lc D c r t + ((treeOuter R F small v.1.2.1 v.2.2.1).map fun y =>
        ((treeOuter R F small v.1.1 v.2.1).map
          (addVal R cod' dom' c r t (outerBlock v.1.2.2 v.2.2.2) y)).sum).sum := by
  unfold outerPair
  exact foldlM_sum (P := Filled lc ld) (fun D' => blkVal lc D' c r t) _ _ _
    (fun y hy D1 hD1 => outerDom_spec hc hd _ _ c r t y (h2 y hy).1 (h2 y hy).2 h1 D1 hD1) D hD

end

end Cyten.FT
