import Verif.Model.AbelianCombine
import Verif.Props.AbelianPipe
import Verif.Props.AbelianDense
import Verif.Lemmas.AbelianCompose

/-! # The segments of `combine_legs` and `split_legs` -/

namespace Cyten.Abelian
open Cyten.Tables Cyten.Tools Cyten.Spaces Cyten.Spaces.Spec Cyten.Props Cyten.Abelian.Spec
open Cyten.Spaces.APipe

variable {S K : Type} [LinearOrder S]

/-- What the proofs need to know about a segment. -/
structure SegOK (s : Seg S) : Prop where
  new_lt : ∀ c, InShape c ((legMults s.legs).map List.length) → s.newIdx c < s.leg.mults.length
  size : ∀ c, InShape c ((legMults s.legs).map List.length) →
    (s.slice c).2 = (s.slice c).1 + (shapeOf (legMults s.legs) c).prod
  stop_le : ∀ c, InShape c ((legMults s.legs).map List.length) →
    (s.slice c).2 ≤ s.leg.mults.getD (s.newIdx c) 0
  uniq : ∀ c c', InShape c ((legMults s.legs).map List.length) →
    InShape c' ((legMults s.legs).map List.length) → s.newIdx c = s.newIdx c' →
    ∀ o, (s.slice c).1 ≤ o → o < (s.slice c).2 → (s.slice c').1 ≤ o → o < (s.slice c').2 → c = c'
  exh : ∀ J o, o < s.leg.mults.getD J 0 → ∃ c, InShape c ((legMults s.legs).map List.length) ∧
    s.newIdx c = J ∧ (s.slice c).1 ≤ o ∧ o < (s.slice c).2
  nodup : ∀ J, ((s.choices J).map Prod.fst).Nodup
  choices : ∀ J < s.leg.mults.length, ∀ ch, ch ∈ s.choices J ↔
    ∃ c, InShape c ((legMults s.legs).map List.length) ∧ s.newIdx c = J ∧ ch = (c, s.slice c)

theorem segOK_keep (e : ESpace S) : SegOK (Seg.keep e) := by
  have hin : ∀ c, InShape c ((legMults (Seg.keep e).legs).map List.length) ↔
      ∃ b, b < e.mults.length ∧ c = [b] := by
    intro c
    constructor
    · intro h
      obtain ⟨b, t, hb, ht, rfl⟩ := List.forall₂_cons_right_iff.1 h
      cases ht
      exact ⟨b, hb, rfl⟩
    · rintro ⟨b, hb, rfl⟩
      exact .cons hb .nil
  refine ⟨?_, ?_, ?_, ?_, ?_, ?_, ?_⟩
  · intro c hc
    obtain ⟨b, hb, rfl⟩ := (hin c).1 hc
    exact hb
  · intro c hc
    obtain ⟨b, hb, rfl⟩ := (hin c).1 hc
    show e.mults.getD b 0 = 0 + [e.mults.getD b 0].prod
    simp
  · intro c hc
    exact le_rfl
  · intro c c' hc hc' h o _ _ _ _
    obtain ⟨b, hb, rfl⟩ := (hin c).1 hc
    obtain ⟨b', hb', rfl⟩ := (hin c').1 hc'
    have : b = b' := h
    rw [this]
  · intro J o ho
    have hJ : J < e.mults.length := by
      by_contra hn
      have : (Seg.keep e).leg.mults.getD J 0 = 0 := List.getD_eq_default _ _ (not_lt.1 hn)
      omega
    exact ⟨[J], (hin _).2 ⟨J, hJ, rfl⟩, rfl, Nat.zero_le _, ho⟩
  · intro J
    simp [Seg.choices]
  · intro J hJ ch
    constructor
    · intro h
      have := List.mem_singleton.1 h
      exact ⟨[J], (hin _).2 ⟨J, hJ, rfl⟩, rfl, this⟩
    · rintro ⟨c, hc, rfl, rfl⟩
      obtain ⟨b, hb, rfl⟩ := (hin c).1 hc
      exact List.mem_singleton.2 rfl

/-! ## Pipes -/

section Pipe
variable {sym : Sym S} {R : FusionRule S} {legs : List (ESpace S)} {d c : Bool} {p : APipe S}

theorem pipe_sort (h : APipe.make sym R legs d c = some p) :
    p.sort = lexsortIndices ((rawEntries sym R legs d c).map (·.sector)) := by
  unfold APipe.make at h
  by_cases h1 : legs.isEmpty = true
  · rw [if_pos h1] at h; cases h
  rw [if_neg h1] at h
  by_cases h2 : (!(sym.isAbelian && sym.canDrop)) = true
  · rw [if_pos h2] at h; cases h
  rw [if_neg h2] at h
  injection h with h
  rw [← h]

/-- The row found through `fusion_outcomes_sort` is the row of the sectors. -/
theorem pipe_lookup (h : APipe.make sym R legs d c = some p) (idcs : List ℕ)
    (hi : List.Forall₂ (· < ·) idcs (numSectors legs)) :
    ∃ r, p.rows[(inversePermutation p.sort).getD
      (packRow (makeStride (numSectors legs) c) idcs) 0]? = some r ∧ r.idcs = idcs := by
  obtain ⟨-, -, -, -, -, -, -, -, -, hrows, -⟩ := make_spec h
  obtain ⟨gs, hfl, -, -, -, -, -, -, b3, -⟩ := runs_facts sym R legs d c
  have hid : p.rows.map (·.idcs) = (table sym R legs d c).map (·.idcs) := by
    rw [hrows, b3, rows_idcs, hfl]
  have hT : gather (rawEntries sym R legs d c)
      (lexsortIndices ((rawEntries sym R legs d c).map (·.sector))) = table sym R legs d c := by
    rw [gather_lexsort, rawEntries_eq]; rfl
  have hs := pipe_sort h
  have hp : p.sort.Perm (List.range (rawEntries sym R legs d c).length) := by
    rw [hs]
    have := lexsortIndices_perm ((rawEntries sym R legs d c).map (·.sector))
    rwa [List.length_map] at this
  have hl : p.sort.length = (rawEntries sym R legs d c).length := by
    have := hp.length_eq; simpa using this
  have hp' : p.sort.Perm (List.range p.sort.length) := by rw [hl]; exact hp
  obtain ⟨hg, hlt⟩ := (C22_stride_grid (numSectors legs) c).2 idcs hi
  set m := packRow (makeStride (numSectors legs) c) idcs with hm
  have hraw : (rawEntries sym R legs d c)[m]? = some (entry sym R legs d idcs) := by
    rw [rawEntries_eq, List.getElem?_map, hg]; rfl
  have hml : m < p.sort.length := by rw [hl]; exact (List.getElem?_eq_some_iff.1 hraw).1
  obtain ⟨k, hk⟩ : ∃ k, (inversePermutation p.sort)[m]? = some k :=
    ⟨_, List.getElem?_eq_getElem (by rw [length_inversePermutation]; exact hml)⟩
  have hk' := inversePermutation_apply' hp' hk
  have htab : (table sym R legs d c)[k]? = some (entry sym R legs d idcs) := by
    rw [← hT, gather_getElem? _ _ (fun i hi => by
      rw [← hs] at hi
      have := hp.mem_iff.1 hi
      simpa using this), ← hs, hk', Option.bind_some, hraw]
  rw [List.getD_eq_getElem?_getD (l := inversePermutation p.sort), hk, Option.getD_some]
  have : (p.rows.map (·.idcs))[k]? = some idcs := by
    rw [hid, List.getElem?_map, htab]; rfl
  rw [List.getElem?_map] at this
  exact Option.map_eq_some_iff.1 this

theorem tiles_mem {a : ℕ} {l : List (ℕ × ℕ)} {b : ℕ} (h : Tiles a l b) {x : ℕ × ℕ} (hx : x ∈ l) :
    a ≤ x.1 ∧ x.1 ≤ x.2 ∧ x.2 ≤ b := by
  induction l generalizing a with
  | nil => cases hx
  | cons y l ih =>
    obtain ⟨h1, h2, h3⟩ := h
    have hle : y.2 ≤ b := by
      clear ih hx h1 h2
      generalize y.2 = a' at h3
      induction l generalizing a' with
      | nil => exact le_of_eq h3
      | cons z l ih =>
        obtain ⟨z1, z2, z3⟩ := h3
        have := ih _ z3
        omega
    rcases List.mem_cons.1 hx with rfl | hx
    · omega
    · have := ih h3 hx
      omega

/-- Tiles determine the element. -/
theorem tiles_uniq {α : Type} {f : α → ℕ × ℕ} {a : ℕ} {l : List α} {b : ℕ} (h : Tiles a (l.map f) b)
    {x y : α} (hx : x ∈ l) (hy : y ∈ l) {o : ℕ} (x1 : (f x).1 ≤ o) (x2 : o < (f x).2)
    (y1 : (f y).1 ≤ o) (y2 : o < (f y).2) : x = y := by
  induction l generalizing a with
  | nil => cases hx
  | cons z l ih =>
    obtain ⟨h1, h2, h3⟩ := h
    rcases List.mem_cons.1 hx with rfl | hx' <;> rcases List.mem_cons.1 hy with rfl | hy'
    · rfl
    · have := tiles_mem h3 (List.mem_map_of_mem hy')
      omega
    · have := tiles_mem h3 (List.mem_map_of_mem hx')
      omega
    · exact ih h3 hx' hy'

theorem tiles_exh {α : Type} {f : α → ℕ × ℕ} {a : ℕ} {l : List α} {b : ℕ} (h : Tiles a (l.map f) b)
    {o : ℕ} (h1 : a ≤ o) (h2 : o < b) : ∃ x ∈ l, (f x).1 ≤ o ∧ o < (f x).2 := by
  induction l generalizing a with
  | nil =>
    have : a = b := h
    omega
  | cons z l ih =>
    obtain ⟨e1, e2, e3⟩ := h
    by_cases ho : o < (f z).2
    · exact ⟨z, List.mem_cons_self, by omega, ho⟩
    · obtain ⟨x, hx, hx'⟩ := ih e3 (not_lt.1 ho)
      exact ⟨x, List.mem_cons_of_mem _ hx, hx'⟩

theorem prod_reverse_if (b : Bool) (l : List ℕ) : (if b then l.reverse else l).prod = l.prod := by
  cases b
  · rfl
  · exact List.prod_reverse l

theorem inShape_if {b : Bool} {r s : List ℕ} :
    InShape (if b then r.reverse else r) (if b then s.reverse else s) ↔ InShape r s := by
  cases b
  · rfl
  · exact inShape_reverse

theorem filterMap_range_get {α β : Type} (l : List α) (a n : ℕ) (f : α → β) :
    ((List.range n).filterMap fun k => l[a + k]?.map f) = ((l.drop a).take n).map f := by
  induction n with
  | zero => simp
  | succ n ih =>
    rw [List.range_succ, List.filterMap_append, ih, List.take_succ, List.map_append, List.getElem?_drop]
    congr 1
    rw [List.filterMap_cons, List.filterMap_nil]
    cases l[a + n]? <;> rfl

theorem getElem?_getD_of_lt {l : List ℕ} {i : ℕ} (h : i < l.length) : l[i]? = some (l.getD i 0) := by
  rw [List.getD_eq_getElem _ _ h, List.getElem?_eq_getElem h]

theorem segOK_pipe (hinv : ∀ s, sym.dual (sym.dual s) = s) (hv : ∀ e ∈ legs, ValidSpace sym e)
    (h : APipe.make sym R legs d c = some p) (inDom : Bool) : SegOK (Seg.pipe p inDom) := by
  obtain ⟨-, -, -, hlegs, hisd, hcs, hdef, hmu, hms, hrows, -⟩ := make_spec h
  obtain ⟨hnd, hex⟩ := C31_rows_exhaustive sym R legs d c p h
  have hM : (legMults (Seg.pipe p inDom).legs).map List.length =
      if inDom then (numSectors legs).reverse else numSectors legs := by
    have e1 : (legMults legs).map List.length = numSectors legs := by
      unfold legMults numSectors
      rw [List.map_map]
      exact List.map_congr_left fun e he => (hv e he).lengths
    show (legMults (if inDom then p.legs.reverse else p.legs)).map List.length = _
    rw [hlegs]
    cases inDom
    · exact e1
    · show (legMults legs.reverse).map List.length = _
      unfold legMults at e1 ⊢
      rw [List.map_reverse, List.map_reverse, e1]
      rfl
  have hin : ∀ ch, InShape ch ((legMults (Seg.pipe p inDom).legs).map List.length) ↔
      InShape (if inDom then ch.reverse else ch) (numSectors legs) := by
    intro ch
    rw [hM]
    cases inDom
    · rfl
    · exact (inShape_reverse (row := ch) (shape := (numSectors legs).reverse)).symm.trans (by
        rw [List.reverse_reverse]; rfl)
  -- the row of a chunk
  have hrow : ∀ ch, InShape ch ((legMults (Seg.pipe p inDom).legs).map List.length) →
      Seg.pipeRow p inDom ch ∈ p.rows ∧
        (Seg.pipeRow p inDom ch).idcs = if inDom then ch.reverse else ch := by
    intro ch hch
    obtain ⟨r, h1, h2⟩ := pipe_lookup h _ ((hin ch).1 hch)
    have : Seg.pipeRow p inDom ch = r := by
      unfold Seg.pipeRow
      simp only [hlegs, hcs, h1, Option.getD_some]
    rw [this]
    exact ⟨List.mem_of_getElem? h1, h2⟩
  have hchunk : ∀ r ∈ p.rows, InShape (if inDom then r.idcs.reverse else r.idcs)
      ((legMults (Seg.pipe p inDom).legs).map List.length) ∧
      Seg.pipeRow p inDom (if inDom then r.idcs.reverse else r.idcs) = r := by
    intro r hr
    have h1 := (hex r.idcs).1 ⟨r, hr, rfl⟩
    have h2 : InShape (if inDom then r.idcs.reverse else r.idcs)
        ((legMults (Seg.pipe p inDom).legs).map List.length) := by
      rw [hin]
      have : (if inDom then (if inDom then r.idcs.reverse else r.idcs).reverse
          else (if inDom then r.idcs.reverse else r.idcs)) = r.idcs := by
        cases inDom <;> simp
      rw [this]
      unfold InShape numSectors
      rw [List.forall₂_map_right_iff]
      exact h1
    refine ⟨h2, ?_⟩
    obtain ⟨h3, h4⟩ := hrow _ h2
    have : (if inDom then (if inDom then r.idcs.reverse else r.idcs).reverse
          else (if inDom then r.idcs.reverse else r.idcs)) = r.idcs := by
      cases inDom <;> simp
    rw [this] at h4
    exact List.inj_on_of_nodup_map hnd h3 hr h4
  have hshape : ∀ ch, InShape ch ((legMults (Seg.pipe p inDom).legs).map List.length) →
      (shapeOf (legMults (Seg.pipe p inDom).legs) ch).prod =
        (multsAt legs (if inDom then ch.reverse else ch)).prod := by
    intro ch hch
    have hl : ch.length = (legMults (Seg.pipe p inDom).legs).length := by
      rw [hch.length, List.length_map]
    have e : (legMults (Seg.pipe p inDom).legs) =
        if inDom then (legMults legs).reverse else legMults legs := by
      show (legMults (if inDom then p.legs.reverse else p.legs)) = _
      rw [hlegs]
      cases inDom
      · rfl
      · exact List.map_reverse
    have e2 : ∀ x : List ℕ, shapeOf (legMults legs) x = multsAt legs x := by
      intro x
      unfold shapeOf legMults multsAt
      rw [List.zipWith_map_left]
    rw [e] at hl ⊢
    cases inDom
    · exact congrArg List.prod (e2 ch)
    · simp only [if_true] at hl ⊢
      rw [← e2, ← List.prod_reverse, ← shapeOf_reverse _ _ hl, List.reverse_reverse]
  have hstop : ∀ r ∈ p.rows, r.stop = r.start + (multsAt legs r.idcs).prod := by
    intro r hr
    obtain ⟨cs, ms, h1, -, h3⟩ := C31_row_charge sym R hinv legs hv d c p h r hr
    have h4 := picks_of_lt sym legs (fun e he => (hv e he).lengths) r.idcs (by
      unfold numSectors
      rw [List.forall₂_map_right_iff]
      exact (hex r.idcs).1 ⟨r, hr, rfl⟩)
    rw [h3, (picks_det h1 h4).2]
  have hJlt : ∀ r ∈ p.rows, r.J < p.mults.length := by
    intro r hr
    obtain ⟨cs, ms, -, h2, -⟩ := C31_row_charge sym R hinv legs hv d c p h r hr
    have := (List.getElem?_eq_some_iff.1 h2).1
    have hlen : (p.toESpace.sectors sym).length = p.defining.length := by
      unfold ESpace.sectors
      split <;> simp [APipe.toESpace]
    have hlm : p.mults.length = p.defining.length := by
      obtain ⟨gs, -, hne, -, -, -, b1, b2, -, -⟩ := runs_facts sym R legs d c
      rw [hmu, hdef, b1, b2, List.length_map]
      cases hgs : gs with
      | nil => rfl
      | cons g gs' => rw [← hgs]; exact ((heads_eq gs hne 0 g (by rw [hgs]; rfl)).2).symm
    omega
  have htile : ∀ J, J < p.mults.length → Tiles 0 ((p.rows.filter fun r => r.J = J).map fun r =>
      (r.start, r.stop)) (p.mults.getD J 0) := by
    intro J hJ
    exact C31_slices_tile sym R legs d c p h J _ (by
      rw [List.getD_eq_getElem _ _ hJ]; exact List.getElem?_eq_getElem hJ)
  have hcho : ∀ J, (Seg.pipe p inDom).choices J = if J < p.mults.length then
      (p.rows.filter fun r => r.J = J).map fun r =>
        (if inDom then r.idcs.reverse else r.idcs, r.start, r.stop) else [] := by
    intro J
    obtain ⟨-, -, o3, o4⟩ := C31_row_order sym R legs d c p h
    show (List.range _).filterMap _ = _
    rw [filterMap_range_get]
    by_cases hJ : J < p.mults.length
    · rw [if_pos hJ, ← o4 J _ _ (getElem?_getD_of_lt (by omega)) (getElem?_getD_of_lt (by omega))]
      rfl
    · rw [if_neg hJ, List.getD_eq_default (l := p.mapSlices) (n := J + 1) _ (by omega)]
      simp
  refine ⟨?_, ?_, ?_, ?_, ?_, ?_, ?_⟩
  · intro ch hch
    exact hJlt _ (hrow ch hch).1
  · intro ch hch
    show (Seg.pipeRow p inDom ch).stop = (Seg.pipeRow p inDom ch).start + _
    rw [hstop _ (hrow ch hch).1, hshape ch hch, (hrow ch hch).2]
  · intro ch hch
    have hr := (hrow ch hch).1
    exact (tiles_mem (htile _ (hJlt _ hr)) (List.mem_map.2 ⟨_, List.mem_filter.2
      ⟨hr, by simp⟩, rfl⟩)).2.2
  · intro ch ch' hch hch' hJ o a1 a2 a3 a4
    have hr := (hrow ch hch).1
    have hr' := (hrow ch' hch').1
    have := tiles_uniq (htile _ (hJlt _ hr)) (x := Seg.pipeRow p inDom ch)
      (y := Seg.pipeRow p inDom ch') (List.mem_filter.2 ⟨hr, by simp⟩)
      (List.mem_filter.2 ⟨hr', by
        simpa using (show (Seg.pipeRow p inDom ch').J = (Seg.pipeRow p inDom ch).J from hJ.symm)⟩) a1 a2 a3 a4
    have e := congrArg PipeRow.idcs this
    rw [(hrow ch hch).2, (hrow ch' hch').2] at e
    cases inDom
    · exact e
    · exact List.reverse_injective e
  · intro J o ho
    have hJ : J < p.mults.length := by
      by_contra hn
      have : (Seg.pipe p inDom).leg.mults.getD J 0 = 0 := List.getD_eq_default _ _ (not_lt.1 hn)
      omega
    obtain ⟨r, hr, h1, h2⟩ := tiles_exh (htile J hJ) (Nat.zero_le o) ho
    obtain ⟨hr, hrJ⟩ := List.mem_filter.1 hr
    obtain ⟨h3, h4⟩ := hchunk r hr
    refine ⟨_, h3, ?_, ?_, ?_⟩
    · show (Seg.pipeRow p inDom _).J = J
      rw [h4]; simpa using hrJ
    · show (Seg.pipeRow p inDom _).start ≤ o
      rw [h4]; exact h1
    · show o < (Seg.pipeRow p inDom _).stop
      rw [h4]; exact h2
  · intro J
    rw [hcho]
    by_cases hJ : J < p.mults.length
    · rw [if_pos hJ, List.map_map]
      have h1 : ((p.rows.filter fun r => r.J = J).map (·.idcs)).Nodup :=
        hnd.sublist (List.filter_sublist.map _)
      have h2 := h1.map (f := fun x : List ℕ => if inDom then x.reverse else x) (by
        intro x y hxy
        cases inDom
        · exact hxy
        · exact List.reverse_injective hxy)
      rwa [List.map_map] at h2
    · rw [if_neg hJ]; exact List.nodup_nil
  · intro J hJ ch
    rw [hcho, if_pos (show J < p.mults.length from hJ), List.mem_map]
    constructor
    · rintro ⟨r, hr, rfl⟩
      obtain ⟨hr, hrJ⟩ := List.mem_filter.1 hr
      obtain ⟨h3, h4⟩ := hchunk r hr
      refine ⟨_, h3, ?_, ?_⟩
      · show (Seg.pipeRow p inDom _).J = J
        rw [h4]; simpa using hrJ
      · show _ = (_, (Seg.pipeRow p inDom _).start, (Seg.pipeRow p inDom _).stop)
        rw [h4]
    · rintro ⟨ch, hch, hJ', rfl⟩
      obtain ⟨h1, h2⟩ := hrow ch hch
      refine ⟨Seg.pipeRow p inDom ch, List.mem_filter.2 ⟨h1, by
        simpa using (show (Seg.pipeRow p inDom ch).J = J from hJ')⟩, ?_⟩
      rw [h2]
      cases inDom
      · rfl
      · show ((ch.reverse).reverse, _) = _
        rw [List.reverse_reverse]
        rfl

end Pipe

/-! ## Lists of pieces -/

/-- Reverse if wanted. -/
def rv (b : Bool) (l : List ℕ) : List ℕ := if b then l.reverse else l

theorem length_rv (b : Bool) (l : List ℕ) : (rv b l).length = l.length := by
  cases b <;> simp [rv]

theorem rv_rv (b : Bool) (l : List ℕ) : rv b (rv b l) = l := by
  cases b <;> simp [rv]

theorem prod_rv (b : Bool) (l : List ℕ) : (rv b l).prod = l.prod := prod_reverse_if b l

theorem inShape_rv {b : Bool} {r s : List ℕ} : InShape (rv b r) (rv b s) ↔ InShape r s := inShape_if

/-- Reverse some of the pieces. -/
def revChunks : List (ℕ × Bool) → List ℕ → List ℕ
  | [], _ => []
  | (w, b) :: ws, l => rv b (l.take w) ++ revChunks ws (l.drop w)

/-- The total length of the pieces. -/
def total (ws : List (ℕ × Bool)) : ℕ := (ws.map Prod.fst).sum

/-- The packed indices of the pieces. -/
def packsW : List (ℕ × Bool) → List ℕ → List ℕ → List ℕ
  | [], _, _ => []
  | (w, b) :: ws, shape, pos =>
    packRow (makeStride (rv b (shape.take w)) true) (rv b (pos.take w)) ::
      packsW ws (shape.drop w) (pos.drop w)

theorem total_cons (w : ℕ) (b : Bool) (ws : List (ℕ × Bool)) : total ((w, b) :: ws) = w + total ws := rfl

theorem length_revChunks (ws : List (ℕ × Bool)) (l : List ℕ) (h : l.length = total ws) :
    (revChunks ws l).length = l.length := by
  induction ws generalizing l with
  | nil => rw [h]; rfl
  | cons wb ws ih =>
    obtain ⟨w, b⟩ := wb
    rw [total_cons] at h
    rw [revChunks, List.length_append, length_rv, ih _ (by rw [List.length_drop]; omega),
      List.length_take, List.length_drop]
    omega

theorem revChunks_revChunks (ws : List (ℕ × Bool)) (l : List ℕ) (h : l.length = total ws) :
    revChunks ws (revChunks ws l) = l := by
  induction ws generalizing l with
  | nil => rw [List.length_eq_zero_iff.1 h]; rfl
  | cons wb ws ih =>
    obtain ⟨w, b⟩ := wb
    rw [total_cons] at h
    have h1 : (rv b (l.take w)).length = w := by rw [length_rv, List.length_take]; omega
    rw [revChunks, revChunks, List.take_left' h1, List.drop_left' h1, rv_rv,
      ih _ (by rw [List.length_drop]; omega), List.take_append_drop]

theorem axesPerm_perm (k : ℕ) (ws : List (ℕ × Bool)) :
    (axesPerm k ws).Perm (List.range' k (total ws)) := by
  induction ws generalizing k with
  | nil => exact List.Perm.refl _
  | cons wb ws ih =>
    obtain ⟨w, b⟩ := wb
    rw [total_cons, axesPerm, ← List.range'_append_1]
    refine List.Perm.append ?_ (ih (k + w))
    cases b
    · exact List.Perm.refl _
    · exact List.reverse_perm _

theorem pick_axesPerm (ws : List (ℕ × Bool)) (pre l : List ℕ) (h : l.length = total ws) :
    pick (axesPerm pre.length ws) (pre ++ l) = revChunks ws l := by
  induction ws generalizing pre l with
  | nil => rfl
  | cons wb ws ih =>
    obtain ⟨w, b⟩ := wb
    rw [total_cons] at h
    have hw : (l.take w).length = w := by rw [List.length_take]; omega
    have e1 : pick (List.range' pre.length w) (pre ++ l) = l.take w := by
      have : List.range' pre.length w = (List.range w).map (pre.length + ·) := by
        rw [List.range_eq_range', List.map_add_range', Nat.add_zero]
      rw [this, pick_map_add, pick_range _ _ (by omega)]
    rw [axesPerm, revChunks, pick_append]
    have e2 := ih (pre ++ l.take w) (l.drop w) (by rw [List.length_drop]; omega)
    rw [List.length_append, hw, List.append_assoc, List.take_append_drop] at e2
    rw [e2]
    congr 1
    cases b
    · exact e1
    · show pick (List.range' pre.length w).reverse _ = (l.take w).reverse
      unfold pick at e1 ⊢
      rw [List.map_reverse, e1]

theorem pick_axesPerm0 (ws : List (ℕ × Bool)) (l : List ℕ) (h : l.length = total ws) :
    pick (axesPerm 0 ws) l = revChunks ws l := pick_axesPerm ws [] l h

theorem axesPerm_perm0 (ws : List (ℕ × Bool)) (n : ℕ) (h : n = total ws) :
    (axesPerm 0 ws).Perm (List.range n) := by
  rw [h, List.range_eq_range']
  exact axesPerm_perm 0 ws

theorem inShape_revChunks (ws : List (ℕ × Bool)) {r s : List ℕ} (h : InShape r s) :
    InShape (revChunks ws r) (revChunks ws s) := by
  induction ws generalizing r s with
  | nil => exact .nil
  | cons wb ws ih =>
    obtain ⟨w, b⟩ := wb
    exact inShape_append (inShape_rv.2 (inShape_take h w)) (ih (inShape_drop h w))

theorem prod_revChunks (ws : List (ℕ × Bool)) (s : List ℕ) :
    (revChunks ws s).prod = ((chunks (ws.map Prod.fst) s).map List.prod).prod := by
  induction ws generalizing s with
  | nil => rfl
  | cons wb ws ih =>
    obtain ⟨w, b⟩ := wb
    rw [revChunks, List.prod_append, prod_rv, ih]
    rfl

theorem pack_revChunks (ws : List (ℕ × Bool)) (s p : List ℕ) (h : p.length = s.length) :
    packRow (makeStride (revChunks ws s) true) (revChunks ws p) =
      packRow (makeStride ((chunks (ws.map Prod.fst) s).map List.prod) true) (packsW ws s p) := by
  induction ws generalizing s p with
  | nil => rfl
  | cons wb ws ih =>
    obtain ⟨w, b⟩ := wb
    rw [revChunks, revChunks, packC_append _ _ _ _ (by
      rw [length_rv, length_rv, List.length_take, List.length_take, h]),
      ih _ _ (by rw [List.length_drop, List.length_drop, h]), packsW, List.map_cons, chunks,
      List.map_cons, packRow_cons, prod_revChunks]

theorem inShape_packsW (ws : List (ℕ × Bool)) {r s : List ℕ} (h : InShape r s) :
    InShape (packsW ws s r) ((chunks (ws.map Prod.fst) s).map List.prod) := by
  induction ws generalizing r s with
  | nil => exact .nil
  | cons wb ws ih =>
    obtain ⟨w, b⟩ := wb
    refine .cons ?_ (ih (inShape_drop h w))
    have := packRow_lt (inShape_rv (b := b).2 (inShape_take h w))
    rwa [prod_rv] at this

/-- The entries of the combined block. -/
theorem combineLegs_val (ws : List (ℕ × Bool)) (b : Blk K) (pos : List ℕ) (h : InShape pos b.shape)
    (hl : b.shape.length = total ws) :
    (b.combineLegs ws).val (packsW ws b.shape pos) = b.val pos := by
  have hp : pos.length = total ws := by rw [h.length, hl]
  unfold Blk.combineLegs
  have hs : (b.permuteAxes (axesPerm 0 ws)).shape = revChunks ws b.shape := pick_axesPerm0 ws _ hl
  rw [reshape_val _ _ _ (revChunks ws pos) (by rw [hs]; exact inShape_revChunks ws h) (by
    rw [hs, pack_revChunks ws _ _ h.length]), ← pick_axesPerm0 ws pos hp]
  exact permuteAxes_val b _ pos (axesPerm_perm0 ws _ hp)

/-- The entries of a split block. -/
theorem split_val (ws : List (ℕ × Bool)) (b : Blk K) (shape pos : List ℕ) (h : InShape pos shape)
    (hl : shape.length = total ws)
    (hb : b.shape = (chunks (ws.map Prod.fst) shape).map List.prod) :
    ((b.reshape ((axesPerm 0 ws).map fun i => shape.getD i 0)).permuteAxes (axesPerm 0 ws)).shape =
      shape ∧
    ((b.reshape ((axesPerm 0 ws).map fun i => shape.getD i 0)).permuteAxes (axesPerm 0 ws)).val pos =
      b.val (packsW ws shape pos) := by
  have hp : pos.length = total ws := by rw [h.length, hl]
  have hs : ((axesPerm 0 ws).map fun i => shape.getD i 0) = revChunks ws shape := pick_axesPerm0 ws _ hl
  have hr : (revChunks ws pos).length = total ws := by rw [length_revChunks _ _ hp, hp]
  rw [hs]
  constructor
  · show pick (axesPerm 0 ws) (revChunks ws shape) = shape
    rw [pick_axesPerm0 ws _ (by rw [length_revChunks _ _ hl, hl]), revChunks_revChunks _ _ hl]
  · have h1 := permuteAxes_val (b.reshape (revChunks ws shape)) (axesPerm 0 ws) (revChunks ws pos)
      (axesPerm_perm0 ws _ hr)
    rw [pick_axesPerm0 ws _ hr, revChunks_revChunks _ _ hp] at h1
    rw [h1, reshape_val _ _ _ (packsW ws shape pos) (by rw [hb]; exact inShape_packsW ws h) (by
      rw [hb, pack_revChunks ws _ _ h.length])]

end Cyten.Abelian
