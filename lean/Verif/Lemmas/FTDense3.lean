import Verif.Lemmas.FTDense2

/-! # The orthonormal vectors of rows and columns -/

namespace Cyten.FT
open Cyten.FT.Spec Cyten.Tools Cyten.ListSum Cyten.Props Cyten.Spaces Cyten.Spaces.Spec Cyten.Abelian
  Cyten.FusionTrees

variable {S K : Type} [LinearOrder S] [CommRing K] [StarRing K]

/-- The entry of a placed tree for row `r` and state `g` of the coupled sector. -/
def pvec (T : FTensors S K) (x : Placed S) (r g : ℕ) (is : List ℕ) : K :=
  if inSlices is x.item.slices = true ∧ x.start + x.item.ravel (x.item.degIdx is) = r then
    treeTensor T x.tree (x.item.symIdx is) g else 0

/-- The vector of row `r` and state `g` of the coupled sector `c`. -/
def vec (R : FusionRule S) (T : FTensors S K) (s : Side S) (c : S) (r g : ℕ) (is : List ℕ) : K :=
  ((layout R T.dim s c).map fun x => pvec T x r g is).sum

theorem map_packRow_gridC (shape : List ℕ) :
    (gridC shape).map (packRow (makeStride shape true)) = List.range shape.prod := by
  apply List.ext_getElem?
  intro m
  rw [List.getElem?_map]
  by_cases hm : m < shape.prod
  · have hm' : m < (gridC shape).length := by rw [length_gridC]; exact hm
    rw [List.getElem?_eq_getElem hm', List.getElem?_eq_getElem (by simpa using hm)]
    simp only [Option.map_some, List.getElem_range, Option.some.injEq]
    exact pack_gridC (List.getElem?_eq_getElem hm')
  · rw [List.getElem?_eq_none (by rw [length_gridC]; omega), List.getElem?_eq_none (by simpa using hm)]
    rfl

theorem sum_pack (shape : List ℕ) (st r : ℕ) (k : K) :
    ((gridC shape).map fun ms => if st + packRow (makeStride shape true) ms = r then k else 0).sum =
      if st ≤ r ∧ r < st + shape.prod then k else 0 := by
  have e : ((gridC shape).map fun ms => if st + packRow (makeStride shape true) ms = r then k else 0) =
      (List.range shape.prod).map fun i => if st + i = r then k else 0 := by
    rw [← map_packRow_gridC, List.map_map]; rfl
  rw [e]
  by_cases h : st ≤ r ∧ r < st + shape.prod
  · rw [if_pos h]
    have := sum_range_single shape.prod (r - st) (by omega) fun _ => k
    refine Eq.trans ?_ this
    refine sum_congr _ fun i _ => ?_
    by_cases hi : st + i = r
    · rw [if_pos hi, if_pos (by omega)]
    · rw [if_neg hi, if_neg (by omega)]
  · rw [if_neg h]
    refine sum_zero _ _ fun i hi => if_neg ?_
    have : i < shape.prod := by simpa using hi
    omega

section
variable {R : FusionRule S} {T : FTensors S K} {s : Side S} {l : BLeg S}

/-- Summing over dense indices: only the states of the tree's own sectors count. -/
theorem sum_pvec (h : SideOK R s l) {c : S} {x : Placed S} (hx : x ∈ layout R T.dim s c) (ch : List (Cell S))
    (hch : List.Forall₂ (· ∈ ·) ch (s.spaces.map (cells T.dim))) (he : x.item = itemOf T.dim ch) (r g : ℕ)
    (G : List ℕ → K) :
    ((gridC (s.spaces.map (spaceDim T.dim))).map fun is => star (pvec T x r g is) * G is).sum =
      ((gridC (ch.map fun q => T.dim q.sec)).map fun as => ((gridC (ch.map Cell.mult)).map fun ms =>
        if x.start + packRow (makeStride (ch.map Cell.mult) true) ms = r then
          star (treeTensor T x.tree as g) * G (placeOf ch as ms) else 0).sum).sum := by
  rw [sum_states]
  have hnd : (gchoices (s.spaces.map (cells T.dim))).Nodup := by
    refine nodup_gchoices fun y hy => ?_
    obtain ⟨z, hz, rfl⟩ := List.mem_map.1 hy
    refine cellsFrom_nodup _ _ _ ?_
    rw [List.map_fst_zip (by rw [(h.good z hz).len])]
    exact (h.good z hz).nodup
  have key : ∀ ch' ∈ gchoices (s.spaces.map (cells T.dim)), ∀ as ∈ gridC (ch'.map fun q => T.dim q.sec),
      ∀ ms ∈ gridC (ch'.map Cell.mult), star (pvec T x r g (placeOf ch' as ms)) * G (placeOf ch' as ms) =
        if ch = ch' then (if x.start + packRow (makeStride (ch.map Cell.mult) true) ms = r then
          star (treeTensor T x.tree as g) * G (placeOf ch as ms) else 0) else 0 := by
    intro ch' hch' as has ms hms
    have has' := (mem_gridC _ _).1 has
    have hms' := (mem_gridC _ _).1 hms
    have hin := inSlices_place T.dim s.spaces ch' ch (mem_gchoices.1 hch') hch as ms has' hms'
    unfold pvec
    rw [he]
    by_cases hcc : ch = ch'
    · subst hcc
      obtain ⟨e1, e2⟩ := idx_place T.dim ch as ms has' hms'
      rw [e1, e2, if_pos rfl]
      have e3 : (itemOf T.dim ch).ravel ms = packRow (makeStride (ch.map Cell.mult) true) ms := rfl
      rw [e3]
      by_cases hr : x.start + packRow (makeStride (ch.map Cell.mult) true) ms = r
      · rw [if_pos hr, if_pos ⟨hin.2 rfl, hr⟩]
      · rw [if_neg hr, if_neg (fun h => hr h.2), star_zero, zero_mul]
    · rw [if_neg hcc, if_neg (fun h => hcc (hin.1 h.1).symm), star_zero, zero_mul]
  have e1 : ∀ ch' ∈ gchoices (s.spaces.map (cells T.dim)),
      ((gridC (ch'.map fun q => T.dim q.sec)).map fun as => ((gridC (ch'.map Cell.mult)).map fun ms =>
        star (pvec T x r g (placeOf ch' as ms)) * G (placeOf ch' as ms)).sum).sum =
      if ch = ch' then ((gridC (ch'.map fun q => T.dim q.sec)).map fun as => ((gridC (ch'.map Cell.mult)).map fun ms =>
        if x.start + packRow (makeStride (ch'.map Cell.mult) true) ms = r then
          star (treeTensor T x.tree as g) * G (placeOf ch' as ms) else 0).sum).sum else 0 := by
    intro ch' hch'
    by_cases hcc : ch = ch'
    · subst hcc
      rw [if_pos rfl]
      refine sum_congr _ fun as has => sum_congr _ fun ms hms => ?_
      rw [key ch hch' as has ms hms, if_pos rfl]
    · rw [if_neg hcc]
      refine sum_zero _ _ fun as has => sum_zero _ _ fun ms hms => ?_
      rw [key ch' hch' as has ms hms, if_neg hcc]
  rw [sum_congr _ e1, sum_single _ hnd ch, if_pos (mem_gchoices.2 hch)]

theorem pvec_place (ch ch' : List (Cell S)) (hch : List.Forall₂ (· ∈ ·) ch (s.spaces.map (cells T.dim)))
    (hch' : List.Forall₂ (· ∈ ·) ch' (s.spaces.map (cells T.dim))) (x' : Placed S) (he : x'.item = itemOf T.dim ch')
    (r g : ℕ) (as ms : List ℕ) (ha : InShape as (ch.map fun q => T.dim q.sec)) (hm : InShape ms (ch.map Cell.mult)) :
    pvec T x' r g (placeOf ch as ms) =
      if ch = ch' ∧ x'.start + packRow (makeStride (ch.map Cell.mult) true) ms = r then treeTensor T x'.tree as g
      else 0 := by
  have hin := inSlices_place T.dim s.spaces ch ch' hch hch' as ms ha hm
  unfold pvec
  rw [he]
  by_cases hcc : ch = ch'
  · subst hcc
    obtain ⟨e1, e2⟩ := idx_place T.dim ch as ms ha hm
    rw [e1, e2]
    have e3 : (itemOf T.dim ch).ravel ms = packRow (makeStride (ch.map Cell.mult) true) ms := rfl
    rw [e3]
    by_cases hr : x'.start + packRow (makeStride (ch.map Cell.mult) true) ms = r
    · rw [if_pos ⟨hin.2 rfl, hr⟩, if_pos ⟨rfl, hr⟩]
    · rw [if_neg (fun h => hr h.2), if_neg (fun h => hr h.2)]
  · rw [if_neg (fun h => hcc (hin.1 h.1)), if_neg (fun h => hcc h.1)]

/-- The inner product of two placed trees. -/
theorem pvec_orth (hR : R.Lawful) (hT : Spec.Lawful R T) (h : SideOK R s l) {c c' : S} {x x' : Placed S}
    (hx : x ∈ layout R T.dim s c) (hx' : x' ∈ layout R T.dim s c') (r r' g g' : ℕ) (hg : g < T.dim c)
    (hg' : g' < T.dim c') :
    ((gridC (s.spaces.map (spaceDim T.dim))).map fun is => star (pvec T x r g is) * pvec T x' r' g' is).sum =
      if x.tree = x'.tree ∧ g = g' ∧ r = r' ∧ x.start ≤ r ∧ r < x.start + s.size x.item then 1 else 0 := by
  obtain ⟨ch, hch, he, t1, t2, t3, t4, t5⟩ := h.placed T.dim hx
  obtain ⟨ch', hch', he', t1', t2', t3', t4', t5'⟩ := h.placed T.dim hx'
  rw [sum_pvec h hx ch hch he]
  by_cases hcc : ch = ch'
  · subst hcc
    have e1 : ∀ as ∈ gridC (ch.map fun q => T.dim q.sec),
        ((gridC (ch.map Cell.mult)).map fun ms =>
          if x.start + packRow (makeStride (ch.map Cell.mult) true) ms = r then
            star (treeTensor T x.tree as g) * pvec T x' r' g' (placeOf ch as ms) else 0).sum =
        (star (treeTensor T x.tree as g) * treeTensor T x'.tree as g') *
          ((gridC (ch.map Cell.mult)).map fun ms =>
            if x.start + packRow (makeStride (ch.map Cell.mult) true) ms = r then
              (if x'.start + r = r' + x.start then (1 : K) else 0) else 0).sum := by
      intro as has
      rw [ListSum.mul_sum]
      refine sum_congr _ fun ms hms => ?_
      rw [pvec_place ch ch hch hch x' he' r' g' as ms ((mem_gridC _ _).1 has) ((mem_gridC _ _).1 hms)]
      by_cases h1 : x.start + packRow (makeStride (ch.map Cell.mult) true) ms = r
      · rw [if_pos h1, if_pos h1]
        by_cases h2 : x'.start + packRow (makeStride (ch.map Cell.mult) true) ms = r'
        · rw [if_pos ⟨rfl, h2⟩, if_pos (by omega), mul_one]
        · rw [if_neg (fun hh => h2 hh.2), if_neg (by omega), mul_zero, mul_zero]
      · rw [if_neg h1, if_neg h1, mul_zero]
    rw [sum_congr _ e1, ← ListSum.sum_mul, sum_pack]
    have ho := treeTensor_orth hT x.tree x'.tree t4 t4' (t1.trans t1'.symm) (t3.trans t3'.symm) g g'
      (by rw [t2]; exact hg) (by rw [t2']; exact hg')
    rw [t1, List.map_map] at ho
    have ho' : ((gridC (ch.map fun q => T.dim q.sec)).map fun as =>
        star (treeTensor T x.tree as g) * treeTensor T x'.tree as g').sum =
        if x.tree = x'.tree ∧ g = g' then 1 else 0 := ho
    rw [ho', t5]
    by_cases htt : x.tree = x'.tree
    · have hc : c = c' := by rw [← t2, ← t2', htt]
      subst hc
      have hxx : x = x' := List.inj_on_of_nodup_map (h.tree_nodup hR T.dim c) hx hx' htt
      subst hxx
      by_cases hgg : g = g'
      · rw [if_pos ⟨htt, hgg⟩, one_mul]
        by_cases h1 : x.start ≤ r ∧ r < x.start + (ch.map Cell.mult).prod
        · rw [if_pos h1]
          by_cases hrr : r = r'
          · rw [if_pos (by omega), if_pos ⟨htt, hgg, hrr, h1⟩]
          · rw [if_neg (by omega), if_neg (fun hh => hrr hh.2.2.1)]
        · rw [if_neg h1, if_neg (fun hh => h1 hh.2.2.2)]
      · rw [if_neg (fun hh => hgg hh.2), zero_mul, if_neg (fun hh => hgg hh.2.1)]
    · rw [if_neg (fun hh => htt hh.1), zero_mul, if_neg (fun hh => htt hh.1)]
  · have htt : x.tree ≠ x'.tree := by
      intro ht
      refine hcc (forall2_sec h.good hch hch' ?_)
      rw [← t1, ← t1', ht]
    rw [if_neg (fun hh => htt hh.1)]
    refine sum_zero _ _ fun as has => sum_zero _ _ fun ms hms => ?_
    rw [pvec_place ch ch' hch hch' x' he' r' g' as ms ((mem_gridC _ _).1 has) ((mem_gridC _ _).1 hms)]
    simp [hcc]

/-- The vectors of the rows are orthonormal. -/
theorem vec_orth (hR : R.Lawful) (hT : Spec.Lawful R T) (h : SideOK R s l) (c c' : S) (r r' g g' : ℕ)
    (hr : r < Spec.mult l c) (hg : g < T.dim c) (hg' : g' < T.dim c') :
    ((gridC (s.spaces.map (spaceDim T.dim))).map fun is =>
      star (vec R T s c r g is) * vec R T s c' r' g' is).sum =
      if c = c' ∧ r = r' ∧ g = g' then 1 else 0 := by
  have e1 : ∀ is, star (vec R T s c r g is) * vec R T s c' r' g' is =
      ((layout R T.dim s c).map fun x => ((layout R T.dim s c').map fun x' =>
        star (pvec T x r g is) * pvec T x' r' g' is).sum).sum := by
    intro is
    rw [vec, vec, star_lsum, sum_mul_lsum]
  rw [sum_congr _ fun is _ => e1 is, sum_comm]
  have e2 : ∀ x ∈ layout R T.dim s c, ((gridC (s.spaces.map (spaceDim T.dim))).map fun is =>
      ((layout R T.dim s c').map fun x' => star (pvec T x r g is) * pvec T x' r' g' is).sum).sum =
      ((layout R T.dim s c').map fun x' => if x.tree = x'.tree ∧ g = g' ∧ r = r' ∧ x.start ≤ r ∧
        r < x.start + s.size x.item then (1 : K) else 0).sum := by
    intro x hx
    rw [sum_comm]
    exact sum_congr _ fun x' hx' => pvec_orth hR hT h hx hx' r r' g g' hg hg'
  rw [sum_congr _ e2]
  by_cases hc : c = c'
  · subst hc
    have hnd : (layout R T.dim s c).Nodup := List.Nodup.of_map _ (h.tree_nodup hR T.dim c)
    have e3 : ∀ x ∈ layout R T.dim s c, ((layout R T.dim s c).map fun x' => if x.tree = x'.tree ∧ g = g' ∧
        r = r' ∧ x.start ≤ r ∧ r < x.start + s.size x.item then (1 : K) else 0).sum =
        if r = r' ∧ g = g' then (if x.start ≤ r ∧ r < x.start + s.size x.item then (1 : K) else 0) else 0 := by
      intro x hx
      classical
      rw [sum_single' _ hnd x hx]
      · by_cases hrg : r = r' ∧ g = g'
        · rw [if_pos hrg]
          by_cases h1 : x.start ≤ r ∧ r < x.start + s.size x.item
          · rw [if_pos h1, if_pos ⟨rfl, hrg.2, hrg.1, h1⟩]
          · rw [if_neg h1, if_neg (fun hh => h1 hh.2.2.2)]
        · rw [if_neg hrg, if_neg (fun hh => hrg ⟨hh.2.2.1, hh.2.1⟩)]
      · intro x' hx' hne
        refine if_neg fun hh => hne ?_
        exact (List.inj_on_of_nodup_map (h.tree_nodup hR T.dim c) hx hx' hh.1).symm
    rw [sum_congr _ e3]
    by_cases hrg : r = r' ∧ g = g'
    · rw [if_pos ⟨rfl, hrg⟩]
      simp only [if_pos hrg]
      have ht := tiles_unique (h.tiles T.dim c) r
      rw [if_pos ⟨by omega, hr⟩, List.filter_map, List.length_map] at ht
      have := sum_filter (layout R T.dim s c) (fun x => decide (x.start ≤ r ∧ r < x.start + s.size x.item))
        fun _ => (1 : K)
      simp only [decide_eq_true_eq] at this
      rw [← this, List.map_const', List.sum_replicate]
      simp only [Function.comp_def] at ht
      rw [ht, one_smul]
    · rw [if_neg (fun hh => hrg hh.2)]
      exact sum_zero _ _ fun x _ => if_neg hrg
  · rw [if_neg (fun hh => hc hh.1)]
    refine sum_zero _ _ fun x hx => sum_zero _ _ fun x' hx' => if_neg fun hh => hc ?_
    obtain ⟨_, _, _, _, t2, _⟩ := h.placed T.dim hx
    obtain ⟨_, _, _, _, t2', _⟩ := h.placed T.dim hx'
    rw [← t2, ← t2', hh.1]

/-! ## to_dense_block in terms of the vectors -/

theorem tiles_mem_le {a b : ℕ} {l : List (ℕ × ℕ)} (h : Tiles a l b) : ∀ x ∈ l, x.2 ≤ b := by
  induction l generalizing a with
  | nil => simp
  | cons y l ih =>
    intro x hx
    rcases List.mem_cons.1 hx with rfl | hx
    · exact tiles_le h.2.2
    · exact ih h.2.2 x hx

theorem row_lt (h : SideOK R s l) {c : S} {x : Placed S} (hx : x ∈ layout R T.dim s c) (is : List ℕ)
    (hl : is.length = s.spaces.length) :
    x.start + x.item.ravel (x.item.degIdx is) < Spec.mult l c := by
  obtain ⟨ch, hch, he, _, _, _, _, t5⟩ := h.placed T.dim hx
  have h1 := tiles_mem_le (h.tiles T.dim c) (x.start, x.start + s.size x.item) (List.mem_map.2 ⟨x, hx, rfl⟩)
  have h2 : (itemOf T.dim ch).ravel ((itemOf T.dim ch).degIdx is) < (ch.map Cell.mult).prod :=
    packRow_lt (degIdx_inShape T.dim ch (h.cell_pos T.dim hch) is
      (by rw [hl, hch.length_eq, List.length_map]))
  rw [t5] at h1
  rw [he]
  simp only at h1
  omega

theorem sum_rows (x : Placed S) (g n : ℕ) (is : List ℕ) (hn : x.start + x.item.ravel (x.item.degIdx is) < n)
    (f : ℕ → K) :
    ((List.range n).map fun r => pvec T x r g is * f r).sum =
      if inSlices is x.item.slices = true then treeTensor T x.tree (x.item.symIdx is) g *
        f (x.start + x.item.ravel (x.item.degIdx is)) else 0 := by
  by_cases hin : inSlices is x.item.slices = true
  · rw [if_pos hin, ← sum_range_single n _ hn fun r => treeTensor T x.tree (x.item.symIdx is) g * f r]
    refine sum_congr _ fun r _ => ?_
    unfold pvec
    by_cases hr : x.start + x.item.ravel (x.item.degIdx is) = r
    · rw [if_pos ⟨hin, hr⟩, if_pos hr]
    · rw [if_neg (fun hh => hr hh.2), if_neg hr, zero_mul]
  · rw [if_neg hin]
    refine sum_zero _ _ fun r _ => ?_
    unfold pvec
    rw [if_neg (fun hh => hin hh.1), zero_mul]

theorem sum_rows_star (x : Placed S) (g n : ℕ) (is : List ℕ) (hn : x.start + x.item.ravel (x.item.degIdx is) < n)
    (f : ℕ → K) :
    ((List.range n).map fun r => star (pvec T x r g is) * f r).sum =
      if inSlices is x.item.slices = true then star (treeTensor T x.tree (x.item.symIdx is) g) *
        f (x.start + x.item.ravel (x.item.degIdx is)) else 0 := by
  have := congrArg star (sum_rows (T := T) x g n is hn fun r => star (f r))
  rw [star_lsum] at this
  simp only [star_mul', star_star] at this
  rw [this]
  by_cases hin : inSlices is x.item.slices = true
  · rw [if_pos hin, if_pos hin, star_mul', star_star]
  · rw [if_neg hin, if_neg hin, star_zero]

theorem sum_comm4 {A B C D : Type} (l : List A) (m : List B) (n : List C) (o : List D) (F : A → B → C → D → K) :
    (l.map fun t => (m.map fun g => (n.map fun x => (o.map fun y => F t g x y).sum).sum).sum).sum =
      (n.map fun x => (o.map fun y => (m.map fun g => (l.map fun t => F t g x y).sum).sum).sum).sum := by
  have e1 : ∀ t, (m.map fun g => (n.map fun x => (o.map fun y => F t g x y).sum).sum).sum =
      (n.map fun x => (m.map fun g => (o.map fun y => F t g x y).sum).sum).sum := fun t => sum_comm _ _ _
  have e2 : ∀ t x, (m.map fun g => (o.map fun y => F t g x y).sum).sum =
      (o.map fun y => (m.map fun g => F t g x y).sum).sum := fun t x => sum_comm _ _ _
  simp only [e1, e2]
  rw [sum_comm]
  refine sum_congr _ fun x _ => ?_
  rw [sum_comm]
  refine sum_congr _ fun y _ => ?_
  rw [sum_comm]

theorem sum_comm3 {A B C D : Type} (l : List A) (m : List B) (n : List C) (o : List D) (F : A → B → C → D → K) :
    (l.map fun r => (m.map fun x => (n.map fun y => (o.map fun g => F r x y g).sum).sum).sum).sum =
      (m.map fun x => (n.map fun y => (o.map fun g => (l.map fun r => F r x y g).sum).sum).sum).sum := by
  rw [sum_comm]
  refine sum_congr _ fun x _ => ?_
  rw [sum_comm]
  refine sum_congr _ fun y _ => ?_
  rw [sum_comm]

theorem sum_contribution {cod dom : Side S} {lc ld : BLeg S} (hc : SideOK R cod lc) (hd : SideOK R dom ld)
    (skip : Bool) (c : S) (M : Mat K) (is js : List ℕ) (hi : is.length = cod.spaces.length)
    (hj : js.length = dom.spaces.length) :
    ((visits R T.dim skip cod dom c).map (contribution T c M is js)).sum =
      ((List.range (Spec.mult lc c)).map fun r => ((List.range (Spec.mult ld c)).map fun t =>
        ((List.range (T.dim c)).map fun g =>
          star (vec R T cod c r g is) * (M.val r t * vec R T dom c t g js)).sum).sum).sum := by
  rw [sum_visits hc hd]
  have e1 : ∀ r t g, star (vec R T cod c r g is) * (M.val r t * vec R T dom c t g js) =
      ((layout R T.dim cod c).map fun x => ((layout R T.dim dom c).map fun y =>
        star (pvec T x r g is) * (pvec T y t g js * M.val r t)).sum).sum := by
    intro r t g
    rw [vec, vec, star_lsum, ListSum.mul_sum, sum_mul_lsum]
    refine sum_congr _ fun x _ => sum_congr _ fun y _ => ?_
    ring
  simp only [e1]
  -- bring the sums over trees to the front
  have e2 : ∀ r, ((List.range (Spec.mult ld c)).map fun t => ((List.range (T.dim c)).map fun g =>
      ((layout R T.dim cod c).map fun x => ((layout R T.dim dom c).map fun y =>
        star (pvec T x r g is) * (pvec T y t g js * M.val r t)).sum).sum).sum).sum =
      ((layout R T.dim cod c).map fun x => ((layout R T.dim dom c).map fun y =>
        ((List.range (T.dim c)).map fun g => ((List.range (Spec.mult ld c)).map fun t =>
          star (pvec T x r g is) * (pvec T y t g js * M.val r t)).sum).sum).sum).sum := by
    intro r
    rw [sum_comm4]
  simp only [e2]
  rw [sum_comm3 _ _ _ _ fun r x y g => ((List.range (Spec.mult ld c)).map fun t =>
          star (pvec T x r g is) * (pvec T y t g js * M.val r t)).sum]
  refine sum_congr _ fun x hx => ?_
  refine sum_congr _ fun y hy => ?_
  have hx' := row_lt (T := T) hc hx is hi
  have hy' := row_lt (T := T) hd hy js hj
  have e3 : ∀ g, ((List.range (Spec.mult lc c)).map fun r => ((List.range (Spec.mult ld c)).map fun t =>
      star (pvec T x r g is) * (pvec T y t g js * M.val r t)).sum).sum =
      if inSlices is x.item.slices = true then star (treeTensor T x.tree (x.item.symIdx is) g) *
        (if inSlices js y.item.slices = true then treeTensor T y.tree (y.item.symIdx js) g *
          M.val (x.start + x.item.ravel (x.item.degIdx is)) (y.start + y.item.ravel (y.item.degIdx js)) else 0)
      else 0 := by
    intro g
    rw [← sum_rows_star x g _ is hx' fun r => if inSlices js y.item.slices = true then
      treeTensor T y.tree (y.item.symIdx js) g * M.val r (y.start + y.item.ravel (y.item.degIdx js)) else 0]
    refine sum_congr _ fun r _ => ?_
    rw [← ListSum.mul_sum, sum_rows y g _ js hy' fun t => M.val r t]
  simp only [e3]
  unfold contribution
  by_cases h1 : inSlices is x.item.slices = true
  · by_cases h2 : inSlices js y.item.slices = true
    · simp only [h1, h2, Bool.and_self, if_true]
      rw [ListSum.sum_mul]
      exact sum_congr _ fun g _ => by ring
    · simp [h2]
  · simp [h1]

end

end Cyten.FT
