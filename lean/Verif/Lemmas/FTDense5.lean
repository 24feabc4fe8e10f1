import Verif.Lemmas.FTDense4

/-! # from_dense_block as a projection -/

namespace Cyten.FT
open Cyten.FT.Spec Cyten.Tools Cyten.ListSum Cyten.Props Cyten.Spaces Cyten.Spaces.Spec Cyten.Abelian
  Cyten.FusionTrees Matrix Kronecker

variable {S K : Type} [LinearOrder S]

/-- The tree block of the placed tree contains row `r`. -/
def Covers (s : Side S) (x : Placed S) (r : ℕ) : Prop := x.start ≤ r ∧ r < x.start + s.size x.item

instance (s : Side S) (x : Placed S) (r : ℕ) : Decidable (Covers s x r) := by unfold Covers; infer_instance

section
variable {R : FusionRule S} {s cod dom : Side S} {l lc ld : BLeg S}

theorem cover (h : SideOK R s l) (dim : S → ℕ) (c : S) (r : ℕ) (hr : r < Spec.mult l c) :
    ∃ x ∈ layout R dim s c, Covers s x r ∧ ∀ y ∈ layout R dim s c, Covers s y r → y = x := by
  have ht := tiles_unique (h.tiles dim c) r
  rw [if_pos ⟨by omega, hr⟩, List.filter_map, List.length_map] at ht
  obtain ⟨x, hx⟩ := List.length_eq_one_iff.1 ht
  have hmem : ∀ y, y ∈ layout R dim s c ∧ Covers s y r ↔ y = x := by
    intro y
    have : y ∈ [x] ↔ y = x := by simp
    rw [← this, ← hx, List.mem_filter]
    simp [Covers]
  obtain ⟨h1, h2⟩ := (hmem x).2 rfl
  exact ⟨x, h1, h2, fun y hy hyc => (hmem y).1 ⟨hy, hyc⟩⟩

theorem unravel_grid (u : UItem S) :
    (List.range u.mults.prod).map u.unravel = gridC u.mults := by
  have := map_range_grid u.mults true fun x => x
  rw [List.map_id'] at this
  exact this

theorem pack_unravel (u : UItem S) (m : ℕ) (hm : m < u.mults.prod) :
    u.unravel m ∈ gridC u.mults ∧ packRow (makeStride u.mults true) (u.unravel m) = m := by
  have hg := unravel_grid u
  have h1 : (gridC u.mults)[m]? = some (u.unravel m) := by
    rw [← hg, List.getElem?_map, List.getElem?_range hm]; rfl
  exact ⟨List.mem_of_getElem? h1, pack_gridC h1⟩

end

section
variable [CommRing K] [StarRing K] {R : FusionRule S} {T : FTensors S K} {s cod dom : Side S} {l lc ld : BLeg S}

theorem pack_inj {shape a b : List ℕ} (ha : a ∈ gridC shape) (hb : b ∈ gridC shape)
    (h : packRow (makeStride shape true) a = packRow (makeStride shape true) b) : a = b := by
  have h1 := gridC_pack ((mem_gridC _ _).1 ha)
  have h2 := gridC_pack ((mem_gridC _ _).1 hb)
  rw [h, h2] at h1
  exact (Option.some.inj h1).symm

/-- Contracting with the vector of a row: the contraction with the tree tensor of the row's tree block. -/
theorem sum_vec_star (hR : R.Lawful) (h : SideOK R s l) {c : S} {x : Placed S} (hx : x ∈ layout R T.dim s c) (r g : ℕ)
    (hr : Covers s x r) (hrl : r < Spec.mult l c) (G : List ℕ → K) :
    ((gridC (s.spaces.map (spaceDim T.dim))).map fun is => star (vec R T s c r g is) * G is).sum =
      ((gridC (x.item.unc.map T.dim)).map fun as =>
        star (treeTensor T x.tree as g) * G (x.item.place as (x.item.unravel (r - x.start)))).sum := by
  obtain ⟨x0, hx0, hc0, huniq⟩ := cover h T.dim c r hrl
  obtain rfl := huniq x hx hr
  -- the other trees do not contribute
  have e1 : ∀ y ∈ layout R T.dim s c, ((gridC (s.spaces.map (spaceDim T.dim))).map fun is =>
      star (pvec T y r g is) * G is).sum = if y.start ≤ r ∧ r < y.start + s.size y.item then
        ((gridC (y.item.unc.map T.dim)).map fun as =>
        star (treeTensor T y.tree as g) * G (y.item.place as (y.item.unravel (r - y.start)))).sum else 0 := by
    intro y hy
    obtain ⟨ch, hch, he, t1, t2, t3, t4, t5⟩ := h.placed T.dim hy
    rw [sum_pvec h hy ch hch he]
    by_cases hyc : y.start ≤ r ∧ r < y.start + s.size y.item
    · rw [if_pos hyc]
      have hu : y.item.unc.map T.dim = ch.map fun q => T.dim q.sec := by
        rw [he]; simp [itemOf, Function.comp_def]
      rw [hu]
      refine sum_congr _ fun as _ => ?_
      have hm : y.item.mults = ch.map Cell.mult := by rw [he]; rfl
      obtain ⟨p1, p2⟩ := pack_unravel y.item (r - y.start) (by rw [hm]; rw [t5] at hyc; omega)
      rw [hm] at p1 p2
      rw [sum_single' _ (nodup_gridC _) (y.item.unravel (r - y.start)) p1]
      · rw [if_pos (by omega)]
        conv_rhs => rw [he, placeOf_eq]
        rw [← he]
      · intro ms hms hne
        refine if_neg fun hh => hne (pack_inj hms p1 ?_)
        omega
    · rw [if_neg hyc]
      refine sum_zero _ _ fun as _ => sum_zero _ _ fun ms hms => if_neg fun hh => hyc ?_
      have := packRow_lt ((mem_gridC _ _).1 hms)
      rw [t5]
      omega
  have e2 : ∀ is, star (vec R T s c r g is) * G is = ((layout R T.dim s c).map fun y =>
      star (pvec T y r g is) * G is).sum := by
    intro is
    rw [vec, star_lsum, ListSum.sum_mul]
  rw [sum_congr _ fun is _ => e2 is, sum_comm, sum_congr _ e1]
  classical
  rw [sum_single' _ (List.Nodup.of_map _ (h.tree_nodup hR T.dim c)) x hx]
  · exact if_pos hr
  · intro y hy hne
    exact if_neg fun hh => hne (huniq y hy hh)

theorem sum_vec (hR : R.Lawful) (h : SideOK R s l) {c : S} {x : Placed S} (hx : x ∈ layout R T.dim s c) (r g : ℕ)
    (hr : Covers s x r) (hrl : r < Spec.mult l c) (G : List ℕ → K) :
    ((gridC (s.spaces.map (spaceDim T.dim))).map fun is => vec R T s c r g is * G is).sum =
      ((gridC (x.item.unc.map T.dim)).map fun as =>
        treeTensor T x.tree as g * G (x.item.place as (x.item.unravel (r - x.start)))).sum := by
  have := congrArg star (sum_vec_star (T := T) hR h hx r g hr hrl fun is => star (G is))
  rw [star_lsum, star_lsum] at this
  simpa only [star_mul', star_star] using this

end

section
variable [Field K] [StarRing K] {R : FusionRule S} {T : FTensors S K} {cod dom : Side S} {lc ld : BLeg S}

theorem foldl_set (c : S) (a : List ℕ → List ℕ → K) (m n : ℕ) (w : K) (vs : List (Placed S × Placed S)) (M : Mat K)
    (h : ∀ v ∈ vs, Covers cod v.1 m → Covers dom v.2 n →
      treeBlockEntry T c a v (m - v.1.start) (n - v.2.start) = w) :
    ((∃ v ∈ vs, Covers cod v.1 m ∧ Covers dom v.2 n) ∨ M.val m n = w →
      (vs.foldl (setTreeBlock T cod dom c a) M).val m n = w) ∧
    (vs.foldl (setTreeBlock T cod dom c a) M).rows = M.rows ∧
    (vs.foldl (setTreeBlock T cod dom c a) M).cols = M.cols := by
  induction vs generalizing M with
  | nil => exact ⟨by simp, rfl, rfl⟩
  | cons v vs ih =>
    rw [List.foldl_cons]
    obtain ⟨i1, i2, i3⟩ := ih (setTreeBlock T cod dom c a M v) fun v' hv' => h v' (List.mem_cons_of_mem _ hv')
    refine ⟨fun hyp => i1 ?_, i2, i3⟩
    by_cases hv : Covers cod v.1 m ∧ Covers dom v.2 n
    · right
      have : (setTreeBlock T cod dom c a M v).val m n = treeBlockEntry T c a v (m - v.1.start) (n - v.2.start) :=
        if_pos ⟨hv.1.1, hv.1.2, hv.2.1, hv.2.2⟩
      rw [this]
      exact h v List.mem_cons_self hv.1 hv.2
    · rcases hyp with ⟨v', hv', hc'⟩ | hM
      · rcases List.mem_cons.1 hv' with rfl | hv'
        · exact absurd hc' hv
        · exact Or.inl ⟨v', hv', hc'⟩
      · right
        have : (setTreeBlock T cod dom c a M v).val m n = M.val m n :=
          if_neg fun hh => hv ⟨⟨hh.1, hh.2.1⟩, ⟨hh.2.2.1, hh.2.2.2⟩⟩
        rw [this, hM]

/-- The entry of the block of a coupled sector: the projection onto the vectors of the row and the column. -/
def proj (R : FusionRule S) (T : FTensors S K) (cod dom : Side S) (c : S) (a : List ℕ → List ℕ → K) (r t : ℕ) : K :=
  ((List.range (T.dim c)).map fun g =>
    ((gridC (cod.spaces.map (spaceDim T.dim))).map fun is => ((gridC (dom.spaces.map (spaceDim T.dim))).map fun js =>
      vec R T cod c r g is * a is js * star (vec R T dom c t g js)).sum).sum).sum / (T.dim c : K)

theorem denseBlock_val (hR : R.Lawful) (hc : SideOK R cod lc) (hd : SideOK R dom ld) (c : S)
    (a : List ℕ → List ℕ → K) (m n r t : ℕ) (hr : r < Spec.mult lc c) (ht : t < Spec.mult ld c) :
    (denseBlock R T cod dom c a m n).val r t = proj R T cod dom c a r t ∧
    (denseBlock R T cod dom c a m n).rows = m ∧ (denseBlock R T cod dom c a m n).cols = n := by
  have key : ∀ v ∈ visits R T.dim false cod dom c, Covers cod v.1 r → Covers dom v.2 t →
      treeBlockEntry T c a v (r - v.1.start) (t - v.2.start) = proj R T cod dom c a r t := by
    intro v hv h1 h2
    obtain ⟨v1, v2⟩ := (mem_visits R T.dim cod dom c v).1 hv
    unfold treeBlockEntry proj
    congr 1
    refine sum_congr _ fun g _ => ?_
    have e1 : ((gridC (cod.spaces.map (spaceDim T.dim))).map fun is =>
        ((gridC (dom.spaces.map (spaceDim T.dim))).map fun js =>
          vec R T cod c r g is * a is js * star (vec R T dom c t g js)).sum).sum =
        ((gridC (cod.spaces.map (spaceDim T.dim))).map fun is => vec R T cod c r g is *
          ((gridC (dom.spaces.map (spaceDim T.dim))).map fun js => star (vec R T dom c t g js) * a is js).sum).sum := by
      refine sum_congr _ fun is _ => ?_
      rw [ListSum.mul_sum]
      exact sum_congr _ fun js _ => by ring
    rw [e1, sum_vec (T := T) hR hc v1 r g h1 hr]
    have e2 : ∀ as, treeTensor T v.1.tree as g * ((gridC (dom.spaces.map (spaceDim T.dim))).map fun js =>
        star (vec R T dom c t g js) * a (v.1.item.place as (v.1.item.unravel (r - v.1.start))) js).sum =
        ((gridC (v.2.item.unc.map T.dim)).map fun bs => treeTensor T v.1.tree as g * (star (treeTensor T v.2.tree bs g) *
          a (v.1.item.place as (v.1.item.unravel (r - v.1.start)))
            (v.2.item.place bs (v.2.item.unravel (t - v.2.start))))).sum := by
      intro as
      rw [sum_vec_star (T := T) hR hd v2 t g h2 ht, ListSum.mul_sum]
    rw [sum_congr _ fun as _ => e2 as, sum_comm]
    refine sum_congr _ fun bs _ => ?_
    rw [ListSum.sum_mul]
    exact sum_congr _ fun as _ => by ring
  obtain ⟨x, hx, hxc, -⟩ := cover hc T.dim c r hr
  obtain ⟨y, hy, hyc, -⟩ := cover hd T.dim c t ht
  obtain ⟨f1, f2, f3⟩ := foldl_set (T := T) c a r t _ (visits R T.dim false cod dom c) (Mat.zeros m n) key
  exact ⟨f1 (Or.inl ⟨(x, y), (mem_visits R T.dim cod dom c (x, y)).2 ⟨hx, hy⟩, hxc, hyc⟩), f2, f3⟩

end

end Cyten.FT
