import Verif.Props.FTMaskOps3

/-!
# C92: masks of the fusion tree backend from dense vectors
-/

namespace Cyten.FT
open Cyten.Abelian Cyten.Spaces Cyten.Tools Cyten.FT.Spec Cyten.Props Cyten.ListSum

variable {S K : Type} [LinearOrder S]

/-- The entries of the first vector of a sector. -/
def firstRow (dim : S → ℕ) (leg : SpaceData S) (co : BLeg S) (a : List Bool) (s : S) : List Bool :=
  (List.range (Spec.mult co s)).map fun m => a.getD (((sizes dim leg).take (leg.sectors.idxOf s)).sum + m) false

theorem firstRow_get {leg : SpaceData S} {co : BLeg S} (h : SortedLeg leg co) (dim : S → ℕ)
    (a : List Bool) (hsym : Symmetric1 dim leg a) {k : ℕ} {s : S} {d m : ℕ}
    (hk : DenseIndex dim leg k s d m) : (firstRow dim leg co a s).getD m false = a.getD k false := by
  obtain ⟨h1, h2, _⟩ := denseIndex_inLeg h hk
  have h0 := inLeg_denseIndex (dim := dim) h h1 (d := 0) (by omega)
  have := hsym _ _ _ _ _ _ h0 hk
  unfold firstRow
  rw [List.getD_eq_getElem?_getD, List.getElem?_map, List.getElem?_range h1.2]
  simp only [Option.map_some, Option.getD_some]
  rw [Nat.zero_mul, Nat.zero_add] at this
  exact this

/-- The slice of a sector repeats its first row. -/
theorem slice_eq {leg : SpaceData S} {co : BLeg S} (h : SortedLeg leg co) (dim : S → ℕ) (a : List Bool)
    (ha : a.length = spaceDim dim leg) (hsym : Symmetric1 dim leg a) {j : ℕ} {s : S} (hj : leg.sectors[j]? = some s) :
    getSlice1 a (spaceSlice dim leg j) = (List.replicate (dim s) (firstRow dim leg co a s)).flatten := by
  have hji := h.idxOf hj
  obtain ⟨i, hi⟩ := List.getElem?_of_mem ((h.mem s).2 (List.mem_of_getElem? hj))
  obtain ⟨h1, h2⟩ := h.number hi
  have hz := sizes_get (dim := dim) h1 h2
  have hsl := spaceSlice_eq (dim := dim) h1 h2
  have hg : (sizes dim leg).getD (leg.sectors.idxOf s) 0 = dim s * Spec.mult co s := by
    rw [List.getD_eq_getElem?_getD, hz]; rfl
  rw [hg, hji] at hsl
  rw [hji] at hz
  have hfit : ((sizes dim leg).take j).sum + dim s * Spec.mult co s ≤ a.length := by
    rw [ha]
    have e1 := take_sum_succ (sizes dim leg) _ _ hz
    have e2 := take_sum_mono (sizes dim leg) (j + 1) (sizes dim leg).length (List.getElem?_eq_some_iff.1 hz).1
    rw [List.take_length] at e2
    show _ ≤ (sizes dim leg).sum
    omega
  have hfl : (firstRow dim leg co a s).length = Spec.mult co s := by simp [firstRow]
  refine List.ext_getElem ?_ fun x hx1 hx2 => ?_
  · rw [hsl]
    simp [getSlice1, slice, hfl]
    omega
  · have hx : x < dim s * Spec.mult co s := by
      rw [hsl] at hx1
      simp [getSlice1, slice] at hx1
      omega
    have hm0 : 0 < Spec.mult co s := Nat.pos_of_ne_zero fun h0 => by rw [h0] at hx; simp at hx
    have hxd : x = x / Spec.mult co s * Spec.mult co s + x % Spec.mult co s := by
      rw [Nat.mul_comm]; exact (Nat.div_add_mod _ _).symm
    have hd : x / Spec.mult co s < dim s := (Nat.div_lt_iff_lt_mul hm0).2 hx
    have hmm : x % Spec.mult co s < Spec.mult co s := Nat.mod_lt _ hm0
    have e1 : (getSlice1 a (spaceSlice dim leg j)).getD x 0 = a.getD (((sizes dim leg).take j).sum + x) 0 := by
      rw [hsl, slice1_getD _ _ _ _ hx]
    have e2 := getD_replicate_flatten (firstRow dim leg co a s) (dim s) (x / Spec.mult co s) (x % Spec.mult co s) hd
      (by rw [hfl]; exact hmm)
    have hin : InLeg co s (x % Spec.mult co s) := ⟨List.mem_of_getElem? hi, hmm⟩
    have e3 := firstRow_get h dim a hsym (inLeg_denseIndex (dim := dim) h hin hd)
    rw [hji, ← hxd] at e3
    rw [hfl, ← hxd] at e2
    rw [List.getD_eq_getElem?_getD, List.getElem?_eq_getElem hx1] at e1
    rw [List.getD_eq_getElem?_getD, List.getElem?_eq_getElem hx2] at e2
    simp only [Option.getD_some] at e1 e2
    rw [e1, e2]
    exact e3.symm

theorem countTrue_tile (b : List Bool) (n : ℕ) : countTrue (List.replicate n b).flatten = n * countTrue b := by
  unfold countTrue
  induction n with
  | zero => simp
  | succ n ih => rw [List.replicate_succ, List.flatten_cons, List.count_append, ih, Nat.succ_mul, Nat.add_comm]

/-- One sector of `mask_from_block`. -/
theorem maskSector_eq (sym : Sym S) (hdim : ∀ s, 0 < sym.dim s) (hdd' : ∀ s, sym.dim (sym.dual s) = sym.dim s)
    {large : ESpace S} {co : BLeg S} (h : SortedLeg (large.toSpace sym) co) (a : List Bool)
    (ha : a.length = spaceDim sym.dim (large.toSpace sym)) (hsym : Symmetric1 sym.dim (large.toSpace sym) a) {j : ℕ} {c : S}
    (hj : large.defining[j]? = some c) :
    maskSector sym large co a j =
      if true ∈ firstRow sym.dim (large.toSpace sym) co a (if large.isDual then sym.dual c else c) then
        some (c, if large.isDual then co.sectors.idxOf (sym.dual c) else j,
          firstRow sym.dim (large.toSpace sym) co a (if large.isDual then sym.dual c else c),
          countTrue (firstRow sym.dim (large.toSpace sym) co a (if large.isDual then sym.dual c else c))) else none := by
  have hs : (large.toSpace sym).sectors[j]? = some (if large.isDual then sym.dual c else c) := by
    rw [sectors_of_dual, hj]; rfl
  have hd : sym.dim (if large.isDual then sym.dual c else c) = sym.dim c := by
    cases large.isDual <;> simp [hdd']
  have hsl := slice_eq h sym.dim a ha hsym hs
  rw [hd] at hsl
  unfold maskSector
  rw [hj]
  simp only
  rw [hsl]
  set b := firstRow sym.dim (large.toSpace sym) co a (if large.isDual then sym.dual c else c) with hb
  have hpos := hdim c
  have hlen : (List.replicate (sym.dim c) b).flatten.length / sym.dim c = b.length := by
    simp only [List.length_flatten, List.map_replicate, List.sum_replicate, smul_eq_mul]
    exact Nat.mul_div_cancel_left _ hpos
  have htake : (List.replicate (sym.dim c) b).flatten.take b.length = b := by
    obtain ⟨n, hn⟩ : ∃ n, sym.dim c = n + 1 := ⟨sym.dim c - 1, by omega⟩
    rw [hn, List.replicate_succ, List.flatten_cons, List.take_left]
  rw [countTrue_tile, hlen, htake, Nat.mul_div_cancel_left _ hpos]
  have hc : sym.dim c * countTrue b = 0 ↔ ¬ true ∈ b := by
    rw [← countTrue_ne]
    simp
    omega
  by_cases ht : true ∈ b
  · rw [if_neg (fun h => hc.1 h ht), if_pos ht]
  · rw [if_pos (hc.2 ht), if_neg ht]

/-- **C92** (from block). `Mask.from_block_mask` of a vector of booleans that does not depend on the vector within a
sector keeps exactly the indices where the vector is true, also if the leg is dual. -/
theorem C92_from_block (sym : Sym S) (hdd : ∀ s, sym.dual (sym.dual s) = s) (hdim : ∀ s, 0 < sym.dim s)
    (hdd' : ∀ s, sym.dim (sym.dual s) = sym.dim s) {large : ESpace S} {co : BLeg S}
    (hdef : large.defining.Pairwise (· < ·)) (h : SortedLeg (large.toSpace sym) co)
    (a : List Bool) (ha : a.length = spaceDim sym.dim (large.toSpace sym)) (hsym : Symmetric1 sym.dim (large.toSpace sym) a) :
    ∃ mk : S → List Bool, (∀ k s d m, DenseIndex sym.dim (large.toSpace sym) k s d m → (mk s).getD m false = a.getD k false) ∧
      Makes sym large.isDual co (ftMaskFromBlock sym large co a) mk := by
  refine ⟨firstRow sym.dim (large.toSpace sym) co a, fun k s d m hk => firstRow_get h sym.dim a hsym hk, ?_⟩
  set mk := firstRow sym.dim (large.toSpace sym) co a with hmk
  let φ : S → S := fun c => if large.isDual then sym.dual c else c
  have hφi : Function.Injective φ := by
    intro a b hab
    have hab : (if large.isDual then sym.dual a else a) = if large.isDual then sym.dual b else b := hab
    cases hd : large.isDual with
    | false => rw [hd] at hab; simpa using hab
    | true => rw [hd] at hab; simp only [if_true] at hab; rw [← hdd a, ← hdd b, hab]
  have hφ : ∀ (j : ℕ) (c : S), large.defining[j]? = some c → (large.toSpace sym).sectors[j]? = some (φ c) := by
    intro j c hj
    rw [sectors_of_dual, hj]; rfl
  -- for a leg that is not dual the sectors are sorted
  have hsec : large.isDual = false → large.defining = co.sectors := by
    intro hd
    have e : (large.toSpace sym).sectors = large.defining := by
      show large.sectors sym = _
      unfold ESpace.sectors
      rw [hd]; rfl
    refine List.Perm.eq_of_pairwise (le := (· < ·)) ?_ hdef h.coupled.sorted ?_
    · intro a b _ _ h1 h2
      exact absurd h1 (lt_asymm h2)
    · rw [List.perm_ext_iff_of_nodup (hdef.imp ne_of_lt) h.coupled.nodup]
      intro x
      rw [h.mem, e]
  let num : ℕ → S → ℕ := fun j c => if large.isDual then co.sectors.idxOf (sym.dual c) else j
  have hnum : ∀ (j : ℕ) (c : S), large.defining[j]? = some c → co.sectors[num j c]? = some (φ c) := by
    intro j c hj
    show co.sectors[if large.isDual then co.sectors.idxOf (sym.dual c) else j]? =
      some (if large.isDual then sym.dual c else c)
    cases hd : large.isDual with
    | false =>
      simp only [Bool.false_eq_true, if_false]
      rw [← hsec hd]; exact hj
    | true =>
      simp only [if_true]
      have hm : sym.dual c ∈ co.sectors := by
        rw [h.mem]
        have := hφ j c hj
        have e : φ c = sym.dual c := by show (if large.isDual then _ else _) = _; rw [hd]; rfl
        rw [e] at this
        exact List.mem_of_getElem? this
      rw [List.getElem?_eq_getElem (List.idxOf_lt_length_of_mem hm), List.getElem_idxOf]
  set found := (List.range large.defining.length).filterMap (maskSector sym large co a) with hfound
  have hsome : ∀ (j : ℕ) (x : S × ℕ × List Bool × ℕ), maskSector sym large co a j = some x ↔
      ∃ c, large.defining[j]? = some c ∧ true ∈ mk (φ c) ∧ x = (c, num j c, mk (φ c), countTrue (mk (φ c))) := by
    intro j x
    constructor
    · intro hx
      cases hj : large.defining[j]? with
      | none => unfold maskSector at hx; rw [hj] at hx; simp at hx
      | some c =>
        rw [maskSector_eq sym hdim hdd' h a ha hsym hj] at hx
        by_cases ht : true ∈ mk (φ c)
        · rw [if_pos ht] at hx
          exact ⟨c, rfl, ht, (Option.some.inj hx).symm⟩
        · rw [if_neg ht] at hx
          simp at hx
    · rintro ⟨c, hj, ht, rfl⟩
      rw [maskSector_eq sym hdim hdd' h a ha hsym hj]
      exact if_pos ht
  have hfm : ∀ x, x ∈ found ↔ ∃ j c, large.defining[j]? = some c ∧ true ∈ mk (φ c) ∧
      x = (c, num j c, mk (φ c), countTrue (mk (φ c))) := by
    intro x
    rw [hfound, List.mem_filterMap]
    constructor
    · rintro ⟨j, _, hx⟩
      exact ⟨j, (hsome j x).1 hx⟩
    · rintro ⟨j, c, hj, hx⟩
      exact ⟨j, List.mem_range.2 (List.getElem?_eq_some_iff.1 hj).1, (hsome j x).2 ⟨c, hj, hx⟩⟩
  have hds : (found.map fun x => x.1).Pairwise (· < ·) := by
    rw [List.pairwise_map, hfound, List.pairwise_filterMap]
    refine List.pairwise_lt_range.imp fun {i j} hij x hx y hy => ?_
    obtain ⟨c, c1, _, rfl⟩ := (hsome i x).1 hx
    obtain ⟨c', c1', _, rfl⟩ := (hsome j y).1 hy
    obtain ⟨l1, e1⟩ := List.getElem?_eq_some_iff.1 c1
    obtain ⟨l2, e2⟩ := List.getElem?_eq_some_iff.1 c1'
    rw [← e1, ← e2]
    exact List.pairwise_iff_getElem.1 hdef _ _ l1 l2 hij
  set kept0 : DEnts Bool := found.map fun x => (x.2.1, x.2.2.1) with hkept0
  have hk0 : ∀ p, p ∈ kept0 ↔ ∃ j c, large.defining[j]? = some c ∧ true ∈ mk (φ c) ∧ p = (num j c, mk (φ c)) := by
    intro p
    rw [hkept0, List.mem_map]
    constructor
    · rintro ⟨x, hx, rfl⟩
      obtain ⟨j, c, h1, h2, rfl⟩ := (hfm x).1 hx
      exact ⟨j, c, h1, h2, rfl⟩
    · rintro ⟨j, c, h1, h2, rfl⟩
      exact ⟨_, (hfm _).2 ⟨j, c, h1, h2, rfl⟩, rfl⟩
  have hkn : (kept0.map Prod.fst).Nodup := by
    rw [hkept0, List.map_map]
    have hn : found.Nodup := (show (found.map fun x => x.1).Nodup from hds.imp ne_of_lt).of_map
    refine (List.nodup_map_iff_inj_on hn).2 fun x hx y hy hxy => ?_
    refine List.inj_on_of_nodup_map (show (found.map fun x => x.1).Nodup from hds.imp ne_of_lt) hx hy ?_
    obtain ⟨j, c, h1, _, rfl⟩ := (hfm x).1 hx
    obtain ⟨j', c', h1', _, rfl⟩ := (hfm y).1 hy
    have hxy : num j c = num j' c' := hxy
    have e1 := hnum j c h1
    have e2 := hnum j' c' h1'
    rw [hxy, e2] at e1
    exact (hφi (Option.some.inj e1)).symm
  obtain ⟨kept, hkeq, hkm, hks⟩ : ∃ kept : DEnts Bool,
      (if large.isDual then gather kept0 (lexsortIndices (S := ℕ) (kept0.map Prod.fst)) else kept0) = kept ∧
      (∀ p, p ∈ kept ↔ p ∈ kept0) ∧ (kept.map Prod.fst).Pairwise (· < ·) := by
    by_cases hd : large.isDual = true
    · refine ⟨_, if_pos hd, ?_, ?_⟩
      · have hp : (lexsortIndices (S := ℕ) (kept0.map Prod.fst)).Perm (List.range kept0.length) := by
          have := lexsortIndices_perm (kept0.map Prod.fst)
          rwa [List.length_map] at this
        exact (gather_pairs kept0 kept0 rfl _ hp).2.2
      · have e := gather_map Prod.fst kept0 (lexsortIndices (S := ℕ) (kept0.map Prod.fst))
        rw [← e]
        exact sorted_gather _ hkn
    · refine ⟨kept0, if_neg hd, fun p => Iff.rfl, ?_⟩
      rw [hkept0, List.map_map, List.pairwise_map, hfound, List.pairwise_filterMap]
      refine List.pairwise_lt_range.imp fun {i j} hij x hx y hy => ?_
      obtain ⟨c, _, _, rfl⟩ := (hsome i x).1 hx
      obtain ⟨c', _, _, rfl⟩ := (hsome j y).1 hy
      show num i c < num j c'
      simp only [num, hd]
      exact hij
  have hr : ftMaskFromBlock sym large co a =
      ⟨⟨found.map fun x => x.1, found.map fun x => x.2.2.2, large.isDual, none⟩, maskData kept⟩ := by
    unfold ftMaskFromBlock
    simp only
    rw [← hfound, ← hkept0, hkeq]
  rw [hr]
  have hslL : ((⟨found.map fun x => x.1, found.map fun x => x.2.2.2, large.isDual, none⟩ : ESpace S).toSpace sym).sectors =
      (found.map fun x => x.1).map φ := by
    apply List.ext_getElem?
    intro j
    rw [sectors_of_dual, List.getElem?_map (f := φ)]
  have hmsl : ∀ s, s ∈ (found.map fun x => x.1).map φ ↔ ∃ p ∈ kept, co.sectors[p.1]? = some s := by
    intro s
    rw [List.mem_map]
    constructor
    · rintro ⟨c, hc, rfl⟩
      obtain ⟨x, hx, rfl⟩ := List.mem_map.1 hc
      obtain ⟨j, c, h1, h2, rfl⟩ := (hfm x).1 hx
      exact ⟨_, (hkm _).2 ((hk0 _).2 ⟨j, c, h1, h2, rfl⟩), hnum j c h1⟩
    · rintro ⟨p, hp, hs⟩
      obtain ⟨j, c, h1, h2, rfl⟩ := (hk0 p).1 ((hkm p).1 hp)
      rw [hnum j c h1] at hs
      exact ⟨c, List.mem_map.2 ⟨_, (hfm _).2 ⟨j, c, h1, h2, rfl⟩, rfl⟩, Option.some.inj hs⟩
  refine ⟨hds, rfl, by simp, exists_sortedLeg _ ?_ ?_, fun st hst => ?_⟩
  · rw [hslL]
    show _ = (found.map fun x => x.2.2.2).length
    simp
  · rw [hslL]
    exact (show (found.map fun x => x.1).Nodup from hds.imp ne_of_lt).map hφi
  · refine keeps_of_kept h.coupled hst kept mk hks (fun p hp => ?_) (fun s hs => ?_) (fun s _ => ?_) fun s hs => ?_
    · obtain ⟨j, c, h1, h2, rfl⟩ := (hk0 p).1 ((hkm p).1 hp)
      refine ⟨φ c, hnum j c h1, rfl, ?_⟩
      obtain ⟨n, hn⟩ := List.getElem?_of_mem ((hfm _).2 ⟨j, c, h1, h2, rfl⟩)
      refine ⟨n, ?_, ?_⟩
      · rw [hslL, List.getElem?_map, List.getElem?_map, hn]; rfl
      · show (found.map fun x => x.2.2.2)[n]? = _
        rw [List.getElem?_map, hn]; rfl
    · rw [hslL] at hs
      exact (hmsl s).1 hs
    · rw [hmk]; simp [firstRow]
    · rw [hslL, hmsl]
      constructor
      · rintro ⟨p, hp, h1⟩
        obtain ⟨j, c, j1, j2, rfl⟩ := (hk0 p).1 ((hkm p).1 hp)
        rw [hnum j c j1] at h1
        rw [← Option.some.inj h1]
        exact j2
      · intro ht
        rw [h.mem] at hs
        obtain ⟨j, hj⟩ := List.getElem?_of_mem hs
        rw [sectors_of_dual] at hj
        obtain ⟨c, c1, c2⟩ := Option.map_eq_some_iff.1 hj
        have c2 : φ c = s := c2
        refine ⟨(num j c, mk (φ c)), (hkm _).2 ((hk0 _).2 ⟨j, c, c1, by rw [c2]; exact ht, rfl⟩), ?_⟩
        rw [hnum j c c1, c2]

end Cyten.FT
