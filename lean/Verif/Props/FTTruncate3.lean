import Verif.Props.FTTruncate2
import Verif.Lemmas.FTSingle

/-!
# C93: the truncated singular value decomposition with the fusion tree backend
-/

namespace Cyten.FT
open Cyten.Abelian Cyten.Spaces Cyten.Tools Cyten.FT.Spec Cyten.Props Cyten.ListSum
open scoped Matrix

variable {S : Type} [LinearOrder S]

theorem maskIndex_unique {b : List Bool} {n i i' : ℕ} (h : MaskIndex b n i) (h' : MaskIndex b n i') : i = i' := by
  have key : ∀ {i i'}, MaskIndex b n i → MaskIndex b n i' → ¬ i < i' := by
    intro i i' h h' hlt
    have h1 : (b.take (i + 1)).count true = n + 1 := by
      rw [List.take_succ, h.1, List.count_append, h.2]; rfl
    have h2 : (b.take (i + 1)).count true ≤ (b.take i').count true := by
      have : b.take (i + 1) = (b.take i').take (i + 1) := by rw [List.take_take]; congr 1; omega
      rw [this]
      exact (List.take_sublist _ _).count_le _
    rw [h1, h'.2] at h2
    omega
  have := key h h'
  have := key h' h
  omega

theorem maskIndex_of_kept {b : List Bool} {i : ℕ} (h : b.getD i false = true) :
    MaskIndex b ((b.take i).count true) i ∧ (b.take i).count true < b.count true := by
  have h1 : b[i]? = some true := by
    cases hb : b[i]? with
    | none => simp [List.getD_eq_getElem?_getD, hb] at h
    | some x => simp only [List.getD_eq_getElem?_getD, hb, Option.getD_some] at h; rw [h]
  refine ⟨⟨h1, rfl⟩, ?_⟩
  have h2 : (b.take (i + 1)).count true = (b.take i).count true + 1 := by
    rw [List.take_succ, h1, List.count_append]; rfl
  have h3 : (b.take (i + 1)).count true ≤ b.count true := (List.take_sublist _ _).count_le _
  omega

section
variable {m n k k' : ℕ} {b : List Bool} (hk' : k' = b.count true) (pos : Fin k' → Fin k)
  (hpos : ∀ j : Fin k', MaskIndex b j (pos j))
include hpos

theorem pos_injective : Function.Injective pos := fun i j h => by
  have h1 := hpos i
  rw [h] at h1
  exact Fin.ext (h1.2.symm.trans (hpos j).2)

include hk' in
theorem sum_kept {A : Type} [AddCommMonoid A] (f : Fin k → A) :
    ∑ j, f (pos j) = ∑ i : Fin k, if b.getD i false then f i else 0 := by
  rw [← Finset.sum_filter, ← Finset.sum_image fun i _ j _ h => pos_injective pos hpos h]
  refine Finset.sum_congr ?_ fun _ _ => rfl
  ext i
  simp only [Finset.mem_image, Finset.mem_univ, true_and, Finset.mem_filter]
  constructor
  · rintro ⟨j, rfl⟩
    have := (hpos j).1
    simp [List.getD_eq_getElem?_getD, this]
  · intro h
    obtain ⟨h1, h2⟩ := maskIndex_of_kept h
    refine ⟨⟨_, hk' ▸ h2⟩, Fin.ext ?_⟩
    exact maskIndex_unique (hpos ⟨_, hk' ▸ h2⟩) h1

include hk' in
theorem kept_product (U : Matrix (Fin m) (Fin k) ℂ) (d : Fin k → ℂ) (V : Matrix (Fin k) (Fin n) ℂ) :
    (U.submatrix id pos) * Matrix.diagonal (fun j => d (pos j)) * (V.submatrix pos id) =
      U * (Matrix.diagonal d * keepMatrix b k) * V := by
  ext i l
  unfold keepMatrix
  rw [Matrix.diagonal_mul_diagonal, Matrix.mul_apply, Matrix.mul_apply]
  simp only [Matrix.mul_diagonal, Matrix.submatrix_apply, id]
  rw [sum_kept hk' pos hpos fun a => U i a * d a * V a l]
  refine Finset.sum_congr rfl fun a _ => ?_
  split_ifs <;> simp

theorem kept_cols (U : Matrix (Fin m) (Fin k) ℂ) (h : Uᴴ * U = 1) : (U.submatrix id pos)ᴴ * U.submatrix id pos = 1 := by
  ext i j
  have := congrFun (congrFun h (pos i)) (pos j)
  rw [Matrix.mul_apply] at this ⊢
  simp only [Matrix.conjTranspose_apply, Matrix.submatrix_apply, id] at this ⊢
  rw [this, Matrix.one_apply, Matrix.one_apply]
  simp [(pos_injective pos hpos).eq_iff]

theorem kept_rows (V : Matrix (Fin k) (Fin n) ℂ) (h : V * Vᴴ = 1) : V.submatrix pos id * (V.submatrix pos id)ᴴ = 1 := by
  ext i j
  have := congrFun (congrFun h (pos i)) (pos j)
  rw [Matrix.mul_apply] at this ⊢
  simp only [Matrix.conjTranspose_apply, Matrix.submatrix_apply, id] at this ⊢
  rw [this, Matrix.one_apply, Matrix.one_apply]
  simp [(pos_injective pos hpos).eq_iff]

end

/-- The singular values without the second column of the rows. -/
def flatRows (D : List ((ℕ × ℕ) × List ℂ)) : DEnts ℂ := D.map fun e => (e.1.1, e.2)

theorem value_flatRows (co : BLeg S) (D : List ((ℕ × ℕ) × List ℂ)) (c : S) (m : ℕ) :
    value co (flatRows D) c m = svOf co D c m := by
  unfold value diagValue asRows flatRows svOf
  rw [List.map_map, List.find?_map]
  have hf : ((fun e : (ℕ × ℕ) × List ℂ => co.sectors[e.1.1]? == some c) ∘
      ((fun p : ℕ × List ℂ => ((p.1, p.1), p.2)) ∘ fun e : (ℕ × ℕ) × List ℂ => (e.1.1, e.2))) =
      fun e => co.sectors[e.1.1]? == some c := rfl
  rw [hf]
  cases D.find? fun e => co.sectors[e.1.1]? == some c with
  | none => simp
  | some e => simp

theorem flatRows_sane {co : BLeg S} (hc : Coupled co) {D : List ((ℕ × ℕ) × List ℂ)} (h : FDSane co D) :
    Abelian.Spec.DSane co.mults (flatRows D) := by
  constructor
  · intro p hp
    obtain ⟨e, he, rfl⟩ := List.mem_map.1 hp
    exact ⟨by rw [← hc.len]; exact (h.diag e he).2, h.len e he⟩
  · unfold flatRows
    rw [List.map_map]
    have := h.sorted
    rwa [List.map_congr_left (g := Prod.fst ∘ fun e : (ℕ × ℕ) × List ℂ => (e.1.1, e.2))
      fun e he => (h.diag e he).1.symm] at this

theorem mults_pos_of_sorted {x : SpaceData S} {l : BLeg S} (h : SortedLeg x l) (hx : ∀ m ∈ x.mults, 0 < m) :
    ∀ m ∈ l.mults, 0 < m := by
  intro m hm
  obtain ⟨i, hi⟩ := List.getElem?_of_mem hm
  obtain ⟨h1, e1⟩ := List.getElem?_eq_some_iff.1 hi
  have h2 : i < l.sectors.length := by rw [h.coupled.len]; exact h1
  have hs := List.getElem?_eq_getElem h2
  obtain ⟨j, hj⟩ := List.getElem?_of_mem ((h.mem _).1 (List.mem_of_getElem? hs))
  have := hx _ (List.mem_of_getElem? (h.mult j _ hj))
  rw [mult_eq h.coupled hs, List.getD_eq_getElem?_getD, hi] at this
  exact this

theorem count_true_sum (b : List Bool) : b.count true = ∑ i : Fin b.length, if b.getD i false then 1 else 0 := by
  rw [← sum_range_fin b.length fun i => if b.getD i false then 1 else 0]
  induction b with
  | nil => rfl
  | cons x b ih =>
    rw [List.length_cons, List.range_succ_eq_map, List.map_cons, List.sum_cons, List.map_map]
    have : ((fun i => if (x :: b).getD i false = true then 1 else 0) ∘ Nat.succ) =
        fun i => if b.getD i false = true then 1 else 0 := by funext i; simp
    rw [this, ← ih]
    cases x <;> simp [List.count_cons]; omega

/-- The new leg has one state for every kept value. -/
theorem kept_total {large small : BLeg S} {M : MEnts} {mk : S → List Bool} (h : KeepsData large small M mk)
    (hl : ∀ s, (mk s).length = mult large s) :
    ((svCells large).filter fun c => (mk c.1).getD c.2 false).length = small.mults.sum := by
  rw [← svCells_length h.coupledSmall]
  have e1 : ∀ l : List (S × ℕ), l.length = (l.map fun _ => (1 : ℕ)).sum := fun l => by simp
  rw [e1, svCells_sum (R := ℕ) large (fun c => (mk c.1).getD c.2 false) fun _ _ => 1, e1 (svCells small)]
  have e2 := svCells_sum (R := ℕ) small (fun _ => true) fun _ _ => 1
  rw [List.filter_true] at e2
  rw [e2]
  have e3 : ∀ s, (∑ i : Fin (mult large s), if (mk s).getD i false then (1 : ℕ) else 0) = (mk s).count true := fun s => by
    rw [← hl s, count_true_sum]
  have e4 : ∀ s, (∑ _i : Fin (mult small s), if true = true then (1 : ℕ) else 0) = (mk s).count true := fun s => by
    rw [← keeps_mult h hl s]; simp
  rw [List.map_congr_left fun s _ => e3 s, List.map_congr_left fun s _ => e4 s]
  rw [← List.sum_toFinset (fun s => (mk s).count true) h.coupledLarge.nodup,
    ← List.sum_toFinset (fun s => (mk s).count true) h.coupledSmall.nodup]
  symm
  refine Finset.sum_subset (fun c hcm => ?_) fun c hcl hcn => ?_
  · rw [List.mem_toFinset] at hcm ⊢
    exact h.sub c hcm
  · rw [List.mem_toFinset] at hcl hcn
    exact List.count_eq_zero.2 fun ht => hcn ((h.kept c hcl).2 ht)

theorem keeps_pos {large small : BLeg S} {M : MEnts} {mk : S → List Bool} (h : KeepsData large small M mk)
    (hl : ∀ s, (mk s).length = mult large s) : ∀ s ∈ small.sectors, 0 < mult small s := by
  intro s hs
  rw [keeps_mult h hl s]
  exact List.count_pos_iff.2 ((h.kept s (h.sub s hs)).1 hs)

theorem mults_pos_of_mult {l : BLeg S} (h : Coupled l) (hp : ∀ s ∈ l.sectors, 0 < mult l s) : ∀ m ∈ l.mults, 0 < m := by
  intro m hm
  obtain ⟨i, hi⟩ := List.getElem?_of_mem hm
  obtain ⟨h1, -⟩ := List.getElem?_eq_some_iff.1 hi
  have h2 : i < l.sectors.length := by rw [h.len]; exact h1
  have hs := List.getElem?_eq_getElem h2
  have := hp _ (List.mem_of_getElem? hs)
  rw [mult_eq h hs, List.getD_eq_getElem?_getD, hi] at this
  exact this

theorem space_mults_pos {x : SpaceData S} {l : BLeg S} (h : SortedLeg x l) (hp : ∀ s ∈ l.sectors, 0 < mult l s) :
    ∀ m ∈ x.mults, 0 < m := by
  intro m hm
  obtain ⟨i, hi⟩ := List.getElem?_of_mem hm
  obtain ⟨h1, -⟩ := List.getElem?_eq_some_iff.1 hi
  have h2 : i < x.sectors.length := by rw [h.len]; exact h1
  have hs := List.getElem?_eq_getElem h2
  have := h.mult i _ hs
  rw [hi] at this
  cases this
  exact hp _ ((h.mem _).2 (List.mem_of_getElem? hs))

theorem good_of_makes (sym : Sym S) {e : ESpace S} {st : BLeg S} (h : SortedLeg (e.toSpace sym) st)
    (hd : e.defining.Pairwise (· < ·)) : GoodSpace (e.toSpace sym) := by
  refine ⟨h.len, h.nodup, fun ho => ?_⟩
  unfold ESpace.toSpace at ho ⊢
  unfold ESpace.sectors
  cases hb : e.isDual with
  | false => simpa [hb] using hd
  | true => simp [hb] at ho

section
variable {cod dom new : BLeg S} (hc : Coupled cod) (hd : Coupled dom) (hn : IsNew cod dom new) (a : FEnts ℂ)
  (ha : FSane cod dom a) (f : Mat ℂ → Mat ℂ × List ℂ × Mat ℂ)
  (hf : ∀ e ∈ a, ∀ m n, e.2.rows = m → e.2.cols = n → IsSVD m n e.2 (f e.2).1 (f e.2).2.1 (f e.2).2.2)
  (hreal : ∀ e ∈ a, ∀ s ∈ (f e.2).2.1, s.im = 0)
include hc hd hn ha hf hreal

/-- **C93** (truncated singular value decomposition). `truncated_svd` without normalization: the singular value decomposition
`U`, `S`, `Vh` of a tensor with the matrices `T(c)` and the norm `N`, the mask of `truncate_singular_values(S / N)`, and the
contractions of `U`, `S` and `Vh` with the mask.  All steps succeed; the new leg has at least one and at most `chi_max` states;
the new `U` and `Vh` are isometries; and the truncated product differs from the tensor by exactly the returned error,
`Σ qdim(c) |T(c) - U'(c) S'(c) Vh'(c)|² = err * N²`. -/
theorem C93_truncated_svd (R : FusionRule S) (big : Mat ℂ → Bool)
    (hbig : ∀ M, big M = false → ∀ m < M.rows, ∀ n < M.cols, M.val m n = 0)
    (hempty : ∀ M, M.rows = 0 ∨ M.cols = 0 → big M = false)
    (qd : S → ℝ) (N : ℝ) (hN0 : N ≠ 0)
    (hN : N ^ 2 = (cod.sectors.map fun c => qd c * frobeniusSq (matrixOf cod dom a c)).sum)
    {argsort : List ℝ → List ℕ} (hsort : IsArgsort argsort) (lg : ℝ → ℝ) (sym : Sym S)
    (hdd : ∀ s, sym.dual (sym.dual s) = s) (leg : ESpace S) (hperm : leg.perm = none)
    (hleg : SortedLeg (leg.toSpace sym) new) (hgood : leg.defining.Pairwise (· < ·)) (hpos : ∀ m ∈ leg.mults, 0 < m)
    (o : Truncation.Opts ℝ) (hchi : ∀ chi, o.chiMax = some chi → 1 ≤ chi) :
    ∃ M err newNorm st U' V',
      ftTruncate argsort lg sym leg new (new.sectors.map qd) (normedValues N (fsvd cod dom new f a).2.1) o =
        some (M, err, newNorm) ∧
      SortedLeg (M.small.toSpace sym) st ∧
      maskContract R big true true 0 [leg.toSpace sym] [M.small.toSpace sym] cod new cod st st (ftMaskDagger M.data)
        (fsvd cod dom new f a).1 = some U' ∧
      maskContract R big false true 0 [leg.toSpace sym] [M.small.toSpace sym] new dom st dom new M.data
        (fsvd cod dom new f a).2.2 = some V' ∧
      FSane cod st U' ∧ Abelian.Spec.DSane st.mults (diagApplyMask (flatRows (fsvd cod dom new f a).2.1) M.data) ∧
      FSane st dom V' ∧
      (∀ c, (matrixOf cod st U' c)ᴴ * matrixOf cod st U' c = 1 ∧ matrixOf st dom V' c * (matrixOf st dom V' c)ᴴ = 1) ∧
      0 < st.mults.sum ∧ (∀ chi, o.chiMax = some chi → (st.mults.sum : ℤ) ≤ chi) ∧
      (cod.sectors.map fun c => qd c * frobeniusSq (matrixOf cod dom a c - matrixOf cod st U' c *
        Matrix.diagonal (fun j : Fin (mult st c) =>
          value st (diagApplyMask (flatRows (fsvd cod dom new f a).2.1) M.data) c j) * matrixOf st dom V' c)).sum =
        err * N ^ 2 ∧
      (st.sectors.map fun c => qd c * ∑ j : Fin (mult st c),
        ‖value st (diagApplyMask (flatRows (fsvd cod dom new f a).2.1) M.data) c j‖ ^ 2).sum = newNorm * N ^ 2 ∧
      err + newNorm = 1 := by
  obtain ⟨M, err, nn, mk, h1, h2, h3, h4, h5, h6, h7⟩ := C93_error hc hd hn a ha f hf hreal qd N hN0 hN hsort lg sym hdd leg
    hperm o hchi
  obtain ⟨hU, hS, hV, hsv, -⟩ := C62_svd hc hd hn a ha f hf
  obtain ⟨k1, k2, k3, ⟨st, hst⟩, k5⟩ := h2
  have hk := k5 st hst
  have hposL : ∀ m ∈ new.mults, 0 < m := mults_pos_of_sorted hleg hpos
  have hpS := keeps_pos hk h3
  have hposS : ∀ m ∈ st.mults, 0 < m := mults_pos_of_mult hst.coupled hpS
  have sL := sideOK_single R hleg (good_of_makes sym hleg hgood) hpos false
  have sS := sideOK_single R hst (good_of_makes sym hst k1) (space_mults_pos hst hpS) false
  obtain ⟨m1, m2⟩ := maskOK_of_keeps hleg hst hk h3
  have caseU : MaskCase R true 0 ⟨[leg.toSpace sym], [false]⟩ ⟨[M.small.toSpace sym], [false]⟩ new st (leg.toSpace sym)
      (M.small.toSpace sym) st (ftMaskDagger M.data) mk := ⟨sL, sS, hposL, hposS, m2, rfl, rfl, rfl⟩
  have caseV : MaskCase R true 0 ⟨[leg.toSpace sym], [false]⟩ ⟨[M.small.toSpace sym], [false]⟩ new st (leg.toSpace sym)
      (M.small.toSpace sym) new M.data mk := ⟨sL, sS, hposL, hposS, m1, rfl, rfl, rfl⟩
  obtain ⟨U', u1, u2, u3⟩ := C90_large_leg_domain caseU hc big hbig hempty _ hU
  obtain ⟨V', v1, v2, v3⟩ := C90_large_leg_codomain_partial caseV (by
    intro unc c hl
    obtain ⟨x, rfl⟩ := List.length_eq_one_iff.1 (show unc.length = 1 from hl)
    simp only [FusionTrees.size]
    split_ifs <;> omega) hd big hbig hempty _ hV
  obtain ⟨d1, d2⟩ := C91_apply_mask M.data mk hk.toProjectionData _ (flatRows_sane hn.coupled hS)
  have hcnt : ∀ c, mult st c = (mk c).count true := keeps_mult hk h3
  have hposn : ∀ c (n : Fin (mult st c)), ∃ i : Fin (mult new c), MaskIndex (mk c) n i ∧
      (∀ m, matrixOf cod st U' c m n = matrixOf cod new (fsvd cod dom new f a).1 c m i) ∧
      (∀ m, matrixOf st dom V' c n m = matrixOf new dom (fsvd cod dom new f a).2.2 c i m) := by
    intro c n
    obtain ⟨t, ms, hr⟩ := C89_tree_rows sS c n n.2
    obtain ⟨rfl, ht⟩ := treeRow_single hst hr
    have eU : ∀ m, ∃ i : Fin (mult new c), MaskIndex (mk c) n i ∧
        matrixOf cod st U' c m n = matrixOf cod new (fsvd cod dom new f a).1 c m i := fun m => by
      obtain ⟨j, n', x1, x2, x3⟩ := u3 c m n t _ c hr ht
      obtain ⟨y1, -⟩ := treeRow_single hleg x2
      have : j = n' := by simpa using y1
      subst this
      exact ⟨n', x1, x3⟩
    have eV : ∀ m, ∃ i : Fin (mult new c), MaskIndex (mk c) n i ∧
        matrixOf st dom V' c n m = matrixOf new dom (fsvd cod dom new f a).2.2 c i m := fun m => by
      obtain ⟨j, n', x1, x2, x3⟩ := v3 c n m t _ c hr ht
      obtain ⟨y1, -⟩ := treeRow_single hleg x2
      have : j = n' := by simpa using y1
      subst this
      exact ⟨n', x1, x3⟩
    obtain ⟨j, -, hj⟩ := oldIdx_large (mk c) n (by show (n : ℕ) < (mk c).count true; rw [← hcnt]; exact n.2)
    have hjlt : j < mult new c := by rw [← h3 c]; exact (List.getElem?_eq_some_iff.1 hj.1).1
    refine ⟨⟨j, hjlt⟩, hj, fun m => ?_, fun m => ?_⟩
    · obtain ⟨i, x1, x2⟩ := eU m
      have hij : i = ⟨j, hjlt⟩ := Fin.ext (maskIndex_unique x1 hj)
      rw [x2, hij]
    · obtain ⟨i, x1, x2⟩ := eV m
      have hij : i = ⟨j, hjlt⟩ := Fin.ext (maskIndex_unique x1 hj)
      rw [x2, hij]
  choose pos p1 p2 p3 using hposn
  have eU : ∀ c, matrixOf cod st U' c = (matrixOf cod new (fsvd cod dom new f a).1 c).submatrix id (pos c) := fun c => by
    ext m n; exact p2 c n m
  have eV : ∀ c, matrixOf st dom V' c = (matrixOf new dom (fsvd cod dom new f a).2.2 c).submatrix (pos c) id := fun c => by
    ext n m; exact p3 c n m
  have eS : ∀ c, (fun j : Fin (mult st c) => value st (diagApplyMask (flatRows (fsvd cod dom new f a).2.1) M.data) c j) =
      fun j => svOf new (fsvd cod dom new f a).2.1 c (pos c j) := fun c => by
    funext j
    have hin : c ∈ st.sectors := by
      by_contra hcn
      have := mult_not_mem hst.coupled hcn
      exact absurd j.2 (by omega)
    rw [d2 c j (pos c j) ⟨hin, j.2⟩ (p1 c j), value_flatRows]
  have hprod : ∀ c, matrixOf cod st U' c * Matrix.diagonal (fun j : Fin (mult st c) =>
        value st (diagApplyMask (flatRows (fsvd cod dom new f a).2.1) M.data) c j) * matrixOf st dom V' c =
      matrixOf cod new (fsvd cod dom new f a).1 c * (diagOf new (fsvd cod dom new f a).2.1 c * keepMatrix (mk c) (mult new c)) *
        matrixOf new dom (fsvd cod dom new f a).2.2 c := fun c => by
    rw [eU, eV, eS, diagOf_eq]
    exact kept_product (hcnt c) (pos c) (p1 c) _ (fun i => svOf new (fsvd cod dom new f a).2.1 c i) _
  have htot := kept_total hk h3
  refine ⟨M, err, nn, st, U', V', h1, hst, u1, v1, u2, d1, v2, fun c => ⟨?_, ?_⟩, ?_, fun chi hch => ?_, ?_, ?_, h7⟩
  · rw [eU]; exact kept_cols (pos c) (p1 c) _ (hsv c).2.1
  · rw [eV]; exact kept_rows (pos c) (p1 c) _ (hsv c).2.2
  · obtain ⟨s, m, q1, q2⟩ := h4
    rw [← htot]
    exact List.length_pos_of_mem (List.mem_filter.2 ⟨mem_svCells.2 q1, q2⟩)
  · have := h5 chi hch
    rwa [htot] at this
  · simp only [hprod]
    exact h6
  · have hnorm : ∀ c, (∑ j : Fin (mult st c),
        ‖value st (diagApplyMask (flatRows (fsvd cod dom new f a).2.1) M.data) c j‖ ^ 2) =
        ∑ i : Fin (mult new c), if (mk c).getD i false then ‖svOf new (fsvd cod dom new f a).2.1 c i‖ ^ 2 else 0 := fun c => by
      rw [← sum_kept (hcnt c) (pos c) (p1 c) fun i : Fin (mult new c) => ‖svOf new (fsvd cod dom new f a).2.1 c i‖ ^ 2]
      refine Finset.sum_congr rfl fun j _ => ?_
      rw [← congrFun (eS c) j]
    have hsub : (st.sectors.map fun c => qd c * ∑ j : Fin (mult st c),
        ‖value st (diagApplyMask (flatRows (fsvd cod dom new f a).2.1) M.data) c j‖ ^ 2).sum =
        (new.sectors.map fun c => qd c * ∑ j : Fin (mult st c),
        ‖value st (diagApplyMask (flatRows (fsvd cod dom new f a).2.1) M.data) c j‖ ^ 2).sum := by
      rw [← List.sum_toFinset _ hst.coupled.nodup, ← List.sum_toFinset _ hn.coupled.nodup]
      refine Finset.sum_subset (fun c hcm => ?_) fun c hcl hcn => ?_
      · rw [List.mem_toFinset] at hcm ⊢
        exact hk.sub c hcm
      · rw [List.mem_toFinset] at hcn
        have h0 := mult_not_mem hst.coupled hcn
        rw [Finset.sum_eq_zero, mul_zero]
        intro i _
        exact absurd i.2 (by omega)
    have hcut := cut_error hc hd hn a ha f hf qd mk
    rw [h6] at hcut
    have hall := cut_error hc hd hn a ha f hf qd fun _ => []
    have hz : ∀ c, keepMatrix [] (mult new c) = 0 := fun c => by
      unfold keepMatrix; ext i j; simp [Matrix.diagonal_apply]
    simp only [hz, Matrix.mul_zero, Matrix.zero_mul, sub_zero] at hall
    rw [← hN] at hall
    have hkept := svCells_sum new (fun c => (mk c.1).getD c.2 false) fun s i =>
      qd s * ‖svOf new (fsvd cod dom new f a).2.1 s i‖ ^ 2
    have hsplit : N ^ 2 = err * N ^ 2 + (((svCells new).filter fun c => (mk c.1).getD c.2 false).map fun c =>
        qd c.1 * ‖svOf new (fsvd cod dom new f a).2.1 c.1 c.2‖ ^ 2).sum := by
      rw [hall, ← hall, hcut, sum_filter, sum_filter, ← sum_add, hall]
      simp only [List.getD_nil, Bool.not_false, List.filter_true]
      refine sum_congr _ fun c _ => ?_
      cases (mk c.1).getD c.2 false <;> simp
    rw [hkept] at hsplit
    rw [hsub]
    simp only [hnorm, Finset.mul_sum]
    have : (new.sectors.map fun c => ∑ i : Fin (mult new c),
        qd c * if (mk c).getD i false then ‖svOf new (fsvd cod dom new f a).2.1 c i‖ ^ 2 else 0) =
        new.sectors.map fun s => ∑ i : Fin (mult new s),
          if (mk s).getD i false then qd s * ‖svOf new (fsvd cod dom new f a).2.1 s i‖ ^ 2 else 0 := by
      refine List.map_congr_left fun s _ => Finset.sum_congr rfl fun i _ => ?_
      split_ifs <;> simp
    rw [this]
    have hnn : nn = 1 - err := by linarith
    rw [hnn]
    linarith

/-- **C93** (finding). With `normalize_to = x`, `truncated_svd` multiplies `S` with `x / norm(S) / new_norm`, where `new_norm` is
the square of the relative norm of the kept values: the result has the norm `x / √new_norm`, which is `x` only if nothing that is
not zero was cut off. -/
theorem C93_normalize_to (R : FusionRule S) (big : Mat ℂ → Bool)
    (hbig : ∀ M, big M = false → ∀ m < M.rows, ∀ n < M.cols, M.val m n = 0)
    (hempty : ∀ M, M.rows = 0 ∨ M.cols = 0 → big M = false)
    (qd : S → ℝ) (N : ℝ) (hN0 : N ≠ 0)
    (hN : N ^ 2 = (cod.sectors.map fun c => qd c * frobeniusSq (matrixOf cod dom a c)).sum)
    {argsort : List ℝ → List ℕ} (hsort : IsArgsort argsort) (lg : ℝ → ℝ) (sym : Sym S)
    (hdd : ∀ s, sym.dual (sym.dual s) = s) (leg : ESpace S) (hperm : leg.perm = none)
    (hleg : SortedLeg (leg.toSpace sym) new) (hgood : leg.defining.Pairwise (· < ·)) (hpos : ∀ m ∈ leg.mults, 0 < m)
    (o : Truncation.Opts ℝ) (hchi : ∀ chi, o.chiMax = some chi → 1 ≤ chi) :
    ∃ M err newNorm st,
      ftTruncate argsort lg sym leg new (new.sectors.map qd) (normedValues N (fsvd cod dom new f a).2.1) o =
        some (M, err, newNorm) ∧
      SortedLeg (M.small.toSpace sym) st ∧
      ∀ x : ℝ, newNorm ≠ 0 → x ≠ 0 →
        (st.sectors.map fun c => qd c * ∑ j : Fin (mult st c),
          ‖((x / N / newNorm : ℝ) : ℂ) * value st (diagApplyMask (flatRows (fsvd cod dom new f a).2.1) M.data) c j‖ ^ 2).sum =
            x ^ 2 / newNorm ∧
        ((st.sectors.map fun c => qd c * ∑ j : Fin (mult st c),
          ‖((x / N / newNorm : ℝ) : ℂ) * value st (diagApplyMask (flatRows (fsvd cod dom new f a).2.1) M.data) c j‖ ^ 2).sum =
            x ^ 2 ↔ err = 0) := by
  obtain ⟨M, err, nn, st, U', V', h1, h2, -, -, -, -, -, -, -, -, -, h3, h4⟩ := C93_truncated_svd hc hd hn a ha f hf hreal R big
    hbig hempty qd N hN0 hN hsort lg sym hdd leg hperm hleg hgood hpos o hchi
  refine ⟨M, err, nn, st, h1, h2, fun x hnn hx => ?_⟩
  have key : (st.sectors.map fun c => qd c * ∑ j : Fin (mult st c),
      ‖((x / N / nn : ℝ) : ℂ) * value st (diagApplyMask (flatRows (fsvd cod dom new f a).2.1) M.data) c j‖ ^ 2).sum =
      x ^ 2 / nn := by
    have e : ∀ c, (qd c * ∑ j : Fin (mult st c),
        ‖((x / N / nn : ℝ) : ℂ) * value st (diagApplyMask (flatRows (fsvd cod dom new f a).2.1) M.data) c j‖ ^ 2) =
        (qd c * ∑ j : Fin (mult st c),
          ‖value st (diagApplyMask (flatRows (fsvd cod dom new f a).2.1) M.data) c j‖ ^ 2) * (x / N / nn) ^ 2 := fun c => by
      rw [mul_assoc, Finset.sum_mul]
      congr 1
      refine Finset.sum_congr rfl fun j _ => ?_
      rw [norm_mul, mul_pow, Complex.norm_real, Real.norm_eq_abs, sq_abs]
      ring
    simp only [e]
    rw [← sum_mul, h3]
    field_simp
  refine ⟨key, ?_⟩
  rw [key, div_eq_iff hnn]
  constructor
  · intro h
    have : nn = 1 := by
      have h5 : x ^ 2 * (nn - 1) = 0 := by linarith
      rcases mul_eq_zero.1 h5 with h6 | h6
      · exact absurd h6 (pow_ne_zero 2 hx)
      · linarith
    linarith
  · intro h
    have : nn = 1 := by linarith
    rw [this, mul_one]

end

end Cyten.FT

/-! ## The concrete tensor of `FTTruncate2`: the hypotheses are met -/

namespace Cyten.FT.TruncExample
open Cyten.Abelian Cyten.FT Cyten.FT.Spec Cyten.Spaces Cyten.Tools Cyten.Props Cyten.Truncation

def leg2 : ESpace ℤ := ⟨[0, 1], [2, 1], false, none⟩
def znId : Sym ℤ := ⟨fun _ => 1, fun s => -s, true, true⟩
def addRule : FusionRule ℤ := ⟨0, fun a b => [a + b], fun _ _ _ => 1, true⟩

theorem leg2_sorted : SortedLeg (leg2.toSpace znId) co2 := by
  refine ⟨co2_coupled, by decide, by decide, fun s => Iff.rfl, fun j s hj => ?_⟩
  have hj : ([0, 1] : List ℤ)[j]? = some s := hj
  show ([2, 1] : List ℕ)[j]? = some (mult co2 s)
  match j, hj with
  | 0, hj => cases hj; rfl
  | 1, hj => cases hj; rfl
  | j + 2, hj => simp at hj

theorem tens_real : ∀ e ∈ tens, ∀ s ∈ (svdOf e.2).2.1, s.im = 0 := by
  intro e he s hs
  simp only [tens, List.mem_cons, List.not_mem_nil, or_false] at he
  obtain rfl | rfl := he
  · simp only [svdOf, blk0, List.mem_map, List.mem_range] at hs
    obtain ⟨i, -, rfl⟩ := hs
    simp only [if_true]
    split_ifs <;> simp
  · simp only [svdOf, blk1, List.mem_map, List.mem_range] at hs
    obtain ⟨i, -, rfl⟩ := hs
    simp

example := C93_truncated_svd co2_coupled co2_coupled (new := co2) ⟨co2_coupled, fun c => by simp, fun c _ => by simp⟩ tens
  tens_sane svdOf tens_svd tens_real addRule (fun M => decide (M.rows ≠ 0 ∧ M.cols ≠ 0))
  (fun M h m hm n hn => by
    simp only [decide_eq_false_iff_not, not_and, not_not] at h
    have := h (by omega)
    omega)
  (fun M h => by
    simp only [decide_eq_false_iff_not, not_and, not_not]
    omega)
  qd2 5 (by norm_num) tens_norm (stableArgsort_isArgsort (K := ℝ)) id znId (fun s => neg_neg s) leg2 rfl leg2_sorted (by decide)
  (by decide) ⟨some 1, 1, 0, 0, none, true⟩ (by intro chi h; cases h; decide)

example := C93_normalize_to co2_coupled co2_coupled (new := co2) ⟨co2_coupled, fun c => by simp, fun c _ => by simp⟩ tens
  tens_sane svdOf tens_svd tens_real addRule (fun M => decide (M.rows ≠ 0 ∧ M.cols ≠ 0))
  (fun M h m hm n hn => by
    simp only [decide_eq_false_iff_not, not_and, not_not] at h
    have := h (by omega)
    omega)
  (fun M h => by
    simp only [decide_eq_false_iff_not, not_and, not_not]
    omega)
  qd2 5 (by norm_num) tens_norm (stableArgsort_isArgsort (K := ℝ)) id znId (fun s => neg_neg s) leg2 rfl leg2_sorted (by decide)
  (by decide) ⟨some 1, 1, 0, 0, none, true⟩ (by intro chi h; cases h; decide)

end Cyten.FT.TruncExample
