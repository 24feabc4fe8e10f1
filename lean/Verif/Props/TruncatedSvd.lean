import Verif.Model.AbelianTruncate
import Verif.Lemmas.TruncSvd
import Verif.Props.Truncation
import Verif.Props.AbelianDecomp2
import Mathlib.Tactic.IntervalCases
import Mathlib.Tactic.LinearCombination

/-!
# C83: the truncated singular value decomposition of a tensor
-/

namespace Cyten.Props
open Cyten.Abelian Cyten.Abelian.Spec Cyten.Tables Cyten.Tools Cyten.ListSum Cyten.Spaces Cyten.Truncation

section Apply
variable {S K : Type} [LinearOrder S] {sym : Sym S} {M : MaskT S}

theorem entry_two {K : Type} [AddCommMonoid K] (T : Ents K) (a b c d : ℕ) :
    entry T ([a], [b]) ([c], [d]) = dense T [a, c] [b, d] := rfl

/-- What `svd_apply_mask` does to the entries. -/
theorem svdMask_spec [Semiring K] (h : MaskSane sym M) (hpr : M.isProjection = true)
    {c d : ESpace S} {R : FusionRule S} {U V : Ents K} {D : DEnts K}
    (hU : IsHom R [toBLeg sym c] [toBLeg sym M.large] U) (hD : DSane M.large.mults D)
    (hV : IsHom R [toBLeg sym M.large] [toBLeg sym d] V) :
    IsHom R [toBLeg sym c] [toBLeg sym M.small] (svdApplyMask U D V M).1 ∧
    DSane M.small.mults (svdApplyMask U D V M).2.1 ∧
    IsHom R [toBLeg sym M.small] [toBLeg sym d] (svdApplyMask U D V M).2.2 ∧
    ∀ y z, MaskRel sym M y z →
      (∀ x ∈ basis [c.mults], entry (svdApplyMask U D V M).1 x y = entry U x z) ∧
      diagEntry (svdApplyMask U D V M).2.1 (y.1.getD 0 0) (y.2.getD 0 0) =
        diagEntry D (z.1.getD 0 0) (z.2.getD 0 0) ∧
      (∀ x ∈ basis [d.mults], entry (svdApplyMask U D V M).2.2 y x = entry V z x) := by
  obtain ⟨g1, g2, g3, g4⟩ := C37_dagger h
  have hsU : Sane [c.mults, M.large.mults] U := hU.sane
  have hsV : Sane [M.large.mults, d.mults] V := hV.sane
  obtain ⟨u1, u2⟩ := C47_apply_mask g1 [c.mults, M.large.mults] 1 rfl U hsU true
    (by rw [g3, hpr])
  obtain ⟨v1, v2⟩ := C47_apply_mask h [M.large.mults, d.mults] 0 rfl V hsV false (by rw [hpr]; rfl)
  obtain ⟨d1, d2⟩ := C47_diagonal h hpr D hD
  have cu := (C47_charge g1 R [toBLeg sym c] [toBLeg sym M.large] [c.mults, M.large.mults] rfl 1 U true
    rfl hsU hU.charge).2 0 rfl rfl (by rw [g3, hpr])
  have cv := (C47_charge h R [toBLeg sym M.large] [toBLeg sym d] [M.large.mults, d.mults] rfl 0 V true
    rfl hsV hV.charge).1 rfl hpr
  refine ⟨⟨u1, cu⟩, d1, ⟨v1, cv⟩, ?_⟩
  rintro y z ⟨i, j, t, x, b, w, hi, hj, hn, rfl, rfl⟩
  refine ⟨?_, ?_, ?_⟩
  · intro q hq
    obtain ⟨a, a', -, rfl⟩ := mem_basis_one.1 hq
    exact u2 i j t x b w hi hj (by rw [g2]; exact hn) [a, 0] [a', 0] rfl rfl
  · have := d2 i j hn
    rw [(C36_as_block h.smallOK _ d1).2 i t x hi, (C36_as_block h.large _ hD).2 j b w hj] at this
    exact this
  · intro q hq
    obtain ⟨a, a', -, rfl⟩ := mem_basis_one.1 hq
    exact v2 i j t x b w hi hj hn [0, a] [0, a'] rfl rfl

/-- The mask from a vector in the internal order. -/
theorem from_block_spec {e : ESpace S} (h : DenseOK sym [e]) (v : List Bool)
    (hv : v.length = e.mults.sum) :
    MaskSane sym (maskFromBlock sym e v) ∧
    ∀ b x, IsDiagIndex e.mults b x →
      diagEntry (maskFromBlock sym e v).ents b x = v.getD ((e.mults.take b).sum + x) false := by
  have hfst : (diagonalFromBlock sym e v).map Prod.fst = List.range e.mults.length := by
    unfold diagonalFromBlock
    rw [List.map_map]
    exact List.map_id _
  have hD : DSane e.mults (diagonalFromBlock sym e v) := by
    refine ⟨fun p hp => ?_, by rw [hfst]; exact List.pairwise_lt_range⟩
    obtain ⟨i, hi, rfl⟩ := List.mem_map.1 hp
    have hi' := List.mem_range.1 hi
    refine ⟨hi', ?_⟩
    show (getSlice1 v (legSlice sym e i)).length = e.mults.getD i 0
    rw [legSlice_eq h hi']
    unfold getSlice1 slice
    simp only [List.length_take, List.length_drop, hv, Nat.add_sub_cancel_left]
    have h1 := take_sum_succ e.mults i _ (List.getElem?_eq_getElem hi')
    have h2 := take_sum_mono e.mults (i + 1) e.mults.length hi'
    rw [List.take_length] at h2
    rw [List.getD_eq_getElem?_getD, List.getElem?_eq_getElem hi', Option.getD_some]
    omega
  refine ⟨(keep_mask h hD).1, fun b x hbx => ?_⟩
  unfold maskFromBlock
  rw [data_ents, (keep_spec hD).2.2 b x]
  have hl : (diagonalFromBlock sym e v).lookup b = some (getSlice1 v (legSlice sym e b)) :=
    lookup_of_mem (a := diagonalFromBlock sym e v) (p := (b, getSlice1 v (legSlice sym e b)))
      hD.sorted (List.mem_map.2 ⟨b, List.mem_range.2 hbx.1, rfl⟩)
  unfold diagEntry
  rw [hl, Option.getD_some, legSlice_eq h hbx.1]
  unfold getSlice1 slice
  simp only [List.getD_eq_getElem?_getD, List.getElem?_take, List.getElem?_drop,
    Nat.add_sub_cancel_left]
  rw [if_pos]
  · rfl
  · have := hbx.2
    rwa [List.getD_eq_getElem?_getD] at this

/-- The entries of `diagonal_tensor_to_block`, in the internal order. -/
theorem to_block_spec {K : Type} [Zero K] {e : ESpace S} (h : DenseOK sym [e]) (D : DEnts K)
    (hD : DSane e.mults D) :
    (diagonalToBlock sym e D).length = e.mults.sum ∧
    ∀ b x, IsDiagIndex e.mults b x →
      (diagonalToBlock sym e D).getD ((e.mults.take b).sum + x) 0 = diagEntry D b x := by
  have hv := h.valid e (by simp)
  obtain ⟨h1, h2⟩ := foldl_setSlice1 h D hD.shapes (hD.sorted.imp fun h => h.ne)
    (zeros1 (e.dim sym)) (by rw [zeros1, List.length_replicate, dim_eq h.dims h.one hv])
  refine ⟨h1, fun b x hbx => ?_⟩
  unfold diagonalToBlock
  rw [h2 b x hbx]
  unfold diagEntry
  cases D.lookup b with
  | some u => rfl
  | none =>
    simp only [Option.getD_none, zeros1]
    rw [List.getD_eq_getElem?_getD, List.getElem?_replicate]
    split <;> simp

end Apply

theorem diagNorm_sq {mults : List ℕ} (D : DEnts ℂ) (hD : DSane mults D) :
    diagNorm D ^ 2 =
      ((basis [mults]).map fun y => ‖diagEntry D (y.1.getD 0 0) (y.2.getD 0 0)‖ ^ 2).sum := by
  have e0 : ∀ l : List ℂ, Real.sqrt (l.map fun s => ‖s‖ ^ 2).sum ^ 2 = (l.map fun s => ‖s‖ ^ 2).sum :=
    fun l => Real.sq_sqrt (List.sum_nonneg fun x hx => by
      obtain ⟨i, -, rfl⟩ := List.mem_map.1 hx; positivity)
  have hs := C36_unary mults (fun s : ℂ => ‖s‖ ^ 2) true (by simp) D hD
  have ht := C36_trace mults _ hs.1
  unfold diagNorm
  simp only [e0]
  rw [Real.sq_sqrt]
  · have e1 : diagonalTrace (elementwiseUnary mults (List.map fun s : ℂ => ‖s‖ ^ 2) true D) =
        (D.map fun p => (p.2.map fun s => ‖s‖ ^ 2).sum).sum := by
      unfold diagonalTrace elementwiseUnary
      rw [if_pos rfl, List.foldl_map]
      rw [show (D.foldl (fun t p => t + (p.2.map fun s : ℂ => ‖s‖ ^ 2).sum) 0) =
        (D.map fun p => (p.2.map fun s => ‖s‖ ^ 2).sum).foldl (· + ·) 0 by rw [List.foldl_map],
        foldl_add_eq, zero_add]
    rw [← e1, ht, sum_basis_one]
    unfold diagIndices
    rw [sum_flatMap]
    refine sum_congr _ fun b hb => ?_
    rw [List.map_map]
    refine sum_congr _ fun x hx => ?_
    exact hs.2 b x ⟨List.mem_range.1 hb, List.mem_range.1 hx⟩
  · exact List.sum_nonneg fun x hx => by
      obtain ⟨i, -, rfl⟩ := List.mem_map.1 hx
      exact List.sum_nonneg fun x hx => by
        obtain ⟨i, -, rfl⟩ := List.mem_map.1 hx; positivity

theorem count_eq_sum (v : List Bool) :
    v.count true = ((List.range v.length).map fun i => if v.getD i false = true then 1 else 0).sum := by
  induction v with
  | nil => rfl
  | cons a v ih =>
    rw [List.length_cons, List.range_succ_eq_map, List.map_cons, List.map_map, List.sum_cons]
    have e : ((fun i => if (a :: v).getD i false = true then 1 else 0) ∘ Nat.succ : ℕ → ℕ) =
        fun i => if v.getD i false = true then 1 else 0 := by
      funext i
      simp
    rw [e, ← ih]
    cases a <;> simp [Nat.add_comm]

/-- The square of the Frobenius norm of a matrix between two legs. -/
noncomputable def frobSq {S : Type} (c d : ESpace S) (g : List ℕ × List ℕ → List ℕ × List ℕ → ℂ) : ℝ :=
  ((basis [c.mults]).map fun x => ((basis [d.mults]).map fun z => ‖g x z‖ ^ 2).sum).sum

/-- The matrix product `U S Vh`. -/
noncomputable def usv {S : Type} (W : TruncSvd S) (x z : List ℕ × List ℕ) : ℂ :=
  ((basis [W.leg.mults]).map fun y =>
    entry W.U x y * diagEntry W.D (y.1.getD 0 0) (y.2.getD 0 0) * entry W.V y z).sum

theorem frobSq_pos {S : Type} {c d : ESpace S} {T : Ents ℂ}
    (hnz : ∃ x ∈ basis [c.mults], ∃ z ∈ basis [d.mults], entry T x z ≠ 0) :
    0 < frobSq c d (fun x z => entry T x z) := by
  obtain ⟨x, hx, z, hz, hne⟩ := hnz
  unfold frobSq
  refine lt_of_lt_of_le (b := ‖entry T x z‖ ^ 2) (by positivity) ?_
  refine le_trans ?_ (List.single_le_sum (fun a ha => ?_) _ (List.mem_map.2 ⟨x, hx, rfl⟩))
  · exact List.single_le_sum (fun a ha => by
      obtain ⟨i, -, rfl⟩ := List.mem_map.1 ha; positivity) _ (List.mem_map.2 ⟨z, hz, rfl⟩)
  · obtain ⟨i, -, rfl⟩ := List.mem_map.1 ha
    exact List.sum_nonneg fun a ha => by
      obtain ⟨i, -, rfl⟩ := List.mem_map.1 ha; positivity

section Main
variable {S : Type} [LinearOrder S] {sym : Sym S} {c d l : ESpace S} (R : FusionRule S) {T : Ents ℂ}
  (hdim : DimOK sym) (hone : ∀ s, sym.dim s = 1) (hdrop : sym.canDrop = true)
  (hc : ValidSpace sym c) (hd : ValidSpace sym d) (hinj : Function.Injective sym.dual)
  (hN : IsNewLeg sym c d l) (hT : IsHom R [toBLeg sym c] [toBLeg sym d] T)
  (hnz : ∃ x ∈ basis [c.mults], ∃ z ∈ basis [d.mults], entry T x z ≠ 0)
  (f : Blk ℂ → Blk ℂ × List ℂ × Blk ℂ)
  (hf : ∀ p ∈ T, ∀ m n, p.2.shape = [m, n] → IsSVD m n p.2 (f p.2).1 (f p.2).2.1 (f p.2).2.2)
  (hreal : ∀ p ∈ T, ∀ s ∈ (f p.2).2.1, s.im = 0)
  {argsort : List ℝ → List ℕ} (ha : IsArgsort argsort) (lg : ℝ → ℝ) (o : Opts ℝ)
  (hchi : ∀ chi, o.chiMax = some chi → 1 ≤ chi)

include hdim hone hdrop hc hd hinj hN hT hnz hf hreal ha hchi

/-- **C83**: for every nonzero symmetric tensor, all block decompositions, all options (with
`chi_max ≥ 1`) and every `normalize_to ≠ 0`, `truncated_svd` returns `U`, `S`, `Vh`, `err` and
`renormalize` such that `U` and `Vh` are isometries through a common leg of positive dimension at most
`chi_max`, and `|tensor - U S Vh / renormalize|² = err * |tensor|²` (Frobenius norms). -/
theorem C83_truncated_svd (normalizeTo : Option ℝ) (hx : ∀ x, normalizeTo = some x → x ≠ 0) :
    ∃ W, Abelian.truncatedSvd argsort lg sym c d l f T o normalizeTo = some W ∧
      ValidSpace sym W.leg ∧ IsHom R [toBLeg sym c] [toBLeg sym W.leg] W.U ∧ DSane W.leg.mults W.D ∧
      IsHom R [toBLeg sym W.leg] [toBLeg sym d] W.V ∧
      (∀ y ∈ basis [W.leg.mults], ∀ y' ∈ basis [W.leg.mults], ((basis [c.mults]).map fun x =>
        star (entry W.U x y) * entry W.U x y').sum = if y = y' then 1 else 0) ∧
      (∀ y ∈ basis [W.leg.mults], ∀ y' ∈ basis [W.leg.mults], ((basis [d.mults]).map fun x =>
        entry W.V y x * star (entry W.V y' x)).sum = if y = y' then 1 else 0) ∧
      0 < W.leg.dim sym ∧ (∀ chi, o.chiMax = some chi → (W.leg.dim sym : ℤ) ≤ chi) ∧
      W.renormalize ≠ 0 ∧ 0 ≤ W.err ∧ W.err < 1 ∧
      frobSq c d (fun x z => entry T x z - usv W x z / W.renormalize) =
        W.err * frobSq c d (fun x z => entry T x z) := by
  obtain ⟨s1, s2, s3, s4, s5, s6, s7⟩ := C48_svd R hc hd hinj hN hT f hf
  unfold Abelian.truncatedSvd
  dsimp only
  generalize svd sym c d l f T = usv0 at *
  obtain ⟨U, D, V⟩ := usv0
  simp only at s1 s2 s3 s4 s5 s6 s7 ⊢
  have hl : DenseOK sym [l] := ⟨hdim, hone, hdrop, fun e he => by
    rw [List.mem_singleton.1 he]; exact hN.valid⟩
  set Dy : List ℕ × List ℕ → ℂ := fun y => diagEntry D (y.1.getD 0 0) (y.2.getD 0 0) with hDy
  -- the singular values are real
  have him : ∀ y, (Dy y).im = 0 := by
    intro y
    simp only [hDy, diagEntry]
    cases hlk : D.lookup (y.1.getD 0 0) with
    | none => simp
    | some u =>
      obtain ⟨p, hp, hq⟩ := s7 _ (lookup_mem hlk)
      rw [Option.getD_some, List.getD_eq_getElem?_getD]
      cases hu : u[y.2.getD 0 0]? with
      | none => simp
      | some a =>
        refine hreal p hp a ?_
        rw [← hq]
        exact List.mem_of_getElem? hu
  have hsq : ∀ y, ‖Dy y‖ ^ 2 = (Dy y).re ^ 2 := fun y => by
    rw [← Complex.normSq_eq_norm_sq, Complex.normSq_apply, him y]; ring
  -- the norm
  have hN2 : diagNorm D ^ 2 = frobSq c d (fun x z => entry T x z) := by
    rw [diagNorm_sq D s2]
    unfold frobSq
    rw [← frob (basis [c.mults]) (basis [l.mults]) (basis [d.mults]) (C34_basis_nodup _) (entry U)
      (entry V) Dy s5 s6]
    refine sum_congr _ fun x hx => sum_congr _ fun z hz => ?_
    dsimp only
    rw [s4 x hx z hz]
  have hpos := frobSq_pos hnz
  set N := diagNorm D with hNdef
  have hN0 : N ≠ 0 := fun h0 => by rw [h0] at hN2; simp at hN2; linarith
  -- the list of normalized values
  obtain ⟨n1, n2⟩ := C36_unary l.mults (fun s : ℂ => s.re / N) false (by simp) D s2
  obtain ⟨t1, t2⟩ := to_block_spec hl _ n1
  set L := diagonalToBlock sym l (elementwiseUnary l.mults (List.map fun s : ℂ => s.re / N) false D)
    with hL
  have hLw : ∀ b x, IsDiagIndex l.mults b x →
      weight L none ((l.mults.take b).sum + x) = ‖Dy ([b], [x])‖ ^ 2 / N ^ 2 := by
    intro b x hbx
    unfold weight
    dsimp only
    rw [t2 b x hbx, n2 b x hbx, hsq]
    show ((Dy ([b], [x])).re / N) ^ 2 = _
    rw [div_pow]
  have sumL : ∀ P : ℕ → Prop, ∀ [DecidablePred P],
      (((List.range L.length).filter fun i => decide (P i)).map (weight L none)).sum =
      ((basis [l.mults]).map fun y => if P ((l.mults.take (y.1.getD 0 0)).sum + y.2.getD 0 0) then
        ‖Dy y‖ ^ 2 / N ^ 2 else 0).sum := by
    intro P _
    rw [sum_filter, t1, ← sum_flat, sum_basis_one]
    refine sum_congr _ fun b hb => sum_congr _ fun x hx => ?_
    rw [hLw b x ⟨List.mem_range.1 hb, List.mem_range.1 hx⟩]
    simp
  have hne : L ≠ [] := by
    intro h0
    rw [h0] at t1
    have hz : ((basis [l.mults]).map fun y => ‖Dy y‖ ^ 2).sum = 0 := by
      rw [sum_basis_one]
      refine sum_zero _ _ fun b hb => ?_
      have hb' := List.mem_range.1 hb
      have h1 := take_sum_succ l.mults b _ (List.getElem?_eq_getElem hb')
      have h2 := take_sum_mono l.mults (b + 1) l.mults.length hb'
      rw [List.take_length] at h2
      simp only [List.length_nil] at t1
      have : l.mults.getD b 0 = 0 := by rw [List.getD_eq_getElem _ _ hb']; omega
      rw [this]; rfl
    rw [← diagNorm_sq D s2] at hz
    exact hN0 (by simpa using hz)
  obtain ⟨mask, err, nn, hsel, hml, hex, hcnt, hord, herr, hnn⟩ :=
    C18_selection ha lg L none trivial o hne hchi
  have herr' := herr
  rw [sumL] at herr
  have hnn' := hnn
  rw [sumL] at hnn
  obtain ⟨m1, m2⟩ := from_block_spec hl mask (by rw [hml, t1])
  set M := maskFromBlock sym l mask with hM
  have hMl : M.large = l := rfl
  have hkept : ∀ y ∈ basis [l.mults], (Kept mask ((l.mults.take (y.1.getD 0 0)).sum + y.2.getD 0 0) ↔
      diagEntry M.ents (y.1.getD 0 0) (y.2.getD 0 0) = true) := by
    intro y hy
    obtain ⟨b, x, hbx, rfl⟩ := mem_basis_one.1 hy
    show Kept mask _ ↔ diagEntry M.ents b x = true
    rw [m2 b x hbx]
    rfl
  obtain ⟨a1, a2, a3, a4⟩ := svdMask_spec (M := M) m1 rfl (c := c) (d := d) (R := R) (U := U) (V := V)
    (D := D) s1 s2 s3
  -- isometries of the masked factors
  have hcols : ∀ y ∈ basis [M.small.mults], ∀ y' ∈ basis [M.small.mults],
      ((basis [c.mults]).map fun x => star (entry (svdApplyMask U D V M).1 x y) *
        entry (svdApplyMask U D V M).1 x y').sum = if y = y' then 1 else 0 := by
    intro y hy y' hy'
    obtain ⟨z, hz, hzm⟩ := maskRel_exists m1 hy
    obtain ⟨z', hz', hzm'⟩ := maskRel_exists m1 hy'
    rw [sum_congr _ fun x hx => by rw [(a4 y z hz).1 x hx, (a4 y' z' hz').1 x hx], s5 z hzm z' hzm']
    have : y = y' ↔ z = z' := ⟨fun h => maskRel_fun m1 hz (h ▸ hz'), fun h => maskRel_inj m1 hz (h ▸ hz')⟩
    simp only [this]
  have hrows : ∀ y ∈ basis [M.small.mults], ∀ y' ∈ basis [M.small.mults],
      ((basis [d.mults]).map fun x => entry (svdApplyMask U D V M).2.2 y x *
        star (entry (svdApplyMask U D V M).2.2 y' x)).sum = if y = y' then 1 else 0 := by
    intro y hy y' hy'
    obtain ⟨z, hz, hzm⟩ := maskRel_exists m1 hy
    obtain ⟨z', hz', hzm'⟩ := maskRel_exists m1 hy'
    rw [sum_congr _ fun x hx => by rw [(a4 y z hz).2.2 x hx, (a4 y' z' hz').2.2 x hx],
      s6 z hzm z' hzm']
    have : y = y' ↔ z = z' := ⟨fun h => maskRel_fun m1 hz (h ▸ hz'), fun h => maskRel_inj m1 hz (h ▸ hz')⟩
    simp only [this]
  -- the dimension of the new leg
  have hsd : M.small.dim sym = mask.count true := by
    have e0 := sum_basis_one l.mults
      fun y => if mask.getD ((l.mults.take (y.1.getD 0 0)).sum + y.2.getD 0 0) false = true then 1 else 0
    simp only [List.getD_cons_zero] at e0
    rw [dim_eq hdim hone m1.small, count_eq_sum, hml, t1, ← sum_flat, ← e0]
    have e1 := mask_sum m1 (fun _ => (1 : ℕ)) (fun _ => 1) fun _ _ _ => rfl
    rw [sum_basis_one] at e1
    have e2 := sum_flat M.small.mults fun _ => (1 : ℕ)
    rw [e2] at e1
    simp only [List.map_const', List.length_range, List.sum_replicate, smul_eq_mul, mul_one] at e1
    rw [e1]
    refine sum_congr _ fun y hy => ?_
    have := hkept y hy
    unfold Kept at this
    simp only [← this]
  -- weights
  have htot : err + nn = 1 := by
    rw [herr, hnn, ← sum_add]
    rw [sum_congr _ (g := fun y => ‖Dy y‖ ^ 2 / N ^ 2) fun y _ => by split_ifs <;> simp]
    have : ((basis [l.mults]).map fun y => ‖Dy y‖ ^ 2 / N ^ 2).sum =
        ((basis [l.mults]).map fun y => ‖Dy y‖ ^ 2).sum / N ^ 2 := by
      simp only [div_eq_mul_inv]
      rw [sum_mul]
    rw [this, ← diagNorm_sq D s2]
    exact div_self (pow_ne_zero 2 hN0)
  have herr0 : 0 ≤ err := by
    rw [herr]
    exact List.sum_nonneg fun a ha => by
      obtain ⟨i, -, rfl⟩ := List.mem_map.1 ha
      split_ifs <;> positivity
  have hnn0 : 0 < nn := by
    by_contra hcon
    obtain ⟨i, hi, hki⟩ := hex
    have hw : ∀ i, 0 ≤ weight L none i := fun i => by unfold weight; positivity
    have hz : ∀ i < L.length, Kept mask i → weight L none i = 0 := by
      intro j hj hkj
      refine le_antisymm (le_trans ?_ (not_lt.1 hcon)) (hw j)
      rw [hnn']
      refine List.single_le_sum (fun a ha => ?_) _ (List.mem_map.2 ⟨j, List.mem_filter.2
        ⟨List.mem_range.2 hj, by simpa using hkj⟩, rfl⟩)
      obtain ⟨i, -, rfl⟩ := List.mem_map.1 ha
      exact hw i
    have hall : err = 0 := by
      rw [herr']
      refine sum_zero _ _ fun j hj => ?_
      obtain ⟨h1, h2⟩ := List.mem_filter.1 hj
      have h1' := List.mem_range.1 h1
      exact le_antisymm ((hord i hi j h1' hki (by simpa using h2)).trans_eq (hz i hi hki)) (hw j)
    have : nn ≤ 0 := not_lt.1 hcon
    linarith
  -- the product
  have hprod : ∀ x ∈ basis [c.mults], ∀ z ∈ basis [d.mults],
      ((basis [M.small.mults]).map fun y => entry (svdApplyMask U D V M).1 x y *
        diagEntry (svdApplyMask U D V M).2.1 (y.1.getD 0 0) (y.2.getD 0 0) *
        entry (svdApplyMask U D V M).2.2 y z).sum =
      ((basis [l.mults]).map fun y => if diagEntry M.ents (y.1.getD 0 0) (y.2.getD 0 0) = true then
        entry U x y * Dy y * entry V y z else 0).sum := by
    intro x hx z hz
    refine mask_sum m1 _ (fun y => entry U x y * Dy y * entry V y z) fun y y' hr => ?_
    obtain ⟨b1, b2, b3⟩ := a4 y y' hr
    rw [b1 x hx, b2, b3 z hz]
  have herrT : frobSq c d (fun x z => entry T x z -
      ((basis [M.small.mults]).map fun y => entry (svdApplyMask U D V M).1 x y *
        diagEntry (svdApplyMask U D V M).2.1 (y.1.getD 0 0) (y.2.getD 0 0) *
        entry (svdApplyMask U D V M).2.2 y z).sum) = err * frobSq c d (fun x z => entry T x z) := by
    rw [← hN2, herr, sum_mul]
    have e1 := frob (basis [c.mults]) (basis [l.mults]) (basis [d.mults]) (C34_basis_nodup _) (entry U)
      (entry V) (fun y => if diagEntry M.ents (y.1.getD 0 0) (y.2.getD 0 0) = true then 0 else Dy y) s5 s6
    have e2 : frobSq c d (fun x z => entry T x z -
      ((basis [M.small.mults]).map fun y => entry (svdApplyMask U D V M).1 x y *
        diagEntry (svdApplyMask U D V M).2.1 (y.1.getD 0 0) (y.2.getD 0 0) *
        entry (svdApplyMask U D V M).2.2 y z).sum) = ((basis [l.mults]).map fun y =>
          ‖if diagEntry M.ents (y.1.getD 0 0) (y.2.getD 0 0) = true then 0 else Dy y‖ ^ 2).sum := by
      rw [← e1]
      unfold frobSq
      refine sum_congr _ fun x hx => sum_congr _ fun z hz => ?_
      dsimp only
      rw [hprod x hx z hz, s4 x hx z hz]
      have : ∀ A B C : ℂ, A = B + C → A - B = C := fun A B C h => by rw [h]; ring
      rw [this _ _ ((basis [l.mults]).map fun y => entry U x y *
        (if diagEntry M.ents (y.1.getD 0 0) (y.2.getD 0 0) = true then 0 else Dy y) * entry V y z).sum]
      rw [← sum_add]
      refine sum_congr _ fun y _ => ?_
      split_ifs <;> simp [hDy]
    rw [e2]
    refine sum_congr _ fun y hy => ?_
    simp only [hkept y hy]
    split_ifs
    · simp
    · field_simp
  have hsel' : truncateSingularValues argsort lg sym l
      (elementwiseUnary l.mults (List.map fun s : ℂ => s.re / N) false D) o = some (M, err, nn) := by
    unfold truncateSingularValues
    rw [← hL, hsel]
    rfl
  rw [hsel']
  have hpos' : 0 < M.small.dim sym := by
    rw [hsd, List.count_pos_iff]
    obtain ⟨i, hi, hki⟩ := hex
    unfold Kept at hki
    rw [List.getD_eq_getElem _ _ (by rw [hml]; exact hi)] at hki
    rw [← hki]
    exact List.getElem_mem _
  have hchi' : ∀ chi, o.chiMax = some chi → (M.small.dim sym : ℤ) ≤ chi := by
    intro chi h
    rw [hsd]; exact hcnt chi h
  cases normalizeTo with
  | none =>
    refine ⟨_, rfl, m1.small, a1, a2, a3, hcols, hrows, hpos', hchi', one_ne_zero, herr0, by
      show err < 1; linarith, ?_⟩
    rw [← herrT]
    unfold usv
    simp
  | some v =>
    have hr : (v / N / nn : ℝ) ≠ 0 := div_ne_zero (div_ne_zero (hx v rfl) hN0) hnn0.ne'
    obtain ⟨r1, r2⟩ := C36_unary M.small.mults (fun s : ℂ => s * ((v / N / nn : ℝ) : ℂ)) false (by simp)
      _ a2
    refine ⟨_, rfl, m1.small, a1, r1, a3, hcols, hrows, hpos', hchi', hr, herr0, by
      show err < 1; linarith, ?_⟩
    rw [← herrT]
    unfold frobSq
    refine sum_congr _ fun x hx => sum_congr _ fun z hz => ?_
    have hq : ∀ A B B' : ℂ, B = B' → ‖A - B‖ ^ 2 = ‖A - B'‖ ^ 2 := fun A B B' h => by rw [h]
    refine hq _ _ _ ?_
    unfold usv
    dsimp only
    rw [div_eq_iff (by exact_mod_cast hr), sum_mul]
    refine sum_congr _ fun y hy => ?_
    obtain ⟨b, w, hbw, rfl⟩ := mem_basis_one.1 hy
    have := r2 b w hbw
    simp only [List.getD_cons_zero]
    rw [this]
    ring

/-- **C83**: the relative error in the 2-norm is the square root of `err`. -/
theorem C83_relative_error (normalizeTo : Option ℝ) (hx : ∀ x, normalizeTo = some x → x ≠ 0)
    (W : TruncSvd S) (hW : Abelian.truncatedSvd argsort lg sym c d l f T o normalizeTo = some W) :
    Real.sqrt (frobSq c d fun x z => entry T x z - usv W x z / W.renormalize) /
      Real.sqrt (frobSq c d fun x z => entry T x z) = Real.sqrt W.err := by
  obtain ⟨W', h1, -, -, -, -, -, -, -, -, -, h2, h3, h4⟩ := C83_truncated_svd R hdim hone hdrop hc hd hinj hN
    hT hnz f hf hreal ha lg o hchi normalizeTo hx
  rw [hW] at h1
  cases h1
  have hpos := frobSq_pos hnz
  rw [h4, Real.sqrt_mul h2, mul_div_assoc, div_self (Real.sqrt_pos.2 hpos).ne', mul_one]

/-- **C83** (defect): the documented meaning of `err`, the relative error
`norm(tensor - U S Vh / renormalize) / norm(tensor)` in the 2-norm, is met exactly if the error is
zero. -/
theorem C83_documented_error_iff (normalizeTo : Option ℝ) (hx : ∀ x, normalizeTo = some x → x ≠ 0)
    (W : TruncSvd S) (hW : Abelian.truncatedSvd argsort lg sym c d l f T o normalizeTo = some W) :
    W.err = Real.sqrt (frobSq c d fun x z => entry T x z - usv W x z / W.renormalize) /
      Real.sqrt (frobSq c d fun x z => entry T x z) ↔ W.err = 0 := by
  rw [C83_relative_error R hdim hone hdrop hc hd hinj hN hT hnz f hf hreal ha lg o hchi normalizeTo hx W
    hW]
  obtain ⟨W', h1, -, -, -, -, -, -, -, -, -, h2, h3, -⟩ := C83_truncated_svd R hdim hone hdrop hc hd hinj hN
    hT hnz f hf hreal ha lg o hchi normalizeTo hx
  rw [hW] at h1
  cases h1
  constructor
  · intro h
    have h5 : W.err * W.err = W.err := by
      nth_rewrite 3 [← Real.mul_self_sqrt h2]
      rw [← h]
    have h6 : W.err * (W.err - 1) = 0 := by linarith
    rcases mul_eq_zero.1 h6 with h7 | h7
    · exact h7
    · linarith
  · intro h
    rw [h]; simp

end Main

/-! ## A concrete case -/

section Example

/-- The 2 × 2 matrix with the rows `[a, b]` and `[c, d]`. -/
def mat2 (a b c d : ℂ) : Blk ℂ :=
  ⟨[2, 2], fun i => if i = [0, 0] then a else if i = [0, 1] then b else if i = [1, 0] then c
    else if i = [1, 1] then d else 0⟩

/-- One block for the charge 1, with the singular values 4 and 3. -/
def truncT : Ents ℂ := [([1, 0], mat2 0 4 3 0)]

/-- The singular value decomposition of this block. -/
def truncF (_ : Blk ℂ) : Blk ℂ × List ℂ × Blk ℂ := (mat2 1 0 0 1, [4, 3], mat2 0 1 1 0)

/-- `chi_max = 1` and no other constraint. -/
def truncOpts : Opts ℝ := ⟨some 1, 1, 0, 0, none, false⟩

theorem truncT_isHom : IsHom intRule [toBLeg exU1 decC] [toBLeg exU1 decD] truncT := by
  refine ⟨Example.sane_of_saneB (by rfl), ?_⟩
  intro p hp
  rw [List.mem_singleton.1 hp]
  rfl

theorem truncF_svd : ∀ p ∈ truncT, ∀ m n, p.2.shape = [m, n] →
    IsSVD m n p.2 (truncF p.2).1 (truncF p.2).2.1 (truncF p.2).2.2 := by
  intro p hp m n h
  rw [List.mem_singleton.1 hp] at h ⊢
  injection h with h1 h2
  injection h2 with h2 _
  subst h1 h2
  refine ⟨rfl, rfl, rfl, ?_, ?_, ?_⟩
  · intro x hx y hy
    interval_cases x <;> interval_cases y <;> simp [truncF, mat2, sumTo, List.range_succ]
  · intro x hx y hy
    have hx' : x < 2 := hx
    have hy' : y < 2 := hy
    interval_cases x <;> interval_cases y <;> simp [truncF, mat2, sumTo, List.range_succ]
  · intro x hx y hy
    have hx' : x < 2 := hx
    have hy' : y < 2 := hy
    interval_cases x <;> interval_cases y <;> simp [truncF, mat2, sumTo, List.range_succ]

theorem truncT_entry : entry truncT ([1], [0]) ([0], [0]) = 0 ∧ entry truncT ([1], [0]) ([0], [1]) = 4 ∧
    entry truncT ([1], [1]) ([0], [0]) = 3 := by
  simp [entry, dense, truncT, mat2]

/-- The new leg of this decomposition. -/
def truncLeg : ESpace ℤ := ⟨[-1, 0], [2, 1], true, none⟩

theorem truncLeg_new : IsNewLeg exU1 decC decD truncLeg := by
  have hn : newLeg exU1 decC decD true = some truncLeg := by decide +kernel
  have hinv : Function.Involutive exU1.dual := neg_neg
  obtain ⟨l, h1, -, h3, -⟩ := C48_new_leg exU1_ok hinv dec_valid.1 dec_valid.2 (by decide) (by decide)
    true
  rw [hn] at h1
  injection h1 with h1
  subst h1
  exact h3

theorem rank_one (u1 u2 s v1 v2 r : ℂ) (hr : r ≠ 0) (h1 : 0 - u1 * s * v1 / r = 0)
    (h2 : 4 - u1 * s * v2 / r = 0) (h3 : 3 - u2 * s * v1 / r = 0) : False := by
  have e : (12 : ℂ) = 0 := by
    have q1 : u1 * s * v1 / r = 0 := by linear_combination -h1
    have q2 : u1 * s * v2 / r = 4 := by linear_combination -h2
    have q3 : u2 * s * v1 / r = 3 := by linear_combination -h3
    calc (12 : ℂ) = (u1 * s * v2 / r) * (u2 * s * v1 / r) := by rw [q2, q3]; norm_num
      _ = (u1 * s * v1 / r) * (u2 * s * v2 / r) := by ring
      _ = 0 := by rw [q1, zero_mul]
  norm_num at e

/-- **C83** (defect): the documented meaning of `err` is wrong: for the tensor with the singular values
4 and 3 and `chi_max = 1`, the relative error in the 2-norm is not `err`.  This tensor meets the hypotheses
of the theorems above. -/
theorem C83_documented_error_false : ∃ W, Abelian.truncatedSvd stableArgsort id exU1 decC decD truncLeg
      truncF truncT truncOpts none = some W ∧ W.leg.dim exU1 = 1 ∧
    W.err ≠ Real.sqrt (frobSq decC decD fun x z => entry truncT x z - usv W x z / W.renormalize) /
      Real.sqrt (frobSq decC decD fun x z => entry truncT x z) := by
  have hinv : Function.Involutive exU1.dual := neg_neg
  obtain ⟨e1, e2, e3⟩ := truncT_entry
  have b1 : (([1], [0]) : List ℕ × List ℕ) ∈ basis [decC.mults] := mem_basis_one.2 ⟨1, 0, by
    unfold IsDiagIndex; decide, rfl⟩
  have b2 : (([1], [1]) : List ℕ × List ℕ) ∈ basis [decC.mults] := mem_basis_one.2 ⟨1, 1, by
    unfold IsDiagIndex; decide, rfl⟩
  have b3 : (([0], [0]) : List ℕ × List ℕ) ∈ basis [decD.mults] := mem_basis_one.2 ⟨0, 0, by
    unfold IsDiagIndex; decide, rfl⟩
  have b4 : (([0], [1]) : List ℕ × List ℕ) ∈ basis [decD.mults] := mem_basis_one.2 ⟨0, 1, by
    unfold IsDiagIndex; decide, rfl⟩
  have hnz : ∃ x ∈ basis [decC.mults], ∃ z ∈ basis [decD.mults], entry truncT x z ≠ 0 :=
    ⟨_, b1, _, b4, by rw [e2]; norm_num⟩
  have hreal : ∀ p ∈ truncT, ∀ s ∈ (truncF p.2).2.1, s.im = 0 := by
    intro p _ s hs
    simp only [truncF, List.mem_cons, List.not_mem_nil, or_false] at hs
    rcases hs with rfl | rfl <;> rfl
  have hchi : ∀ chi, truncOpts.chiMax = some chi → 1 ≤ chi := by
    intro chi h
    simp only [truncOpts, Option.some.injEq] at h
    omega
  obtain ⟨W, hW, h0, h1, h2, h3, h4, h5, h6, h7, h8, h9, h10, h11⟩ := C83_truncated_svd intRule exU1_ok
    (fun _ => rfl) rfl dec_valid.1 dec_valid.2 hinv.injective truncLeg_new truncT_isHom hnz truncF
    truncF_svd hreal stableArgsort_isArgsort id truncOpts hchi none (by simp)
  have hdim : W.leg.dim exU1 = 1 := by
    have := h7 1 rfl
    omega
  refine ⟨W, hW, hdim, fun hcon => ?_⟩
  rw [C83_documented_error_iff intRule exU1_ok
    (fun _ => rfl) rfl dec_valid.1 dec_valid.2 hinv.injective truncLeg_new truncT_isHom hnz truncF
    truncF_svd hreal stableArgsort_isArgsort id truncOpts hchi none (by simp) W hW] at hcon
  rw [hcon, zero_mul] at h11
  -- then the product is the tensor
  have hz : ∀ x ∈ basis [decC.mults], ∀ z ∈ basis [decD.mults],
      entry truncT x z - usv W x z / W.renormalize = 0 := by
    intro x hx z hz
    have hle : ‖entry truncT x z - usv W x z / W.renormalize‖ ^ 2 ≤ 0 := by
      rw [← h11]
      unfold frobSq
      refine le_trans ?_ (List.single_le_sum (fun a ha => ?_) _ (List.mem_map.2 ⟨x, hx, rfl⟩))
      · exact List.single_le_sum (fun a ha => by
          obtain ⟨i, -, rfl⟩ := List.mem_map.1 ha; positivity) _ (List.mem_map.2 ⟨z, hz, rfl⟩)
      · obtain ⟨i, -, rfl⟩ := List.mem_map.1 ha
        exact List.sum_nonneg fun a ha => by
          obtain ⟨i, -, rfl⟩ := List.mem_map.1 ha; positivity
    have := le_antisymm hle (by positivity)
    simpa using this
  -- but it has rank one
  have hlen : (basis [W.leg.mults]).length = 1 := by
    have hv : W.leg.mults.sum = 1 := by rw [← dim_eq exU1_ok (fun _ => rfl) h0, hdim]
    have := sum_basis_one W.leg.mults fun _ => (1 : ℕ)
    rw [sum_flat W.leg.mults fun _ => (1 : ℕ)] at this
    simp only [List.map_const', List.sum_replicate, smul_eq_mul, mul_one, List.length_range] at this
    omega
  obtain ⟨y, hy⟩ := List.length_eq_one_iff.1 hlen
  unfold usv at hz
  rw [hy] at hz
  simp only [List.map_cons, List.map_nil, List.sum_cons, List.sum_nil, add_zero] at hz
  have g1 := hz _ b1 _ b3
  have g2 := hz _ b1 _ b4
  have g3 := hz _ b2 _ b3
  rw [e1] at g1
  rw [e2] at g2
  rw [e3] at g3
  have hr : (W.renormalize : ℂ) ≠ 0 := by exact_mod_cast h8
  exact rank_one _ _ _ _ _ _ hr g1 g2 g3

end Example

end Cyten.Props
