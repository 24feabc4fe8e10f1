import Verif.Props.Charged2

/-!
# C84: inner products of charged tensors
-/

namespace Cyten.Props
open Cyten.Abelian Cyten.Abelian.Spec Cyten.Tables Cyten.Tools Cyten.ListSum Cyten.Spaces
open Cyten.FusionTrees

theorem alg_both {Z Y W : Type} (lz : List Z) (ly : List Y) (lw : List W) (F : Z → Y → ℂ) (G : Y → W → ℂ)
    (a : Z → ℂ) (g : W → ℂ) :
    (lz.map fun z => a z * (lw.map fun w => (ly.map fun y => F z y * G y w).sum * g w).sum).sum =
      (ly.map fun y => (lz.map fun z => F z y * a z).sum * (lw.map fun w => G y w * g w).sum).sum := by
  simp only [mul_sum, sum_mul]
  rw [sum_comm ly lw]
  rw [sum_comm lz lw]
  refine sum_congr _ fun w _ => ?_
  rw [sum_comm ly lz]
  refine sum_congr _ fun z _ => ?_
  refine sum_congr _ fun y _ => ?_
  ring

theorem alg_right {Y W : Type} (ly : List Y) (lw : List W) (F : Y → ℂ) (G : Y → W → ℂ) (g : W → ℂ) :
    (lw.map fun w => (ly.map fun y => F y * G y w).sum * g w).sum =
      (ly.map fun y => F y * (lw.map fun w => G y w * g w).sum).sum := by
  simp only [mul_sum, sum_mul]
  rw [sum_comm ly lw]
  refine sum_congr _ fun w _ => ?_
  refine sum_congr _ fun y _ => ?_
  ring

theorem star_sum {Z : Type} (l : List Z) (f : Z → ℂ) : star (l.map f).sum = (l.map fun z => star (f z)).sum := by
  induction l with
  | nil => simp
  | cons x l ih => rw [List.map_cons, List.sum_cons, star_add, ih, List.map_cons, List.sum_cons]

variable {S : Type} [LinearOrder S] [AddCommGroup S] {sym : Sym S} {R : Cyten.FusionRule S}

theorem legsOK_toBLeg {legs : List (ESpace S)} (h : ∀ e ∈ legs, ValidSpace sym e) :
    LegsOK (legs.map (toBLeg sym)) := by
  intro l hl
  obtain ⟨e, he, rfl⟩ := List.mem_map.1 hl
  exact sectors_length (h e he)

theorem Charged.inv_valid {t : Charged S} (h : Charged.Valid sym R t) : (t.inv sym).Valid R := by
  refine ⟨h.hom, ?_⟩
  show LegsOK (coDomainLegs (t.cod.map _) ((t.charge :: t.dom).map _))
  unfold coDomainLegs
  rw [← List.map_reverse, ← List.map_append]
  exact legsOK_toBLeg h.legs.valid

theorem daggerSym_valid {t : STensor S ℂ} (h : t.Valid R) : (Charged.daggerSym t).Valid R := by
  refine ⟨C34_isHom_dagger R _ _ _ h.hom, ?_⟩
  intro l hl
  refine h.legs l ?_
  show l ∈ t.cod ++ t.dom.reverse
  have : l ∈ t.dom ++ t.cod.reverse := hl
  simp only [List.mem_append, List.mem_reverse] at this ⊢
  exact this.symm

theorem inv_mults (t : Charged S) : (t.inv sym).mults = legMults t.legs ++ [t.charge.mults] := by
  show multsOf (coDomainLegs (t.cod.map _) ((t.charge :: t.dom).map _)) = _
  unfold coDomainLegs
  rw [← List.map_reverse, ← List.map_append, multsOf_toBLeg,
    show t.cod ++ (t.charge :: t.dom).reverse = t.invLegs from rfl, Charged.invLegs_eq, legMults_append]
  rfl

theorem dagger_inv_mults (t : Charged S) : (Charged.daggerSym (t.inv sym)).mults =
    [t.charge.mults] ++ (legMults t.legs).reverse := by
  show multsOf (coDomainLegs ((t.charge :: t.dom).map _) (t.cod.map _)) = _
  unfold coDomainLegs
  rw [← List.map_reverse, ← List.map_append, multsOf_toBLeg]
  unfold Charged.legs legMults
  simp

theorem inv_numLegs (t : Charged S) : (t.inv sym).numLegs = (legMults t.legs).length + 1 := by
  unfold STensor.numLegs Charged.inv legMults Charged.legs
  simp
  omega

theorem length_legMults (l : List (ESpace S)) : (legMults l).length = l.length := List.length_map _

theorem asDomainLeg_last (t : Charged S) : asDomainLeg sym.dual (t.inv sym).cod (t.inv sym).dom
    (legMults t.legs).length = toBLeg sym t.charge := by
  unfold asDomainLeg coDomainLegs Charged.inv
  dsimp only
  rw [length_legMults, if_neg (by unfold Charged.legs; simp)]
  rw [← List.map_reverse, ← List.map_append, show t.cod ++ (t.charge :: t.dom).reverse = t.invLegs from rfl,
    Charged.invLegs_eq, List.map_append, List.getD_eq_getElem?_getD, List.getElem?_append_right (by simp)]
  simp

/-- **C84**: `inner(A, B)` of charged tensors is the sum over all indices of the products of the entries of the
dense tensors, with those of the first one conjugated. -/
theorem C84_inner (hG : GroupRule R sym.dual) (A B : Charged S) (hA : Charged.Valid sym R A)
    (hB : Charged.Valid sym R B) (DA DB : Blk ℂ) (hDA : A.toDense sym = some DA) (hDB : B.toDense sym = some DB)
    (x : ℂ) (h : Charged.inner sym R A B = some x) :
    x = ((indices sym A.legs).map fun idx => star (DA.val idx) * DB.val idx).sum := by
  obtain ⟨sa, ha⟩ := toDense_state hDA
  obtain ⟨sb, hb⟩ := toDense_state hDB
  unfold Charged.inner at h
  by_cases hs : Charged.sameSpaces sym A B = true
  swap
  · rw [if_pos (by simpa using hs)] at h; cases h
  rw [if_neg (by simpa using hs), ha, hb, Option.bind_some, Option.bind_some] at h
  have hsl := same_legs hs
  have hM : legMults A.legs = legMults B.legs := SameLegs.legMults hsl
  obtain ⟨res, hres, hx⟩ := Option.map_eq_some_iff.1 h
  have hAv : (Charged.daggerSym (A.inv sym)).Valid R := daggerSym_valid (Charged.inv_valid hA)
  have hBv := Charged.inv_valid hB
  have hn : A.legs.length = (legMults A.legs).length := (length_legMults _).symm
  rw [hn] at hres
  have hna : (Charged.daggerSym (A.inv sym)).numLegs = (legMults A.legs).length + 1 := by
    rw [← inv_numLegs (sym := sym)]
    exact Nat.add_comm _ _
  have hnb : (B.inv sym).numLegs = (legMults A.legs).length + 1 := by rw [hM]; exact inv_numLegs B
  have o1 : otherLegs (Charged.daggerSym (A.inv sym)).numLegs (List.range' 1 (legMults A.legs).length).reverse = [0] := by
    rw [hna]; exact otherLegs_first _ _ fun i => by simp; omega
  have o2 : otherLegs (B.inv sym).numLegs (List.range (legMults A.legs).length) = [(legMults A.legs).length] := by
    rw [hnb]; exact otherLegs_last _ _ fun i => by simp
  have hhom := C56_tdot_isHom hG _ _ hAv hBv _ _ res hres
  rw [o1, o2] at hhom
  have hval := fun ra pa rb pb => tdot_charge_both hG _ _ hAv hBv (legMults A.legs) A.charge.mults B.charge.mults
    (dagger_inv_mults A) (by rw [inv_mults, hM]) hna hnb res hres ra pa rb pb
  cases res with
  | scalar y => exact absurd hhom.1 (by simp)
  | tensor t =>
    obtain ⟨hc, hd, hh, -⟩ := hhom
    have hc' : t.cod = [toBLeg sym A.charge] := by
      rw [hc]
      show [asCodomainLeg sym.dual ((A.charge :: A.dom).map (toBLeg sym)) (A.cod.map (toBLeg sym)) 0] = _
      simp [asCodomainLeg, coDomainLegs]
    have hd' : t.dom = [toBLeg sym B.charge] := by
      rw [hd, hM, List.reverse_singleton, List.map_cons, asDomainLeg_last]
      rfl
    have hsane : Sane (legMults [A.charge, B.charge]) t.data := by
      have := hh.sane
      rw [hc', hd'] at this
      exact this
    have okA := Charged.denseOK hA
    have okB := Charged.denseOK hB
    have okAB : DenseOK sym [A.charge, B.charge] :=
      ⟨okA.dims, okA.one, okA.drop, fun e he => by
        rcases List.mem_cons.1 he with rfl | he
        · exact okA.valid _ (by simp)
        · rw [List.mem_singleton] at he
          subst he
          exact okB.valid _ (by simp)⟩
    have okA1 : DenseOK sym [A.charge] := denseOK_right okA
    have okB1 : DenseOK sym [B.charge] := denseOK_right okB
    obtain ⟨gA, hgA⟩ := exists_basis_state okA1 sa
    obtain ⟨gB, hgB⟩ := exists_basis_state okB1 sb
    obtain ⟨tsh, tval⟩ := C35_to_dense sym _ okAB t.data hsane
    have hsh : (Charged.denseRes sym [A.charge, B.charge] (.tensor t)).shape =
        [A.charge.dim sym] ++ [B.charge.dim sym] := tsh
    rw [← hx]
    dsimp only
    rw [contractLast_shape _ _ _ hsh]
    have i1 : ∀ z ∈ basis [A.charge.mults], ∀ w ∈ basis [B.charge.mults],
        dense t.data (z.1 ++ w.1) (z.2 ++ w.2) = ((basis (legMults A.legs)).map fun y =>
          star (dense A.data (y.1 ++ z.1) (y.2 ++ z.2)) * dense B.data (y.1 ++ w.1) (y.2 ++ w.2)).sum := by
      intro z hz w hw
      have lz := (C34_basis _ _ _).1 hz
      rw [show dense t.data (z.1 ++ w.1) (z.2 ++ w.2) = value (Res.tensor t) (z.1 ++ w.1) (z.2 ++ w.2) from rfl,
        hval _ _ _ _ lz ((C34_basis _ _ _).1 hw)]
      refine sum_congr _ fun y hy => ?_
      have ly := index_lengths ((C34_basis _ _ _).1 hy)
      have lz' := index_lengths lz
      have hsA := Charged.sane hA
      rw [Charged.invLegs_eq, legMults_append] at hsA
      congr 1
      show dense (Abelian.dagger A.data) _ _ = _
      rw [C34_dagger _ _ hsA _ _ (by
          rw [List.length_append, List.length_append, List.length_reverse, lz'.1, ly.1]; exact Nat.add_comm _ _) (by
          rw [List.length_append, List.length_append, List.length_reverse, lz'.2, ly.2]; exact Nat.add_comm _ _)]
      have r1 : z.1.reverse = z.1 := by obtain ⟨q, hq⟩ := List.length_eq_one_iff.1 lz'.1; rw [hq]; rfl
      have r2 : z.2.reverse = z.2 := by obtain ⟨q, hq⟩ := List.length_eq_one_iff.1 lz'.2; rw [hq]; rfl
      simp only [List.reverse_append, List.reverse_reverse, r1, r2]
    have e1 : ((List.range (A.charge.dim sym)).map fun k => star (sa.getD k 0) *
        (Charged.contractLast (Charged.denseRes sym [A.charge, B.charge] (.tensor t)) sb).val [k]).sum =
        ((basis [A.charge.mults]).map fun z => star (gA z) * ((basis [B.charge.mults]).map fun w =>
          dense t.data (z.1 ++ w.1) (z.2 ++ w.2) * gB w).sum).sum := by
      refine sum_public_one okA1 _ _ fun k b o hp => ?_
      rw [hgA k b o hp, contractLast_val _ _ _ hsh]
      congr 1
      refine sum_public_one okB1 _ _ fun n b' o' hp' => ?_
      rw [hgB n b' o' hp']
      congr 1
      exact tval [k, n] [b, b'] [o, o'] ⟨hp, hp', trivial⟩
    have e2 : ((indices sym A.legs).map fun idx => star (DA.val idx) * DB.val idx).sum =
        ((basis (legMults A.legs)).map fun y => ((basis [A.charge.mults]).map fun z =>
          star (dense A.data (y.1 ++ z.1) (y.2 ++ z.2)) * star (gA z)).sum * ((basis [B.charge.mults]).map fun w =>
            dense B.data (y.1 ++ w.1) (y.2 ++ w.2) * gB w).sum).sum := by
      refine sum_public (denseOK_left okA) _ (fun r p => ((basis [A.charge.mults]).map fun z =>
          star (dense A.data (r ++ z.1) (p ++ z.2)) * star (gA z)).sum * ((basis [B.charge.mults]).map fun w =>
            dense B.data (r ++ w.1) (p ++ w.2) * gB w).sum) fun idx row pos hl _ => ?_
      rw [Charged.dense_val hA ha hDA gA hgA idx row pos hl,
        Charged.dense_val hB hb hDB gB hgB idx row pos (located_congr hsl hl), star_sum]
      congr 1
      refine sum_congr _ fun z _ => ?_
      rw [star_mul']
    rw [List.headD_cons, e1, e2, ← alg_both (basis [A.charge.mults]) (basis (legMults A.legs)) (basis [B.charge.mults])
      (fun z y => star (dense A.data (y.1 ++ z.1) (y.2 ++ z.2))) (fun y w => dense B.data (y.1 ++ w.1) (y.2 ++ w.2))
      (fun z => star (gA z)) gB]
    refine sum_congr _ fun z hz => ?_
    congr 1
    refine sum_congr _ fun w hw => ?_
    rw [i1 z hz w hw]


theorem list_getD_reverse {α : Type} (l : List α) (i : ℕ) (d : α) (hi : i < l.length) :
    l.reverse.getD (l.length - 1 - i) d = l.getD i d := by
  rw [List.getD_eq_getElem?_getD, List.getD_eq_getElem?_getD, List.getElem?_reverse (by omega)]
  congr 2
  omega

/-- **C84**: `inner` raises only if the spaces differ, a state is missing, or the strides of the sector numbers
overflow. -/
theorem C84_inner_defined (hG : GroupRule R sym.dual) (A B : Charged S) (h1 : SameLegs sym A.cod B.cod)
    (h2 : SameLegs sym A.dom B.dom) (hA : A.state ≠ none) (hB : B.state ≠ none)
    (hs : (makeStridePy (A.legs.map fun e => (e.sectors sym).length) false).isSome = true)
    (hs' : (makeStridePy (A.legs.reverse.map fun e => (e.sectors sym).length) false).isSome = true) :
    ∃ x, Charged.inner sym R A B = some x := by
  obtain ⟨sa, ha⟩ := Option.ne_none_iff_exists'.1 hA
  obtain ⟨sb, hb⟩ := Option.ne_none_iff_exists'.1 hB
  have hB' : B.inv sym = ⟨A.cod.map (toBLeg sym), toBLeg sym B.charge :: A.dom.map (toBLeg sym), B.data⟩ := by
    unfold Charged.inv
    rw [List.map_cons, SameLegs.toBLeg h1, SameLegs.toBLeg h2]
  have hdual : Function.Involutive sym.dual := fun x => by rw [hG.dual, hG.dual, neg_neg]
  set L := A.legs.map (toBLeg sym) with hL
  have hLlen : L.length = A.cod.length + A.dom.length := by rw [hL]; unfold Charged.legs; simp
  have hcodb : ∀ i, i < L.length → asCodomainLeg sym.dual (B.inv sym).cod (B.inv sym).dom i =
      if i < A.cod.length then L.getD i ⟨[], []⟩ else (L.getD i ⟨[], []⟩).dual sym.dual := by
    intro i hi
    unfold asCodomainLeg coDomainLegs
    rw [hB']
    dsimp only
    rw [List.length_map, show A.cod.map (toBLeg sym) ++ (toBLeg sym B.charge :: A.dom.map (toBLeg sym)).reverse =
      L ++ [toBLeg sym B.charge] from by rw [hL]; unfold Charged.legs; simp]
    rw [List.getD_append _ _ _ _ hi]
  have hsec : ∀ i, i < L.length → (asCodomainLeg sym.dual (B.inv sym).cod (B.inv sym).dom i).sectors.length =
      (L.getD i ⟨[], []⟩).sectors.length := by
    intro i hi
    rw [hcodb i hi]
    split
    · rfl
    · simp [BLeg.dual]
  have hLs : ∀ (f : BLeg S → ℕ), (List.range L.length).map (fun i => f (L.getD i ⟨[], []⟩)) = L.map f := by
    intro f
    refine List.ext_getElem (by simp) fun i h3 h4 => ?_
    simp only [List.getElem_map, List.getElem_range]
    rw [List.getD_eq_getElem _ _ (by simpa using h3)]
  have hargs : TdotArgs sym.dual (Charged.daggerSym (A.inv sym)) (B.inv sym)
      (List.range' 1 A.legs.length).reverse (List.range A.legs.length) := by
    have hlen : A.legs.length = L.length := by rw [hL, List.length_map]
    refine ⟨?_, List.nodup_range, ?_, ?_, ?_⟩
    · exact List.nodup_reverse.2 List.nodup_range'
    · intro n hn
      have : 1 ≤ n ∧ n < 1 + A.legs.length := by simpa using hn
      rw [hlen, hLlen] at this
      show n < ((A.charge :: A.dom).map (toBLeg sym)).length + (A.cod.map (toBLeg sym)).length
      simp
      omega
    · intro n hn
      have : n < A.legs.length := by simpa using hn
      rw [hB']
      show n < (A.cod.map (toBLeg sym)).length + (toBLeg sym B.charge :: A.dom.map (toBLeg sym)).length
      simp
      omega
    · rw [List.reverse_range', List.map_map]
      refine List.map_congr_left fun i hi => ?_
      have hi' : i < L.length := by rw [← hlen]; exact List.mem_range.1 hi
      rw [hcodb i hi']
      have e : 1 + A.legs.length - 1 - i = (L ++ [toBLeg sym A.charge]).length - 1 - i := by
        rw [List.length_append, List.length_singleton, hlen]; omega
      show asDomainLeg sym.dual ((A.charge :: A.dom).map (toBLeg sym)) (A.cod.map (toBLeg sym))
        (1 + A.legs.length - 1 - i) = _
      rw [e]
      unfold asDomainLeg coDomainLegs
      rw [show (A.charge :: A.dom).map (toBLeg sym) ++ (A.cod.map (toBLeg sym)).reverse =
        (L ++ [toBLeg sym A.charge]).reverse from by rw [hL]; unfold Charged.legs; simp]
      dsimp only
      rw [list_getD_reverse _ _ _ (by simp; omega), List.getD_append _ _ _ _ hi']
      have hc : ((L ++ [toBLeg sym A.charge]).length - 1 - i <
          ((A.charge :: A.dom).map (toBLeg sym)).length) ↔ ¬ i < A.cod.length := by
        have e1 : (L ++ [toBLeg sym A.charge]).length = L.length + 1 := by simp
        have e2 : ((A.charge :: A.dom).map (toBLeg sym)).length = A.dom.length + 1 := by simp
        rw [e1, e2]
        omega
      by_cases hc' : i < A.cod.length
      · rw [if_pos hc', if_neg (by rw [hc]; simpa using hc')]
      · rw [if_neg hc', if_pos (hc.2 hc')]
  have hlen : A.legs.length = L.length := by rw [hL, List.length_map]
  obtain ⟨res, hres⟩ := C56_tdot_defined (R := R) hG _ _ _ _ hargs (by
    have e : ((List.range A.legs.length).map fun n =>
        (asCodomainLeg sym.dual (B.inv sym).cod (B.inv sym).dom n).sectors.length) =
        A.legs.map fun e => (e.sectors sym).length := by
      rw [hlen, List.map_congr_left (g := fun i => (L.getD i ⟨[], []⟩).sectors.length)
        fun i hi => hsec i (List.mem_range.1 hi), hLs fun l => l.sectors.length, hL, List.map_map]
      rfl
    rw [e]; exact hs) (by
    have e : ((List.range A.legs.length).reverse.map fun n =>
        (asCodomainLeg sym.dual (B.inv sym).cod (B.inv sym).dom n).sectors.length) =
        A.legs.reverse.map fun e => (e.sectors sym).length := by
      rw [List.map_reverse, hlen, List.map_congr_left (g := fun i => (L.getD i ⟨[], []⟩).sectors.length)
        fun i hi => hsec i (List.mem_range.1 hi), hLs fun l => l.sectors.length, hL, List.map_map, List.map_reverse]
      rfl
    rw [e]; exact hs')
  unfold Charged.inner
  rw [if_neg (by
    unfold Charged.sameSpaces
    rw [(sameLegs_iff _ _).2 h1, (sameLegs_iff _ _).2 h2]
    simp), ha, hb, Option.bind_some, Option.bind_some]
  dsimp only
  rw [hres]
  exact ⟨_, rfl⟩

/-! ## A symmetric and a charged tensor -/

/-- A consistent symmetric tensor. -/
structure _root_.Cyten.Abelian.Spec.SymValid (sym : Sym S) (R : Cyten.FusionRule S) (A : GTensor S ℂ) : Prop where
  legs : DenseOK sym (A.cod ++ A.dom.reverse)
  hom : IsHom R (A.cod.map (toBLeg sym)) (A.dom.map (toBLeg sym)) A.data

/-- The contraction of all legs of a tensor with those of an invariant part. -/
theorem innerSym_aux (hG : GroupRule R sym.dual) (a : STensor S ℂ) (ha : a.Valid R) (B : Charged S)
    (hB : Charged.Valid sym R B) (ma : a.mults = (legMults B.legs).reverse)
    (na : a.numLegs = (legMults B.legs).length) (s : List ℂ) (res : Res S ℂ)
    (hres : tdot R sym.dual a (B.inv sym) (List.range (legMults B.legs).length)
      (List.range (legMults B.legs).length).reverse = some res) (g : List ℕ × List ℕ → ℂ)
    (hg : ∀ n b o, IsPosition sym B.charge n b o → g ([b], [o]) = s.getD n 0) :
    (Charged.contractLast (Charged.denseRes sym [B.charge] res) s).val [] =
      ((basis (legMults B.legs)).map fun y => dense a.data y.1.reverse y.2.reverse *
        ((basis [B.charge.mults]).map fun w => dense B.data (y.1 ++ w.1) (y.2 ++ w.2) * g w).sum).sum := by
  have hBv := Charged.inv_valid hB
  have nb := inv_numLegs (sym := sym) B
  have o1 : otherLegs a.numLegs (List.range (legMults B.legs).length) = [] := by
    rw [na]; exact otherLegs_of_all _ _ fun i hi => List.mem_range.2 hi
  have o2 : otherLegs (B.inv sym).numLegs (List.range (legMults B.legs).length).reverse =
      [(legMults B.legs).length] := by
    rw [nb]; exact otherLegs_last _ _ fun i => by simp
  have hhom := C56_tdot_isHom hG _ _ ha hBv _ _ res hres
  rw [o1, o2] at hhom
  have hval := fun rb pb => tdot_charge_right hG _ _ ha hBv (legMults B.legs) B.charge.mults ma
    (inv_mults B) na nb res hres rb pb
  cases res with
  | scalar y => exact absurd hhom.2 (by simp)
  | tensor t =>
    obtain ⟨hc, hd, hh, -⟩ := hhom
    have hd' : t.dom = [toBLeg sym B.charge] := by
      rw [hd, List.reverse_singleton, List.map_cons, asDomainLeg_last]
      rfl
    have hsane : Sane (legMults [B.charge]) t.data := by
      have := hh.sane
      rw [hc, hd'] at this
      exact this
    have ok1 : DenseOK sym [B.charge] := denseOK_right (Charged.denseOK hB)
    obtain ⟨tsh, tval⟩ := C35_to_dense sym _ ok1 t.data hsane
    have hsh : (Charged.denseRes sym [B.charge] (.tensor t)).shape = [] ++ [B.charge.dim sym] := tsh
    rw [contractLast_val _ _ _ hsh, ← alg_right (basis (legMults B.legs)) (basis [B.charge.mults])
      (fun y => dense a.data y.1.reverse y.2.reverse) (fun y w => dense B.data (y.1 ++ w.1) (y.2 ++ w.2)) g]
    rw [sum_public_one (f := fun w => dense t.data w.1 w.2 * g w) ok1 _ (by
      intro n b o hp
      rw [hg n b o hp]
      congr 1
      exact tval [n] [b] [o] ⟨hp, trivial⟩)]
    refine sum_congr _ fun w hw => ?_
    congr 1
    exact hval w.1 w.2 ((C34_basis _ _ _).1 hw)


/-- Only the trivial sector of the charge leg contributes. -/
theorem innerSym_zero (hG : GroupRule R sym.dual) (a : STensor S ℂ) (ha : a.Valid R) (B : Charged S)
    (hB : Charged.Valid sym R B) (hc : a.cod = B.dom.map (toBLeg sym)) (hd : a.dom = B.cod.map (toBLeg sym))
    (h0 : multWhere sym B.charge R.unit = 0) (y w : List ℕ × List ℕ) (hy : y ∈ basis (legMults B.legs))
    (hw : w ∈ basis [B.charge.mults]) :
    dense a.data y.1.reverse y.2.reverse * dense B.data (y.1 ++ w.1) (y.2 ++ w.2) = 0 := by
  by_cases m1 : ∃ p ∈ a.data, p.1 = y.1.reverse
  swap
  · push Not at m1
    rw [dense_of_not_mem m1, zero_mul]
  by_cases m2 : ∃ p ∈ B.data, p.1 = y.1 ++ w.1
  swap
  · push Not at m2
    rw [dense_of_not_mem m2, mul_zero]
  exfalso
  obtain ⟨p, hp, e1⟩ := m1
  obtain ⟨q, hq, e2⟩ := m2
  have ly := index_lengths ((C34_basis _ _ _).1 hy)
  obtain ⟨b, o, hbo, rfl⟩ := mem_basis_one.1 hw
  have hlenA : ∀ p ∈ a.data, p.1.length = a.cod.length + a.dom.length := by
    intro p hp
    have := (ha.hom.sane.inRange p hp).length
    simpa [multsOf] using this
  have hlenB : ∀ p ∈ B.data, p.1.length = (B.cod.map (toBLeg sym)).length +
      ((B.charge :: B.dom).map (toBLeg sym)).length := by
    intro p hp
    have := (hB.hom.sane.inRange p hp).length
    simpa [multsOf] using this
  have cA := (conserving_iff hG _ _ _ hlenA).1 ha.hom.charge p hp
  have cB := (conserving_iff hG _ _ _ hlenB).1 hB.hom.charge q hq
  rw [e1] at cA
  rw [e2] at cB
  set W := allLegs sym.dual (B.cod.map (toBLeg sym)) (B.dom.map (toBLeg sym)) with hW
  have hWl : W.length = y.1.length := by
    rw [ly.1, hW]
    unfold allLegs legMults Charged.legs
    simp
  have hA' : allLegs sym.dual a.cod a.dom = (W.map (BLeg.dual sym.dual)).reverse := by
    rw [hW, hc, hd]
    unfold allLegs
    rw [List.map_append, List.reverse_append, List.map_reverse, List.reverse_reverse]
    congr 1
    rw [List.map_map, List.map_congr_left (g := id), List.map_id]
    intro l _
    exact dual_dual hG l
  have hB' : allLegs sym.dual (B.cod.map (toBLeg sym)) ((B.charge :: B.dom).map (toBLeg sym)) =
      W ++ [(toBLeg sym B.charge).dual sym.dual] := by
    rw [hW]
    unfold allLegs
    simp
  rw [hA', rowCharge_reverse _ _ (by rw [List.length_map]; exact hWl), rowCharge_dual hG, neg_eq_zero] at cA
  rw [hB', rowCharge_append _ _ _ _ hWl, cA, zero_add,
    show [(toBLeg sym B.charge).dual sym.dual] = [toBLeg sym B.charge].map (BLeg.dual sym.dual) from rfl,
    rowCharge_dual hG, neg_eq_zero] at cB
  have hb : b < (B.charge.sectors sym).length := by
    rw [sectors_length (hB.legs.valid B.charge (by simp))]
    exact hbo.1
  have hsec : (B.charge.sectors sym)[b] = 0 := by
    have : rowCharge [toBLeg sym B.charge] [b] = (B.charge.sectors sym).getD b 0 := by
      simp [rowCharge, toBLeg]
    rw [this, List.getD_eq_getElem _ _ hb] at cB
    exact cB
  have hnd : (B.charge.sectors sym).Nodup :=
    Cyten.Abelian.sectors_nodup (fun x y h => by rw [hG.dual, hG.dual] at h; exact neg_injective h)
      (hB.legs.valid B.charge (by simp))
  have hfind : whereSector? sym B.charge R.unit = some b := by
    unfold whereSector?
    rw [List.findIdx?_eq_some_iff_getElem, hG.unit]
    refine ⟨hb, by simp [hsec], fun j hj => ?_⟩
    simp only [beq_iff_eq]
    intro hj'
    have := (List.Nodup.getElem_inj_iff hnd (hi := by omega) (hj := hb)).1 (hj'.trans hsec.symm)
    omega
  unfold multWhere at h0
  rw [hfind] at h0
  have := hbo.2
  dsimp only at h0
  omega

/-- Both branches of `inner` of a symmetric tensor `a` (or its dagger) and a charged tensor. -/
theorem innerSym_val (hG : GroupRule R sym.dual) (a : STensor S ℂ) (ha : a.Valid R) (B : Charged S)
    (hB : Charged.Valid sym R B) (hc : a.cod = B.dom.map (toBLeg sym)) (hd : a.dom = B.cod.map (toBLeg sym))
    (s : List ℂ) (n : ℕ) (hn : n = B.legs.length) (x : ℂ)
    (h : (if multWhere sym B.charge R.unit = 0 then some 0
      else (tdot R sym.dual a (B.inv sym) (List.range n) (List.range n).reverse).map fun res =>
        (Charged.contractLast (Charged.denseRes sym [B.charge] res) s).val []) = some x)
    (g : List ℕ × List ℕ → ℂ) (hg : ∀ n b o, IsPosition sym B.charge n b o → g ([b], [o]) = s.getD n 0) :
    x = ((basis (legMults B.legs)).map fun y => dense a.data y.1.reverse y.2.reverse *
        ((basis [B.charge.mults]).map fun w => dense B.data (y.1 ++ w.1) (y.2 ++ w.2) * g w).sum).sum := by
  by_cases h0 : multWhere sym B.charge R.unit = 0
  · rw [if_pos h0] at h
    obtain rfl := Option.some.inj h
    symm
    refine sum_zero _ _ fun y hy => ?_
    rw [mul_sum]
    refine sum_zero _ _ fun w hw => ?_
    rw [← mul_assoc, innerSym_zero hG a ha B hB hc hd h0 y w hy hw, zero_mul]
  · rw [if_neg h0] at h
    obtain ⟨res, hres, rfl⟩ := Option.map_eq_some_iff.1 h
    have ma : a.mults = (legMults B.legs).reverse := by
      show multsOf (coDomainLegs a.cod a.dom) = _
      unfold coDomainLegs
      rw [hc, hd, ← List.map_reverse, ← List.map_append, multsOf_toBLeg]
      unfold Charged.legs legMults
      simp
    have na : a.numLegs = (legMults B.legs).length := by
      unfold STensor.numLegs
      rw [hc, hd]
      unfold Charged.legs legMults
      simp
      omega
    rw [hn, ← length_legMults] at hres
    exact innerSym_aux hG a ha B hB ma na s res hres g hg

/-- **C84**: `inner(A, B, do_dagger=False)` of a symmetric tensor `A` and a charged tensor `B` is the sum of the
products of the entries (with the legs of `A` in reversed order). -/
theorem C84_inner_symmetric (hG : GroupRule R sym.dual) (A : GTensor S ℂ) (B : Charged S) (hA : SymValid sym R A)
    (hB : Charged.Valid sym R B) (DB : Blk ℂ) (hDB : B.toDense sym = some DB) (x : ℂ)
    (h : Charged.innerSym sym R A B false = some x) :
    x = ((indices sym B.legs).map fun idx =>
      (Abelian.toDense sym (A.cod ++ A.dom.reverse) A.data).val idx.reverse * DB.val idx).sum := by
  obtain ⟨s, hs⟩ := toDense_state hDB
  unfold Charged.innerSym at h
  simp only [Bool.false_eq_true, if_false] at h
  by_cases h1 : (sameLegs sym A.cod B.dom && sameLegs sym A.dom B.cod) = true
  swap
  · rw [if_pos (by rw [Bool.not_eq_true] at h1; rw [h1]; rfl)] at h; cases h
  rw [if_neg (by simpa using h1), hs, Option.bind_some] at h
  rw [Bool.and_eq_true, sameLegs_iff, sameLegs_iff] at h1
  obtain ⟨g, hg⟩ := exists_basis_state (denseOK_right (Charged.denseOK hB)) s
  have hav : (⟨A.cod.map (toBLeg sym), A.dom.map (toBLeg sym), A.data⟩ : STensor S ℂ).Valid R := by
    refine ⟨hA.hom, ?_⟩
    show LegsOK (coDomainLegs (A.cod.map _) (A.dom.map _))
    unfold coDomainLegs
    rw [← List.map_reverse, ← List.map_append]
    exact legsOK_toBLeg hA.legs.valid
  have hlen : A.cod.length + A.dom.length = B.legs.length := by
    have a1 := h1.1.length_eq
    have a2 := h1.2.length_eq
    unfold Charged.legs
    rw [List.length_append, List.length_reverse, a1, a2, Nat.add_comm]
  rw [innerSym_val hG _ hav B hB (SameLegs.toBLeg h1.1) (SameLegs.toBLeg h1.2) s _ hlen x h g hg]
  symm
  refine sum_public (denseOK_left (Charged.denseOK hB)) _ (fun r p => dense A.data r.reverse p.reverse *
        ((basis [B.charge.mults]).map fun w => dense B.data (r ++ w.1) (p ++ w.2) * g w).sum)
    fun idx row pos hl _ => ?_
  rw [Charged.dense_val hB hs hDB g hg idx row pos hl]
  have hsA : Sane (legMults (A.cod ++ A.dom.reverse)) A.data := by
    have := hA.hom.sane
    rw [multsOf_toBLeg, multsOf_toBLeg] at this
    rw [legMults_append]
    simpa [legMults] using this
  rw [(C35_to_dense sym _ hA.legs _ hsA).2 idx.reverse row.reverse pos.reverse]
  have hl' := located_reverse hl
  unfold Charged.legs at hl'
  rw [List.reverse_append, List.reverse_reverse] at hl'
  exact located_congr (SameLegs.append (SameLegs.symm h1.1) (SameLegs.reverse (SameLegs.symm h1.2))) hl'

/-- **C84** (partial: `do_dagger=True` needs a real state, see `C84_inner_dagger_false`): `inner(A, B)` of a symmetric
tensor `A` and a charged tensor `B` is the sum of the products of the entries, those of `A` conjugated. -/
theorem C84_inner_symmetric_dagger_partial (hG : GroupRule R sym.dual) (A : GTensor S ℂ) (B : Charged S)
    (hA : SymValid sym R A) (hB : Charged.Valid sym R B) (DB : Blk ℂ) (hDB : B.toDense sym = some DB)
    (hreal : ∀ s, B.state = some s → ∀ z ∈ s, z.im = 0) (x : ℂ)
    (h : Charged.innerSym sym R A B true = some x) :
    x = ((indices sym B.legs).map fun idx =>
      star ((Abelian.toDense sym (A.cod ++ A.dom.reverse) A.data).val idx) * DB.val idx).sum := by
  obtain ⟨s, hs⟩ := toDense_state hDB
  have hst : s.map star = s := by
    conv_rhs => rw [← List.map_id s]
    exact List.map_congr_left fun z hz => Complex.conj_eq_iff_im.2 (hreal s hs z hz)
  unfold Charged.innerSym at h
  simp only [if_true] at h
  by_cases h1 : (sameLegs sym A.cod B.cod && sameLegs sym A.dom B.dom) = true
  swap
  · rw [if_pos (by rw [Bool.not_eq_true] at h1; rw [h1]; rfl)] at h; cases h
  rw [if_neg (by simpa using h1), hs, Option.bind_some, hst] at h
  rw [Bool.and_eq_true, sameLegs_iff, sameLegs_iff] at h1
  obtain ⟨g, hg⟩ := exists_basis_state (denseOK_right (Charged.denseOK hB)) s
  have hav : (⟨A.cod.map (toBLeg sym), A.dom.map (toBLeg sym), A.data⟩ : STensor S ℂ).Valid R := by
    refine ⟨hA.hom, ?_⟩
    show LegsOK (coDomainLegs (A.cod.map _) (A.dom.map _))
    unfold coDomainLegs
    rw [← List.map_reverse, ← List.map_append]
    exact legsOK_toBLeg hA.legs.valid
  have hsl : SameLegs sym B.legs (A.cod ++ A.dom.reverse) :=
    SameLegs.append (SameLegs.symm h1.1) (SameLegs.reverse (SameLegs.symm h1.2))
  have hlen : A.cod.length + A.dom.length = B.legs.length := by
    have a1 := hsl.length_eq
    rw [a1, List.length_append, List.length_reverse]
  rw [innerSym_val hG _ (daggerSym_valid hav) B hB (SameLegs.toBLeg h1.2) (SameLegs.toBLeg h1.1) s _ hlen x h g hg]
  symm
  have hsA : Sane (legMults (A.cod ++ A.dom.reverse)) A.data := by
    have := hA.hom.sane
    rw [multsOf_toBLeg, multsOf_toBLeg] at this
    rw [legMults_append]
    simpa [legMults] using this
  refine sum_public (denseOK_left (Charged.denseOK hB)) _ (fun r p => dense (Abelian.dagger A.data) r.reverse p.reverse *
        ((basis [B.charge.mults]).map fun w => dense B.data (r ++ w.1) (p ++ w.2) * g w).sum)
    fun idx row pos hl _ => ?_
  obtain ⟨k1, k2, k3⟩ := located_length (located_congr hsl hl)
  rw [Charged.dense_val hB hs hDB g hg idx row pos hl,
    (C35_to_dense sym _ hA.legs _ hsA).2 idx row pos (located_congr hsl hl),
    C34_dagger _ _ hsA _ _ (by rw [List.length_reverse, length_legMults]; exact k2)
      (by rw [List.length_reverse, length_legMults]; exact k3), List.reverse_reverse, List.reverse_reverse]

end Cyten.Props
