import Verif.Spec.AbelianHistory
import Verif.Lemmas.AbelianHistory
import Verif.Props.AbelianDecomp2

/-!
# C41: every history of backend operations keeps the data consistent
-/

namespace Cyten.Props
open Cyten.Abelian Cyten.Abelian.Spec Cyten.Tables Cyten.Tools Cyten.ListSum Cyten.Spaces
open Cyten.FusionTrees

variable {S : Type} [LinearOrder S] [AddCommGroup S] {sym : Sym S} {R : Cyten.FusionRule S}

/-- **C41**: whatever operations of the abelian backend are called, in whatever order, every tensor,
diagonal tensor and mask that is produced has a strictly sorted table of blocks in range, blocks of
the shapes given by its legs, and only blocks that conserve the charge. -/
theorem C41_all_histories (hG : GroupRule R sym.dual) (hd : DimOK sym) (h1 : ∀ s, sym.dim s = 1)
    (hdrop : sym.canDrop = true) {o : Obj S} (h : Made sym R o) : Good sym R o := by
  have hinj : Function.Injective sym.dual := fun a b he => by
    rw [hG.dual, hG.dual] at he; exact neg_injective he
  have hinv : Function.Involutive sym.dual := fun a => by rw [hG.dual, hG.dual, neg_neg]
  have hdense : ∀ l : List (ESpace S), (∀ e ∈ l, ValidSpace sym e) → DenseOK sym l :=
    fun l hl => ⟨hd, h1, hdrop, hl⟩
  have hone : ∀ e : ESpace S, ValidSpace sym e → DenseOK sym [e] :=
    fun e he => hdense [e] fun x hx => by simp at hx; subst hx; exact he
  have hunit : UnitLaws R := fun a => by
    unfold fuse2
    rw [hG.unit, hG.fuse, hG.fuse]; simp
  have hom : ∀ {c d : List (BLeg S)} {T : Ents ℂ}, IsHom R c d T → Good sym R (.tensor c d T) :=
    fun h => ⟨h.1, h.2⟩
  have unhom : ∀ {c d : List (BLeg S)} {T : Ents ℂ}, Good sym R (.tensor c d T) → IsHom R c d T :=
    fun h => ⟨h.1, h.2⟩
  have hlaws := abelianLaws_of hG h1
  induction h with
  | zero cod dom allBlocks T hl h => exact hom (isHom_zeroData R cod dom hl allBlocks T h)
  | eye legs => exact hom (isHom_eye R legs)
  | fromDense cod dom a tol T hv h =>
    have := C35_from_dense sym R cod dom (hdense _ fun e he => hv e (by simpa using he)) a tol T h
    refine ⟨?_, this.2.1⟩
    have e : multsOf (legsOf sym cod) ++ (multsOf (legsOf sym dom)).reverse = legMults (cod ++ dom.reverse) := by
      simp [multsOf, legMults, legsOf, toBLeg, Function.comp_def]
    rw [e]; exact this.1
  | fromSectorBlockFunc cod dom func T hl hf h =>
    exact hom (isHom_fromSectorBlockFunc R cod dom hl func hf T h)
  | fromGrid grid lefts rights ctail dhead t _ hok h ih =>
    obtain ⟨t', left, right, l0, r0, c, d, e1, -, -, -, -, -, -, -, -, h1, -⟩ :=
      C82_tensor_from_grid (hok fun row hr op hop => unhom (ih row hr op hop))
    rw [h] at e1
    injection e1 with e1
    subst e1
    exact hom h1
  | linearCombination cod dom a b v w _ _ ih1 ih2 =>
    exact hom (isHom_linearCombination R cod dom a b v w (unhom ih1) (unhom ih2))
  | mul cod dom a v _ ih => exact hom (isHom_mul R cod dom a v (unhom ih))
  | dagger cod dom v _ ih => exact hom (C34_isHom_dagger R cod dom v (unhom ih))
  | compose cod contr dom a b T hl _ _ h ih1 ih2 =>
    exact hom (C33_isHom R cod contr dom a b T hl (unhom ih1) (unhom ih2) h)
  | outer c1 d1 c2 d2 a b _ _ ih1 ih2 => exact hom (isHom_outer hG (unhom ih1) (unhom ih2))
  | partialCompose a b t first la lb _ _ h ih1 ih2 =>
    have va : a.Valid R := ⟨unhom ih1, la⟩
    have vb : b.Valid R := ⟨unhom ih2, lb⟩
    by_cases hf : first < a.cod.length
    · exact hom (C56_partial_compose_codomain hG a b t va vb first hf h).2.2.1
    · have hd : ∃ d, d + b.cod.length + first = a.numLegs := by
        unfold partialComposePy at h
        rw [if_neg hf] at h
        simp only at h
        split at h
        · cases h
        · rename_i hn
          refine ⟨a.numLegs - b.cod.length - first, ?_⟩
          push Not at hn
          omega
      obtain ⟨d, hdd⟩ := hd
      exact hom (C56_partial_compose_domain hG a b t va vb first hf h d hdd).2.2.1
  | tdot a b t legs1 legs2 la lb _ _ h ih1 ih2 =>
    have := C56_tdot_isHom hG a b ⟨unhom ih1, la⟩ ⟨unhom ih2, lb⟩ legs1 legs2 _ h
    exact hom this.2.2.1
  | permuteLegs cod dom T ci di _ hp ih =>
    exact hom (C45_permute_legs_isHom hG cod dom T (unhom ih) ci di hp)
  | partialTrace cod dom pairs T U hv hm hl _ h ih =>
    exact hom (C55_isHom hG cod dom pairs hv hm hl T U (unhom ih) h)
  | addTrivialLegCodomain cod dom T k _ hk ih => exact hom (isHom_addTrivialLeg_cod hG (unhom ih) k hk)
  | addTrivialLegDomain cod dom T k _ hk ih => exact hom (isHom_addTrivialLeg_dom hG (unhom ih) k hk)
  | squeezeLegs cod dom T idcs _ ht ih => exact hom (C59_squeeze_isHom R hunit cod dom idcs ht T (unhom ih))
  | combineLegs csegs dsegs T hc hdm _ ih => exact hom (C49_combine_hom sym R hlaws csegs dsegs hc hdm T (unhom ih))
  | splitLegs csegs dsegs T hc hdm _ ih => exact hom (C49_split_hom sym R hlaws csegs dsegs hc hdm T (unhom ih))
  | scaleAxis cod dom T e D leg _ _ hl ih1 ih2 =>
    exact hom (C54_conserving R cod dom e.mults T D leg (unhom ih1) ih2.2 hl)
  | maskCodomain cod dom T M ax _ _ hax ih1 ih2 =>
    have hlt := (List.getElem?_eq_some_iff.1 hax).1
    have hlen : (multsOf cod ++ (multsOf dom).reverse).length = cod.length + dom.length := by simp [multsOf]
    have hax' : (multsOf cod ++ (multsOf dom).reverse)[ax]? =
        some (if M.isProjection then M.large.mults else M.small.mults) := by
      rw [List.getElem?_append_left (by simpa [multsOf] using hlt)]
      unfold multsOf
      rw [List.getElem?_map, hax]
      cases M.isProjection <;> rfl
    have hset : ∀ l : BLeg S, multsOf (cod.set ax l) ++ (multsOf dom).reverse =
        (multsOf cod ++ (multsOf dom).reverse).set ax l.mults := by
      intro l
      rw [List.set_append_left _ _ (by simpa [multsOf] using hlt)]
      simp [multsOf, List.map_set]
    refine ⟨?_, ?_⟩
    · rw [hset, ← hlen]
      cases hp : M.isProjection with
      | true =>
        rw [hp] at hax'
        exact (C47_apply_mask ih2 _ ax hax' T ih1.1 false (by rw [hp]; rfl)).1
      | false =>
        rw [hp] at hax'
        exact (C47_enlarge_leg ih2 _ ax hax' T ih1.1 false hp).1
    · rw [← hlen]
      exact (C47_charge ih2 R cod dom _ hlen ax T M.isProjection hax' ih1.1 ih1.2).1 hax rfl
  | maskDomain cod dom T M d _ _ hax ih1 ih2 =>
    have hlt := (List.getElem?_eq_some_iff.1 hax).1
    have hlen : (multsOf cod ++ (multsOf dom).reverse).length = cod.length + dom.length := by simp [multsOf]
    have hpos : cod.length + dom.length - 1 - d = (multsOf cod).length + (dom.length - 1 - d) := by
      simp [multsOf]; omega
    have hax' : (multsOf cod ++ (multsOf dom).reverse)[cod.length + dom.length - 1 - d]? =
        some (if !M.isProjection then M.large.mults else M.small.mults) := by
      rw [hpos, List.getElem?_append_right (by omega), Nat.add_sub_cancel_left,
        List.getElem?_reverse (by simp [multsOf]; omega)]
      unfold multsOf
      rw [List.length_map, show dom.length - 1 - (dom.length - 1 - d) = d by omega, List.getElem?_map, hax]
      cases M.isProjection <;> rfl
    have hset : ∀ l : BLeg S, multsOf cod ++ (multsOf (dom.set d l)).reverse =
        (multsOf cod ++ (multsOf dom).reverse).set (cod.length + dom.length - 1 - d) l.mults := by
      intro l
      rw [hpos, List.set_append_right _ _ (by omega), Nat.add_sub_cancel_left]
      congr 1
      unfold multsOf
      rw [List.map_set]
      refine List.ext_getElem? fun i => ?_
      rw [List.getElem?_set]
      by_cases hi : i < dom.length
      · rw [List.getElem?_reverse (by simpa using hi), List.getElem?_set]
        simp only [List.length_set, List.length_map, List.length_reverse]
        rw [List.getElem?_reverse (by simpa using hi)]
        simp only [List.length_map]
        by_cases he : dom.length - 1 - d = i
        · rw [if_pos he, if_pos (by omega), if_pos hlt, if_pos (by omega)]
        · rw [if_neg he, if_neg (by omega)]
      · rw [List.getElem?_eq_none (by simp; omega), if_neg (by omega), List.getElem?_eq_none (by simp; omega)]
    have hax2 : dom[d]? = some (toBLeg sym (if !M.isProjection then M.large else M.small)) := by
      rw [hax]; cases M.isProjection <;> rfl
    have hnew : (if M.isProjection then M.large else M.small) =
        (if !M.isProjection then M.small else M.large) := by cases M.isProjection <;> rfl
    rw [hnew]
    refine ⟨?_, ?_⟩
    · rw [hset, ← hlen]
      cases hp : M.isProjection with
      | true =>
        rw [hp] at hax'
        rw [← hlen] at hax'
        exact (C47_enlarge_leg ih2 _ _ hax' T ih1.1 true hp).1
      | false =>
        rw [hp] at hax'
        rw [← hlen] at hax'
        exact (C47_apply_mask ih2 _ _ hax' T ih1.1 true (by rw [hp]; rfl)).1
    · rw [← hlen] at hax' ⊢
      exact (C47_charge ih2 R cod dom _ hlen _ T (!M.isProjection) hax' ih1.1 ih1.2).2 d hax2 rfl
        (by simp)
  | maskDiagonal M D _ hp _ ih1 ih2 => exact ⟨ih1.small, (C47_diagonal ih1 hp D ih2.2).1⟩
  | newQR c d l isDual T f first vc vd pc pd hl _ hf ih =>
    obtain ⟨l', e1, -, hN, -⟩ := C48_new_leg hd hinv vc vd pc pd isDual
    rw [hl] at e1
    injection e1 with e1
    subst e1
    have := C48_qr R vc vd hinj hN (unhom ih) f hf
    cases first with
    | true => exact hom this.1
    | false => exact hom this.2.1
  | newLQ c d l isDual T f first vc vd pc pd hl _ hf ih =>
    obtain ⟨l', e1, -, hN, -⟩ := C48_new_leg hd hinv vc vd pc pd isDual
    rw [hl] at e1
    injection e1 with e1
    subst e1
    have := C48_lq R vc vd hinj hN (unhom ih) f hf
    cases first with
    | true => exact hom this.1
    | false => exact hom this.2.1
  | newSVD c d l isDual T f which vc vd pc pd hl _ hf ih =>
    obtain ⟨l', e1, -, hN, -⟩ := C48_new_leg hd hinv vc vd pc pd isDual
    rw [hl] at e1
    injection e1 with e1
    subst e1
    have := C48_svd R vc vd hinj hN (unhom ih) f hf
    match which with
    | 0 => exact hom this.1
    | 1 => exact ⟨hN.valid, this.2.1⟩
    | 2 => exact hom this.2.2.1
  | newEigh e T f first ve _ hf ih =>
    have := C48_eigh R ve hinj T (unhom ih) f hf
    cases first with
    | true => exact ⟨ve, this.1⟩
    | false => exact hom this.2.1
  | actBlockDiagonal e T f ve _ hf ih =>
    exact hom (C57_act_block_diagonal R ve hinj T (unhom ih) f hf).1
  | diagEye e ve => exact ⟨ve, diagonalEye_sane _⟩
  | diagFromBlock e a D ve h => exact ⟨ve, (C36_from_diag_block (hone e ve) a D h).1⟩
  | diagUnary e D g flag _ hg ih => exact ⟨ih.1, (C36_unary e.mults g flag hg D ih.2).1⟩
  | diagBinary e D₁ D₂ g _ _ ih1 ih2 => exact ⟨ih1.1, (C36_binary e.mults g D₁ D₂ ih1.2 ih2.2).1⟩
  | diagFull e D _ ih => exact hom (isHom_fullFromDiagonal R (toBLeg sym e) D ih.2)
  | maskFromBlock e v M ve h => exact ((C37_from_block_mask (hone e ve) v).2 M h).2.2.1
  | diagCompare e D₁ D₂ g _ _ ih1 ih2 => exact ⟨ih1.1, (C36_binary e.mults g D₁ D₂ ih1.2 ih2.2).1⟩
  | maskFromDiagonal e D _ ih => exact (C37_from_diagonal (hone e ih.1) D ih.2).1
  | maskToDiagonal M _ ih => exact ⟨ih.large.valid _ (by simp), (C37_to_diagonal ih).1⟩
  | maskEye e ve => exact (C37_eye_zero (hone e ve)).1.1
  | maskZero e ve => exact (C37_eye_zero (hone e ve)).2.1
  | maskUnary M g _ ih => exact (C37_unary ih g).1
  | maskBinary M₁ M₂ M g _ _ hl h ih1 ih2 => exact ((C37_binary ih1 ih2 hl g).2 M h).1
  | maskDagger M _ ih => exact (C37_dagger ih).1
  | maskTranspose M _ ih => exact (C37_transpose ih).1
  | maskFull M _ hp ih => exact hom (isHom_fullFromMask R ih hp)

/-! ## A concrete history -/

section Example

/-- The mask that keeps the public basis vectors 0 and 2 of `denseLeg`. -/
def histMask : MaskT ℤ := (fromBlockMask exU1 denseLeg [true, false, true]).getD (maskZero denseLeg)

/-- The identity, projected by the mask on its codomain leg. -/
noncomputable def histP : Ents ℂ :=
  maskContract 2 0 false true (fullFromDiagonal (diagonalEye denseLeg.mults)) histMask.data

/-- The outer product with its adjoint, with two legs bent. -/
noncomputable def histT : Ents ℂ :=
  permuteLegs (Abelian.outer histP (Abelian.dagger histP) 1) [3, 0] [1, 2]

theorem intRule_group : GroupRule intRule exU1.dual :=
  ⟨rfl, fun _ _ => rfl, fun _ => rfl⟩

/-- A history: identity, mask, projection of a leg, adjoint, outer product, permutation with bends. -/
theorem C41_nonvacuous : GroupRule intRule exU1.dual ∧ DimOK exU1 ∧ (∀ s, exU1.dim s = 1) ∧
    exU1.canDrop = true ∧
    ∃ cod dom, Made exU1 intRule (.tensor cod dom histT) ∧ cod.length = 2 ∧ dom.length = 2 ∧
      histT.map Prod.fst = [[0, 0, 0, 0], [1, 1, 0, 0], [0, 0, 1, 1], [1, 1, 1, 1]] := by
  have hv : ValidSpace exU1 denseLeg := denseLeg_ok.valid _ (by simp)
  have m : Made exU1 intRule (.mask histMask) :=
    Made.maskFromBlock denseLeg [true, false, true] histMask hv (by decide +kernel)
  have d := Made.diagFull (R := intRule) _ _ (Made.diagEye denseLeg hv)
  have hp : histMask.isProjection = true := by decide +kernel
  have hl : histMask.large = denseLeg := by decide +kernel
  have q := Made.maskCodomain _ _ _ _ 0 d m (by rw [hp, hl]; rfl)
  rw [hp] at q
  exact ⟨intRule_group, exU1_ok, fun _ => rfl, rfl, _, _,
    Made.permuteLegs _ _ _ [3, 0] [1, 2] (Made.outer _ _ _ _ _ _ q (Made.dagger _ _ _ q)) (by decide),
    rfl, rfl, by decide +kernel⟩

end Example

end Cyten.Props
