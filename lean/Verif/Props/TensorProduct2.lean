import Verif.Props.TensorProduct

/-! # Building products from products: C40 -/

namespace Cyten.Props
open Cyten.Tools Cyten.Spaces Cyten.Spaces.Spec Cyten.FusionTrees

set_option linter.unusedSectionVars false

variable {S : Type} [LinearOrder S]

theorem saneLeaves_append {l l' : List (Leg S)} :
    SaneLeaves (l ++ l') ↔ SaneLeaves l ∧ SaneLeaves l' := by
  unfold SaneLeaves
  rw [leavesAll_append]
  constructor
  · intro h
    exact ⟨fun e he => h e (List.mem_append_left _ he), fun e he => h e (List.mem_append_right _ he)⟩
  · rintro ⟨h1, h2⟩ e he
    rcases List.mem_append.1 he with he | he
    · exact h1 e he
    · exact h2 e he

theorem saneLeaves_perm {l l' : List (Leg S)} (hp : l.Perm l') (h : SaneLeaves l) :
    SaneLeaves l' := by
  intro e he
  rw [leavesAll_flatMap] at he
  refine h e ?_
  rw [leavesAll_flatMap]
  exact (hp.flatMap_right _).mem_iff.2 he

private theorem norm_good {sectors : List S} {mults : List ℕ} {v : S →₀ ℕ}
    (h : Norm (sectors, mults) v) : GoodSpace (⟨sectors, mults, some .sorted⟩ : SpaceData S) :=
  ⟨h.len, h.sorted.imp ne_of_lt, fun _ => h.sorted⟩

/-- What `make` computes, as a vector in the fusion ring. -/
private theorem make_norm (sym : Sym S) (R : FusionRule S) (unique : Bool) (hR : FusionOK R unique)
    (hinv : ∀ s, sym.dual (sym.dual s) = s) (factors : List (Leg S)) (h : SaneLeaves factors) :
    Norm ((TProd.make sym R unique factors).sectors, (TProd.make sym R unique factors).mults)
        (prodV R ((TProd.flatSpaces sym factors).map spaceV)) ∧
      Pos ((TProd.make sym R unique factors).sectors, (TProd.make sym R unique factors).mults) :=
  ⟨calcSectors_norm R unique hR _ (h.good hinv),
    calcSectors_pos R unique hR _ (h.good (sym := sym) hinv) h.pos⟩

private theorem make_space (sym : Sym S) (R : FusionRule S) (unique : Bool) (hR : FusionOK R unique)
    (hinv : ∀ s, sym.dual (sym.dual s) = s) (factors : List (Leg S)) (h : SaneLeaves factors) :
    let t := TProd.make sym R unique factors
    spaceV t.toSpace = prodV R ((TProd.flatSpaces sym factors).map spaceV) ∧
      GoodSpace t.toSpace ∧ ∀ m ∈ t.toSpace.mults, 0 < m := by
  obtain ⟨h1, h2⟩ := make_norm sym R unique hR hinv factors h
  exact ⟨h1.vec, norm_good h1, h2⟩

private theorem leg_space (sym : Sym S) (R : FusionRule S) (unique : Bool) (hR : FusionOK R unique)
    (hinv : ∀ s, sym.dual (sym.dual s) = s) (l : Leg S) (h : SaneLeaves [l]) :
    let x := TProd.legSpace sym R unique l
    spaceV x = prodV R ((TProd.flatSpaces sym [l]).map spaceV) ∧
      GoodSpace x ∧ ∀ m ∈ x.mults, 0 < m := by
  cases l with
  | space e =>
    have he := h e (by simp [Leg.leavesAll, Leg.leaves])
    refine ⟨?_, goodSpace_toSpace sym hinv e he.1 he.2.1, he.2.2⟩
    simp [TProd.flatSpaces, Leg.leavesAll, Leg.leaves, prodV, TProd.legSpace]
  | pipe ls d c =>
    have e1 : Leg.leavesAll [Leg.pipe ls d c] = Leg.leavesAll ls := by
      simp [Leg.leavesAll, Leg.leaves]
    have hs : SaneLeaves ls := by unfold SaneLeaves; rw [← e1]; exact h
    have := make_space sym R unique hR hinv ls hs
    simp only [TProd.flatSpaces] at this ⊢
    rw [e1]
    exact this

/-- Two products with permuted flat legs have the same sectors. -/
private theorem same_sectors (R : FusionRule S) (unique : Bool)
    (hR : FusionOK R unique) (spaces spaces' : List (SpaceData S))
    (hg : ∀ x ∈ spaces, GoodSpace x) (hp : ∀ x ∈ spaces, ∀ m ∈ x.mults, 0 < m)
    (hg' : ∀ x ∈ spaces', GoodSpace x) (hp' : ∀ x ∈ spaces', ∀ m ∈ x.mults, 0 < m)
    (e : prodV R (spaces.map spaceV) = prodV R (spaces'.map spaceV)) :
    calcSectors R unique spaces = calcSectors R unique spaces' :=
  (calcSectors_norm R unique hR spaces hg).unique (calcSectors_pos R unique hR spaces hg hp)
    (e ▸ calcSectors_norm R unique hR spaces' hg') (calcSectors_pos R unique hR spaces' hg' hp')

private theorem flatSpaces_append (sym : Sym S) (l l' : List (Leg S)) :
    TProd.flatSpaces sym (l ++ l') = TProd.flatSpaces sym l ++ TProd.flatSpaces sym l' := by
  unfold TProd.flatSpaces
  rw [leavesAll_append, List.map_append]

private theorem flatSpaces_perm (sym : Sym S) {l l' : List (Leg S)} (h : l.Perm l') :
    (TProd.flatSpaces sym l).Perm (TProd.flatSpaces sym l') := by
  unfold TProd.flatSpaces
  rw [leavesAll_flatMap, leavesAll_flatMap]
  exact (h.flatMap_right _).map _

/-- **C40** (insert_multiply). The result is the product built from scratch with the list of
factors `factors[:pos] + [other] + factors[pos:]`. -/
theorem C40_insert_multiply (sym : Sym S) (R : FusionRule S) (unique : Bool) (hR : FusionOK R unique)
    (hN : FusionRingN R sym.dual) (factors : List (Leg S)) (h : SaneLeaves factors) (other : Leg S)
    (ho : SaneLeaves [other]) (pos : ℤ) :
    (TProd.make sym R unique factors).insertMultiply sym R unique other pos =
      TProd.make sym R unique (factors.take (TProd.insertPos factors.length pos) ++ [other] ++
        factors.drop (TProd.insertPos factors.length pos)) := by
  have hinv := hN.dual_dual
  set k := TProd.insertPos factors.length pos with hk
  have hperm : (factors ++ [other]).Perm (factors.take k ++ [other] ++ factors.drop k) := by
    conv_lhs => rw [← List.take_append_drop k factors]
    rw [List.append_assoc, List.append_assoc]
    exact (List.perm_append_comm).append_left _
  have hs : SaneLeaves (factors.take k ++ [other] ++ factors.drop k) :=
    saneLeaves_perm hperm (saneLeaves_append.2 ⟨h, ho⟩)
  obtain ⟨a1, a2, a3⟩ := make_space sym R unique hR hinv factors h
  obtain ⟨b1, b2, b3⟩ := leg_space sym R unique hR hinv other ho
  have e : calcSectors R unique [(TProd.make sym R unique factors).toSpace,
      TProd.legSpace sym R unique other] =
      calcSectors R unique (TProd.flatSpaces sym (factors.take k ++ [other] ++ factors.drop k)) := by
    refine same_sectors R unique hR _ _ ?_ ?_ (hs.good hinv) hs.pos ?_
    · intro x hx
      simp only [List.mem_cons, List.not_mem_nil, or_false] at hx
      rcases hx with rfl | rfl
      · exact a2
      · exact b2
    · intro x hx
      simp only [List.mem_cons, List.not_mem_nil, or_false] at hx
      rcases hx with rfl | rfl
      · exact a3
      · exact b3
    · rw [← prodV_perm R hR.lawful hN ((flatSpaces_perm sym hperm).map spaceV), flatSpaces_append,
        List.map_append, prodV_append R hR.lawful hN, ← a1, ← b1]
      simp [prodV]
  unfold TProd.insertMultiply
  rw [e]
  rfl

/-- **C40** (left_multiply). The new factor is the first one. -/
theorem C40_left_multiply (sym : Sym S) (R : FusionRule S) (unique : Bool) (hR : FusionOK R unique)
    (hN : FusionRingN R sym.dual) (factors : List (Leg S)) (h : SaneLeaves factors) (other : Leg S)
    (ho : SaneLeaves [other]) :
    (TProd.make sym R unique factors).leftMultiply sym R unique other =
      TProd.make sym R unique (other :: factors) := by
  unfold TProd.leftMultiply
  rw [C40_insert_multiply sym R unique hR hN factors h other ho]
  simp [TProd.insertPos]

/-- **C40** (insert_multiply at the end). -/
theorem C40_insert_multiply_end (sym : Sym S) (R : FusionRule S) (unique : Bool)
    (hR : FusionOK R unique) (hN : FusionRingN R sym.dual) (factors : List (Leg S))
    (h : SaneLeaves factors) (other : Leg S) (ho : SaneLeaves [other]) :
    (TProd.make sym R unique factors).insertMultiply sym R unique other factors.length =
      TProd.make sym R unique (factors ++ [other]) := by
  rw [C40_insert_multiply sym R unique hR hN factors h other ho]
  have e : TProd.insertPos factors.length factors.length = factors.length := by
    unfold TProd.insertPos
    rw [if_neg (by omega)]
    omega
  rw [e]
  simp

/-- **C40** (right_multiply). What is computed: the product with the new factor *before* the last
one. -/
theorem C40_right_multiply_computes (sym : Sym S) (R : FusionRule S) (unique : Bool)
    (hR : FusionOK R unique) (hN : FusionRingN R sym.dual) (factors : List (Leg S))
    (h : SaneLeaves factors) (other : Leg S) (ho : SaneLeaves [other]) :
    (TProd.make sym R unique factors).rightMultiply sym R unique other =
      TProd.make sym R unique (factors.dropLast ++ [other] ++ factors.getLast?.toList) := by
  unfold TProd.rightMultiply
  rw [C40_insert_multiply sym R unique hR hN factors h other ho]
  have e : TProd.insertPos factors.length (-1) = factors.length - 1 := by
    unfold TProd.insertPos
    rw [if_pos (by omega)]
    omega
  rw [e, List.dropLast_eq_take]
  congr 2
  rcases List.eq_nil_or_concat factors with rfl | ⟨l, a, rfl⟩
  · rfl
  · simp

/-- **C40** (right_multiply). The documented result, the new factor as the last one, is obtained
only if there is no factor or the last factor is the new one; the sectors and multiplicities are
right in any case. -/
theorem C40_right_multiply_partial (sym : Sym S) (R : FusionRule S) (unique : Bool)
    (hR : FusionOK R unique) (hN : FusionRingN R sym.dual) (factors : List (Leg S))
    (h : SaneLeaves factors) (other : Leg S) (ho : SaneLeaves [other]) :
    let r := (TProd.make sym R unique factors).rightMultiply sym R unique other
    let t := TProd.make sym R unique (factors ++ [other])
    r.sectors = t.sectors ∧ r.mults = t.mults ∧ r.factors.Perm t.factors ∧
      (r = t ↔ factors = [] ∨ factors.getLast? = some other) := by
  intro r t
  have hr : r = TProd.make sym R unique (factors.dropLast ++ [other] ++ factors.getLast?.toList) :=
    C40_right_multiply_computes sym R unique hR hN factors h other ho
  have hperm : (factors.dropLast ++ [other] ++ factors.getLast?.toList).Perm (factors ++ [other]) := by
    rcases List.eq_nil_or_concat factors with rfl | ⟨l, a, rfl⟩
    · simp
    · simp only [List.concat_eq_append, List.dropLast_concat, List.getLast?_concat,
        Option.toList_some, List.append_assoc]
      exact (List.perm_append_comm).append_left _
  have hs : SaneLeaves (factors ++ [other]) := saneLeaves_append.2 ⟨h, ho⟩
  have e : calcSectors R unique (TProd.flatSpaces sym
      (factors.dropLast ++ [other] ++ factors.getLast?.toList)) =
      calcSectors R unique (TProd.flatSpaces sym (factors ++ [other])) := by
    have hs' := saneLeaves_perm hperm.symm hs
    exact same_sectors R unique hR _ _ (hs'.good hN.dual_dual) hs'.pos (hs.good hN.dual_dual) hs.pos
      (prodV_perm R hR.lawful hN ((flatSpaces_perm sym hperm).map spaceV))
  have es : r.sectors = t.sectors := by rw [hr]; exact congrArg Prod.fst e
  have em : r.mults = t.mults := by rw [hr]; exact congrArg Prod.snd e
  refine ⟨es, em, by rw [hr]; exact hperm, ?_⟩
  have hf : r.factors = factors.dropLast ++ [other] ++ factors.getLast?.toList := by rw [hr]; rfl
  have ht : t.factors = factors ++ [other] := rfl
  have heq : r = t ↔ r.factors = t.factors := by
    constructor
    · intro hh; rw [hh]
    · intro hh
      cases hr' : r with
      | mk f s m =>
        cases ht' : t with
        | mk f' s' m' =>
          rw [hr'] at hh es em
          rw [ht'] at hh es em
          simp_all
  rw [heq, hf, ht]
  rcases List.eq_nil_or_concat factors with rfl | ⟨l, a, rfl⟩
  · simp
  · simp
    exact fun h => h.symm

theorem permIdcs_spec (n : ℕ) (perm : List ℤ) (seen idcs : List ℕ) (hs : seen.Nodup)
    (hlt : ∀ k ∈ seen, k < n) (h : TProd.permIdcs n perm seen = some idcs) :
    idcs.Nodup ∧ (∀ k ∈ idcs, k < n) ∧ idcs.length = seen.length + perm.length ∧
      idcs = seen ++ perm.filterMap (Labels.toValidIdx · n) := by
  induction perm generalizing seen with
  | nil =>
    rw [TProd.permIdcs] at h
    cases h
    simp [hs]
    exact hlt
  | cons i is ih =>
    rw [TProd.permIdcs] at h
    cases hv : Labels.toValidIdx i n with
    | none => rw [hv] at h; simp at h
    | some k =>
      rw [hv] at h
      simp only at h
      have hk : k < n := by
        unfold Labels.toValidIdx at hv
        split_ifs at hv
        all_goals
          simp only [Option.some.injEq] at hv
          omega
      by_cases hm : k ∈ seen
      · rw [if_pos hm] at h; simp at h
      · rw [if_neg hm] at h
        obtain ⟨h1, h2, h3, h4⟩ := ih (seen ++ [k])
          (List.nodup_append.2 ⟨hs, by simp, by
            intro a ha b hb
            simp at hb
            subst hb
            rintro rfl
            exact hm ha⟩)
          (by intro x hx; rcases List.mem_append.1 hx with hx | hx
              · exact hlt x hx
              · simp at hx; omega) h
        refine ⟨h1, h2, ?_, ?_⟩
        · rw [h3]; simp; omega
        · rw [h4, List.filterMap_cons_some (f := (Labels.toValidIdx · n)) hv]; simp

private theorem gather_perm_of_range {α : Type} (l : List α) (idcs : List ℕ)
    (h : idcs.Perm (List.range l.length)) : (idcs.filterMap fun i => l[i]?).Perm l := by
  refine (h.filterMap _).trans (List.Perm.of_eq ?_)
  clear h
  induction l with
  | nil => rfl
  | cons a l ih =>
    rw [List.length_cons, List.range_succ_eq_map, List.filterMap_cons_some (b := a) (by simp),
      List.filterMap_map]
    congr 1

/-- **C40** (permuted). If it does not raise, `perm` lists every factor once (negative indices count
from the end) and the result is the product built from scratch with the permuted factors. -/
theorem C40_permuted (sym : Sym S) (R : FusionRule S) (unique : Bool) (hR : FusionOK R unique)
    (hN : FusionRingN R sym.dual) (factors : List (Leg S)) (h : SaneLeaves factors) (perm : List ℤ)
    (r : TProd S) (hr : (TProd.make sym R unique factors).permuted perm = some r) :
    ∃ idcs : List ℕ, idcs.Perm (List.range factors.length) ∧
      perm.map (Labels.toValidIdx · factors.length) = idcs.map some ∧
      r = TProd.make sym R unique (idcs.filterMap fun i => factors[i]?) := by
  unfold TProd.permuted at hr
  have hf : (TProd.make sym R unique factors).factors = factors := rfl
  rw [hf] at hr
  by_cases hl : perm.length ≠ factors.length
  · rw [if_pos hl] at hr; simp at hr
  · rw [if_neg hl] at hr
    cases hi : TProd.permIdcs factors.length perm [] with
    | none => rw [hi] at hr; simp at hr
    | some idcs =>
      rw [hi] at hr
      simp only [Option.some.injEq] at hr
      obtain ⟨h1, h2, h3, h4⟩ := permIdcs_spec factors.length perm [] idcs List.nodup_nil (by simp) hi
      have hlen : idcs.length = factors.length := by simp at h3; omega
      have hperm : idcs.Perm (List.range factors.length) := by
        refine (List.subperm_of_subset h1 ?_).perm_of_length_le (by simp [hlen])
        intro k hk
        exact List.mem_range.2 (h2 k hk)
      have hp := gather_perm_of_range factors idcs hperm
      have hs := saneLeaves_perm hp.symm h
      refine ⟨idcs, hperm, ?_, ?_⟩
      · have hfm : idcs = perm.filterMap (Labels.toValidIdx · factors.length) := by simpa using h4
        have hle : (perm.filterMap (Labels.toValidIdx · factors.length)).length = perm.length := by
          rw [← hfm]; omega
        rw [hfm]
        clear hfm h4 hi hl h3 hr hperm hp hs hlen h1 h2
        induction perm with
        | nil => rfl
        | cons i is ih =>
          cases hv : Labels.toValidIdx i factors.length with
          | none =>
            rw [List.filterMap_cons_none (f := (Labels.toValidIdx · factors.length)) hv] at hle
            have := List.length_filterMap_le (Labels.toValidIdx · factors.length) is
            simp only [List.length_cons] at hle
            omega
          | some k =>
            rw [List.filterMap_cons_some (f := (Labels.toValidIdx · factors.length)) hv] at hle ⊢
            rw [List.map_cons, List.map_cons, hv, ih (by simpa using hle)]
      · rw [← hr]
        have e := same_sectors R unique hR _ _ (h.good hN.dual_dual) h.pos (hs.good hN.dual_dual) hs.pos
          (prodV_perm R hR.lawful hN ((flatSpaces_perm sym hp.symm).map spaceV))
        unfold TProd.make
        rw [e]

/-- **C40** (permuted). Every permutation is accepted. -/
theorem C40_permuted_accepts (factors : List (Leg S)) (sectors : List S) (mults : List ℕ)
    (idcs : List ℕ) (h : idcs.Perm (List.range factors.length)) :
    (TProd.mk factors sectors mults).permuted (idcs.map (fun (i : ℕ) => (i : ℤ))) =
      some ⟨idcs.filterMap fun i => factors[i]?, sectors, mults⟩ := by
  have key : ∀ (l : List ℕ) (seen : List ℕ), (seen ++ l).Nodup → (∀ k ∈ l, k < factors.length) →
      TProd.permIdcs factors.length (l.map (fun (i : ℕ) => (i : ℤ))) seen = some (seen ++ l) := by
    intro l
    induction l with
    | nil => intro seen _ _; simp [TProd.permIdcs]
    | cons k l ih =>
      intro seen hn hlt
      have hk := hlt k List.mem_cons_self
      have hv : Labels.toValidIdx (k : ℤ) factors.length = some k := by
        unfold Labels.toValidIdx
        rw [if_neg (by omega), if_neg (by omega)]
        simp
      have hm : k ∉ seen := by
        intro hm
        rw [List.nodup_append] at hn
        exact hn.2.2 k hm k List.mem_cons_self rfl
      have hn' : (seen ++ [k] ++ l).Nodup := by
        rw [List.append_assoc]; exact hn
      rw [List.map_cons, TProd.permIdcs, hv]
      simp only
      rw [if_neg hm, ih _ hn' (fun x hx => hlt x (List.mem_cons_of_mem _ hx))]
      simp
  unfold TProd.permuted
  have hl : (idcs.map (fun (i : ℕ) => (i : ℤ))).length = factors.length := by
    rw [List.length_map, h.length_eq, List.length_range]
  rw [if_neg (by simpa using hl), key idcs [] (by simpa using h.nodup_iff.2 List.nodup_range)
    (fun k hk => List.mem_range.1 (h.mem_iff.1 hk))]
  rfl

/-- **C40** (from_partial_products). Fusing products equals the product of all the factors. -/
theorem C40_from_partial_products (sym : Sym S) (R : FusionRule S) (unique : Bool)
    (hR : FusionOK R unique) (hN : FusionRingN R sym.dual) (parts : List (List (Leg S)))
    (hne : parts ≠ []) (h : ∀ l ∈ parts, SaneLeaves l) :
    TProd.fromPartialProducts R unique (parts.map (TProd.make sym R unique)) =
      some (TProd.make sym R unique parts.flatten) := by
  have hinv := hN.dual_dual
  have hs : SaneLeaves parts.flatten := by
    clear hne
    induction parts with
    | nil => intro e he; simp [Leg.leavesAll] at he
    | cons l parts ih =>
      rw [List.flatten_cons]
      exact saneLeaves_append.2 ⟨h l List.mem_cons_self,
        ih fun l hl => h l (List.mem_cons_of_mem _ hl)⟩
  unfold TProd.fromPartialProducts
  rw [if_neg (by simpa using hne)]
  have e : calcSectors R unique ((parts.map (TProd.make sym R unique)).map TProd.toSpace) =
      calcSectors R unique (TProd.flatSpaces sym parts.flatten) := by
    refine same_sectors R unique hR _ _ ?_ ?_ (hs.good hinv) hs.pos ?_
    · intro x hx
      rw [List.map_map] at hx
      obtain ⟨l, hl, rfl⟩ := List.mem_map.1 hx
      exact (make_space sym R unique hR hinv l (h l hl)).2.1
    · intro x hx
      rw [List.map_map] at hx
      obtain ⟨l, hl, rfl⟩ := List.mem_map.1 hx
      exact (make_space sym R unique hR hinv l (h l hl)).2.2
    · have e1 : (TProd.flatSpaces sym parts.flatten).map spaceV =
          (parts.map fun l => (TProd.flatSpaces sym l).map spaceV).flatten := by
        clear hne hs h
        induction parts with
        | nil => rfl
        | cons l parts ih =>
          rw [List.flatten_cons, flatSpaces_append, List.map_append, ih]
          rfl
      rw [e1, prodV_flatten R hR.lawful hN, List.map_map, List.map_map, List.map_map]
      congr 1
      apply List.map_congr_left
      intro l hl
      exact (make_space sym R unique hR hinv l (h l hl)).1
  rw [e]
  have ef : (parts.map (TProd.make sym R unique)).flatMap (·.factors) = parts.flatten := by
    clear e hs h hne
    induction parts with
    | nil => rfl
    | cons l parts ih => rw [List.map_cons, List.flatMap_cons, ih, List.flatten_cons]; rfl
  rw [ef]
  rfl

/-! ## Concrete cases -/

/-- `exRule` (`1 × 1 = 0 + 2·1`) with trivial duals. -/
def exSymF : Sym (Fin 2) := ⟨fun _ => 1, id, false, false⟩

theorem exRule_ok : FusionOK exRule false :=
  ⟨exRule_lawful, by simp, by simp [exRule]⟩

theorem exRule_ring : FusionRingN exRule exSymF.dual :=
  ⟨by decide, by decide, by decide, by decide, by decide, by decide⟩

def exA : Leg (Fin 2) := .space ⟨[1], [2], false, none⟩
def exB : Leg (Fin 2) := .space ⟨[0, 1], [1, 3], true, none⟩

theorem exAB_sane : SaneLeaves [exA, exB] := by
  intro e he
  simp [exA, exB, Leg.leavesAll, Leg.leaves] at he
  rcases he with rfl | rfl <;> simp

example : (TProd.make exSymF exRule false [exA, exB, exA]).sectors = [0, 1] ∧
    (TProd.make exSymF exRule false [exA, exB, exA]).mults = [28, 68] := by decide +kernel
example : channels exRule (TProd.flatSpaces exSymF [exA, exB, exA]) 1 = 68 := by
  rw [← (C29_multiplicity exSymF exRule_ring.dual_dual exRule false exRule_ok _ (by
    intro e he
    simp [exA, exB, Leg.leavesAll, Leg.leaves] at he
    rcases he with rfl | rfl | rfl <;> simp) 1).1]
  decide +kernel
/-- The defect of `right_multiply` on a concrete product. -/
example : ((TProd.make exSymF exRule false [exA]).rightMultiply exSymF exRule false exB).factors =
    [exB, exA] := rfl

end Cyten.Props
