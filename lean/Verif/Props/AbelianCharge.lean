import Verif.Spec.GroupCharge
import Verif.Props.AbelianAlgebra
import Verif.Props.AbelianTrace

/-!
# The charge rule under permuting, bending and tracing legs (C45, C55)
-/

namespace Cyten.Props
open Cyten.Abelian Cyten.Abelian.Spec Cyten.Tables Cyten.Tools Cyten.ListSum Cyten.Spaces
open Cyten.FusionTrees

variable {K S : Type}

section
variable [AddCommGroup S] {R : FusionRule S} {dual : S → S}

theorem multipleFusion_eq_sum (hG : GroupRule R dual) (l : List S) : multipleFusion R l = l.sum := by
  have hf : ∀ a b, fuse2 R a b = a + b := fun a b => by unfold fuse2; rw [hG.fuse]; rfl
  cases l with
  | nil => exact hG.unit
  | cons a l =>
    show l.foldl (fuse2 R) a = _
    have : fuse2 R = fun a b => a + b := by funext a b; exact hf a b
    rw [this, List.sum_cons]
    induction l generalizing a with
    | nil => simp
    | cons b l ih => rw [List.foldl_cons, ih, List.sum_cons, add_assoc]

/-- the charge of a row of sector numbers -/
def rowCharge (legs : List (BLeg S)) (row : List ℕ) : S :=
  (List.zipWith (fun (l : BLeg S) i => l.sectors.getD i 0) legs row).sum

theorem fusedCharge_eq_rowCharge (hG : GroupRule R dual) (legs : List (BLeg S)) (row : List ℕ) :
    fusedCharge R legs row = rowCharge legs row := by
  unfold fusedCharge rowCharge
  rw [multipleFusion_eq_sum hG]
  induction legs generalizing row with
  | nil => rfl
  | cons l legs ih =>
    cases row with
    | nil => rfl
    | cons i row =>
      rw [List.zipWith_cons_cons, List.zipWith_cons_cons, List.sum_cons, ← ih row]
      rw [List.getD_eq_getElem?_getD]
      cases l.sectors[i]? with
      | none => simp [List.reduceOption]
      | some s => simp [List.reduceOption]

theorem rowCharge_append (l m : List (BLeg S)) (r s : List ℕ) (h : l.length = r.length) :
    rowCharge (l ++ m) (r ++ s) = rowCharge l r + rowCharge m s := by
  unfold rowCharge
  rw [List.zipWith_append h, List.sum_append]

theorem rowCharge_reverse (l : List (BLeg S)) (r : List ℕ) (h : l.length = r.length) :
    rowCharge l.reverse r.reverse = rowCharge l r := by
  unfold rowCharge
  rw [← List.reverse_zipWith h, List.sum_reverse]

theorem rowCharge_dual (hG : GroupRule R dual) (l : List (BLeg S)) (r : List ℕ) :
    rowCharge (l.map (BLeg.dual dual)) r = -rowCharge l r := by
  unfold rowCharge
  induction l generalizing r with
  | nil => simp
  | cons a l ih =>
    cases r with
    | nil => simp
    | cons i r =>
      rw [List.map_cons, List.zipWith_cons_cons, List.zipWith_cons_cons, List.sum_cons, List.sum_cons,
        ih, neg_add]
      congr 1
      show (a.sectors.map dual).getD i 0 = _
      rw [List.getD_eq_getElem?_getD, List.getD_eq_getElem?_getD, List.getElem?_map]
      cases a.sectors[i]? with
      | none => simp
      | some s => simp [hG.dual]

/-- the charge as a sum over leg numbers -/
theorem rowCharge_pick (l : List (BLeg S)) (r perm : List ℕ) (hr : r.length = l.length)
    (hlt : ∀ c ∈ perm, c < l.length) :
    rowCharge (perm.map fun c => l.getD c ⟨[], []⟩) (pick perm r) =
      (perm.map fun c => (List.zipWith (fun (l : BLeg S) i => l.sectors.getD i 0) l r).getD c 0).sum := by
  unfold rowCharge pick
  rw [List.zipWith_map, List.zipWith_self]
  congr 1
  refine List.map_congr_left fun c hc => ?_
  have hc := hlt c hc
  simp [List.getD_eq_getElem?_getD, List.getElem?_zipWith, List.getElem?_eq_getElem hc,
    List.getElem?_eq_getElem (by rw [hr]; exact hc : c < r.length)]

theorem rowCharge_permute (l : List (BLeg S)) (r perm : List ℕ) (hr : r.length = l.length)
    (hp : perm.Perm (List.range l.length)) :
    rowCharge (perm.map fun c => l.getD c ⟨[], []⟩) (pick perm r) = rowCharge l r := by
  rw [rowCharge_pick l r perm hr fun c hc => by simpa using hp.mem_iff.1 hc]
  rw [(hp.map _).sum_eq]
  unfold rowCharge
  congr 1
  refine List.ext_getElem (by simp [hr]) fun i h1 h2 => ?_
  simp at h2
  simp [List.getD_eq_getElem?_getD, List.getElem?_eq_getElem h2.1, List.getElem?_eq_getElem h2.2,
    List.getElem?_zipWith]

/-- The charge rule: the sectors of all legs fuse to the trivial sector. -/
theorem conserving_iff (hG : GroupRule R dual) (cod dom : List (BLeg S)) (T : Ents K)
    (hlen : ∀ p ∈ T, p.1.length = cod.length + dom.length) :
    Conserving R cod dom T ↔ ∀ p ∈ T, rowCharge (allLegs dual cod dom) p.1 = 0 := by
  refine forall₂_congr fun p hp => ?_
  have hl := hlen p hp
  rw [fusedCharge_eq_rowCharge hG, fusedCharge_eq_rowCharge hG]
  unfold allLegs
  conv_rhs => rw [← List.take_append_drop cod.length p.1]
  rw [rowCharge_append _ _ _ _ (by simp [hl]), ← rowCharge_reverse (dom.map _).reverse _ (by simp [hl]),
    List.reverse_reverse, rowCharge_dual hG, add_neg_eq_zero]

theorem dual_dual (hG : GroupRule R dual) (l : BLeg S) : (l.dual dual).dual dual = l := by
  show (⟨(l.sectors.map dual).map dual, l.mults⟩ : BLeg S) = l
  rw [List.map_map]
  have : (dual ∘ dual) = id := by funext x; simp [hG.dual]
  rw [this, List.map_id]

theorem getD_allLegs (cod dom : List (BLeg S)) (n : ℕ) (hn : n < cod.length + dom.length) :
    (allLegs dual cod dom).getD n ⟨[], []⟩ = asCodomainLeg dual cod dom n := by
  unfold asCodomainLeg coDomainLegs allLegs
  simp only
  by_cases h : n < cod.length
  · rw [if_pos h, List.getD_append _ _ _ _ h, List.getD_append _ _ _ _ h]
  · rw [if_neg h, List.getD_append_right _ _ _ _ (by omega), List.getD_append_right _ _ _ _ (by omega),
      ← List.map_reverse, List.getD_eq_getElem?_getD, List.getD_eq_getElem?_getD, List.getElem?_map,
      List.getElem?_eq_getElem (by simp; omega)]
    rfl

theorem dual_asDomainLeg (hG : GroupRule R dual) (cod dom : List (BLeg S)) (n : ℕ) :
    (asDomainLeg dual cod dom n).dual dual = asCodomainLeg dual cod dom n := by
  unfold asDomainLeg asCodomainLeg
  simp only
  split
  · exact dual_dual hG _
  · rfl

/-- The legs of a tensor with legs `ci` moved to the codomain and `di` moved to the domain. -/
theorem allLegs_permute (hG : GroupRule R dual) (cod dom : List (BLeg S)) (ci di : List ℕ)
    (hlt : ∀ c ∈ ci ++ di.reverse, c < cod.length + dom.length) :
    allLegs dual (ci.map (asCodomainLeg dual cod dom)) (di.map (asDomainLeg dual cod dom)) =
      (ci ++ di.reverse).map fun c => (allLegs dual cod dom).getD c ⟨[], []⟩ := by
  unfold allLegs
  rw [List.map_map, ← List.map_reverse, List.map_append]
  congr 1
  · refine List.map_congr_left fun c hc => ?_
    exact (getD_allLegs cod dom c (hlt c (List.mem_append_left _ hc))).symm
  · refine List.map_congr_left fun c hc => ?_
    exact (dual_asDomainLeg hG cod dom c).trans
      (getD_allLegs cod dom c (hlt c (List.mem_append_right _ hc))).symm

theorem multsOf_coDomainLegs (cod dom : List (BLeg S)) :
    multsOf (coDomainLegs cod dom) = multsOf cod ++ (multsOf dom).reverse := by
  simp [multsOf, coDomainLegs]

theorem mults_asCodomainLeg (cod dom : List (BLeg S)) (n : ℕ) :
    (asCodomainLeg dual cod dom n).mults = (multsOf (coDomainLegs cod dom)).getD n [] := by
  unfold asCodomainLeg multsOf
  rw [List.getD_eq_getElem?_getD, List.getD_eq_getElem?_getD, List.getElem?_map]
  cases (coDomainLegs cod dom)[n]? <;> (simp only; split <;> rfl)

theorem mults_asDomainLeg (cod dom : List (BLeg S)) (n : ℕ) :
    (asDomainLeg dual cod dom n).mults = (multsOf (coDomainLegs cod dom)).getD n [] := by
  unfold asDomainLeg multsOf
  rw [List.getD_eq_getElem?_getD, List.getD_eq_getElem?_getD, List.getElem?_map]
  cases (coDomainLegs cod dom)[n]? <;> (simp only; split <;> rfl)

theorem multsOf_permute (cod dom : List (BLeg S)) (ci di : List ℕ) :
    multsOf (ci.map (asCodomainLeg dual cod dom)) ++
        (multsOf (di.map (asDomainLeg dual cod dom))).reverse =
      permuted (multsOf (coDomainLegs cod dom)) (ci ++ di.reverse) := by
  unfold permuted
  rw [List.map_append, multsOf, multsOf, List.map_map, List.map_map, ← List.map_reverse]
  congr 1
  · exact List.map_congr_left fun c _ => mults_asCodomainLeg cod dom c
  · exact List.map_congr_left fun c _ => mults_asDomainLeg cod dom c

/-- **C45**: `permute_legs` of a symmetric tensor is a symmetric tensor with the permuted legs; a leg
that is bent from the codomain to the domain or back is replaced by its dual. -/
theorem C45_permute_legs_isHom (hG : GroupRule R dual) (cod dom : List (BLeg S)) (T : Ents K)
    (hT : IsHom R cod dom T) (ci di : List ℕ)
    (hp : (ci ++ di.reverse).Perm (List.range (cod.length + dom.length))) :
    IsHom R (ci.map (asCodomainLeg dual cod dom)) (di.map (asDomainLeg dual cod dom))
      (permuteLegs T ci di) := by
  have lM : (multsOf (coDomainLegs cod dom)).length = cod.length + dom.length := by
    simp [multsOf, coDomainLegs]
  have hs : Sane (multsOf (coDomainLegs cod dom)) T := by rw [multsOf_coDomainLegs]; exact hT.sane
  have hsane := C41_permute_legs _ T hs ci di (by rw [lM]; exact hp)
  refine ⟨by rw [multsOf_permute]; exact hsane, ?_⟩
  have hl : (ci ++ di.reverse).length = cod.length + dom.length := by simpa using hp.length_eq
  have hlt : ∀ c ∈ ci ++ di.reverse, c < cod.length + dom.length := fun c hc => by
    simpa using hp.mem_iff.1 hc
  rw [conserving_iff hG]
  · intro p hpm
    obtain ⟨q, hq, rfl⟩ := List.mem_map.1 (mem_mkData.1 hpm)
    have lq := hs.rowLength hq
    rw [lM] at lq
    rw [allLegs_permute hG _ _ _ _ hlt]
    refine (rowCharge_permute _ q.1 _ (by simp [allLegs, lq]) (by simpa [allLegs] using hp)).trans ?_
    exact (conserving_iff hG cod dom T fun p hp => by rw [hs.rowLength hp, lM]).1 hT.charge q hq
  · intro p hpm
    rw [hsane.rowLength hpm]
    simp [permuted]

variable [AddCommMonoid K] [DecidableEq S]

/-- **C55**: the partial trace is a symmetric tensor: the remaining legs of the codomain and of the
domain keep their order. -/
theorem C55_isHom (hG : GroupRule R dual) (cod dom : List (BLeg S)) (pairs : List (ℕ × ℕ))
    (hv : ValidPairs (coDomainLegs cod dom).length pairs) (hm : PairsMatch dual cod dom pairs)
    (hl : LegsValid (coDomainLegs cod dom)) (T U : Ents K) (hT : IsHom R cod dom T)
    (h : partialTrace dual (coDomainLegs cod dom) cod.length pairs T = some U) :
    IsHom R (((remainingLegs (coDomainLegs cod dom).length pairs).filter (· < cod.length)).map
        (asCodomainLeg dual cod dom))
      (((remainingLegs (coDomainLegs cod dom).length pairs).filter (fun n => !(n < cod.length))).reverse.map
        (asDomainLeg dual cod dom)) U := by
  have hinv : ∀ s, dual (dual s) = s := fun s => by simp [hG.dual]
  set rem := remainingLegs (coDomainLegs cod dom).length pairs with hrem
  have hs : Sane (multsOf (coDomainLegs cod dom)) T := by rw [multsOf_coDomainLegs]; exact hT.sane
  have lN : (coDomainLegs cod dom).length = cod.length + dom.length := by simp [coDomainLegs]
  have lM : (multsOf (coDomainLegs cod dom)).length = cod.length + dom.length := by
    simp [multsOf, coDomainLegs]
  -- the remaining legs in their order
  have hsplit : rem.filter (· < cod.length) ++ rem.filter (fun n => !(n < cod.length)) = rem := by
    have hsort : rem.Pairwise (· < ·) := by
      rw [hrem]; unfold remainingLegs
      exact List.Pairwise.filter _ List.pairwise_lt_range
    clear_value rem
    clear hrem
    induction rem with
    | nil => rfl
    | cons a l ih =>
      have ih := ih (List.pairwise_cons.1 hsort).2
      by_cases ha : a < cod.length
      · simpa [ha] using ih
      · have : l.filter (fun n => decide (n < cod.length)) = [] := by
          rw [List.filter_eq_nil_iff]
          intro b hb
          have := (List.pairwise_cons.1 hsort).1 b hb
          simp; omega
        rw [this] at ih
        simpa [ha, this] using ih
  obtain ⟨U', hU', hsane⟩ := C55_succeeds dual hinv cod dom pairs hv hm hl T hs
  rw [h] at hU'
  obtain rfl := Option.some.inj hU'
  have hlt : ∀ c ∈ rem, c < cod.length + dom.length := by
    intro c hc
    have : c ∈ rem ++ pairs.map Prod.fst ++ pairs.map Prod.snd := by simp [hc]
    rw [← lN]
    simpa using hv.perm.mem_iff.1 this
  refine ⟨?_, ?_⟩
  · rw [multsOf_permute, List.reverse_reverse, hsplit]; exact hsane
  rw [conserving_iff hG]
  · intro p hp
    rw [allLegs_permute hG _ _ _ _ (by rw [List.reverse_reverse, hsplit]; exact hlt),
      List.reverse_reverse, hsplit]
    by_cases he : rem.isEmpty = true
    · rw [List.isEmpty_iff] at he
      rw [he]; rfl
    · unfold partialTrace at h
      simp only at h
      rw [← hrem, if_neg he] at h
      cases h
      have hp := mem_mkData.1 hp
      unfold partialTraceMap at hp
      rcases mem_foldl_addBlock _ _ _ _ hp with ⟨q, hq, -⟩ | ⟨q, hq, h1, -⟩
      · simp at hq
      obtain ⟨hq, hd⟩ := List.mem_filter.1 hq
      rw [List.all_eq_true] at hd
      have h1 : p.1 = pick rem q.1 := h1
      have lq : q.1.length = (allLegs dual cod dom).length := by
        rw [hs.rowLength hq, lM]; simp [allLegs]
      have lA : (allLegs dual cod dom).length = cod.length + dom.length := by simp [allLegs]
      have hz := (conserving_iff hG cod dom T fun p hp => by rw [hs.rowLength hp, lM]).1 hT.charge q hq
      have hperm := hv.perm
      rw [← hrem, lN, ← lA] at hperm
      rw [← rowCharge_permute _ q.1 _ lq hperm,
        rowCharge_pick _ _ _ lq fun c hc => by simpa using hperm.mem_iff.1 hc] at hz
      rw [h1, rowCharge_pick _ _ _ lq fun c hc => by rw [lA]; exact hlt c hc]
      rw [List.map_append, List.map_append, List.sum_append, List.sum_append, add_assoc] at hz
      refine (add_eq_left.2 ?_).symm.trans hz
      rw [List.map_map, List.map_map, ← List.sum_map_add]
      refine sum_zero _ _ fun pr hpr => ?_
      have hlt1 := (hv.lt pr hpr).1
      have hlt2 := (hv.lt pr hpr).2
      have he := (onDiagonal_iff dual hinv cod dom hl pr hlt1 hlt2 (hm pr hpr) q.1
        (hs.inRange q hq)).1 (hd pr hpr)
      have key : ∀ n < cod.length + dom.length,
          (List.zipWith (fun (l : BLeg S) i => l.sectors.getD i 0) (allLegs dual cod dom) q.1).getD n 0 =
            (asCodomainLeg dual cod dom n).sectors.getD (q.1.getD n 0) 0 := by
        intro n hn
        rw [← getD_allLegs cod dom n hn]
        have h1 : n < (allLegs dual cod dom).length := by rw [lA]; exact hn
        simp [List.getD_eq_getElem?_getD, List.getElem?_zipWith, List.getElem?_eq_getElem h1,
          List.getElem?_eq_getElem (by rw [lq]; exact h1 : n < q.1.length)]
      simp only [Function.comp]
      rw [key _ (by rw [← lN]; exact hlt1), key _ (by rw [← lN]; exact hlt2), ← dual_asDomainLeg hG cod dom
        pr.2, ← hm pr hpr, he]
      show _ + ((asCodomainLeg dual cod dom pr.1).sectors.map dual).getD (q.1.getD pr.2 0) 0 = 0
      generalize q.1.getD pr.2 0 = x
      rw [List.getD_eq_getElem?_getD, List.getD_eq_getElem?_getD, List.getElem?_map]
      cases (asCodomainLeg dual cod dom pr.1).sectors[x]? with
      | none => simp
      | some s => simp [hG.dual]
  · intro p hp
    rw [hsane.rowLength hp, ← hrem]
    simp only [permuted, List.length_map, List.length_reverse]
    rw [← List.length_append, hsplit]

/-- **C55**: tracing all legs (leg `k` of the codomain with leg `k` of the domain) agrees with the full
trace. -/
theorem C55_trace_full (dual : S → S) (hinv : ∀ s, dual (dual s) = s) (legs : List (BLeg S))
    (hl : LegsValid legs) (T U : Ents K) (hT : Sane (multsOf legs ++ (multsOf legs).reverse) T)
    (h : partialTrace dual (coDomainLegs legs legs) legs.length
      ((List.range legs.length).map fun k => (k, 2 * legs.length - 1 - k)) T = some U) :
    dense U [] [] = Abelian.traceFull T legs.length := by
  set pairs := (List.range legs.length).map fun k => (k, 2 * legs.length - 1 - k) with hpairs
  have lN : (coDomainLegs legs legs).length = 2 * legs.length := by simp [coDomainLegs]; omega
  have hmem : ∀ pr ∈ pairs, ∃ k < legs.length, pr = (k, 2 * legs.length - 1 - k) := by
    intro pr hpr
    obtain ⟨k, hk, rfl⟩ := List.mem_map.1 hpr
    exact ⟨k, List.mem_range.1 hk, rfl⟩
  have hv : ValidPairs (coDomainLegs legs legs).length pairs := by
    refine ⟨?_, ?_⟩
    · intro pr hpr
      obtain ⟨k, hk, rfl⟩ := hmem pr hpr
      rw [lN]; simp only; omega
    · rw [List.nodup_append]
      refine ⟨?_, ?_, ?_⟩
      · rw [hpairs, List.map_map]
        exact (List.nodup_range).map_on fun x _ y _ he => he
      · rw [hpairs, List.map_map]
        refine (List.nodup_range).map_on fun x hx y hy he => ?_
        have hx := List.mem_range.1 hx
        have hy := List.mem_range.1 hy
        simp only [Function.comp] at he
        omega
      · intro a ha b hb
        obtain ⟨pr, hpr, rfl⟩ := List.mem_map.1 ha
        obtain ⟨k, hk, rfl⟩ := hmem pr hpr
        obtain ⟨pr, hpr, rfl⟩ := List.mem_map.1 hb
        obtain ⟨l, hl, rfl⟩ := hmem pr hpr
        simp only; omega
  have hidx : ∀ k < legs.length, (coDomainLegs legs legs).getD (2 * legs.length - 1 - k) ⟨[], []⟩ =
      (coDomainLegs legs legs).getD k ⟨[], []⟩ := by
    intro k hk
    unfold coDomainLegs
    rw [List.getD_append _ _ _ _ hk, List.getD_append_right _ _ _ _ (by omega)]
    rw [List.getD_eq_getElem?_getD, List.getD_eq_getElem?_getD, List.getElem?_reverse (by omega)]
    congr 2
    omega
  have hm : PairsMatch dual legs legs pairs := by
    intro pr hpr
    obtain ⟨k, hk, rfl⟩ := hmem pr hpr
    unfold asCodomainLeg asDomainLeg
    simp only
    rw [if_pos hk, if_neg (by omega), hidx k hk]
  have hrem : remainingLegs (coDomainLegs legs legs).length pairs = [] := by
    have := hv.perm.length_eq
    rw [lN] at this
    rw [← List.length_eq_zero_iff, lN]
    simp only [List.length_append, List.length_map, List.length_range, hpairs] at this
    rw [← hpairs] at this
    omega
  have hlv : LegsValid (coDomainLegs legs legs) := by
    intro l hm
    unfold coDomainLegs at hm
    rw [List.mem_append, List.mem_reverse, or_self] at hm
    exact hl l hm
  have hM : multsOf (coDomainLegs legs legs) = multsOf legs ++ (multsOf legs).reverse := by
    simp [multsOf, coDomainLegs]
  have hT' : Sane (multsOf (coDomainLegs legs legs)) T := by rw [hM]; exact hT
  have key := C55_partial_trace dual hinv legs legs pairs hv hm hlv T hT' U h [] [] (by
    rw [hrem]; exact ⟨List.Forall₂.nil, List.Forall₂.nil⟩)
  rw [key]
  have e : legs.length = (multsOf legs).length := by simp [multsOf]
  rw [e, C46_trace_full (multsOf legs) T hT, hM]
  rw [sum_basis_append (multsOf legs) (multsOf legs).reverse fun r p =>
    if pick (remainingLegs (coDomainLegs legs legs).length pairs) r = [] ∧
      pick (remainingLegs (coDomainLegs legs legs).length pairs) p = [] ∧
      ∀ pr ∈ pairs, r.getD pr.1 0 = r.getD pr.2 0 ∧ p.getD pr.1 0 = p.getD pr.2 0 then
        dense T r p else 0]
  refine sum_congr _ fun x hx => ?_
  obtain ⟨l1, l2, hi⟩ := mem_basis hx
  rw [← e] at l1 l2
  rw [sum_single' _ (C34_basis_nodup _) (x.1.reverse, x.2.reverse)
    ((C34_basis _ _ _).2 (isIndex_reverse hi))]
  · rw [if_pos]
    rw [hrem]
    refine ⟨rfl, rfl, fun pr hpr => ?_⟩
    obtain ⟨k, hk, rfl⟩ := hmem pr hpr
    have g : ∀ r : List ℕ, r.length = legs.length →
        (r ++ r.reverse).getD k 0 = (r ++ r.reverse).getD (2 * legs.length - 1 - k) 0 := by
      intro r hr
      rw [List.getD_append _ _ _ _ (by omega), List.getD_append_right _ _ _ _ (by omega),
        List.getD_eq_getElem?_getD, List.getD_eq_getElem?_getD, List.getElem?_reverse (by omega)]
      congr 2
      omega
    exact ⟨g _ l1, g _ l2⟩
  · intro y hy hne
    obtain ⟨m1, m2, -⟩ := mem_basis hy
    simp only [List.length_reverse, ← e] at m1 m2
    rw [if_neg]
    rintro ⟨-, -, hall⟩
    refine hne ?_
    have g : ∀ r s : List ℕ, r.length = legs.length → s.length = legs.length →
        (∀ k < legs.length, (r ++ s).getD k 0 = (r ++ s).getD (2 * legs.length - 1 - k) 0) →
        s = r.reverse := by
      intro r s hr hs he
      refine List.ext_getElem (by simp [hr, hs]) fun i h1 h2 => ?_
      have := he (legs.length - 1 - i) (by omega)
      rw [List.getD_append _ _ _ _ (by omega), List.getD_append_right _ _ _ _ (by omega),
        List.getD_eq_getElem?_getD, List.getD_eq_getElem?_getD,
        List.getElem?_eq_getElem (by omega), List.getElem?_eq_getElem (by omega)] at this
      simp only [Option.getD_some] at this
      rw [List.getElem_reverse]
      have e1 : 2 * legs.length - 1 - (legs.length - 1 - i) - r.length = i := by omega
      have e2 : r.length - 1 - i = legs.length - 1 - i := by omega
      simp only [e1] at this
      simp only [e2]
      exact this.symm
    have hk : ∀ k < legs.length, (k, 2 * legs.length - 1 - k) ∈ pairs := fun k hk =>
      List.mem_map.2 ⟨k, List.mem_range.2 hk, rfl⟩
    exact Prod.ext (g _ _ l1 m1 fun k h => (hall _ (hk k h)).1)
      (g _ _ l2 m2 fun k h => (hall _ (hk k h)).2)

end

/-! ## A concrete case -/

/-- `Z_2`: the sectors form a group. -/
theorem z2_groupRule : GroupRule z2Rule (fun a => -a) := ⟨rfl, fun _ _ => rfl, fun _ => rfl⟩

/-- A tensor with two codomain legs and two domain legs, with blocks on and off the diagonal. -/
def traceExample : Ents ℤ :=
  [([1, 0, 0, 1], ⟨[2, 1, 1, 2], fun i => 1 + i.getD 0 0 + 10 * i.getD 3 0⟩),
   ([1, 1, 1, 1], ⟨[2, 2, 2, 2], fun i =>
      i.getD 0 0 + 2 * i.getD 1 0 + 4 * i.getD 2 0 + 8 * i.getD 3 0⟩)]

theorem traceExample_isHom : IsHom z2Rule [z2Leg, z2Leg] [z2Leg, z2Leg] traceExample := by
  refine ⟨⟨?_, ?_, ?_⟩, ?_⟩
  · intro p hp
    simp only [traceExample, List.mem_cons, List.not_mem_nil, or_false] at hp
    rcases hp with rfl | rfl <;> simp [multsOf, z2Leg, InShape]
  · intro p hp
    simp only [traceExample, List.mem_cons, List.not_mem_nil, or_false] at hp
    rcases hp with rfl | rfl <;> simp [multsOf, z2Leg, shapeOf]
  · refine List.pairwise_pair.2 ⟨2, 0, 1, rfl, rfl, by omega, fun m hm => ?_⟩
    obtain ⟨n, rfl⟩ : ∃ n, m = n + 3 := ⟨m - 3, by omega⟩
    cases n <;> rfl
  · intro p hp
    simp only [traceExample, List.mem_cons, List.not_mem_nil, or_false] at hp
    rcases hp with rfl | rfl <;> rfl

/-- The hypotheses of C55 are met: the trace over leg 0 and leg 3 of a tensor with four legs. -/
theorem C55_nonvacuous : ValidPairs 4 [(0, 3)] ∧
    PairsMatch (fun a => -a) [z2Leg, z2Leg] [z2Leg, z2Leg] [(0, 3)] ∧
    LegsValid (coDomainLegs [z2Leg, z2Leg] [z2Leg, z2Leg]) ∧
    ∃ U, partialTrace (fun a => -a) (coDomainLegs [z2Leg, z2Leg] [z2Leg, z2Leg]) 2 [(0, 3)]
      traceExample = some U ∧
      dense U [0, 0] [0, 0] = 1 + (1 + 1 + 10) ∧
      dense U [1, 1] [1, 0] = 2 + (1 + 2 + 8) ∧
      dense U [0, 1] [0, 0] = 0 := by
  refine ⟨⟨by simp, by simp⟩, by simp [PairsMatch, asCodomainLeg, asDomainLeg, coDomainLegs],
    by simp [LegsValid, coDomainLegs, z2Leg], _, rfl, ?_, ?_, ?_⟩ <;> decide +kernel

end Cyten.Props
