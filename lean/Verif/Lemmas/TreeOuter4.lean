import Verif.Lemmas.TreeOuter3

/-! # `insert_at` and `outer` of fusion trees -/

namespace Cyten.FT.Spec
open Cyten.FT Cyten.Mappings

/-- `l` is the contraction of the leg `n` of the tree `t` with the coupled sector of the tree `t2`. -/
structure Inserted {S K : Type} [LinearOrder S] [CommRing K] [StarRing K] (R : FusionRule S) (T : FTensors S K)
    (t : FusionTree S) (n : ℕ) (t2 : FusionTree S) (l : UMap (FusionTree S) K) : Prop where
  tree : ∀ p ∈ l, p.1.Sane R ∧ p.1.coupled = t.coupled ∧
    p.1.uncoupled = t.uncoupled.take n ++ t2.uncoupled ++ t.uncoupled.drop (n + 1) ∧
    p.1.areDual = t.areDual.take n ++ t2.areDual ++ t.areDual.drop (n + 1)
  sum : ∀ is js is', InDims T (t.uncoupled.take n) is → InDims T t2.uncoupled js →
    InDims T (t.uncoupled.drop (n + 1)) is' → ∀ k, k < T.dim t.coupled →
    (l.map fun p => p.2 * treeTensor T p.1 (is ++ js ++ is') k).sum =
      ((List.range (T.dim t2.coupled)).map fun g =>
        treeTensor T t (is ++ [g] ++ is') k * treeTensor T t2 js g).sum

end Cyten.FT.Spec

namespace Cyten.FT
open Cyten.FT.Spec Cyten.Tools Cyten.ListSum Cyten.Props Cyten.Mappings

variable {S K : Type} [LinearOrder S] [CommRing K] [StarRing K]
variable {R : FusionRule S} {T : FTensors S K} {D : Topo S K} {F : FSym S K}

omit [LinearOrder S] [CommRing K] [StarRing K] in
theorem getLastD_app (l : List S) (d x : S) (cs : List S) : (l ++ d :: cs).getLastD x = cs.getLastD d := by
  induction l generalizing x with
  | nil => rw [List.nil_append, List.getLastD_cons]
  | cons y l ih => rw [List.cons_append, List.getLastD_cons, ih]

omit [CommRing K] [StarRing K] in
theorem extendMany_info (r : FusionTree S) (hl : 1 ≤ r.uncoupled.length) (us : List S) (ds : List Bool) (cs : List S)
    (ms : List ℕ) (hd : ds.length = us.length) (hc : Chain R r.coupled us cs ms) :
    (extendMany r us ds cs ms).uncoupled = r.uncoupled ++ us ∧ (extendMany r us ds cs ms).areDual = r.areDual ++ ds ∧
      (extendMany r us ds cs ms).coupled = cs.getLastD r.coupled ∧ (extendMany r us ds cs ms).mult = r.mult ++ ms := by
  obtain ⟨l1, l2⟩ := chain_length R hc
  rcases us with _ | ⟨u, us⟩
  · obtain rfl := List.length_eq_zero_iff.1 (show ds.length = 0 by simpa using hd)
    obtain rfl := List.length_eq_zero_iff.1 (show cs.length = 0 by simpa using l1)
    obtain rfl := List.length_eq_zero_iff.1 (show ms.length = 0 by simpa using l2)
    simp [extendMany]
  · match cs, l1 with
    | c :: cs, l1 =>
      rw [extendMany_eq r hl u us ds c cs ms (by simpa using hd) (by simpa using l1) (by simpa using l2)]
      exact ⟨rfl, rfl, (List.getLastD_cons).symm, rfl⟩

theorem insertAt_zero (small : K → Bool) (z : S) (us : List S) (ds : List Bool) (cs : List S) (ms : List ℕ)
    (hd : ds.length = us.length) (hc : Chain R z us cs ms) (t2 : FusionTree S) (h2 : t2.Sane R)
    (hl2 : 1 ≤ t2.uncoupled.length) (hz : z = t2.coupled) :
    insertAt R F small (extendMany (FusionTree.fromSector z false) us ds cs ms) 0 t2 =
      [(extendMany t2 us ds cs ms, 1)] := by
  obtain ⟨l1, l2⟩ := chain_length R hc
  unfold insertAt
  rw [if_neg (by omega)]
  by_cases h1 : t2.uncoupled.length - 1 = 0
  · rw [if_pos h1]
    obtain ⟨dz, h0⟩ := one_leg_eq t2 h2 (by omega)
    rw [← hz] at h0
    rw [h0]
    rcases us with _ | ⟨u, us⟩
    · cases dz <;> simp [FusionTree.fromSector, extendMany]
    · match cs, l1 with
      | c :: cs, l1 =>
        have e : ∀ d, extendMany (FusionTree.fromSector z d) (u :: us) ds (c :: cs) ms =
            ⟨z :: u :: us, cs.getLastD c, d :: ds, (c :: cs).dropLast, ms⟩ := by
          intro d
          rw [extendMany_eq _ (by simp [FusionTree.fromSector]) u us ds c cs ms (by simpa using hd) (by simpa using l1)
            (by simpa using l2)]
          simp [FusionTree.fromSector, pre]
        rw [e, e]
        cases dz <;> simp [FusionTree.fromSector]
  · rw [if_neg h1]
    rcases us with _ | ⟨u, us⟩
    · rw [if_pos (by simp [extendMany, FusionTree.fromSector])]
      simp [extendMany]
    · match cs, l1 with
      | c :: cs, l1 =>
        have e : extendMany (FusionTree.fromSector z false) (u :: us) ds (c :: cs) ms =
            ⟨z :: u :: us, cs.getLastD c, false :: ds, (c :: cs).dropLast, ms⟩ := by
          rw [extendMany_eq _ (by simp [FusionTree.fromSector]) u us ds c cs ms (by simpa using hd) (by simpa using l1)
            (by simpa using l2)]
          simp [FusionTree.fromSector, pre]
        rw [e, if_neg (by simp), if_pos rfl, extendMany_eq t2 hl2 u us ds c cs ms (by simpa using hd)
          (by simpa using l1) (by simpa using l2), pre, if_pos (by omega), ← hz]
        simp [FusionTree.insert]

theorem insertAt_pos (small : K → Bool) (r : FusionTree S) (hr : r.Sane R) (hlr : 1 ≤ r.uncoupled.length) (d : S) (m : ℕ)
    (us : List S) (ds : List Bool) (cs : List S) (ms : List ℕ) (hd : ds.length = us.length) (hc : Chain R d us cs ms)
    (t2 : FusionTree S) (h2 : t2.Sane R) (hl2 : 1 ≤ t2.uncoupled.length) :
    insertAt R F small (extendMany r (t2.coupled :: us) (false :: ds) (d :: cs) (m :: ms)) r.uncoupled.length t2 =
      (insertLoop R F small r.coupled d t2 (t2.uncoupled.length - 1) [(([], [m]), 1)]).map fun p =>
        (⟨r.uncoupled ++ (t2.uncoupled ++ us), cs.getLastD d, r.areDual ++ (t2.areDual ++ ds),
          pre r ++ (p.1.1 ++ d :: cs).dropLast, r.mult ++ (p.1.2 ++ ms)⟩, p.2) := by
  obtain ⟨l1, l2⟩ := chain_length R hc
  have hpl := pre_length r hr hlr
  have hml := hr.len_mult
  have hdl := hr.len_dual
  rw [extendMany_eq r hlr t2.coupled us (false :: ds) d cs (m :: ms) (by simpa using hd) (by simpa using l1)
    (by simpa using l2)]
  unfold insertAt
  rw [if_neg (by omega)]
  by_cases h1 : t2.uncoupled.length - 1 = 0
  · rw [if_pos h1]
    obtain ⟨dz, h0⟩ := one_leg_eq t2 h2 (by omega)
    set z := t2.coupled with hz
    clear_value z
    subst h0
    have e1 : r.areDual ++ false :: ds = r.areDual ++ ([false] ++ ds) := rfl
    have e2 : (r.areDual ++ false :: ds).set r.uncoupled.length true = r.areDual ++ true :: ds := by
      rw [← hdl]; simp
    rw [h1]
    cases dz
    · simp [FusionTree.fromSector, insertLoop]
    · simp only [FusionTree.fromSector, insertLoop]
      simp [e2]
  · rw [if_neg h1, if_neg (by
      show ¬ (r.uncoupled ++ t2.coupled :: us).length - 1 = 0
      rw [List.length_append, List.length_cons]; omega), if_neg (by omega)]
    have hleft : (pre r ++ (d :: cs).dropLast).take (r.uncoupled.length - 1) = pre r := by
      rw [← hpl, List.take_left]
    have hright : (pre r ++ (d :: cs).dropLast).drop (r.uncoupled.length - 1) = (d :: cs).dropLast := by
      rw [← hpl, List.drop_left]
    have ha : (if (pre r).length = 0 then (r.uncoupled ++ t2.coupled :: us).getD 0 (cs.getLastD d)
        else (pre r).getLastD (cs.getLastD d)) = r.coupled := by
      by_cases h3 : (pre r).length = 0
      · rw [if_pos h3]
        obtain ⟨x, hx⟩ : ∃ x, r.uncoupled = [x] := List.length_eq_one_iff.1 (by omega)
        rw [hx, ← hr.one_leg x hx]
        rfl
      · rw [if_neg h3, pre, if_pos (by omega)]
        simp
    have hdi : (if r.uncoupled.length = (r.uncoupled ++ t2.coupled :: us).length - 1 then cs.getLastD d
        else ((d :: cs).dropLast).headD (cs.getLastD d)) = d := by
      rcases us with _ | ⟨u, us⟩
      · obtain rfl := List.length_eq_zero_iff.1 (show cs.length = 0 by simpa using l1)
        simp
      · rw [if_neg (by simp)]
        match cs, l1 with
        | c :: cs, _ => simp
    have hmu : (r.mult ++ m :: ms).getD (r.uncoupled.length - 1) 0 = m := by rw [← hml]; simp
    simp only
    rw [hleft, hright, ha, hdi, hmu]
    refine List.map_congr_left fun p _ => ?_
    simp only [Prod.mk.injEq, FusionTree.mk.injEq, and_true, true_and]
    refine ⟨by simp, by rw [← hdl]; simp, by simp, ?_⟩
    have e1 : (r.mult ++ m :: ms).take (r.uncoupled.length - 1) = r.mult := by rw [← hml, List.take_left]
    have e2 : (r.mult ++ m :: ms).drop r.uncoupled.length = ms := by
      rw [show r.mult ++ m :: ms = (r.mult ++ [m]) ++ ms by simp,
        List.drop_left' (by simp; omega)]
    rw [e1, e2, List.append_assoc]

theorem insertAt_spec (hL : GroupLaws R T D) (hO : OuterLaws R T F) {small : K → Bool} (hS : FCutoffExact F small)
    (t : FusionTree S) (h : t.Sane R) (n : ℕ) (t2 : FusionTree S) (h2 : t2.Sane R) (hl2 : 1 ≤ t2.uncoupled.length)
    (hn : t.uncoupled[n]? = some t2.coupled) (hdu : t.areDual[n]? = some false) :
    Inserted R T t n t2 (insertAt R F small t n t2) := by
  obtain ⟨hlt, hz⟩ := List.getElem?_eq_some_iff.1 hn
  by_cases hn0 : n = 0
  · subst hn0
    obtain ⟨r, us, ds, cs, ms, g1, g2, g3, g4, g5, g6⟩ := tree_prefix t h 1 le_rfl (by omega)
    obtain ⟨dz, h0⟩ := one_leg_eq r g1 g2
    set z := r.coupled with hzz
    clear_value z
    subst h0
    obtain ⟨i1, i2, i3, i4⟩ := extendMany_info (FusionTree.fromSector z dz) (by simp [FusionTree.fromSector]) us ds cs ms g3 g4
    rw [← g5] at i1 i2 i3 i4
    obtain rfl : z = t2.coupled := by rw [i1] at hn; simpa [FusionTree.fromSector] using hn
    obtain rfl : dz = false := by rw [i2] at hdu; simpa [FusionTree.fromSector] using hdu
    have hg4 : Chain R t2.coupled us cs ms := g4
    have hins : insertAt R F small t 0 t2 = [(extendMany t2 us ds cs ms, 1)] := by
      rw [g5]; exact insertAt_zero small t2.coupled us ds cs ms g3 g4 t2 h2 hl2 rfl
    obtain ⟨j1, j2, j3, j4⟩ := extendMany_info t2 hl2 us ds cs ms g3 hg4
    have hu : t.uncoupled.drop 1 = us := by rw [i1]; rfl
    rw [hins]
    refine ⟨?_, ?_⟩
    · intro p hp
      obtain rfl := List.mem_singleton.1 hp
      refine ⟨(extendMany_sane t2 h2 hl2 us ds cs ms g3 hg4).1, ?_, ?_, ?_⟩
      · rw [j3, i3]; rfl
      · rw [j1, i1]; simp [FusionTree.fromSector]
      · rw [j2, i2]; simp [FusionTree.fromSector]
    · intro is js is' hi hj hi' k hk
      obtain rfl : is = [] := by
        have := hi.length_eq
        exact List.length_eq_zero_iff.1 (by simpa using this.symm)
      rw [hu] at hi'
      have hk' : k < T.dim (cs.getLastD t2.coupled) := by rw [i3] at hk; exact hk
      simp only [List.map_cons, List.map_nil, List.sum_cons, List.sum_nil, add_zero, one_mul, List.nil_append]
      rw [treeTensor_extendMany hL t2 h2 hl2 us ds cs ms g3 hg4 js is' hj hi' k hk']
      refine sum_congr _ fun g hg => ?_
      have := treeTensor_extendMany hL (FusionTree.fromSector t2.coupled false) g1
        (by simp [FusionTree.fromSector]) us ds cs ms g3 g4 [g] is' (.cons (List.mem_range.1 hg) .nil) hi' k hk'
      rw [g5, this, mul_comm]
      congr 1
      rw [← sum_range_single (T.dim t2.coupled) g (List.mem_range.1 hg) fun x => chainMat T t2.coupled us ds cs ms x is' k]
      refine sum_congr _ fun x _ => ?_
      rw [fromSector_tensor]
      by_cases hx : g = x
      · simp [hx, legMat, FusionTree.fromSector]
      · simp [hx, Ne.symm hx, legMat]
  · obtain ⟨r, us0, ds0, cs0, ms0, g1, g2, g3, g4, g5, g6⟩ := tree_prefix t h n (by omega) (by omega)
    obtain ⟨l1, l2⟩ := chain_length R g4
    match us0, ds0, cs0, ms0, g3, g4, g5, g6, l1, l2 with
    | [], _, _, _, _, _, _, g6, _, _ => simp at g6; omega
    | z :: us, dz :: ds, d :: cs, m :: ms, g3, g4, g5, g6, _, _ =>
      have hlr : 1 ≤ r.uncoupled.length := by omega
      obtain ⟨i1, i2, i3, i4⟩ := extendMany_info r hlr _ _ _ _ g3 g4
      rw [← g5] at i1 i2 i3 i4
      obtain rfl : z = t2.coupled := by rw [i1, ← g2] at hn; simpa using hn
      obtain rfl : dz = false := by rw [i2, ← g2, ← g1.len_dual] at hdu; simpa using hdu
      have g3' : ds.length = us.length := by simpa using g3
      simp only [Chain] at g4
      obtain ⟨hm, g4⟩ := g4
      obtain ⟨l1, l2⟩ := chain_length R g4
      have hdl := g1.len_dual
      have hins := insertAt_pos (F := F) small r g1 hlr d m us ds cs ms g3' g4 t2 h2 hl2
      rw [← g5, g2] at hins
      have hem : extendMany t2 [] [] [] [] = t2 := rfl
      obtain ⟨s1, s2⟩ := insertLoop_spec hL hO hS r.coupled d (t2.uncoupled.length - 1) t2 h2 (by omega) [] [] [] [] rfl
        rfl rfl [(([], [m]), 1)] (by
          intro p hp
          obtain rfl := List.mem_singleton.1 hp
          exact ⟨rfl, by simp, hm, by simp [Chain]⟩)
      rw [hem] at s1 s2
      simp only [List.append_nil] at s1 s2
      set Q := insertLoop R F small r.coupled d t2 (t2.uncoupled.length - 1) [(([], [m]), 1)] with hQ
      have htree : ∀ p ∈ Q, (⟨r.uncoupled ++ (t2.uncoupled ++ us), cs.getLastD d, r.areDual ++ (t2.areDual ++ ds),
          pre r ++ (p.1.1 ++ d :: cs).dropLast, r.mult ++ (p.1.2 ++ ms)⟩ : FusionTree S) =
          extendMany r (t2.uncoupled ++ us) (t2.areDual ++ ds) (p.1.1 ++ d :: cs) (p.1.2 ++ ms) ∧
          Chain R r.coupled (t2.uncoupled ++ us) (p.1.1 ++ d :: cs) (p.1.2 ++ ms) := by
        intro p hp
        have hch := chain_app r.coupled d t2.uncoupled us p.1.1 cs p.1.2 ms (s1 p hp) g4
        refine ⟨?_, hch⟩
        obtain ⟨c1, c2⟩ := chain_length R hch
        match hu2 : t2.uncoupled ++ us, hc2 : p.1.1 ++ d :: cs with
        | [], _ => rw [List.append_eq_nil_iff] at hu2; rw [hu2.1] at hl2; simp at hl2
        | _ :: _, [] => simp at hc2
        | u :: us', c :: cs' =>
          rw [hu2, hc2] at c1
          rw [hu2] at c2
          rw [extendMany_eq r hlr u us' (t2.areDual ++ ds) c cs' (p.1.2 ++ ms) (by
            have := congrArg List.length hu2
            simp only [List.length_append, List.length_cons] at this ⊢
            rw [h2.len_dual, g3']; exact this) (by simpa using c1) (by simpa using c2)]
          have : cs.getLastD d = cs'.getLastD c := by
            have e := congrArg (fun l => l.getLastD d) hc2
            simp only [getLastD_app, List.getLastD_cons] at e
            exact e
          rw [this]
      rw [hins]
      have hsec : ∀ p ∈ Q, (p.1.1 ++ d :: cs).getLastD r.coupled = t.coupled := by
        intro p _
        rw [i3, getLastD_app, List.getLastD_cons]
      refine ⟨?_, ?_⟩
      · intro p hp
        obtain ⟨q, hq, rfl⟩ := List.mem_map.1 hp
        obtain ⟨e1, e2⟩ := htree q hq
        refine ⟨?_, ?_, ?_, ?_⟩
        · simp only
          rw [e1]
          exact (extendMany_sane r g1 hlr _ _ _ _ (by simp [h2.len_dual, g3']) e2).1
        · simp only
          rw [i3, List.getLastD_cons]
        · simp only
          rw [i1, ← g2]
          simp
        · simp only
          rw [i2, ← g2, ← hdl]
          simp
      · intro is js is' hi hj hi' k hk
        have hi1 : InDims T r.uncoupled is := by
          rw [i1, ← g2] at hi; simpa using hi
        have hi2 : InDims T us is' := by
          rw [i1, ← g2] at hi'; simpa using hi'
        have hkd : k < T.dim ((d :: cs).getLastD r.coupled) := by rw [← i3]; exact hk
        rw [List.map_map]
        have e1 : ∀ q ∈ Q, ((fun p : FusionTree S × K => p.2 * treeTensor T p.1 (is ++ js ++ is') k) ∘ fun p =>
            ((⟨r.uncoupled ++ (t2.uncoupled ++ us), cs.getLastD d, r.areDual ++ (t2.areDual ++ ds),
              pre r ++ (p.1.1 ++ d :: cs).dropLast, r.mult ++ (p.1.2 ++ ms)⟩ : FusionTree S), p.2)) q =
            ((List.range (T.dim r.coupled)).map fun x => ((List.range (T.dim d)).map fun l =>
              treeTensor T r is x * chainMat T d us ds cs ms l is' k *
                (q.2 * chainMat T r.coupled t2.uncoupled t2.areDual (q.1.1 ++ [d]) q.1.2 x js l)).sum).sum := by
          intro q hq
          simp only [Function.comp_def]
          obtain ⟨f1, f2⟩ := htree q hq
          rw [f1, List.append_assoc, treeTensor_extendMany hL r g1 hlr _ _ _ _ (by simp [h2.len_dual, g3']) f2 is
            (js ++ is') hi1 (List.rel_append hj hi2) k (by rw [hsec q hq]; exact hk), mul_sum]
          refine sum_congr _ fun x _ => ?_
          rw [chainMat_append r.coupled t2.uncoupled t2.areDual q.1.1 q.1.2 d h2.len_dual (s1 q hq) us ds cs ms x js is'
            hj.length_eq.symm k, mul_sum, mul_sum]
          exact sum_congr _ fun l _ => by ring
        rw [sum_congr _ e1, sum_comm]
        have e2 : ∀ g ∈ List.range (T.dim t2.coupled), treeTensor T t (is ++ [g] ++ is') k * treeTensor T t2 js g =
            ((List.range (T.dim r.coupled)).map fun x => ((List.range (T.dim d)).map fun l =>
              treeTensor T r is x * chainMat T d us ds cs ms l is' k *
                (treeTensor T t2 js g * T.X r.coupled t2.coupled d false false m x g l)).sum).sum := by
          intro g hg
          rw [g5, List.append_assoc, treeTensor_extendMany hL r g1 hlr (t2.coupled :: us) (false :: ds) (d :: cs) (m :: ms) g3
            (And.intro hm g4) is ([g] ++ is') hi1
            (.cons (List.mem_range.1 hg) hi2) k hkd, sum_mul]
          refine sum_congr _ fun x _ => ?_
          rw [List.singleton_append, chainMat, mul_sum, sum_mul]
          exact sum_congr _ fun l _ => by ring
        rw [sum_congr _ e2]
        refine Eq.trans ?_ (sum_comm _ _ _).symm
        refine sum_congr _ fun x hx => ?_
        refine (sum_comm _ _ _).trans (Eq.trans ?_ (sum_comm _ _ _).symm)
        refine sum_congr _ fun l hl => ?_
        rw [← mul_sum, ← mul_sum]
        congr 1
        have := s2 x js [] l (List.mem_range.1 hx) hj .nil
        simp only [List.append_nil] at this
        refine this.trans ?_
        simp only [colSum, List.map_cons, List.map_nil, List.sum_cons, List.sum_nil, add_zero, one_mul, partVal,
          List.headD_nil, List.headD_cons, List.nil_append, List.tail_cons]
        refine sum_congr _ fun g _ => ?_
        congr 1
        rw [← sum_range_single (T.dim d) l (List.mem_range.1 hl) fun y => T.X r.coupled t2.coupled d false false m x g y]
        refine sum_congr _ fun y _ => ?_
        by_cases hy : l = y
        · simp [hy, chainMat]
        · simp [hy, Ne.symm hy, chainMat]

end Cyten.FT
