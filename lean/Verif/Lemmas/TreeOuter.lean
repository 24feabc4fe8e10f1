import Verif.Model.TreeOuter
import Verif.Lemmas.TreeMoves
import Verif.Lemmas.TreeMapping

/-! # `insert_at` and `outer` of fusion trees: the tensors of the results -/

namespace Cyten.FT.Spec
open Cyten.FT

/-- What the fusion tensors and the F symbol of a group symmetry satisfy
(tests/python_tests/test_symmetries.py, `check_fusion_tensor`, `check_symbols_via_fusion_tensors`): completeness, the
relationship to the left and right unitor, the defining property of the F symbol. -/
structure OuterLaws {S K : Type} [DecidableEq S] [CommRing K] [StarRing K] (R : FusionRule S) (T : FTensors S K)
    (F : FSym S K) : Prop where
  unit_left : ∀ b c, R.nSymbol R.unit b c = if b = c then 1 else 0
  unit_right : ∀ a c, R.nSymbol a R.unit c = if a = c then 1 else 0
  x_unit_left : ∀ (b : S) (j k : ℕ), j < T.dim b → k < T.dim b →
    T.X R.unit b b false false 0 0 j k = if j = k then 1 else 0
  x_unit_right : ∀ (a : S) (i k : ℕ), i < T.dim a → k < T.dim a →
    T.X a R.unit a false false 0 i 0 k = if i = k then 1 else 0
  complete : ∀ (a b : S) (i j i' j' : ℕ), i < T.dim a → j < T.dim b → i' < T.dim a → j' < T.dim b →
    ((R.outcomes a b).map fun c => ((List.range (R.nSymbol a b c)).map fun mu => ((List.range (T.dim c)).map fun k =>
      star (T.X a b c false false mu i j k) * T.X a b c false false mu i' j' k).sum).sum).sum =
      if i = i' ∧ j = j' then 1 else 0
  f_move : ∀ (a b c d e : S) (mu nu i j k l : ℕ), mu < R.nSymbol b c e → nu < R.nSymbol a e d → i < T.dim a →
    j < T.dim b → k < T.dim c → l < T.dim d →
    ((List.range (T.dim e)).map fun h => T.X b c e false false mu j k h * T.X a e d false false nu i h l).sum =
      ((R.channels a b c d).map fun q => F a b c d e q.1 mu nu q.2.1 q.2.2 *
        ((List.range (T.dim q.1)).map fun h =>
          T.X a b q.1 false false q.2.1 i j h * T.X q.1 c d false false q.2.2 h k l).sum).sum

/-- The cutoff of `insert_at` drops only zeros. -/
def FCutoffExact {S K : Type} [Zero K] (F : FSym S K) (small : K → Bool) : Prop :=
  ∀ (a b c d e f : S) (mu nu kappa lam : ℕ), small (F a b c d e f mu nu kappa lam) = true →
    F a b c d e f mu nu kappa lam = 0

end Cyten.FT.Spec

namespace Cyten.FT
open Cyten.FT.Spec Cyten.Tools Cyten.ListSum Cyten.Props Cyten.Mappings

variable {S K : Type} [LinearOrder S] [CommRing K] [StarRing K]

/-! ## Chains of vertices -/

/-- The matrix of a chain of vertices -/
def chainMat (T : FTensors S K) : S → List S → List Bool → List S → List ℕ → ℕ → List ℕ → ℕ → K
  | a, b :: bs, d :: ds, c :: cs, m :: ms, g, j :: js, k =>
    ((List.range (T.dim c)).map fun h => T.X a b c false d m g j h * chainMat T c bs ds cs ms h js k).sum
  | _, _, _, _, _, g, _, k => if g = k then 1 else 0

/-- A tree with more vertices -/
def extendMany : FusionTree S → List S → List Bool → List S → List ℕ → FusionTree S
  | r, u :: us, d :: ds, c :: cs, m :: ms => extendMany (r.extended u m c d) us ds cs ms
  | r, _, _, _, _ => r

variable {R : FusionRule S} {T : FTensors S K} {D : Topo S K} {F : FSym S K}

theorem extendMany_sane (r : FusionTree S) (hr : r.Sane R) (hl : 1 ≤ r.uncoupled.length) (us : List S) (ds : List Bool)
    (cs : List S) (ms : List ℕ) (hd : ds.length = us.length) (hc : Chain R r.coupled us cs ms) :
    (extendMany r us ds cs ms).Sane R ∧ 1 ≤ (extendMany r us ds cs ms).uncoupled.length := by
  induction us generalizing r ds cs ms with
  | nil => exact ⟨by simpa [extendMany] using hr, by simpa [extendMany] using hl⟩
  | cons u us ih =>
    match ds, cs, ms, hd, hc with
    | d :: ds, c :: cs, m :: ms, hd, hc =>
      simp only [Chain] at hc
      exact ih (r.extended u m c d) (extended_sane_pos R r hr u c m d hl hc.1) (by simp [FusionTree.extended]) ds cs ms
        (by simpa using hd) hc.2

/-- the inner sectors of the tree, with its coupled sector if it has a vertex -/
def pre (r : FusionTree S) : List S := if 2 ≤ r.uncoupled.length then r.inner ++ [r.coupled] else r.inner

omit [LinearOrder S] in
theorem extendMany_eq (r : FusionTree S) (hl : 1 ≤ r.uncoupled.length) (u : S) (us : List S) (ds : List Bool)
    (c : S) (cs : List S) (ms : List ℕ) (hd : ds.length = us.length + 1) (hc : cs.length = us.length)
    (hm : ms.length = us.length + 1) :
    extendMany r (u :: us) ds (c :: cs) ms = ⟨r.uncoupled ++ u :: us, cs.getLastD c, r.areDual ++ ds,
      pre r ++ (c :: cs).dropLast, r.mult ++ ms⟩ := by
  induction us generalizing r u ds c cs ms with
  | nil =>
    obtain rfl := List.length_eq_zero_iff.1 hc
    match ds, ms, hd, hm with
    | [d], [m], _, _ =>
      simp [extendMany, FusionTree.extended, pre, show ¬ r.uncoupled = [] by rintro h; rw [h] at hl; simp at hl]
  | cons u' us ih =>
    match ds, cs, ms, hd, hc, hm with
    | d :: ds, c' :: cs, m :: ms, hd, hc, hm =>
      have e : extendMany r (u :: u' :: us) (d :: ds) (c :: c' :: cs) (m :: ms) =
          extendMany (r.extended u m c d) (u' :: us) ds (c' :: cs) ms := rfl
      rw [e, ih (r.extended u m c d) (by simp [FusionTree.extended]) u' ds c' cs ms (by simpa using hd)
        (by simpa using hc) (by simpa using hm)]
      have h2 : 2 ≤ (r.extended u m c d).uncoupled.length := by simp [FusionTree.extended]; omega
      have h3 : ¬ r.uncoupled.length = 0 := by omega
      simp only [FusionTree.mk.injEq]
      refine ⟨by simp [FusionTree.extended], (List.getLastD_cons).symm, by simp [FusionTree.extended], ?_,
        by simp [FusionTree.extended, h3]⟩
      rw [show pre (r.extended u m c d) = (r.extended u m c d).inner ++ [c] by rw [pre, if_pos h2]; rfl]
      simp [FusionTree.extended, pre]

/-- The tensor of a tree with more vertices -/
theorem treeTensor_extendMany (hL : GroupLaws R T D) (r : FusionTree S) (hr : r.Sane R) (hl : 1 ≤ r.uncoupled.length)
    (us : List S) (ds : List Bool) (cs : List S) (ms : List ℕ) (hd : ds.length = us.length)
    (hc : Chain R r.coupled us cs ms) (is js : List ℕ) (hi : InDims T r.uncoupled is) (hj : InDims T us js) (k : ℕ)
    (hk : k < T.dim (cs.getLastD r.coupled)) :
    treeTensor T (extendMany r us ds cs ms) (is ++ js) k =
      ((List.range (T.dim r.coupled)).map fun g => treeTensor T r is g *
        chainMat T r.coupled us ds cs ms g js k).sum := by
  induction us generalizing r ds cs ms is js with
  | nil =>
    obtain rfl : js = [] := by
      have := hj.length_eq
      exact List.length_eq_zero_iff.1 this.symm
    obtain ⟨l1, l2⟩ := chain_length R hc
    obtain rfl := List.length_eq_zero_iff.1 l1
    simp only [extendMany, chainMat, List.append_nil]
    have hk' : k < T.dim r.coupled := by simpa using hk
    rw [← sum_range_single (T.dim r.coupled) k hk' fun g => treeTensor T r is g]
    refine sum_congr _ fun g _ => ?_
    by_cases hg : g = k
    · simp [hg]
    · simp [hg, Ne.symm hg]
  | cons u us ih =>
    match ds, cs, ms, js, hd, hc, hj with
    | d :: ds, c :: cs, m :: ms, j :: js, hd, hc, .cons hj1 hj2 =>
      simp only [Chain] at hc
      have e1 : treeTensor T (extendMany r (u :: us) (d :: ds) (c :: cs) (m :: ms)) (is ++ j :: js) k =
          treeTensor T (extendMany (r.extended u m c d) us ds cs ms) ((is ++ [j]) ++ js) k := by
        simp [extendMany]
      rw [e1, ih (r.extended u m c d) (extended_sane_pos R r hr u c m d hl hc.1) (by simp [FusionTree.extended]) ds cs ms
        (by simpa using hd) hc.2 (is ++ [j]) js (List.rel_append hi (.cons hj1 .nil)) hj2
        (by rw [List.getLastD_cons] at hk; exact hk)]
      rw [extended_coupled]
      have e2 : ∀ h ∈ List.range (T.dim c), treeTensor T (r.extended u m c d) (is ++ [j]) h *
          chainMat T c us ds cs ms h js k = ((List.range (T.dim r.coupled)).map fun g => treeTensor T r is g *
            (T.X r.coupled u c false d m g j h * chainMat T c us ds cs ms h js k)).sum := by
        intro h hh
        rw [treeTensor_extended hL r hr hl u c m d hc.1 is hi j h hj1 (List.mem_range.1 hh), sum_mul]
        exact sum_congr _ fun g _ => by ring
      rw [sum_congr _ e2, sum_comm]
      refine sum_congr _ fun g _ => ?_
      rw [chainMat, mul_sum]

/-- Every tree with more than `n` sectors is a tree with `n` sectors and further vertices. -/
theorem tree_prefix (t : FusionTree S) (h : t.Sane R) (n : ℕ) (hn : 1 ≤ n) (hl : n ≤ t.uncoupled.length) :
    ∃ (r : FusionTree S) (us : List S) (ds : List Bool) (cs : List S) (ms : List ℕ), r.Sane R ∧
      r.uncoupled.length = n ∧ ds.length = us.length ∧ Chain R r.coupled us cs ms ∧ t = extendMany r us ds cs ms ∧
      us.length + n = t.uncoupled.length := by
  suffices H : ∀ (N : ℕ) (t : FusionTree S) (us : List S) (ds : List Bool) (cs : List S) (ms : List ℕ), t.Sane R →
      t.uncoupled.length = N + n → ds.length = us.length → Chain R t.coupled us cs ms →
      ∃ (r : FusionTree S) (us' : List S) (ds' : List Bool) (cs' : List S) (ms' : List ℕ), r.Sane R ∧
      r.uncoupled.length = n ∧ ds'.length = us'.length ∧ Chain R r.coupled us' cs' ms' ∧
      extendMany t us ds cs ms = extendMany r us' ds' cs' ms' ∧ us'.length = us.length + N by
    obtain ⟨r, us, ds, cs, ms, h1, h2, h3, h4, h5, h6⟩ := H (t.uncoupled.length - n) t [] [] [] [] h (by omega) rfl
      (by simp [Chain])
    exact ⟨r, us, ds, cs, ms, h1, h2, h3, h4, h5, by simp at h6; omega⟩
  intro N
  induction N with
  | zero =>
    intro t us ds cs ms h hN hd hc
    exact ⟨t, us, ds, cs, ms, h, by omega, hd, hc, rfl, rfl⟩
  | succ N ih =>
    intro t us ds cs ms h hN hd hc
    obtain ⟨r, mu, z, d, hr, hlr, hmu, ht⟩ := tree_cases t h (by omega)
    have hlr' : r.uncoupled.length = N + n := by rw [ht, extended_uncoupled] at hN; simp at hN; omega
    obtain ⟨r', us', ds', cs', ms', h1, h2, h3, h4, h5, h6⟩ := ih r (z :: us) (d :: ds) (t.coupled :: cs) (mu :: ms) hr
      hlr' (by simpa using hd) ⟨hmu, hc⟩
    refine ⟨r', us', ds', cs', ms', h1, h2, h3, h4, ?_, by simp at h6 ⊢; omega⟩
    rw [← h5]
    show extendMany t us ds cs ms = extendMany (r.extended z mu t.coupled d) us ds cs ms
    rw [← ht]

end Cyten.FT
