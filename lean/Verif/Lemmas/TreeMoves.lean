import Verif.Model.TreePairMapping
import Verif.Lemmas.TreeTensor
import Verif.Lemmas.TreesSurgery
import Verif.Lemmas.TreesBraid
import Verif.Lemmas.PermuteOrder

/-! # Braids and bends of the tensors of fusion trees -/

namespace Cyten.FT.Spec
open Cyten.FT

/-- What the symbols of a group symmetry satisfy (tests/python_tests/test_symmetries.py, `check_fusion_tensor`
and `check_symbols_via_fusion_tensors`), without multiplicity-free assumptions: the exchange of two factors is the
exchange of two indices. -/
structure GroupLaws {S K : Type} [DecidableEq S] [CommRing K] [StarRing K] (R : FusionRule S) (T : FTensors S K)
    (D : Topo S K) : Prop where
  dual_eq : D.dual = T.dual
  dual_dual : ∀ a, T.dual (T.dual a) = a
  dual_unit : T.dual R.unit = R.unit
  dim_dual : ∀ a, T.dim (T.dual a) = T.dim a
  dim_unit : T.dim R.unit = 1
  trivial : D.trivialBraid = true
  comm : ∀ a b c, R.nSymbol a b c = R.nSymbol b a c
  rotate : ∀ a b c, R.nSymbol a b c = R.nSymbol c (T.dual b) a
  unit_right : ∀ a b, 0 < R.nSymbol a b R.unit → b = T.dual a
  unit_one : ∀ a, R.nSymbol a (T.dual a) R.unit = 1
  /-- `Z_a`, `Z_b`: contraction with `Z_iso` -/
  z_left : ∀ (a b c : S) (e : Bool) (mu i j k : ℕ), mu < R.nSymbol a b c → i < T.dim a → j < T.dim b → k < T.dim c →
    T.X a b c true e mu i j k =
      ((List.range (T.dim a)).map fun h => T.Z (T.dual a) h i * T.X a b c false e mu h j k).sum
  z_right : ∀ (a b c : S) (d : Bool) (mu i j k : ℕ), mu < R.nSymbol a b c → i < T.dim a → j < T.dim b → k < T.dim c →
    T.X a b c d true mu i j k =
      ((List.range (T.dim b)).map fun h => T.Z (T.dual b) h j * T.X a b c d false mu i h k).sum
  /-- the Frobenius-Schur indicator -/
  z_fs : ∀ (a : S) (i j : ℕ), i < T.dim a → j < T.dim a → T.Z (T.dual a) i j = D.frobSchur a * T.Z a j i
  z_unitary : ∀ (a : S) (i j : ℕ), i < T.dim a → j < T.dim a →
    ((List.range (T.dim a)).map fun h => star (T.Z a h i) * T.Z a h j).sum = if i = j then 1 else 0
  /-- `Z_iso`, src/symmetries/base_symmetry.cpp:107-117 -/
  z_cup : ∀ (a : S) (i j : ℕ), i < T.dim a → j < T.dim a →
    T.Z a j i = D.sqrtQdim a * star (T.X a (T.dual a) R.unit false false 0 i j 0)
  z_one : T.Z R.unit 0 0 = 1
  sqrt_one : D.sqrtQdim R.unit = 1
  sqrt_inv : ∀ a, D.invSqrtQdim a * D.sqrtQdim a = 1
  sqrt_real : ∀ a, star (D.sqrtQdim a) = D.sqrtQdim a
  inv_real : ∀ a, star (D.invSqrtQdim a) = D.invSqrtQdim a
  fs_one : D.frobSchur R.unit = 1
  fs_real : ∀ a, star (D.frobSchur a) = D.frobSchur a
  fs_sq : ∀ a, D.frobSchur a * D.frobSchur a = 1
  /-- the R symbol -/
  r_move : ∀ (a b c : S) (mu i j k : ℕ), mu < R.nSymbol a b c → i < T.dim a → j < T.dim b → k < T.dim c →
    T.X a b c false false mu i j k = D.rSym a b c mu * T.X b a c false false mu j i k
  r_unitary : ∀ (a b c : S) (mu : ℕ), mu < R.nSymbol a b c → star (D.rSym b a c mu) = D.rSym a b c mu
  /-- the C symbol -/
  c_move : ∀ (a b c d e : S) (mu nu i j k l : ℕ), mu < R.nSymbol a b e → nu < R.nSymbol e c d → i < T.dim a →
    j < T.dim b → k < T.dim c → l < T.dim d →
    ((List.range (T.dim e)).map fun h => T.X a b e false false mu i j h * T.X e c d false false nu h k l).sum =
      ((R.channels a c b d).map fun q => D.cSym a b c d e q.1 mu nu q.2.1 q.2.2 *
        ((List.range (T.dim q.1)).map fun h =>
          T.X a c q.1 false false q.2.1 i k h * T.X q.1 b d false false q.2.2 h j l).sum).sum
  c_unitary : ∀ (a b c d e f : S) (mu nu kappa lam : ℕ), mu < R.nSymbol a b e → nu < R.nSymbol e c d →
    kappa < R.nSymbol a c f → lam < R.nSymbol f b d →
    star (D.cSym a c b d f e kappa lam mu nu) = D.cSym a b c d e f mu nu kappa lam
  /-- the B symbol -/
  b_extent : ∀ a b c, 0 < R.nSymbol a b c → D.bExtent a b c = R.nSymbol c (T.dual b) a
  b_move : ∀ (a b c : S) (mu i j k : ℕ), mu < R.nSymbol a b c → i < T.dim a → j < T.dim b → k < T.dim c →
    T.X a b c false false mu i j k =
      ((List.range (R.nSymbol c (T.dual b) a)).map fun nu => D.bSym a b c mu nu *
        star ((List.range (T.dim b)).map fun h => T.Z b h j * T.X c (T.dual b) a false false nu k h i).sum).sum

/-- The cutoff of `braid` drops only zeros. -/
structure CutoffExact {S K : Type} [Zero K] [Star K] (D : Topo S K) (small : K → Bool) : Prop where
  c : ∀ (a b c d e f : S) (mu nu kappa lam : ℕ), small (D.cSym a b c d e f mu nu kappa lam) = true →
    D.cSym a b c d e f mu nu kappa lam = 0
  c_star : ∀ (a b c d e f : S) (mu nu kappa lam : ℕ), small (star (D.cSym a b c d e f mu nu kappa lam)) = true →
    D.cSym a b c d e f mu nu kappa lam = 0

end Cyten.FT.Spec

namespace Cyten.FT
open Cyten.FT.Spec Cyten.Tools Cyten.ListSum Cyten.Props Cyten.Permute Cyten.Mappings

variable {S K : Type} [LinearOrder S] [CommRing K] [StarRing K]

/-- Indices of states of the sectors -/
def InDims (T : FTensors S K) (unc : List S) (is : List ℕ) : Prop := List.Forall₂ (fun a i => i < T.dim a) unc is

theorem conjIf_conjIf (b : Bool) (x : K) : conjIf b (conjIf b x) = x := by cases b <;> simp [conjIf]

theorem vertexLoop_concat (T : FTensors S K) (res : List ℕ → ℕ → K) (a : S) (bs : List S) (ds : List Bool) (cs : List S)
    (ms : List ℕ) (z c : S) (d : Bool) (mu : ℕ) (hd : ds.length = bs.length) (hc : cs.length = bs.length)
    (hm : ms.length = bs.length) :
    vertexLoop T res a (bs ++ [z]) (ds ++ [d]) (cs ++ [c]) (ms ++ [mu]) =
      vertexStep T (vertexLoop T res a bs ds cs ms) ((a :: cs).getLastD a) z c d mu := by
  induction bs generalizing res a ds cs ms with
  | nil =>
    obtain rfl := List.length_eq_zero_iff.1 hd
    obtain rfl := List.length_eq_zero_iff.1 hc
    obtain rfl := List.length_eq_zero_iff.1 hm
    simp [vertexLoop]
  | cons b bs ih =>
    match ds, cs, ms, hd, hc, hm with
    | d' :: ds, c' :: cs, m :: ms, hd, hc, hm =>
      simp only [List.cons_append, vertexLoop]
      rw [ih (vertexStep T res a b c' d' m) c' ds cs ms (by simpa using hd) (by simpa using hc) (by simpa using hm)]
      congr 1

theorem treeTensor_extended {R : FusionRule S} {T : FTensors S K} {D : Topo S K} (hL : GroupLaws R T D)
    (t : FusionTree S) (h : t.Sane R) (hl : 1 ≤ t.uncoupled.length) (z c : S) (mu : ℕ) (d : Bool)
    (hmu : mu < R.nSymbol t.coupled z c) (is : List ℕ) (hi : InDims T t.uncoupled is) (j k : ℕ) (hj : j < T.dim z)
    (hk : k < T.dim c) :
    treeTensor T (t.extended z mu c d) (is ++ [j]) k =
      ((List.range (T.dim t.coupled)).map fun g => treeTensor T t is g * T.X t.coupled z c false d mu g j k).sum := by
  obtain ⟨u, co, du, inn, ms⟩ := t
  simp only at hl hmu hi
  match u, hl with
  | [a], _ =>
    obtain ⟨h0, h1, h2, h3⟩ := (sane_one_iff R _ a rfl).1 h
    simp only at h0 h1 h2 h3
    subst h0 h2 h3
    match du, h1, is, hi with
    | [d0], _, [i], hi =>
      have hia : i < T.dim a := by simpa [InDims] using hi
      have e1 : treeTensor T (FusionTree.extended ⟨[a], a, [d0], [], []⟩ z mu c d) ([i] ++ [j]) k =
          T.X a z c d0 d mu i j k := rfl
      have e2 : ∀ g, treeTensor T ⟨[a], a, [d0], [], []⟩ [i] g =
        if d0 then T.Z (T.dual a) g i else if i = g then 1 else 0 := fun g => rfl
      rw [e1]
      simp only [e2]
      cases d0
      · simp only [Bool.false_eq_true, if_false]
        rw [← sum_range_single (T.dim a) i hia fun g => T.X a z c false d mu g j k]
        refine sum_congr _ fun g _ => ?_
        by_cases hg : i = g <;> simp [hg]
      · simp only [if_true]
        rw [hL.z_left a z c d mu i j k hmu hia hj hk]
  | a :: b :: rest, _ =>
    obtain ⟨h1, h2⟩ := (sane_iff_chain R _ a b rest rfl).1 h
    simp only at h1 h2
    obtain ⟨l1, l2⟩ := chain_length R h2
    match du, ms, hcs : inn ++ [co], h1, l1, l2 with
    | d0 :: d1 :: ds, m :: ms, c0 :: cs, h1, l1, l2 =>
      simp only [FusionTree.extended, treeTensor, List.length_cons, List.cons_append]
      simp only [show 2 ≤ rest.length + 1 + 1 by omega, show ¬ (rest.length + 1 + 1 = 0) by omega, if_true, if_false]
      rw [hcs]
      simp only [List.cons_append]
      simp only [List.length_append, List.length_cons, List.length_nil] at l1 l2 h1
      rw [vertexLoop_concat T _ c0 rest ds cs ms z c d mu (by omega) (by
        have := congrArg List.length hcs; simp at this; omega) (by omega)]
      have hlast : ((c0 :: cs).getLastD c0) = co := by
        rw [← hcs]; simp
      rw [hlast]
      simp only [vertexStep, List.dropLast_concat, List.getLastD_concat]

/-! ## Braids -/

omit [LinearOrder S] in
theorem vertexLabels_extended [DecidableEq S] {R : FusionRule S} (r : FusionTree S) (h : r.Sane R) (z c : S) (mu : ℕ) (d : Bool) (m : ℕ)
    (hm : m + 1 < r.uncoupled.length) : (r.extended z mu c d).vertexLabels m = r.vertexLabels m := by
  obtain ⟨u, co, du, inn, ms⟩ := r
  have h1 := h.len_inner
  have h2 := h.len_mult
  simp only at h1 h2 hm
  unfold FusionTree.vertexLabels FusionTree.extended
  simp only [List.length_append, List.length_cons, List.length_nil]
  rw [if_pos (show 2 ≤ u.length by omega), if_neg (show ¬ u.length = 0 by omega)]
  rw [List.getElem?_append_left (show 0 < u.length by omega), List.getElem?_append_left (show 1 < u.length by omega),
    List.getElem?_append_left (show m < ms.length by omega)]
  have e2 : (u ++ [z])[m + 1]? = u[m + 1]? := List.getElem?_append_left (by omega)
  rw [e2]
  have e3 : (inn ++ [co])[m - 1]? = if m = 0 then (inn ++ [co])[m - 1]? else inn[m - 1]? := by
    by_cases h0 : m = 0
    · rw [if_pos h0]
    · rw [if_neg h0, List.getElem?_append_left (by omega)]
  have e4 : (if m = u.length + (0 + 1) - 1 - 1 then some c else (inn ++ [co])[m]?) =
      if m = u.length - 1 - 1 then some co else inn[m]? := by
    rw [if_neg (by omega)]
    by_cases h0 : m = u.length - 1 - 1
    · rw [if_pos h0, h0, List.getElem?_append_right (by omega), h1]
      simp [show u.length - 1 - 1 - (u.length - 2) = 0 by omega]
    · rw [if_neg h0, List.getElem?_append_left (by omega)]
  rw [e4]
  by_cases h0 : m = 0
  · subst h0; rfl
  · simp only [if_neg h0] at e3 ⊢
    rw [e3]

omit [LinearOrder S] [CommRing K] in
theorem braid_extended [DecidableEq S] [CommRing K] [StarRing K] {R : FusionRule S} {D : Topo S K} {small : K → Bool} (r : FusionTree S) (h : r.Sane R)
    (z c : S) (mu : ℕ) (d : Bool) (j : ℕ) (hj : j + 1 < r.uncoupled.length) (ov cj : Bool) :
    braid R D small (r.extended z mu c d) j ov cj =
      (braid R D small r j ov cj).map fun l => l.map fun p => (p.1.extended z mu c d, p.2) := by
  have hd : r.areDual.length = r.uncoupled.length := h.len_dual
  have hi := h.len_inner
  have hm := h.len_mult
  have e0 : ∀ i, i < r.uncoupled.length → (r.extended z mu c d).areDual[i]? = r.areDual[i]? := fun i hi =>
    List.getElem?_append_left (by omega)
  unfold braid
  by_cases h0 : j = 0
  · subst h0
    rw [if_pos rfl, if_pos rfl, vertexLabels_extended r h z c mu d 0 hj, e0 0 (by omega), e0 1 hj]
    rcases r.vertexLabels 0 with _ | ⟨a, b, m, e⟩
    · rfl
    rcases r.areDual[0]? with _ | d0
    · rfl
    rcases r.areDual[1]? with _ | d1
    · rfl
    simp only [Option.map_some, List.map_cons, List.map_nil, Option.some.injEq, List.cons.injEq, Prod.mk.injEq, and_true]
    simp only [FusionTree.extended, FusionTree.mk.injEq, List.length_set]
    refine ⟨?_, trivial, ?_, trivial, trivial⟩
    · rw [List.set_append_left _ _ (by omega), List.set_append_left _ _ (by simpa using by omega)]
    · rw [List.set_append_left _ _ (by omega), List.set_append_left _ _ (by simpa using by omega)]
  · rw [if_neg h0, if_neg h0, vertexLabels_extended r h z c mu d (j - 1) (by omega),
      vertexLabels_extended r h z c mu d j hj, e0 j (by omega), e0 (j + 1) hj]
    rcases r.vertexLabels (j - 1) with _ | ⟨a, b, m, e⟩
    · rfl
    rcases r.vertexLabels j with _ | ⟨a', b', m', e'⟩
    · rfl
    rcases r.areDual[j]? with _ | d0
    · rfl
    rcases r.areDual[j + 1]? with _ | d1
    · rfl
    simp only [Option.map_some, Option.some.injEq]
    rw [List.filter_map, List.filter_map, List.map_map]
    refine List.map_congr_left fun q _ => ?_
    simp only [Function.comp_def, FusionTree.extended, Prod.mk.injEq, FusionTree.mk.injEq, List.length_set, and_true,
      true_and]
    have n1 : 2 ≤ r.uncoupled.length := by omega
    have n2 : ¬ r.uncoupled.length = 0 := by omega
    simp only [n1, n2, if_true, if_false]
    refine ⟨?_, ?_, ?_, ?_⟩
    · rw [List.set_append_left _ _ (by omega), List.set_append_left _ _ (by simpa using by omega)]
    · rw [List.set_append_left _ _ (by omega), List.set_append_left _ _ (by simpa using by omega)]
    · rw [List.set_append_left _ _ (by omega)]
    · rw [List.set_append_left _ _ (by omega), List.set_append_left _ _ (by simpa using by omega)]

theorem swapNext_mid {α : Type} (P : List α) (x y : α) (n : ℕ) (hn : n = P.length) :
    swapNext (P ++ [x] ++ [y]) n = P ++ [y] ++ [x] := by
  subst hn
  have := swapAdj_mid P [] x y
  simpa [swapNext_eq] using this

theorem swapNext_concat {α : Type} (l : List α) (x : α) (j : ℕ) (hj : j + 1 < l.length) :
    swapNext (l ++ [x]) j = swapNext l j ++ [x] := by
  unfold swapNext
  rw [List.getElem?_append_left (by omega), List.getElem?_append_left hj, List.getElem?_eq_getElem hj,
    List.getElem?_eq_getElem (show j < l.length by omega)]
  simp only
  rw [List.set_append_left _ _ (by omega), List.set_append_left _ _ (by simpa using hj)]

theorem length_swapNext {α : Type} (l : List α) (j : ℕ) : (swapNext l j).length = l.length := by
  rw [swapNext_eq]; simp

theorem swapNext_of_le {α : Type} (l : List α) (j : ℕ) (h : l.length ≤ j + 1) : swapNext l j = l := by
  unfold swapNext
  rw [List.getElem?_eq_none h]
  rcases l[j]? with _ | x <;> rfl

theorem inDims_swap {T : FTensors S K} {u : List S} {is : List ℕ} (h : InDims T u is) (j : ℕ) :
    InDims T (swapNext u j) (swapNext is j) := by
  have hl := h.length_eq
  by_cases hj : j + 1 < u.length
  · rw [InDims, List.forall₂_iff_get] at h ⊢
    obtain ⟨-, h⟩ := h
    refine ⟨by rw [length_swapNext, length_swapNext, hl], fun i h1 h2 => ?_⟩
    rw [length_swapNext] at h1 h2
    simp only [List.get_eq_getElem] at h ⊢
    unfold swapNext
    simp only [List.getElem?_eq_getElem hj, List.getElem?_eq_getElem (show j < u.length by omega),
      List.getElem?_eq_getElem (show j + 1 < is.length by omega),
      List.getElem?_eq_getElem (show j < is.length by omega), List.getElem_set]
    split_ifs
    · exact h _ (by omega) (by omega)
    · exact h _ (by omega) (by omega)
    · exact h _ (by omega) (by omega)
  · rw [swapNext_of_le u j (by omega), swapNext_of_le is j (by omega)]
    exact h

/-- The matrix of a leg: the identity, or `Z_iso` of the dual sector for an arrow that points up. -/
def legMat (T : FTensors S K) (d : Bool) (a : S) (h i : ℕ) : K :=
  if d then T.Z (T.dual a) h i else if h = i then 1 else 0

theorem x_left {R : FusionRule S} {T : FTensors S K} {D : Topo S K} (hL : GroupLaws R T D) (a b c : S) (d e : Bool)
    (mu i j k : ℕ) (hmu : mu < R.nSymbol a b c) (hi : i < T.dim a) (hj : j < T.dim b) (hk : k < T.dim c) :
    T.X a b c d e mu i j k = ((List.range (T.dim a)).map fun h => legMat T d a h i * T.X a b c false e mu h j k).sum := by
  cases d
  · rw [← sum_range_single (T.dim a) i hi fun g => T.X a b c false e mu g j k]
    refine sum_congr _ fun g _ => ?_
    by_cases hg : g = i
    · simp [legMat, hg]
    · simp [legMat, hg, Ne.symm hg]
  · rw [hL.z_left a b c e mu i j k hmu hi hj hk]; rfl

theorem x_right {R : FusionRule S} {T : FTensors S K} {D : Topo S K} (hL : GroupLaws R T D) (a b c : S) (d e : Bool)
    (mu i j k : ℕ) (hmu : mu < R.nSymbol a b c) (hi : i < T.dim a) (hj : j < T.dim b) (hk : k < T.dim c) :
    T.X a b c d e mu i j k = ((List.range (T.dim b)).map fun h => legMat T e b h j * T.X a b c d false mu i h k).sum := by
  cases e
  · rw [← sum_range_single (T.dim b) j hj fun g => T.X a b c d false mu i g k]
    refine sum_congr _ fun g _ => ?_
    by_cases hg : g = j
    · simp [legMat, hg]
    · simp [legMat, hg, Ne.symm hg]
  · rw [hL.z_right a b c d mu i j k hmu hi hj hk]; rfl

theorem x_both {R : FusionRule S} {T : FTensors S K} {D : Topo S K} (hL : GroupLaws R T D) (a b c : S) (d e : Bool)
    (mu i j k : ℕ) (hmu : mu < R.nSymbol a b c) (hi : i < T.dim a) (hj : j < T.dim b) (hk : k < T.dim c) :
    T.X a b c d e mu i j k = ((List.range (T.dim a)).map fun g => ((List.range (T.dim b)).map fun h =>
      legMat T d a g i * legMat T e b h j * T.X a b c false false mu g h k).sum).sum := by
  rw [x_left hL a b c d e mu i j k hmu hi hj hk]
  refine sum_congr _ fun g hg => ?_
  rw [x_right hL a b c false e mu g j k hmu (List.mem_range.1 hg) hj hk, mul_sum]
  refine sum_congr _ fun h _ => ?_
  ring

/-- The exchange of the factors of a vertex with any directions of the arrows -/
theorem r_move' {R : FusionRule S} {T : FTensors S K} {D : Topo S K} (hL : GroupLaws R T D) (a b c : S) (d e : Bool)
    (mu i j k : ℕ) (hmu : mu < R.nSymbol a b c) (hi : i < T.dim a) (hj : j < T.dim b) (hk : k < T.dim c) :
    T.X a b c d e mu i j k = D.rSym a b c mu * T.X b a c e d mu j i k := by
  rw [x_both hL a b c d e mu i j k hmu hi hj hk, x_both hL b a c e d mu j i k (by rw [hL.comm]; exact hmu) hj hi hk,
    sum_comm, mul_sum]
  refine sum_congr _ fun h hh => ?_
  rw [mul_sum]
  refine sum_congr _ fun g hg => ?_
  rw [hL.r_move a b c mu g h k hmu (List.mem_range.1 hg) (List.mem_range.1 hh) hk]
  ring

/-- The same for two vertices -/
theorem c_move' {R : FusionRule S} {T : FTensors S K} {D : Topo S K} (hL : GroupLaws R T D) (a b c d e : S)
    (d0 d1 : Bool) (mu nu i j k l : ℕ) (hmu : mu < R.nSymbol a b e) (hnu : nu < R.nSymbol e c d) (hi : i < T.dim a)
    (hj : j < T.dim b) (hk : k < T.dim c) (hl : l < T.dim d) :
    ((List.range (T.dim e)).map fun h => T.X a b e false d0 mu i j h * T.X e c d false d1 nu h k l).sum =
      ((R.channels a c b d).map fun q => D.cSym a b c d e q.1 mu nu q.2.1 q.2.2 *
        ((List.range (T.dim q.1)).map fun h =>
          T.X a c q.1 false d1 q.2.1 i k h * T.X q.1 b d false d0 q.2.2 h j l).sum).sum := by
  have e1 : ∀ h ∈ List.range (T.dim e), T.X a b e false d0 mu i j h * T.X e c d false d1 nu h k l =
      ((List.range (T.dim b)).map fun g => ((List.range (T.dim c)).map fun f => legMat T d0 b g j * legMat T d1 c f k *
        (T.X a b e false false mu i g h * T.X e c d false false nu h f l)).sum).sum := by
    intro h hh
    rw [x_right hL a b e false d0 mu i j h hmu hi hj (List.mem_range.1 hh),
      x_right hL e c d false d1 nu h k l hnu (List.mem_range.1 hh) hk hl, sum_mul_sum]
    refine sum_congr _ fun g _ => sum_congr _ fun f _ => ?_
    ring
  rw [sum_congr _ e1]
  have e2 : ∀ q ∈ R.channels a c b d, D.cSym a b c d e q.1 mu nu q.2.1 q.2.2 *
        ((List.range (T.dim q.1)).map fun h =>
          T.X a c q.1 false d1 q.2.1 i k h * T.X q.1 b d false d0 q.2.2 h j l).sum =
      ((List.range (T.dim b)).map fun g => ((List.range (T.dim c)).map fun f => legMat T d0 b g j * legMat T d1 c f k *
        (D.cSym a b c d e q.1 mu nu q.2.1 q.2.2 * ((List.range (T.dim q.1)).map fun h =>
          T.X a c q.1 false false q.2.1 i f h * T.X q.1 b d false false q.2.2 h g l).sum)).sum).sum := by
    rintro ⟨f0, ka, la⟩ hq
    obtain ⟨hka, hla⟩ := (mem_channels R a c b d f0 ka la).1 hq
    have e3 : ∀ h ∈ List.range (T.dim f0), T.X a c f0 false d1 ka i k h * T.X f0 b d false d0 la h j l =
        ((List.range (T.dim b)).map fun g => ((List.range (T.dim c)).map fun f =>
          legMat T d0 b g j * legMat T d1 c f k *
          (T.X a c f0 false false ka i f h * T.X f0 b d false false la h g l)).sum).sum := by
      intro h hh
      rw [x_right hL a c f0 false d1 ka i k h hka hi hk (List.mem_range.1 hh),
        x_right hL f0 b d false d0 la h j l hla (List.mem_range.1 hh) hj hl, sum_mul_sum, sum_comm]
      refine sum_congr _ fun g _ => sum_congr _ fun f _ => ?_
      ring
    rw [sum_congr _ e3, sum_comm, mul_sum]
    refine sum_congr _ fun g _ => ?_
    rw [sum_comm, mul_sum]
    refine sum_congr _ fun f _ => ?_
    rw [mul_sum, mul_sum, mul_sum]
    refine sum_congr _ fun h _ => ?_
    ring
  rw [sum_congr _ e2]
  refine (sum_comm _ _ _).trans (Eq.trans ?_ (sum_comm _ _ _).symm)
  refine sum_congr _ fun g hg => ?_
  refine (sum_comm _ _ _).trans (Eq.trans ?_ (sum_comm _ _ _).symm)
  refine sum_congr _ fun f hf => ?_
  rw [← mul_sum, ← mul_sum, hL.c_move a b c d e mu nu i g f l hmu hnu hi (List.mem_range.1 hg) (List.mem_range.1 hf) hl]

theorem vertexLabels_last {R : FusionRule S} (r : FusionTree S) (h : r.Sane R) (hl : 1 ≤ r.uncoupled.length) (z c : S)
    (mu : ℕ) (d : Bool) (n : ℕ) (hn : n = r.uncoupled.length - 1) :
    (r.extended z mu c d).vertexLabels n = some (r.coupled, z, mu, c) := by
  subst hn
  obtain ⟨u, co, du, inn, ms⟩ := r
  have h1 := h.len_inner
  have h2 := h.len_mult
  have h3 := h.one_leg
  simp only at h1 h2 h3 hl ⊢
  match u, hl with
  | [a], _ =>
    obtain rfl := List.length_eq_zero_iff.1 h1
    obtain rfl := List.length_eq_zero_iff.1 h2
    obtain rfl := h3 a rfl
    rfl
  | a :: b :: rest, _ =>
    refine vertexLabels_of _ a (b :: rest ++ [z]) (by simp [FusionTree.extended]) ?_ _ (by simp) _ _ _ _ ?_ ?_ ?_ ?_
    · simp [FusionTree.extended, h1]
    all_goals simp [FusionTree.extended, List.getElem?_append, h1, h2]

theorem extended_nmu {R : FusionRule S} (r : FusionTree S) (hr : r.Sane R) (hl : 1 ≤ r.uncoupled.length) (z c : S)
    (mu : ℕ) (d : Bool) (h : (r.extended z mu c d).Sane R) : mu < R.nSymbol r.coupled z c := by
  obtain ⟨a, b, m, c', h1, -, h2⟩ := h.vertices (r.uncoupled.length - 1) (by
    simp only [FusionTree.extended, List.length_append, List.length_cons, List.length_nil]; omega)
  rw [vertexLabels_last r hr hl z c mu d _ rfl] at h1
  simp only [Option.some.injEq, Prod.mk.injEq] at h1
  obtain ⟨rfl, rfl, rfl, rfl⟩ := h1
  exact h2

/-- A tree with at least two sectors is a smaller tree with one more vertex. -/
theorem tree_cases {R : FusionRule S} (t : FusionTree S) (h : t.Sane R) (hl : 2 ≤ t.uncoupled.length) :
    ∃ (r : FusionTree S) (mu : ℕ) (z : S) (d : Bool), r.Sane R ∧ 1 ≤ r.uncoupled.length ∧ mu < R.nSymbol r.coupled z t.coupled ∧
      t = r.extended z mu t.coupled d := by
  obtain ⟨r, mu, z, d, h1, h2, h3, h4, h5⟩ := extended_splitBottom R t h (by omega)
  have hlr : 1 ≤ r.uncoupled.length := by rw [h3] at hl; simp at hl; omega
  exact ⟨r, mu, z, d, h2, hlr, extended_nmu r h2 hlr z t.coupled mu d (by rw [h5]; exact h), h5.symm⟩

/-- What a braid of a group symmetry does to the tensor of the tree -/
structure BraidOK (R : FusionRule S) (T : FTensors S K) (cj : Bool) (t : FusionTree S) (j : ℕ)
    (l : UMap (FusionTree S) K) : Prop where
  tree : ∀ p ∈ l, p.1.Sane R ∧ p.1.coupled = t.coupled ∧ p.1.uncoupled = swapNext t.uncoupled j ∧
    p.1.areDual = swapNext t.areDual j
  sum : ∀ is, InDims T t.uncoupled is → ∀ k, k < T.dim t.coupled →
    (l.map fun p => conjIf cj p.2 * treeTensor T p.1 (swapNext is j) k).sum = treeTensor T t is k

theorem braid_first {R : FusionRule S} {T : FTensors S K} {D : Topo S K} (hL : GroupLaws R T D) (small : K → Bool)
    (a b c : S) (mu : ℕ) (d e : Bool) (hmu : mu < R.nSymbol a b c) (ov cj : Bool) :
    ∃ l, braid R D small ((FusionTree.fromSector a d).extended b mu c e) 0 ov cj = some l ∧
      BraidOK R T cj ((FusionTree.fromSector a d).extended b mu c e) 0 l := by
  have hs : ∀ (a : S) (d : Bool), (FusionTree.fromSector a d).Sane R := fun a d => (sane_one_iff R _ a rfl).2
    ⟨rfl, rfl, rfl, rfl⟩
  have hco : (if ov then D.rSym a b c mu else star (D.rSym b a c mu)) = D.rSym a b c mu := by
    cases ov
    · simp only [Bool.false_eq_true, if_false]; exact hL.r_unitary a b c mu hmu
    · rfl
  refine ⟨[((FusionTree.fromSector b e).extended a mu c d, conjIf cj (D.rSym a b c mu))], ?_, ?_, ?_⟩
  · rw [← hco]; rfl
  · intro p hp
    obtain rfl := List.mem_singleton.1 hp
    exact ⟨extended_sane_pos R _ (hs b e) a c mu d (by simp [FusionTree.fromSector]) (by
      rw [hL.comm]; exact hmu), rfl, rfl, rfl⟩
  · intro is hi k hk
    obtain ⟨i, j, rfl, hi1, hj1⟩ : ∃ i j, is = [i, j] ∧ i < T.dim a ∧ j < T.dim b := by
      have hi' : List.Forall₂ (fun a i => i < T.dim a) [a, b] is := hi
      match is, hi' with
      | [i, j], .cons h1 (.cons h2 .nil) => exact ⟨i, j, rfl, h1, h2⟩
    simp only [List.map_cons, List.map_nil, List.sum_cons, List.sum_nil, add_zero, conjIf_conjIf]
    exact (r_move' hL a b c d e mu i j k hmu hi1 hj1 hk).symm

theorem extended_coupled (r : FusionTree S) (z c : S) (mu : ℕ) (d : Bool) : (r.extended z mu c d).coupled = c := rfl

theorem extended_uncoupled (r : FusionTree S) (z c : S) (mu : ℕ) (d : Bool) :
    (r.extended z mu c d).uncoupled = r.uncoupled ++ [z] := rfl

theorem extended_areDual (r : FusionTree S) (z c : S) (mu : ℕ) (d : Bool) :
    (r.extended z mu c d).areDual = r.areDual ++ [d] := rfl

theorem inDims_concat {T : FTensors S K} {u : List S} {z : S} {is : List ℕ} (h : InDims T (u ++ [z]) is) :
    ∃ is' j, is = is' ++ [j] ∧ InDims T u is' ∧ j < T.dim z := by
  have hl := h.length_eq
  simp only [List.length_append, List.length_cons, List.length_nil] at hl
  obtain ⟨is', j, rfl⟩ : ∃ is' j, is = is' ++ [j] :=
    ⟨is.dropLast, is.getLast (by rintro rfl; simp at hl), (List.dropLast_concat_getLast _).symm⟩
  have hl' : u.length = is'.length := by simp at hl; omega
  have h1 := List.forall₂_take_append _ _ _ h
  have h2 := List.forall₂_drop_append _ _ _ h
  rw [List.take_left' hl'] at h1
  rw [List.drop_left' hl'] at h2
  exact ⟨is', j, rfl, h1, by simpa using h2⟩

theorem braid_last {R : FusionRule S} {T : FTensors S K} {D : Topo S K} (hL : GroupLaws R T D) {small : K → Bool}
    (hS : CutoffExact D small) (r : FusionTree S) (hr : r.Sane R) (hlr : 1 ≤ r.uncoupled.length) (b c e f : S)
    (mu nu : ℕ) (d0 d1 : Bool) (hmu : mu < R.nSymbol r.coupled b e) (hnu : nu < R.nSymbol e c f) (ov cj : Bool) :
    ∃ l, braid R D small ((r.extended b mu e d0).extended c nu f d1) r.uncoupled.length ov cj = some l ∧
      BraidOK R T cj ((r.extended b mu e d0).extended c nu f d1) r.uncoupled.length l := by
  have h1 := extended_sane_pos R r hr b e mu d0 hlr hmu
  have hco : ∀ q ∈ R.channels r.coupled c b f,
      conjIf cj (if ov then D.cSym r.coupled b c f e q.1 mu nu q.2.1 q.2.2
        else star (D.cSym r.coupled c b f q.1 e q.2.1 q.2.2 mu nu)) =
      conjIf cj (D.cSym r.coupled b c f e q.1 mu nu q.2.1 q.2.2) := by
    rintro ⟨x, ka, la⟩ hq
    obtain ⟨hka, hla⟩ := (mem_channels R _ _ _ _ x ka la).1 hq
    cases ov
    · simp only [Bool.false_eq_true, if_false]
      rw [hL.c_unitary r.coupled b c f e x mu nu ka la hmu hnu hka hla]
    · rfl
  have hb : braid R D small ((r.extended b mu e d0).extended c nu f d1) r.uncoupled.length ov cj =
      some (((R.channels r.coupled c b f).map fun q => ((r.extended c q.2.1 q.1 d1).extended b q.2.2 f d0,
        conjIf cj (D.cSym r.coupled b c f e q.1 mu nu q.2.1 q.2.2))).filter fun p => !small p.2) := by
    unfold braid
    have v1 : ((r.extended b mu e d0).extended c nu f d1).vertexLabels (r.uncoupled.length - 1) =
        some (r.coupled, b, mu, e) := by
      rw [vertexLabels_extended _ h1 _ _ _ _ _ (by rw [extended_uncoupled]; simp; omega),
        vertexLabels_last r hr hlr b e mu d0 _ rfl]
    have v2 : ((r.extended b mu e d0).extended c nu f d1).vertexLabels r.uncoupled.length =
        some (e, c, nu, f) := by
      rw [vertexLabels_last _ h1 (by rw [extended_uncoupled]; simp) c f nu d1 _ (by
        rw [extended_uncoupled]; simp)]
      rfl
    have hd := hr.len_dual
    have g1 : ((r.extended b mu e d0).extended c nu f d1).areDual[r.uncoupled.length]? = some d0 := by
      rw [extended_areDual, extended_areDual, ← hd]; simp
    have g2 : ((r.extended b mu e d0).extended c nu f d1).areDual[r.uncoupled.length + 1]? = some d1 := by
      rw [extended_areDual, extended_areDual, ← hd]; simp
    rw [if_neg (by omega), v1, v2, g1, g2]
    simp only [Option.some.injEq]
    congr 1
    refine List.map_congr_left fun q hq => ?_
    rw [Prod.mk.injEq]
    refine ⟨?_, hco q hq⟩
    have hi := hr.len_inner
    have hm := hr.len_mult
    simp only [FusionTree.extended, FusionTree.mk.injEq, List.length_append, List.length_cons, List.length_nil,
      true_and]
    have n1 : 2 ≤ r.uncoupled.length + (0 + 1) := by omega
    have n2 : ¬ r.uncoupled.length = 0 := by omega
    have n3 : ¬ r.uncoupled.length + (0 + 1) = 0 := by omega
    simp only [n1, n2, n3, if_true, if_false]
    refine ⟨?_, ?_, ?_, ?_⟩
    · simp [List.set_append]
    · simp [List.set_append, hd]
    · by_cases h2 : 2 ≤ r.uncoupled.length
      · simp only [h2, if_true, List.set_append]
        simp [hi, show ¬ r.uncoupled.length - 1 < r.uncoupled.length - 2 by omega,
          show ¬ r.uncoupled.length - 1 < r.uncoupled.length - 2 + 1 by omega,
          show r.uncoupled.length - 1 - (r.uncoupled.length - 2 + 1) = 0 by omega]
      · simp only [h2, if_false, List.set_append]
        simp [hi, show r.uncoupled.length - 1 = 0 by omega]
        omega
    · simp [List.set_append, hm, show r.uncoupled.length - (r.uncoupled.length - 1) = 1 by omega]
  refine ⟨_, hb, ?_, ?_⟩
  · intro p hp
    obtain ⟨⟨x, ka, la⟩, hq, rfl⟩ := List.mem_map.1 (List.mem_filter.1 hp).1
    obtain ⟨hka, hla⟩ := (mem_channels R _ _ _ _ x ka la).1 hq
    have h2 := extended_sane_pos R r hr c x ka d1 hlr hka
    refine ⟨extended_sane_pos R _ h2 b f la d0 (by rw [extended_uncoupled]; simp) hla, rfl, ?_, ?_⟩
    · simp only [extended_uncoupled]
      exact (swapNext_mid _ _ _ _ rfl).symm
    · simp only [extended_areDual]
      exact (swapNext_mid _ _ _ _ hr.len_dual.symm).symm
  · intro is hi k hk
    rw [extended_uncoupled] at hi
    obtain ⟨is, j, rfl, hi, hj⟩ := inDims_concat hi
    obtain ⟨is, i, rfl, hi, hi1⟩ := inDims_concat hi
    rw [swapNext_mid _ _ _ _ hi.length_eq]
    rw [extended_coupled] at hk
    have e1 : ∀ p ∈ (R.channels r.coupled c b f).map fun q => ((r.extended c q.2.1 q.1 d1).extended b q.2.2 f d0,
        conjIf cj (D.cSym r.coupled b c f e q.1 mu nu q.2.1 q.2.2)),
        (if (!small p.2) = true then conjIf cj p.2 * treeTensor T p.1 (is ++ [j] ++ [i]) k else 0) =
          conjIf cj p.2 * treeTensor T p.1 (is ++ [j] ++ [i]) k := by
      intro p hp
      obtain ⟨⟨x, ka, la⟩, hq, rfl⟩ := List.mem_map.1 hp
      simp only [conjIf_conjIf]
      rcases hsm : small (conjIf cj (D.cSym r.coupled b c f e x mu nu ka la)) with _ | _
      · simp
      · have : D.cSym r.coupled b c f e x mu nu ka la = 0 := by
          cases cj
          · exact hS.c _ _ _ _ _ _ _ _ _ _ hsm
          · exact hS.c_star _ _ _ _ _ _ _ _ _ _ hsm
        simp [this]
    rw [sum_filter, sum_congr _ e1, List.map_map]
    rw [treeTensor_extended hL _ h1 (by rw [extended_uncoupled]; simp) c f nu d1 hnu (is ++ [i]) (by
      rw [extended_uncoupled]; exact List.rel_append hi (.cons hi1 .nil)) j k hj hk]
    have e2 : ∀ h ∈ List.range (T.dim e), treeTensor T (r.extended b mu e d0) (is ++ [i]) h *
        T.X e c f false d1 nu h j k = ((List.range (T.dim r.coupled)).map fun g => treeTensor T r is g *
          (T.X r.coupled b e false d0 mu g i h * T.X e c f false d1 nu h j k)).sum := by
      intro h hh
      rw [treeTensor_extended hL r hr hlr b e mu d0 hmu is hi i h hi1 (List.mem_range.1 hh), sum_mul]
      exact sum_congr _ fun g _ => by ring
    rw [extended_coupled, sum_congr _ e2, sum_comm]
    have e3 : ∀ g ∈ List.range (T.dim r.coupled), ((List.range (T.dim e)).map fun h => treeTensor T r is g *
          (T.X r.coupled b e false d0 mu g i h * T.X e c f false d1 nu h j k)).sum =
        ((R.channels r.coupled c b f).map fun q => treeTensor T r is g *
          (D.cSym r.coupled b c f e q.1 mu nu q.2.1 q.2.2 * ((List.range (T.dim q.1)).map fun h =>
          T.X r.coupled c q.1 false d1 q.2.1 g j h * T.X q.1 b f false d0 q.2.2 h i k).sum)).sum := by
      intro g hg
      rw [← mul_sum, c_move' hL r.coupled b c f e d0 d1 mu nu g i j k hmu hnu (List.mem_range.1 hg) hi1 hj hk, mul_sum]
    rw [sum_congr _ e3]
    refine Eq.trans ?_ (sum_comm _ _ _).symm
    refine sum_congr _ ?_
    rintro ⟨x, ka, la⟩ hq
    obtain ⟨hka, hla⟩ := (mem_channels R _ _ _ _ x ka la).1 hq
    have h2 := extended_sane_pos R r hr c x ka d1 hlr hka
    simp only [Function.comp_def, conjIf_conjIf]
    rw [treeTensor_extended hL _ h2 (by rw [extended_uncoupled]; simp) b f la d0 hla (is ++ [j]) (by
      rw [extended_uncoupled]; exact List.rel_append hi (.cons hj .nil)) i k hi1 hk]
    have e4 : ∀ h ∈ List.range (T.dim x), treeTensor T (r.extended c ka x d1) (is ++ [j]) h *
        T.X x b f false d0 la h i k = ((List.range (T.dim r.coupled)).map fun g => treeTensor T r is g *
          (T.X r.coupled c x false d1 ka g j h * T.X x b f false d0 la h i k)).sum := by
      intro h hh
      rw [treeTensor_extended hL r hr hlr c x ka d1 hka is hi j h hj (List.mem_range.1 hh), sum_mul]
      exact sum_congr _ fun g _ => by ring
    rw [extended_coupled, sum_congr _ e4, sum_comm, mul_sum]
    refine sum_congr _ fun g _ => ?_
    rw [mul_sum, mul_sum, mul_sum]
    refine sum_congr _ fun h _ => ?_
    ring

theorem braid_spec {R : FusionRule S} {T : FTensors S K} {D : Topo S K} (hL : GroupLaws R T D) {small : K → Bool}
    (hS : CutoffExact D small) (ov cj : Bool) (n : ℕ) (t : FusionTree S) (h : t.Sane R) (hn : t.uncoupled.length = n)
    (j : ℕ) (hj : j + 1 < n) : ∃ l, braid R D small t j ov cj = some l ∧ BraidOK R T cj t j l := by
  induction n generalizing t with
  | zero => omega
  | succ n ih =>
    obtain ⟨r, mu, z, d, hr, hlr, hmu, ht⟩ := tree_cases t h (by omega)
    have hln : r.uncoupled.length = n := by
      rw [ht, extended_uncoupled] at hn; simpa using hn
    by_cases hjn : j + 1 < n
    · obtain ⟨l, h1, h2, h3⟩ := ih r hr hln hjn
      refine ⟨l.map fun p => (p.1.extended z mu t.coupled d, p.2), ?_, ?_, ?_⟩
      · rw [ht, extended_coupled, braid_extended r hr z t.coupled mu d j (by omega), h1]; rfl
      · intro p hp
        obtain ⟨q, hq, rfl⟩ := List.mem_map.1 hp
        obtain ⟨g1, g2, g3, g4⟩ := h2 q hq
        have hlq : q.1.uncoupled.length = n := by rw [g3, length_swapNext, hln]
        refine ⟨extended_sane_pos R _ g1 z t.coupled mu d (by omega) (by rw [g2]; exact hmu), rfl, ?_, ?_⟩
        · rw [ht]; simp only [extended_uncoupled]
          rw [g3, swapNext_concat _ _ _ (by omega)]
        · rw [ht]; simp only [extended_areDual]
          rw [g4, swapNext_concat _ _ _ (by have := hr.len_dual; omega)]
      · intro is hi k hk
        have hi' : InDims T (r.uncoupled ++ [z]) is := by rw [ht, extended_uncoupled] at hi; exact hi
        obtain ⟨is, i, rfl, hi2, hi1⟩ := inDims_concat hi'
        have hil := hi2.length_eq
        rw [swapNext_concat _ _ _ (by omega), List.map_map]
        have e1 : treeTensor T t (is ++ [i]) k = treeTensor T (r.extended z mu t.coupled d) (is ++ [i]) k := by
          rw [← ht]
        rw [e1, treeTensor_extended hL r hr hlr z t.coupled mu d hmu is hi2 i k hi1 hk]
        have e2 : ∀ q ∈ l, ((fun p : FusionTree S × K => conjIf cj p.2 * treeTensor T p.1 (swapNext is j ++ [i]) k) ∘
              fun p => (p.1.extended z mu t.coupled d, p.2)) q =
            ((List.range (T.dim r.coupled)).map fun g => conjIf cj q.2 * treeTensor T q.1 (swapNext is j) g *
              T.X r.coupled z t.coupled false d mu g i k).sum := by
          intro q hq
          obtain ⟨g1, g2, g3, g4⟩ := h2 q hq
          have hlq : q.1.uncoupled.length = n := by rw [g3, length_swapNext, hln]
          simp only [Function.comp_def]
          rw [treeTensor_extended hL q.1 g1 (by omega) z t.coupled mu d (by rw [g2]; exact hmu) (swapNext is j)
            (by rw [g3]; exact inDims_swap hi2 j) i k hi1 hk, mul_sum, g2]
          exact sum_congr _ fun g _ => by ring
        rw [sum_congr _ e2, sum_comm]
        refine sum_congr _ fun g hg => ?_
        rw [← sum_mul, h3 is hi2 g (List.mem_range.1 hg)]
    · obtain rfl : n = j + 1 := by omega
      by_cases hj0 : j = 0
      · subst hj0
        obtain ⟨a, ha⟩ : ∃ a, r.uncoupled = [a] := List.length_eq_one_iff.1 hln
        obtain ⟨q1, q2, q3, q4⟩ := (sane_one_iff R r a ha).1 hr
        obtain ⟨d0, hd0⟩ : ∃ d0, r.areDual = [d0] := List.length_eq_one_iff.1 q2
        have hr' : r = FusionTree.fromSector a d0 := by
          obtain ⟨u, co, du, inn, ms⟩ := r
          simp only at ha q1 q2 q3 q4 hd0
          subst ha q1 q3 q4 hd0; rfl
        rw [ht, hr']
        refine braid_first hL small a z t.coupled mu d0 d ?_ ov cj
        rw [hr'] at hmu; exact hmu
      · obtain ⟨r0, mu0, z0, d0, hr0, hlr0, hmu0, ht0⟩ := tree_cases r hr (by omega)
        have hln0 : r0.uncoupled.length = j := by
          rw [ht0, extended_uncoupled] at hln; simpa using hln
        rw [ht, ht0, ← hln0]
        exact braid_last hL hS r0 hr0 hlr0 z0 z r.coupled t.coupled mu0 mu d0 d hmu0 hmu ov cj

end Cyten.FT
