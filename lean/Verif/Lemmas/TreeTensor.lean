import Verif.Model.FTDense
import Verif.Lemmas.Trees
import Verif.Lemmas.BasisSum
import Mathlib.Algebra.Star.BigOperators

/-! # Orthonormality of the tensors of fusion trees -/

namespace Cyten.FT.Spec
open Cyten.FT

/-- What the fusion tensors of a symmetry are documented to satisfy
(`fusion_tensor`, `Z_iso`, include/cyten/symmetries/base_symmetry.h): the tensors of the channels of `a ⊗ b` form
an orthonormal family, `Z_iso` is unitary. -/
structure Lawful {S K : Type} [DecidableEq S] [CommRing K] [StarRing K] (R : FusionRule S) (T : FTensors S K) : Prop where
  dim_unit : T.dim R.unit = 1
  dim_pos : ∀ a, 0 < T.dim a
  fusion : ∀ (a b c c' : S) (d e : Bool) (mu mu' k k' : ℕ), mu < R.nSymbol a b c → mu' < R.nSymbol a b c' →
    k < T.dim c → k' < T.dim c' →
    ((List.range (T.dim a)).map fun i => ((List.range (T.dim b)).map fun j =>
      star (T.X a b c d e mu i j k) * T.X a b c' d e mu' i j k').sum).sum =
      if c = c' ∧ mu = mu' ∧ k = k' then 1 else 0
  z_iso : ∀ (a : S) (k k' : ℕ), k < T.dim a → k' < T.dim a →
    ((List.range (T.dim a)).map fun i => star (T.Z (T.dual a) k i) * T.Z (T.dual a) k' i).sum =
      if k = k' then 1 else 0

end Cyten.FT.Spec

namespace Cyten.FT
open Cyten.FT.Spec Cyten.Tools Cyten.ListSum Cyten.Props

variable {S K : Type} [LinearOrder S] [CommRing K] [StarRing K]

theorem star_lsum {A : Type} (l : List A) (f : A → K) : star (l.map f).sum = (l.map fun x => star (f x)).sum := by
  induction l with
  | nil => simp
  | cons x l ih => simp [ih]

theorem sum_mul_lsum {A B : Type} (l : List A) (m : List B) (f : A → K) (g : B → K) :
    (l.map f).sum * (m.map g).sum = (l.map fun x => (m.map fun y => f x * g y).sum).sum := by
  rw [ListSum.sum_mul]
  refine sum_congr _ fun x _ => ?_
  rw [ListSum.mul_sum]

theorem sum_range_single (n k : ℕ) (hk : k < n) (f : ℕ → K) :
    ((List.range n).map fun x => if k = x then f x else 0).sum = f k := by
  rw [sum_single _ List.nodup_range, if_pos (by simpa using hk)]

/-- One vertex keeps the family orthonormal. -/
theorem vertexStep_orth {R : FusionRule S} {T : FTensors S K} (hT : Lawful R T) (P : List ℕ)
    (res res' : List ℕ → ℕ → K) (a a' b c c' : S) (d : Bool) (mu mu' : ℕ) (flag : Prop) [Decidable flag]
    (hflag : flag → a = a')
    (h : ∀ g g', g < T.dim a → g' < T.dim a' →
      ((gridC P).map fun is => star (res is g) * res' is g').sum = if flag ∧ g = g' then 1 else 0)
    (hmu : mu < R.nSymbol a b c) (hmu' : mu' < R.nSymbol a' b c') (k k' : ℕ) (hk : k < T.dim c)
    (hk' : k' < T.dim c') :
    ((gridC (P ++ [T.dim b])).map fun is =>
      star (vertexStep T res a b c d mu is k) * vertexStep T res' a' b c' d mu' is k').sum =
      if (flag ∧ c = c' ∧ mu = mu') ∧ k = k' then 1 else 0 := by
  rw [sum_gridC_append]
  have e1 : ∀ is : List ℕ, ((gridC [T.dim b]).map fun y =>
      star (vertexStep T res a b c d mu (is ++ y) k) * vertexStep T res' a' b c' d mu' (is ++ y) k').sum =
      ((List.range (T.dim b)).map fun j =>
        ((List.range (T.dim a)).map fun g => ((List.range (T.dim a')).map fun g' =>
          (star (T.X a b c false d mu g j k) * T.X a' b c' false d mu' g' j k') *
            (star (res is g) * res' is g')).sum).sum).sum := by
    intro is
    have : gridC [T.dim b] = (List.range (T.dim b)).map fun j => [j] := by
      simp only [gridC, List.map_cons, List.map_nil]
      induction List.range (T.dim b) <;> simp_all
    rw [this, List.map_map]
    refine sum_congr _ fun j _ => ?_
    simp only [Function.comp, vertexStep, List.dropLast_concat, List.getLastD_concat]
    rw [star_lsum, sum_mul_lsum]
    refine sum_congr _ fun g _ => sum_congr _ fun g' _ => ?_
    rw [star_mul']
    ring
  rw [sum_congr _ fun is _ => e1 is, sum_comm]
  have e2 : ∀ j, ((gridC P).map fun is => ((List.range (T.dim a)).map fun g =>
      ((List.range (T.dim a')).map fun g' =>
        (star (T.X a b c false d mu g j k) * T.X a' b c' false d mu' g' j k') *
            (star (res is g) * res' is g')).sum).sum).sum =
      ((List.range (T.dim a)).map fun g => ((List.range (T.dim a')).map fun g' =>
        (star (T.X a b c false d mu g j k) * T.X a' b c' false d mu' g' j k') *
          if flag ∧ g = g' then 1 else 0).sum).sum := by
    intro j
    rw [sum_comm]
    refine sum_congr _ fun g hg => ?_
    rw [sum_comm]
    refine sum_congr _ fun g' hg' => ?_
    rw [← ListSum.mul_sum, h g g' (by simpa using hg) (by simpa using hg')]
  rw [sum_congr _ fun j _ => e2 j]
  by_cases hf : flag
  · obtain rfl := hflag hf
    have e3 : ∀ j, ((List.range (T.dim a)).map fun g => ((List.range (T.dim a)).map fun g' =>
        (star (T.X a b c false d mu g j k) * T.X a b c' false d mu' g' j k') *
          if flag ∧ g = g' then 1 else 0).sum).sum =
        ((List.range (T.dim a)).map fun g =>
          star (T.X a b c false d mu g j k) * T.X a b c' false d mu' g j k').sum := by
      intro j
      refine sum_congr _ fun g hg => ?_
      rw [← sum_range_single (T.dim a) g (by simpa using hg)
        fun g' => star (T.X a b c false d mu g j k) * T.X a b c' false d mu' g' j k']
      refine sum_congr _ fun g' _ => ?_
      by_cases hgg : g = g' <;> simp [hf, hgg]
    rw [sum_congr _ fun j _ => e3 j, sum_comm, hT.fusion a b c c' false d mu mu' k k' hmu hmu' hk hk']
    simp [hf, and_assoc]
  · rw [if_neg (by tauto)]
    refine sum_zero _ _ fun j _ => sum_zero _ _ fun g _ => sum_zero _ _ fun g' _ => ?_
    rw [if_neg (by tauto), mul_zero]

theorem vertexLoop_orth {R : FusionRule S} {T : FTensors S K} (hT : Lawful R T) (bs : List S) (P : List ℕ)
    (res res' : List ℕ → ℕ → K) (a a' : S) (ds : List Bool) (cs cs' : List S) (mus mus' : List ℕ) (c c' : S)
    (flag : Prop) [Decidable flag] (hflag : flag → a = a')
    (h : ∀ g g', g < T.dim a → g' < T.dim a' →
      ((gridC P).map fun is => star (res is g) * res' is g').sum = if flag ∧ g = g' then 1 else 0)
    (hd : ds.length = bs.length) (hc : Chain R a bs cs mus) (hc' : Chain R a' bs cs' mus')
    (hl : (a :: cs).getLast? = some c) (hl' : (a' :: cs').getLast? = some c')
    (k k' : ℕ) (hk : k < T.dim c) (hk' : k' < T.dim c') :
    ((gridC (P ++ bs.map T.dim)).map fun is =>
      star (vertexLoop T res a bs ds cs mus is k) * vertexLoop T res' a' bs ds cs' mus' is k').sum =
      if (flag ∧ cs = cs' ∧ mus = mus') ∧ k = k' then 1 else 0 := by
  induction bs generalizing P res res' a a' ds cs cs' mus mus' flag with
  | nil =>
    obtain ⟨l1, l2⟩ := chain_length R hc
    obtain ⟨l3, l4⟩ := chain_length R hc'
    obtain rfl := List.length_eq_zero_iff.1 l1
    obtain rfl := List.length_eq_zero_iff.1 l2
    obtain rfl := List.length_eq_zero_iff.1 l3
    obtain rfl := List.length_eq_zero_iff.1 l4
    simp only [List.getLast?_singleton, Option.some.injEq] at hl hl'
    subst hl hl'
    simp only [List.map_nil, List.append_nil, vertexLoop, and_true]
    exact h k k' hk hk'
  | cons b bs ih =>
    match ds, cs, mus, cs', mus', hd, hc, hc' with
    | d :: ds, x :: xs, m :: ms, x' :: xs', m' :: ms', hd, hc, hc' =>
      simp only [Chain] at hc hc'
      have hlx : (x :: xs).getLast? = some c := by simpa [List.getLast?_cons_cons] using hl
      have hlx' : (x' :: xs').getLast? = some c' := by simpa [List.getLast?_cons_cons] using hl'
      have := ih (P ++ [T.dim b]) (vertexStep T res a b x d m) (vertexStep T res' a' b x' d m') x x' ds xs xs'
        ms ms' (flag ∧ x = x' ∧ m = m') (fun hf => hf.2.1)
        (fun g g' hg hg' => vertexStep_orth hT P res res' a a' b x x' d m m' flag hflag h hc.1 hc'.1 g g' hg hg')
        (by simpa using hd) hc.2 hc'.2 hlx hlx'
      simp only [vertexLoop, List.map_cons]
      rw [List.append_assoc] at this
      refine (show _ = _ from this).trans ?_
      congr 1
      simp only [List.cons.injEq, eq_iff_iff]
      tauto

/-- The tensors of the fusion trees with given uncoupled sectors are orthonormal. -/
theorem treeTensor_orth {R : FusionRule S} {T : FTensors S K} (hT : Lawful R T) (t t' : FusionTree S)
    (hs : t.Sane R) (hs' : t'.Sane R) (hu : t.uncoupled = t'.uncoupled) (hd : t.areDual = t'.areDual)
    (k k' : ℕ) (hk : k < T.dim t.coupled) (hk' : k' < T.dim t'.coupled) :
    ((gridC (t.uncoupled.map T.dim)).map fun is =>
      star (treeTensor T t is k) * treeTensor T t' is k').sum = if t = t' ∧ k = k' then 1 else 0 := by
  obtain ⟨u, co, du, inn, mu⟩ := t
  obtain ⟨u', co', du', inn', mu'⟩ := t'
  simp only at hu hd hk hk'
  subst hu hd
  match u, hs, hs' with
  | [], hs, hs' =>
    obtain ⟨h1, h2, h3, h4⟩ := (sane_nil_iff R _ rfl).1 hs
    obtain ⟨g1, g2, g3, g4⟩ := (sane_nil_iff R _ rfl).1 hs'
    simp only at h1 h2 h3 h4 g1 g2 g3 g4
    subst h1 h2 h3 h4 g1 g3 g4
    rw [hT.dim_unit] at hk hk'
    have : k = k' := by omega
    simp [treeTensor, gridC, this]
  | [a], hs, hs' =>
    obtain ⟨h1, h2, h3, h4⟩ := (sane_one_iff R _ a rfl).1 hs
    obtain ⟨g1, g2, g3, g4⟩ := (sane_one_iff R _ a rfl).1 hs'
    simp only at h1 h2 h3 h4 g1 g2 g3 g4
    subst h1 h3 h4 g1 g3 g4
    match du, h2 with
    | [d], _ =>
      have : gridC ([a].map T.dim) = (List.range (T.dim a)).map fun j => [j] := by
        simp only [gridC, List.map_cons, List.map_nil]
        induction List.range (T.dim a) <;> simp_all
      rw [this, List.map_map]
      simp only [Function.comp_def, treeTensor, List.getD_cons_zero, true_and]
      cases d
      · simp only [Bool.false_eq_true, if_false]
        rw [← sum_range_single (T.dim a) k hk fun x => if k = k' then (1 : K) else 0]
        refine sum_congr _ fun x _ => ?_
        by_cases h1 : x = k
        · subst h1; by_cases h2 : x = k' <;> simp [h2]
        · rw [if_neg h1, if_neg (Ne.symm h1)]; simp
      · simp only [if_true]
        exact hT.z_iso a k k' hk hk'
  | a :: b :: bs, hs, hs' =>
    obtain ⟨h1, h2⟩ := (sane_iff_chain R _ a b bs rfl).1 hs
    obtain ⟨g1, g2⟩ := (sane_iff_chain R _ a b bs rfl).1 hs'
    simp only at h1 h2 g1 g2
    match du, mu, mu', hdc : inn ++ [co], hdc' : inn' ++ [co'], h1, h2, g2 with
    | d :: e :: ds, m :: ms, m' :: ms', x :: xs, x' :: xs', h1, h2, g2 =>
      simp only [Chain] at h2 g2
      have hlast : (x :: xs).getLast? = some co := by rw [← hdc]; simp
      have hlast' : (x' :: xs').getLast? = some co' := by rw [← hdc']; simp
      have hg : gridC ([T.dim a, T.dim b]) = (List.range (T.dim a)).flatMap fun i =>
          (List.range (T.dim b)).map fun j => [i, j] := by
        have : gridC [T.dim b] = (List.range (T.dim b)).map fun j => [j] := by
          simp only [gridC, List.map_cons, List.map_nil]
          induction List.range (T.dim b) <;> simp_all
        rw [gridC, this]
        simp only [List.map_map]
        rfl
      have := vertexLoop_orth hT bs [T.dim a, T.dim b]
        (fun is k => T.X a b x d e m (is.getD 0 0) (is.getD 1 0) k)
        (fun is k => T.X a b x' d e m' (is.getD 0 0) (is.getD 1 0) k) x x' ds xs xs' ms ms' co co'
        (x = x' ∧ m = m') (fun hf => hf.1)
        (by
          intro g g' hgd hgd'
          rw [hg, sum_flatMap]
          simp only [List.map_map, Function.comp_def, List.getD_cons_zero, List.getD_cons_succ]
          rw [hT.fusion a b x x' d e m m' g g' h2.1 g2.1 hgd hgd']
          simp only [and_assoc])
        (by simpa using h1) h2.2 g2.2 hlast hlast' k k' hk hk'
      simp only [treeTensor, hdc, hdc', List.map_cons]
      refine (show _ = _ from this).trans ?_
      congr 1
      have hiff : (x :: xs = x' :: xs') ↔ (inn = inn' ∧ co = co') := by
        rw [← hdc, ← hdc']
        constructor
        · intro h
          have := List.append_inj' h rfl
          exact ⟨this.1, by simpa using this.2⟩
        · rintro ⟨rfl, rfl⟩; rfl
      simp only [List.cons.injEq] at hiff
      simp only [FusionTree.mk.injEq, true_and, eq_iff_iff, List.cons.injEq]
      tauto

end Cyten.FT
