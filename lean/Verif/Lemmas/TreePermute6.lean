import Verif.Lemmas.TreePermute5
import Verif.Props.PermuteEngine

/-! # The permutation of the legs, from the instructions to the blocks -/

namespace Cyten.FT.Spec
open Cyten.FT

/-- The leg `x` of a tensor as a leg of the codomain: sectors and multiplicities. The legs of the domain follow those
of the codomain in reversed order, as duals. -/
def legOf {S K : Type} (T : FTensors S K) (cod dom : Side S) (x : ℕ) : List (S × ℕ) :=
  if x < cod.spaces.length then (cod.spaces[x]?.map fun y => y.sectors.zip y.mults).getD []
  else (dom.spaces.reverse[x - cod.spaces.length]?.map fun y =>
    (y.sectors.zip y.mults).map fun p => (T.dual p.1, p.2)).getD []

/-- The duality flag of the leg `x` as a leg of the codomain, see `legOf` -/
def flagOf {S : Type} (cod dom : Side S) (x : ℕ) : Bool :=
  if x < cod.spaces.length then cod.areDual.getD x false
  else !(dom.areDual.reverse.getD (x - cod.spaces.length) false)

end Cyten.FT.Spec

namespace Cyten.FT
open Cyten.FT.Spec Cyten.Tools Cyten.ListSum Cyten.Props Cyten.Spaces Cyten.Spaces.Spec Cyten.Abelian
  Cyten.FusionTrees Cyten.Mappings Cyten.Permute

variable {S K : Type} [LinearOrder S] [CommRing K] [StarRing K]

theorem ext_range' {α : Type} (l : List α) (J : ℕ) (f : ℕ → α) (h : ∀ i x, l[i]? = some x → f (J + i) = x) :
    (List.range' J l.length).map f = l := by
  refine List.ext_getElem? fun i => ?_
  rw [List.getElem?_map]
  by_cases hi : i < l.length
  · rw [List.getElem?_range' hi, List.getElem?_eq_getElem hi]
    simp only [Option.map_some, Nat.one_mul, Option.some.injEq]
    exact h i _ (List.getElem?_eq_getElem hi)
  · rw [List.getElem?_eq_none (by simpa using hi), List.getElem?_eq_none (by simpa using hi)]; rfl

omit [CommRing K] [StarRing K] [LinearOrder S] in
theorem labelled_old (T : FTensors S K) (hdd : ∀ a, T.dual (T.dual a) = a) (cod dom : Side S)
    (h1 : cod.areDual.length = cod.spaces.length) (h2 : dom.areDual.length = dom.spaces.length) :
    Labelled T (legOf T cod dom) (flagOf cod dom) (List.range cod.spaces.length)
      (List.range' cod.spaces.length dom.spaces.length).reverse cod dom := by
  refine ⟨?_, ?_, ?_, ?_⟩
  · symm
    have := ext_range' (cod.spaces.map fun y => y.sectors.zip y.mults) 0 (legOf T cod dom) fun i x hx => by
      rw [List.getElem?_map] at hx
      have hi : i < cod.spaces.length := by
        by_contra hn
        rw [List.getElem?_eq_none (by omega)] at hx; cases hx
      unfold legOf
      rw [Nat.zero_add, if_pos hi, hx]; rfl
    rwa [List.length_map, ← List.range_eq_range'] at this
  · symm
    have := ext_range' cod.areDual 0 (flagOf cod dom) fun i x hx => by
      have hi : i < cod.areDual.length := (List.getElem?_eq_some_iff.1 hx).1
      unfold flagOf
      rw [Nat.zero_add, if_pos (by omega), List.getD_eq_getElem?_getD, hx]; rfl
    rwa [h1, ← List.range_eq_range'] at this
  · rw [List.map_reverse]
    have := ext_range' (dom.spaces.map fun y => y.sectors.zip y.mults).reverse cod.spaces.length
      (fun x => (legOf T cod dom x).map fun p => (T.dual p.1, p.2)) fun i x hx => by
        rw [← List.map_reverse, List.getElem?_map] at hx
        unfold legOf
        rw [if_neg (by omega), Nat.add_sub_cancel_left]
        rcases hy : dom.spaces.reverse[i]? with _ | y
        · rw [hy] at hx; cases hx
        · rw [hy] at hx
          simp only [Option.map_some, Option.some.injEq] at hx
          simp only [Option.map_some, Option.getD_some, List.map_map]
          rw [hx]
          conv_rhs => rw [← List.map_id x]
          refine List.map_congr_left fun p _ => ?_
          simp [hdd]
    rw [List.length_reverse, List.length_map] at this
    rw [this, List.reverse_reverse]
  · rw [List.map_reverse]
    have := ext_range' dom.areDual.reverse cod.spaces.length (fun x => !flagOf cod dom x) fun i x hx => by
      unfold flagOf
      rw [if_neg (by omega), Nat.add_sub_cancel_left, List.getD_eq_getElem?_getD, hx]
      simp
    rw [List.length_reverse, h2] at this
    rw [this, List.reverse_reverse]

section
variable {R : FusionRule S} {T : FTensors S K} {cod dom : Side S} {lc ld : BLeg S} {D : FEnts K}

omit [CommRing K] [StarRing K] in
theorem pairKeys_eq (hc : SideOK R cod lc) (hd : SideOK R dom ld) (dim : S → ℕ) (hD : FSane lc ld D) :
    pairKeys R lc.sectors cod dom (D.map Prod.fst) =
      some (allPairs R dim cod dom (D.filterMap fun e => lc.sectors[e.1.1]?)) := by
  have h1 : ∀ (E : FEnts K), (∀ e ∈ E, e.1.1 < lc.sectors.length) →
      ((E.map Prod.fst).mapM fun r => lc.sectors[r.1]?) = some (E.filterMap fun e => lc.sectors[e.1.1]?) := by
    intro E
    induction E with
    | nil => intro _; rfl
    | cons e E ih =>
      intro h
      have he := List.getElem?_eq_getElem (h e List.mem_cons_self)
      rw [List.map_cons, List.mapM_cons, he, ih fun x hx => h x (List.mem_cons_of_mem _ hx), List.filterMap_cons, he]
      rfl
  unfold pairKeys
  rw [h1 D hD.lt]
  simp only [Option.map_some, Option.some.injEq]
  unfold allPairs
  refine List.flatMap_congr fun e _ => ?_
  rw [iterTreeBlocks_eq hc dim, iterTreeBlocks_eq hd dim]
  simp only [List.flatMap_map, List.map_map]
  rfl

omit [CommRing K] [StarRing K] in
theorem dataSectors_nodup (hc : Coupled lc) (hd : Coupled ld) (hD : FSane lc ld D) :
    (D.filterMap fun e => lc.sectors[e.1.1]?).Nodup := by
  have hs := nodup_of_lt (hD.sorted0 hc hd)
  have : (D.filterMap fun e => lc.sectors[e.1.1]?) = (D.map fun e => e.1.1).filterMap fun i => lc.sectors[i]? := by
    rw [List.filterMap_map]; rfl
  rw [this]
  refine hs.filterMap ?_
  intro i j c hi hj
  exact nodup_getElem? hc.nodup hi hj

end

end Cyten.FT
