import Verif.Props.AbelianAlgebra

/-! # Sums over grids and bases: concatenation and permutation of the legs -/

namespace Cyten.Props
open Cyten.Abelian Cyten.Abelian.Spec Cyten.Tables Cyten.Tools Cyten.ListSum

variable {α : Type} [AddCommMonoid α]

theorem sum_perm {β : Type} {l m : List β} (h : l.Perm m) (f : β → α) :
    (l.map f).sum = (m.map f).sum := (h.map f).sum_eq

theorem gridC_append_perm (s t : List ℕ) :
    (gridC (s ++ t)).Perm ((gridC s).flatMap fun x => (gridC t).map fun y => x ++ y) := by
  induction s with
  | nil => simp [gridC]
  | cons a s ih =>
    simp only [List.cons_append, gridC, List.flatMap_assoc]
    refine List.Perm.flatMap_left _ fun i _ => ?_
    refine (ih.map _).trans ?_
    rw [List.map_flatMap, List.flatMap_map]
    simp only [List.map_map]
    exact List.Perm.of_eq rfl

theorem sum_gridC_append (s t : List ℕ) (f : List ℕ → α) :
    ((gridC (s ++ t)).map f).sum =
      ((gridC s).map fun x => ((gridC t).map fun y => f (x ++ y)).sum).sum := by
  rw [sum_perm (gridC_append_perm s t), sum_flatMap]
  refine sum_congr _ fun x _ => ?_
  rw [List.map_map]; rfl

theorem gridC_pick_perm (s perm : List ℕ) (hp : perm.Perm (List.range s.length)) :
    (gridC (pick perm s)).Perm ((gridC s).map (pick perm)) := by
  have hlt : ∀ c ∈ perm, c < s.length := fun c hc => by simpa using hp.mem_iff.1 hc
  have hnd : ((gridC s).map (pick perm)).Nodup := by
    refine List.Nodup.map_on ?_ (nodup_gridC s)
    intro x hx y hy he
    have hx := ((mem_gridC _ _).1 hx).length
    have hy := ((mem_gridC _ _).1 hy).length
    exact permute_injOn hp hx hy he
  rw [List.perm_ext_iff_of_nodup (nodup_gridC _) hnd]
  intro r
  rw [mem_gridC, List.mem_map]
  constructor
  · intro h
    have hl : r.length = s.length := by
      rw [h.length]; simp [pick, hp.length_eq]
    refine ⟨(inversePermutation perm).map fun p => r.getD p 0, ?_, ?_⟩
    · rw [mem_gridC]
      have hinv : ((inversePermutation perm).map fun p => (pick perm s).getD p 0) = s :=
        unpermute hp
      rw [← hinv]
      refine inShape_permute h fun c hc => ?_
      have := inversePermutation_perm (by rw [hp.length_eq, List.length_range]; exact hp)
      rw [hl]
      have h2 := this.mem_iff.1 hc
      simpa [hp.length_eq] using h2
    · exact repermute (by rw [hl]; exact hp)
  · rintro ⟨q, hq, rfl⟩
    exact inShape_permute ((mem_gridC _ _).1 hq) fun c hc => by
      rw [((mem_gridC _ _).1 hq).length]; exact hlt c hc

theorem sum_gridC_pick (s perm : List ℕ) (hp : perm.Perm (List.range s.length))
    (f : List ℕ → α) :
    ((gridC (pick perm s)).map f).sum = ((gridC s).map fun x => f (pick perm x)).sum := by
  rw [sum_perm (gridC_pick_perm s perm hp), List.map_map]; rfl

theorem map_length_permuted (M : List (List ℕ)) (perm : List ℕ) (hlt : ∀ c ∈ perm, c < M.length) :
    (permuted M perm).map List.length = pick perm (M.map List.length) := by
  unfold permuted pick
  rw [List.map_map]
  refine List.map_congr_left fun c hc => ?_
  have hc := hlt c hc
  simp [List.getD_eq_getElem?_getD, List.getElem?_eq_getElem hc]

theorem shapeOf_permuted (M : List (List ℕ)) (perm row : List ℕ) (hlt : ∀ c ∈ perm, c < M.length)
    (hr : row.length = M.length) :
    shapeOf (permuted M perm) (pick perm row) = pick perm (shapeOf M row) := by
  unfold permuted pick shapeOf
  rw [List.zipWith_map, List.zipWith_self]
  refine List.map_congr_left fun c hc => ?_
  have hc := hlt c hc
  have hc' : c < row.length := by rw [hr]; exact hc
  simp [List.getD_eq_getElem?_getD, List.getElem?_zipWith, List.getElem?_eq_getElem hc,
    List.getElem?_eq_getElem hc']

theorem sum_basis_append (M N : List (List ℕ)) (f : List ℕ → List ℕ → α) :
    ((basis (M ++ N)).map fun x => f x.1 x.2).sum =
      ((basis M).map fun x => ((basis N).map fun y => f (x.1 ++ y.1) (x.2 ++ y.2)).sum).sum := by
  rw [sum_basis, List.map_append, sum_gridC_append]
  rw [sum_basis M fun r p => ((basis N).map fun y => f (r ++ y.1) (p ++ y.2)).sum]
  refine sum_congr _ fun r hr => ?_
  have hl : r.length = M.length := by simpa using ((mem_gridC _ _).1 hr).length
  rw [sum_comm (gridC (shapeOf M r)) (basis N) fun p y => f (r ++ y.1) (p ++ y.2),
    sum_basis N fun r' p' => ((gridC (shapeOf M r)).map fun p => f (r ++ r') (p ++ p')).sum]
  refine sum_congr _ fun r' _ => ?_
  rw [shapeOf_append _ _ _ _ hl, sum_gridC_append, sum_comm]

theorem sum_basis_pick (M : List (List ℕ)) (perm : List ℕ) (hp : perm.Perm (List.range M.length))
    (f : List ℕ → List ℕ → α) :
    ((basis (permuted M perm)).map fun x => f x.1 x.2).sum =
      ((basis M).map fun x => f (pick perm x.1) (pick perm x.2)).sum := by
  have hlt : ∀ c ∈ perm, c < M.length := fun c hc => by simpa using hp.mem_iff.1 hc
  rw [sum_basis, sum_basis M fun r p => f (pick perm r) (pick perm p), map_length_permuted M perm hlt,
    sum_gridC_pick _ _ (by simpa using hp)]
  refine sum_congr _ fun r hr => ?_
  have hl : r.length = M.length := by simpa using ((mem_gridC _ _).1 hr).length
  rw [shapeOf_permuted M perm r hlt hl, sum_gridC_pick _ _ (by rw [length_shapeOf _ _ hl]; exact hp)]

end Cyten.Props
