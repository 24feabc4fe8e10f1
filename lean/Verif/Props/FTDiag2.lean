import Verif.Props.FTDiag
import Verif.Props.AbelianDiag2
import Verif.Props.Spaces

/-!
# C91: transposes and full tensors of diagonal tensors of the fusion tree backend
-/

namespace Cyten.FT
open Cyten.Abelian Cyten.Spaces Cyten.Tools Cyten.FT.Spec Cyten.Props Cyten.ListSum
open Cyten.Abelian.Spec (diagEntry IsDiagIndex)

variable {S K L P : Type} [LinearOrder S]

/-- The numbers of the dual sectors. -/
theorem dual_number {co co' : BLeg S} (hc : Coupled co) (hc' : Coupled co') (dual : S → S)
    (hinj : Function.Injective dual) (hmem : ∀ s, s ∈ co'.sectors ↔ ∃ t ∈ co.sectors, s = dual t) {i : ℕ} {s : S}
    (hi : co.sectors[i]? = some s) :
    ∃ k, (inversePermutation (lexsortIndices (co.sectors.map dual)))[i]? = some k ∧
      co'.sectors[k]? = some (dual s) := by
  set Lst := co.sectors.map dual with hL
  have hp := lexsortIndices_perm Lst
  have hplen : (lexsortIndices Lst).length = Lst.length := by simpa using hp.length_eq
  have hp' : (lexsortIndices Lst).Perm (List.range (lexsortIndices Lst).length) := by rw [hplen]; exact hp
  have hil : i < Lst.length := by rw [hL, List.length_map]; exact (List.getElem?_eq_some_iff.1 hi).1
  have hnd : Lst.Nodup := hc.nodup.map hinj
  have hg : gather Lst (lexsortIndices Lst) = Lst.insertionSort (· ≤ ·) := by
    have := gather_lexsort (fun x : S => x) Lst
    simpa using this
  have hgs : gather Lst (lexsortIndices Lst) = co'.sectors := by
    rw [hg]
    have hperm := List.perm_insertionSort (· ≤ ·) Lst
    have hs1 : (Lst.insertionSort (· ≤ ·)).Pairwise (· < ·) := by
      have a1 : (Lst.insertionSort (· ≤ ·)).Pairwise (· ≤ ·) := List.pairwise_insertionSort _ _
      have a2 : (Lst.insertionSort (· ≤ ·)).Pairwise (· ≠ ·) := hperm.nodup_iff.2 hnd
      exact (a1.and a2).imp fun h => lt_of_le_of_ne h.1 h.2
    refine List.Perm.eq_of_pairwise (le := (· < ·)) ?_ hs1 hc'.sorted ?_
    · intro a b _ _ h1 h2
      exact absurd h1 (lt_asymm h2)
    · rw [List.perm_ext_iff_of_nodup (hs1.imp ne_of_lt) (hc'.sorted.imp ne_of_lt)]
      intro x
      rw [hperm.mem_iff, hmem, hL, List.mem_map]
      constructor
      · rintro ⟨t, ht, rfl⟩; exact ⟨t, ht, rfl⟩
      · rintro ⟨t, ht, rfl⟩; exact ⟨t, ht, rfl⟩
  have hk : i < (inversePermutation (lexsortIndices Lst)).length := by
    rw [length_inversePermutation, hplen]; exact hil
  refine ⟨_, List.getElem?_eq_getElem hk, ?_⟩
  have h1 := inversePermutation_apply' hp' (List.getElem?_eq_getElem hk)
  rw [← hgs, gather_getElem? Lst _ (fun j hj => by simpa using hp.mem_iff.1 hj), h1]
  simp [hL, hi]

/-- **C91** (transpose). The transpose of a diagonal tensor has, for the dual of a sector, the values of the
sector; `co'` are the sorted sectors of the dual leg. -/
theorem C91_transpose [Zero K] {co co' : BLeg S} (hc : Coupled co) (hc' : Coupled co') (dual : S → S)
    (hinj : Function.Injective dual) (hmem : ∀ s, s ∈ co'.sectors ↔ ∃ t ∈ co.sectors, s = dual t)
    (hmult : ∀ t ∈ co.sectors, mult co' (dual t) = mult co t) (a : DEnts K)
    (ha : Abelian.Spec.DSane co.mults a) :
    Abelian.Spec.DSane co'.mults (diagTranspose dual co a) ∧
    ∀ s m, InLeg co s m → value co' (diagTranspose dual co a) (dual s) m = value co a s m := by
  set inv := inversePermutation (lexsortIndices (co.sectors.map dual)) with hinv
  set l := a.map fun p => ((inv.getD p.1 0, inv.getD p.1 0), p.2) with hl
  have hD : diagTranspose dual co a = (mkData l false).map fun e => (e.1.1, e.2) := rfl
  have hnum : ∀ (i : ℕ) (s : S), co.sectors[i]? = some s → co'.sectors[inv.getD i 0]? = some (dual s) := by
    intro i s hi
    obtain ⟨k, h1, h2⟩ := dual_number hc hc' dual hinj hmem hi
    rw [List.getD_eq_getElem?_getD, hinv, h1]
    exact h2
  have hin : ∀ p ∈ a, ∃ s, co.sectors[p.1]? = some s := fun p hp => by
    have : p.1 < co.sectors.length := by rw [hc.len]; exact (ha.shapes p hp).1
    exact ⟨_, List.getElem?_eq_getElem this⟩
  have hnd : (l.map fun e => e.1.2).Nodup := by
    rw [hl, List.map_map]
    have h0 : (a.map Prod.fst).Nodup := nodup_of_lt ha.sorted
    rw [List.Nodup, List.pairwise_map] at h0 ⊢
    refine h0.imp_of_mem fun {p q} hp hq h h' => h ?_
    obtain ⟨s, hs⟩ := hin p hp
    obtain ⟨t, ht⟩ := hin q hq
    have e1 := hnum _ _ hs
    have e2 := hnum _ _ ht
    simp only [Function.comp] at h'
    rw [h', e2] at e1
    have : t = s := hinj (Option.some.inj e1)
    subst this
    exact nodup_getElem? hc.nodup hs ht
  have hmemD : ∀ q, q ∈ diagTranspose dual co a ↔ ∃ p ∈ a, q = (inv.getD p.1 0, p.2) := by
    intro q
    rw [hD, List.mem_map]
    constructor
    · rintro ⟨e, he, rfl⟩
      rw [(mkData_perm l false).mem_iff] at he
      obtain ⟨p, hp, rfl⟩ := List.mem_map.1 he
      exact ⟨p, hp, rfl⟩
    · rintro ⟨p, hp, rfl⟩
      exact ⟨((inv.getD p.1 0, inv.getD p.1 0), p.2), (mkData_perm l false).mem_iff.2 (List.mem_map.2 ⟨p, hp, rfl⟩), rfl⟩
  have hsane : Abelian.Spec.DSane co'.mults (diagTranspose dual co a) := by
    refine ⟨fun q hq => ?_, ?_⟩
    · obtain ⟨p, hp, rfl⟩ := (hmemD q).1 hq
      obtain ⟨s, hs⟩ := hin p hp
      have hn := hnum _ _ hs
      refine ⟨by rw [← hc'.len]; exact (List.getElem?_eq_some_iff.1 hn).1, ?_⟩
      show p.2.length = _
      rw [(ha.shapes p hp).2, ← mult_eq hc' hn, hmult s (List.mem_of_getElem? hs), mult_eq hc hs]
    · rw [hD, List.map_map]
      have h1 := mkData_sorted l hnd
      have h2 : (mkData l false).map (Prod.fst ∘ fun e => (e.1.1, e.2)) = (mkData l false).map fun e => e.1.2 := by
        refine List.map_congr_left fun e he => ?_
        rw [(mkData_perm l false).mem_iff] at he
        obtain ⟨p, _, rfl⟩ := List.mem_map.1 he
        rfl
      rw [h2]
      exact h1
  refine ⟨hsane, fun s m hm => ?_⟩
  obtain ⟨i, hi, hd⟩ := inLeg_index hc hm
  have hn := hnum _ _ hi
  rw [value_eq hc' _ hn, value_eq hc _ hi]
  unfold diagEntry
  cases hx : a.lookup i with
  | none =>
    have : (diagTranspose dual co a).lookup (inv.getD i 0) = none := by
      rw [lookup_none_iff]
      intro q hq h
      obtain ⟨p, hp, rfl⟩ := (hmemD q).1 hq
      obtain ⟨t, ht⟩ := hin p hp
      have e1 := hnum _ _ ht
      simp only at h
      rw [h, hn] at e1
      have : s = t := hinj (Option.some.inj e1)
      subst this
      exact lookup_none_iff.1 hx p hp (nodup_getElem? hc.nodup ht hi)
    rw [this]
  | some x =>
    have := lookup_of_mem hsane.sorted ((hmemD _).2 ⟨_, lookup_mem hx, rfl⟩)
    simp only at this
    rw [this]

/-! ## Full tensors -/

theorem diagFull_sane [Zero K] {co : BLeg S} (hc : Coupled co) (D : DEnts K) (hD : Abelian.Spec.DSane co.mults D) :
    FSane co co (diagFull D) := by
  refine ⟨fun e he => ?_, fun e he => ?_, ?_⟩
  · obtain ⟨p, hp, rfl⟩ := List.mem_map.1 he
    have : p.1 < co.sectors.length := by rw [hc.len]; exact (hD.shapes p hp).1
    exact ⟨_, List.getElem?_eq_getElem this, List.getElem?_eq_getElem this⟩
  · obtain ⟨p, hp, rfl⟩ := List.mem_map.1 he
    exact ⟨(hD.shapes p hp).2, (hD.shapes p hp).2⟩
  · unfold diagFull
    rw [List.map_map]
    exact hD.sorted

/-- **C91** (full). `D.as_SymmetricTensor()` is, for every coupled sector, the diagonal matrix of the values. -/
theorem C91_full [AddCommMonoid K] {co : BLeg S} (hc : Coupled co) (D : DEnts K)
    (hD : Abelian.Spec.DSane co.mults D) :
    FSane co co (diagFull D) ∧
      ∀ s, matrixOf co co (diagFull D) s = Matrix.diagonal fun m : Fin (mult co s) => value co D s m := by
  have hF := diagFull_sane hc D hD
  refine ⟨hF, fun s => ?_⟩
  by_cases h : ∃ p ∈ D, co.sectors[p.1]? = some s
  · obtain ⟨p, hp, hs⟩ := h
    have he : ((p.1, p.1), (⟨p.2.length, p.2.length, fun m n => if m = n then p.2.getD m 0 else 0⟩ : Mat K)) ∈
        diagFull D := List.mem_map.2 ⟨p, hp, rfl⟩
    rw [matrixOf_mem hF hc hc he hs]
    ext m n
    rw [Matrix.diagonal_apply]
    show (if (m : ℕ) = n then p.2.getD m 0 else 0) = _
    by_cases hmn : m = n
    · rw [if_pos (congrArg _ hmn), if_pos hmn, value_eq hc _ hs]
      unfold diagEntry
      rw [lookup_of_mem hD.sorted hp]
      rfl
    · rw [if_neg (fun h => hmn (Fin.ext h)), if_neg hmn]
  · rw [matrixOf_none]
    · ext m n
      rw [Matrix.diagonal_apply]
      have hv : ∀ m, value co D s m = 0 := by
        intro m
        unfold value diagValue
        rw [List.find?_eq_none.2]
        intro e he
        obtain ⟨p, hp, rfl⟩ := List.mem_map.1 he
        simpa using fun h' => h ⟨p, hp, h'⟩
      simp [hv]
    · intro e he
      obtain ⟨p, hp, rfl⟩ := List.mem_map.1 he
      exact fun h' => h ⟨p, hp, h'⟩

theorem getDiagonal_none {K : Type} (M : Mat K) (small : Option (K → Bool)) (d : List K) (h : M.getDiagonal small = some d) :
    d = (List.range (min M.rows M.cols)).map fun x => M.val x x := by
  unfold Mat.getDiagonal at h
  cases small with
  | none => simpa using h.symm
  | some s =>
    simp only at h
    split at h
    · simpa using h.symm
    · simp at h

/-- **C91** (from full). `DiagonalTensor.from_tensor` gives the diagonal values of the tensor, whether or not the
entries off the diagonal are checked. -/
theorem C91_from_full [AddCommMonoid K] {co : BLeg S} (hc : Coupled co) (T : FEnts K) (hT : FSane co co T)
    (small : Option (K → Bool)) (D : DEnts K) (h : diagFromFull small T = some D) :
    Abelian.Spec.DSane co.mults D ∧ ∀ s (m : Fin (mult co s)), value co D s m = matrixOf co co T s m m := by
  have hf := mapM_forall₂ h
  have hDe : D = T.map fun e => (e.1.1, (List.range (min e.2.rows e.2.cols)).map fun x => e.2.val x x) := by
    clear h hT
    induction hf with
    | nil => rfl
    | cons hx _ ih =>
      rw [List.map_cons, ← ih]
      obtain ⟨d, hd, rfl⟩ := Option.map_eq_some_iff.1 hx
      rw [← getDiagonal_none _ _ _ hd]
  have hcoup : ∀ e ∈ T, e.1.1 = e.1.2 := by
    intro e he
    obtain ⟨c, h1, h2⟩ := hT.coupled e he
    exact nodup_getElem? hc.nodup h1 h2
  have hD : Abelian.Spec.DSane co.mults D := by
    rw [hDe]
    refine ⟨fun q hq => ?_, ?_⟩
    · obtain ⟨e, he, rfl⟩ := List.mem_map.1 hq
      obtain ⟨c, h1, h2⟩ := hT.coupled e he
      refine ⟨by rw [← hc.len]; exact (List.getElem?_eq_some_iff.1 h1).1, ?_⟩
      have := hT.shape e he
      rw [← hcoup e he] at this
      simp [this.1, this.2]
    · rw [List.map_map]
      exact hT.sorted0 hc hc
  refine ⟨hD, fun s m => ?_⟩
  by_cases hx : ∃ e ∈ T, co.sectors[e.1.1]? = some s
  · obtain ⟨e, he, hs⟩ := hx
    rw [matrixOf_mem hT hc hc he hs, value_eq hc _ hs]
    unfold diagEntry
    have hq : (e.1.1, (List.range (min e.2.rows e.2.cols)).map fun x => e.2.val x x) ∈ D := by
      rw [hDe]; exact List.mem_map.2 ⟨e, he, rfl⟩
    have hl := lookup_of_mem hD.sorted hq
    simp only at hl
    rw [hl, Option.getD_some]
    have hsh := hT.shape e he
    rw [← hcoup e he, ← mult_eq hc hs] at hsh
    rw [List.getD_eq_getElem?_getD, List.getElem?_map, List.getElem?_range (by rw [hsh.1, hsh.2]; simpa using m.2)]
    rfl
  · rw [matrixOf_none fun e he h' => hx ⟨e, he, h'⟩]
    unfold value diagValue
    rw [List.find?_eq_none.2]
    · rfl
    · intro e he
      obtain ⟨p, hp, rfl⟩ := List.mem_map.1 he
      rw [hDe] at hp
      obtain ⟨e', he', rfl⟩ := List.mem_map.1 hp
      simpa using fun h' => hx ⟨e', he', h'⟩

/-- **C91** (from full, exception). With `check_offdiagonal` it raises exactly if some entry off the diagonal is not
small. -/
theorem C91_from_full_raises [AddCommMonoid K] {co : BLeg S} (hc : Coupled co) (T : FEnts K) (hT : FSane co co T)
    (small : K → Bool) (h0 : small 0 = true) :
    (diagFromFull (some small) T).isSome ↔
      ∀ s (m n : Fin (mult co s)), m ≠ n → small (matrixOf co co T s m n) = true := by
  unfold diagFromFull
  rw [mapM_isSome_iff]
  have hcoup : ∀ e ∈ T, e.1.1 = e.1.2 := by
    intro e he
    obtain ⟨c, h1, h2⟩ := hT.coupled e he
    exact nodup_getElem? hc.nodup h1 h2
  have key : ∀ M : Mat K, (M.getDiagonal (some small)).isSome ↔
      ∀ m n, m < M.rows → n < M.cols → m ≠ n → small (M.val m n) = true := by
    intro M
    unfold Mat.getDiagonal
    simp only
    have e : ((List.range M.rows).all fun m => (List.range M.cols).all fun n => m == n || small (M.val m n)) = true ↔
        ∀ m n, m < M.rows → n < M.cols → m ≠ n → small (M.val m n) = true := by
      simp only [List.all_eq_true, List.mem_range, Bool.or_eq_true, beq_iff_eq]
      constructor
      · intro h m n hm hn hne
        exact (h m hm n hn).resolve_left hne
      · intro h m hm n hn
        by_cases hmn : m = n
        · exact Or.inl hmn
        · exact Or.inr (h m n hm hn hmn)
    rw [← e]
    split <;> rename_i h' <;> simp [h']
  constructor
  · intro h s m n hne
    by_cases hx : ∃ e ∈ T, co.sectors[e.1.1]? = some s
    · obtain ⟨e, he, hs⟩ := hx
      have h1 := h e he
      rw [Option.isSome_map, key] at h1
      have hsh := hT.shape e he
      rw [← hcoup e he, ← mult_eq hc hs] at hsh
      rw [matrixOf_mem hT hc hc he hs]
      exact h1 m n (by rw [hsh.1]; exact m.2) (by rw [hsh.2]; exact n.2) fun h' => hne (Fin.ext h')
    · rw [matrixOf_none fun e he h' => hx ⟨e, he, h'⟩]
      exact h0
  · intro h e he
    rw [Option.isSome_map, key]
    intro m n hm hn hne
    obtain ⟨s, hs, _⟩ := hT.coupled e he
    have hsh := hT.shape e he
    rw [← hcoup e he, ← mult_eq hc hs] at hsh
    have := h s ⟨m, hsh.1 ▸ hm⟩ ⟨n, hsh.2 ▸ hn⟩ (fun h' => hne (congrArg Fin.val h'))
    rw [matrixOf_mem hT hc hc he hs] at this
    exact this

end Cyten.FT
