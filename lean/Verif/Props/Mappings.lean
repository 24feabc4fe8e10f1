import Verif.Model.Mappings
import Mathlib.Algebra.BigOperators.Ring.Finset
import Mathlib.Data.Matrix.Mul
import Mathlib.Data.List.Nodup
import Mathlib.Tactic.Ring
import Mathlib.Tactic.SplitIfs
import Mathlib.Tactic.Common

/-!
# C24: sparse mappings compose like matrices

Specification: `entry A i j` is the stored coefficient of `e_i` in the image of `e_j`, and zero if
nothing is stored.  `Wf` says that keys are not repeated, as in an `unordered_map`.
-/

namespace Cyten.Props
open Cyten.Mappings

variable {K S : Type} [DecidableEq K]

/-- The coefficient `A_{ij}`: zero unless stored. -/
def entry [Zero S] (A : SMap K S) (i j : K) : S :=
  match A.find j with
  | none => 0
  | some c => (c.find i).getD 0

/-- `self[j][i] = a` is stored. -/
def Stored (A : SMap K S) (i j : K) (a : S) : Prop :=
  ∃ c, A.find j = some c ∧ UMap.find c i = some a

/-- keys are distinct, in the outer map and in each inner map -/
def Wf (A : SMap K S) : Prop :=
  (A.map Prod.fst).Nodup ∧ ∀ c ∈ A, (c.2.map Prod.fst).Nodup

section lemmas

theorem find_eq_none {V : Type} {m : UMap K V} {k : K} (h : k ∉ m.map Prod.fst) :
    m.find k = none := by
  induction m with
  | nil => rfl
  | cons p m ih =>
    obtain ⟨k', v⟩ := p
    simp only [List.map_cons, List.mem_cons, not_or] at h
    rw [UMap.find, if_neg (Ne.symm h.1), ih h.2]

theorem find_mem {V : Type} {m : UMap K V} (hnd : (m.map Prod.fst).Nodup) {k : K} {v : V} :
    m.find k = some v ↔ (k, v) ∈ m := by
  induction m with
  | nil => simp [UMap.find]
  | cons p m ih =>
    obtain ⟨k', w⟩ := p
    rw [List.map_cons, List.nodup_cons] at hnd
    rw [UMap.find]
    by_cases h : k' = k
    · subst h
      rw [if_pos rfl]
      constructor
      · intro h; injection h with h; subst h; exact List.mem_cons_self
      · intro h
        rcases List.mem_cons.1 h with h | h
        · injection h with _ h; rw [h]
        · exact absurd (List.mem_map.2 ⟨_, h, rfl⟩) hnd.1
    · rw [if_neg h, ih hnd.2]
      constructor
      · exact List.mem_cons_of_mem _
      · intro h'
        rcases List.mem_cons.1 h' with h' | h'
        · injection h' with h' _; exact absurd h'.symm h
        · exact h'

theorem find_map {V W : Type} (f : K → V → W) (m : UMap K V) (k : K) :
    UMap.find (m.map fun p => (p.1, f p.1 p.2)) k = (m.find k).map (f k) := by
  induction m with
  | nil => rfl
  | cons p m ih =>
    obtain ⟨k', v⟩ := p
    rw [List.map_cons, UMap.find, UMap.find]
    by_cases h : k' = k
    · subst h; simp
    · rw [if_neg h, if_neg h, ih]

theorem find_assign {V : Type} (m : UMap K V) (k : K) (v : V) (x : K) :
    (m.assign k v).find x = if x = k then some v else m.find x := by
  induction m with
  | nil => simp only [UMap.assign, UMap.find, eq_comm]
  | cons p m ih =>
    obtain ⟨k', w⟩ := p
    rw [UMap.assign]
    by_cases h : k' = k
    · subst h
      rw [if_pos rfl, UMap.find, UMap.find]
      by_cases hx : k' = x
      · rw [if_pos hx, if_pos hx.symm]
      · rw [if_neg hx, if_neg (Ne.symm hx), if_neg hx]
    · rw [if_neg h, UMap.find, ih, UMap.find]
      by_cases hx : k' = x
      · subst hx; rw [if_pos rfl, if_neg h, if_pos rfl]
      · rw [if_neg hx, if_neg hx]

variable [CommSemiring S]

theorem getD_addTo (m : UMap K S) (k : K) (v : S) (x : K) :
    ((m.addTo k v).find x).getD 0 = (m.find x).getD 0 + if x = k then v else 0 := by
  induction m with
  | nil =>
    simp only [UMap.addTo, UMap.find]
    by_cases h : k = x
    · subst h; simp
    · rw [if_neg h, if_neg (Ne.symm h)]; simp
  | cons p m ih =>
    obtain ⟨k', w⟩ := p
    rw [UMap.addTo]
    by_cases h : k' = k
    · subst h
      rw [if_pos rfl, UMap.find, UMap.find]
      by_cases hx : k' = x
      · rw [if_pos hx, if_pos hx, if_pos hx.symm]; rfl
      · rw [if_neg hx, if_neg hx, if_neg (Ne.symm hx), add_zero]
    · rw [if_neg h, UMap.find, UMap.find]
      by_cases hx : k' = x
      · subst hx; rw [if_pos rfl, if_pos rfl, if_neg h, add_zero]
      · rw [if_neg hx, if_neg hx, ih]

theorem keys_addTo (m : UMap K S) (k : K) (v : S) (hm : (m.map Prod.fst).Nodup) :
    ((m.addTo k v).map Prod.fst).Nodup ∧ ∀ x, x ∈ (m.addTo k v).map Prod.fst ↔ x = k ∨ x ∈ m.map Prod.fst := by
  induction m with
  | nil => simp [UMap.addTo]
  | cons p m ih =>
    obtain ⟨k', w⟩ := p
    rw [List.map_cons, List.nodup_cons] at hm
    obtain ⟨i1, i2⟩ := ih hm.2
    rw [UMap.addTo]
    by_cases h : k' = k
    · subst h
      rw [if_pos rfl]
      refine ⟨by simpa using hm, fun x => by simp⟩
    · rw [if_neg h]
      refine ⟨?_, fun x => ?_⟩
      · rw [List.map_cons, List.nodup_cons]
        refine ⟨?_, i1⟩
        rw [i2]; rintro (h' | h')
        · exact h h'
        · exact hm.1 h'
      · rw [List.map_cons, List.mem_cons, i2, List.map_cons, List.mem_cons]; tauto

/-- sum over the stored entries of a column = sum over any finset containing the keys -/
theorem sum_column (c : UMap K S) (hc : (c.map Prod.fst).Nodup) (f : K → S) (T : Finset K)
    (hT : ∀ k ∈ c.map Prod.fst, k ∈ T) :
    (c.map fun p => f p.1 * p.2).sum = ∑ j ∈ T, f j * (c.find j).getD 0 := by
  induction c generalizing T with
  | nil => simp [UMap.find]
  | cons p c ih =>
    obtain ⟨k, v⟩ := p
    rw [List.map_cons, List.nodup_cons] at hc
    have hk : k ∈ T := hT k (by simp)
    rw [List.map_cons, List.sum_cons, ih hc.2 (T.erase k) fun x hx => Finset.mem_erase.2
      ⟨fun e => hc.1 (e ▸ hx), hT x (by rw [List.map_cons]; exact List.mem_cons_of_mem _ hx)⟩,
      ← Finset.add_sum_erase T _ hk]
    congr 1
    · simp [UMap.find]
    · refine Finset.sum_congr rfl fun x hx => ?_
      rw [UMap.find, if_neg (Finset.mem_erase.1 hx).1.symm]

theorem inner_fold (o : UMap K S) (c : S) (res : UMap K S) (i : K)
    (ho : (o.map Prod.fst).Nodup) :
    ((o.foldl (fun resK (p : K × S) => resK.addTo p.1 (p.2 * c)) res).find i).getD 0
      = (res.find i).getD 0 + (o.find i).getD 0 * c := by
  induction o generalizing res with
  | nil => simp [UMap.find]
  | cons p o ih =>
    obtain ⟨k, v⟩ := p
    rw [List.map_cons, List.nodup_cons] at ho
    rw [List.foldl_cons, ih _ ho.2, getD_addTo, UMap.find]
    by_cases h : i = k
    · subst h
      rw [if_pos rfl, if_pos rfl, find_eq_none ho.1]
      simp
    · rw [if_neg h, if_neg (Ne.symm h), add_zero]

theorem inner_fold_keys (o : UMap K S) (c : S) (res : UMap K S) (h : (res.map Prod.fst).Nodup) :
    ((o.foldl (fun resK (p : K × S) => resK.addTo p.1 (p.2 * c)) res).map Prod.fst).Nodup := by
  induction o generalizing res with
  | nil => exact h
  | cons p o ih => exact ih _ (keys_addTo res p.1 _ h).1

theorem composeColumn_spec (other : SMap K S) (hB : Wf other) (selfK : UMap K S) (i : K) :
    ((composeColumn other selfK).find i).getD 0
      = (selfK.map fun p => entry other i p.1 * p.2).sum := by
  unfold composeColumn
  suffices H : ∀ res : UMap K S, ((selfK.foldl (composeStep other) res).find i).getD 0
      = (res.find i).getD 0 + (selfK.map fun p => entry other i p.1 * p.2).sum by
    have := H []
    simpa [UMap.find] using this
  induction selfK with
  | nil => simp
  | cons p selfK ih =>
    intro res
    rw [List.foldl_cons, ih, List.map_cons, List.sum_cons, ← add_assoc]
    congr 1
    unfold entry composeStep
    cases h : other.find p.1 with
    | none => simp
    | some c =>
      exact inner_fold c p.2 res i (hB.2 _ ((find_mem hB.1).1 h))

theorem composeColumn_keys (other : SMap K S) (selfK : UMap K S) :
    ((composeColumn other selfK).map Prod.fst).Nodup := by
  unfold composeColumn
  suffices H : ∀ res : UMap K S, (res.map Prod.fst).Nodup →
      ((selfK.foldl (composeStep other) res).map Prod.fst).Nodup from H [] List.nodup_nil
  induction selfK with
  | nil => intro res h; exact h
  | cons p selfK ih =>
    intro res h
    refine ih _ ?_
    unfold composeStep
    cases other.find p.1 with
    | none => exact h
    | some c => exact inner_fold_keys c p.2 res h

end lemmas

variable [CommSemiring S]

/-- **C24**: `pre_compose` is the matrix product: `res_{ik} = sum_j other_{ij} self_{jk}`, the sum
over any finite set that contains the stored rows of `self`; and the result is again a map without
repeated keys. -/
theorem C24_pre_compose (A B : SMap K S) (hA : Wf A) (hB : Wf B) (T : Finset K)
    (hT : ∀ j ∈ nonzeroRows A, j ∈ T) :
    Wf (preCompose A B) ∧
    ∀ i k, entry (preCompose A B) i k = ∑ j ∈ T, entry B i j * entry A j k := by
  constructor
  · refine ⟨by unfold preCompose; rw [List.map_map]; exact hA.1, ?_⟩
    intro c hc
    obtain ⟨p, _, rfl⟩ := List.mem_map.1 hc
    exact composeColumn_keys B p.2
  · intro i k
    have h1 : UMap.find (preCompose A B) k = (A.find k).map (composeColumn B) :=
      find_map (fun _ c => composeColumn B c) A k
    unfold entry at *
    rw [h1]
    cases h : A.find k with
    | none => simp
    | some c =>
      rw [Option.map_some]
      have hmem := (find_mem hA.1).1 h
      have h2 := composeColumn_spec B hB c i
      simp only
      rw [h2, sum_column c (hA.2 _ hmem) _ T]
      · rfl
      · intro x hx
        refine hT x ?_
        unfold nonzeroRows
        exact List.mem_flatMap.2 ⟨_, hmem, hx⟩

/-- **C24**: for a finite set of labels, literally the matrix product. -/
theorem C24_matrix_product [Fintype K] (A B : SMap K S) (hA : Wf A) (hB : Wf B) :
    (Matrix.of fun i k => entry (preCompose A B) i k) =
      (Matrix.of fun i j => entry B i j) * (Matrix.of fun i j => entry A i j) := by
  ext i k
  rw [Matrix.mul_apply]
  exact (C24_pre_compose A B hA hB Finset.univ fun _ _ => Finset.mem_univ _).2 i k

/-- **C24**: composition is associative. -/
theorem C24_assoc (A B C : SMap K S) (hA : Wf A) (hB : Wf B) (hC : Wf C) (i k : K) :
    entry (preCompose (preCompose A B) C) i k = entry (preCompose A (preCompose B C)) i k := by
  classical
  let T : Finset K := (nonzeroRows A ++ nonzeroRows B ++ nonzeroRows (preCompose A B) ++
    nonzeroRows C).toFinset
  have hTA : ∀ j ∈ nonzeroRows A, j ∈ T := fun j hj => List.mem_toFinset.2 (by simp [hj])
  have hTB : ∀ j ∈ nonzeroRows B, j ∈ T := fun j hj => List.mem_toFinset.2 (by simp [hj])
  have hTAB : ∀ j ∈ nonzeroRows (preCompose A B), j ∈ T := fun j hj =>
    List.mem_toFinset.2 (by simp [hj])
  obtain ⟨w1, e1⟩ := C24_pre_compose A B hA hB T hTA
  obtain ⟨w2, e2⟩ := C24_pre_compose B C hB hC T hTB
  rw [(C24_pre_compose _ C w1 hC T hTAB).2, (C24_pre_compose A _ hA w2 T hTA).2]
  simp only [e1, e2, Finset.mul_sum, Finset.sum_mul]
  rw [Finset.sum_comm]
  refine Finset.sum_congr rfl fun x _ => Finset.sum_congr rfl fun y _ => ?_
  rw [mul_assoc]

/-- **C24**: `from_identity(keys)` has the entries of the identity on `keys`. -/
theorem C24_identity_entries (keys : List K) (i j : K) :
    entry (fromIdentity keys : SMap K S) i j = if i = j ∧ j ∈ keys then 1 else 0 := by
  have key : ∀ (res : SMap K S), (UMap.find (keys.foldl (fun res i => UMap.assign res i [(i, 1)]) res) j)
      = if j ∈ keys then some [(j, 1)] else res.find j := by
    induction keys with
    | nil => intro res; simp
    | cons k keys ih =>
      intro res
      rw [List.foldl_cons, ih, find_assign]
      by_cases h : j ∈ keys
      · rw [if_pos h, if_pos (List.mem_cons_of_mem _ h)]
      · rw [if_neg h]
        by_cases hk : j = k
        · subst hk; rw [if_pos rfl, if_pos List.mem_cons_self]
        · rw [if_neg hk, if_neg (by simp [hk, h])]
  unfold entry fromIdentity
  rw [key]
  by_cases h : j ∈ keys
  · rw [if_pos h]
    simp only [UMap.find, h, and_true]
    by_cases hij : j = i
    · subst hij; simp
    · rw [if_neg hij, if_neg (Ne.symm hij)]; rfl
  · rw [if_neg h]
    simp [UMap.find, h]

theorem wf_fromIdentity (keys : List K) : Wf (fromIdentity keys : SMap K S) := by
  unfold fromIdentity
  suffices H : ∀ res : SMap K S, Wf res →
      Wf (keys.foldl (fun res i => UMap.assign res i [(i, 1)]) res) from
    H [] ⟨List.nodup_nil, by simp⟩
  induction keys with
  | nil => intro res h; exact h
  | cons k keys ih =>
    intro res h
    refine ih _ ?_
    have hk : ∀ (m : SMap K S) (v : UMap K S), (m.map Prod.fst).Nodup →
        ((m.assign k v).map Prod.fst).Nodup ∧
        (∀ x, x ∈ (m.assign k v).map Prod.fst → x = k ∨ x ∈ m.map Prod.fst) ∧
        (∀ c, c ∈ m.assign k v → c = (k, v) ∨ c ∈ m) := by
      intro m v hm
      induction m with
      | nil => simp [UMap.assign]
      | cons p m ih =>
        obtain ⟨k', w⟩ := p
        rw [List.map_cons, List.nodup_cons] at hm
        obtain ⟨i1, i2, i3⟩ := ih hm.2
        rw [UMap.assign]
        by_cases h : k' = k
        · subst h
          rw [if_pos rfl]
          refine ⟨by simpa using hm, fun x hx => Or.inr (by simpa using hx), fun c hc => ?_⟩
          rcases List.mem_cons.1 hc with rfl | hc
          · exact Or.inl rfl
          · exact Or.inr (List.mem_cons_of_mem _ hc)
        · rw [if_neg h]
          refine ⟨?_, fun x hx => ?_, fun c hc => ?_⟩
          · rw [List.map_cons, List.nodup_cons]
            refine ⟨fun hx => ?_, i1⟩
            rcases i2 _ hx with h' | h'
            · exact h h'
            · exact hm.1 h'
          · rw [List.map_cons, List.mem_cons] at hx
            rcases hx with hx | hx
            · right; rw [hx]; simp
            · rcases i2 _ hx with h' | h'
              · exact Or.inl h'
              · right; rw [List.map_cons]; exact List.mem_cons_of_mem _ h'
          · rcases List.mem_cons.1 hc with rfl | hc
            · exact Or.inr List.mem_cons_self
            · rcases i3 c hc with h' | h'
              · exact Or.inl h'
              · exact Or.inr (List.mem_cons_of_mem _ h')
    obtain ⟨a1, -, a3⟩ := hk res [(k, 1)] h.1
    refine ⟨a1, fun c hc => ?_⟩
    rcases a3 c hc with rfl | hc
    · simp
    · exact h.2 c hc

/-- **C24**: the identity is neutral on both sides, if it is taken on (at least) the rows resp.
columns of the mapping. -/
theorem C24_identity_neutral (A : SMap K S) (hA : Wf A) (keys : List K) :
    ((∀ j ∈ nonzeroRows A, j ∈ keys) →
      ∀ i k, entry (preCompose A (fromIdentity keys)) i k = entry A i k) ∧
    ((∀ j ∈ nonzeroCols A, j ∈ keys) →
      ∀ i k, entry (preCompose (fromIdentity keys) A) i k = entry A i k) := by
  classical
  constructor
  · intro h i k
    let T : Finset K := (i :: nonzeroRows A).toFinset
    rw [(C24_pre_compose A _ hA (wf_fromIdentity keys) T fun j hj =>
      List.mem_toFinset.2 (List.mem_cons_of_mem _ hj)).2]
    simp only [C24_identity_entries]
    rw [Finset.sum_eq_single_of_mem i (List.mem_toFinset.2 List.mem_cons_self)]
    · by_cases hi : i ∈ keys
      · simp [hi]
      · have : entry A i k = 0 := by
          unfold entry
          cases hf : A.find k with
          | none => rfl
          | some c =>
            have : i ∉ c.map Prod.fst := fun hx => hi (h i (by
              unfold nonzeroRows
              exact List.mem_flatMap.2 ⟨_, (find_mem hA.1).1 hf, hx⟩))
            simp only
            rw [find_eq_none this]; rfl
        rw [this, mul_zero]
    · intro j _ hj
      rw [if_neg (fun e => hj e.1.symm), zero_mul]
  · intro h i k
    let T : Finset K := (k :: nonzeroRows (fromIdentity keys : SMap K S)).toFinset
    rw [(C24_pre_compose _ A (wf_fromIdentity keys) hA T fun j hj =>
      List.mem_toFinset.2 (List.mem_cons_of_mem _ hj)).2]
    simp only [C24_identity_entries]
    rw [Finset.sum_eq_single_of_mem k (List.mem_toFinset.2 List.mem_cons_self)]
    · by_cases hk : k ∈ keys
      · simp [hk]
      · have : entry A i k = 0 := by
          unfold entry
          rw [find_eq_none fun hx => hk (h k hx)]
        rw [this, zero_mul]
    · intro j _ hj
      rw [if_neg (fun e => hj e.1), mul_zero]

omit [CommSemiring S] in
/-- **C24**: `prune(tol)` drops exactly the entries with modulus at most `tol` and keeps the
others unchanged. -/
theorem C24_prune {R : Type} [LT R] [DecidableLT R] (abs : S → R) (tol : R) (A : SMap K S)
    (hA : Wf A) :
    (∀ j, (UMap.find (prune abs tol A) j).isSome = (A.find j).isSome) ∧
    ∀ i j a, Stored (prune abs tol A) i j a ↔ Stored A i j a ∧ tol < abs a := by
  have hf : ∀ j, UMap.find (prune abs tol A) j = (A.find j).map
      fun c => c.filter fun p => tol < abs p.2 := fun j =>
    find_map (fun (_ : K) (c : UMap K S) => c.filter fun (p : K × S) => decide (tol < abs p.2)) A j
  refine ⟨fun j => by rw [hf]; cases A.find j <;> rfl, fun i j a => ?_⟩
  unfold Stored
  rw [hf]
  cases h : A.find j with
  | none => simp
  | some c =>
    have hnd := hA.2 _ ((find_mem hA.1).1 h)
    simp only [Option.map_some, Option.some.injEq, exists_eq_left']
    have hc : ∀ (c : UMap K S), (c.map Prod.fst).Nodup → UMap.find (c.filter fun p => tol < abs p.2) i =
        (c.find i).bind fun a => if tol < abs a then some a else none := by
      intro c hnd
      induction c with
      | nil => rfl
      | cons p c ih =>
        obtain ⟨k, v⟩ := p
        rw [List.map_cons, List.nodup_cons] at hnd
        by_cases hv : tol < abs v
        · rw [List.filter_cons_of_pos (by simpa using hv), UMap.find, UMap.find]
          by_cases hk : k = i
          · rw [if_pos hk, if_pos hk]; simp [hv]
          · rw [if_neg hk, if_neg hk, ih hnd.2]
        · rw [List.filter_cons_of_neg (by simpa using hv), ih hnd.2]
          by_cases hk : k = i
          · subst hk
            have e : UMap.find ((k, v) :: c) k = some v := by rw [UMap.find, if_pos rfl]
            rw [e, find_eq_none hnd.1]; simp [hv]
          · have e : UMap.find ((k, v) :: c) i = UMap.find c i := by rw [UMap.find, if_neg hk]
            rw [e]
    rw [hc c hnd]
    cases hi : c.find i with
    | none => simp
    | some b =>
      by_cases hb : tol < abs b
      · simp only [Option.bind_some, if_pos hb, Option.some.injEq]
        constructor
        · rintro rfl; exact ⟨rfl, hb⟩
        · exact fun h => h.1
      · simp only [Option.bind_some, if_neg hb, Option.some.injEq]
        constructor
        · intro h; cases h
        · rintro ⟨rfl, h⟩; exact absurd h hb

/-- **C24**: `IdentityMapping(keys).pre_compose(other)` agrees with composing the sparse identity on
`keys`. -/
theorem C24_identity_mapping (keys : List K) (B : SMap K S) (hB : Wf B) (i k : K) :
    entry (idPreCompose keys B) i k = entry (preCompose (fromIdentity keys) B) i k := by
  classical
  have h1 : UMap.find (idPreCompose keys B) k = if k ∈ keys then B.find k else none := by
    unfold idPreCompose
    induction keys with
    | nil => rfl
    | cons x keys ih =>
      rw [List.filterMap_cons]
      cases hx : B.find x with
      | none =>
        simp only [Option.map_none]
        rw [ih]
        by_cases e : k = x
        · subst e; rw [hx]; simp
        · simp [e]
      | some c =>
        simp only [Option.map_some]
        rw [UMap.find]
        by_cases e : x = k
        · subst e; rw [if_pos rfl, if_pos List.mem_cons_self, hx]
        · rw [if_neg e, ih]; simp [Ne.symm e]
  let T : Finset K := (k :: nonzeroRows (fromIdentity keys : SMap K S)).toFinset
  rw [(C24_pre_compose _ B (wf_fromIdentity keys) hB T fun j hj =>
    List.mem_toFinset.2 (List.mem_cons_of_mem _ hj)).2]
  simp only [C24_identity_entries]
  rw [Finset.sum_eq_single_of_mem k (List.mem_toFinset.2 List.mem_cons_self)]
  · unfold entry
    rw [h1]
    by_cases h : k ∈ keys <;> simp [h]
  · intro j _ hj
    rw [if_neg (fun e => hj e.1), mul_zero]

-- non-trivial instance: two mappings of three labels with well formed storage
example : Wf ([(0, [(1, 2)]), (1, [(0, 1), (2, 5)])] : SMap ℕ ℤ) := by
  unfold Wf; decide
example : preCompose ([(0, [(1, 2)]), (1, [(0, 1), (2, 5)])] : SMap ℕ ℤ)
    [(1, [(0, 3), (1, 4)]), (2, [(0, 1)])] = [(0, [(0, 6), (1, 8)]), (1, [(0, 5)])] := by decide

end Cyten.Props
