import Verif.Props.AbelianCompose
import Mathlib.Data.ZMod.Defs

/-!
# C33, C34, C46: algebraic laws of composition, adjoint, trace and inner product

For a tensor with codomain legs `codom` and domain `dom`, `entry T x y` is its matrix element between
the basis vector `x` of the codomain and the basis vector `y` of the domain.  (The legs of the tensor
are the codomain legs followed by the domain legs in reversed order.)
-/

namespace Cyten.Abelian.Spec
open Cyten.Abelian

/-- The matrix element between the basis vectors `x` of the codomain and `y` of the domain. -/
def entry {K : Type} [AddCommMonoid K] (T : Ents K) (x y : List ℕ × List ℕ) : K :=
  dense T (x.1 ++ y.1.reverse) (x.2 ++ y.2.reverse)

/-- Consistent data of a symmetric tensor from `dom` to `codom`. -/
structure IsHom {S K : Type} (R : Cyten.FusionRule S) (codom dom : List (BLeg S)) (T : Ents K) :
    Prop where
  sane : Sane (multsOf codom ++ (multsOf dom).reverse) T
  charge : Conserving R codom dom T

/-- The lists of sectors and multiplicities of the legs have equal lengths. -/
def LegsOK {S : Type} (legs : List (BLeg S)) : Prop :=
  ∀ l ∈ legs, l.sectors.length = l.mults.length

end Cyten.Abelian.Spec

namespace Cyten.Props
open Cyten.Abelian Cyten.Abelian.Spec Cyten.Tables Cyten.Tools Cyten.ListSum Cyten.Spaces
open Cyten.FusionTrees

variable {K S : Type}

theorem mem_basis {M : List (List ℕ)} {x : List ℕ × List ℕ} (h : x ∈ basis M) :
    x.1.length = M.length ∧ x.2.length = M.length ∧ IsIndex M x.1 x.2 := by
  have hi := (C34_basis M x.1 x.2).1 h
  have l1 : x.1.length = M.length := by simpa using hi.1.length
  exact ⟨l1, by rw [hi.2.length, length_shapeOf _ _ l1], hi⟩

theorem isIndex_reverse {M : List (List ℕ)} {r p : List ℕ} (h : IsIndex M r p) :
    IsIndex M.reverse r.reverse p.reverse := by
  obtain ⟨h1, h2⟩ := h
  refine ⟨?_, ?_⟩
  · rw [List.map_reverse]; exact inShape_reverse.2 h1
  · rw [shapeOf_reverse _ _ (by simpa using h1.length)]; exact inShape_reverse.2 h2

section
variable [DecidableEq S]

/-- **C33**: every block of the result of `compose` conserves the charge. -/
theorem C33_conserving [NonUnitalNonAssocSemiring K] [Star K] (R : FusionRule S)
    (codom contr dom : List (BLeg S)) (a b T : Ents K) (hcon : LegsOK contr)
    (ha : IsHom R codom contr a) (hb : IsHom R contr dom b)
    (h : compose R codom contr dom a b = some T) : Conserving R codom dom T := by
  have lc : contr.length = (multsOf contr).length := by simp [multsOf]
  have lk : codom.length = (multsOf codom).length := by simp [multsOf]
  have lsum : ∀ p ∈ T, p.1.length = codom.length + dom.length := by
    intro p hp
    have := (C41_compose R codom contr dom a b T hcon ha.sane hb.sane h).rowLength hp
    simpa [multsOf] using this
  unfold compose at h
  by_cases h1 : (codom.isEmpty && dom.isEmpty) = true
  · rw [Bool.and_eq_true, List.isEmpty_iff, List.isEmpty_iff] at h1
    obtain ⟨rfl, rfl⟩ := h1
    intro p hp
    have := lsum p hp
    have he : p.1 = [] := List.length_eq_zero_iff.1 (by simpa using this)
    rw [he]
    rfl
  · rw [if_neg h1] at h
    by_cases h2 : contr.isEmpty = true
    · rw [if_pos h2] at h
      rw [List.isEmpty_iff] at h2
      subst h2
      injection h with h
      subst h
      intro d hd
      unfold composeNoContraction at hd
      have hd := mem_mkData.1 hd
      rw [outerPair_grid] at hd
      obtain ⟨q, hq, hd⟩ := List.mem_flatMap.1 hd
      obtain ⟨p, hp, rfl⟩ := List.mem_map.1 hd
      have lp : p.1.length = codom.length := by
        have := ha.sane.rowLength hp; simpa [multsOf] using this
      have c1 := ha.charge p hp
      have c2 := hb.charge q hq
      show fusedCharge R codom ((p.1 ++ q.1).take codom.length) =
        fusedCharge R dom ((p.1 ++ q.1).drop codom.length).reverse
      rw [← lp, List.take_left, List.drop_left]
      rw [List.length_nil, List.take_zero, List.drop_zero] at c2
      rw [← c2, ← lp] at *
      rw [List.take_length, List.drop_length] at c1
      exact c1
    · rw [if_neg h2] at h
      rcases composeWorker_some hcon h with ⟨-, rfl⟩ | rfl
      · intro p hp; cases hp
      · intro d hd
        obtain ⟨y, hy, x, hx, hc, h1, -⟩ := mem_resultList hd
        obtain ⟨e, he, hk, -⟩ := mem_groupsA hx
        have he := (List.perm_insertionSort aLe _).mem_iff.1 he
        rw [lk] at he
        have hl : x.keep.length = codom.length := by
          rw [hk, lk]; simpa using (validA_prep ha.sane e he).1.length
        rw [h1, ← hl, List.take_left, List.drop_left]
        exact hc

/-- **C33**: the result of `compose` is again consistent data of a symmetric tensor. -/
theorem C33_isHom [NonUnitalNonAssocSemiring K] [Star K] (R : FusionRule S)
    (codom contr dom : List (BLeg S)) (a b T : Ents K) (hcon : LegsOK contr)
    (ha : IsHom R codom contr a) (hb : IsHom R contr dom b)
    (h : compose R codom contr dom a b = some T) : IsHom R codom dom T :=
  ⟨C41_compose R codom contr dom a b T hcon ha.sane hb.sane h,
    C33_conserving R codom contr dom a b T hcon ha hb h⟩

/-- **C33**: `compose` is matrix multiplication. -/
theorem C33_matrix_product [NonUnitalNonAssocSemiring K] [Star K] (R : FusionRule S)
    (codom contr dom : List (BLeg S)) (a b T : Ents K) (hcon : LegsOK contr)
    (ha : IsHom R codom contr a) (hb : IsHom R contr dom b)
    (h : compose R codom contr dom a b = some T) (x z : List ℕ × List ℕ)
    (hx : x ∈ basis (multsOf codom)) (hz : z ∈ basis (multsOf dom)) :
    entry T x z = ((basis (multsOf contr)).map fun y => entry a x y * entry b y z).sum :=
  C33_compose R codom contr dom a b T hcon ha.sane hb.sane ha.charge hb.charge h x.1 x.2 _ _
    (mem_basis hx).2.2 (isIndex_reverse (mem_basis hz).2.2)

/-- **C33**: composition is associative. -/
theorem C33_assoc [NonUnitalSemiring K] [Star K] (R : FusionRule S)
    (l1 l2 l3 l4 : List (BLeg S)) (a b c ab bc T U : Ents K) (h2 : LegsOK l2) (h3 : LegsOK l3)
    (ha : IsHom R l1 l2 a) (hb : IsHom R l2 l3 b) (hc : IsHom R l3 l4 c)
    (hab : compose R l1 l2 l3 a b = some ab) (hbc : compose R l2 l3 l4 b c = some bc)
    (hT : compose R l1 l3 l4 ab c = some T) (hU : compose R l1 l2 l4 a bc = some U)
    (x z : List ℕ × List ℕ) (hx : x ∈ basis (multsOf l1)) (hz : z ∈ basis (multsOf l4)) :
    entry T x z = entry U x z := by
  rw [C33_matrix_product R l1 l3 l4 ab c T h3 (C33_isHom R l1 l2 l3 a b ab h2 ha hb hab) hc hT x z
    hx hz, C33_matrix_product R l1 l2 l4 a bc U h2 ha (C33_isHom R l2 l3 l4 b c bc h3 hb hc hbc) hU
    x z hx hz]
  have e1 : ∀ y ∈ basis (multsOf l3), entry ab x y * entry c y z =
      ((basis (multsOf l2)).map fun w => entry a x w * entry b w y * entry c y z).sum := by
    intro y hy
    rw [C33_matrix_product R l1 l2 l3 a b ab h2 ha hb hab x y hx hy, sum_mul]
  have e2 : ∀ w ∈ basis (multsOf l2), entry a x w * entry bc w z =
      ((basis (multsOf l3)).map fun y => entry a x w * entry b w y * entry c y z).sum := by
    intro w hw
    rw [C33_matrix_product R l2 l3 l4 b c bc h3 hb hc hbc w z hw hz, mul_sum]
    exact sum_congr _ fun y _ => (mul_assoc _ _ _).symm
  rw [List.map_congr_left e1, List.map_congr_left e2, sum_comm]

omit [DecidableEq S] in
/-- **C46**: matrix elements of the identity. -/
theorem C46_entry_eye [NonAssocSemiring K] (legs : List (BLeg S)) (x y : List ℕ × List ℕ)
    (hx : x ∈ basis (multsOf legs)) (hy : y ∈ basis (multsOf legs)) :
    entry (eyeData (multsOf legs) : Ents K) x y = if x = y then 1 else 0 := by
  unfold entry
  rw [C46_eye _ _ _ _ _ (mem_basis hx).2.2 (mem_basis hy).2.2]
  by_cases h : x = y
  · rw [if_pos h, if_pos (by rw [h]; exact ⟨rfl, rfl⟩)]
  · rw [if_neg h, if_neg fun h' => h (Prod.ext h'.1 h'.2)]

omit [DecidableEq S] in
theorem isHom_eye [NonAssocSemiring K] (R : FusionRule S) (legs : List (BLeg S)) :
    IsHom R legs legs (eyeData (multsOf legs) : Ents K) := by
  refine ⟨C41_eye _, ?_⟩
  intro d hd
  unfold eyeData at hd
  obtain ⟨dom, hdom, rfl⟩ := List.mem_map.1 (mem_mkData.1 hd)
  unfold gridF at hdom
  rw [List.map_reverse, List.reverse_reverse] at hdom
  obtain ⟨x, hx, rfl⟩ := List.mem_map.1 hdom
  have lx : x.length = legs.length := by
    have := ((mem_gridC _ _).1 hx).length
    simpa [multsOf] using this
  simp only [List.reverse_reverse]
  rw [← lx, List.take_left, List.drop_left, List.reverse_reverse]

/-- **C46**: the identity is neutral for composition from the left. -/
theorem C46_eye_compose [NonAssocSemiring K] [Star K] (R : FusionRule S) (l1 l2 : List (BLeg S))
    (a T : Ents K) (h1 : LegsOK l1) (ha : IsHom R l1 l2 a)
    (hT : compose R l1 l1 l2 (eyeData (multsOf l1)) a = some T)
    (x z : List ℕ × List ℕ) (hx : x ∈ basis (multsOf l1)) (hz : z ∈ basis (multsOf l2)) :
    entry T x z = entry a x z := by
  rw [C33_matrix_product R l1 l1 l2 _ a T h1 (isHom_eye R l1) ha hT x z hx hz]
  have : ∀ y ∈ basis (multsOf l1), entry (eyeData (multsOf l1) : Ents K) x y * entry a y z =
      if x = y then entry a y z else 0 := by
    intro y hy
    rw [C46_entry_eye l1 x y hx hy]
    by_cases h : x = y
    · rw [if_pos h, if_pos h, one_mul]
    · rw [if_neg h, if_neg h, zero_mul]
  rw [List.map_congr_left this, sum_single _ (C34_basis_nodup _) x fun y => entry a y z, if_pos hx]

/-- **C46**: the identity is neutral for composition from the right. -/
theorem C46_compose_eye [NonAssocSemiring K] [Star K] (R : FusionRule S) (l1 l2 : List (BLeg S))
    (a T : Ents K) (h2 : LegsOK l2) (ha : IsHom R l1 l2 a)
    (hT : compose R l1 l2 l2 a (eyeData (multsOf l2)) = some T)
    (x z : List ℕ × List ℕ) (hx : x ∈ basis (multsOf l1)) (hz : z ∈ basis (multsOf l2)) :
    entry T x z = entry a x z := by
  rw [C33_matrix_product R l1 l2 l2 a _ T h2 ha (isHom_eye R l2) hT x z hx hz]
  have : ∀ y ∈ basis (multsOf l2), entry a x y * entry (eyeData (multsOf l2) : Ents K) y z =
      if z = y then entry a x y else 0 := by
    intro y hy
    rw [C46_entry_eye l2 y z hy hz]
    by_cases h : z = y
    · rw [if_pos h.symm, if_pos h, mul_one]
    · rw [if_neg (Ne.symm h), if_neg h, mul_zero]
  rw [List.map_congr_left this, sum_single _ (C34_basis_nodup _) z fun y => entry a x y, if_pos hz]

omit [DecidableEq S] in
/-- **C34**: the matrix elements of the adjoint. -/
theorem C34_entry_dagger [AddCommMonoid K] [StarAddMonoid K] (R : FusionRule S)
    (l1 l2 : List (BLeg S)) (a : Ents K) (ha : IsHom R l1 l2 a) (x y : List ℕ × List ℕ)
    (hx : x ∈ basis (multsOf l1)) (hy : y ∈ basis (multsOf l2)) :
    entry (Abelian.dagger a) y x = star (entry a x y) := by
  obtain ⟨a1, a2, -⟩ := mem_basis hx
  obtain ⟨b1, b2, -⟩ := mem_basis hy
  unfold entry
  rw [C34_dagger _ a ha.sane _ _ (by simp [a1, b1, Nat.add_comm]) (by simp [a2, b2, Nat.add_comm]),
    List.reverse_append, List.reverse_append, List.reverse_reverse, List.reverse_reverse]

omit [DecidableEq S] in
/-- **C34**: the adjoint is a symmetric tensor from the codomain to the domain. -/
theorem C34_isHom_dagger [Star K] (R : FusionRule S) (l1 l2 : List (BLeg S)) (a : Ents K)
    (ha : IsHom R l1 l2 a) : IsHom R l2 l1 (Abelian.dagger a) := by
  refine ⟨?_, ?_⟩
  · have := C41_dagger _ a ha.sane
    rwa [List.reverse_append, List.reverse_reverse] at this
  · intro d hd
    unfold Abelian.dagger at hd
    obtain ⟨p, hp, rfl⟩ := List.mem_map.1 (mem_mkData.1 hd)
    have lp : p.1.length = l1.length + l2.length := by
      have := ha.sane.rowLength hp; simpa [multsOf] using this
    have hc := ha.charge p hp
    have e1 : p.1.reverse.take l2.length = (p.1.drop l1.length).reverse := by
      rw [List.take_reverse, lp]; congr 2; omega
    have e2 : (p.1.reverse.drop l2.length).reverse = p.1.take l1.length := by
      rw [List.drop_reverse, lp, List.reverse_reverse]; congr 1; omega
    show fusedCharge R l2 (p.1.reverse.take l2.length) =
      fusedCharge R l1 (p.1.reverse.drop l2.length).reverse
    rw [e1, e2, hc]

/-- **C34**: the adjoint of a composition is the composition of the adjoints in reversed order. -/
theorem C34_dagger_compose [NonUnitalCommSemiring K] [StarRing K] (R : FusionRule S)
    (l1 l2 l3 : List (BLeg S)) (a b ab T : Ents K) (h2 : LegsOK l2) (ha : IsHom R l1 l2 a)
    (hb : IsHom R l2 l3 b) (hab : compose R l1 l2 l3 a b = some ab)
    (hT : compose R l3 l2 l1 (Abelian.dagger b) (Abelian.dagger a) = some T)
    (x z : List ℕ × List ℕ) (hx : x ∈ basis (multsOf l1)) (hz : z ∈ basis (multsOf l3)) :
    entry (Abelian.dagger ab) z x = entry T z x := by
  rw [C34_entry_dagger R l1 l3 ab (C33_isHom R l1 l2 l3 a b ab h2 ha hb hab) x z hx hz,
    C33_matrix_product R l1 l2 l3 a b ab h2 ha hb hab x z hx hz,
    C33_matrix_product R l3 l2 l1 _ _ T h2 (C34_isHom_dagger R l2 l3 b hb)
      (C34_isHom_dagger R l1 l2 a ha) hT z x hz hx]
  rw [show ∀ l : List K, star l.sum = starAddEquiv l.sum from fun _ => rfl, map_list_sum,
    List.map_map]
  refine sum_congr _ fun y hy => ?_
  show star (entry a x y * entry b y z) = _
  rw [C34_entry_dagger R l2 l3 b hb y z hy hz, C34_entry_dagger R l1 l2 a ha x y hx hy, star_mul]

omit [DecidableEq S] in
/-- **C46**: the trace is the sum of the diagonal matrix elements. -/
theorem C46_entry_trace [AddCommMonoid K] (R : FusionRule S) (l : List (BLeg S)) (a : Ents K)
    (ha : IsHom R l l a) :
    Abelian.traceFull a l.length = ((basis (multsOf l)).map fun x => entry a x x).sum := by
  have := C46_trace_full (multsOf l) a ha.sane
  rw [show (multsOf l).length = l.length by simp [multsOf]] at this
  exact this

/-- **C46**: the trace is cyclic. -/
theorem C46_trace_cyclic [NonUnitalCommSemiring K] [Star K] (R : FusionRule S)
    (l1 l2 : List (BLeg S)) (a b ab ba : Ents K) (h1 : LegsOK l1) (h2 : LegsOK l2)
    (ha : IsHom R l1 l2 a) (hb : IsHom R l2 l1 b) (hab : compose R l1 l2 l1 a b = some ab)
    (hba : compose R l2 l1 l2 b a = some ba) :
    Abelian.traceFull ab l1.length = Abelian.traceFull ba l2.length := by
  rw [C46_entry_trace R l1 ab (C33_isHom R l1 l2 l1 a b ab h2 ha hb hab),
    C46_entry_trace R l2 ba (C33_isHom R l2 l1 l2 b a ba h1 hb ha hba)]
  rw [List.map_congr_left fun x hx =>
      C33_matrix_product R l1 l2 l1 a b ab h2 ha hb hab x x hx hx,
    List.map_congr_left fun y hy => C33_matrix_product R l2 l1 l2 b a ba h1 hb ha hba y y hy hy,
    sum_comm]
  exact sum_congr _ fun y _ => sum_congr _ fun x _ => mul_comm _ _

end

/-! ## A concrete case -/

/-- the group `Z_2` as fusion rule -/
def z2Rule : FusionRule (Fin 2) := ⟨0, fun a b => [a + b], fun _ _ _ => 1, true⟩

/-- sectors 0 and 1 with multiplicities 1 and 2 -/
def z2Leg : BLeg (Fin 2) := ⟨[0, 1], [1, 2]⟩

theorem isHom_T (s : ℤ) : IsHom z2Rule [z2Leg] [z2Leg] (Example.T s) :=
  ⟨Example.sane_T s, by
    intro p hp
    simp only [Example.T, List.mem_cons, List.not_mem_nil, or_false] at hp
    rcases hp with rfl | rfl <;> rfl⟩

theorem isHom_U (s : ℤ) : IsHom z2Rule [z2Leg] [z2Leg] (Example.U s) :=
  ⟨Example.sane_U s, by
    intro p hp
    simp only [Example.U, List.mem_cons, List.not_mem_nil, or_false] at hp
    rcases hp with rfl; rfl⟩

attribute [local instance] starRingOfComm in
/-- The hypotheses are met: a composition with its matrix elements. -/
theorem C33_nonvacuous : ∃ T : Ents ℤ,
    compose z2Rule [z2Leg] [z2Leg] [z2Leg] (Example.T 1) (Example.U 1) = some T ∧
    entry T ([1], [1]) ([1], [0]) = 3 * 0 + 4 * 1 := by
  refine ⟨_, rfl, ?_⟩
  decide +kernel

end Cyten.Props
