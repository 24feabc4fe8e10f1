import Verif.Lemmas.AbelianDecomp

/-!
# C48: QR, LQ, singular value and eigenvalue decompositions of the abelian backend

The decompositions of single blocks (LAPACK) are arguments; what they have to satisfy is stated for
the blocks of the tensor.  The theorems say that then the decomposition of the tensor is one: the
product of the factors is the tensor and the isometries are isometries on the whole new leg, including
the sectors without a block.
-/

namespace Cyten.Abelian.Spec
open Cyten.Abelian Cyten.Spaces

variable {S K : Type}

/-- The sum over the numbers below `n`. -/
def sumTo [AddCommMonoid K] (n : ℕ) (f : ℕ → K) : K := ((List.range n).map f).sum

/-- The columns of the `m × k` matrix `q` are orthonormal. -/
def ColsOrtho [Semiring K] [Star K] (m k : ℕ) (q : Blk K) : Prop :=
  ∀ z < k, ∀ z' < k, sumTo m (fun x => star (q.val [x, z]) * q.val [x, z']) = if z = z' then 1 else 0

/-- The rows of the `k × n` matrix `r` are orthonormal. -/
def RowsOrtho [Semiring K] [Star K] (k n : ℕ) (r : Blk K) : Prop :=
  ∀ z < k, ∀ z' < k, sumTo n (fun y => r.val [z, y] * star (r.val [z', y])) = if z = z' then 1 else 0

/-- `(q, r)` is a factorization of the `m × n` matrix `b` through `min m n` dimensions. -/
structure Factors [Semiring K] (m n : ℕ) (b : Blk K) (q r : Blk K) : Prop where
  left : q.shape = [m, min m n]
  right : r.shape = [min m n, n]
  product : ∀ x < m, ∀ y < n, b.val [x, y] = sumTo (min m n) fun z => q.val [x, z] * r.val [z, y]

/-- `(u, s, vh)` is a singular value decomposition of the `m × n` matrix `b`. -/
structure IsSVD [Semiring K] [Star K] (m n : ℕ) (b : Blk K) (u : Blk K) (s : List K) (vh : Blk K) :
    Prop where
  left : u.shape = [m, min m n]
  values : s.length = min m n
  right : vh.shape = [min m n, n]
  product : ∀ x < m, ∀ y < n,
    b.val [x, y] = sumTo (min m n) fun z => u.val [x, z] * s.getD z 0 * vh.val [z, y]
  cols : ColsOrtho m (min m n) u
  rows : RowsOrtho (min m n) n vh

/-- `(w, v)` is an eigenvalue decomposition of the hermitian `m × m` matrix `b`. -/
structure IsEigh [Semiring K] [Star K] (m : ℕ) (b : Blk K) (w : List K) (v : Blk K) : Prop where
  values : w.length = m
  vectors : v.shape = [m, m]
  product : ∀ x < m, ∀ y < m,
    b.val [x, y] = sumTo m fun z => v.val [x, z] * w.getD z 0 * star (v.val [y, z])
  cols : ColsOrtho m m v
  rows : RowsOrtho m m v

/-- The new leg between the two factors: its sectors are those that the two legs have in common, with
the smaller multiplicity. -/
structure IsNewLeg [LinearOrder S] (sym : Sym S) (c d l : ESpace S) : Prop where
  valid : Props.ValidSpace sym l
  common : ∀ s, s ∈ l.sectors sym ↔ s ∈ c.sectors sym ∧ s ∈ d.sectors sym
  mults : ∀ (s : S) (i j k : ℕ), (c.sectors sym)[i]? = some s → (d.sectors sym)[j]? = some s →
    (l.sectors sym)[k]? = some s → l.mults.getD k 0 = min (c.mults.getD i 0) (d.mults.getD j 0)

end Cyten.Abelian.Spec

namespace Cyten.Props
open Cyten.Abelian Cyten.Abelian.Spec Cyten.Tables Cyten.Tools Cyten.ListSum Cyten.Spaces
open Cyten.FusionTrees

variable {S K : Type} [LinearOrder S] {sym : Sym S} {c d l : ESpace S}

/-! ## The new leg -/

theorem multOf_getD {e : ESpace S} (hv : ValidSpace sym e) (hinj : Function.Injective sym.dual)
    {i : ℕ} {s : S} (h : (e.sectors sym)[i]? = some s) :
    Spec.multOf (e.sectors sym) e.mults s = e.mults.getD i 0 := by
  have hn := sectors_nodup hv hinj
  have hl := sectors_length hv
  obtain ⟨hi, rfl⟩ := List.getElem?_eq_some_iff.1 h
  have hz : ((e.sectors sym).zip e.mults).map Prod.fst = e.sectors sym :=
    List.map_fst_zip (by rw [hl])
  have hzn : ((e.sectors sym).zip e.mults).Nodup := List.Nodup.of_map Prod.fst (by rw [hz]; exact hn)
  have hi' : i < e.mults.length := by omega
  unfold Spec.multOf
  rw [sum_single' _ hzn ((e.sectors sym)[i], e.mults[i])
    (List.mem_iff_getElem.2 ⟨i, by simp; omega, by simp⟩)]
  · rw [if_pos rfl, List.getD_eq_getElem _ _ hi']
  · rintro ⟨a, b⟩ hx hne
    rw [if_neg]
    rintro rfl
    apply hne
    have hmem : ((e.sectors sym)[i], e.mults[i]) ∈ (e.sectors sym).zip e.mults :=
      List.mem_iff_getElem.2 ⟨i, by simp; omega, by simp⟩
    have := List.inj_on_of_nodup_map (by rw [hz]; exact hn) hx hmem rfl
    exact this

theorem multOf_of_not_mem {sectors : List S} {mults : List ℕ} {s : S} (h : s ∉ sectors) :
    Spec.multOf sectors mults s = 0 := by
  unfold Spec.multOf
  refine sum_zero _ _ fun p hp => ?_
  rw [if_neg]
  rintro rfl
  exact h (List.of_mem_zip (a := p.1) (b := p.2) hp).1

theorem tp_valid {e : ESpace S} (hv : ValidSpace sym e) (hinj : Function.Injective sym.dual)
    (hp : ∀ m ∈ e.mults, 0 < m) :
    ValidData sym ⟨tpSectors sym e, (sortedSpace (e.toSpace sym)).2, some .sorted⟩ ∧
    ∀ s, Spec.multOf (tpSectors sym e) (sortedSpace (e.toSpace sym)).2 s =
      Spec.multOf (e.sectors sym) e.mults s := by
  have hn := sortedSpace_norm _ (goodSpace_toSpace_decomp hv hinj)
  refine ⟨⟨hn.len.symm, hn.sorted.imp fun h => ne_of_lt h, sortedSpace_pos _ hp,
    fun _ => hn.sorted, by simp⟩, fun s => ?_⟩
  have := DFunLike.congr_fun hn.vec s
  unfold spaceV at this
  rw [vec_zip, vec_zip] at this
  exact this

/-- **C48**: the leg that `_decomposition_prepare` creates always exists, has the wanted duality, and
its sectors are the common sectors of the two legs, with the smaller multiplicity. -/
theorem C48_new_leg (hdim : DimOK sym) (hdd : Function.Involutive sym.dual) (hc : ValidSpace sym c)
    (hd : ValidSpace sym d) (hpc : ∀ m ∈ c.mults, 0 < m) (hpd : ∀ m ∈ d.mults, 0 < m) (isDual : Bool) :
    ∃ l, newLeg sym c d isDual = some l ∧ l.isDual = isDual ∧ IsNewLeg sym c d l ∧
      ∀ m ∈ l.mults, 0 < m := by
  have hinj := hdd.injective
  obtain ⟨v1, m1⟩ := tp_valid hc hinj hpc
  obtain ⟨v2, m2⟩ := tp_valid hd hinj hpd
  unfold newLeg
  rw [largestCommon]
  obtain ⟨l, h1, h2, h3, h4, -, h5⟩ := common2 sym hdim hdd _ _ v1 v2 isDual
  simp only [m1, m2] at h5
  have hpos : ∀ (e : ESpace S), ValidSpace sym e → (∀ m ∈ e.mults, 0 < m) → ∀ s,
      s ∈ e.sectors sym ↔ 0 < Spec.multOf (e.sectors sym) e.mults s := by
    intro e he hp s
    constructor
    · intro hs
      obtain ⟨i, hi⟩ := List.mem_iff_getElem?.1 hs
      rw [multOf_getD he hinj hi]
      have : i < e.mults.length := by
        rw [← sectors_length he]; exact (List.getElem?_eq_some_iff.1 hi).1
      rw [List.getD_eq_getElem _ _ this]
      exact hp _ (List.getElem_mem this)
    · intro hs
      by_contra hn
      rw [multOf_of_not_mem hn] at hs
      omega
  refine ⟨l, h1, h3, ⟨h2, fun s => ?_, fun s i j k hi hj hk => ?_⟩, h4⟩
  · rw [hpos l h2 h4, hpos c hc hpc, hpos d hd hpd, h5]
    omega
  · rw [← multOf_getD h2 hinj hk, ← multOf_getD hc hinj hi, ← multOf_getD hd hinj hj]
    exact h5 s

/-! ## Tensors with one leg in the codomain and one in the domain -/

/-- The entry of an optional block; a missing block is zero. -/
def blkEntry [Zero K] (o : Option (Blk K)) (x y : ℕ) : K := (o.map fun b => b.val [x, y]).getD 0

theorem mem_basis1 {m : List ℕ} {y : List ℕ × List ℕ} :
    y ∈ basis [m] ↔ ∃ n z, n < m.length ∧ z < m.getD n 0 ∧ y = ([n], [z]) := by
  obtain ⟨r, p⟩ := y
  rw [C34_basis]
  constructor
  · rintro ⟨h1, h2⟩
    obtain ⟨n, t, hn, ht, rfl⟩ := List.forall₂_cons_right_iff.1 h1
    cases ht
    rw [show shapeOf [m] [n] = [m.getD n 0] from rfl] at h2
    obtain ⟨z, t, hz, ht, rfl⟩ := List.forall₂_cons_right_iff.1 h2
    cases ht
    exact ⟨n, z, hn, hz, rfl⟩
  · rintro ⟨n, z, hn, hz, he⟩
    cases he
    exact ⟨.cons hn .nil, .cons hz .nil⟩

theorem gridC_one (n : ℕ) : (gridC [n]).Perm ((List.range n).map fun x => [x]) := by
  refine (List.perm_ext_iff_of_nodup (nodup_gridC _) ?_).2 fun a => ?_
  · exact List.nodup_range.map fun a b h => (List.cons.inj h).1
  · rw [mem_gridC, List.mem_map]
    constructor
    · intro h
      obtain ⟨x, t, hx, ht, rfl⟩ := List.forall₂_cons_right_iff.1 h
      cases ht
      exact ⟨x, List.mem_range.2 hx, rfl⟩
    · rintro ⟨x, hx, rfl⟩
      exact .cons (List.mem_range.1 hx) .nil

theorem sum_basis1 [AddCommMonoid K] (m : List ℕ) (f : List ℕ × List ℕ → K) :
    ((basis [m]).map f).sum =
      sumTo m.length fun n => sumTo (m.getD n 0) fun z => f ([n], [z]) := by
  unfold basis sumTo
  rw [sum_flatMap]
  have e : gridC ([m].map List.length) = gridC [m.length] := rfl
  rw [e, ((gridC_one _).map _).sum_eq, List.map_map]
  refine sum_congr _ fun n _ => ?_
  show ((List.map f ((gridC (shapeOf [m] [n])).map fun pos => ([n], pos)))).sum = _
  rw [List.map_map, show shapeOf [m] [n] = [m.getD n 0] from rfl, ((gridC_one _).map _).sum_eq,
    List.map_map]
  rfl

/-- A sum over the basis of a leg of a function that is supported on the sector `s`. -/
theorem sum_sector [AddCommMonoid K] {e : ESpace S} (hv : ValidSpace sym e)
    (hinj : Function.Injective sym.dual) (s : S) (f : List ℕ × List ℕ → K) (g : ℕ → K)
    (h : ∀ (n : ℕ) (z : ℕ) (t : S), (e.sectors sym)[n]? = some t → z < e.mults.getD n 0 →
      f ([n], [z]) = if t = s then g z else 0) :
    ((basis [e.mults]).map f).sum =
      if s ∈ e.sectors sym then sumTo (e.mults.getD ((e.sectors sym).idxOf s) 0) g else 0 := by
  rw [sum_basis1]
  have hl := sectors_length hv
  have hn := sectors_nodup hv hinj
  have key : ∀ n ∈ List.range e.mults.length, (sumTo (e.mults.getD n 0) fun z => f ([n], [z])) =
      if (e.sectors sym).idxOf s = n then sumTo (e.mults.getD n 0) g else 0 := by
    intro n hn'
    have hlt : n < (e.sectors sym).length := by rw [hl]; exact List.mem_range.1 hn'
    have hg := List.getElem?_eq_getElem hlt
    by_cases ht : (e.sectors sym)[n] = s
    · rw [if_pos (by rw [← ht]; exact hn.idxOf_getElem n hlt)]
      refine sum_congr _ fun z hz => ?_
      rw [h n z _ hg (List.mem_range.1 hz), if_pos ht]
    · rw [if_neg]
      · refine sum_zero _ _ fun z hz => ?_
        rw [h n z _ hg (List.mem_range.1 hz), if_neg ht]
      · rintro rfl
        exact ht (List.getElem_idxOf hlt)
  unfold sumTo at key ⊢
  rw [sum_congr _ key, sum_single _ List.nodup_range ((e.sectors sym).idxOf s)
    fun n => ((List.range (e.mults.getD n 0)).map g).sum]
  have : (e.sectors sym).idxOf s ∈ List.range e.mults.length ↔ s ∈ e.sectors sym := by
    rw [List.mem_range, ← hl, List.idxOf_lt_length_iff]
  by_cases hs : s ∈ e.sectors sym
  · rw [if_pos hs, if_pos (this.2 hs)]
  · rw [if_neg hs, if_neg fun h => hs (this.1 h)]

theorem fused_one (R : FusionRule S) (e : ESpace S) {k : ℕ} {s : S}
    (h : (e.sectors sym)[k]? = some s) : fusedCharge R [toBLeg sym e] [k] = s := by
  simp [fusedCharge, toBLeg, h, List.reduceOption, Spaces.multipleFusion]

/-- A tensor with one block for each sector `s` of a list, given by `g s` (or none). -/
theorem factor_spec [AddCommMonoid K] (R : FusionRule S) {a b : ESpace S} (ha : ValidSpace sym a)
    (hb : ValidSpace sym b) (hinj : Function.Injective sym.dual) (ss : List S)
    (hss : ss.Pairwise (· < ·)) (hsub : ∀ s ∈ ss, s ∈ a.sectors sym ∧ s ∈ b.sectors sym)
    (g : S → Option (Blk K))
    (hshape : ∀ s ∈ ss, ∀ B, g s = some B → B.shape =
      [a.mults.getD ((a.sectors sym).idxOf s) 0, b.mults.getD ((b.sectors sym).idxOf s) 0])
    (F : Ents K) (hF : F = mkData (ss.filterMap fun s => (g s).map fun B =>
      ([(a.sectors sym).idxOf s, (b.sectors sym).idxOf s], B)) (!b.isDual)) :
    IsHom R [toBLeg sym a] [toBLeg sym b] F ∧
    ∀ (j k x y : ℕ) (s t : S), (a.sectors sym)[j]? = some s → (b.sectors sym)[k]? = some t →
      entry F ([j], [x]) ([k], [y]) = if s = t ∧ s ∈ ss then blkEntry (g s) x y else 0 := by
  have han := sectors_nodup ha hinj
  have hbn := sectors_nodup hb hinj
  have hmem : ∀ p ∈ F, ∃ s ∈ ss, ∃ B, g s = some B ∧
      p = ([(a.sectors sym).idxOf s, (b.sectors sym).idxOf s], B) := by
    intro p hp
    rw [hF] at hp
    obtain ⟨s, hs, h⟩ := List.mem_filterMap.1 (mem_mkData.1 hp)
    obtain ⟨B, hB, rfl⟩ := Option.map_eq_some_iff.1 h
    exact ⟨s, hs, B, hB, rfl⟩
  have hsane : Sane [a.mults, b.mults] F := by
    refine ⟨fun p hp => ?_, fun p hp => ?_, ?_⟩
    · obtain ⟨s, hs, B, -, rfl⟩ := hmem p hp
      refine .cons ?_ (.cons ?_ .nil)
      · rw [← sectors_length ha]; exact List.idxOf_lt_length_iff.2 (hsub s hs).1
      · rw [← sectors_length hb]; exact List.idxOf_lt_length_iff.2 (hsub s hs).2
    · obtain ⟨s, hs, B, hB, rfl⟩ := hmem p hp
      exact hshape s hs B hB
    · rw [hF]
      cases hd : b.isDual with
      | true =>
        refine mkData_sorted 2 _ ?_ ?_
        · intro p hp
          obtain ⟨s, hs, h⟩ := List.mem_filterMap.1 hp
          obtain ⟨B, hB, rfl⟩ := Option.map_eq_some_iff.1 h
          rfl
        · unfold List.Nodup
          rw [List.pairwise_map, List.pairwise_filterMap]
          refine hss.imp_of_mem fun {s t} hs ht hlt p hp q hq => ?_
          obtain ⟨B, -, rfl⟩ := Option.map_eq_some_iff.1 hp
          obtain ⟨B', -, rfl⟩ := Option.map_eq_some_iff.1 hq
          intro he
          simp only [List.cons.injEq, and_true] at he
          exact ne_of_lt hlt ((List.idxOf_inj (hsub s hs).1).1 he.1)
      | false =>
        rw [Bool.not_false, mkData, if_pos rfl]
        unfold StrictlySorted
        rw [List.pairwise_map, List.pairwise_filterMap]
        refine hss.imp_of_mem fun {s t} hs ht hlt p hp q hq => ?_
        obtain ⟨B, -, rfl⟩ := Option.map_eq_some_iff.1 hp
        obtain ⟨B', -, rfl⟩ := Option.map_eq_some_iff.1 hq
        rw [rowLt_pair]
        left
        by_contra hge
        have h1 := List.idxOf_lt_length_iff.2 (hsub s hs).2
        have h2 := List.idxOf_lt_length_iff.2 (hsub t ht).2
        have hsort : (b.sectors sym).Pairwise (· < ·) := by
          rw [sectors_nondual hd]; exact hb.sorted
        rcases Nat.lt_or_eq_of_le (not_lt.1 hge) with h | h
        · have := List.pairwise_iff_getElem.1 hsort _ _ h2 h1 h
          rw [List.getElem_idxOf, List.getElem_idxOf] at this
          exact lt_asymm this hlt
        · exact ne_of_lt hlt ((List.idxOf_inj (hsub t ht).2).1 h).symm
  refine ⟨⟨hsane, fun p hp => ?_⟩, ?_⟩
  · obtain ⟨s, hs, B, hB, rfl⟩ := hmem p hp
    show fusedCharge R [toBLeg sym a] [_] = fusedCharge R [toBLeg sym b] [_]
    rw [fused_one R a (getElem?_idxOf (hsub s hs).1), fused_one R b (getElem?_idxOf (hsub s hs).2)]
  · intro j k x y s t hj hk
    show dense F [j, k] [x, y] = _
    by_cases h : s = t ∧ s ∈ ss
    · rw [if_pos h]
      obtain ⟨rfl, hs⟩ := h
      have e1 := idxOf_getElem? han hj
      have e2 := idxOf_getElem? hbn hk
      unfold blkEntry
      cases hg : g s with
      | none =>
        rw [dense_of_not_mem]
        · rfl
        · intro p hp he
          obtain ⟨s', hs', B, hB, rfl⟩ := hmem p hp
          simp only [List.cons.injEq, and_true] at he
          have : s' = s := (List.idxOf_inj (hsub s' hs').1).1 (he.1.trans e1.symm)
          subst this
          rw [hB] at hg
          cases hg
      | some B =>
        have hp : ([j, k], B) ∈ F := by
          rw [hF, mem_mkData]
          exact List.mem_filterMap.2 ⟨s, hs, by rw [hg, e1, e2]; rfl⟩
        exact hsane.dense_of_mem hp _
    · rw [if_neg h, dense_of_not_mem]
      intro p hp he
      obtain ⟨s', hs', B, hB, rfl⟩ := hmem p hp
      simp only [List.cons.injEq, and_true] at he
      rw [← he.1, getElem?_idxOf (hsub s' hs').1] at hj
      rw [← he.2, getElem?_idxOf (hsub s' hs').2] at hk
      cases hj
      cases hk
      exact h ⟨rfl, hs'⟩

/-- A product of two matrices with one block per sector of a list. -/
theorem prod_collapse [NonUnitalNonAssocSemiring K] {a m b : ESpace S} (hm : ValidSpace sym m)
    (hinj : Function.Injective sym.dual) (ss : List S) (hsub : ∀ s ∈ ss, s ∈ m.sectors sym)
    (A B : List ℕ × List ℕ → List ℕ × List ℕ → K) (e1 e2 : S → ℕ → ℕ → K)
    (hA : ∀ (j n x z : ℕ) (s t : S), (a.sectors sym)[j]? = some s → (m.sectors sym)[n]? = some t →
      A ([j], [x]) ([n], [z]) = if s = t ∧ s ∈ ss then e1 s x z else 0)
    (hB : ∀ (n k z y : ℕ) (s t : S), (m.sectors sym)[n]? = some s → (b.sectors sym)[k]? = some t →
      B ([n], [z]) ([k], [y]) = if s = t ∧ s ∈ ss then e2 s z y else 0)
    (j k x y : ℕ) (s t : S) (hj : (a.sectors sym)[j]? = some s) (hk : (b.sectors sym)[k]? = some t) :
    ((basis [m.mults]).map fun v => A ([j], [x]) v * B v ([k], [y])).sum =
      if s = t ∧ s ∈ ss then
        sumTo (m.mults.getD ((m.sectors sym).idxOf s) 0) fun z => e1 s x z * e2 s z y
      else 0 := by
  rw [sum_sector hm hinj s _ fun z => if s = t ∧ s ∈ ss then e1 s x z * e2 s z y else 0]
  · by_cases h : s = t ∧ s ∈ ss
    · rw [if_pos h, if_pos (hsub s h.2)]
      refine sum_congr _ fun z _ => ?_
      rw [if_pos h]
    · rw [if_neg h]
      by_cases hs : s ∈ m.sectors sym
      · rw [if_pos hs]
        refine sum_zero _ _ fun z _ => ?_
        rw [if_neg h]
      · rw [if_neg hs]
  · intro n z u hu hz
    show A ([j], [x]) ([n], [z]) * B ([n], [z]) ([k], [y]) = _
    rw [hA j n x z s u hj hu, hB n k z y u t hu hk]
    by_cases hus : u = s
    · subst hus
      rw [if_pos rfl]
      by_cases hs : u ∈ ss
      · rw [if_pos ⟨rfl, hs⟩]
        by_cases ht : u = t
        · rw [if_pos ⟨ht, hs⟩, if_pos ⟨ht, hs⟩]
        · rw [if_neg fun h => ht h.1, if_neg fun h => ht h.1, mul_zero]
      · rw [if_neg fun h => hs h.2, if_neg fun h => hs h.2, if_neg fun h => hs h.2, zero_mul]
    · rw [if_neg hus, if_neg fun h => hus h.1.symm, zero_mul]

section
variable [Semiring K] (R : FusionRule S) (T : Ents K)

theorem decOK (hc : ValidSpace sym c) (hd : ValidSpace sym d) (hinj : Function.Injective sym.dual)
    (hN : IsNewLeg sym c d l) (hT : IsHom R [toBLeg sym c] [toBLeg sym d] T) :
    DecOK sym c d l T := by
  refine ⟨hc, hd, hN.valid, hinj, hN.common, hT.sane, fun p hp => ?_⟩
  have h1 := hT.sane.inRange p hp
  have h2 := hT.charge p hp
  obtain ⟨j, t, hj, ht, he⟩ := List.forall₂_cons_right_iff.1 h1
  obtain ⟨k, t', hk, ht', rfl⟩ := List.forall₂_cons_right_iff.1 ht
  cases ht'
  have hj' : j < (c.sectors sym).length := by rw [sectors_length hc]; exact hj
  have hk' : k < (d.sectors sym).length := by rw [sectors_length hd]; exact hk
  rw [he] at h2
  change fusedCharge R [toBLeg sym c] [j] = fusedCharge R [toBLeg sym d] [k] at h2
  rw [fused_one R c (List.getElem?_eq_getElem hj'), fused_one R d (List.getElem?_eq_getElem hk')] at h2
  exact ⟨_, j, k, he, List.getElem?_eq_getElem hj', h2 ▸ List.getElem?_eq_getElem hk'⟩

variable {T}

/-- The entries of a tensor with one leg in the codomain and one in the domain. -/
theorem DecOK.entry (H : DecOK sym c d l T) (j k x y : ℕ) (s t : S)
    (hj : (c.sectors sym)[j]? = some s) (hk : (d.sectors sym)[k]? = some t) :
    entry T ([j], [x]) ([k], [y]) = if s = t then blkEntry (getBlock T [j, k]) x y else 0 := by
  show dense T [j, k] [x, y] = _
  by_cases hst : s = t
  · rw [if_pos hst]
    by_cases hex : ∃ p ∈ T, p.1 = [j, k]
    · obtain ⟨p, hp, he⟩ := hex
      rw [← he, H.sane.getBlock_of_mem hp, H.sane.dense_of_mem hp]
      rfl
    · push Not at hex
      rw [getBlock_none hex, dense_of_not_mem hex]
      rfl
  · rw [if_neg hst, dense_of_not_mem]
    intro p hp he
    obtain ⟨u, j', k', e', h1, h2⟩ := H.secs p hp
    rw [he] at e'
    simp only [List.cons.injEq, and_true] at e'
    rw [← e'.1, hj] at h1
    rw [← e'.2, hk] at h2
    exact hst (Option.some.inj (h1.trans h2.symm))

/-- The shape of a stored block. -/
theorem DecOK.block (H : DecOK sym c d l T) {s : S} {b : Blk K}
    (h : getBlock T [(c.sectors sym).idxOf s, (d.sectors sym).idxOf s] = some b) :
    (∃ p ∈ T, p.2 = b) ∧ b.shape = [c.mults.getD ((c.sectors sym).idxOf s) 0,
      d.mults.getD ((d.sectors sym).idxOf s) 0] := by
  by_cases hex : ∃ p ∈ T, p.1 = [(c.sectors sym).idxOf s, (d.sectors sym).idxOf s]
  · obtain ⟨p, hp, he⟩ := hex
    rw [← he, H.sane.getBlock_of_mem hp] at h
    cases h
    refine ⟨⟨p, hp, rfl⟩, ?_⟩
    rw [H.sane.shapes p hp, he]
    rfl
  · push Not at hex
    rw [getBlock_none hex] at h
    cases h

theorem _root_.Cyten.Abelian.Spec.IsNewLeg.mult (hN : IsNewLeg sym c d l) {s : S} (hs : s ∈ l.sectors sym) :
    l.mults.getD ((l.sectors sym).idxOf s) 0 = min (c.mults.getD ((c.sectors sym).idxOf s) 0)
      (d.mults.getD ((d.sectors sym).idxOf s) 0) := by
  have h := (hN.common s).1 hs
  exact hN.mults s _ _ _ (getElem?_idxOf h.1) (getElem?_idxOf h.2) (getElem?_idxOf hs)

end

/-! ## Isometries -/

theorem sumTo_single [AddCommMonoid K] (n a : ℕ) (ha : a < n) (f : ℕ → K)
    (h : ∀ x < n, x ≠ a → f x = 0) : sumTo n f = f a :=
  sum_single' _ List.nodup_range a (List.mem_range.2 ha) f fun x hx => h x (List.mem_range.1 hx)

theorem sumTo_zero [AddCommMonoid K] (n : ℕ) (f : ℕ → K) (h : ∀ x < n, f x = 0) : sumTo n f = 0 :=
  sum_zero _ _ fun x hx => h x (List.mem_range.1 hx)

theorem eyeSlice_cols [Semiring K] [StarRing K] (m k : ℕ) (h : k ≤ m) :
    ColsOrtho m k (eyeSlice m k : Blk K) := by
  intro z hz z' hz'
  rw [sumTo_single m z (by omega)]
  · show star (if z = z then (1 : K) else 0) * (if z = z' then 1 else 0) = _
    simp
  · intro x _ hx
    show star (if x = z then (1 : K) else 0) * _ = 0
    rw [if_neg hx, star_zero, zero_mul]

theorem eyeSlice_rows [Semiring K] [StarRing K] (k n : ℕ) (h : k ≤ n) :
    RowsOrtho k n (eyeSlice k n : Blk K) := by
  intro z hz z' hz'
  rw [sumTo_single n z (by omega)]
  · show (if z = z then (1 : K) else 0) * star (if z' = z then 1 else 0) = _
    by_cases hzz : z = z'
    · simp [hzz]
    · simp [hzz, Ne.symm hzz]
  · intro x _ hx
    show (if z = x then (1 : K) else 0) * _ = 0
    rw [if_neg (Ne.symm hx), zero_mul]

section Factors
variable [Semiring K] [StarRing K] (R : FusionRule S) {T : Ents K}

/-- What holds for the left factor with a block for each common sector. -/
theorem leftFull_spec (H : DecOK sym c d l T) (hN : IsNewLeg sym c d l) (ss : List S)
    (hss : ss.Pairwise (· < ·)) (hmem : ∀ s, s ∈ ss ↔ s ∈ c.sectors sym ∧ s ∈ d.sectors sym)
    (f : Blk K → Blk K)
    (hf : ∀ p ∈ T, ∀ m n, p.2.shape = [m, n] →
      (f p.2).shape = [m, min m n] ∧ ColsOrtho m (min m n) (f p.2)) :
    IsHom R [toBLeg sym c] [toBLeg sym l] (leftFull c l f (ss.map (itemOf sym c d l T))) ∧
    (∀ (j n x z : ℕ) (s t : S), (c.sectors sym)[j]? = some s → (l.sectors sym)[n]? = some t →
      entry (leftFull c l f (ss.map (itemOf sym c d l T))) ([j], [x]) ([n], [z]) =
        if s = t ∧ s ∈ ss then (((itemOf sym c d l T s).blk.map f).getD
          (eyeSlice (c.mults.getD (itemOf sym c d l T s).j 0)
            (l.mults.getD (itemOf sym c d l T s).n 0))).val [x, z] else 0) ∧
    (∀ y ∈ basis [l.mults], ∀ y' ∈ basis [l.mults],
      ((basis [c.mults]).map fun x =>
        star (entry (leftFull c l f (ss.map (itemOf sym c d l T))) x y) *
          entry (leftFull c l f (ss.map (itemOf sym c d l T))) x y').sum = if y = y' then 1 else 0) := by
  have hblk : ∀ s ∈ ss, ∀ b, (itemOf sym c d l T s).blk = some b →
      (f b).shape = [c.mults.getD ((c.sectors sym).idxOf s) 0, l.mults.getD ((l.sectors sym).idxOf s) 0] ∧
      ColsOrtho (c.mults.getD ((c.sectors sym).idxOf s) 0)
        (l.mults.getD ((l.sectors sym).idxOf s) 0) (f b) := by
    intro s hs b hb
    obtain ⟨⟨p, hp, rfl⟩, hsh⟩ := H.block hb
    rw [hN.mult ((H.common s).2 ((hmem s).1 hs))]
    exact hf p hp _ _ hsh
  have hle : ∀ s ∈ ss, l.mults.getD ((l.sectors sym).idxOf s) 0 ≤
      c.mults.getD ((c.sectors sym).idxOf s) 0 := by
    intro s hs
    rw [hN.mult ((H.common s).2 ((hmem s).1 hs))]
    exact min_le_left _ _
  set g : S → Blk K := fun s => ((itemOf sym c d l T s).blk.map f).getD
          (eyeSlice (c.mults.getD (itemOf sym c d l T s).j 0)
            (l.mults.getD (itemOf sym c d l T s).n 0)) with hg
  have hgs : ∀ s ∈ ss, (g s).shape = [c.mults.getD ((c.sectors sym).idxOf s) 0,
      l.mults.getD ((l.sectors sym).idxOf s) 0] ∧
      ColsOrtho (c.mults.getD ((c.sectors sym).idxOf s) 0)
        (l.mults.getD ((l.sectors sym).idxOf s) 0) (g s) := by
    intro s hs
    rw [hg]
    simp only
    cases hb : (itemOf sym c d l T s).blk with
    | none => exact ⟨rfl, eyeSlice_cols _ _ (hle s hs)⟩
    | some b => exact hblk s hs b hb
  obtain ⟨h1, h2⟩ := factor_spec R H.codom H.leg H.inj ss hss
    (fun s hs => ⟨((hmem s).1 hs).1, (H.common s).2 ((hmem s).1 hs)⟩) (fun s => some (g s))
    (fun s hs B hB => by cases hB; exact (hgs s hs).1)
    (leftFull c l f (ss.map (itemOf sym c d l T))) (by
      unfold leftFull
      congr 1
      rw [List.map_map]
      simp only [Option.map_some]
      rw [List.filterMap_eq_map']
      rfl)
  refine ⟨h1, h2, ?_⟩
  intro y hy y' hy'
  obtain ⟨n, z, hn, hz, rfl⟩ := mem_basis1.1 hy
  obtain ⟨n', z', hn', hz', rfl⟩ := mem_basis1.1 hy'
  have hl := sectors_length H.leg
  have e1 : (l.sectors sym)[n]? = some ((l.sectors sym)[n]'(by omega)) :=
    List.getElem?_eq_getElem (by omega)
  have e2 : (l.sectors sym)[n']? = some ((l.sectors sym)[n']'(by omega)) :=
    List.getElem?_eq_getElem (by omega)
  rw [prod_collapse (a := l) (b := l) H.codom H.inj ss (fun s hs => ((hmem s).1 hs).1)
    (fun y x => star (entry (leftFull c l f (ss.map (itemOf sym c d l T))) x y))
    (entry (leftFull c l f (ss.map (itemOf sym c d l T))))
    (fun s z x => star ((g s).val [x, z])) (fun s x z => (g s).val [x, z])
    (fun j n x z s t hj hn => by
      rw [h2 n j z x t s hn hj]
      by_cases hst : s = t ∧ s ∈ ss
      · rw [if_pos hst, if_pos ⟨hst.1.symm, hst.1 ▸ hst.2⟩]
        rw [hst.1]
        rfl
      · rw [if_neg hst, if_neg (show ¬ (t = s ∧ t ∈ ss) from fun h => hst ⟨h.1.symm, h.1 ▸ h.2⟩), star_zero])
    (fun n k z y s t hn hk => h2 n k z y s t hn hk) n n' z z' _ _ e1 e2]
  by_cases hnn : n = n'
  · subst hnn
    have hs : (l.sectors sym)[n]'(by omega) ∈ ss :=
      (hmem _).2 ((H.common _).1 (List.getElem_mem _))
    rw [if_pos ⟨rfl, hs⟩]
    have hi : (l.sectors sym).idxOf ((l.sectors sym)[n]'(by omega)) = n := H.lnd.idxOf_getElem n _
    have := (hgs _ hs).2 z (by rw [hi]; exact hz) z' (by rw [hi]; exact hz')
    rw [this]
    by_cases hzz : z = z'
    · simp [hzz]
    · simp [hzz]
  · rw [if_neg, if_neg]
    · intro h; simp at h; exact hnn h.1
    · rintro ⟨h, -⟩
      exact hnn ((List.Nodup.getElem_inj_iff H.lnd).1 h)

/-- What holds for the right factor with a block for each common sector. -/
theorem rightFull_spec (H : DecOK sym c d l T) (hN : IsNewLeg sym c d l) (ss : List S)
    (hss : ss.Pairwise (· < ·)) (hmem : ∀ s, s ∈ ss ↔ s ∈ c.sectors sym ∧ s ∈ d.sectors sym)
    (f : Blk K → Blk K)
    (hf : ∀ p ∈ T, ∀ m n, p.2.shape = [m, n] →
      (f p.2).shape = [min m n, n] ∧ RowsOrtho (min m n) n (f p.2)) :
    IsHom R [toBLeg sym l] [toBLeg sym d] (rightFull d l f (ss.map (itemOf sym c d l T))) ∧
    (∀ (n k z y : ℕ) (s t : S), (l.sectors sym)[n]? = some s → (d.sectors sym)[k]? = some t →
      entry (rightFull d l f (ss.map (itemOf sym c d l T))) ([n], [z]) ([k], [y]) =
        if s = t ∧ s ∈ ss then (((itemOf sym c d l T s).blk.map f).getD
          (eyeSlice (l.mults.getD (itemOf sym c d l T s).n 0)
            (d.mults.getD (itemOf sym c d l T s).k 0))).val [z, y] else 0) ∧
    (∀ y ∈ basis [l.mults], ∀ y' ∈ basis [l.mults],
      ((basis [d.mults]).map fun x =>
        entry (rightFull d l f (ss.map (itemOf sym c d l T))) y x *
          star (entry (rightFull d l f (ss.map (itemOf sym c d l T))) y' x)).sum =
        if y = y' then 1 else 0) := by
  have hblk : ∀ s ∈ ss, ∀ b, (itemOf sym c d l T s).blk = some b →
      (f b).shape = [l.mults.getD ((l.sectors sym).idxOf s) 0, d.mults.getD ((d.sectors sym).idxOf s) 0] ∧
      RowsOrtho (l.mults.getD ((l.sectors sym).idxOf s) 0)
        (d.mults.getD ((d.sectors sym).idxOf s) 0) (f b) := by
    intro s hs b hb
    obtain ⟨⟨p, hp, rfl⟩, hsh⟩ := H.block hb
    rw [hN.mult ((H.common s).2 ((hmem s).1 hs))]
    exact hf p hp _ _ hsh
  have hle : ∀ s ∈ ss, l.mults.getD ((l.sectors sym).idxOf s) 0 ≤
      d.mults.getD ((d.sectors sym).idxOf s) 0 := by
    intro s hs
    rw [hN.mult ((H.common s).2 ((hmem s).1 hs))]
    exact min_le_right _ _
  set g : S → Blk K := fun s => ((itemOf sym c d l T s).blk.map f).getD
          (eyeSlice (l.mults.getD (itemOf sym c d l T s).n 0)
            (d.mults.getD (itemOf sym c d l T s).k 0)) with hg
  have hgs : ∀ s ∈ ss, (g s).shape = [l.mults.getD ((l.sectors sym).idxOf s) 0,
      d.mults.getD ((d.sectors sym).idxOf s) 0] ∧
      RowsOrtho (l.mults.getD ((l.sectors sym).idxOf s) 0)
        (d.mults.getD ((d.sectors sym).idxOf s) 0) (g s) := by
    intro s hs
    rw [hg]
    simp only
    cases hb : (itemOf sym c d l T s).blk with
    | none => exact ⟨rfl, eyeSlice_rows _ _ (hle s hs)⟩
    | some b => exact hblk s hs b hb
  obtain ⟨h1, h2⟩ := factor_spec R H.leg H.dom H.inj ss hss
    (fun s hs => ⟨(H.common s).2 ((hmem s).1 hs), ((hmem s).1 hs).2⟩) (fun s => some (g s))
    (fun s hs B hB => by cases hB; exact (hgs s hs).1)
    (rightFull d l f (ss.map (itemOf sym c d l T))) (by
      unfold rightFull
      congr 1
      rw [List.map_map]
      simp only [Option.map_some]
      rw [List.filterMap_eq_map']
      rfl)
  refine ⟨h1, h2, ?_⟩
  intro y hy y' hy'
  obtain ⟨n, z, hn, hz, rfl⟩ := mem_basis1.1 hy
  obtain ⟨n', z', hn', hz', rfl⟩ := mem_basis1.1 hy'
  have hl := sectors_length H.leg
  have e1 : (l.sectors sym)[n]? = some ((l.sectors sym)[n]'(by omega)) :=
    List.getElem?_eq_getElem (by omega)
  have e2 : (l.sectors sym)[n']? = some ((l.sectors sym)[n']'(by omega)) :=
    List.getElem?_eq_getElem (by omega)
  rw [prod_collapse (a := l) (b := l) H.dom H.inj ss (fun s hs => ((hmem s).1 hs).2)
    (entry (rightFull d l f (ss.map (itemOf sym c d l T))))
    (fun x y => star (entry (rightFull d l f (ss.map (itemOf sym c d l T))) y x))
    (fun s z x => (g s).val [z, x]) (fun s x z => star ((g s).val [z, x]))
    (fun n k z y s t hn hk => h2 n k z y s t hn hk)
    (fun j n x z s t hj hn => by
      rw [h2 n j z x t s hn hj]
      by_cases hst : s = t ∧ s ∈ ss
      · rw [if_pos hst, if_pos ⟨hst.1.symm, hst.1 ▸ hst.2⟩]
        rw [hst.1]
        rfl
      · rw [if_neg hst, if_neg (show ¬ (t = s ∧ t ∈ ss) from fun h => hst ⟨h.1.symm, h.1 ▸ h.2⟩),
          star_zero])
    n n' z z' _ _ e1 e2]
  by_cases hnn : n = n'
  · subst hnn
    have hs : (l.sectors sym)[n]'(by omega) ∈ ss :=
      (hmem _).2 ((H.common _).1 (List.getElem_mem _))
    rw [if_pos ⟨rfl, hs⟩]
    have hi : (l.sectors sym).idxOf ((l.sectors sym)[n]'(by omega)) = n := H.lnd.idxOf_getElem n _
    have := (hgs _ hs).2 z (by rw [hi]; exact hz) z' (by rw [hi]; exact hz')
    rw [this]
    by_cases hzz : z = z'
    · simp [hzz]
    · simp [hzz]
  · rw [if_neg, if_neg]
    · intro h; simp at h; exact hnn h.1
    · rintro ⟨h, -⟩
      exact hnn ((List.Nodup.getElem_inj_iff H.lnd).1 h)

/-- The left factor with blocks for the present blocks. -/
theorem leftPart_spec (H : DecOK sym c d l T) (hN : IsNewLeg sym c d l) (ss : List S)
    (hss : ss.Pairwise (· < ·)) (hmem : ∀ s, s ∈ ss ↔ s ∈ c.sectors sym ∧ s ∈ d.sectors sym)
    (f : Blk K → Blk K)
    (hf : ∀ p ∈ T, ∀ m n, p.2.shape = [m, n] → (f p.2).shape = [m, min m n]) :
    IsHom R [toBLeg sym c] [toBLeg sym l] (leftPart l f (ss.map (itemOf sym c d l T))) ∧
    (∀ (j n x z : ℕ) (s t : S), (c.sectors sym)[j]? = some s → (l.sectors sym)[n]? = some t →
      entry (leftPart l f (ss.map (itemOf sym c d l T))) ([j], [x]) ([n], [z]) =
        if s = t ∧ s ∈ ss then blkEntry ((itemOf sym c d l T s).blk.map f) x z else 0) := by
  refine factor_spec R H.codom H.leg H.inj ss hss
    (fun s hs => ⟨((hmem s).1 hs).1, (H.common s).2 ((hmem s).1 hs)⟩)
    (fun s => (itemOf sym c d l T s).blk.map f) (fun s hs B hB => ?_) _ ?_
  · obtain ⟨b, hb, rfl⟩ := Option.map_eq_some_iff.1 hB
    obtain ⟨⟨p, hp, rfl⟩, hsh⟩ := H.block hb
    rw [hN.mult ((H.common s).2 ((hmem s).1 hs))]
    exact hf p hp _ _ hsh
  · unfold leftPart
    congr 1
    rw [List.filterMap_map]
    refine List.filterMap_congr fun s _ => ?_
    simp only [Function.comp_apply, Option.map_map]
    rfl

/-- The right factor with blocks for the present blocks. -/
theorem rightPart_spec (H : DecOK sym c d l T) (hN : IsNewLeg sym c d l) (ss : List S)
    (hss : ss.Pairwise (· < ·)) (hmem : ∀ s, s ∈ ss ↔ s ∈ c.sectors sym ∧ s ∈ d.sectors sym)
    (f : Blk K → Blk K)
    (hf : ∀ p ∈ T, ∀ m n, p.2.shape = [m, n] → (f p.2).shape = [min m n, n]) :
    IsHom R [toBLeg sym l] [toBLeg sym d] (rightPart d f (ss.map (itemOf sym c d l T))) ∧
    (∀ (n k z y : ℕ) (s t : S), (l.sectors sym)[n]? = some s → (d.sectors sym)[k]? = some t →
      entry (rightPart d f (ss.map (itemOf sym c d l T))) ([n], [z]) ([k], [y]) =
        if s = t ∧ s ∈ ss then blkEntry ((itemOf sym c d l T s).blk.map f) z y else 0) := by
  refine factor_spec R H.leg H.dom H.inj ss hss
    (fun s hs => ⟨(H.common s).2 ((hmem s).1 hs), ((hmem s).1 hs).2⟩)
    (fun s => (itemOf sym c d l T s).blk.map f) (fun s hs B hB => ?_) _ ?_
  · obtain ⟨b, hb, rfl⟩ := Option.map_eq_some_iff.1 hB
    obtain ⟨⟨p, hp, rfl⟩, hsh⟩ := H.block hb
    rw [hN.mult ((H.common s).2 ((hmem s).1 hs))]
    exact hf p hp _ _ hsh
  · unfold rightPart
    congr 1
    rw [List.filterMap_map]
    refine List.filterMap_congr fun s _ => ?_
    simp only [Function.comp_apply, Option.map_map]
    rfl

/-- The product of the blocks of a sector is the block of the tensor. -/
theorem prod_entries (H : DecOK sym c d l T) (hN : IsNewLeg sym c d l) (ss : List S)
    (hmem : ∀ s, s ∈ ss ↔ s ∈ c.sectors sym ∧ s ∈ d.sectors sym)
    (A B : List ℕ × List ℕ → List ℕ × List ℕ → K) (e1 e2 : S → ℕ → ℕ → K)
    (hA : ∀ (j n x z : ℕ) (s t : S), (c.sectors sym)[j]? = some s → (l.sectors sym)[n]? = some t →
      A ([j], [x]) ([n], [z]) = if s = t ∧ s ∈ ss then e1 s x z else 0)
    (hB : ∀ (n k z y : ℕ) (s t : S), (l.sectors sym)[n]? = some s → (d.sectors sym)[k]? = some t →
      B ([n], [z]) ([k], [y]) = if s = t ∧ s ∈ ss then e2 s z y else 0)
    (hzero : ∀ s, (itemOf sym c d l T s).blk = none → ∀ x z y, e1 s x z * e2 s z y = 0)
    (hprod : ∀ s b, (itemOf sym c d l T s).blk = some b → ∀ m n, b.shape = [m, n] →
      ∀ x < m, ∀ y < n, b.val [x, y] = sumTo (min m n) fun z => e1 s x z * e2 s z y)
    (x z : List ℕ × List ℕ) (hx : x ∈ basis [c.mults]) (hz : z ∈ basis [d.mults]) :
    entry T x z = ((basis [l.mults]).map fun y => A x y * B y z).sum := by
  obtain ⟨j, x, hj, hx', rfl⟩ := mem_basis1.1 hx
  obtain ⟨k, y, hk, hy, rfl⟩ := mem_basis1.1 hz
  have hj' : j < (c.sectors sym).length := by rw [sectors_length H.codom]; exact hj
  have hk' : k < (d.sectors sym).length := by rw [sectors_length H.dom]; exact hk
  have ej := List.getElem?_eq_getElem hj'
  have ek := List.getElem?_eq_getElem hk'
  rw [prod_collapse (a := c) (b := d) H.leg H.inj ss (fun s hs => (H.common s).2 ((hmem s).1 hs)) A B
    e1 e2 hA hB j k x y _ _ ej ek, H.entry j k x y _ _ ej ek]
  by_cases hst : (c.sectors sym)[j] = (d.sectors sym)[k]
  · have hs : (c.sectors sym)[j] ∈ ss := (hmem _).2 ⟨List.getElem_mem _, hst ▸ List.getElem_mem _⟩
    rw [if_pos hst, if_pos ⟨hst, hs⟩]
    have i1 : (c.sectors sym).idxOf (c.sectors sym)[j] = j := H.cnd.idxOf_getElem j _
    have i2 : (d.sectors sym).idxOf (c.sectors sym)[j] = k := by
      rw [hst]; exact H.dnd.idxOf_getElem k _
    have hit : (itemOf sym c d l T (c.sectors sym)[j]).blk = getBlock T [j, k] := by
      unfold itemOf
      simp only
      rw [i1, i2]
    have hm := hN.mult ((H.common _).2 ((hmem _).1 hs))
    rw [i1, i2] at hm
    cases hb : getBlock T [j, k] with
    | none =>
      symm
      refine sumTo_zero _ _ fun z _ => ?_
      exact hzero _ (hit.trans hb) x z y
    | some b =>
      have hbk := H.block (s := (c.sectors sym)[j]) (b := b) (by rw [i1, i2]; exact hb)
      rw [i1, i2] at hbk
      show b.val [x, y] = _
      rw [hm]
      exact hprod _ b (hit.trans hb) _ _ hbk.2 x hx' y hy
  · rw [if_neg hst, if_neg fun h => hst h.1]

end Factors

/-! ## Diagonal factors -/

theorem mkDiag_perm (D : DEnts K) (b : Bool) : (mkDiag D b).Perm D := by
  unfold mkDiag
  split
  · exact List.Perm.refl _
  · exact List.perm_insertionSort _ _

theorem mkDiag_sorted (D : DEnts K) (hn : (D.map Prod.fst).Nodup) :
    ((mkDiag D false).map Prod.fst).Pairwise (· < ·) := by
  unfold mkDiag
  rw [if_neg (by simp)]
  have h1 := insertionSort_key_sorted
    (fun p q : ℕ × List K => cmpLexsort [p.1, p.1] [q.1, q.1] ≠ .gt) (fun p => p.1) D
    (fun x _ y _ => by
      rw [cmp_le_iff (r := [x.1, x.1]) (s := [y.1, y.1]) rfl]
      show [x.1, x.1] ≤ [y.1, y.1] ↔ _
      rw [← not_lt, ← not_lt]
      simp [List.cons_lt_cons_iff]
      omega)
  have hperm := List.perm_insertionSort
    (fun p q : ℕ × List K => cmpLexsort [p.1, p.1] [q.1, q.1] ≠ .gt) D
  have h2 := (hperm.map Prod.fst).nodup_iff.2 hn
  rw [List.pairwise_map]
  unfold List.Nodup at h2
  rw [List.pairwise_map] at h2
  exact (h1.and h2).imp fun h => lt_of_le_of_ne h.1 h.2

/-- A diagonal tensor with one block for each sector of a list. -/
theorem diag_spec [Zero K] {e : ESpace S} (hv : ValidSpace sym e) (hinj : Function.Injective sym.dual)
    (ss : List S) (hss : ss.Pairwise (· < ·)) (hsub : ∀ s ∈ ss, s ∈ e.sectors sym)
    (g : S → Option (List K))
    (hlen : ∀ s ∈ ss, ∀ v, g s = some v → v.length = e.mults.getD ((e.sectors sym).idxOf s) 0)
    (D : DEnts K) (hD : D = mkDiag (ss.filterMap fun s => (g s).map fun v =>
      ((e.sectors sym).idxOf s, v)) (!e.isDual)) :
    DSane e.mults D ∧ ∀ (n z : ℕ) (s : S), (e.sectors sym)[n]? = some s →
      diagEntry D n z = if s ∈ ss then ((g s).getD []).getD z 0 else 0 := by
  have hn := sectors_nodup hv hinj
  have hmem : ∀ p, p ∈ D ↔ ∃ s ∈ ss, ∃ v, g s = some v ∧ p = ((e.sectors sym).idxOf s, v) := by
    intro p
    rw [hD, (mkDiag_perm _ _).mem_iff, List.mem_filterMap]
    constructor
    · rintro ⟨s, hs, h⟩
      obtain ⟨v, hv, rfl⟩ := Option.map_eq_some_iff.1 h
      exact ⟨s, hs, v, hv, rfl⟩
    · rintro ⟨s, hs, v, hv, rfl⟩
      exact ⟨s, hs, by rw [hv]; rfl⟩
  have hsane : DSane e.mults D := by
    refine ⟨fun p hp => ?_, ?_⟩
    · obtain ⟨s, hs, v, hg, rfl⟩ := (hmem p).1 hp
      refine ⟨?_, hlen s hs v hg⟩
      rw [← sectors_length hv]
      exact List.idxOf_lt_length_iff.2 (hsub s hs)
    · rw [hD]
      cases hd : e.isDual with
      | true =>
        refine mkDiag_sorted _ ?_
        unfold List.Nodup
        rw [List.pairwise_map, List.pairwise_filterMap]
        refine hss.imp_of_mem fun {s t} hs ht hlt p hp q hq => ?_
        obtain ⟨B, -, rfl⟩ := Option.map_eq_some_iff.1 hp
        obtain ⟨B', -, rfl⟩ := Option.map_eq_some_iff.1 hq
        intro he
        exact ne_of_lt hlt ((List.idxOf_inj (hsub s hs)).1 he)
      | false =>
        rw [Bool.not_false, mkDiag, if_pos rfl]
        rw [List.pairwise_map, List.pairwise_filterMap]
        refine hss.imp_of_mem fun {s t} hs ht hlt p hp q hq => ?_
        obtain ⟨B, -, rfl⟩ := Option.map_eq_some_iff.1 hp
        obtain ⟨B', -, rfl⟩ := Option.map_eq_some_iff.1 hq
        by_contra hge
        have h1 := List.idxOf_lt_length_iff.2 (hsub s hs)
        have h2 := List.idxOf_lt_length_iff.2 (hsub t ht)
        have hsort : (e.sectors sym).Pairwise (· < ·) := by
          rw [sectors_nondual hd]; exact hv.sorted
        rcases Nat.lt_or_eq_of_le (not_lt.1 hge) with h | h
        · have := List.pairwise_iff_getElem.1 hsort _ _ h2 h1 h
          rw [List.getElem_idxOf, List.getElem_idxOf] at this
          exact lt_asymm this hlt
        · exact ne_of_lt hlt ((List.idxOf_inj (hsub t ht)).1 h).symm
  refine ⟨hsane, fun n z s hs => ?_⟩
  have e1 := idxOf_getElem? hn hs
  unfold diagEntry
  by_cases h : s ∈ ss
  · rw [if_pos h]
    cases hg : g s with
    | none =>
      rw [show D.lookup n = none from lookup_none_iff.2 ?_]
      intro p hp he
      obtain ⟨s', hs', v, hv, rfl⟩ := (hmem p).1 hp
      have : s' = s := (List.idxOf_inj (hsub s' hs')).1 (he.trans e1.symm)
      subst this
      rw [hv] at hg
      cases hg
    | some v =>
      have hp : (n, v) ∈ D := (hmem _).2 ⟨s, h, v, hg, by rw [e1]⟩
      rw [show D.lookup n = some v from lookup_of_mem hsane.sorted hp]
  · rw [if_neg h, show D.lookup n = none from lookup_none_iff.2 ?_]
    · rfl
    · intro p hp he
      obtain ⟨s', hs', v, hv, rfl⟩ := (hmem p).1 hp
      have : s' = s := (List.idxOf_inj (hsub s' hs')).1 (he.trans e1.symm)
      subst this
      exact h hs'

/-! ## The decompositions -/

section Decompositions
variable [Semiring K] [StarRing K] (R : FusionRule S) {T : Ents K}
  (hc : ValidSpace sym c) (hd : ValidSpace sym d) (hinj : Function.Injective sym.dual)
  (hN : IsNewLeg sym c d l) (hT : IsHom R [toBLeg sym c] [toBLeg sym d] T)

include hc hd hinj hN hT

/-- **C48**: `qr`: the factors are consistent symmetric tensors through the new leg, their matrix
product is the tensor, and the columns of `Q` are orthonormal. -/
theorem C48_qr (f : Blk K → Blk K × Blk K)
    (hf : ∀ p ∈ T, ∀ m n, p.2.shape = [m, n] → Factors m n p.2 (f p.2).1 (f p.2).2 ∧
      ColsOrtho m (min m n) (f p.2).1) :
    IsHom R [toBLeg sym c] [toBLeg sym l] (qr sym c d l f T).1 ∧
    IsHom R [toBLeg sym l] [toBLeg sym d] (qr sym c d l f T).2 ∧
    (∀ x ∈ basis [c.mults], ∀ z ∈ basis [d.mults], entry T x z = ((basis [l.mults]).map fun y =>
      entry (qr sym c d l f T).1 x y * entry (qr sym c d l f T).2 y z).sum) ∧
    (∀ y ∈ basis [l.mults], ∀ y' ∈ basis [l.mults], ((basis [c.mults]).map fun x =>
      star (entry (qr sym c d l f T).1 x y) * entry (qr sym c d l f T).1 x y').sum =
        if y = y' then 1 else 0) := by
  have H := decOK R T hc hd hinj hN hT
  obtain ⟨ss, hss, hmem, hit⟩ := decItems_eq H
  unfold qr
  simp only [hit]
  obtain ⟨q1, q2, q3⟩ := leftFull_spec R H hN ss hss hmem (fun b => (f b).1)
    fun p hp m n h => ⟨(hf p hp m n h).1.left, (hf p hp m n h).2⟩
  obtain ⟨r1, r2⟩ := rightPart_spec R H hN ss hss hmem (fun b => (f b).2)
    fun p hp m n h => (hf p hp m n h).1.right
  refine ⟨q1, r1, fun x hx z hz => ?_, q3⟩
  refine prod_entries H hN ss hmem _ _ _ _ q2 r2 ?_ ?_ x z hx hz
  · intro s hs x z y
    rw [hs]
    show _ * 0 = _
    rw [mul_zero]
  · intro s b hb m n hmn x hx y hy
    obtain ⟨⟨p, hp, rfl⟩, -⟩ := H.block hb
    rw [hb]
    exact (hf p hp m n hmn).1.product x hx y hy

/-- **C48**: `lq`: the product of the factors is the tensor and the rows of `Q` are orthonormal. -/
theorem C48_lq (f : Blk K → Blk K × Blk K)
    (hf : ∀ p ∈ T, ∀ m n, p.2.shape = [m, n] → Factors m n p.2 (f p.2).1 (f p.2).2 ∧
      RowsOrtho (min m n) n (f p.2).2) :
    IsHom R [toBLeg sym c] [toBLeg sym l] (lq sym c d l f T).1 ∧
    IsHom R [toBLeg sym l] [toBLeg sym d] (lq sym c d l f T).2 ∧
    (∀ x ∈ basis [c.mults], ∀ z ∈ basis [d.mults], entry T x z = ((basis [l.mults]).map fun y =>
      entry (lq sym c d l f T).1 x y * entry (lq sym c d l f T).2 y z).sum) ∧
    (∀ y ∈ basis [l.mults], ∀ y' ∈ basis [l.mults], ((basis [d.mults]).map fun x =>
      entry (lq sym c d l f T).2 y x * star (entry (lq sym c d l f T).2 y' x)).sum =
        if y = y' then 1 else 0) := by
  have H := decOK R T hc hd hinj hN hT
  obtain ⟨ss, hss, hmem, hit⟩ := decItems_eq H
  unfold lq
  simp only [hit]
  obtain ⟨q1, q2, q3⟩ := rightFull_spec R H hN ss hss hmem (fun b => (f b).2)
    fun p hp m n h => ⟨(hf p hp m n h).1.right, (hf p hp m n h).2⟩
  obtain ⟨r1, r2⟩ := leftPart_spec R H hN ss hss hmem (fun b => (f b).1)
    fun p hp m n h => (hf p hp m n h).1.left
  refine ⟨r1, q1, fun x hx z hz => ?_, q3⟩
  refine prod_entries H hN ss hmem _ _ _ _ r2 q2 ?_ ?_ x z hx hz
  · intro s hs x z y
    rw [hs]
    show 0 * _ = _
    rw [zero_mul]
  · intro s b hb m n hmn x hx y hy
    obtain ⟨⟨p, hp, rfl⟩, -⟩ := H.block hb
    rw [hb]
    exact (hf p hp m n hmn).1.product x hx y hy

/-- **C48**: `svd`: the factors are consistent, `U S Vh` is the tensor, and `U` and `Vh` are isometries;
the list of singular values of a sector is the one of its block. -/
theorem C48_svd (f : Blk K → Blk K × List K × Blk K)
    (hf : ∀ p ∈ T, ∀ m n, p.2.shape = [m, n] →
      IsSVD m n p.2 (f p.2).1 (f p.2).2.1 (f p.2).2.2) :
    IsHom R [toBLeg sym c] [toBLeg sym l] (svd sym c d l f T).1 ∧
    DSane l.mults (svd sym c d l f T).2.1 ∧
    IsHom R [toBLeg sym l] [toBLeg sym d] (svd sym c d l f T).2.2 ∧
    (∀ x ∈ basis [c.mults], ∀ z ∈ basis [d.mults], entry T x z = ((basis [l.mults]).map fun y =>
      entry (svd sym c d l f T).1 x y * diagEntry (svd sym c d l f T).2.1 (y.1.getD 0 0) (y.2.getD 0 0) *
        entry (svd sym c d l f T).2.2 y z).sum) ∧
    (∀ y ∈ basis [l.mults], ∀ y' ∈ basis [l.mults], ((basis [c.mults]).map fun x =>
      star (entry (svd sym c d l f T).1 x y) * entry (svd sym c d l f T).1 x y').sum =
        if y = y' then 1 else 0) ∧
    (∀ y ∈ basis [l.mults], ∀ y' ∈ basis [l.mults], ((basis [d.mults]).map fun x =>
      entry (svd sym c d l f T).2.2 y x * star (entry (svd sym c d l f T).2.2 y' x)).sum =
        if y = y' then 1 else 0) ∧
    (∀ q ∈ (svd sym c d l f T).2.1, ∃ p ∈ T, q.2 = (f p.2).2.1) := by
  have H := decOK R T hc hd hinj hN hT
  obtain ⟨ss, hss, hmem, hit⟩ := decItems_eq H
  unfold svd
  simp only [hit]
  obtain ⟨q1, q2, q3⟩ := leftFull_spec R H hN ss hss hmem (fun b => (f b).1)
    fun p hp m n h => ⟨(hf p hp m n h).left, (hf p hp m n h).cols⟩
  obtain ⟨r1, r2, r3⟩ := rightFull_spec R H hN ss hss hmem (fun b => (f b).2.2)
    fun p hp m n h => ⟨(hf p hp m n h).right, (hf p hp m n h).rows⟩
  obtain ⟨d1, d2⟩ := diag_spec H.leg hinj ss hss (fun s hs => (H.common s).2 ((hmem s).1 hs))
    (fun s => (itemOf sym c d l T s).blk.map fun b => (f b).2.1)
    (fun s hs v hv => by
      obtain ⟨b, hb, rfl⟩ := Option.map_eq_some_iff.1 hv
      obtain ⟨⟨p, hp, rfl⟩, hsh⟩ := H.block hb
      rw [hN.mult ((H.common s).2 ((hmem s).1 hs))]
      exact (hf p hp _ _ hsh).values)
    (mkDiag ((ss.map (itemOf sym c d l T)).filterMap fun it => it.blk.map fun b =>
      (it.n, (f b).2.1)) (!l.isDual)) (by
      congr 1
      rw [List.filterMap_map]
      refine List.filterMap_congr fun s _ => ?_
      simp only [Function.comp_apply, Option.map_map]
      rfl)
  refine ⟨q1, d1, r1, fun x hx z hz => ?_, q3, r3, ?_⟩
  · refine prod_entries H hN ss hmem
      (fun x y => entry (leftFull c l (fun b => (f b).1) (ss.map (itemOf sym c d l T))) x y *
        diagEntry (mkDiag ((ss.map (itemOf sym c d l T)).filterMap fun it => it.blk.map fun b =>
      (it.n, (f b).2.1)) (!l.isDual)) (y.1.getD 0 0) (y.2.getD 0 0))
      _ (fun s x z => (((itemOf sym c d l T s).blk.map fun b => (f b).1).getD
          (eyeSlice (c.mults.getD (itemOf sym c d l T s).j 0)
            (l.mults.getD (itemOf sym c d l T s).n 0))).val [x, z] *
          ((((itemOf sym c d l T s).blk.map fun b => (f b).2.1)).getD []).getD z 0)
      _ ?_ r2 ?_ ?_ x z hx hz
    · intro j n x z s t hj hn
      simp only [List.getD_cons_zero]
      rw [q2 j n x z s t hj hn]
      by_cases h : s = t ∧ s ∈ ss
      · rw [if_pos h, if_pos h, d2 n z t hn, if_pos (h.1 ▸ h.2), h.1]
      · rw [if_neg h, if_neg h, zero_mul]
    · intro s hs x z y
      rw [hs]
      simp
    · intro s b hb m n hmn x hx y hy
      obtain ⟨⟨p, hp, rfl⟩, -⟩ := H.block hb
      rw [hb]
      exact (hf p hp m n hmn).product x hx y hy
  · intro q hq
    have hq := (List.Perm.mem_iff (mkDiag_perm _ _)).1 hq
    obtain ⟨it, hi, h⟩ := List.mem_filterMap.1 hq
    obtain ⟨s, hs, rfl⟩ := List.mem_map.1 hi
    obtain ⟨b, hb, rfl⟩ := Option.map_eq_some_iff.1 h
    obtain ⟨⟨p, hp, rfl⟩, -⟩ := H.block hb
    exact ⟨p, hp, rfl⟩

end Decompositions

/-! ## Eigenvalue decomposition -/

section Eigh
variable {e : ESpace S}

theorem eyeData_one [Zero K] [One K] (m : List ℕ) : (eyeData [m] : Ents K) =
    (List.range m.length).map fun i => ([i, i], Blk.eyeBlock [m.getD i 0]) := by
  unfold eyeData mkData
  rw [if_pos rfl]
  have : gridF ([m].reverse.map List.length) = (List.range m.length).map fun i => [i] := by
    show gridF [m.length] = _
    unfold gridF
    rw [List.reverse_singleton]
    have h : gridC [m.length] = (List.range m.length).map fun x => [x] := by
      simp only [gridC, List.map_cons, List.map_nil]
      rw [← List.flatMap_pure_eq_map]
      rfl
    rw [h, List.map_map]
    rfl
  rw [this, List.map_map]
  rfl

theorem eyeBlock_one [Semiring K] (n x y : ℕ) (hx : x < n) (hy : y < n) :
    (Blk.eyeBlock [n] : Blk K).val [x, y] = if x = y then 1 else 0 := by
  have := eyeBlock_val (K := K) [n] [x] [y] (.cons hx .nil) (.cons hy .nil)
  simpa using this

section Fold
variable {α : Type} (g : List ℕ × Blk K → α → α) (i : ℕ)

theorem foldl_modify_none (T : Ents K) (E : List α) (h : ∀ p ∈ T, p.1.getD 0 0 ≠ i) :
    (T.foldl (fun v p => v.modify (p.1.getD 0 0) (g p)) E)[i]? = E[i]? := by
  induction T generalizing E with
  | nil => rfl
  | cons p T ih =>
    rw [List.foldl_cons, ih _ fun q hq => h q (List.mem_cons_of_mem _ hq), List.getElem?_modify]
    have := h p List.mem_cons_self
    simp only [this, if_false]
    cases E[i]? <;> rfl

theorem foldl_modify_some (T : Ents K) (E : List α) (hn : (T.map fun p => p.1.getD 0 0).Nodup)
    (p : List ℕ × Blk K) (hp : p ∈ T) (hi : p.1.getD 0 0 = i) :
    (T.foldl (fun v p => v.modify (p.1.getD 0 0) (g p)) E)[i]? = E[i]?.map (g p) := by
  induction T generalizing E with
  | nil => cases hp
  | cons q T ih =>
    rw [List.map_cons, List.nodup_cons] at hn
    rw [List.foldl_cons]
    rcases List.mem_cons.1 hp with rfl | hp
    · rw [foldl_modify_none g i T _ fun q hq he => hn.1 (by
        rw [hi, ← he]; exact List.mem_map_of_mem (f := fun p : List ℕ × Blk K => p.1.getD 0 0) hq),
        List.getElem?_modify]
      simp only [hi, if_true]
      cases E[i]? <;> rfl
    · rw [ih _ hn.2 hp, List.getElem?_modify]
      have : q.1.getD 0 0 ≠ i := by
        intro he
        exact hn.1 (by
          rw [he, ← hi]
          exact List.mem_map_of_mem (f := fun p : List ℕ × Blk K => p.1.getD 0 0) hp)
      simp only [this, if_false]
      cases E[i]? <;> rfl

theorem length_foldl_modify (T : Ents K) (E : List α) :
    (T.foldl (fun v p => v.modify (p.1.getD 0 0) (g p)) E).length = E.length := by
  induction T generalizing E with
  | nil => rfl
  | cons p T ih => rw [List.foldl_cons, ih, List.length_modify]

end Fold

/-- The blocks of the eigenvectors. -/
def eighBlock [Zero K] [One K] (m : List ℕ) (f : Blk K → List K × Blk K) (T : Ents K) (i : ℕ) : Blk K :=
  ((getBlock T [i, i]).map fun b => (f b).2).getD (Blk.eyeBlock [m.getD i 0])

theorem eigh_vectors [Semiring K] (m : List ℕ) (f : Blk K → List K × Blk K) (T : Ents K)
    (hT : Sane [m, m] T) (hr : ∀ p ∈ T, ∃ i, p.1 = [i, i]) :
    (eigh m f T).2 = (List.range m.length).map fun i => ([i, i], eighBlock m f T i) := by
  have hnd : (T.map fun p => p.1.getD 0 0).Nodup := by
    have := hT.nodup
    unfold List.Nodup at this ⊢
    rw [List.pairwise_map] at this ⊢
    refine this.imp_of_mem fun {p q} hp hq h he => h ?_
    obtain ⟨i, hi⟩ := hr p hp
    obtain ⟨j, hj⟩ := hr q hq
    rw [hi, hj] at he ⊢
    simp only [List.getD_cons_zero] at he
    rw [he]
  unfold eigh
  simp only
  refine List.ext_getElem? fun i => ?_
  rw [List.getElem?_map]
  by_cases hex : ∃ p ∈ T, p.1 = [i, i]
  · obtain ⟨p, hp, he⟩ := hex
    rw [foldl_modify_some (fun p q => (q.1, (f p.2).2)) i T _ hnd p hp (by rw [he]; rfl), eyeData_one,
      List.getElem?_map, Option.map_map]
    unfold eighBlock
    have hlt : i < m.length := by
      have := hT.inRange p hp
      rw [he] at this
      cases this with
      | cons h _ => exact h
    rw [List.getElem?_range hlt]
    have hg : getBlock T [i, i] = some p.2 := by rw [← he]; exact hT.getBlock_of_mem hp
    simp [hg]
  · push Not at hex
    rw [foldl_modify_none (fun p q => (q.1, (f p.2).2)) i T _ (fun p hp he => by
      obtain ⟨k, hk⟩ := hr p hp
      rw [hk] at he
      simp only [List.getD_cons_zero] at he
      exact hex p hp (by rw [hk, he])), eyeData_one, List.getElem?_map]
    unfold eighBlock
    cases hlt : (List.range m.length)[i]? with
    | none => rfl
    | some k =>
      have : k = i := by
        obtain ⟨h1, h2⟩ := List.getElem?_eq_some_iff.1 hlt
        simpa using h2.symm
      subst this
      rw [Option.map_some, Option.map_some, getBlock_none hex]
      rfl

theorem sum_basis_single [AddCommMonoid K] (m : List ℕ) (i : ℕ) (hi : i < m.length)
    (f : List ℕ × List ℕ → K) (h : ∀ n z, n ≠ i → f ([n], [z]) = 0) :
    ((basis [m]).map f).sum = sumTo (m.getD i 0) fun z => f ([i], [z]) := by
  rw [sum_basis1]
  exact sumTo_single _ i hi _ fun n _ hn => sumTo_zero _ _ fun z _ => h n z hn

/-- **C48**: `eigh` of a symmetric tensor from a leg to itself: `V` is a consistent symmetric tensor
and unitary, and `V W V†` is the tensor; sectors without a block have the eigenvalues zero and the
eigenvectors of the computational basis. -/
theorem C48_eigh [Semiring K] [StarRing K] (R : FusionRule S) (hv : ValidSpace sym e)
    (hinj : Function.Injective sym.dual) (T : Ents K)
    (hT : IsHom R [toBLeg sym e] [toBLeg sym e] T) (f : Blk K → List K × Blk K)
    (hf : ∀ p ∈ T, ∀ m, p.2.shape = [m, m] → IsEigh m p.2 (f p.2).1 (f p.2).2) :
    DSane e.mults (eigh e.mults f T).1 ∧
    IsHom R [toBLeg sym e] [toBLeg sym e] (eigh e.mults f T).2 ∧
    (∀ x ∈ basis [e.mults], ∀ z ∈ basis [e.mults], entry T x z = ((basis [e.mults]).map fun y =>
      entry (eigh e.mults f T).2 x y * diagEntry (eigh e.mults f T).1 (y.1.getD 0 0) (y.2.getD 0 0) *
        star (entry (eigh e.mults f T).2 z y)).sum) ∧
    (∀ y ∈ basis [e.mults], ∀ y' ∈ basis [e.mults], ((basis [e.mults]).map fun x =>
      star (entry (eigh e.mults f T).2 x y) * entry (eigh e.mults f T).2 x y').sum =
        if y = y' then 1 else 0) ∧
    (∀ y ∈ basis [e.mults], ∀ y' ∈ basis [e.mults], ((basis [e.mults]).map fun x =>
      entry (eigh e.mults f T).2 y x * star (entry (eigh e.mults f T).2 y' x)).sum =
        if y = y' then 1 else 0) ∧
    (∀ q ∈ (eigh e.mults f T).1, ∃ p ∈ T, q.2 = (f p.2).1) := by
  have hS : Sane [e.mults, e.mults] T := hT.sane
  have hr := C36_charge_rule R hv hinj T hS hT.charge
  have hV := eigh_vectors e.mults f T hS hr
  have hshape : ∀ p ∈ T, ∀ i, p.1 = [i, i] → i < e.mults.length ∧
      p.2.shape = [e.mults.getD i 0, e.mults.getD i 0] := by
    intro p hp i hi
    have h1 := hS.inRange p hp
    have h2 := hS.shapes p hp
    rw [hi] at h1 h2
    cases h1 with
    | cons h _ => exact ⟨h, h2⟩
  have hW : (eigh e.mults f T).1 = T.map fun p => (p.1.getD 0 0, (f p.2).1) := rfl
  have hgb : ∀ i b, getBlock T [i, i] = some b → ∃ p ∈ T, p.1 = [i, i] ∧ p.2 = b := by
    intro i b h
    by_cases hex : ∃ p ∈ T, p.1 = [i, i]
    · obtain ⟨p, hp, he⟩ := hex
      rw [← he, hS.getBlock_of_mem hp] at h
      exact ⟨p, hp, he, Option.some.inj h⟩
    · push Not at hex
      rw [getBlock_none hex] at h
      cases h
  have hblk : ∀ i < e.mults.length, (eighBlock e.mults f T i).shape = [e.mults.getD i 0, e.mults.getD i 0] ∧
      ColsOrtho (e.mults.getD i 0) (e.mults.getD i 0) (eighBlock e.mults f T i) ∧
      RowsOrtho (e.mults.getD i 0) (e.mults.getD i 0) (eighBlock e.mults f T i) := by
    intro i hi
    unfold eighBlock
    cases hg : getBlock T [i, i] with
    | none =>
      refine ⟨eyeBlock_shape _, ?_, ?_⟩
      · intro z hz z' hz'
        have := eyeSlice_cols (K := K) (e.mults.getD i 0) (e.mults.getD i 0) le_rfl z hz z' hz'
        rw [← this]
        refine sum_congr _ fun x hx => ?_
        have hx := List.mem_range.1 hx
        show star ((Blk.eyeBlock [e.mults.getD i 0] : Blk K).val [x, z]) *
          (Blk.eyeBlock [e.mults.getD i 0] : Blk K).val [x, z'] = _
        rw [eyeBlock_one _ _ _ hx hz, eyeBlock_one _ _ _ hx hz']
        rfl
      · intro z hz z' hz'
        have := eyeSlice_rows (K := K) (e.mults.getD i 0) (e.mults.getD i 0) le_rfl z hz z' hz'
        rw [← this]
        refine sum_congr _ fun x hx => ?_
        have hx := List.mem_range.1 hx
        show (Blk.eyeBlock [e.mults.getD i 0] : Blk K).val [z, x] *
          star ((Blk.eyeBlock [e.mults.getD i 0] : Blk K).val [z', x]) = _
        rw [eyeBlock_one _ _ _ hz hx, eyeBlock_one _ _ _ hz' hx]
        rfl
    | some b =>
      obtain ⟨p, hp, he, rfl⟩ := hgb i b hg
      have h := hf p hp _ (hshape p hp i he).2
      exact ⟨h.vectors, h.cols, h.rows⟩
  have hVs : Sane [e.mults, e.mults] (eigh e.mults f T).2 := by
    rw [hV]
    refine ⟨?_, ?_, ?_⟩
    · intro p hp
      obtain ⟨i, hi, rfl⟩ := List.mem_map.1 hp
      have := List.mem_range.1 hi
      exact .cons this (.cons this .nil)
    · intro p hp
      obtain ⟨i, hi, rfl⟩ := List.mem_map.1 hp
      exact (hblk i (List.mem_range.1 hi)).1
    · unfold StrictlySorted
      rw [List.map_map, List.pairwise_map]
      refine List.pairwise_lt_range.imp fun {a b} h => ?_
      exact (rowLt_pair _ _ _ _).2 (Or.inl h)
  have hent : ∀ i k x y, i < e.mults.length → entry (eigh e.mults f T).2 ([i], [x]) ([k], [y]) =
      if i = k then (eighBlock e.mults f T i).val [x, y] else 0 := by
    intro i k x y hi
    show dense _ [i, k] [x, y] = _
    by_cases hik : i = k
    · subst hik
      rw [if_pos rfl]
      have hp : ([i, i], eighBlock e.mults f T i) ∈ (eigh e.mults f T).2 := by
        rw [hV]
        exact List.mem_map.2 ⟨i, List.mem_range.2 hi, rfl⟩
      exact hVs.dense_of_mem hp _
    · rw [if_neg hik, dense_of_not_mem]
      intro p hp he
      rw [hV] at hp
      obtain ⟨j, _, rfl⟩ := List.mem_map.1 hp
      simp only [List.cons.injEq, and_true] at he
      exact hik (he.1.symm.trans he.2)
  have hWs : DSane e.mults (eigh e.mults f T).1 := by
    rw [hW]
    refine ⟨fun q hq => ?_, ?_⟩
    · obtain ⟨p, hp, rfl⟩ := List.mem_map.1 hq
      obtain ⟨i, hi⟩ := hr p hp
      obtain ⟨h1, h2⟩ := hshape p hp i hi
      simp only [hi, List.getD_cons_zero]
      exact ⟨h1, (hf p hp _ h2).values⟩
    · rw [List.map_map, List.pairwise_map]
      have := hS.sorted
      unfold StrictlySorted at this
      rw [List.pairwise_map] at this
      refine this.imp_of_mem fun {p q} hp hq h => ?_
      obtain ⟨i, hi⟩ := hr p hp
      obtain ⟨j, hj⟩ := hr q hq
      rw [hi, hj, rowLt_pair] at h
      simp only [Function.comp_apply, hi, hj, List.getD_cons_zero]
      omega
  refine ⟨hWs, ⟨hVs, ?_⟩, ?_, ?_, ?_, ?_⟩
  · intro p hp
    rw [hV] at hp
    obtain ⟨j, _, rfl⟩ := List.mem_map.1 hp
    rfl
  · intro x hx z hz
    obtain ⟨i, x, hi, hx', rfl⟩ := mem_basis1.1 hx
    obtain ⟨k, z, hk, hz', rfl⟩ := mem_basis1.1 hz
    rw [sum_basis_single e.mults i hi _ (fun n v hn => by
      rw [hent i n x v hi, if_neg (Ne.symm hn), zero_mul, zero_mul])]
    simp only [List.getD_cons_zero]
    simp only [hent i i _ _ hi, hent k i _ _ hk, if_true]
    show dense T [i, k] [x, z] = _
    by_cases hik : i = k
    · subst hik
      simp only [if_true]
      cases hg : getBlock T [i, i] with
      | none =>
        have hex : ∀ p ∈ T, p.1 ≠ [i, i] := by
          intro p hp he
          rw [← he, hS.getBlock_of_mem hp] at hg
          cases hg
        rw [dense_of_not_mem hex]
        symm
        refine sumTo_zero _ _ fun v _ => ?_
        have : diagEntry (eigh e.mults f T).1 i v = 0 := by
          unfold diagEntry
          rw [show (eigh e.mults f T).1.lookup i = none from lookup_none_iff.2 ?_]
          · rfl
          · intro q hq he
            rw [hW] at hq
            obtain ⟨p, hp, rfl⟩ := List.mem_map.1 hq
            obtain ⟨j, hj⟩ := hr p hp
            simp only [hj, List.getD_cons_zero] at he
            exact hex p hp (by rw [hj, he])
        rw [this, mul_zero, zero_mul]
      | some b =>
        obtain ⟨p, hp, he, rfl⟩ := hgb i b hg
        have hd := hS.dense_of_mem hp [x, z]
        rw [he] at hd
        rw [hd, (hf p hp _ (hshape p hp i he).2).product x hx' z hz']
        refine sum_congr _ fun v _ => ?_
        have e1 : eighBlock e.mults f T i = (f p.2).2 := by
          unfold eighBlock; rw [hg]; rfl
        have e2 : diagEntry (eigh e.mults f T).1 i v = (f p.2).1.getD v 0 := by
          unfold diagEntry
          have hq : (i, (f p.2).1) ∈ (eigh e.mults f T).1 := by
            rw [hW]; exact List.mem_map.2 ⟨p, hp, by rw [he]; rfl⟩
          rw [show (eigh e.mults f T).1.lookup i = some (f p.2).1 from lookup_of_mem hWs.sorted hq]
          rfl
        rw [e1, e2]
    · rw [dense_of_not_mem]
      · symm
        refine sumTo_zero _ _ fun v _ => ?_
        rw [if_neg (Ne.symm hik), star_zero, mul_zero]
      · intro p hp he
        obtain ⟨j, hj⟩ := hr p hp
        rw [hj] at he
        simp only [List.cons.injEq, and_true] at he
        exact hik (he.1.symm.trans he.2)
  · intro y hy y' hy'
    obtain ⟨i, x, hi, hx', rfl⟩ := mem_basis1.1 hy
    obtain ⟨k, z, hk, hz', rfl⟩ := mem_basis1.1 hy'
    have hlt : ∀ n v, (entry (eigh e.mults f T).2 ([n], [v]) ([i], [x])) = 
        if n = i then (eighBlock e.mults f T i).val [v, x] else 0 := by
      intro n v
      by_cases hn : n = i
      · subst hn; exact hent n n v x hi
      · rw [if_neg hn]
        show dense _ [n, i] [v, x] = _
        rw [dense_of_not_mem]
        intro p hp he
        rw [hV] at hp
        obtain ⟨j, _, rfl⟩ := List.mem_map.1 hp
        simp only [List.cons.injEq, and_true] at he
        exact hn (he.1.symm.trans he.2)
    rw [sum_basis_single e.mults i hi _ (fun n v hn => by
      rw [hlt n v, if_neg hn, star_zero, zero_mul])]
    simp only [hent i i _ _ hi, hent i k _ _ hi, if_true]
    by_cases hik : i = k
    · subst hik
      simp only [if_true]
      rw [(hblk i hi).2.1 x hx' z hz']
      by_cases hxz : x = z <;> simp [hxz]
    · rw [if_neg]
      · refine sumTo_zero _ _ fun v _ => ?_
        rw [if_neg hik, mul_zero]
      · intro h; simp at h; exact hik h.1
  · intro y hy y' hy'
    obtain ⟨i, x, hi, hx', rfl⟩ := mem_basis1.1 hy
    obtain ⟨k, z, hk, hz', rfl⟩ := mem_basis1.1 hy'
    rw [sum_basis_single e.mults i hi _ (fun n v hn => by
      rw [hent i n x v hi, if_neg (Ne.symm hn), zero_mul])]
    simp only [hent i i _ _ hi, hent k i _ _ hk, if_true]
    by_cases hik : i = k
    · subst hik
      simp only [if_true]
      rw [(hblk i hi).2.2 x hx' z hz']
      by_cases hxz : x = z <;> simp [hxz]
    · rw [if_neg]
      · refine sumTo_zero _ _ fun v _ => ?_
        rw [if_neg (Ne.symm hik), star_zero, mul_zero]
      · intro h; simp at h; exact hik h.1
  · intro q hq
    rw [hW] at hq
    obtain ⟨p, hp, rfl⟩ := List.mem_map.1 hq
    exact ⟨p, hp, rfl⟩

end Eigh

end Cyten.Props
