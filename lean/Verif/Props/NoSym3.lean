import Verif.Props.NoSym2

/-!
# C70: pipes and decompositions without symmetry
-/

namespace Cyten.NoSym.Spec
open Cyten.NoSym Cyten.Tools Cyten.Tables

/-- The index of a pipe for the indices `r` of its legs (in the order of the tensor legs): C- or F-style
strides of the dimensions of `pipe.legs`. -/
def segIndex : NSeg → List ℕ → ℕ
  | .keep _, r => r.headD 0
  | .pipe ls _ cstyle inDomain, r =>
    packRow (makeStride (ldims ls) cstyle) (if inDomain then r.reverse else r)

/-- The indices after combining. -/
def pipeIndex : List NSeg → List ℕ → List ℕ
  | [], _ => []
  | s :: ss, i => segIndex s (i.take s.legs.length) :: pipeIndex ss (i.drop s.legs.length)

/-- The legs are consistent and the pipe is the one constructed from its legs. -/
def SegValid : NSeg → Prop
  | .keep l => LegOK l
  | .pipe ls p cstyle _ => (∀ l ∈ ls, LegOK l) ∧ NLeg.pipe ls cstyle = some p

end Cyten.NoSym.Spec

namespace Cyten.Props
open Cyten.NoSym Cyten.NoSym.Spec Cyten.Abelian Cyten.Abelian.Spec Cyten.Tools Cyten.Tables Cyten.ListSum

variable {K : Type}

theorem permRow_eq (ls : List NLeg) (row : List ℕ) :
    permRow (ls.map NLeg.basisPerm) row = List.zipWith (fun (l : NLeg) x => l.basisPerm.getD x 0) ls row := by
  unfold permRow
  rw [List.zipWith_map_left]

theorem basis_intl {ls : List NLeg} (h : ∀ l ∈ ls, LegOK l) {i : List ℕ} (hi : InShape i (ldims ls)) :
    List.zipWith (fun (l : NLeg) x => l.basisPerm.getD x 0) ls (intl ls i) = i := by
  induction ls generalizing i with
  | nil => cases hi; rfl
  | cons l ls ih =>
    cases hi with
    | cons hx hr =>
      exact congrArg₂ List.cons (basis_inverse (h l (by simp)) hx) (ih (fun l hl => h l (by simp [hl])) hr)

theorem intl_none {ls : List NLeg} (h : ∀ l ∈ ls, l.perm = none) {i : List ℕ} (hi : InShape i (ldims ls)) :
    intl ls i = i := by
  induction ls generalizing i with
  | nil => cases hi; rfl
  | cons l ls ih =>
    cases hi with
    | cons hx hr =>
      refine congrArg₂ List.cons ?_ (ih (fun l hl => h l (by simp [hl])) hr)
      show l.inversePerm.getD _ 0 = _
      unfold NLeg.inversePerm
      rw [h l (by simp)]
      exact getD_of (List.getElem?_range hx)

/-- The pipe of consistent legs: its dimension, its consistency, the internal index of a public one. -/
theorem pipe_spec {ls : List NLeg} {c : Bool} {p : NLeg} (h : ∀ l ∈ ls, LegOK l)
    (hp : NLeg.pipe ls c = some p) :
    LegOK p ∧ p.dim = (ldims ls).prod ∧
    ∀ i, InShape i (ldims ls) →
      p.inversePerm.getD (packRow (makeStride (ldims ls) c) i) 0 =
        packRow (makeStride (ldims ls) c) (intl ls i) := by
  have hlt := fun (i : List ℕ) (hi : InShape i (ldims ls)) => ((C22_stride_grid (ldims ls) c).2 i hi).2
  unfold NLeg.pipe at hp
  by_cases hn : (ls.all fun l => l.perm.isNone) = true
  · rw [if_pos hn] at hp
    obtain rfl := Option.some.inj hp
    refine ⟨fun p hp => by simp at hp, rfl, fun i hi => ?_⟩
    have hn' : ∀ l ∈ ls, l.perm = none := fun l hl => by simpa using List.all_eq_true.1 hn l hl
    rw [intl_none hn' hi]
    exact getD_of (List.getElem?_range (hlt i hi))
  · rw [if_neg hn] at hp
    obtain ⟨q, hq, rfl⟩ := Option.map_eq_some_iff.1 hp
    have hd : (ls.map NLeg.basisPerm).map List.length = ldims ls := (mapLegs_length h).2
    obtain ⟨c1, c2⟩ := C21_combine_permutations _ _ _ hq (List ℕ) id
    rw [hd] at c2
    have hlen : q.length = (ldims ls).prod := by
      have := congrArg List.length c2
      rw [List.length_map, List.length_map, (C22_grid_complete (ldims ls) c).2.2] at this
      exact this.symm
    unfold IsPerm at c1
    refine ⟨fun p hp => ?_, rfl, fun i hi => ?_⟩
    · have : p = q := by simpa using hp.symm
      subst this
      rw [hlen] at c1; exact c1
    · have hin := intl_inShape h hi
      have g1 := ((C22_stride_grid (ldims ls) c).2 _ hin).1
      have e := congrArg (·[packRow (makeStride (ldims ls) c) (intl ls i)]?) c2
      simp only [List.getElem?_map, g1, Option.map_some, id] at e
      rw [permRow_eq, basis_intl h hi] at e
      -- the entry of the permutation
      cases hm : q[packRow (makeStride (ldims ls) c) (intl ls i)]? with
      | none => rw [hm] at e; simp at e
      | some m =>
        rw [hm] at e
        simp only [Option.map_some, Option.some.injEq] at e
        have g2 := (C22_stride_grid (ldims ls) c).1 m i (by
          cases hmm : (makeGrid (ldims ls) c)[m]? with
          | none => rw [hmm] at e; simp at e
          | some r => rw [hmm] at e; simpa using e.symm)
        rw [g2]
        exact getD_of (inversePermutation_apply c1 hm)

theorem seg_index {s : NSeg} (h : SegValid s) {r : List ℕ} (hr : InShape r (ldims s.legs)) :
    LegOK s.leg ∧ s.leg.dim = (ldims s.legs).prod ∧ (∀ l ∈ s.legs, LegOK l) ∧
    s.leg.inversePerm.getD (segIndex s r) 0 =
      packRow (makeStride (rv s.rev (ldims s.legs)) true) (rv s.rev (intl s.legs r)) := by
  cases s with
  | keep l =>
    refine ⟨h, by simp [NSeg.leg, NSeg.legs, ldims], fun l' hl' => ?_, ?_⟩
    · have : l' = l := by simpa [NSeg.legs] using hl'
      rw [this]; exact h
    · change InShape r [l.dim] at hr
      cases hr with
      | cons hx hr =>
        cases hr
        show _ = packRow (makeStride [l.dim] true) [_]
        rw [packRow_cons]
        simp [packRow, makeStride, strideLoop, segIndex, NSeg.leg]
  | pipe ls p c d =>
    obtain ⟨h1, h2⟩ := h
    obtain ⟨p1, p2, p3⟩ := pipe_spec h1 h2
    cases d with
    | false =>
      change InShape r (ldims ls) at hr
      have lr : r.length = ls.length := by simpa using hr.length
      refine ⟨p1, p2, h1, ?_⟩
      show p.inversePerm.getD (packRow _ r) 0 = _
      rw [p3 r hr]
      cases c with
      | true => rfl
      | false =>
        rw [packRow_false _ _ (by rw [length_intl _ _ lr, length_ldims])]
        rfl
    | true =>
      change InShape r (ldims ls.reverse) at hr
      rw [ldims_reverse] at hr
      have hr' : InShape r.reverse (ldims ls) := by
        rw [← List.reverse_reverse (ldims ls)]; exact inShape_reverse.2 hr
      have lr : r.reverse.length = ls.length := by simpa using hr'.length
      have e : intl ls.reverse r = (intl ls r.reverse).reverse := by
        rw [← intl_reverse _ _ lr, List.reverse_reverse]
      refine ⟨p1, ?_, fun l hl => h1 l (List.mem_reverse.1 hl), ?_⟩
      · show p.dim = (ldims ls.reverse).prod
        rw [p2, ldims_reverse, List.prod_reverse]
      show p.inversePerm.getD (packRow _ r.reverse) 0 = packRow (makeStride (rv _ (ldims ls.reverse)) true) (rv _ (intl ls.reverse r))
      rw [p3 _ hr', e, ldims_reverse]
      cases c with
      | true =>
        show _ = packRow (makeStride (ldims ls).reverse.reverse true) (intl ls r.reverse).reverse.reverse
        rw [List.reverse_reverse, List.reverse_reverse]
      | false =>
        rw [packRow_false _ _ (by rw [length_intl _ _ lr, length_ldims])]
        rfl

/-- The legs before and after combining. -/
def oldLegs (segs : List NSeg) : List NLeg := segs.flatMap NSeg.legs

/-- How the axes are grouped. -/
def nPieces (segs : List NSeg) : List (ℕ × Bool) := segs.map fun s => (s.legs.length, s.rev)

theorem total_nPieces (segs : List NSeg) : total (nPieces segs) = (oldLegs segs).length := by
  unfold total nPieces oldLegs
  rw [List.map_map, List.length_flatMap]; rfl

theorem segs_index {segs : List NSeg} (h : ∀ s ∈ segs, SegValid s) {i : List ℕ}
    (hi : InShape i (ldims (oldLegs segs))) :
    (∀ l ∈ oldLegs segs, LegOK l) ∧ (∀ l ∈ segs.map NSeg.leg, LegOK l) ∧
    ldims (segs.map NSeg.leg) = (chunks ((nPieces segs).map Prod.fst) (ldims (oldLegs segs))).map List.prod ∧
    intl (segs.map NSeg.leg) (pipeIndex segs i) =
      packsW (nPieces segs) (ldims (oldLegs segs)) (intl (oldLegs segs) i) := by
  induction segs generalizing i with
  | nil => exact ⟨by simp [oldLegs], by simp, rfl, rfl⟩
  | cons s ss ih =>
    have e : oldLegs (s :: ss) = s.legs ++ oldLegs ss := rfl
    rw [e, ldims_append] at hi
    have h1 : InShape (i.take s.legs.length) (ldims s.legs) := by
      have := inShape_take hi s.legs.length
      rwa [List.take_left' (by simp)] at this
    have h2 : InShape (i.drop s.legs.length) (ldims (oldLegs ss)) := by
      have := inShape_drop hi s.legs.length
      rwa [List.drop_left' (by simp)] at this
    obtain ⟨a1, a2, a3, a4⟩ := ih (fun t ht => h t (by simp [ht])) h2
    obtain ⟨b1, b2, b3, b4⟩ := seg_index (h s (by simp)) h1
    refine ⟨fun l hl => ?_, fun l hl => ?_, ?_, ?_⟩
    · rw [e, List.mem_append] at hl
      exact hl.elim (b3 l) (a1 l)
    · rw [List.map_cons, List.mem_cons] at hl
      rcases hl with rfl | hl
      · exact b1
      · exact a2 l hl
    · show s.leg.dim :: ldims (ss.map NSeg.leg) = (List.take s.legs.length _).prod :: List.map List.prod
        (chunks ((nPieces ss).map Prod.fst) (List.drop s.legs.length _))
      rw [e, ldims_append, List.take_left' (by simp), List.drop_left' (by simp), ← a3, b2]
    · show s.leg.inversePerm.getD _ 0 :: intl (ss.map NSeg.leg) _ =
        packRow (makeStride (rv s.rev (List.take s.legs.length _)) true) (rv s.rev (List.take s.legs.length _)) ::
          packsW (nPieces ss) (List.drop s.legs.length _) (List.drop s.legs.length _)
      have hl1 : (i.take s.legs.length).length = s.legs.length := by simpa using h1.length
      have e2 : intl (s.legs ++ oldLegs ss) i =
          intl s.legs (i.take s.legs.length) ++ intl (oldLegs ss) (i.drop s.legs.length) := by
        rw [← intl_append _ _ _ _ hl1, List.take_append_drop]
      rw [e, ldims_append, List.take_left' (by simp), List.drop_left' (by simp), e2,
        List.take_left' (length_intl _ _ hl1), List.drop_left' (length_intl _ _ hl1), ← a4, ← b4]

/-- **C70**: `combine_legs`: the entry of the dense array at the index of the pipes is the entry at the
indices of their legs. -/
theorem C70_combine (segs : List NSeg) (h : ∀ s ∈ segs, SegValid s) (b : Blk K)
    (hb : b.shape = ldims (oldLegs segs)) (i : List ℕ) (hi : InShape i (ldims (oldLegs segs))) :
    (combineBlk segs b).shape = ldims (segs.map NSeg.leg) ∧
    (pub (segs.map NSeg.leg) (combineBlk segs b)).val (pipeIndex segs i) =
      (pub (oldLegs segs) b).val i := by
  obtain ⟨a1, a2, a3, a4⟩ := segs_index h hi
  refine ⟨?_, ?_⟩
  · rw [a3, ← hb]; rfl
  · rw [pub_val, pub_val, a4, ← hb]
    exact combineLegs_val (nPieces segs) b _ (by rw [hb]; exact intl_inShape a1 hi) (by
      rw [hb, total_nPieces, length_ldims])

/-- The dimensions for `split_legs`. -/
theorem splitArg_dims {segs : List NSeg} (h : ∀ s ∈ segs, SegValid s) :
    List.zipWith splitDims (segs.map NSeg.splitArg) (ldims (segs.map NSeg.leg)) =
    segs.map fun s => rv s.rev (ldims s.legs) := by
  unfold ldims
  rw [List.map_map, List.zipWith_map, List.zipWith_self]
  refine List.map_congr_left fun s hs => ?_
  cases s with
  | keep l => rfl
  | pipe ls p c d => cases c <;> cases d <;> simp [NSeg.splitArg, NSeg.legs, NSeg.rev, rv, ldims, splitDims, splitRev]

theorem splitArg_pieces (segs : List NSeg) :
    List.zipWith (fun s (ds : List ℕ) => (ds.length, splitRev s)) (segs.map NSeg.splitArg) (segs.map fun s => rv s.rev (ldims s.legs)) =
    nPieces segs := by
  unfold nPieces
  rw [List.zipWith_map, List.zipWith_self]
  refine List.map_congr_left fun s hs => ?_
  cases s with
  | keep l => rfl
  | pipe ls p c d => cases c <;> cases d <;> simp [NSeg.splitArg, NSeg.legs, NSeg.rev, rv, ldims, splitDims, splitRev]

theorem flatten_rv (segs : List NSeg) :
    (segs.map fun s => rv s.rev (ldims s.legs)).flatten = revChunks (nPieces segs) (ldims (oldLegs segs)) := by
  induction segs with
  | nil => rfl
  | cons s ss ih =>
    rw [List.map_cons, List.flatten_cons, ih]
    show _ = rv s.rev (List.take s.legs.length _) ++ revChunks (nPieces ss) (List.drop s.legs.length _)
    rw [show oldLegs (s :: ss) = s.legs ++ oldLegs ss from rfl, ldims_append, List.take_left' (by simp),
      List.drop_left' (by simp)]

/-- **C70**: `split_legs` undoes it: the same relation of the entries, and no exception. -/
theorem C70_split (segs : List NSeg) (h : ∀ s ∈ segs, SegValid s) (b : Blk K)
    (hb : b.shape = ldims (segs.map NSeg.leg)) :
    ∃ b', splitBlk segs b = some b' ∧
      b'.shape = ldims (oldLegs segs) ∧
      ∀ i, InShape i (ldims (oldLegs segs)) →
        (pub (oldLegs segs) b').val i = (pub (segs.map NSeg.leg) b).val (pipeIndex segs i) := by
  have hd : (segs.map fun s => rv s.rev (ldims s.legs)).map List.prod = ldims (segs.map NSeg.leg) := by
    unfold ldims
    rw [List.map_map, List.map_map]
    refine List.map_congr_left fun s hs => ?_
    have hs := h s hs
    simp only [Function.comp]
    rw [prod_rv]
    cases s with
    | keep l => simp [NSeg.legs, NSeg.leg]
    | pipe ls p c d =>
      have := (pipe_spec hs.1 hs.2).2.1
      cases d with
      | false => exact this.symm
      | true =>
        show (ldims ls.reverse).prod = _
        rw [ldims_reverse, List.prod_reverse]; exact this.symm
  have hs : splitBlk segs b = some ((b.reshape (revChunks (nPieces segs) (ldims (oldLegs segs)))).permuteAxes
      (axesPerm 0 (nPieces segs))) := by
    unfold splitBlk Blk.splitLegs
    simp only
    rw [hb, splitArg_dims h, if_pos hd, flatten_rv, splitArg_pieces]
  refine ⟨_, hs, ?_, ?_⟩
  · show pick (axesPerm 0 (nPieces segs)) (revChunks (nPieces segs) (ldims (oldLegs segs))) = _
    have hl : (ldims (oldLegs segs)).length = total (nPieces segs) := by rw [total_nPieces, length_ldims]
    rw [pick_axesPerm0 _ _ (by rw [length_revChunks _ _ hl, hl]), revChunks_revChunks _ _ hl]
  · intro i hi
    obtain ⟨a1, a2, a3, a4⟩ := segs_index h hi
    have hl : (ldims (oldLegs segs)).length = total (nPieces segs) := by rw [total_nPieces, length_ldims]
    have := split_val (nPieces segs) b (ldims (oldLegs segs)) (intl (oldLegs segs) i) (intl_inShape a1 hi) hl
      (by rw [hb, a3])
    have e : ((axesPerm 0 (nPieces segs)).map fun i => (ldims (oldLegs segs)).getD i 0) =
      revChunks (nPieces segs) (ldims (oldLegs segs)) := pick_axesPerm0 _ _ hl
    rw [e] at this
    rw [pub_val, pub_val, a4]
    exact this.2

/-! ## Decompositions -/

theorem reshape_matrix (b : Blk K) (s1 s2 i j : List ℕ) (hs : b.shape = s1 ++ s2) (hi : InShape i s1)
    (hj : InShape j s2) :
    (b.reshape [s1.prod, s2.prod]).val [packRow (makeStride s1 true) i, packRow (makeStride s2 true) j] =
      b.val (i ++ j) := by
  refine reshape_val b _ _ (i ++ j) (by rw [hs]; exact inShape_append hi hj) ?_
  rw [packC_two, hs, packC_append _ _ _ _ hi.length]

theorem reshape_tensor (b : Blk K) (s1 s2 i j : List ℕ) (hs : b.shape = [s1.prod, s2.prod])
    (hi : InShape i s1) (hj : InShape j s2) :
    (b.reshape (s1 ++ s2)).val (i ++ j) =
      b.val [packRow (makeStride s1 true) i, packRow (makeStride s2 true) j] := by
  refine reshape_val b _ _ _ (by rw [hs]; exact .cons (packRow_lt hi) (.cons (packRow_lt hj) .nil)) ?_
  rw [hs, packC_two, packC_append _ _ _ _ hi.length]

theorem pack_one (k x : ℕ) : packRow (makeStride [k] true) [x] = x := by
  simp [packRow, makeStride, strideLoop]

/-- The law of a decomposition of matrices: the factors have matching shapes, their product is the
matrix. -/
def QrLaws [AddCommMonoid K] [Mul K] (f : Blk K → Blk K × Blk K) : Prop :=
  ∀ M : Blk K, ∀ m n, M.shape = [m, n] → ∃ k, (f M).1.shape = [m, k] ∧ (f M).2.shape = [k, n] ∧
    ∀ x y, x < m → y < n →
      ((List.range k).map fun z => (f M).1.val [x, z] * (f M).2.val [z, y]).sum = M.val [x, y]

/-- **C70**: `qr` (`lq` is the same function with other factors): the composition of the factors is the
tensor; the new leg carries an orthonormal system whenever the block function gives one. -/
theorem C70_qr [NonUnitalNonAssocSemiring K] [StarMul K] [One K] (f : Blk K → Blk K × Blk K)
    (hf : QrLaws f) (a : NTensor K) (ha : NSane a) :
    NSane (qr f a).1 ∧ NSane (qr f a).2 ∧ (qr f a).1.cod = a.cod ∧ (qr f a).2.dom = a.dom ∧
    (qr f a).1.dom = (qr f a).2.cod ∧
    (∀ i j, InShape i (ldims a.cod) → InShape j (ldims a.dom.reverse) →
      NDense (NoSym.compose (qr f a).1 (qr f a).2) (i ++ j) = NDense a (i ++ j)) ∧
    ((∀ M : Blk K, ∀ m n, M.shape = [m, n] → ∀ x y, x < (f M).1.shape.getD 1 0 → y < (f M).1.shape.getD 1 0 →
        ((List.range m).map fun z => star ((f M).1.val [z, x]) * (f M).1.val [z, y]).sum =
          if x = y then 1 else 0) →
      ∀ x y, x < ((qr f a).1.dom.map NLeg.dim).prod → y < ((qr f a).1.dom.map NLeg.dim).prod →
        ((gridC (ldims a.cod)).map fun i =>
          star (NDense (qr f a).1 (i ++ [x])) * NDense (qr f a).1 (i ++ [y])).sum = if x = y then 1 else 0) := by
  have hsh : a.blk.shape = ldims a.cod ++ ldims a.dom.reverse := by
    rw [ha.shape, NTensor.legs, ldims_append]
  set M := a.blk.reshape [(ldims a.cod).prod, (ldims a.dom.reverse).prod] with hM
  obtain ⟨k, s1, s2, hprod⟩ := hf M _ _ rfl
  have hk : (f M).2.shape.getD 0 0 = k := by rw [s2]; rfl
  set k' : NLeg := ⟨k, none⟩ with hk'
  have hkok : LegOK k' := fun p hp => by simp [hk'] at hp
  have hQ : (qr f a).1 = ⟨a.cod, [k'], (f M).1.reshape (ldims a.cod ++ [k])⟩ := by
    show (NTensor.mk a.cod [⟨(f M).2.shape.getD 0 0, none⟩] _) = _
    rw [hk]
  have hR : (qr f a).2 = ⟨[k'], a.dom, (f M).2.reshape (k :: ldims a.dom.reverse)⟩ := by
    show (NTensor.mk [⟨(f M).2.shape.getD 0 0, none⟩] a.dom _) = _
    rw [hk]
  have dk : ldims [k'] = [k] := rfl
  have sQ : NSane (qr f a).1 := by
    rw [hQ]
    refine ⟨fun l hl => ?_, ?_⟩
    · have : l ∈ a.cod ++ [k'] := hl
      rw [List.mem_append] at this
      rcases this with h | h
      · exact ha.cod l h
      · rw [List.mem_singleton.1 h]; exact hkok
    · show ldims a.cod ++ [k] = ldims (a.cod ++ [k'])
      rw [ldims_append]; rfl
  have sR : NSane (qr f a).2 := by
    rw [hR]
    refine ⟨fun l hl => ?_, rfl⟩
    have : l ∈ k' :: a.dom.reverse := hl
    rw [List.mem_cons] at this
    rcases this with rfl | h
    · exact hkok
    · exact ha.dom l (List.mem_reverse.1 h)
  have ik : ∀ x, x < k → intl [k'] [x] = [x] := fun x hx => by
    show [(List.range k).getD x 0] = [x]
    rw [getD_of (List.getElem?_range hx)]
  have vQ : ∀ i x, InShape i (ldims a.cod) → x < k → NDense (qr f a).1 (i ++ [x]) =
      (f M).1.val [packRow (makeStride (ldims a.cod) true) (intl a.cod i), x] := by
    intro i x hi hx
    have li : i.length = a.cod.length := by simpa using hi.length
    rw [nDense_eq, hQ]
    show ((f M).1.reshape (ldims a.cod ++ [k])).val (intl (a.cod ++ [k']) (i ++ [x])) = _
    rw [intl_append _ _ _ _ li, ik x hx,
      reshape_tensor _ _ _ _ _ (by rw [s1]; simp) (intl_inShape ha.cod hi) (.cons hx .nil), pack_one]
  have vR : ∀ x j, x < k → InShape j (ldims a.dom.reverse) → NDense (qr f a).2 ([x] ++ j) =
      (f M).2.val [x, packRow (makeStride (ldims a.dom.reverse) true) (intl a.dom.reverse j)] := by
    intro x j hx hj
    rw [nDense_eq, hR]
    show ((f M).2.reshape ([k] ++ ldims a.dom.reverse)).val (intl ([k'] ++ a.dom.reverse) ([x] ++ j)) = _
    rw [intl_append _ _ _ _ rfl, ik x hx,
      reshape_tensor _ _ _ _ _ (by rw [s2]; simp) (.cons hx .nil) (intl_inShape (fun l hl => ha.dom l (List.mem_reverse.1 hl)) hj), pack_one]
  have g1 : gridC [k] = (List.range k).map fun x => [x] := by
    simp only [gridC, List.map_cons, List.map_nil]
    rw [← List.flatMap_pure_eq_map]; rfl
  refine ⟨sQ, sR, by rw [hQ], by rw [hR], by rw [hQ, hR], ?_, ?_⟩
  · intro i j hi hj
    have li : i.length = a.cod.length := by simpa using hi.length
    have e : (qr f a).1.dom = [k'] := by rw [hQ]
    rw [(C70_compose _ _ sQ sR (by rw [hQ, hR]) i j (by rw [hQ]; exact hi) (by rw [hR]; exact hj)).2,
      e, dk, g1, List.map_map, nDense_eq, NTensor.legs, intl_append _ _ _ _ li,
      ← reshape_matrix a.blk _ _ _ _ hsh (intl_inShape ha.cod hi) (intl_inShape (fun l hl => ha.dom l (List.mem_reverse.1 hl)) hj),
      ← hM, ← hprod _ _ (packRow_lt (intl_inShape ha.cod hi)) (packRow_lt (intl_inShape (fun l hl => ha.dom l (List.mem_reverse.1 hl)) hj))]
    refine sum_congr _ fun x hx => ?_
    have hx : x < k := by simpa using hx
    simp only [Function.comp, List.reverse_singleton]
    rw [vQ i x hi hx, vR x j hx hj]
  · intro ho x y hx hy
    have e : (qr f a).1.dom = [k'] := by rw [hQ]
    rw [e] at hx hy
    have hx : x < k := by simpa [hk'] using hx
    have hy : y < k := by simpa [hk'] using hy
    have s1' : (f M).1.shape.getD 1 0 = k := by rw [s1]; rfl
    rw [← ho M _ _ rfl x y (by rw [s1']; exact hx) (by rw [s1']; exact hy), ← map_pack_gridC,
      List.map_map]
    symm
    rw [← sum_intl ha.cod]
    refine sum_congr _ fun i hi => ?_
    have hi := (mem_gridC _ _).1 hi
    simp only [Function.comp]
    rw [vQ i x hi hx, vQ i y hi hy]

/-- **C70**: `eigh`: every column of the second result is an eigenvector for the entry of the first. -/
theorem C70_eigh [NonUnitalNonAssocSemiring K] (f : Blk K → List K × Blk K) (newLeg : NLeg)
    (a : NTensor K) (ha : NSane a) (hcd : a.cod = a.dom) (hleg : LegOK newLeg)
    (hdim : newLeg.dim = (ldims a.dom).prod)
    (hf : ∀ M : Blk K, ∀ k, M.shape = [k, k] → (f M).2.shape = [k, k] ∧ ∀ x y, x < k → y < k →
      ((List.range k).map fun z => M.val [x, z] * (f M).2.val [z, y]).sum =
        (f M).2.val [x, y] * (f M).1.getD y 0) (i : List ℕ) (x : ℕ)
    (hi : InShape i (ldims a.cod)) (hx : x < newLeg.dim) :
    ((gridC (ldims a.dom)).map fun y =>
        NDense a (i ++ y.reverse) * NDense (NoSym.eigh f newLeg a).2 (y ++ [x])).sum =
      NDense (NoSym.eigh f newLeg a).2 (i ++ [x]) * (NoSym.eigh f newLeg a).1.toDense.getD x 0 := by
  have sh : a.blk.shape = ldims a.cod ++ (ldims a.dom).reverse := by
    rw [ha.shape, NTensor.legs, ldims_append, ldims_reverse]
  set A := a.blk.permuteAxes (List.range a.cod.length ++
    (List.range' a.cod.length a.cod.length).reverse) with hA
  have pk : ∀ u v : List ℕ, u.length = a.cod.length → v.length = a.cod.length →
      pick (List.range a.cod.length ++ (List.range' a.cod.length a.cod.length).reverse) (u ++ v) =
        u ++ v.reverse := by
    intro u v hu hv
    rw [pick_append, pick_range _ _ (by simp; omega), List.take_left' hu]
    congr 1
    unfold pick
    rw [List.map_reverse]
    congr 1
    have := pick_range' (u ++ v) a.cod.length a.cod.length (by simp [hu, hv])
    rw [List.drop_left' hu] at this
    exact this
  have ldc : (ldims a.dom).length = a.cod.length := by rw [hcd]; simp
  have sA : A.shape = ldims a.cod ++ ldims a.dom := by
    show pick _ a.blk.shape = _
    rw [sh, pk _ _ (by simp) (by rw [List.length_reverse, ldc]), List.reverse_reverse]
  set M := A.reshape [(ldims a.dom).prod, (ldims a.dom).prod] with hM
  obtain ⟨s1, hev⟩ := hf M _ rfl
  have hV : (NoSym.eigh f newLeg a).2 = ⟨a.cod, [newLeg], (f M).2.reshape (ldims a.cod ++ [(ldims a.dom).prod])⟩ := rfl
  have hW : (NoSym.eigh f newLeg a).1 = ⟨newLeg, (f M).1⟩ := rfl
  set X := newLeg.inversePerm.getD x 0 with hX
  have hXl : X < (ldims a.dom).prod := by rw [← hdim]; exact getD_lt_of_perm (inversePerm_perm hleg) hx
  have vV : ∀ y, InShape y (ldims a.cod) → NDense (NoSym.eigh f newLeg a).2 (y ++ [x]) =
      (f M).2.val [packRow (makeStride (ldims a.cod) true) (intl a.cod y), X] := by
    intro y hy
    have ly : y.length = a.cod.length := by simpa using hy.length
    rw [nDense_eq, hV]
    show ((f M).2.reshape (ldims a.cod ++ [(ldims a.dom).prod])).val (intl (a.cod ++ [newLeg]) (y ++ [x])) = _
    rw [intl_append _ _ _ _ ly]
    show ((f M).2.reshape (ldims a.cod ++ [(ldims a.dom).prod])).val (intl a.cod y ++ [X]) = _
    rw [reshape_tensor _ _ _ _ _ (by rw [s1, hcd]; simp) (intl_inShape ha.cod hy) (.cons hXl .nil), pack_one]
  have vA : ∀ y, InShape y (ldims a.dom) → NDense a (i ++ y.reverse) =
      M.val [packRow (makeStride (ldims a.cod) true) (intl a.cod i),
        packRow (makeStride (ldims a.dom) true) (intl a.dom y)] := by
    intro y hy
    have li : i.length = a.cod.length := by simpa using hi.length
    have ly : y.length = a.dom.length := by simpa using hy.length
    rw [nDense_eq, NTensor.legs, intl_append _ _ _ _ li, intl_reverse _ _ ly]
    have e1 := reshape_matrix A _ _ _ _ sA (intl_inShape ha.cod hi) (intl_inShape ha.dom hy)
    have e2 : (ldims a.cod).prod = (ldims a.dom).prod := by rw [hcd]
    rw [e2] at e1
    rw [hM, e1, hA]
    have l1 : (intl a.cod i).length = a.cod.length := length_intl _ _ li
    have l2 : (intl a.dom y).length = a.cod.length := by rw [length_intl _ _ ly, hcd]
    have e3 := permuteAxes_val a.blk (List.range a.cod.length ++
      (List.range' a.cod.length a.cod.length).reverse) (intl a.cod i ++ (intl a.dom y).reverse) (by
        rw [List.length_append, List.length_reverse, l1, l2, List.range_eq_range', List.range_eq_range',
          ← List.range'_append_1, Nat.zero_add]
        exact List.Perm.append_left _ (List.reverse_perm _))
    rw [pk _ _ l1 (by simp [l2]), List.reverse_reverse] at e3
    exact e3.symm
  rw [vV i hi, hW]
  show _ = _ * (take1 (f M).1 newLeg.inversePerm).getD x 0
  rw [take1_inverse hleg _ hx, ← hX, ← hev _ _ (by
    have := packRow_lt (intl_inShape ha.cod hi); rwa [hcd] at this ⊢) hXl, ← map_pack_gridC, List.map_map]
  symm
  rw [← sum_intl ha.dom]
  refine sum_congr _ fun y hy => ?_
  have hy := (mem_gridC _ _).1 hy
  simp only [Function.comp]
  rw [vA y hy, vV y (by rw [hcd]; exact hy), hcd]

/-! ## Concrete cases -/

/-- Two legs with basis permutations. -/
def nExA : NLeg := ⟨2, some [1, 0]⟩
def nExB : NLeg := ⟨3, some [2, 0, 1]⟩

theorem nEx_ok : LegOK nExA ∧ LegOK nExB := by
  constructor
  · intro p hp; cases hp; decide
  · intro p hp; cases hp; decide

/-- The array `1, 2, …` of the shape of the legs. -/
def nExArr (cod dom : List NLeg) : Blk ℤ :=
  ⟨ldims (cod ++ dom.reverse), fun i =>
    (packRow (makeStride (ldims (cod ++ dom.reverse)) true) i : ℤ) + 1⟩

/-- `3 × 2` and `2 × 3` matrices. -/
def nExT : NTensor ℤ := fromDense [nExB] [nExA] (nExArr [nExB] [nExA])
def nExU : NTensor ℤ := fromDense [nExA] [nExB] (nExArr [nExA] [nExB])

theorem nExT_sane : NSane nExT :=
  (C70_roundtrip [nExB] [nExA] (by
    intro l hl
    have : l = nExB ∨ l = nExA := by simpa using hl
    rcases this with rfl | rfl
    · exact nEx_ok.2
    · exact nEx_ok.1) _ [0, 0] (by decide)).1

example : ∃ t : NTensor ℤ, NSane t ∧ t.legs = [nExB, nExA] := ⟨nExT, nExT_sane, rfl⟩

/-- The internal block is permuted, the dense array is not. -/
example : nExT.blk.val [0, 0] = 6 ∧ (toDense nExT).val [0, 0] = 1 ∧ NoSym.getElement nExT [2, 1] = 6 := by
  decide +kernel

/-- `[[1, 2], [3, 4], [5, 6]] * [[1, 2, 3], [4, 5, 6]]` -/
example : (toDense (NoSym.compose nExT nExU)).shape = [3, 3] ∧
    (gridC [3, 3]).map (toDense (NoSym.compose nExT nExU)).val =
      [9, 12, 15, 19, 26, 33, 29, 40, 51] := by decide +kernel

/-- A pipe of the two legs, and its index. -/
example : ∃ p, NLeg.pipe [nExB, nExA] false = some p ∧
    SegValid (.pipe [nExB, nExA] p false true) ∧
    Spec.segIndex (.pipe [nExB, nExA] p false true) [1, 2] = 2 + 3 * 1 := by
  refine ⟨⟨6, some [5, 3, 4, 2, 0, 1]⟩, by decide +kernel, ⟨?_, by decide +kernel⟩, by decide +kernel⟩
  intro l hl
  have : l = nExB ∨ l = nExA := by simpa using hl
  rcases this with rfl | rfl
  · exact nEx_ok.2
  · exact nEx_ok.1

/-- A mask that keeps the public indices 0 and 2. -/
example : (maskFromBlock nExB [true, false, true]).small.dim = 2 ∧
    (gridC [2, 2]).map (toDense (maskLarge nExT (NoSym.maskFromBlock nExB [true, false, true]) 0)).val =
      [1, 2, 5, 6] := by
  refine ⟨(small_ok nEx_ok.2 rfl).2, ?_⟩
  have h := fun i hi => (C70_mask_project nExT nExT_sane nExB [true, false, true] 0 rfl rfl i hi).2.2
  obtain ⟨y, hy, e1⟩ := h [0, 0] (by decide)
  obtain ⟨y', hy', e2⟩ := h [0, 1] (by decide)
  obtain ⟨z, hz, e3⟩ := h [1, 0] (by decide)
  obtain ⟨z', hz', e4⟩ := h [1, 1] (by decide)
  have : (nonzero [true, false, true])[0]? = some 0 := by decide
  rw [show ([0, 0] : List ℕ).getD 0 0 = 0 from rfl, this] at hy
  rw [show ([0, 1] : List ℕ).getD 0 0 = 0 from rfl, this] at hy'
  have : (nonzero [true, false, true])[1]? = some 2 := by decide
  rw [show ([1, 0] : List ℕ).getD 0 0 = 1 from rfl, this] at hz
  rw [show ([1, 1] : List ℕ).getD 0 0 = 1 from rfl, this] at hz'
  cases hy; cases hy'; cases hz; cases hz'
  have g : gridC [2, 2] = [[0, 0], [0, 1], [1, 0], [1, 1]] := by decide
  rw [g]
  show [NDense _ [0, 0], NDense _ [0, 1], NDense _ [1, 0], NDense _ [1, 1]] = _
  rw [e1, e2, e3, e4]
  decide +kernel

/-- A block function with the law of a decomposition: `M = 1 * M`. -/
theorem nEx_qr : QrLaws (K := ℤ) fun M => (⟨[M.shape.getD 0 0, M.shape.getD 0 0], fun i =>
    if i.getD 0 0 = i.getD 1 0 then 1 else 0⟩, M) := by
  intro M m n hM
  refine ⟨m, by show [M.shape.getD 0 0, _] = _; rw [hM]; rfl, hM, fun x y hx hy => ?_⟩
  have : ∀ z ∈ List.range m, (if ([x, z] : List ℕ).getD 0 0 = ([x, z] : List ℕ).getD 1 0 then (1 : ℤ) else 0) *
      M.val [z, y] = if z = x then M.val [x, y] else 0 := by
    intro z _
    by_cases h : z = x
    · subst h; simp
    · rw [if_neg (fun h' => h h'.symm), if_neg h, zero_mul]
  rw [sum_congr _ this, sum_single' _ List.nodup_range x (by simpa using hx) _ (fun z _ h => if_neg h), if_pos rfl]

end Cyten.Props
