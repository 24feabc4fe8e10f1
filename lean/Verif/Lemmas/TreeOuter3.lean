import Verif.Lemmas.TreeOuter2

/-! # The tensors of the results of `insert_at` -/

namespace Cyten.FT
open Cyten.FT.Spec Cyten.Tools Cyten.ListSum Cyten.Props Cyten.Mappings

variable {S K : Type} [LinearOrder S] [CommRing K] [StarRing K]
variable {R : FusionRule S} {T : FTensors S K} {D : Topo S K} {F : FSym S K}

theorem one_leg_eq (r : FusionTree S) (h : r.Sane R) (hl : r.uncoupled.length = 1) :
    ∃ d, r = FusionTree.fromSector r.coupled d := by
  obtain ⟨a, ha⟩ : ∃ a, r.uncoupled = [a] := List.length_eq_one_iff.1 hl
  obtain ⟨q1, q2, q3, q4⟩ := (sane_one_iff R r a ha).1 h
  obtain ⟨d0, hd0⟩ : ∃ d0, r.areDual = [d0] := List.length_eq_one_iff.1 q2
  refine ⟨d0, ?_⟩
  obtain ⟨u, co, du, inn, ms⟩ := r
  simp only at ha q1 q2 q3 q4 hd0
  subst ha q1 q3 q4 hd0
  rfl

theorem fromSector_tensor (a : S) (d : Bool) (j h : ℕ) :
    treeTensor T (FusionTree.fromSector a d) [j] h = legMat T d a h j := by
  unfold legMat
  show (if d = true then T.Z (T.dual a) h j else if j = h then 1 else 0) = _
  cases d
  · simp [eq_comm]
  · rfl

/-- The sum over a leg of `legMat` and a vertex -/
theorem sum_leg_right (hL : GroupLaws R T D) (a b c : S) (e : Bool) (mu i j k : ℕ) (hmu : mu < R.nSymbol a b c)
    (hi : i < T.dim a) (hj : j < T.dim b) (hk : k < T.dim c) :
    ((List.range (T.dim b)).map fun h => legMat T e b h j * T.X a b c false false mu i h k).sum =
      T.X a b c false e mu i j k := (x_right hL a b c false e mu i j k hmu hi hj hk).symm

theorem partVal_one (hL : GroupLaws R T D) (a dI u0 : S) (d0 : Bool) (us : List S) (ds : List Bool) (key : PartsKey S)
    (hk : PartOK R a dI (FusionTree.fromSector u0 d0) us key) (g j : ℕ) (jr : List ℕ) (k : ℕ) (hg : g < T.dim a)
    (hj : j < T.dim u0) :
    partVal T a dI (FusionTree.fromSector u0 d0) us ds key g [j] jr k =
      chainMat T a (u0 :: us) (d0 :: ds) (key.1 ++ [dI]) key.2 g (j :: jr) k := by
  obtain ⟨k1, k2, k3, k4⟩ := hk
  have htl : key.1 ++ [dI] = key.1.headD dI :: (key.1 ++ [dI]).tail := by cases key.1 <;> rfl
  have hml : key.2 = key.2.headD 0 :: key.2.tail := by
    rcases h : key.2 with _ | ⟨x, xs⟩
    · exact absurd h k2
    · rfl
  have e1 : chainMat T a (u0 :: us) (d0 :: ds) (key.1 ++ [dI]) key.2 g (j :: jr) k =
      ((List.range (T.dim (key.1.headD dI))).map fun l => T.X a u0 (key.1.headD dI) false d0 (key.2.headD 0) g j l *
        chainMat T (key.1.headD dI) us ds (key.1 ++ [dI]).tail key.2.tail l jr k).sum := by
    conv_lhs => rw [htl, hml]
    rw [chainMat]
  rw [e1]
  unfold partVal
  have hco : (FusionTree.fromSector u0 d0).coupled = u0 := rfl
  rw [hco] at k3 ⊢
  have e2 : ∀ h ∈ List.range (T.dim u0), treeTensor T (FusionTree.fromSector u0 d0) [j] h *
      ((List.range (T.dim (key.1.headD dI))).map fun l => T.X a u0 (key.1.headD dI) false false (key.2.headD 0) g h l *
        chainMat T (key.1.headD dI) us ds (key.1 ++ [dI]).tail key.2.tail l jr k).sum =
      ((List.range (T.dim (key.1.headD dI))).map fun l =>
        legMat T d0 u0 h j * T.X a u0 (key.1.headD dI) false false (key.2.headD 0) g h l *
        chainMat T (key.1.headD dI) us ds (key.1 ++ [dI]).tail key.2.tail l jr k).sum := by
    intro h _
    rw [fromSector_tensor, mul_sum]
    exact sum_congr _ fun l _ => by ring
  rw [sum_congr _ e2, sum_comm]
  refine sum_congr _ fun l hl => ?_
  rw [← sum_mul, sum_leg_right hL a u0 _ d0 _ g j l k3 hg hj (List.mem_range.1 hl)]

theorem insertLoop_spec (hL : GroupLaws R T D) (hO : OuterLaws R T F) {small : K → Bool} (hS : FCutoffExact F small)
    (a dI : S) (i : ℕ) (r2 : FusionTree S) (hr : r2.Sane R) (hl : r2.uncoupled.length = i + 1) (us : List S)
    (ds : List Bool) (es : List S) (ms : List ℕ) (hd : ds.length = us.length) (he : es.length = us.length)
    (hm : ms.length = us.length) (P : UMap (PartsKey S) K) (hP : ∀ p ∈ P, PartOK R a dI r2 us p.1) :
    (∀ p ∈ insertLoop R F small a dI (extendMany r2 us ds es ms) i P,
      Chain R a (r2.uncoupled ++ us) (p.1.1 ++ [dI]) p.1.2) ∧
    ∀ (g : ℕ) (jp jr : List ℕ) (k : ℕ), g < T.dim a → InDims T r2.uncoupled jp → InDims T us jr →
      colSum (insertLoop R F small a dI (extendMany r2 us ds es ms) i P) (fun key =>
        chainMat T a (r2.uncoupled ++ us) (r2.areDual ++ ds) (key.1 ++ [dI]) key.2 g (jp ++ jr) k) =
      colSum P fun key => partVal T a dI r2 us ds key g jp jr k := by
  induction i generalizing r2 us ds es ms P with
  | zero =>
    obtain ⟨d0, h0⟩ := one_leg_eq r2 hr hl
    set u0 := r2.coupled with hu0
    clear_value u0
    subst h0
    refine ⟨fun p hp => ?_, fun g jp jr k hg hjp hjr => ?_⟩
    · obtain ⟨k1, k2, k3, k4⟩ := hP p hp
      have htl : p.1.1 ++ [dI] = p.1.1.headD dI :: (p.1.1 ++ [dI]).tail := by cases p.1.1 <;> rfl
      have hml : p.1.2 = p.1.2.headD 0 :: p.1.2.tail := by
        rcases h : p.1.2 with _ | ⟨x, xs⟩
        · exact absurd h k2
        · rfl
      show Chain R a (u0 :: us) (p.1.1 ++ [dI]) p.1.2
      rw [htl, hml]
      exact ⟨k3, k4⟩
    · have hjp' : List.Forall₂ (fun a i => i < T.dim a) [u0] jp := hjp
      match jp, hjp' with
      | [j], .cons hj .nil =>
        refine sum_congr _ fun p hp => ?_
        congr 1
        exact (partVal_one hL a dI u0 d0 us ds p.1 (hP p hp) g j jr k hg hj).symm
  | succ i ih =>
    obtain ⟨r, mu, z, d, hr', hlr, hmu, ht⟩ := tree_cases r2 hr (by omega)
    set e := r2.coupled with he2
    clear_value e
    subst ht
    have hlr' : r.uncoupled.length = i + 1 := by rw [extended_uncoupled] at hl; simpa using hl
    have hstep := fun p hp => insertMoves_step hL hO hS a dI r hr' hlr z e mu d hmu us ds es ms hd he hm p hp
    have hem : extendMany (r.extended z mu e d) us ds es ms = extendMany r (z :: us) (d :: ds) (e :: es) (mu :: ms) := rfl
    have hloop : insertLoop R F small a dI (extendMany (r.extended z mu e d) us ds es ms) (i + 1) P =
        insertLoop R F small a dI (extendMany r (z :: us) (d :: ds) (e :: es) (mu :: ms)) i
          (bindCol P fun key => insertMoves R F small a dI
            (extendMany r (z :: us) (d :: ds) (e :: es) (mu :: ms)) r.uncoupled.length key) := by
      rw [hem, insertLoop, hlr']
      rfl
    obtain ⟨-, b2, b3⟩ := bindCol_spec P fun key => insertMoves R F small a dI
            (extendMany r (z :: us) (d :: ds) (e :: es) (mu :: ms)) r.uncoupled.length key
    obtain ⟨h1, h2⟩ := ih r hr' hlr' (z :: us) (d :: ds) (e :: es) (mu :: ms) (by simpa using hd) (by simpa using he)
      (by simpa using hm) (bindCol P fun key => insertMoves R F small a dI
            (extendMany r (z :: us) (d :: ds) (e :: es) (mu :: ms)) r.uncoupled.length key) (by
        intro p hp
        obtain ⟨q, hq, hx⟩ := b2 p.1 (List.mem_map_of_mem hp)
        obtain ⟨p', hp', hpe⟩ := List.mem_map.1 hx
        rw [← hpe]
        exact (hstep q.1 (hP q hq)).1 p' hp')
    rw [hloop]
    refine ⟨fun p hp => ?_, fun g jp jr k hg hjp hjr => ?_⟩
    · have := h1 p hp
      rw [extended_uncoupled, List.append_assoc]
      exact this
    · rw [extended_uncoupled] at hjp
      obtain ⟨jp, j, rfl, hjp, hj⟩ := inDims_concat hjp
      have := h2 g jp (j :: jr) k hg hjp (.cons hj hjr)
      rw [b3] at this
      simp only [extended_uncoupled, extended_areDual, List.append_assoc, List.singleton_append] at this ⊢
      refine this.trans ?_
      refine sum_congr _ fun p hp => ?_
      congr 1
      exact (hstep p.1 (hP p hp)).2 g jp j jr k hg hjp hj

/-- The product of two chains -/
theorem chainMat_append (a : S) (bs : List S) (ds : List Bool) (cs : List S) (ms : List ℕ) (x : S)
    (hd : ds.length = bs.length) (hc : Chain R a bs (cs ++ [x]) ms) (bs' : List S) (ds' : List Bool) (cs' : List S)
    (ms' : List ℕ) (g : ℕ) (js js' : List ℕ) (hj : js.length = bs.length) (k : ℕ) :
    chainMat T a (bs ++ bs') (ds ++ ds') (cs ++ x :: cs') (ms ++ ms') g (js ++ js') k =
      ((List.range (T.dim x)).map fun h => chainMat T a bs ds (cs ++ [x]) ms g js h *
        chainMat T x bs' ds' cs' ms' h js' k).sum := by
  induction bs generalizing a ds cs ms g js with
  | nil =>
    obtain ⟨l1, l2⟩ := chain_length R hc
    simp at l1
  | cons b bs ih =>
    obtain ⟨l1, l2⟩ := chain_length R hc
    match ds, ms, js, hd, l2, hj with
    | d :: ds, m :: ms, j :: js, hd, l2, hj =>
      rcases cs with _ | ⟨c, cs⟩
      · have : bs = [] := by
          rcases bs with _ | ⟨_, _⟩
          · rfl
          · simp at l1
        subst this
        obtain rfl := List.length_eq_zero_iff.1 (show ds.length = 0 by simpa using hd)
        obtain rfl := List.length_eq_zero_iff.1 (show js.length = 0 by simpa using hj)
        obtain rfl := List.length_eq_zero_iff.1 (show ms.length = 0 by simpa using l2)
        simp only [List.nil_append, List.singleton_append, chainMat]
        refine sum_congr _ fun h hh => ?_
        congr 1
        rw [← sum_range_single (T.dim x) h (List.mem_range.1 hh) fun y => T.X a b x false d m g j y]
        refine sum_congr _ fun y _ => ?_
        by_cases hy : h = y
        · simp [hy]
        · simp [hy, Ne.symm hy]
      · simp only [List.cons_append, Chain] at hc
        simp only [List.cons_append, chainMat]
        have e1 : ∀ y ∈ List.range (T.dim c), T.X a b c false d m g j y *
            chainMat T c (bs ++ bs') (ds ++ ds') (cs ++ x :: cs') (ms ++ ms') y (js ++ js') k =
            ((List.range (T.dim x)).map fun h => T.X a b c false d m g j y * chainMat T c bs ds (cs ++ [x]) ms y js h *
              chainMat T x bs' ds' cs' ms' h js' k).sum := by
          intro y _
          rw [ih c ds cs ms (by simpa using hd) hc.2 y js (by simpa using hj), mul_sum]
          exact sum_congr _ fun h _ => by ring
        rw [sum_congr _ e1, sum_comm]
        exact sum_congr _ fun h _ => by rw [← sum_mul]

theorem chain_app (a x : S) (bs bs' cs cs' : List S) (ms ms' : List ℕ) (h : Chain R a bs (cs ++ [x]) ms)
    (h' : Chain R x bs' cs' ms') : Chain R a (bs ++ bs') (cs ++ x :: cs') (ms ++ ms') := by
  induction bs generalizing a cs ms with
  | nil =>
    obtain ⟨l1, l2⟩ := chain_length R h
    simp at l1
  | cons b bs ih =>
    obtain ⟨l1, l2⟩ := chain_length R h
    match ms, l2 with
    | m :: ms, l2 =>
      rcases cs with _ | ⟨c, cs⟩
      · have : bs = [] := by
          rcases bs with _ | ⟨_, _⟩
          · rfl
          · simp at l1
        subst this
        obtain rfl := List.length_eq_zero_iff.1 (show ms.length = 0 by simpa using l2)
        exact ⟨h.1, h'⟩
      · exact ⟨h.1, ih c cs ms h.2⟩

end Cyten.FT
