import Verif.Lemmas.AbelianCompose
import Verif.Props.AbelianInner

/-!
# C33: composition of block-sparse tensors is the contraction of the dense tensors

`a` has codomain legs `codom` and domain `contr` (its legs are listed in reversed order), `b` has
codomain legs `contr` and domain `dom`.  See `Verif.Spec.AbelianData` for `dense`, `basis`, `Sane`.
-/

namespace Cyten.Abelian.Spec
open Cyten.Abelian

/-- The multiplicities of the sectors of the legs. -/
def multsOf {S : Type} (legs : List (BLeg S)) : List (List ℕ) := legs.map BLeg.mults

/-- Charge rule: a block is only stored if the sectors of the codomain legs and of the domain legs
fuse to the same sector. -/
def Conserving {S K : Type} (R : Cyten.FusionRule S) (codom dom : List (BLeg S))
    (T : Ents K) : Prop :=
  ∀ p ∈ T, fusedCharge R codom (p.1.take codom.length) =
    fusedCharge R dom (p.1.drop codom.length).reverse

end Cyten.Abelian.Spec

namespace Cyten.Props
open Cyten.Abelian Cyten.Abelian.Spec Cyten.Tables Cyten.Tools Cyten.ListSum Cyten.Spaces
open Cyten.FusionTrees

variable {K S : Type}

theorem lex_append_iff {r s u v : List ℕ} (hl : r.length = s.length) :
    r ++ u < s ++ v ↔ r < s ∨ r = s ∧ u < v := by
  induction r generalizing s with
  | nil =>
    cases s with
    | nil => simp
    | cons => simp at hl
  | cons a r ih =>
    cases s with
    | nil => simp at hl
    | cons b s =>
      rw [List.cons_append, List.cons_append, List.cons_lt_cons_iff, List.cons_lt_cons_iff,
        ih (by simpa using hl), List.cons.injEq]
      tauto

theorem basis_reverse_perm (M : List (List ℕ)) :
    (basis M.reverse).Perm ((basis M).map fun x => (x.1.reverse, x.2.reverse)) := by
  rw [List.perm_ext_iff_of_nodup (C34_basis_nodup _) ((C34_basis_nodup M).map fun x y he => by
    obtain ⟨h1, h2⟩ := Prod.mk.inj he
    exact Prod.ext (List.reverse_injective h1) (List.reverse_injective h2))]
  have key : ∀ (M : List (List ℕ)) r p, IsIndex M r p → IsIndex M.reverse r.reverse p.reverse := by
    rintro M r p ⟨h1, h2⟩
    refine ⟨?_, ?_⟩
    · rw [List.map_reverse]; exact inShape_reverse.2 h1
    · rw [shapeOf_reverse _ _ (by simpa using h1.length)]; exact inShape_reverse.2 h2
  rintro ⟨r, p⟩
  rw [C34_basis, List.mem_map]
  constructor
  · intro hi
    refine ⟨(r.reverse, p.reverse), (C34_basis _ _ _).2 ?_, by simp⟩
    have := key _ _ _ hi
    rwa [List.reverse_reverse] at this
  · rintro ⟨⟨r', p'⟩, hm, he⟩
    cases he
    exact key _ _ _ ((C34_basis _ _ _).1 hm)

section Prepare
variable [DecidableEq S]

/-- the prepared entries of `a` -/
def prepA (n : ℕ) (st : List ℕ) (a : Ents K) : List (CEnt K) :=
  a.map fun p => ⟨p.1.take n, packRow st.reverse (p.1.drop n), p.2⟩

/-- the prepared entries of `b` -/
def prepB (c : ℕ) (st : List ℕ) (b : Ents K) : List (CEnt K) :=
  b.map fun q => ⟨q.1.drop c, packRow st (q.1.take c), q.2⟩

/-- the order used for `a` -/
def aLe (x y : CEnt K) : Prop := cmpLexsort (x.key :: x.keep) (y.key :: y.keep) ≠ .gt

instance : DecidableRel (aLe (K := K)) := fun _ _ => inferInstanceAs (Decidable (_ ≠ _))

theorem rowA {Mk Mc : List (List ℕ)} {a : Ents K} (ha : Sane (Mk ++ Mc.reverse) a)
    {p : List ℕ × Blk K} (hp : p ∈ a) :
    InShape (p.1.take Mk.length) (Mk.map List.length) ∧
    InShape (p.1.drop Mk.length).reverse (Mc.map List.length) ∧
    packRow (makeStride (Mc.map List.length) false).reverse (p.1.drop Mk.length) =
      packRow (makeStride (Mc.map List.length) false) (p.1.drop Mk.length).reverse ∧
    p.2.shape = shapeOf Mk (p.1.take Mk.length) ++
      (shapeOf Mc (p.1.drop Mk.length).reverse).reverse := by
  have hin := ha.inRange p hp
  rw [List.map_append, List.map_reverse] at hin
  have h1 := inShape_take hin Mk.length
  have h2 := inShape_drop hin Mk.length
  have e1 : (Mk.map List.length ++ (Mc.map List.length).reverse).take Mk.length =
      Mk.map List.length := by
    rw [List.take_append_of_le_length (by simp), List.take_of_length_le (by simp)]
  have e2 : (Mk.map List.length ++ (Mc.map List.length).reverse).drop Mk.length =
      (Mc.map List.length).reverse := by
    rw [← List.length_map (as := Mk) List.length, List.drop_left]
  rw [e1] at h1
  rw [e2] at h2
  have h3 : InShape (p.1.drop Mk.length).reverse (Mc.map List.length) := by
    rw [← inShape_reverse, List.reverse_reverse]; exact h2
  have hlen : (p.1.drop Mk.length).length = Mc.length := by
    have := h3.length; simpa using this
  refine ⟨h1, h3, ?_, ?_⟩
  · rw [← packRow_reverse (makeStride (Mc.map List.length) false) (p.1.drop Mk.length).reverse
      (by simp only [Tools.length_makeStride, List.length_map, List.length_reverse]; omega),
      List.reverse_reverse]
  · rw [ha.shapes p hp, ← shapeOf_reverse _ _ (by rw [List.length_reverse, hlen]),
      List.reverse_reverse, ← shapeOf_append _ _ _ _ (by simpa using h1.length),
      List.take_append_drop]

theorem rowB {Mc Md : List (List ℕ)} {b : Ents K} (hb : Sane (Mc ++ Md) b)
    {q : List ℕ × Blk K} (hq : q ∈ b) :
    InShape (q.1.take Mc.length) (Mc.map List.length) ∧
    InShape (q.1.drop Mc.length) (Md.map List.length) ∧
    q.2.shape = shapeOf Mc (q.1.take Mc.length) ++ shapeOf Md (q.1.drop Mc.length) := by
  have hin := hb.inRange q hq
  rw [List.map_append] at hin
  have h1 := inShape_take hin Mc.length
  have h2 := inShape_drop hin Mc.length
  have e1 : (Mc.map List.length ++ Md.map List.length).take Mc.length =
      Mc.map List.length := by
    rw [List.take_append_of_le_length (by simp), List.take_of_length_le (by simp)]
  have e2 : (Mc.map List.length ++ Md.map List.length).drop Mc.length =
      Md.map List.length := by
    rw [← List.length_map (as := Mc) List.length, List.drop_left]
  rw [e1] at h1
  rw [e2] at h2
  refine ⟨h1, h2, ?_⟩
  rw [hb.shapes q hq, ← shapeOf_append _ _ _ _ (by simpa using h1.length), List.take_append_drop]

theorem validA_prep {Mk Mc : List (List ℕ)} {a : Ents K} (ha : Sane (Mk ++ Mc.reverse) a) :
    ∀ e ∈ prepA Mk.length (makeStride (Mc.map List.length) false) a, ValidA Mk Mc e := by
  intro e he
  obtain ⟨p, hp, rfl⟩ := List.mem_map.1 he
  obtain ⟨h1, h2, h3, h4⟩ := rowA ha hp
  exact ⟨h1, _, h2, h3, h4⟩

theorem validB_prep {Mc Md : List (List ℕ)} {b : Ents K} (hb : Sane (Mc ++ Md) b) :
    ∀ e ∈ prepB Mc.length (makeStride (Mc.map List.length) false) b, ValidB Mc Md e := by
  intro e he
  obtain ⟨q, hq, rfl⟩ := List.mem_map.1 he
  obtain ⟨h1, h2, h3⟩ := rowB hb hq
  exact ⟨h2, _, h1, rfl, h3⟩

theorem prepB_sorted {Mc Md : List (List ℕ)} {b : Ents K} (hb : Sane (Mc ++ Md) b) :
    (prepB Mc.length (makeStride (Mc.map List.length) false) b).Pairwise EntLt := by
  unfold prepB
  rw [List.pairwise_map]
  refine hb.keySorted.imp_of_mem fun {p q} hp hq hpq => ?_
  obtain ⟨h1, h2, -⟩ := rowB hb hp
  obtain ⟨h1', h2', -⟩ := rowB hb hq
  have l2 := h2.length
  have l2' := h2'.length
  rw [← List.take_append_drop Mc.length p.1, ← List.take_append_drop Mc.length q.1,
    List.reverse_append, List.reverse_append, lex_append_iff (by simp only [List.length_reverse]; omega)]
    at hpq
  rcases hpq with h | ⟨h, h'⟩
  · exact Or.inl h
  · exact Or.inr ⟨List.reverse_injective h, (packRow_false_lt_iff h1 h1').2 h'⟩

theorem prepA_sorted {Mk Mc : List (List ℕ)} {a : Ents K} (ha : Sane (Mk ++ Mc.reverse) a) :
    ((prepA Mk.length (makeStride (Mc.map List.length) false) a).insertionSort aLe).Pairwise EntLt := by
  set es := prepA Mk.length (makeStride (Mc.map List.length) false) a with hes
  have hl : ∀ e ∈ es, e.keep.length = Mk.length := fun e he => by
    simpa using (validA_prep ha e he).1.length
  have h1 := insertionSort_key_sorted aLe (fun e : CEnt K => (e.key :: e.keep).reverse) es
    (fun x hx y hy => cmp_le_iff (by simp [hl x hx, hl y hy]))
  have hperm := List.perm_insertionSort aLe es
  have hnd : (es.map fun e => (e.key :: e.keep).reverse).Nodup := by
    rw [hes]
    unfold prepA
    rw [List.map_map]
    have hnd := ha.nodup
    unfold List.Nodup at hnd ⊢
    rw [List.pairwise_map] at hnd ⊢
    refine hnd.imp_of_mem fun {p q} hp hq hne he => hne ?_
    have he := List.reverse_injective he
    injection he with hk hkeep
    obtain ⟨-, h2, h3, -⟩ := rowA ha hp
    obtain ⟨-, h2', h3', -⟩ := rowA ha hq
    simp only at hk hkeep
    rw [h3, h3', packRow_false_inj h2 h2'] at hk
    rw [← List.take_append_drop Mk.length p.1, ← List.take_append_drop Mk.length q.1, hkeep,
      List.reverse_injective hk]
  have hnd2 : ((es.insertionSort aLe).map fun e => (e.key :: e.keep).reverse).Nodup :=
    (hperm.map _).nodup_iff.2 hnd
  unfold List.Nodup at hnd2
  rw [List.pairwise_map] at hnd2
  refine (h1.and hnd2).imp_of_mem fun {x y} hx hy hxy => ?_
  have hlt := lt_of_le_of_ne hxy.1 hxy.2
  rw [List.reverse_cons, List.reverse_cons, lex_append_iff (by
    simp [hl x (hperm.mem_iff.1 hx), hl y (hperm.mem_iff.1 hy)])] at hlt
  rcases hlt with h | ⟨h, h'⟩
  · exact Or.inl h
  · refine Or.inr ⟨List.reverse_injective h, ?_⟩
    rcases List.cons_lt_cons_iff.1 h' with h'' | ⟨-, h''⟩
    · exact h''
    · exact absurd h'' (lt_irrefl _)

/-- the group of a run -/
def grpA (n : ℕ) (g : List (CEnt K)) (e0 : CEnt K) : CGroup K :=
  ⟨e0.keep, e0.blk.shape.take n, g.map (·.key), g.map fun e => aMatrix n (e0.blk.shape.take n) e.blk⟩

def grpB (c m : ℕ) (g : List (CEnt K)) (e0 : CEnt K) : CGroup K :=
  ⟨e0.keep, e0.blk.shape.drop c, g.map (·.key),
    g.map fun e => bMatrix c m (e0.blk.shape.drop c) e.blk⟩

theorem aGroups_eq (n : ℕ) (es : List (CEnt K)) :
    aGroups n es = (runsOf (·.keep) es).filterMap fun g => g.head?.map (grpA n g) := by
  unfold aGroups
  rw [groups_eq_runs]
  rfl

theorem bGroups_eq (c m : ℕ) (es : List (CEnt K)) :
    bGroups c m es = (runsOf (·.keep) es).filterMap fun g => g.head?.map (grpB c m g) := by
  unfold bGroups
  rw [groups_eq_runs]
  rfl

end Prepare

section Main
variable [DecidableEq S] [NonUnitalNonAssocSemiring K]

/-- the entries of the result of the worker -/
def resultList (R : FusionRule S) (codom dom : List (BLeg S)) (ga gb : List (CGroup K)) : Ents K :=
  gb.flatMap fun y => (ga.filter fun x =>
    fusedCharge R codom x.keep = fusedCharge R dom y.keep.reverse).filterMap fun x =>
      (contractGroups x y).map fun blk => (x.keep ++ y.keep, blk.reshape (x.shape ++ y.shape))

theorem composeWorker_some {R : FusionRule S} {codom contr dom : List (BLeg S)} {a b T : Ents K}
    (hcon : ∀ l ∈ contr, l.sectors.length = l.mults.length)
    (h : composeWorker R codom contr dom a b = some T) :
    (a = [] ∨ b = []) ∧ T = [] ∨
    T = resultList R codom dom
      (aGroups codom.length ((prepA codom.length
        (makeStride ((multsOf contr).map List.length) false) a).insertionSort aLe))
      (bGroups contr.length dom.length (prepB contr.length
        (makeStride ((multsOf contr).map List.length) false) b)) := by
  unfold composeWorker at h
  by_cases he : (a.isEmpty || b.isEmpty) = true
  · rw [if_pos he] at h
    left
    rw [Bool.or_eq_true, List.isEmpty_iff, List.isEmpty_iff] at he
    exact ⟨he, by injection h with h; exact h.symm⟩
  · rw [if_neg he] at h
    right
    have e : (contr.map fun l => l.sectors.length) = (multsOf contr).map List.length := by
      unfold multsOf
      rw [List.map_map]
      exact List.map_congr_left hcon
    rw [e] at h
    cases hs : makeStridePy ((multsOf contr).map List.length) false with
    | none => rw [hs] at h; cases h
    | some st =>
      rw [hs, Option.map_some] at h
      injection h with h
      rw [makeStridePy_eq hs] at h
      rw [← h]
      rfl

theorem sum_runs (es : List (CEnt K)) (F : CEnt K → K) :
    ((runsOf (·.keep) es).map fun g => (g.map F).sum).sum = (es.map F).sum := by
  conv_rhs => rw [← runsOf_flatten (·.keep) es]
  rw [← List.flatMap_id, sum_flatMap]
  rfl

/-- The entry of the result as a sum over all pairs of blocks. -/
theorem dense_resultList (R : FusionRule S) (codom contr dom : List (BLeg S)) (a b : Ents K)
    (ha : Sane (multsOf codom ++ (multsOf contr).reverse) a)
    (hb : Sane (multsOf contr ++ (multsOf dom).reverse) b)
    (hca : Conserving R codom contr a) (hcb : Conserving R contr dom b)
    (ka pa kb pb : List ℕ) (hka : IsIndex (multsOf codom) ka pa)
    (hkb : IsIndex (multsOf dom).reverse kb pb) :
    dense (resultList R codom dom
      (aGroups codom.length ((prepA codom.length
        (makeStride ((multsOf contr).map List.length) false) a).insertionSort aLe))
      (bGroups contr.length dom.length (prepB contr.length
        (makeStride ((multsOf contr).map List.length) false) b))) (ka ++ kb) (pa ++ pb) =
    ((prepA codom.length (makeStride ((multsOf contr).map List.length) false) a).map fun e =>
      ((prepB contr.length (makeStride ((multsOf contr).map List.length) false) b).map fun f =>
        pairTerm contr.length ka kb pa pb e f).sum).sum := by
  set Mk := multsOf codom with hMk
  set Mc := multsOf contr with hMc
  set Md := (multsOf dom).reverse with hMd
  have lk : codom.length = Mk.length := by simp [hMk, multsOf]
  have lc : contr.length = Mc.length := by simp [hMc, multsOf]
  have ld : dom.length = Md.length := by simp [hMd, multsOf]
  set st := makeStride (Mc.map List.length) false with hst
  set as := (prepA codom.length st a).insertionSort aLe with has
  set bs := prepB contr.length st b with hbs
  have hperm : as.Perm (prepA codom.length st a) := List.perm_insertionSort _ _
  have hav : ∀ e ∈ as, ValidA Mk Mc e := fun e he => by
    have := hperm.mem_iff.1 he
    rw [lk] at this
    exact validA_prep ha e this
  have hbv : ∀ f ∈ bs, ValidB Mc Md f := fun f hf => by
    rw [hbs, lc] at hf
    exact validB_prep hb f hf
  have hsa : as.Pairwise EntLt := by rw [has, lk]; exact prepA_sorted ha
  have hsb : bs.Pairwise EntLt := by rw [hbs, lc]; exact prepB_sorted hb
  -- equal keys imply equal charges
  have hcharge : ∀ e ∈ as, ∀ f ∈ bs, e.key = f.key →
      fusedCharge R codom e.keep = fusedCharge R dom f.keep.reverse := by
    intro e he f hf hkey
    obtain ⟨p, hp, rfl⟩ := List.mem_map.1 (hperm.mem_iff.1 he)
    obtain ⟨q, hq, rfl⟩ := List.mem_map.1 hf
    obtain ⟨-, h2, h3, -⟩ := rowA ha hp
    obtain ⟨h1', -, -⟩ := rowB hb hq
    simp only at hkey ⊢
    rw [lk, lc, hst, h3, packRow_false_inj h2 h1'] at hkey
    rw [hca p hp, ← hcb q hq, lk, hkey, lc]
  unfold resultList dense
  rw [sum_flatMap, aGroups_eq, bGroups_eq, sum_filterMap]
  rw [show ((prepA codom.length st a).map fun e => (bs.map fun f =>
      pairTerm contr.length ka kb pa pb e f).sum).sum =
      ((runsOf (·.keep) bs).map fun gb => ((runsOf (·.keep) as).map fun ga =>
        (ga.map fun e => (gb.map fun f => pairTerm contr.length ka kb pa pb e f).sum).sum).sum).sum by
    rw [← (hperm.map _).sum_eq, sum_comm, ← sum_runs bs]
    refine sum_congr _ fun gb _ => ?_
    rw [← sum_comm, ← sum_runs as]]
  refine sum_congr _ fun gb hgb => ?_
  obtain ⟨f0, gb', rfl⟩ : ∃ f0 gb', gb = f0 :: gb' := by
    cases gb with
    | nil => exact absurd rfl (runsOf_ne_nil _ _ _ hgb)
    | cons f0 gb' => exact ⟨f0, gb', rfl⟩
  set gb := f0 :: gb' with hgbd
  have hgbs : ∀ f ∈ gb, f ∈ bs := fun f hf => by
    rw [← runsOf_flatten (·.keep) bs]; exact List.mem_flatten.2 ⟨_, hgb, hf⟩
  simp only [List.head?_cons, Option.map_some, Option.getD_some, hgbd]
  rw [← hgbd]
  rw [sum_filterMap, sum_filter, sum_filterMap]
  refine sum_congr _ fun ga hga => ?_
  obtain ⟨e0, ga', rfl⟩ : ∃ e0 ga', ga = e0 :: ga' := by
    cases ga with
    | nil => exact absurd rfl (runsOf_ne_nil _ _ _ hga)
    | cons e0 ga' => exact ⟨e0, ga', rfl⟩
  set ga := e0 :: ga' with hgad
  have hgas : ∀ e ∈ ga, e ∈ as := fun e he => by
    rw [← runsOf_flatten (·.keep) as]; exact List.mem_flatten.2 ⟨_, hga, he⟩
  have hgp := groupPair Mk Mc Md ga gb e0 f0 List.mem_cons_self List.mem_cons_self
    (fun e he => ⟨hav e (hgas e he), runsOf_key (·.keep) as _ hga e he e0 List.mem_cons_self⟩)
    (fun f hf => ⟨hbv f (hgbs f hf), runsOf_key (·.keep) bs _ hgb f hf f0 List.mem_cons_self⟩)
    ((runs_of_sorted hsa).1 ga hga) ((runs_of_sorted hsb).1 gb hgb) ka pa kb pb hka hkb
  rw [← lk, ← lc, ← ld] at hgp
  simp only [hgad, List.head?_cons, Option.map_some, Option.getD_some]
  rw [← hgad, ← hgp]
  show (if decide (fusedCharge R codom e0.keep = fusedCharge R dom f0.keep.reverse) = true then
    ((Option.map _ (contractGroups (grpA codom.length ga e0) (grpB contr.length dom.length gb f0))).map
      _).getD 0 else 0) = _
  rw [Option.map_map]
  by_cases hch : fusedCharge R codom e0.keep = fusedCharge R dom f0.keep.reverse
  · rw [if_pos (by simpa using hch)]
    rfl
  · rw [if_neg (by simpa using hch), hgp]
    symm
    refine sum_zero _ _ fun e he => sum_zero _ _ fun f hf => ?_
    unfold pairTerm
    rw [if_neg]
    rintro ⟨-, -, hkey⟩
    refine hch ?_
    have := hcharge e (hgas e he) f (hgbs f hf) hkey
    rwa [runsOf_key (·.keep) as _ hga e he e0 List.mem_cons_self,
      runsOf_key (·.keep) bs _ hgb f hf f0 List.mem_cons_self] at this

/-- **C33**, general case (some legs are contracted): the dense representation of the result is the
contraction of the dense representations over all basis vectors of the contracted legs. -/
theorem C33_compose_worker (R : FusionRule S) (codom contr dom : List (BLeg S)) (a b T : Ents K)
    (hcon : ∀ l ∈ contr, l.sectors.length = l.mults.length)
    (ha : Sane (multsOf codom ++ (multsOf contr).reverse) a)
    (hb : Sane (multsOf contr ++ (multsOf dom).reverse) b)
    (hca : Conserving R codom contr a) (hcb : Conserving R contr dom b)
    (h : composeWorker R codom contr dom a b = some T)
    (ka pa kb pb : List ℕ) (hka : IsIndex (multsOf codom) ka pa)
    (hkb : IsIndex (multsOf dom).reverse kb pb) :
    dense T (ka ++ kb) (pa ++ pb) =
      ((basis (multsOf contr)).map fun x =>
        dense a (ka ++ x.1.reverse) (pa ++ x.2.reverse) * dense b (x.1 ++ kb) (x.2 ++ pb)).sum := by
  have lc : contr.length = (multsOf contr).length := by simp [multsOf]
  have lk : codom.length = (multsOf codom).length := by simp [multsOf]
  rcases composeWorker_some hcon h with ⟨he, rfl⟩ | rfl
  · symm
    refine sum_zero _ _ fun x _ => ?_
    rcases he with rfl | rfl
    · rw [dense_nil, zero_mul]
    · rw [dense_nil, mul_zero]
  · rw [dense_resultList R codom contr dom a b ha hb hca hcb ka pa kb pb hka hkb]
    rw [sum_basis (multsOf contr) fun r p =>
      dense a (ka ++ r.reverse) (pa ++ p.reverse) * dense b (r ++ kb) (p ++ pb)]
    have lka : ka.length = (multsOf codom).length := by simpa using hka.1.length
    have eA : ∀ r ∈ gridC ((multsOf contr).map List.length), ∀ t,
        dense a (ka ++ r.reverse) t = (a.map fun p =>
          if (p.1.drop codom.length).reverse = r then
            if p.1.take codom.length = ka then p.2.val t else 0 else 0).sum := by
      intro r hr t
      unfold dense
      refine sum_congr _ fun p hp => ?_
      by_cases hh : p.1 = ka ++ r.reverse
      · rw [if_pos hh, hh, lk, ← lka, List.drop_left, List.take_left, List.reverse_reverse,
          if_pos rfl, if_pos rfl]
      · rw [if_neg hh]
        by_cases h1 : (p.1.drop codom.length).reverse = r
        · rw [if_pos h1, if_neg]
          intro h2
          exact hh (by rw [← h1, ← h2, List.reverse_reverse, List.take_append_drop])
        · rw [if_neg h1]
    have eB : ∀ r ∈ gridC ((multsOf contr).map List.length), ∀ t,
        dense b (r ++ kb) t = (b.map fun q =>
          if q.1.take contr.length = r then
            if q.1.drop contr.length = kb then q.2.val t else 0 else 0).sum := by
      intro r hr t
      have lr : r.length = contr.length := by
        rw [lc]; simpa using ((mem_gridC _ _).1 hr).length
      unfold dense
      refine sum_congr _ fun q hq => ?_
      by_cases hh : q.1 = r ++ kb
      · rw [if_pos hh, hh, ← lr, List.drop_left, List.take_left, if_pos rfl, if_pos rfl]
      · rw [if_neg hh]
        by_cases h1 : q.1.take contr.length = r
        · rw [if_pos h1, if_neg]
          intro h2
          exact hh (by rw [← h1, ← h2, List.take_append_drop])
        · rw [if_neg h1]
    have e3 := sum_sparse_mul (gridC ((multsOf contr).map List.length)) (nodup_gridC _)
      (fun r => gridC (shapeOf (multsOf contr) r)) a b
      (fun p => (p.1.drop codom.length).reverse) (fun q => q.1.take contr.length)
      (fun p hp => by
        rw [mem_gridC, lk]; exact (rowA ha hp).2.1)
      (fun p t => if p.1.take codom.length = ka then p.2.val (pa ++ t.reverse) else 0)
      (fun q t => if q.1.drop contr.length = kb then q.2.val (t ++ pb) else 0)
    have e4 : ((gridC ((multsOf contr).map List.length)).map fun row =>
        ((gridC (shapeOf (multsOf contr) row)).map fun pos =>
          dense a (ka ++ row.reverse) (pa ++ pos.reverse) * dense b (row ++ kb) (pos ++ pb)).sum).sum =
        _ := Eq.trans (sum_congr _ fun r hr => sum_congr _ fun t _ => by
          rw [eA r hr, eB r hr]) e3
    rw [e4]
    unfold prepA prepB
    rw [List.map_map]
    refine sum_congr _ fun p hp => ?_
    simp only [Function.comp]
    rw [List.map_map]
    refine sum_congr _ fun q hq => ?_
    simp only [Function.comp]
    obtain ⟨h1, h2, h3, -⟩ := rowA ha hp
    obtain ⟨h1', h2', h3'⟩ := rowB hb hq
    unfold pairTerm
    simp only
    rw [lk, lc, h3]
    have hinj := packRow_false_inj h2 h1'
    by_cases hkey : (p.1.drop (multsOf codom).length).reverse = q.1.take (multsOf contr).length
    · rw [if_pos hkey]
      by_cases h4 : p.1.take (multsOf codom).length = ka
      · by_cases h5 : q.1.drop (multsOf contr).length = kb
        · rw [if_pos ⟨h4, h5, hinj.2 hkey⟩, h3', hkey]
          have : (shapeOf (multsOf contr) (q.1.take (multsOf contr).length)).length =
              (multsOf contr).length := length_shapeOf _ _ (by simpa using h1'.length)
          rw [show (shapeOf (multsOf contr) (q.1.take (multsOf contr).length) ++
            shapeOf (multsOf dom).reverse (q.1.drop (multsOf contr).length)).take
              (multsOf contr).length = shapeOf (multsOf contr) (q.1.take (multsOf contr).length) by
            conv_lhs => rw [← this]
            rw [this]
            exact (List.take_append_of_le_length this.ge).trans (List.take_of_length_le this.le)]
          refine sum_congr _ fun t _ => ?_
          rw [if_pos h4, if_pos h5]
        · rw [if_neg fun h => h5 h.2.1]
          symm
          refine sum_zero _ _ fun t _ => ?_
          rw [if_neg h5, mul_zero]
      · rw [if_neg fun h => h4 h.1]
        symm
        refine sum_zero _ _ fun t _ => ?_
        rw [if_neg h4, zero_mul]
    · rw [if_neg hkey, if_neg fun h => hkey (hinj.1 h.2.2)]

/-- **C33**: `compose(a, b)` is the contraction of the dense representations over the shared legs, in
all three branches of the code (full contraction, no contraction, general). -/
theorem C33_compose [Star K] (R : FusionRule S) (codom contr dom : List (BLeg S)) (a b T : Ents K)
    (hcon : ∀ l ∈ contr, l.sectors.length = l.mults.length)
    (ha : Sane (multsOf codom ++ (multsOf contr).reverse) a)
    (hb : Sane (multsOf contr ++ (multsOf dom).reverse) b)
    (hca : Conserving R codom contr a) (hcb : Conserving R contr dom b)
    (h : compose R codom contr dom a b = some T)
    (ka pa kb pb : List ℕ) (hka : IsIndex (multsOf codom) ka pa)
    (hkb : IsIndex (multsOf dom).reverse kb pb) :
    dense T (ka ++ kb) (pa ++ pb) =
      ((basis (multsOf contr)).map fun x =>
        dense a (ka ++ x.1.reverse) (pa ++ x.2.reverse) * dense b (x.1 ++ kb) (x.2 ++ pb)).sum := by
  unfold compose at h
  by_cases h1 : (codom.isEmpty && dom.isEmpty) = true
  · rw [if_pos h1] at h
    rw [Bool.and_eq_true, List.isEmpty_iff, List.isEmpty_iff] at h1
    obtain ⟨rfl, rfl⟩ := h1
    have e : (contr.reverse.map fun l => l.sectors.length) =
        (multsOf contr).reverse.map List.length := by
      unfold multsOf
      rw [← List.map_reverse, List.map_map]
      exact List.map_congr_left fun l hl => hcon l (by simpa using hl)
    rw [e] at h
    have hl := hka.1.length
    have hl2 := hka.2.length
    have hl3 := hkb.1.length
    have hl4 := hkb.2.length
    simp only [multsOf, List.map_nil, List.length_nil, List.reverse_nil, shapeOf,
      List.zipWith_nil_left] at hl hl2 hl3 hl4
    have ea := List.length_eq_zero_iff.1 hl
    have eb := List.length_eq_zero_iff.1 hl2
    have ec := List.length_eq_zero_iff.1 hl3
    have ed := List.length_eq_zero_iff.1 hl4
    subst ea eb ec ed
    cases hi : Abelian.inner ((multsOf contr).reverse.map List.length) a b false with
    | none => rw [hi] at h; cases h
    | some v =>
      rw [hi, Option.map_some] at h
      injection h with h
      subst h
      have ha' : Sane (multsOf contr).reverse a := ha
      have hb' : Sane (multsOf contr).reverse.reverse b := by
        rw [List.reverse_reverse]
        simpa [multsOf] using hb
      have hv := C34_inner_no_dagger _ a b ha' hb' v hi
      rw [((basis_reverse_perm (multsOf contr)).map _).sum_eq, List.map_map] at hv
      show (([([], ⟨[], fun _ => v⟩)] : Ents K).map fun p =>
        if p.1 = [] ++ [] then p.2.val ([] ++ []) else 0).sum = _
      rw [List.map_cons, List.map_nil, List.sum_cons, List.sum_nil, add_zero]
      show v = _
      rw [hv]
      refine sum_congr _ fun x _ => ?_
      simp only [Function.comp, List.reverse_reverse, List.nil_append, List.append_nil]
  · rw [if_neg h1] at h
    by_cases h2 : contr.isEmpty = true
    · rw [if_pos h2] at h
      rw [List.isEmpty_iff] at h2
      subst h2
      injection h with h
      subst h
      have ha' : Sane (multsOf codom) a := by simpa [multsOf] using ha
      have lka : ka.length = (multsOf codom).length := by simpa using hka.1.length
      rw [C33_compose_no_contraction (multsOf codom) (multsOf dom).reverse a b ha' ka pa kb pb lka
        (by rw [hka.2.length, length_shapeOf _ _ lka])]
      simp [basis, multsOf, gridC, shapeOf]
    · rw [if_neg h2] at h
      exact C33_compose_worker R codom contr dom a b T hcon ha hb hca hcb h ka pa kb pb hka hkb

theorem mem_resultList {R : FusionRule S} {codom dom : List (BLeg S)} {ga gb : List (CGroup K)}
    {d : List ℕ × Blk K} (h : d ∈ resultList R codom dom ga gb) :
    ∃ y ∈ gb, ∃ x ∈ ga, fusedCharge R codom x.keep = fusedCharge R dom y.keep.reverse ∧
      d.1 = x.keep ++ y.keep ∧ d.2.shape = x.shape ++ y.shape := by
  obtain ⟨y, hy, h⟩ := List.mem_flatMap.1 h
  obtain ⟨x, hx, h⟩ := List.mem_filterMap.1 h
  obtain ⟨hx, hc⟩ := List.mem_filter.1 hx
  cases hz : contractGroups x y with
  | none => rw [hz] at h; cases h
  | some z =>
    rw [hz, Option.map_some] at h
    injection h with h
    subst h
    exact ⟨y, hy, x, hx, by simpa using hc, rfl, rfl⟩

theorem mem_groupsA {n : ℕ} {es : List (CEnt K)} {x : CGroup K} (h : x ∈ aGroups n es) :
    ∃ e ∈ es, x.keep = e.keep ∧ x.shape = e.blk.shape.take n := by
  rw [aGroups_eq] at h
  obtain ⟨g, hg, h⟩ := List.mem_filterMap.1 h
  cases g with
  | nil => cases h
  | cons e0 g =>
    injection h with h
    subst h
    exact ⟨e0, by rw [← runsOf_flatten (·.keep) es]; exact List.mem_flatten.2 ⟨_, hg, List.mem_cons_self⟩,
      rfl, rfl⟩

theorem mem_groupsB {c m : ℕ} {es : List (CEnt K)} {x : CGroup K} (h : x ∈ bGroups c m es) :
    ∃ e ∈ es, x.keep = e.keep ∧ x.shape = e.blk.shape.drop c := by
  rw [bGroups_eq] at h
  obtain ⟨g, hg, h⟩ := List.mem_filterMap.1 h
  cases g with
  | nil => cases h
  | cons e0 g =>
    injection h with h
    subst h
    exact ⟨e0, by rw [← runsOf_flatten (·.keep) es]; exact List.mem_flatten.2 ⟨_, hg, List.mem_cons_self⟩,
      rfl, rfl⟩

theorem groups_sorted {es : List (CEnt K)} (h : es.Pairwise EntLt)
    (f : List (CEnt K) → CEnt K → CGroup K) (hf : ∀ g e, (f g e).keep = e.keep) :
    ((runsOf (·.keep) es).filterMap fun g => g.head?.map (f g)).Pairwise fun x y =>
      x.keep.reverse < y.keep.reverse := by
  rw [List.pairwise_filterMap]
  refine (runs_of_sorted h).2.imp fun {g g'} hgg x hx y hy => ?_
  cases g with
  | nil => cases hx
  | cons e g =>
    cases g' with
    | nil => cases hy
    | cons e' g' =>
      cases hx
      cases hy
      rw [hf, hf]
      exact hgg e List.mem_cons_self e' List.mem_cons_self

/-- **C33**, **C41**: the block table of the result of `compose` is in order (although it is declared
sorted without sorting), in range, and the blocks have the right shapes. -/
theorem C41_compose [Star K] (R : FusionRule S) (codom contr dom : List (BLeg S)) (a b T : Ents K)
    (hcon : ∀ l ∈ contr, l.sectors.length = l.mults.length)
    (ha : Sane (multsOf codom ++ (multsOf contr).reverse) a)
    (hb : Sane (multsOf contr ++ (multsOf dom).reverse) b)
    (h : compose R codom contr dom a b = some T) :
    Sane (multsOf codom ++ (multsOf dom).reverse) T := by
  have lc : contr.length = (multsOf contr).length := by simp [multsOf]
  have lk : codom.length = (multsOf codom).length := by simp [multsOf]
  have ld : dom.length = (multsOf dom).reverse.length := by simp [multsOf]
  unfold compose at h
  by_cases h1 : (codom.isEmpty && dom.isEmpty) = true
  · rw [if_pos h1] at h
    rw [Bool.and_eq_true, List.isEmpty_iff, List.isEmpty_iff] at h1
    obtain ⟨rfl, rfl⟩ := h1
    cases hi : Abelian.inner (contr.reverse.map fun l => l.sectors.length) a b false with
    | none => rw [hi] at h; cases h
    | some v =>
      rw [hi, Option.map_some] at h
      injection h with h
      subst h
      refine ⟨?_, ?_, ?_⟩
      · intro p hp
        have := List.mem_singleton.1 (mem_mkData.1 hp)
        subst this
        exact List.Forall₂.nil
      · intro p hp
        have := List.mem_singleton.1 (mem_mkData.1 hp)
        subst this
        rfl
      · simp [mkData, StrictlySorted]
  · rw [if_neg h1] at h
    by_cases h2 : contr.isEmpty = true
    · rw [if_pos h2] at h
      rw [List.isEmpty_iff] at h2
      subst h2
      injection h with h
      subst h
      exact C41_compose_no_contraction _ _ a b (by simpa [multsOf] using ha)
        (by simpa [multsOf] using hb)
    · rw [if_neg h2] at h
      rcases composeWorker_some hcon h with ⟨-, rfl⟩ | rfl
      · exact sane_nil _
      · set st := makeStride ((multsOf contr).map List.length) false with hst
        have hsa : ((prepA codom.length st a).insertionSort aLe).Pairwise EntLt := by
          rw [lk]; exact prepA_sorted ha
        have hsb : (prepB contr.length st b).Pairwise EntLt := by
          rw [lc]; exact prepB_sorted hb
        have hA : ∀ x ∈ aGroups codom.length ((prepA codom.length st a).insertionSort aLe),
            InShape x.keep ((multsOf codom).map List.length) ∧
              x.shape = shapeOf (multsOf codom) x.keep := by
          intro x hx
          obtain ⟨e, he, h1, h2⟩ := mem_groupsA hx
          have he := (List.perm_insertionSort aLe _).mem_iff.1 he
          rw [lk] at he
          obtain ⟨hin, c0, hc0, -, hs⟩ := validA_prep ha e he
          refine ⟨h1 ▸ hin, ?_⟩
          rw [h2, hs, h1, lk, ← length_shapeOf (multsOf codom) e.keep (by simpa using hin.length),
            List.take_left]
        have hB : ∀ y ∈ bGroups contr.length dom.length (prepB contr.length st b),
            InShape y.keep ((multsOf dom).reverse.map List.length) ∧
              y.shape = shapeOf (multsOf dom).reverse y.keep := by
          intro y hy
          obtain ⟨e, he, h1, h2⟩ := mem_groupsB hy
          rw [lc] at he
          obtain ⟨hin, c0, hc0, -, hs⟩ := validB_prep hb e he
          refine ⟨h1 ▸ hin, ?_⟩
          rw [h2, hs, h1, lc, ← length_shapeOf (multsOf contr) c0 (by simpa using hc0.length),
            List.drop_left]
        refine ⟨?_, ?_, ?_⟩
        · intro d hd
          obtain ⟨y, hy, x, hx, -, h1, -⟩ := mem_resultList hd
          rw [h1, List.map_append]
          exact inShape_append (hA x hx).1 (hB y hy).1
        · intro d hd
          obtain ⟨y, hy, x, hx, -, h1, h2⟩ := mem_resultList hd
          rw [h1, h2, (hA x hx).2, (hB y hy).2,
            shapeOf_append _ _ _ _ (by simpa using (hA x hx).1.length)]
        · have hlk : ∀ x ∈ aGroups codom.length ((prepA codom.length st a).insertionSort aLe),
              x.keep.length = codom.length := fun x hx => by
            rw [lk]; simpa using (hA x hx).1.length
          have hld : ∀ y ∈ bGroups contr.length dom.length (prepB contr.length st b),
              y.keep.length = dom.length := fun y hy => by
            rw [ld]; simpa using (hB y hy).1.length
          unfold StrictlySorted resultList
          rw [List.pairwise_map, List.pairwise_flatMap]
          have key : ∀ {x y x' y' : CGroup K},
              x ∈ aGroups codom.length ((prepA codom.length st a).insertionSort aLe) →
              y ∈ bGroups contr.length dom.length (prepB contr.length st b) →
              x' ∈ aGroups codom.length ((prepA codom.length st a).insertionSort aLe) →
              y' ∈ bGroups contr.length dom.length (prepB contr.length st b) →
              (y.keep.reverse < y'.keep.reverse ∨ y.keep.reverse = y'.keep.reverse ∧
                x.keep.reverse < x'.keep.reverse) →
              RowLt (x.keep ++ y.keep) (x'.keep ++ y'.keep) := by
            intro x y x' y' hx hy hx' hy' hlt
            rw [rowLt_key (n := codom.length + dom.length)
              (by rw [List.length_append, hlk x hx, hld y hy])
              (by rw [List.length_append, hlk x' hx', hld y' hy']), List.reverse_append,
              List.reverse_append, lex_append_iff (by simp [hld y hy, hld y' hy'])]
            exact hlt
          refine ⟨fun y hy => ?_, ?_⟩
          · rw [List.pairwise_filterMap]
            have hs : ((aGroups codom.length ((prepA codom.length st a).insertionSort aLe)).filter
                fun x => fusedCharge R codom x.keep = fusedCharge R dom y.keep.reverse).Pairwise
                fun x x' => x.keep.reverse < x'.keep.reverse := by
              refine List.Pairwise.filter _ ?_
              rw [aGroups_eq]
              exact groups_sorted hsa _ fun _ _ => rfl
            refine hs.imp_of_mem fun {x x'} hx hx' hlt d hd d' hd' => ?_
            obtain ⟨z, -, rfl⟩ := Option.map_eq_some_iff.1 hd
            obtain ⟨z', -, rfl⟩ := Option.map_eq_some_iff.1 hd'
            exact key (List.mem_filter.1 hx).1 hy (List.mem_filter.1 hx').1 hy (Or.inr ⟨rfl, hlt⟩)
          · have hs : (bGroups contr.length dom.length (prepB contr.length st b)).Pairwise
                fun x x' => x.keep.reverse < x'.keep.reverse := by
              rw [bGroups_eq]
              exact groups_sorted hsb _ fun _ _ => rfl
            refine hs.imp_of_mem fun {y y'} hy hy' hlt d hd d' hd' => ?_
            obtain ⟨x, hx, hd⟩ := List.mem_filterMap.1 hd
            obtain ⟨x', hx', hd'⟩ := List.mem_filterMap.1 hd'
            obtain ⟨z, -, rfl⟩ := Option.map_eq_some_iff.1 hd
            obtain ⟨z', -, rfl⟩ := Option.map_eq_some_iff.1 hd'
            exact key (List.mem_filter.1 hx).1 hy (List.mem_filter.1 hx').1 hy' (Or.inl hlt)

end Main
end Cyten.Props
