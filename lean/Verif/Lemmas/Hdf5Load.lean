import Verif.Lemmas.Hdf5

/-!
What the loader makes of a complete file (C69).
-/

namespace Cyten.Hdf5

open Spec

/-- The new address of an object. -/
def lam (μ : ℕ → Option ℕ) (st : LoadState) (b : ℕ) : Option ℕ := (μ b).bind st.memo

/-- Objects with the same content; everything new is at addresses from `q` on. -/
def LMatch (h h' : Heap) (q : ℕ) (R : ℕ → ℕ → Prop) : Obj → Obj → Prop
  | .none, .none => True
  | .data v, .data w => w = loadVal v
  | .list xs, .list ys => List.Forall₂ R xs ys
  | .tuple xs, .tuple ys => List.Forall₂ R xs ys
  | .set xs, .set ys => List.Forall₂ R xs ys
  | .dict kvs, .dict kvs' => DMatch kvs kvs'
  | .inst c kvs, .inst c' kvs' => c' = c ∧ DMatch kvs kvs'
  | .range x y z, .range x' y' z' => R x x' ∧ R y y' ∧ R z z'
  | _, _ => False
where
  /-- Dictionaries with the same content. -/
  DMatch (kvs kvs' : List (ℕ × ℕ)) : Prop :=
    (∃ items, simpleItems h kvs = some items ∧ ∃ l, l.Perm kvs' ∧ List.Forall₂ (fun x y =>
      (∃ s, h[x.1]? = some (.data (.str s)) ∧ q ≤ y.1 ∧ h'[y.1]? = some (.data (.str s))) ∧
      R x.2 y.2) kvs l) ∨
    (simpleItems h kvs = none ∧ List.Forall₂ (fun x y => R x.1 y.1 ∧ R x.2 y.2) kvs kvs')

lemma forall₂_imp_mem {α β : Type} {R S : α → β → Prop} {l : List α} {l' : List β}
    (h : ∀ a ∈ l, ∀ b, R a b → S a b) (hl : List.Forall₂ R l l') : List.Forall₂ S l l' := by
  induction hl with
  | nil => exact List.Forall₂.nil
  | cons hx _ ih =>
    exact List.Forall₂.cons (h _ (by simp) _ hx) (ih fun a ha => h a (List.mem_cons_of_mem _ ha))

lemma simpleItems_snd {h : Heap} {kvs : List (ℕ × ℕ)} {items : List (Name × ℕ)}
    (hs : simpleItems h kvs = some items) : items.map Prod.snd = kvs.map Prod.snd := by
  rw [simpleItems] at hs
  induction kvs generalizing items with
  | nil => simp only [List.mapM_nil] at hs; cases hs; rfl
  | cons x kvs ih =>
    rw [List.mapM_cons] at hs
    cases e : simpleKey h x.1 with
    | none => rw [e] at hs; cases hs
    | some s =>
      cases e2 : kvs.mapM (fun x => (simpleKey h x.1).map fun s => (Name.key s, x.2)) with
      | none => rw [e, e2] at hs; cases hs
      | some r =>
        rw [e, e2] at hs
        cases hs
        rw [List.map_cons, List.map_cons, ih e2]

lemma simpleItems_forall₂ {h : Heap} {kvs : List (ℕ × ℕ)} {items : List (Name × ℕ)}
    (hs : simpleItems h kvs = some items) : List.Forall₂ (fun x y => ∃ s, h[x.1]? = some (.data (.str s)) ∧
      y = (Name.key s, x.2)) kvs items := by
  rw [simpleItems] at hs
  induction kvs generalizing items with
  | nil => simp only [List.mapM_nil] at hs; cases hs; exact List.Forall₂.nil
  | cons x kvs ih =>
    rw [List.mapM_cons] at hs
    cases e : simpleKey h x.1 with
    | none => rw [e] at hs; cases hs
    | some s =>
      cases e2 : kvs.mapM (fun x => (simpleKey h x.1).map fun s => (Name.key s, x.2)) with
      | none => rw [e, e2] at hs; cases hs
      | some r =>
        rw [e, e2] at hs
        cases hs
        refine List.Forall₂.cons ⟨s, ?_, rfl⟩ (ih e2)
        rw [simpleKey] at e
        split at e
        · split at e
          · cases e; assumption
          · cases e
        · cases e

lemma LMatch.DMatch.mono {h h' h'' : Heap} {q q' : ℕ} {R R' : ℕ → ℕ → Prop} {kvs kvs' : List (ℕ × ℕ)}
    (hR : ∀ k ∈ (simpleItems h kvs).elim (kvs.map Prod.fst ++ kvs.map Prod.snd) fun l => l.map Prod.snd,
      ∀ z, R k z → R' k z) (hq : q' ≤ q)
    (hh : ∀ i x, q ≤ i → h'[i]? = some x → h''[i]? = some x) (hm : LMatch.DMatch h h' q R kvs kvs') :
    LMatch.DMatch h h'' q' R' kvs kvs' := by
  rcases hm with ⟨items, h1, l, h2, h3⟩ | ⟨h1, h3⟩
  · rw [h1] at hR
    refine Or.inl ⟨items, h1, l, h2, forall₂_imp_mem (fun a ha b hb => ⟨?_, hR _ ?_ _ hb.2⟩) h3⟩
    · obtain ⟨⟨s, s1, s2, s3⟩, -⟩ := hb
      exact ⟨s, s1, Nat.le_trans hq s2, hh _ _ s2 s3⟩
    · show a.2 ∈ items.map Prod.snd
      rw [simpleItems_snd h1]
      exact List.mem_map_of_mem ha
  · rw [h1] at hR
    refine Or.inr ⟨h1, forall₂_imp_mem (fun a ha b hb => ⟨hR _ ?_ _ hb.1, hR _ ?_ _ hb.2⟩) h3⟩
    · exact List.mem_append_left _ (List.mem_map_of_mem ha)
    · exact List.mem_append_right _ (List.mem_map_of_mem ha)

lemma LMatch.mono {h h' h'' : Heap} {q q' : ℕ} {R R' : ℕ → ℕ → Prop} {o o' : Obj}
    (hR : ∀ k ∈ kids h o, ∀ z, R k z → R' k z) (hq : q' ≤ q)
    (hh : ∀ i x, q ≤ i → h'[i]? = some x → h''[i]? = some x) (hm : LMatch h h' q R o o') :
    LMatch h h'' q' R' o o' := by
  cases o <;> cases o' <;> first | exact hm | exact False.elim hm | skip
  · exact forall₂_imp_mem hR hm
  · exact forall₂_imp_mem hR hm
  · exact forall₂_imp_mem hR hm
  · exact LMatch.DMatch.mono hR hq hh hm
  · exact ⟨hR _ (by simp [kids]) _ hm.1, hR _ (by simp [kids]) _ hm.2.1, hR _ (by simp [kids]) _ hm.2.2⟩
  · obtain ⟨h1, h2⟩ := hm
    exact ⟨h1, LMatch.DMatch.mono hR hq hh h2⟩

lemma LMatch.match {h h' : Heap} {q : ℕ} {R : ℕ → ℕ → Prop} {o o' : Obj} (hm : LMatch h h' q R o o') :
    Match h h' R o o' := by
  have key : ∀ kvs kvs', LMatch.DMatch h h' q R kvs kvs' → ∃ l, l.Perm kvs' ∧ List.Forall₂ (fun x y =>
      (R x.1 y.1 ∨ ∃ s, h[x.1]? = some (.data (.str s)) ∧ h'[y.1]? = some (.data (.str s))) ∧
      R x.2 y.2) kvs l := by
    rintro kvs kvs' (⟨items, h1, l, h2, h3⟩ | ⟨h1, h3⟩)
    · exact ⟨l, h2, h3.imp fun a b hb => ⟨Or.inr (let ⟨s, s1, _, s3⟩ := hb.1; ⟨s, s1, s3⟩), hb.2⟩⟩
    · exact ⟨kvs', List.Perm.refl _, h3.imp fun a b hb => ⟨Or.inl hb.1, hb.2⟩⟩
  cases o <;> cases o' <;> first | exact hm | exact False.elim hm | skip
  · exact key _ _ hm
  · obtain ⟨h1, h2⟩ := hm
    exact ⟨h1, key _ _ h2⟩

/-- The loaded object of `c` at `z`. -/
def LGood (h : Heap) (μ : ℕ → Option ℕ) (st : LoadState) (q c z : ℕ) : Prop :=
  ∃ o o', h[c]? = some o ∧ st.heap[z]? = some o' ∧ (z = 0 ∨ q ≤ z) ∧
    LMatch h st.heap q (fun b y => lam μ st b = some y) o o'

/-- Of the old addresses only those from `lo` to `hi` are changed; the memo grows. -/
structure LGrow (lo hi : ℕ) (st st' : LoadState) : Prop where
  len : st.heap.length ≤ st'.heap.length
  same : ∀ i, i < st.heap.length → ¬ (lo ≤ i ∧ i < hi) → st'.heap[i]? = st.heap[i]?
  memo : ∀ m z, st.memo m = some z → st'.memo m = some z

lemma LGrow.lam {μ : ℕ → Option ℕ} {lo hi : ℕ} {s s' : LoadState} (hg : LGrow lo hi s s') {b z : ℕ}
    (hb : lam μ s b = some z) : Cyten.Hdf5.lam μ s' b = some z := by
  rw [Cyten.Hdf5.lam] at hb ⊢
  cases e : μ b with
  | none => rw [e] at hb; cases hb
  | some m => rw [e] at hb; exact hg.memo _ _ hb

lemma LGrow.refl (lo hi : ℕ) (st : LoadState) : LGrow lo hi st st :=
  ⟨Nat.le_refl _, fun _ _ _ => rfl, fun _ _ h => h⟩

lemma LGrow.trans {lo hi : ℕ} {s1 s2 s3 : LoadState} (h1 : LGrow lo hi s1 s2) (h2 : LGrow lo hi s2 s3) :
    LGrow lo hi s1 s3 :=
  ⟨Nat.le_trans h1.len h2.len, fun i hi hp => by
    rw [h2.same i (Nat.lt_of_lt_of_le hi h1.len) hp, h1.same i hi hp], fun m z h => h2.memo _ _ (h1.memo _ _ h)⟩

lemma LGrow.nested {lo hi lo' hi' : ℕ} {s1 s2 s3 : LoadState} (h1 : LGrow lo hi s1 s2)
    (h2 : LGrow lo' hi' s2 s3) (hl : s1.heap.length ≤ lo') : LGrow lo hi s1 s3 :=
  ⟨Nat.le_trans h1.len h2.len, fun i hi hp => by
    rw [h2.same i (Nat.lt_of_lt_of_le hi h1.len) (by omega), h1.same i hi hp],
    fun m z h => h2.memo _ _ (h1.memo _ _ h)⟩

lemma LGrow.weaken {lo hi lo' hi' : ℕ} {s1 s2 : LoadState} (h1 : LGrow lo hi s1 s2)
    (hl : ∀ i, lo ≤ i → i < hi → lo' ≤ i ∧ i < hi') : LGrow lo' hi' s1 s2 :=
  ⟨h1.len, fun i hi hp => h1.same i hi fun hc => hp (hl i hc.1 hc.2), h1.memo⟩

lemma LGood.mono {h : Heap} {μ : ℕ → Option ℕ} {lo hi q c z : ℕ} {s s' : LoadState} (hg : LGrow lo hi s s')
    (hlo : 0 < lo) (hhi : hi ≤ q) (hv : LGood h μ s q c z) : LGood h μ s' q c z := by
  obtain ⟨o, o', h1, h2, h3, h4⟩ := hv
  refine ⟨o, o', h1, ?_, h3, h4.mono (fun k _ y hk => hg.lam hk) (Nat.le_refl _) fun i x hi hx => ?_⟩
  · rw [hg.same z (lt_of_getElem? h2) (by omega), h2]
  · rw [hg.same i (lt_of_getElem? hx) (by omega), hx]

lemma LGood.le {h : Heap} {μ : ℕ → Option ℕ} {q q' c z : ℕ} {s : LoadState} (hq : q' ≤ q)
    (hv : LGood h μ s q c z) : LGood h μ s q' c z := by
  obtain ⟨o, o', h1, h2, h3, h4⟩ := hv
  exact ⟨o, o', h1, h2, by omega, h4.mono (fun _ _ _ hk => hk) hq fun _ _ _ hx => hx⟩

/-- What is newly loaded satisfies `P` and has the right content. -/
def LNew (h : Heap) (μ : ℕ → Option ℕ) (P : ℕ → Prop) (st st' : LoadState) : Prop :=
  ∀ c z, lam μ st c = none → lam μ st' c = some z → P c ∧ LGood h μ st' st.heap.length c z

lemma LNew.refl (h : Heap) (μ : ℕ → Option ℕ) (P : ℕ → Prop) (st : LoadState) : LNew h μ P st st :=
  fun c z h1 h2 => by rw [h1] at h2; cases h2

lemma LNew.of_lam {h : Heap} {μ : ℕ → Option ℕ} {P : ℕ → Prop} {st st' : LoadState}
    (he : ∀ c, lam μ st' c = lam μ st c) : LNew h μ P st st' :=
  fun c z h1 h2 => by rw [he, h1] at h2; cases h2

lemma LNew.imp {h : Heap} {μ : ℕ → Option ℕ} {P Q : ℕ → Prop} {st st' : LoadState} (hp : ∀ c, P c → Q c)
    (hn : LNew h μ P st st') : LNew h μ Q st st' :=
  fun c z h1 h2 => ⟨hp c (hn c z h1 h2).1, (hn c z h1 h2).2⟩

lemma LNew.trans {h : Heap} {μ : ℕ → Option ℕ} {P : ℕ → Prop} {lo hi lo' hi' : ℕ} {s1 s2 s3 : LoadState}
    (g1 : LGrow lo hi s1 s2) (h1 : LNew h μ P s1 s2) (g2 : LGrow lo' hi' s2 s3)
    (hlo : 0 < lo') (hhi : hi' ≤ s1.heap.length) (h2 : LNew h μ P s2 s3) :
    LNew h μ P s1 s3 := by
  intro c z hc hz
  cases e : lam μ s2 c with
  | none => exact ⟨(h2 c z e hz).1, ((h2 c z e hz).2).le g1.len⟩
  | some z' =>
    have := g2.lam e
    rw [hz, Option.some.injEq] at this
    subst this
    exact ⟨(h1 c z hc e).1, ((h1 c z hc e).2).mono g2 hlo hhi⟩

/-- Invariant of the loader. -/
structure LInv (h : Heap) (μ : ℕ → Option ℕ) (st : LoadState) : Prop where
  none : st.heap[0]? = some .none
  lt : ∀ b z, lam μ st b = some z → z < st.heap.length
  zero : ∀ b, lam μ st b = some 0 → h[b]? = some .none
  inj : ∀ b c z, lam μ st b = some z → lam μ st c = some z → b = c

/-- The contract of loading the object `b` from its node. -/
def LdOK (h : Heap) (μ : ℕ → Option ℕ) (ld : LoadState → ℕ → Option (LoadState × ℕ)) (K : ℕ) : Prop :=
  ∀ st b n, LInv h μ st → μ b = some n → unm h (lam μ st) ≤ K →
    ∃ st' x, ld st n = some (st', x) ∧ LGrow 1 1 st st' ∧ LInv h μ st' ∧ lam μ st' b = some x ∧
      LNew h μ (Reach h b) st st'

lemma LInv.pos {h : Heap} {μ : ℕ → Option ℕ} {st : LoadState} (hi : LInv h μ st) : 0 < st.heap.length :=
  lt_of_getElem? hi.none

/-- Changing the object at an open address. -/
lemma setObj_ok {h : Heap} {μ : ℕ → Option ℕ} {st : LoadState} (hi : LInv h μ st) {a : ℕ} (ha : a ≠ 0) (o : Obj) :
    LGrow a (a + 1) st { st with heap := st.heap.set a o } ∧ LInv h μ { st with heap := st.heap.set a o } := by
  refine ⟨⟨by simp, fun i hi hp => ?_, fun _ _ h => h⟩, ⟨?_, fun b z hb => ?_, hi.zero, hi.inj⟩⟩
  · simp only
    rw [List.getElem?_set_ne (by omega)]
  · simp only
    rw [List.getElem?_set_ne ha, hi.none]
  · have := hi.lt b z hb
    simp; omega

lemma alloc_ok {h : Heap} {μ : ℕ → Option ℕ} {st : LoadState} (hi : LInv h μ st) (o : Obj) :
    LGrow 1 1 st (alloc st o).1 ∧ LInv h μ (alloc st o).1 ∧ (alloc st o).1.heap.length = st.heap.length + 1 ∧
    (alloc st o).1.heap[st.heap.length]? = some o := by
  refine ⟨⟨by simp [alloc], fun i hi hp => ?_, fun _ _ h => h⟩, ⟨?_, fun b z hb => ?_, hi.zero, hi.inj⟩, ?_, ?_⟩
  · rw [alloc]; simp only
    rw [List.getElem?_append_left hi]
  · rw [alloc]; simp only
    rw [List.getElem?_append_left hi.pos, hi.none]
  · have := hi.lt b z hb
    simp [alloc]; omega
  · simp [alloc]
  · simp [alloc]

lemma unl_le {h : Heap} {μ : ℕ → Option ℕ} {lo hi : ℕ} {s s' : LoadState} (hg : LGrow lo hi s s') :
    unm h (lam μ s') ≤ unm h (lam μ s) := unm_le fun _ _ hb => hg.lam hb

/-- The loop over the items of an iterable. -/
lemma loadItems_ok {h : Heap} {μ : ℕ → Option ℕ} {f : File} {ld : LoadState → ℕ → Option (LoadState × ℕ)} {K : ℕ}
    (hld : LdOK h μ ld K) (n a : ℕ) (ha : a ≠ 0) (P : ℕ → Prop) (mk : List ℕ → Obj)
    (hmk : mk = Obj.list ∨ mk = Obj.set) (is xs : List ℕ) :
    ∀ (st : LoadState) (old : List ℕ), LInv h μ st → unm h (lam μ st) ≤ K →
    st.heap[a]? = some (mk old) →
    List.Forall₂ (fun i x => ∃ m, follow f n (.idx i) = some m ∧ μ x = some m) is xs →
    (∀ x ∈ xs, ∀ c, Reach h x c → P c) →
    ∃ st' ys, loadItems f ld n a st is = some st' ∧ LGrow a (a + 1) st st' ∧ LInv h μ st' ∧
      LNew h μ P st st' ∧ st'.heap[a]? = some (mk (old ++ ys)) ∧
      List.Forall₂ (fun b y => lam μ st' b = some y) xs ys := by
  induction is generalizing xs with
  | nil =>
    intro st old hi _ hg hf _
    cases hf
    exact ⟨st, [], rfl, LGrow.refl _ _ _, hi, LNew.refl _ _ _ _, by rw [List.append_nil]; exact hg,
      List.Forall₂.nil⟩
  | cons i is ih =>
    intro st old hi hk hg hf hP
    cases hf with
    | @cons _ x _ xs hx hf =>
      obtain ⟨m, hm, hμ⟩ := hx
      have hal := lt_of_getElem? hg
      obtain ⟨s1, y, e1, g1, i1, l1, n1⟩ := hld st x m hi hμ hk
      have g1' : LGrow a (a + 1) st s1 := g1.weaken (by omega)
      have hg1 : s1.heap[a]? = some (mk old) := by rw [g1.same a hal (by omega), hg]
      have hpush : pushItem s1 a y = { s1 with heap := s1.heap.set a (mk (old ++ [y])) } := by
        rw [pushItem, hg1]
        rcases hmk with rfl | rfl <;> rfl
      obtain ⟨g2, i2⟩ := setObj_ok i1 ha (mk (old ++ [y]))
      have hg2 : (s1.heap.set a (mk (old ++ [y])))[a]? = some (mk (old ++ [y])) :=
        List.getElem?_set_self (lt_of_getElem? hg1)
      obtain ⟨s3, ys, e3, g3, i3, n3, h3, l3⟩ := ih xs _ _ i2
        (Nat.le_trans (unl_le (g1'.trans g2)) hk) hg2 hf (fun x hx => hP x (List.mem_cons_of_mem _ hx))
      refine ⟨s3, y :: ys, ?_, (g1'.trans g2).trans g3, i3, ?_, by rw [h3]; simp, ?_⟩
      · rw [loadItems, hm]
        simp only [e1, hpush]
        exact e3
      · refine LNew.trans (g1'.trans g2) ?_ g3 (by omega) (by omega) n3
        exact LNew.trans g1 (n1.imp (hP x (by simp))) g2 (by omega) (by omega)
          (LNew.of_lam fun _ => rfl)
      · exact List.Forall₂.cons (g3.lam (g2.lam l1)) l3

/-- The links of a group are found by their names. -/
lemma follow_links {f : File} {μ : ℕ → Option ℕ} {n : ℕ} {at' : Attr} {items links : List (Name × ℕ)}
    (hn : f[n]? = some ⟨at', links⟩) (hl : Links μ items links) (hd : (items.map Prod.fst).Nodup) :
    ∀ x ∈ items, ∃ m, follow f n x.1 = some m ∧ μ x.2 = some m := by
  have key : ∀ items links, Links μ items links → (items.map Prod.fst).Nodup →
      ∀ x ∈ items, ∃ m, (links.find? fun y => y.1 = x.1).map Prod.snd = some m ∧ μ x.2 = some m := by
    intro items links hl
    induction hl with
    | nil => intro _ x hx; cases hx
    | @cons y z items links hy _ ih =>
      intro hd x hx
      rw [List.map_cons, List.nodup_cons] at hd
      rcases List.mem_cons.mp hx with rfl | hx
      · refine ⟨z.2, ?_, hy.2⟩
        rw [List.find?_cons_of_pos (by simp [hy.1])]; rfl
      · obtain ⟨m, h1, h2⟩ := ih hd.2 x hx
        refine ⟨m, ?_, h2⟩
        rw [List.find?_cons_of_neg, h1]
        simp only [decide_eq_true_eq]
        intro he
        apply hd.1
        rw [hy.1, he]
        exact List.mem_map_of_mem hx
  intro x hx
  obtain ⟨m, h1, h2⟩ := key items links hl hd x hx
  exact ⟨m, by rw [follow, hn]; exact h1, h2⟩

lemma idx_links {f : File} {μ : ℕ → Option ℕ} {n : ℕ} {at' : Attr} {xs : List ℕ} {links : List (Name × ℕ)}
    (hn : f[n]? = some ⟨at', links⟩) (hl : Links μ (enumNames xs) links) :
    List.Forall₂ (fun i x => ∃ m, follow f n (.idx i) = some m ∧ μ x = some m) (List.range xs.length) xs := by
  have h := follow_links hn hl (enumNames_nodup xs)
  rw [List.forall₂_iff_get]
  refine ⟨by simp, fun i h1 h2 => ?_⟩
  have hm : (Name.idx i, xs[i]) ∈ enumNames xs := by
    rw [enumNames, List.mem_map]
    refine ⟨(xs[i], i), ?_, rfl⟩
    rw [List.mem_zipIdx_iff_getElem?]
    exact List.getElem?_eq_getElem h2
  simpa using h _ hm

/-- Memorising a new address for the object `b`. -/
lemma memo_lam {μ : ℕ → Option ℕ} (hinj : ∀ b c m, μ b = some m → μ c = some m → b = c) {s s' : LoadState}
    {b n z : ℕ} (hb : μ b = some n) (hm : ∀ m, s'.memo m = if m = n then some z else s.memo m) (c : ℕ) :
    lam μ s' c = if c = b then some z else lam μ s c := by
  by_cases e : c = b
  · subst e
    rw [if_pos rfl, lam, hb]
    show s'.memo n = _
    rw [hm, if_pos rfl]
  · rw [if_neg e, lam, lam]
    cases e2 : μ c with
    | none => rfl
    | some m =>
      show s'.memo m = s.memo m
      rw [hm, if_neg]
      rintro rfl
      exact e (hinj c b m e2 hb)

lemma linv_of_lam {h : Heap} {μ : ℕ → Option ℕ} {s s' : LoadState} {b z : ℕ} (hi : LInv h μ s)
    (hh : s'.heap = s.heap) (hl : ∀ c, lam μ s' c = if c = b then some z else lam μ s c)
    (hz : z < s.heap.length) (h0 : z = 0 → h[b]? = some .none)
    (hf : ∀ c, c ≠ b → lam μ s c ≠ some z) : LInv h μ s' := by
  refine ⟨by rw [hh]; exact hi.none, fun c y hc => ?_, fun c hc => ?_, fun c d y hc hd => ?_⟩
  · rw [hh]
    rw [hl] at hc
    split at hc
    · cases hc; exact hz
    · exact hi.lt c y hc
  · rw [hl] at hc
    split at hc
    · rename_i e; subst e; exact h0 (Option.some.inj hc)
    · exact hi.zero c hc
  · rw [hl] at hc hd
    by_cases e : c = b <;> by_cases e' : d = b
    · rw [e, e']
    · rw [if_pos e] at hc; rw [if_neg e', ← hc] at hd; exact absurd hd (hf d e')
    · rw [if_pos e'] at hd; rw [if_neg e, ← hd] at hc; exact absurd hc (hf c e)
    · rw [if_neg e] at hc; rw [if_neg e'] at hd; exact hi.inj c d y hc hd

lemma memoLoad_new {h : Heap} {μ : ℕ → Option ℕ} (hinj : ∀ b c m, μ b = some m → μ c = some m → b = c)
    {s : LoadState} (hi : LInv h μ s) {b n z : ℕ} (hb : μ b = some n) (hl : lam μ s b = none)
    (hz : z < s.heap.length) (h0 : z = 0 → h[b]? = some .none) (hf : ∀ c, c ≠ b → lam μ s c ≠ some z) :
    LGrow 1 1 s (memoLoad s n z) ∧ LInv h μ (memoLoad s n z) ∧
    ∀ c, lam μ (memoLoad s n z) c = if c = b then some z else lam μ s c := by
  have hn : s.memo n = none := by rw [lam, hb] at hl; exact hl
  have hm : ∀ m, (memoLoad s n z).memo m = if m = n then some z else s.memo m := by
    intro m
    show (if m = n then some ((s.memo n).getD z) else s.memo m) = _
    rw [hn]; rfl
  have hlam := memo_lam hinj hb hm
  refine ⟨⟨Nat.le_refl _, fun _ _ _ => rfl, fun m y hy => ?_⟩, linv_of_lam hi rfl hlam hz h0 hf, hlam⟩
  rw [hm, if_neg (by rintro rfl; rw [hn] at hy; cases hy), hy]

/-- Memorising a node that belongs to no object, or one that has an address already. -/
lemma memoLoad_old {h : Heap} {μ : ℕ → Option ℕ} {s : LoadState} (hi : LInv h μ s) {n z : ℕ}
    (hn : (∀ b, μ b ≠ some n) ∨ ∃ y, s.memo n = some y) :
    LGrow 1 1 s (memoLoad s n z) ∧ LInv h μ (memoLoad s n z) ∧
    ∀ c, lam μ (memoLoad s n z) c = lam μ s c := by
  have hlam : ∀ c, lam μ (memoLoad s n z) c = lam μ s c := by
    intro c
    rw [lam, lam]
    cases e2 : μ c with
    | none => rfl
    | some m =>
      show (if m = n then some ((s.memo n).getD z) else s.memo m) = s.memo m
      by_cases e : m = n
      · subst e
        rw [if_pos rfl]
        rcases hn with hn | ⟨y, hy⟩
        · exact absurd e2 (hn c)
        · rw [hy]; rfl
      · rw [if_neg e]
  refine ⟨⟨Nat.le_refl _, fun _ _ _ => rfl, fun m y hy => ?_⟩, ⟨hi.none, ?_, ?_, ?_⟩, hlam⟩
  · show (if m = n then some ((s.memo n).getD z) else s.memo m) = some y
    by_cases e : m = n
    · subst e; rw [if_pos rfl, hy]; rfl
    · rw [if_neg e, hy]
  · intro b z' hb; rw [hlam] at hb; exact hi.lt b z' hb
  · intro b hb; rw [hlam] at hb; exact hi.zero b hb
  · intro b c z' hb hc; rw [hlam] at hb hc; exact hi.inj b c z' hb hc

/-- Loading a view of keys or values. -/
lemma loadView_ok {h : Heap} {μ : ℕ → Option ℕ} {f : File} {ld : LoadState → ℕ → Option (LoadState × ℕ)} {K : ℕ}
    (hld : LdOK h μ ld K) {P : ℕ → Prop} {q n : ℕ} {xs : List ℕ} (hv : ViewAt f μ q n xs) {st : LoadState}
    (hi : LInv h μ st) (hk : unm h (lam μ st) ≤ K) (hP : ∀ x ∈ xs, ∀ c, Reach h x c → P c) :
    ∃ st' ys, loadList f ld st n = some (st', st.heap.length) ∧ LGrow 1 1 st st' ∧ LInv h μ st' ∧
      LNew h μ P st st' ∧ st'.heap[st.heap.length]? = some (.list ys) ∧
      List.Forall₂ (fun b y => lam μ st' b = some y) xs ys := by
  obtain ⟨-, h2, links, h3, h4⟩ := hv
  obtain ⟨a1, a2, a3, a4⟩ := alloc_ok hi (.list [])
  obtain ⟨b1, b2, b3⟩ := memoLoad_old a2 (z := st.heap.length) (Or.inl h2)
  have hpos := hi.pos
  obtain ⟨s2, ys, e2, g2, i2, n2, m2, l2⟩ := loadItems_ok hld n st.heap.length (by omega) P _ (Or.inl rfl)
    _ _ _ [] b2 (Nat.le_trans (unl_le (a1.trans b1)) hk) a4 (idx_links h3 h4) hP
  refine ⟨s2, ys, ?_, (a1.trans b1).nested g2 (Nat.le_refl _), i2, ?_, m2, l2⟩
  · rw [loadList, h3]
    show (match loadItems f ld n st.heap.length (memoLoad (alloc st (.list [])).1 n st.heap.length)
      (List.range xs.length) with
      | none => none
      | some st2 => some (st2, st.heap.length)) = _
    rw [e2]
  · intro c z hc hz
    obtain ⟨p1, p2⟩ := n2 c z (by rw [b3]; exact hc) hz
    exact ⟨p1, p2.le (a1.trans b1).len⟩

/-- The loop over the entries of a dictionary with simple keys. -/
lemma loadSimple_ok {h : Heap} {μ : ℕ → Option ℕ} {ld : LoadState → ℕ → Option (LoadState × ℕ)} {K : ℕ}
    (hld : LdOK h μ ld K) (a : ℕ) (ha : a ≠ 0) (P : ℕ → Prop) (lks : List (Name × ℕ)) :
    ∀ (st : LoadState) (old : List (ℕ × ℕ)), LInv h μ st → unm h (lam μ st) ≤ K →
    st.heap[a]? = some (.dict old) →
    (∀ x ∈ lks, ∃ s c, x.1 = .key s ∧ μ c = some x.2 ∧ ∀ d, Reach h c d → P d) →
    ∃ st' kvs, loadSimple ld a st lks = some st' ∧ LGrow a (a + 1) st st' ∧ LInv h μ st' ∧
      LNew h μ P st st' ∧ st'.heap[a]? = some (.dict (old ++ kvs)) ∧
      List.Forall₂ (fun x y => ∃ s, x.1 = .key s ∧ st.heap.length ≤ y.1 ∧
        st'.heap[y.1]? = some (.data (.str s)) ∧ st'.memo x.2 = some y.2) lks kvs := by
  induction lks with
  | nil =>
    intro st old hi _ hg _
    exact ⟨st, [], rfl, LGrow.refl _ _ _, hi, LNew.refl _ _ _ _, by rw [List.append_nil]; exact hg,
      List.Forall₂.nil⟩
  | cons x lks ih =>
    intro st old hi hk hg hx
    obtain ⟨nm, m⟩ := x
    obtain ⟨s, c, e, hμ, hP⟩ := hx (nm, m) (by simp)
    simp only at e hμ
    subst e
    have hal := lt_of_getElem? hg
    obtain ⟨s1, y, e1, g1, i1, l1, n1⟩ := hld st c m hi hμ hk
    obtain ⟨g2, i2, len2, k2⟩ := alloc_ok i1 (.data (.str s))
    have hal1 : a < s1.heap.length := Nat.lt_of_lt_of_le hal g1.len
    have g12 : LGrow a (a + 1) st (alloc s1 (.data (.str s))).1 := (g1.trans g2).weaken (by omega)
    have hg2 : (alloc s1 (.data (.str s))).1.heap[a]? = some (.dict old) := by
      rw [(g1.trans g2).same a hal (by omega), hg]
    have hput : putItems (alloc s1 (.data (.str s))).1 a [(s1.heap.length, y)] =
        { (alloc s1 (.data (.str s))).1 with
          heap := (alloc s1 (.data (.str s))).1.heap.set a (.dict (old ++ [(s1.heap.length, y)])) } := by
      rw [putItems, hg2]
    obtain ⟨g3, i3⟩ := setObj_ok i2 ha (.dict (old ++ [(s1.heap.length, y)]))
    obtain ⟨s4, kvs, e4, g4, i4, n4, h4, l4⟩ := ih _ (old ++ [(s1.heap.length, y)]) i3
      (Nat.le_trans (unl_le (g12.trans g3)) hk)
      (List.getElem?_set_self (by omega)) (fun z hz => hx z (List.mem_cons_of_mem _ hz))
    have g34 := g3.trans g4
    have hm1 : s1.memo m = some y := by rw [lam, hμ] at l1; exact l1
    refine ⟨s4, (s1.heap.length, y) :: kvs, ?_, g12.trans g34, i4, ?_, by rw [h4]; simp, ?_⟩
    · rw [loadSimple, e1]
      show loadSimple ld a (putItems (alloc s1 (.data (.str s))).1 a [(s1.heap.length, y)]) lks = _
      rw [hput]
      exact e4
    · refine LNew.trans (g12.trans g3) ?_ g4 (by omega) (by omega) n4
      refine LNew.trans g12 ?_ g3 (by omega) (by omega) (LNew.of_lam fun _ => rfl)
      exact LNew.trans g1 (n1.imp hP) g2 (by omega) (by omega) (LNew.of_lam fun _ => rfl)
    · refine List.Forall₂.cons ⟨s, rfl, g1.len, ?_, g34.memo _ _ (g2.memo _ _ hm1)⟩ (l4.imp ?_)
      · show s4.heap[s1.heap.length]? = _
        rw [g34.same s1.heap.length (by omega) (by omega), k2]
      · rintro x z ⟨s', q1, q2, q3, q4⟩
        refine ⟨s', q1, ?_, q3, q4⟩
        have := (g12.trans g3).len
        exact Nat.le_trans this q2

lemma forall₂_zip {R S : ℕ → ℕ → Prop} : ∀ {kvs : List (ℕ × ℕ)} {ks vs : List ℕ},
    List.Forall₂ R (kvs.map Prod.fst) ks → List.Forall₂ S (kvs.map Prod.snd) vs →
    List.Forall₂ (fun x y => R x.1 y.1 ∧ S x.2 y.2) kvs (ks.zip vs) := by
  intro kvs
  induction kvs with
  | nil => intro ks vs h1 h2; cases h1; cases h2; exact List.Forall₂.nil
  | cons x kvs ih =>
    intro ks vs h1 h2
    cases h1 with
    | cons a1 b1 =>
      cases h2 with
      | cons a2 b2 => exact List.Forall₂.cons ⟨a1, a2⟩ (ih b1 b2)

lemma Links.mem {μ : ℕ → Option ℕ} {items links : List (Name × ℕ)} (hl : Links μ items links) :
    ∀ x ∈ links, ∃ y ∈ items, y.1 = x.1 ∧ μ y.2 = some x.2 := by
  induction hl with
  | nil => intro x hx; cases hx
  | cons h _ ih =>
    intro x hx
    rcases List.mem_cons.mp hx with rfl | hx
    · exact ⟨_, by simp, h⟩
    · obtain ⟨y, hy, h⟩ := ih x hx
      exact ⟨y, List.mem_cons_of_mem _ hy, h⟩

lemma forall₂_comp {α β γ : Type} {R : α → β → Prop} {S : β → γ → Prop} :
    ∀ {l : List α} {m : List β} {r : List γ}, List.Forall₂ R l m → List.Forall₂ S m r →
    List.Forall₂ (fun a c => ∃ b, R a b ∧ S b c) l r := by
  intro l m r h1
  induction h1 generalizing r with
  | nil => intro h2; cases h2; exact List.Forall₂.nil
  | cons h _ ih =>
    intro h2
    cases h2 with
    | cons a b => exact List.Forall₂.cons ⟨_, h, a⟩ (ih b)

/-- The entries of a dictionary are loaded into a new dictionary. -/
lemma loadDict_ok {h : Heap} {μ : ℕ → Option ℕ} {f : File} {order : List (Name × ℕ) → List (Name × ℕ)}
    (hord : ∀ l, (order l).Perm l) {ld : LoadState → ℕ → Option (LoadState × ℕ)} {K : ℕ}
    (hld : LdOK h μ ld K) {P : ℕ → Prop} {n : ℕ} {at' : Attr} {kvs : List (ℕ × ℕ)} {fmt : Fmt}
    {links : List (Name × ℕ)} (hn : f[n]? = some ⟨at', links⟩) (hD : DictAt h f μ 0 kvs fmt links)
    {st : LoadState} (hpos : 0 < st.heap.length)
    (hh : (memoLoad (alloc st (.dict [])).1 n st.heap.length).heap = st.heap ++ [.dict []])
    (hi : LInv h μ (memoLoad (alloc st (.dict [])).1 n st.heap.length))
    (hk : unm h (lam μ (memoLoad (alloc st (.dict [])).1 n st.heap.length)) ≤ K)
    (hP : ∀ x ∈ (simpleItems h kvs).elim (kvs.map Prod.fst ++ kvs.map Prod.snd) fun l => l.map Prod.snd,
      ∀ c, Reach h x c → P c) :
    ∃ s2 kvs', loadDict f order ld st n fmt = some (s2, st.heap.length) ∧
      LGrow st.heap.length (st.heap.length + 1) (memoLoad (alloc st (.dict [])).1 n st.heap.length) s2 ∧
      LInv h μ s2 ∧ LNew h μ P (memoLoad (alloc st (.dict [])).1 n st.heap.length) s2 ∧
      s2.heap[st.heap.length]? = some (.dict kvs') ∧
      LMatch.DMatch h s2.heap (st.heap.length + 1) (fun b y => lam μ s2 b = some y) kvs kvs' := by
  generalize hs : memoLoad (alloc st (.dict [])).1 n st.heap.length = s1 at *
  have hlen : s1.heap.length = st.heap.length + 1 := by rw [hh]; simp
  have h0 : s1.heap[st.heap.length]? = some (.dict []) := by rw [hh]; simp
  rcases hD with ⟨items, d1, rfl, d3⟩ | ⟨d1, rfl, nk, nv, rfl, -, d4, d5⟩
  · rw [d1] at hP
    obtain ⟨s2, kvs', e2, g2, i2, n2, m2, l2⟩ := loadSimple_ok hld st.heap.length (by omega) P (order links) s1
      [] hi hk h0 (by
        intro x hx
        obtain ⟨y, hy, y1, y2⟩ := d3.mem x ((hord links).mem_iff.mp hx)
        obtain ⟨x', hx', s, -, hs⟩ : ∃ x', x' ∈ kvs ∧ ∃ s, h[x'.1]? = some (.data (.str s)) ∧
            y = (Name.key s, x'.2) := by
          have := simpleItems_forall₂ d1
          clear d1 d3 hP hs
          induction this with
          | nil => cases hy
          | cons a _ ih =>
            rcases List.mem_cons.mp hy with rfl | hy
            · exact ⟨_, by simp, a⟩
            · obtain ⟨x', h1, h2⟩ := ih hy
              exact ⟨x', List.mem_cons_of_mem _ h1, h2⟩
        refine ⟨s, y.2, by rw [← y1, hs], y2, hP _ (List.mem_map_of_mem hy)⟩)
    refine ⟨s2, kvs', ?_, g2, i2, n2, m2, Or.inl ⟨items, d1, ?_⟩⟩
    · rw [loadDict]
      show (match f[n]? with
        | none => none
        | some g =>
          match loadSimple ld st.heap.length (memoLoad (alloc st (.dict [])).1 n st.heap.length)
            (order g.links) with
          | none => none
          | some st2 => some (st2, st.heap.length)) = _
      rw [hn, hs]
      simp only [e2]
    · obtain ⟨l, hl1, hl2⟩ := List.perm_comp_forall₂ (hord links).symm l2
      refine ⟨l, hl2, ?_⟩
      refine (forall₂_comp (forall₂_comp (simpleItems_forall₂ d1) d3) hl1).imp ?_
      rintro x y ⟨z, ⟨w, ⟨s, hs1, rfl⟩, z1, z2⟩, s', t1, t2, t3, t4⟩
      rw [t1] at z1
      cases z1
      exact ⟨⟨s, hs1, by rw [← hlen]; exact t2, t3⟩, by
        have z2' : μ x.2 = some z.2 := z2
        show (μ x.2).bind s2.memo = some y.2
        rw [z2']; exact t4⟩
  · rw [d1] at hP
    obtain ⟨s2, ks, e2, g2, i2, n2, m2, l2⟩ := loadView_ok (P := P) hld d4 hi hk
      (fun x hx => hP x (List.mem_append_left _ hx))
    obtain ⟨s3, vs, e3, g3, i3, n3, m3, l3⟩ := loadView_ok (P := P) hld d5 i2
      (Nat.le_trans (unl_le g2) hk) (fun x hx => hP x (List.mem_append_right _ hx))
    have hks : s3.heap[s1.heap.length]? = some (.list ks) := by
      rw [g3.same _ (lt_of_getElem? m2) (by omega), m2]
    have hd : s3.heap[st.heap.length]? = some (.dict []) := by
      rw [(g2.trans g3).same _ (by omega) (by omega), h0]
    obtain ⟨g4, i4⟩ := setObj_ok i3 (a := st.heap.length) (by omega) (.dict (ks.zip vs))
    have hput : putItems s3 st.heap.length ((listAt s3 s1.heap.length).zip (listAt s3 s2.heap.length)) =
        { s3 with heap := s3.heap.set st.heap.length (.dict (ks.zip vs)) } := by
      rw [putItems, hd, listAt, listAt, hks, m3]
      rfl
    have g23 := (g2.trans g3).weaken (lo' := st.heap.length) (hi' := st.heap.length + 1) (by omega)
    refine ⟨_, ks.zip vs, ?_, g23.trans g4, i4, ?_, List.getElem?_set_self (by
        have := (g2.trans g3).len; omega), Or.inr ⟨d1, ?_⟩⟩
    · have f1 : follow f n .keys = some nk := by rw [follow, hn]; rfl
      have f2 : follow f n .values = some nv := by rw [follow, hn]; rfl
      rw [loadDict, f1, f2]
      show (match loadList f ld (memoLoad (alloc st (.dict [])).1 n st.heap.length) nk with
        | none => none
        | some (st2, ks) =>
          match loadList f ld st2 nv with
          | none => none
          | some (st3, vs) =>
            some (putItems st3 st.heap.length ((listAt st3 ks).zip (listAt st3 vs)), st.heap.length)) = _
      rw [hs, e2]
      simp only [e3, hput]
    · refine LNew.trans g23 ?_ g4 (by omega) (by omega) (LNew.of_lam fun _ => rfl)
      exact LNew.trans g2 n2 g3 (by omega) (by omega) n3
    · exact forall₂_zip (l2.imp fun a b hab => g3.lam hab) l3

section
variable {h : Heap} {root : ℕ} {f : File} {μ : ℕ → Option ℕ} {order : List (Name × ℕ) → List (Name × ℕ)}

lemma lam_mem {st : LoadState} {b z : ℕ} (hb : lam μ st b = some z) : ∃ m, μ b = some m ∧ st.memo m = some z := by
  rw [lam] at hb
  cases e : μ b with
  | none => rw [e] at hb; cases hb
  | some m => rw [e] at hb; exact ⟨m, rfl, hb⟩

/-- What `load` does with an object. -/
def LdRes (h : Heap) (μ : ℕ → Option ℕ) (r : Option (LoadState × ℕ)) (st : LoadState) (b : ℕ) : Prop :=
  ∃ st' x, r = some (st', x) ∧ LGrow 1 1 st st' ∧ LInv h μ st' ∧ lam μ st' b = some x ∧
    LNew h μ (Reach h b) st st'

lemma load_hit (hC : Complete h root f μ) {st : LoadState} (hi : LInv h μ st) {b n z : ℕ} (hb : μ b = some n)
    (hz : lam μ st b = some z) (fuel : ℕ) : LdRes h μ (load f order (fuel + 1) st n) st b := by
  obtain ⟨m, hm, hmz⟩ := lam_mem hz
  rw [hb, Option.some.injEq] at hm
  subst hm
  by_cases e : z = 0
  · subst e
    obtain ⟨o, ho, -, hst⟩ := hC.stored b n hb
    have := hi.zero b hz
    rw [ho, Option.some.injEq] at this
    subst this
    obtain ⟨g1, i1, l1⟩ := memoLoad_old hi (n := n) (z := 0) (Or.inr ⟨0, hmz⟩)
    refine ⟨_, 0, ?_, g1, i1, by rw [l1, hz], LNew.of_lam l1⟩
    change f[n]? = some ⟨.none, []⟩ at hst
    rw [load, hmz, hst]
    rfl
  · refine ⟨st, z, ?_, LGrow.refl _ _ _, hi, hz, LNew.refl _ _ _ _⟩
    rw [load, hmz, Option.filter_some, if_pos (by simp [e])]

lemma load_leaf (hS : Savable h root) (hC : Complete h root f μ) {st : LoadState} (hi : LInv h μ st) {b n : ℕ}
    (hb : μ b = some n) {o : Obj} (ho : h[b]? = some o) (hl : o = .none ∨ ∃ v, o = .data v) (fuel : ℕ) :
    LdRes h μ (load f order (fuel + 1) st n) st b := by
  cases e : lam μ st b with
  | some z => exact load_hit hC hi hb e fuel
  | none =>
    have hmn : st.memo n = none := by rw [lam, hb] at e; exact e
    obtain ⟨o2, ho2, hr, hst⟩ := hC.stored b n hb
    rw [ho, Option.some.injEq] at ho2
    subst ho2
    rcases hl with rfl | ⟨v, rfl⟩
    · obtain ⟨g1, i1, l1⟩ := memoLoad_new hC.inj hi hb e (z := 0) hi.pos (fun _ => ho) (by
        intro c hc hcz
        obtain ⟨m, hm, -⟩ := lam_mem hcz
        obtain ⟨o3, ho3, hr3, -⟩ := hC.stored c m hm
        exact hc (hS.oneNone c b hr3 hr (hi.zero c hcz) ho))
      refine ⟨_, 0, ?_, g1, i1, by rw [l1, if_pos rfl], ?_⟩
      · change f[n]? = some ⟨.none, []⟩ at hst
        rw [load, hmn, hst]
        rfl
      · intro c z hc hz
        rw [l1] at hz
        by_cases ec : c = b
        · subst ec
          rw [if_pos rfl, Option.some.injEq] at hz
          subst hz
          exact ⟨Relation.ReflTransGen.refl, .none, .none, ho, hi.none, Or.inl rfl, trivial⟩
        · rw [if_neg ec, hc] at hz; cases hz
    · obtain ⟨a1, a2, a3, a4⟩ := alloc_ok hi (.data (loadVal v))
      have hpos := hi.pos
      obtain ⟨g1, i1, l1⟩ := memoLoad_new hC.inj a2 hb e (z := st.heap.length) (by omega) (by omega) (by
        intro c _ hcz
        have := hi.lt c _ hcz
        omega)
      refine ⟨_, st.heap.length, ?_, a1.trans g1, i1, by rw [l1, if_pos rfl], ?_⟩
      · change f[n]? = some ⟨.data v, []⟩ at hst
        rw [load, hmn, hst]
        rfl
      · intro c z hc hz
        rw [l1] at hz
        by_cases ec : c = b
        · subst ec
          rw [if_pos rfl, Option.some.injEq] at hz
          subst hz
          exact ⟨Relation.ReflTransGen.refl, .data v, .data (loadVal v), ho, a4, Or.inr (Nat.le_refl _), rfl⟩
        · rw [if_neg ec] at hz
          change lam μ st c = some z at hz
          rw [hc] at hz; cases hz

/-- A new empty container is memorised before its contents are loaded. -/
lemma open_ok (hC : Complete h root f μ) {st : LoadState} (hi : LInv h μ st) {b n : ℕ} (hb : μ b = some n)
    (e : lam μ st b = none) (o' : Obj) :
    LGrow 1 1 st (memoLoad (alloc st o').1 n st.heap.length) ∧
    LInv h μ (memoLoad (alloc st o').1 n st.heap.length) ∧
    (∀ c, lam μ (memoLoad (alloc st o').1 n st.heap.length) c = if c = b then some st.heap.length else lam μ st c) ∧
    unm h (lam μ (memoLoad (alloc st o').1 n st.heap.length)) < unm h (lam μ st) := by
  obtain ⟨a1, a2, a3, a4⟩ := alloc_ok hi o'
  have hpos := hi.pos
  obtain ⟨g1, i1, l1⟩ := memoLoad_new hC.inj a2 hb e (z := st.heap.length) (by omega) (by omega) (by
    intro c _ hcz
    have := hi.lt c _ hcz
    omega)
  obtain ⟨o, ho, -⟩ := hC.stored b n hb
  refine ⟨a1.trans g1, i1, l1, unm_lt (fun c x hc => (a1.trans g1).lam hc) (lt_of_getElem? ho) e
    (by rw [l1, if_pos rfl])⟩

lemma close_ok {st s1 s2 : LoadState} {b hi' : ℕ} (g1 : LGrow 1 1 st s1)
    (l1 : ∀ c, lam μ s1 c = if c = b then some st.heap.length else lam μ st c)
    (g2 : LGrow st.heap.length hi' s1 s2) (i2 : LInv h μ s2) (n2 : LNew h μ (Reach h b) s1 s2)
    (hgood : LGood h μ s2 st.heap.length b st.heap.length) (r : Option (LoadState × ℕ))
    (hr : r = some (s2, st.heap.length)) : LdRes h μ r st b := by
  refine ⟨s2, st.heap.length, hr, g1.nested g2 (Nat.le_refl _), i2, g2.lam (by rw [l1, if_pos rfl]), ?_⟩
  intro c z hc hz
  by_cases ec : c = b
  · subst ec
    have := g2.lam (μ := μ) (b := c) (z := st.heap.length) (by rw [l1, if_pos rfl])
    rw [hz, Option.some.injEq] at this
    subst this
    exact ⟨Relation.ReflTransGen.refl, hgood⟩
  · obtain ⟨p1, p2⟩ := n2 c z (by rw [l1, if_neg ec, hc]) hz
    exact ⟨p1, p2.le g1.len⟩

lemma reach_data {x c : ℕ} {v : Val} (hx : h[x]? = some (.data v)) (hr : Reach h x c) : c = x := by
  rcases Relation.ReflTransGen.cases_head hr with e | ⟨d, ⟨o, ho, hd⟩, -⟩
  · exact e.symm
  · rw [hx, Option.some.injEq] at ho
    subst ho
    cases hd

/-- One object, given the contract for the objects it refers to. -/
lemma load_step (hS : Savable h root) (hC : Complete h root f μ) (hord : ∀ l, (order l).Perm l) {K : ℕ}
    (ih : LdOK h μ (load f order (K + 1)) K) {st : LoadState} (hi : LInv h μ st) {b n : ℕ} (hb : μ b = some n)
    (hk : unm h (lam μ st) ≤ K + 1) (e : lam μ st b = none) : LdRes h μ (load f order (K + 1 + 1) st n) st b := by
  obtain ⟨o, ho, hr, hst⟩ := hC.stored b n hb
  have hmn : st.memo n = none := by rw [lam, hb] at e; exact e
  have hpos := hi.pos
  have hkid : ∀ x ∈ kids h o, ∀ c, Reach h x c → Reach h b c := fun x hx c hc =>
    Relation.ReflTransGen.head ⟨o, ho, hx⟩ hc
  cases o with
  | none => exact load_leaf hS hC hi hb ho (Or.inl rfl) _
  | data v => exact load_leaf hS hC hi hb ho (Or.inr ⟨v, rfl⟩) _
  | ignored => exact hst.elim
  | list xs =>
    obtain ⟨links, h1, h2⟩ := hst
    obtain ⟨g1, i1, l1, u1⟩ := open_ok hC hi hb e (.list [])
    obtain ⟨s2, ys, e2, g2, i2, n2, m2, f2⟩ := loadItems_ok ih n st.heap.length (by omega) (Reach h b) _
      (Or.inl rfl) _ _ _ [] i1 (by omega) (by simp [memoLoad, alloc]) (idx_links h1 h2) hkid
    refine close_ok g1 l1 g2 i2 n2 ⟨.list xs, .list ys, ho, m2, Or.inr (Nat.le_refl _), f2⟩ _ ?_
    rw [load, hmn, h1]
    show loadList f (load f order (K + 1)) st n = _
    rw [loadList, h1]
    show (match loadItems f (load f order (K + 1)) n st.heap.length
      (memoLoad (alloc st (.list [])).1 n st.heap.length) (List.range xs.length) with
      | none => none
      | some st2 => some (st2, st.heap.length)) = _
    rw [e2]
  | set xs =>
    obtain ⟨links, h1, h2⟩ := hst
    obtain ⟨g1, i1, l1, u1⟩ := open_ok hC hi hb e (.set [])
    obtain ⟨s2, ys, e2, g2, i2, n2, m2, f2⟩ := loadItems_ok ih n st.heap.length (by omega) (Reach h b) _
      (Or.inr rfl) _ _ _ [] i1 (by omega) (by simp [memoLoad, alloc]) (idx_links h1 h2) hkid
    refine close_ok g1 l1 g2 i2 n2 ⟨.set xs, .set ys, ho, m2, Or.inr (Nat.le_refl _), f2⟩ _ ?_
    rw [load, hmn, h1]
    show (match loadItems f (load f order (K + 1)) n st.heap.length
      (memoLoad (alloc st (.set [])).1 n st.heap.length) (List.range xs.length) with
      | none => none
      | some st2 => some (st2, st.heap.length)) = _
    rw [e2]
  | dict kvs =>
    obtain ⟨fmt, links, h1, h2⟩ := hst
    obtain ⟨g1, i1, l1, u1⟩ := open_ok hC hi hb e (.dict [])
    obtain ⟨s2, kvs', e2, g2, i2, n2, m2, d2⟩ := loadDict_ok (P := Reach h b) hord ih h1 h2 hpos rfl i1
      (by omega) hkid
    refine close_ok g1 l1 g2 i2 n2 ⟨.dict kvs, .dict kvs', ho, m2, Or.inr (Nat.le_refl _),
      LMatch.mono (o := .dict kvs) (o' := .dict kvs') (fun _ _ _ hk => hk) (by omega) (fun _ _ _ hx => hx) d2⟩ _ ?_
    rw [load, hmn, h1]
    exact e2
  | inst cls kvs =>
    obtain ⟨fmt, links, h1, h2⟩ := hst
    obtain ⟨g1, i1, l1, u1⟩ := open_ok hC hi hb e (.inst cls [])
    have hlen1 : (memoLoad (alloc st (.inst cls [])).1 n st.heap.length).heap.length = st.heap.length + 1 := by
      simp [memoLoad, alloc]
    have hmemo1 : (memoLoad (alloc st (.inst cls [])).1 n st.heap.length).memo n = some st.heap.length := by
      obtain ⟨m, hm, hmz⟩ := lam_mem (show lam μ (memoLoad (alloc st (.inst cls [])).1 n st.heap.length) b =
        some st.heap.length by rw [l1, if_pos rfl])
      rw [hb, Option.some.injEq] at hm
      rw [← hm] at hmz; exact hmz
    have hheap1 : (memoLoad (alloc st (.inst cls [])).1 n st.heap.length).heap[st.heap.length]? =
        some (.inst cls []) := by simp [memoLoad, alloc]
    have eload : load f order (K + 1 + 1) st n =
        match loadDict f order (load f order (K + 1)) (memoLoad (alloc st (.inst cls [])).1 n st.heap.length) n fmt with
        | none => none
        | some (st2, b) =>
          match st2.heap[b]? with
          | some (.dict kvs) => some ({ st2 with heap := st2.heap.set st.heap.length (.inst cls kvs) },
              st.heap.length)
          | _ => none := by
      rw [load, hmn, h1]
      rfl
    generalize memoLoad (alloc st (.inst cls [])).1 n st.heap.length = s1 at *
    obtain ⟨a1, a2, a3, a4⟩ := alloc_ok i1 (.dict [])
    obtain ⟨b1, b2, b3⟩ := memoLoad_old a2 (n := n) (z := s1.heap.length) (Or.inr ⟨_, hmemo1⟩)
    have gx := a1.trans b1
    obtain ⟨s2, kvs', e2, g2, i2, n2, m2, d2⟩ := loadDict_ok (P := Reach h b) hord ih h1 h2 i1.pos rfl b2
      (by have := unl_le (h := h) (μ := μ) gx; omega) hkid
    have n2' : LNew h μ (Reach h b) s1 s2 := by
      intro c z hc hz
      obtain ⟨p1, p2⟩ := n2 c z (by rw [b3]; exact hc) hz
      exact ⟨p1, p2.le gx.len⟩
    have g2' : LGrow 1 1 s1 s2 := gx.nested g2 (Nat.le_refl _)
    have hx2 := g2'.same st.heap.length (by omega) (by omega)
    obtain ⟨g3, i3⟩ := setObj_ok i2 (a := st.heap.length) (by omega) (.inst cls kvs')
    have hlt2 : st.heap.length < s2.heap.length := Nat.lt_of_lt_of_le (by omega) g2'.len
    refine close_ok (hi' := st.heap.length + 1) g1 l1
      ((g2'.weaken (by omega)).trans g3) i3
      (LNew.trans g2' n2' g3 (by omega) (by omega) (LNew.of_lam fun _ => rfl))
      ⟨.inst cls kvs, .inst cls kvs', ho, List.getElem?_set_self hlt2, Or.inr (Nat.le_refl _), ?_⟩ _ ?_
    · refine LMatch.mono (o := .inst cls kvs) (o' := .inst cls kvs') (fun _ _ _ hk => hk) ?_ ?_ ⟨rfl, d2⟩
      · omega
      · intro i x hq hx
        simp only
        rw [List.getElem?_set_ne (by omega), hx]
    · rw [eload, e2]
      simp only [m2]
  | range x y z =>
    obtain ⟨links, h1, h2⟩ := hst
    have hfol := follow_links h1 h2 (by simp)
    obtain ⟨mx, fx, μx⟩ := hfol (.start, x) (by simp)
    obtain ⟨my, fy, μy⟩ := hfol (.stop, y) (by simp)
    obtain ⟨mz, fz, μz⟩ := hfol (.step, z) (by simp)
    simp only at fx fy fz μx μy μz
    obtain ⟨cx, hx⟩ := hS.range b x y z hr ho x (by simp)
    obtain ⟨cy, hy⟩ := hS.range b x y z hr ho y (by simp)
    obtain ⟨cz, hz⟩ := hS.range b x y z hr ho z (by simp)
    have hnb : ∀ w c, h[w]? = some (.data (.prim .int c)) → ¬ Reach h w b := by
      intro w c hw hwb
      have := reach_data hw hwb
      rw [← this, ho] at hw
      cases hw
    obtain ⟨s1, a, e1, g1, i1, l1, n1⟩ := load_leaf (order := order) hS hC hi μx hx (Or.inr ⟨_, rfl⟩) K
    obtain ⟨s2, a', e2, g2, i2, l2, n2⟩ := load_leaf (order := order) hS hC i1 μy hy (Or.inr ⟨_, rfl⟩) K
    obtain ⟨s3, a'', e3, g3, i3, l3, n3⟩ := load_leaf (order := order) hS hC i2 μz hz (Or.inr ⟨_, rfl⟩) K
    have o1 : lam μ s1 b = none := by
      cases e' : lam μ s1 b with
      | none => rfl
      | some q => exact absurd (n1 b q e e').1 (hnb x cx hx)
    have o2 : lam μ s2 b = none := by
      cases e' : lam μ s2 b with
      | none => rfl
      | some q => exact absurd (n2 b q o1 e').1 (hnb y cy hy)
    have o3 : lam μ s3 b = none := by
      cases e' : lam μ s3 b with
      | none => rfl
      | some q => exact absurd (n3 b q o2 e').1 (hnb z cz hz)
    have hpos3 := i3.pos
    obtain ⟨g4, i4, l4, u4⟩ := open_ok hC i3 hb o3 (.range a a' a'')
    have g123 := (g1.trans g2).trans g3
    have n123 : LNew h μ (Reach h b) st s3 := by
      refine LNew.trans (g1.trans g2) (LNew.trans g1 (n1.imp (hkid x (by simp [kids]))) g2 (by omega) (by omega)
        (n2.imp (hkid y (by simp [kids])))) g3 (by omega) (by omega) (n3.imp (hkid z (by simp [kids])))
    refine ⟨_, s3.heap.length, ?_, g123.trans g4, i4, by rw [l4, if_pos rfl], ?_⟩
    · rw [load, hmn, h1]
      simp only [Option.filter_none]
      rw [fx, fy, fz]
      simp only [e1, e2, e3]
      rfl
    · intro c w hc hw
      by_cases ec : c = b
      · subst ec
        rw [l4, if_pos rfl, Option.some.injEq] at hw
        subst hw
        refine ⟨Relation.ReflTransGen.refl, .range x y z, .range a a' a'', ho, by simp [memoLoad, alloc],
          Or.inr g123.len, ?_⟩
        exact ⟨g4.lam (g3.lam (g2.lam l1)), g4.lam (g3.lam l2), g4.lam l3⟩
      · have hw3 : lam μ s3 c = some w := by rw [l4, if_neg ec] at hw; exact hw
        obtain ⟨p1, p2⟩ := n123 c w hc hw3
        exact ⟨p1, p2.mono g4 (by omega) (by omega)⟩
  | tuple xs =>
    obtain ⟨links, h1, h2⟩ := hst
    obtain ⟨g1, i1, l1, u1⟩ := open_ok hC hi hb e (.list [])
    obtain ⟨s2, ys, e2, g2, i2, n2, m2, f2⟩ := loadItems_ok ih n st.heap.length (by omega)
      (fun c => ∃ x ∈ xs, Reach h x c) _
      (Or.inl rfl) _ _ _ [] i1 (by omega) (by simp [memoLoad, alloc]) (idx_links h1 h2)
      (fun x hx c hc => ⟨x, hx, hc⟩)
    have hlist : listAt s2 st.heap.length = ys := by rw [listAt, m2]; rfl
    obtain ⟨g3, i3, len3, m3⟩ := alloc_ok i2 (.tuple ys)
    have hm4 : ∀ m, (memoOverwrite (alloc s2 (.tuple ys)).1 n s2.heap.length).memo m =
        if m = n then some s2.heap.length else (alloc s2 (.tuple ys)).1.memo m := fun _ => rfl
    have l4 := memo_lam hC.inj hb hm4
    have hlt2 := lt_of_getElem? m2
    have i4 : LInv h μ (memoOverwrite (alloc s2 (.tuple ys)).1 n s2.heap.length) :=
      linv_of_lam i3 rfl l4 (by omega) (by omega) (by
        intro c _ hc
        have := i2.lt c _ hc
        omega)
    have g12 : LGrow 1 1 st s2 := g1.nested g2 (Nat.le_refl _)
    refine ⟨_, s2.heap.length, ?_, ?_, i4, by rw [l4, if_pos rfl], ?_⟩
    · rw [load, hmn, h1]
      show (match loadItems f (load f order (K + 1)) n st.heap.length
        (memoLoad (alloc st (.list [])).1 n st.heap.length) (List.range xs.length) with
        | none => none
        | some st2 => some (memoOverwrite (alloc st2 (.tuple (listAt st2 st.heap.length))).1 n
            (alloc st2 (.tuple (listAt st2 st.heap.length))).2,
            (alloc st2 (.tuple (listAt st2 st.heap.length))).2)) = _
      rw [e2]
      simp only [hlist]
      rfl
    · refine ⟨(g12.trans g3).len, (g12.trans g3).same, fun m z hm => ?_⟩
      rw [hm4, if_neg (by rintro rfl; rw [hmn] at hm; cases hm)]
      exact (g12.trans g3).memo _ _ hm
    · intro c z hc hz
      by_cases ec : c = b
      · subst ec
        rw [l4, if_pos rfl, Option.some.injEq] at hz
        subst hz
        refine ⟨Relation.ReflTransGen.refl, .tuple xs, .tuple ys, ho, m3, Or.inr (by omega), ?_⟩
        refine forall₂_imp_mem (fun x hx y hxy => ?_) f2
        rw [l4, if_neg]
        · exact hxy
        · rintro rfl
          exact hS.tuples x xs hr ho x hx Relation.ReflTransGen.refl
      · have hz2 : lam μ s2 c = some z := by rw [l4, if_neg ec] at hz; exact hz
        obtain ⟨⟨x, hx, hxc⟩, p2⟩ := n2 c z (by rw [l1, if_neg ec, hc]) hz2
        refine ⟨hkid x hx c hxc, ?_⟩
        obtain ⟨o1, o2, q1, q2, q3, q4⟩ := (p2.le g1.len).mono g3 (by omega) (by omega)
        refine ⟨o1, o2, q1, q2, q3, q4.mono ?_ (Nat.le_refl _) fun _ _ _ hx => hx⟩
        intro k hkk y hy
        rw [l4, if_neg]
        · exact hy
        · rintro rfl
          exact hS.tuples k xs hr ho x hx (hxc.tail ⟨o1, q1, hkk⟩)

theorem load_ok (hS : Savable h root) (hC : Complete h root f μ) (hord : ∀ l, (order l).Perm l) (K : ℕ) :
    LdOK h μ (load f order (K + 1)) K := by
  induction K with
  | zero =>
    intro st b n hi hb hk
    cases e : lam μ st b with
    | some z => exact load_hit hC hi hb e _
    | none =>
      obtain ⟨-, -, -, u1⟩ := open_ok hC hi hb e .none
      omega
  | succ K ih =>
    intro st b n hi hb hk
    cases e : lam μ st b with
    | some z => exact load_hit hC hi hb e _
    | none => exact load_step hS hC hord ih hi hb hk e

/-- Loading a complete file gives isomorphic objects. -/
theorem loadFile_ok (hS : Savable h root) (hC : Complete h root f μ) (hord : ∀ l, (order l).Perm l) {fuel : ℕ}
    (hf : h.length + 1 ≤ fuel) :
    ∃ h' b, loadFile f order fuel = some (h', b) ∧ Iso h root h' b := by
  obtain ⟨K, rfl⟩ : ∃ K, fuel = K + 1 := ⟨fuel - 1, by omega⟩
  have h0 : ∀ b, lam μ ⟨[.none], fun _ => none⟩ b = none := by
    intro b; rw [lam]; cases μ b <;> rfl
  obtain ⟨s, x, e1, g1, i1, l1, n1⟩ := load_ok hS hC hord K ⟨[.none], fun _ => none⟩ root 0
    ⟨rfl, fun b z hb => (by rw [h0] at hb; cases hb), fun b hb => (by rw [h0] at hb; cases hb),
      fun b c z hb => (by rw [h0] at hb; cases hb)⟩ hC.top (by
      have : unm h (lam μ ⟨[.none], fun _ => none⟩) ≤ h.length := by
        rw [unm]
        exact Nat.le_trans List.countP_le_length (by simp)
      omega)
  refine ⟨s.heap, x, by rw [loadFile, e1]; rfl, fun b y => lam μ s b = some y, l1, ?_, i1.inj, ?_⟩
  · intro b y y' h1 h2
    rw [h1, Option.some.injEq] at h2
    exact h2
  · intro b y hby
    obtain ⟨-, o, o', p1, p2, -, p4⟩ := n1 b y (h0 b) hby
    exact ⟨o, o', p1, p2, p4.match⟩

end

end Cyten.Hdf5
