import Verif.Model.Hdf5
import Mathlib.Data.List.Forall2
import Mathlib.Data.List.Perm.Basic
import Mathlib.Logic.Relation
import Mathlib.Data.List.Count
import Mathlib.Data.List.Nodup

/-!
Specification of C69 (isomorphic object graphs), and what the saver writes.
-/

namespace Cyten.Hdf5

namespace Spec

/-- All keys of the dictionary are strings that are valid path components: the names and values. -/
def simpleItems (h : Heap) (kvs : List (ℕ × ℕ)) : Option (List (Name × ℕ)) :=
  kvs.mapM fun x => (simpleKey h x.1).map fun s => (Name.key s, x.2)

/-- The objects an object refers to (strings that are keys of a dictionary with simple keys do not
count, only their value matters). -/
def kids (h : Heap) : Obj → List ℕ
  | .list xs => xs
  | .tuple xs => xs
  | .set xs => xs
  | .dict kvs => (simpleItems h kvs).elim (kvs.map Prod.fst ++ kvs.map Prod.snd) fun l => l.map Prod.snd
  | .inst _ kvs => (simpleItems h kvs).elim (kvs.map Prod.fst ++ kvs.map Prod.snd) fun l => l.map Prod.snd
  | .range x y z => [x, y, z]
  | _ => []

/-- `b` is referred to by `a`. -/
def Refers (h : Heap) (a b : ℕ) : Prop := ∃ o, h[a]? = some o ∧ b ∈ kids h o

/-- `b` can be reached from `a`. -/
def Reach (h : Heap) : ℕ → ℕ → Prop := Relation.ReflTransGen (Refers h)

/-- Two objects with the same type and content, where `R` relates the objects they refer to; a numpy bool
is loaded as a Python bool; the order of the entries of a dictionary is not compared; keys of dictionaries
may be distinct but equal strings. -/
def Match (h h' : Heap) (R : ℕ → ℕ → Prop) : Obj → Obj → Prop
  | .none, .none => True
  | .data v, .data w => w = loadVal v
  | .list xs, .list ys => List.Forall₂ R xs ys
  | .tuple xs, .tuple ys => List.Forall₂ R xs ys
  | .set xs, .set ys => List.Forall₂ R xs ys
  | .dict kvs, .dict kvs' => ∃ l, l.Perm kvs' ∧ List.Forall₂ (fun x y =>
      (R x.1 y.1 ∨ ∃ s, h[x.1]? = some (.data (.str s)) ∧ h'[y.1]? = some (.data (.str s))) ∧
      R x.2 y.2) kvs l
  | .inst c kvs, .inst c' kvs' => c' = c ∧ ∃ l, l.Perm kvs' ∧ List.Forall₂ (fun x y =>
      (R x.1 y.1 ∨ ∃ s, h[x.1]? = some (.data (.str s)) ∧ h'[y.1]? = some (.data (.str s))) ∧
      R x.2 y.2) kvs l
  | .range x y z, .range x' y' z' => R x x' ∧ R y y' ∧ R z z'
  | _, _ => False

/-- The graphs of objects reachable from `a` in `h` and from `b` in `h'` are isomorphic: there is a
one-to-one correspondence of objects (so that sharing and cycles are the same) that preserves types and
contents. -/
def Iso (h : Heap) (a : ℕ) (h' : Heap) (b : ℕ) : Prop :=
  ∃ R : ℕ → ℕ → Prop, R a b ∧
    (∀ x y y', R x y → R x y' → y = y') ∧ (∀ x x' y, R x y → R x' y → x = x') ∧
    ∀ x y, R x y → ∃ o o', h[x]? = some o ∧ h'[y]? = some o' ∧ Match h h' R o o'

/-- What is required of the objects to be saved, as far as reachable from `root`: no dangling references,
nothing ignored, simple keys not empty and distinct, ranges made of integers, a single `None`, and no
tuple that can be reached from its own items. -/
structure Savable (h : Heap) (root : ℕ) : Prop where
  closed : ∀ a, Reach h root a → ∃ o, h[a]? = some o
  notIgnored : ∀ a, Reach h root a → h[a]? ≠ some .ignored
  keys : ∀ a kvs items, Reach h root a → (h[a]? = some (.dict kvs) ∨ ∃ c, h[a]? = some (.inst c kvs)) →
    simpleItems h kvs = some items → (items.map Prod.fst).Nodup ∧ ∀ x ∈ items, x.1 ≠ .key ""
  range : ∀ a x y z, Reach h root a → h[a]? = some (.range x y z) → ∀ b ∈ [x, y, z],
    ∃ c, h[b]? = some (.data (.prim .int c))
  oneNone : ∀ a b, Reach h root a → Reach h root b → h[a]? = some .none → h[b]? = some .none → a = b
  tuples : ∀ a xs, Reach h root a → h[a]? = some (.tuple xs) → ∀ x ∈ xs, ¬ Reach h x a

end Spec

open Spec

/-! ### What the saver writes -/

/-- The links of a group are the given items, at the nodes of the memo. -/
def Links (memo : ℕ → Option ℕ) (items links : List (Name × ℕ)) : Prop :=
  List.Forall₂ (fun x y => x.1 = y.1 ∧ memo x.2 = some y.2) items links

/-- A list of objects at node `n ≥ q`, which is not the node of an object. -/
def ViewAt (f : File) (memo : ℕ → Option ℕ) (q n : ℕ) (xs : List ℕ) : Prop :=
  q ≤ n ∧ (∀ b, memo b ≠ some n) ∧
  ∃ links, f[n]? = some ⟨.iter .list xs.length, links⟩ ∧ Links memo (enumNames xs) links

/-- The contents of a dictionary in the links of a group, in the given format. -/
def DictAt (h : Heap) (f : File) (memo : ℕ → Option ℕ) (q : ℕ) (kvs : List (ℕ × ℕ)) (fmt : Fmt)
    (links : List (Name × ℕ)) : Prop :=
  (∃ items, simpleItems h kvs = some items ∧ fmt = .simple ∧ Links memo items links) ∨
  (simpleItems h kvs = none ∧ fmt = .general ∧ ∃ nk nv, links = [(.keys, nk), (.values, nv)] ∧ nk ≠ nv ∧
      ViewAt f memo q nk (kvs.map Prod.fst) ∧ ViewAt f memo q nv (kvs.map Prod.snd))

/-- Node `n` of the file stores the object `o`. -/
def Stored (h : Heap) (f : File) (memo : ℕ → Option ℕ) (q n : ℕ) : Obj → Prop
  | .none => f[n]? = some ⟨.none, []⟩
  | .data v => f[n]? = some ⟨.data v, []⟩
  | .list xs => ∃ links, f[n]? = some ⟨.iter .list xs.length, links⟩ ∧ Links memo (enumNames xs) links
  | .tuple xs => ∃ links, f[n]? = some ⟨.iter .tuple xs.length, links⟩ ∧ Links memo (enumNames xs) links
  | .set xs => ∃ links, f[n]? = some ⟨.iter .set xs.length, links⟩ ∧ Links memo (enumNames xs) links
  | .dict kvs => ∃ fmt links, f[n]? = some ⟨.dict fmt, links⟩ ∧ DictAt h f memo q kvs fmt links
  | .range x y z => ∃ links, f[n]? = some ⟨.range, links⟩ ∧
      Links memo [(.start, x), (.stop, y), (.step, z)] links
  | .inst c kvs => ∃ fmt links, f[n]? = some ⟨.inst c (some fmt), links⟩ ∧ DictAt h f memo q kvs fmt links
  | .ignored => False

lemma Links.mono {memo memo' : ℕ → Option ℕ} {items links : List (Name × ℕ)}
    (h : ∀ b m, memo b = some m → memo' b = some m) (hl : Links memo items links) :
    Links memo' items links :=
  hl.imp fun _ _ hx => ⟨hx.1, h _ _ hx.2⟩

/-- Of the old nodes nothing but `p` is changed, the memo grows, with new nodes as values. -/
structure Grow (p : ℕ) (st st' : SaveState) : Prop where
  len : st.file.length ≤ st'.file.length
  same : ∀ i, i < st.file.length → i ≠ p → st'.file[i]? = st.file[i]?
  memo : ∀ b m, st.memo b = some m → st'.memo b = some m
  fresh : ∀ b m, st.memo b = none → st'.memo b = some m → st.file.length ≤ m

lemma Grow.refl (p : ℕ) (st : SaveState) : Grow p st st :=
  ⟨Nat.le_refl _, fun _ _ _ => rfl, fun _ _ h => h, fun b m h h' => by rw [h] at h'; cases h'⟩

lemma Grow.trans {p : ℕ} {s1 s2 s3 : SaveState} (h1 : Grow p s1 s2) (h2 : Grow p s2 s3) : Grow p s1 s3 := by
  refine ⟨Nat.le_trans h1.len h2.len, fun i hi hp => ?_, fun b m h => h2.memo _ _ (h1.memo _ _ h),
    fun b m hb hm => ?_⟩
  · rw [h2.same i (Nat.lt_of_lt_of_le hi h1.len) hp, h1.same i hi hp]
  · cases e : s2.memo b with
    | none => exact Nat.le_trans h1.len (h2.fresh b m e hm)
    | some m' =>
      have := h2.memo b m' e
      rw [hm, Option.some.injEq] at this
      subst this
      exact h1.fresh b m hb e

/-- Work in a new node does not show at the old ones. -/
lemma Grow.nested {p q : ℕ} {s1 s2 s3 : SaveState} (h1 : Grow p s1 s2) (h2 : Grow q s2 s3)
    (hq : s1.file.length ≤ q) : Grow p s1 s3 := by
  refine ⟨Nat.le_trans h1.len h2.len, fun i hi hp => ?_, fun b m h => h2.memo _ _ (h1.memo _ _ h),
    fun b m hb hm => ?_⟩
  · rw [h2.same i (Nat.lt_of_lt_of_le hi h1.len) (by omega), h1.same i hi hp]
  · cases e : s2.memo b with
    | none => exact Nat.le_trans h1.len (h2.fresh b m e hm)
    | some m' =>
      have := h2.memo b m' e
      rw [hm, Option.some.injEq] at this
      subst this
      exact h1.fresh b m hb e

lemma lt_of_getElem? {α : Type} {l : List α} {n : ℕ} {x : α} (h : l[n]? = some x) : n < l.length := by
  by_contra hn
  rw [List.getElem?_eq_none (by omega)] at h
  cases h

lemma ViewAt.mono {p q : ℕ} {st st' : SaveState} (hg : Grow p st st') {n : ℕ} {xs : List ℕ}
    (hp : p < q) (hv : ViewAt st.file st.memo q n xs) : ViewAt st'.file st'.memo q n xs := by
  obtain ⟨h1, h2, links, h3, h4⟩ := hv
  have hn := lt_of_getElem? h3
  refine ⟨h1, ?_, links, by rw [hg.same n hn (by omega), h3], h4.mono hg.memo⟩
  intro b hb
  cases hm : st.memo b with
  | none => have := hg.fresh b n hm hb; omega
  | some m =>
    have := hg.memo b m hm
    rw [hb, Option.some.injEq] at this
    subst this
    exact h2 b hm

lemma ViewAt.le {f : File} {memo : ℕ → Option ℕ} {q q' n : ℕ} {xs : List ℕ} (hq : q' ≤ q)
    (hv : ViewAt f memo q n xs) : ViewAt f memo q' n xs :=
  ⟨Nat.le_trans hq hv.1, hv.2⟩

lemma DictAt.mono {h : Heap} {p q : ℕ} {st st' : SaveState} (hg : Grow p st st') {kvs : List (ℕ × ℕ)}
    {fmt : Fmt} {links : List (Name × ℕ)} (hp : p < q)
    (hv : DictAt h st.file st.memo q kvs fmt links) : DictAt h st'.file st'.memo q kvs fmt links := by
  rcases hv with ⟨items, h1, h2, h3⟩ | ⟨h1, h2, nk, nv, h3, hne, h4, h5⟩
  · exact Or.inl ⟨items, h1, h2, h3.mono hg.memo⟩
  · exact Or.inr ⟨h1, h2, nk, nv, h3, hne, h4.mono hg hp, h5.mono hg hp⟩

lemma DictAt.le {h : Heap} {f : File} {memo : ℕ → Option ℕ} {q q' : ℕ} {kvs : List (ℕ × ℕ)} {fmt : Fmt}
    {links : List (Name × ℕ)} (hq : q' ≤ q) (hv : DictAt h f memo q kvs fmt links) :
    DictAt h f memo q' kvs fmt links := by
  rcases hv with ⟨items, h1, h2, h3⟩ | ⟨h1, h2, nk, nv, h3, hne, h4, h5⟩
  · exact Or.inl ⟨items, h1, h2, h3⟩
  · exact Or.inr ⟨h1, h2, nk, nv, h3, hne, h4.le hq, h5.le hq⟩

lemma Stored.mono {h : Heap} {p q n : ℕ} {st st' : SaveState} (hg : Grow p st st') {o : Obj}
    (hp : p < q) (hn : n ≠ p)
    (hv : Stored h st.file st.memo q n o) : Stored h st'.file st'.memo q n o := by
  have key : ∀ x, st.file[n]? = some x → st'.file[n]? = some x := fun x hx => by
    rw [hg.same n (lt_of_getElem? hx) hn, hx]
  cases o with
  | none => exact key _ hv
  | data v => exact key _ hv
  | list xs => obtain ⟨l, h1, h2⟩ := hv; exact ⟨l, key _ h1, h2.mono hg.memo⟩
  | tuple xs => obtain ⟨l, h1, h2⟩ := hv; exact ⟨l, key _ h1, h2.mono hg.memo⟩
  | set xs => obtain ⟨l, h1, h2⟩ := hv; exact ⟨l, key _ h1, h2.mono hg.memo⟩
  | dict kvs => obtain ⟨f, l, h1, h2⟩ := hv; exact ⟨f, l, key _ h1, h2.mono hg hp⟩
  | range x y z => obtain ⟨l, h1, h2⟩ := hv; exact ⟨l, key _ h1, h2.mono hg.memo⟩
  | inst c kvs => obtain ⟨f, l, h1, h2⟩ := hv; exact ⟨f, l, key _ h1, h2.mono hg hp⟩
  | ignored => exact hv

lemma Stored.le {h : Heap} {f : File} {memo : ℕ → Option ℕ} {q q' n : ℕ} {o : Obj} (hq : q' ≤ q)
    (hv : Stored h f memo q n o) : Stored h f memo q' n o := by
  cases o with
  | dict kvs => obtain ⟨f, l, h1, h2⟩ := hv; exact ⟨f, l, h1, h2.le hq⟩
  | inst c kvs => obtain ⟨f, l, h1, h2⟩ := hv; exact ⟨f, l, h1, h2.le hq⟩
  | _ => exact hv

/-- `b` is saved, in nodes from `q` on. -/
def Good (h : Heap) (root : ℕ) (st : SaveState) (q b : ℕ) : Prop :=
  ∃ m o, st.memo b = some m ∧ h[b]? = some o ∧ q ≤ m ∧ Reach h root b ∧ Stored h st.file st.memo q m o

lemma Good.mono {h : Heap} {root p q b : ℕ} {st st' : SaveState} (hg : Grow p st st') (hp : p < q)
    (hv : Good h root st q b) : Good h root st' q b := by
  obtain ⟨m, o, h1, h2, h3, h4, h5⟩ := hv
  exact ⟨m, o, hg.memo _ _ h1, h2, h3, h4, h5.mono hg hp (by omega)⟩

lemma Good.le {h : Heap} {root q q' b : ℕ} {st : SaveState} (hq : q' ≤ q)
    (hv : Good h root st q b) : Good h root st q' b := by
  obtain ⟨m, o, h1, h2, h3, h4, h5⟩ := hv
  exact ⟨m, o, h1, h2, Nat.le_trans hq h3, h4, h5.le hq⟩

/-- What is new in the memo is saved. -/
def New (h : Heap) (root : ℕ) (st st' : SaveState) : Prop :=
  ∀ b m, st.memo b = none → st'.memo b = some m → Good h root st' st.file.length b

/-- Invariant of the memo. -/
structure SInv (st : SaveState) : Prop where
  lt : ∀ b m, st.memo b = some m → m < st.file.length
  inj : ∀ b c m, st.memo b = some m → st.memo c = some m → b = c

lemma New.refl (h : Heap) (root : ℕ) (st : SaveState) : New h root st st := fun b m h1 h2 => by
  rw [h1] at h2; cases h2

lemma New.trans {h : Heap} {root p : ℕ} {s1 s2 s3 : SaveState} (hp : p < s1.file.length)
    (g1 : Grow p s1 s2) (h1 : New h root s1 s2) (g2 : Grow p s2 s3) (h2 : New h root s2 s3) :
    New h root s1 s3 := by
  intro b m hb hm
  cases e : s2.memo b with
  | none => exact (h2 b m e hm).le g1.len
  | some m' => exact (h1 b m' hb e).mono g2 hp

/-- The number of objects that are not yet in the memo. -/
def unm (h : Heap) (memo : ℕ → Option ℕ) : ℕ := (List.range h.length).countP fun b => (memo b).isNone

lemma unm_le {h : Heap} {m m' : ℕ → Option ℕ} (hm : ∀ b x, m b = some x → m' b = some x) :
    unm h m' ≤ unm h m := by
  apply List.countP_mono_left
  intro b _ hb
  cases e : m b with
  | none => rfl
  | some x => rw [hm b x e] at hb; exact hb

lemma countP_lt {l : List ℕ} {p q : ℕ → Bool} (h : ∀ x ∈ l, p x = true → q x = true) {a : ℕ} (ha : a ∈ l)
    (hq : q a = true) (hp : p a = false) : l.countP p < l.countP q := by
  induction l with
  | nil => cases ha
  | cons x l ih =>
    rw [List.countP_cons, List.countP_cons]
    have hle := List.countP_mono_left (p := p) (q := q) (fun y hy => h y (List.mem_cons_of_mem _ hy))
    rcases List.mem_cons.mp ha with rfl | ha
    · rw [if_neg (by simp [hp]), if_pos hq]; omega
    · have := ih (fun y hy => h y (List.mem_cons_of_mem _ hy)) ha
      have hx := h x (by simp)
      by_cases e : p x = true
      · rw [if_pos e, if_pos (hx e)]; omega
      · rw [if_neg e]; split <;> omega

lemma unm_lt {h : Heap} {m m' : ℕ → Option ℕ} (hm : ∀ b x, m b = some x → m' b = some x) {a y : ℕ}
    (ha : a < h.length) (h1 : m a = none) (h2 : m' a = some y) : unm h m' < unm h m := by
  apply countP_lt (a := a)
  · intro b _ hb
    cases e : m b with
    | none => rfl
    | some x => rw [hm b x e] at hb; exact hb
  · exact List.mem_range.mpr ha
  · rw [h1]; rfl
  · rw [h2]; rfl

/-- The contract of saving an object under a free name. -/
def SvOK (h : Heap) (root : ℕ) (sv : SaveState → Dest → ℕ → Option (SaveState × ℕ)) (K : ℕ) : Prop :=
  ∀ st p nm a g, SInv st → Reach h root a → unm h st.memo ≤ K → st.file[p]? = some g → nm ≠ .key "" →
    nm ∉ g.links.map Prod.fst →
    ∃ st' n, sv st (.link p nm) a = some (st', n) ∧ Grow p st st' ∧ SInv st' ∧ New h root st st' ∧
      st'.memo a = some n ∧ st'.file[p]? = some ⟨g.attr, g.links ++ [(nm, n)]⟩

lemma saveAll_ok {h : Heap} {root : ℕ} {sv : SaveState → Dest → ℕ → Option (SaveState × ℕ)} {K : ℕ}
    (hsv : SvOK h root sv K) (p : ℕ) (items : List (Name × ℕ)) : ∀ (st : SaveState) (g : Node), SInv st →
    (∀ x ∈ items, Reach h root x.2) → unm h st.memo ≤ K → st.file[p]? = some g →
    (items.map Prod.fst).Nodup → (∀ x ∈ items, x.1 ≠ .key "") → (∀ x ∈ items, x.1 ∉ g.links.map Prod.fst) →
    ∃ st' links, saveAll sv p st items = some st' ∧ Grow p st st' ∧ SInv st' ∧ New h root st st' ∧
      Links st'.memo items links ∧ st'.file[p]? = some ⟨g.attr, g.links ++ links⟩ := by
  induction items with
  | nil =>
    intro st g hi _ _ hg _ _ _
    exact ⟨st, [], rfl, Grow.refl _ _, hi, New.refl _ _ _, List.Forall₂.nil, by rw [List.append_nil]; exact hg⟩
  | cons x items ih =>
    intro st g hi hr hk hg hn he hf
    obtain ⟨st1, n, e1, g1, i1, n1, m1, f1⟩ := hsv st p x.1 x.2 g hi (hr x (by simp)) hk hg (he x (by simp))
      (hf x (by simp))
    rw [List.map_cons, List.nodup_cons] at hn
    obtain ⟨st2, links, e2, g2, i2, n2, l2, f2⟩ := ih st1 _ i1 (fun y hy => hr y (List.mem_cons_of_mem _ hy))
      (Nat.le_trans (unm_le g1.memo) hk) f1 hn.2 (fun y hy => he y (List.mem_cons_of_mem _ hy)) (by
        intro y hy hmem
        simp only [List.map_append, List.map_cons, List.map_nil, List.mem_append, List.mem_singleton] at hmem
        rcases hmem with hmem | hmem
        · exact hf y (List.mem_cons_of_mem _ hy) hmem
        · exact hn.1 (by rw [← hmem]; exact List.mem_map_of_mem hy))
    refine ⟨st2, (x.1, n) :: links, ?_, g1.trans g2, i2,
      New.trans (lt_of_getElem? hg) g1 n1 g2 n2, List.Forall₂.cons ⟨rfl, g2.memo _ _ m1⟩ l2, ?_⟩
    · rw [saveAll, e1]; exact e2
    · rw [f2]; simp

lemma addLink_eq {f : File} {p n : ℕ} {nm : Name} {g : Node} (hg : f[p]? = some g) (he : nm ≠ .key "")
    (hf : nm ∉ g.links.map Prod.fst) :
    addLink f p nm n = some (f.set p { g with links := g.links ++ [(nm, n)] }) := by
  rw [addLink, hg]
  exact if_neg (by rintro (h | h); exacts [he h, hf h])

/-- A new node under a free name, before it is memorised. -/
lemma newNode_ok {st : SaveState} {p : ℕ} {nm : Name} {g : Node} (hi : SInv st) (hg : st.file[p]? = some g)
    (he : nm ≠ .key "") (hf : nm ∉ g.links.map Prod.fst) (at' : Attr) :
    ∃ f, addLink (st.file ++ [⟨at', []⟩]) p nm st.file.length = some f ∧
      Grow p st { st with file := f } ∧ SInv { st with file := f } ∧ f.length = st.file.length + 1 ∧
      f[p]? = some ⟨g.attr, g.links ++ [(nm, st.file.length)]⟩ ∧ f[st.file.length]? = some ⟨at', []⟩ := by
  have hp := lt_of_getElem? hg
  have hg' : (st.file ++ [⟨at', []⟩])[p]? = some g := by rw [List.getElem?_append_left hp, hg]
  refine ⟨_, addLink_eq hg' he hf, ⟨?_, ?_, fun _ _ h => h, fun b m h h' => by rw [h] at h'; cases h'⟩,
    ⟨fun b m h => ?_, hi.inj⟩, ?_, ?_, ?_⟩
  · simp
  · intro i hil hip
    simp only
    rw [List.getElem?_set_ne (by omega), List.getElem?_append_left hil]
  · have := hi.lt b m h; simp; omega
  · simp
  · rw [List.getElem?_set_self (by simp; omega)]
  · rw [List.getElem?_set_ne (by omega)]; simp

/-- Memorising a new node. -/
lemma memoSave_ok {st st1 : SaveState} {p a n : ℕ} (hi : SInv st1) (hm : st1.memo = st.memo)
    (hg : Grow p st st1) (ha : st.memo a = none) (hn : n < st1.file.length)
    (hf : ∀ b, st1.memo b ≠ some n) (hL : st.file.length ≤ n) :
    Grow p st (memoSave st1 a n) ∧ SInv (memoSave st1 a n) := by
  refine ⟨⟨hg.len, hg.same, fun b m h => ?_, fun b m h h' => ?_⟩, ⟨fun b m h => ?_, fun b c m h h' => ?_⟩⟩
  · show (if b = a then some n else st1.memo b) = some m
    rw [if_neg (by rintro rfl; rw [ha] at h; cases h), hm, h]
  · change (if b = a then some n else st1.memo b) = some m at h'
    by_cases e : b = a
    · rw [if_pos e, Option.some.injEq] at h'; omega
    · rw [if_neg e, hm, h] at h'; cases h'
  · change (if b = a then some n else st1.memo b) = some m at h
    show m < st1.file.length
    by_cases e : b = a
    · rw [if_pos e, Option.some.injEq] at h; omega
    · rw [if_neg e] at h; exact hi.lt b m h
  · change (if b = a then some n else st1.memo b) = some m at h
    change (if c = a then some n else st1.memo c) = some m at h'
    by_cases e : b = a <;> by_cases e' : c = a
    · rw [e, e']
    · rw [if_pos e] at h; rw [if_neg e'] at h'; rw [← h] at h'; exact absurd h' (hf c)
    · rw [if_neg e] at h; rw [if_pos e'] at h'; rw [← h'] at h; exact absurd h (hf b)
    · rw [if_neg e] at h; rw [if_neg e'] at h'; exact hi.inj b c m h h'

lemma setAttr_ok {st : SaveState} {n : ℕ} {g : Node} (hi : SInv st) (hg : st.file[n]? = some g) (at' : Attr) :
    Grow n st (setAttr st n at') ∧ SInv (setAttr st n at') ∧ (setAttr st n at').memo = st.memo ∧
    (setAttr st n at').file.length = st.file.length ∧
    (setAttr st n at').file[n]? = some ⟨at', g.links⟩ := by
  have hp := lt_of_getElem? hg
  have e : setAttr st n at' = { st with file := st.file.set n { g with attr := at' } } := by
    rw [setAttr, hg]
  rw [e]
  refine ⟨⟨by simp, fun i hil hip => ?_, fun _ _ h => h, fun b m h h' => by rw [h] at h'; cases h'⟩,
    ⟨fun b m h => ?_, hi.inj⟩, rfl, by simp, ?_⟩
  · simp only
    rw [List.getElem?_set_ne (by omega)]
  · have := hi.lt b m h; simp; omega
  · simp only
    rw [List.getElem?_set_self hp]

lemma New.of_memo {h : Heap} {root : ℕ} {s1 s2 : SaveState} (hm : s2.memo = s1.memo) : New h root s1 s2 :=
  fun b m h1 h2 => by rw [hm, h1] at h2; cases h2

lemma enumNames_fst (xs : List ℕ) : (enumNames xs).map Prod.fst = (List.range xs.length).map Name.idx := by
  rw [enumNames, List.map_map, List.range_eq_range', ← List.zipIdx_map_snd 0 xs, List.map_map]
  rfl

lemma enumNames_snd (xs : List ℕ) : (enumNames xs).map Prod.snd = xs := by
  rw [enumNames, List.map_map]
  conv_rhs => rw [← List.zipIdx_map_fst 0 xs]
  rfl

lemma enumNames_nodup (xs : List ℕ) : ((enumNames xs).map Prod.fst).Nodup := by
  rw [enumNames_fst]
  exact List.nodup_range.map fun a b h => by injection h

lemma enumNames_ne (xs : List ℕ) : ∀ x ∈ enumNames xs, x.1 ≠ .key "" := by
  intro x hx
  have : x.1 ∈ (enumNames xs).map Prod.fst := List.mem_map_of_mem hx
  rw [enumNames_fst, List.mem_map] at this
  obtain ⟨i, _, hi⟩ := this
  rw [← hi]; simp

lemma enumNames_mem {xs : List ℕ} {x : Name × ℕ} (hx : x ∈ enumNames xs) : x.2 ∈ xs := by
  have : x.2 ∈ (enumNames xs).map Prod.snd := List.mem_map_of_mem hx
  rwa [enumNames_snd] at this

/-- The items of an iterable in a new group. -/
lemma saveIterBody_ok {h : Heap} {root : ℕ} {sv : SaveState → Dest → ℕ → Option (SaveState × ℕ)} {K : ℕ}
    (hsv : SvOK h root sv K) {st : SaveState} {n : ℕ} {at0 : Attr} (at' : Attr) (xs : List ℕ) (hi : SInv st)
    (hr : ∀ x ∈ xs, Reach h root x) (hk : unm h st.memo ≤ K) (hn : st.file[n]? = some ⟨at0, []⟩) :
    ∃ st' links, saveAll sv n (setAttr st n at') (enumNames xs) = some st' ∧ Grow n st st' ∧ SInv st' ∧
      New h root st st' ∧ st'.file[n]? = some ⟨at', links⟩ ∧ Links st'.memo (enumNames xs) links := by
  obtain ⟨a1, a2, a3, a4, a5⟩ := setAttr_ok hi hn at'
  obtain ⟨st', links, e1, g1, i1, n1, l1, f1⟩ := saveAll_ok hsv n (enumNames xs) _ _ a2
    (fun x hx => hr _ (enumNames_mem hx)) (by rw [a3]; exact hk) a5 (enumNames_nodup xs) (enumNames_ne xs)
    (by simp)
  refine ⟨st', links, e1, a1.trans g1, i1, New.trans (lt_of_getElem? hn) a1 (New.of_memo a3) g1 n1, ?_, l1⟩
  rw [f1]; rfl

/-- A view of keys or values in a group. -/
lemma saveView_ok {h : Heap} {root : ℕ} {sv : SaveState → Dest → ℕ → Option (SaveState × ℕ)} {K : ℕ}
    (hsv : SvOK h root sv K) {st : SaveState} {p : ℕ} {nm : Name} {g : Node} (xs : List ℕ) (hi : SInv st)
    (hr : ∀ x ∈ xs, Reach h root x) (hk : unm h st.memo ≤ K) (hg : st.file[p]? = some g)
    (he : nm ≠ .key "") (hf : nm ∉ g.links.map Prod.fst) :
    ∃ st', saveView sv st p nm xs = some st' ∧ Grow p st st' ∧ SInv st' ∧ New h root st st' ∧
      st'.file[p]? = some ⟨g.attr, g.links ++ [(nm, st.file.length)]⟩ ∧
      ViewAt st'.file st'.memo st.file.length st.file.length xs ∧ st.file.length < st'.file.length := by
  have hp := lt_of_getElem? hg
  obtain ⟨f, e, g1, i1, l1, p1, q1⟩ := newNode_ok hi hg he hf .unset
  obtain ⟨st', links, e2, g2, i2, n2, f2, l2⟩ := saveIterBody_ok hsv (.iter .list xs.length) xs i1 hr hk q1
  refine ⟨st', ?_, g1.nested g2 (Nat.le_refl _), i2, ?_, ?_, ⟨Nat.le_refl _, ?_, links, f2, l2⟩, ?_⟩
  · rw [saveView, createGroup, if_neg (by rintro ⟨-, h⟩; exact he h), e]
    exact e2
  · intro b m hb hm
    exact (n2 b m hb hm).le g1.len
  · rw [g2.same p (by rw [l1]; omega) (by omega)]; exact p1
  · intro b hb
    cases e : st.memo b with
    | some m =>
      have h1 := g2.memo b m e
      rw [hb, Option.some.injEq] at h1
      have := hi.lt b m e
      omega
    | none =>
      have := g2.fresh b _ e hb
      rw [l1] at this
      omega
  · have := g2.len; rw [l1] at this; omega

/-- The contents of a dictionary in an empty group. -/
lemma saveDict_ok {h : Heap} {root : ℕ} {sv : SaveState → Dest → ℕ → Option (SaveState × ℕ)} {K : ℕ}
    (hsv : SvOK h root sv K) {st : SaveState} {n : ℕ} {at0 : Attr} (kvs : List (ℕ × ℕ)) (hi : SInv st)
    (hr : ∀ x ∈ (simpleItems h kvs).elim (kvs.map Prod.fst ++ kvs.map Prod.snd) fun l => l.map Prod.snd,
      Reach h root x)
    (hkeys : ∀ items, simpleItems h kvs = some items →
      (items.map Prod.fst).Nodup ∧ ∀ x ∈ items, x.1 ≠ .key "")
    (hk : unm h st.memo ≤ K) (hn : st.file[n]? = some ⟨at0, []⟩) :
    ∃ st' fmt links, saveDictContent h sv st n kvs = some (st', fmt) ∧ Grow n st st' ∧ SInv st' ∧
      New h root st st' ∧ st'.file[n]? = some ⟨at0, links⟩ ∧
      DictAt h st'.file st'.memo st.file.length kvs fmt links := by
  have hnl := lt_of_getElem? hn
  cases e : simpleItems h kvs with
  | some items =>
    rw [e] at hr
    obtain ⟨st', links, e1, g1, i1, n1, l1, f1⟩ := saveAll_ok hsv n items st _ hi
      (fun x hx => hr _ (List.mem_map_of_mem hx)) hk hn (hkeys items e).1 (hkeys items e).2 (by simp)
    refine ⟨st', .simple, links, ?_, g1, i1, n1, by rw [f1]; rfl, Or.inl ⟨items, e, rfl, l1⟩⟩
    rw [simpleItems] at e
    rw [saveDictContent, e]
    simp only [e1]
  | none =>
    rw [e] at hr
    obtain ⟨s1, e1, g1, i1, n1, f1, v1, b1⟩ := saveView_ok hsv (nm := .keys) (kvs.map Prod.fst) hi
      (fun x hx => hr x (List.mem_append_left _ hx)) hk hn (by simp) (by simp)
    obtain ⟨s2, e2, g2, i2, n2, f2, v2, b2⟩ := saveView_ok hsv (nm := .values) (kvs.map Prod.snd) i1
      (fun x hx => hr x (List.mem_append_right _ hx)) (Nat.le_trans (unm_le g1.memo) hk) f1 (by simp) (by simp)
    refine ⟨s2, .general, _, ?_, g1.trans g2, i2, New.trans hnl g1 n1 g2 n2, f2,
      Or.inr ⟨e, rfl, _, _, rfl, by omega, v1.mono g2 hnl, v2.le g1.len⟩⟩
    rw [simpleItems] at e
    rw [saveDictContent, e]
    simp only [e1, e2]

/-- Objects that are saved as groups. -/
def isGroup : Obj → Bool
  | .list _ | .tuple _ | .set _ | .dict _ | .range _ _ _ | .inst _ _ => true
  | _ => false

lemma saveBody_ok {h : Heap} {root fuel K : ℕ} (hS : Savable h root) (hsv : SvOK h root (save h fuel) K)
    {st st1 : SaveState} {d : Dest} {a n : ℕ} {o : Obj} (ha : st.memo a = none) (hr : Reach h root a)
    (ho : h[a]? = some o) (hgr : isGroup o = true) (hc : createGroupFor st d a = some (st1, n))
    (hi : SInv st1) (hk : unm h st1.memo ≤ K) (hn : st1.file[n]? = some ⟨.unset, []⟩) :
    ∃ st2, save h (fuel + 1) st d a = some (st2, n) ∧ Grow n st1 st2 ∧ SInv st2 ∧ New h root st1 st2 ∧
      Stored h st2.file st2.memo st1.file.length n o := by
  have hkid : ∀ x ∈ kids h o, Reach h root x := fun x hx => hr.tail ⟨o, ho, hx⟩
  have hnl := lt_of_getElem? hn
  rw [save, ha]
  simp only [ho]
  have iter : ∀ (k : IterKind) (xs : List ℕ), (∀ x ∈ xs, Reach h root x) →
      ∃ st2, saveIter (save h fuel) st d a k xs = some (st2, n) ∧ Grow n st1 st2 ∧ SInv st2 ∧
        New h root st1 st2 ∧ ∃ links, st2.file[n]? = some ⟨.iter k xs.length, links⟩ ∧
        Links st2.memo (enumNames xs) links := by
    intro k xs hx
    obtain ⟨st2, links, e1, g1, i1, n1, f1, l1⟩ := saveIterBody_ok hsv (.iter k xs.length) xs hi hx hk hn
    refine ⟨st2, ?_, g1, i1, n1, links, f1, l1⟩
    rw [saveIter, hc]
    simp only [e1]
  cases o with
  | none => cases hgr
  | data v => cases hgr
  | ignored => cases hgr
  | list xs => exact iter .list xs hkid
  | tuple xs => exact iter .tuple xs hkid
  | set xs => exact iter .set xs hkid
  | dict kvs =>
    obtain ⟨s2, fmt, links, e1, g1, i1, n1, f1, d1⟩ := saveDict_ok hsv kvs hi hkid
      (fun items hit => hS.keys a kvs items hr (Or.inl ho) hit) hk hn
    obtain ⟨a1, a2, a3, a4, a5⟩ := setAttr_ok i1 f1 (.dict fmt)
    refine ⟨_, ?_, g1.trans a1, a2, New.trans hnl g1 n1 a1 (New.of_memo a3), fmt, links, a5, d1.mono a1 hnl⟩
    rw [hc]
    simp only [e1]
  | range x y z =>
    obtain ⟨a1, a2, a3, a4, a5⟩ := setAttr_ok hi hn .range
    obtain ⟨s2, links, e1, g1, i1, n1, l1, f1⟩ := saveAll_ok hsv n [(.start, x), (.stop, y), (.step, z)] _ _ a2
      (by
        intro w hw
        simp only [List.mem_cons, List.not_mem_nil, or_false] at hw
        rcases hw with rfl | rfl | rfl <;> exact hkid _ (by simp [kids]))
      (by rw [a3]; exact hk) a5 (by simp) (by simp) (by simp)
    refine ⟨s2, ?_, a1.trans g1, i1, New.trans hnl a1 (New.of_memo a3) g1 n1, links, by rw [f1]; rfl, l1⟩
    rw [hc]
    simp only [e1]
  | inst c kvs =>
    obtain ⟨b1, b2, b3, b4, b5⟩ := setAttr_ok hi hn (.inst c none)
    obtain ⟨s2, fmt, links, e1, g1, i1, n1, f1, d1⟩ := saveDict_ok hsv kvs b2 hkid
      (fun items hit => hS.keys a kvs items hr (Or.inr ⟨c, ho⟩) hit) (by rw [b3]; exact hk) b5
    obtain ⟨a1, a2, a3, a4, a5⟩ := setAttr_ok i1 f1 (.inst c (some fmt))
    refine ⟨_, ?_, (b1.trans g1).trans a1, a2,
      New.trans hnl (b1.trans g1) (New.trans hnl b1 (New.of_memo b3) g1 n1) a1 (New.of_memo a3),
      fmt, links, a5, ?_⟩
    · rw [hc]
      simp only [e1]
    · rw [b4] at d1
      exact d1.mono a1 hnl

/-- The memo after a memorised new node. -/
lemma memoSave_memo (st : SaveState) (a n : ℕ) : (memoSave st a n).memo a = some n := if_pos rfl

lemma save_memo_ok {h : Heap} {root : ℕ} {st : SaveState} {p n a : ℕ} {nm : Name} {g : Node} (hi : SInv st)
    (hg : st.file[p]? = some g) (he : nm ≠ .key "") (hf : nm ∉ g.links.map Prod.fst)
    (e : st.memo a = some n) (fuel : ℕ) :
    ∃ st' n, save h (fuel + 1) st (.link p nm) a = some (st', n) ∧ Grow p st st' ∧ SInv st' ∧
      New h root st st' ∧ st'.memo a = some n ∧ st'.file[p]? = some ⟨g.attr, g.links ++ [(nm, n)]⟩ := by
  refine ⟨⟨st.file.set p ⟨g.attr, g.links ++ [(nm, n)]⟩, st.memo⟩, n, ?_, ?_, ?_, New.of_memo rfl, e, ?_⟩
  · rw [save, e]; simp only [addLink_eq hg he hf]
  · exact ⟨by simp, fun i _ hip => by simp only; rw [List.getElem?_set_ne (by omega)], fun _ _ h => h,
      fun b m h h' => by rw [h] at h'; cases h'⟩
  · exact ⟨fun b m h => by have := hi.lt b m h; simp; omega, hi.inj⟩
  · simp only; rw [List.getElem?_set_self (lt_of_getElem? hg)]

theorem save_ok {h : Heap} {root : ℕ} (hS : Savable h root) (K : ℕ) : SvOK h root (save h (K + 1)) K := by
  induction K with
  | zero =>
    intro st p nm a g hi hr hk hg he hf
    obtain ⟨o, ho⟩ := hS.closed a hr
    cases e : st.memo a with
    | some n =>
      exact save_memo_ok hi hg he hf e _
    | none =>
      have : unm h (fun b => if b = a then some 0 else st.memo b) < unm h st.memo :=
        unm_lt (a := a) (y := 0) (fun b x hb => by
          rw [if_neg (by rintro rfl; rw [e] at hb; cases hb), hb]) (lt_of_getElem? ho) e (if_pos rfl)
      omega
  | succ K ih =>
    intro st p nm a g hi hr hk hg he hf
    obtain ⟨o, ho⟩ := hS.closed a hr
    have hp := lt_of_getElem? hg
    cases e : st.memo a with
    | some n =>
      exact save_memo_ok hi hg he hf e _
    | none =>
      have hfresh : ∀ b, st.memo b ≠ some st.file.length := fun b hb => by
        have := hi.lt b _ hb; omega
      have leaf : ∀ at' : Attr, (o = .none ∧ at' = .none ∨ ∃ v, o = .data v ∧ at' = .data v) →
          ∃ st' n, save h (K + 1 + 1) st (.link p nm) a = some (st', n) ∧ Grow p st st' ∧ SInv st' ∧
            New h root st st' ∧ st'.memo a = some n ∧ st'.file[p]? = some ⟨g.attr, g.links ++ [(nm, n)]⟩ := by
        intro at' hat
        obtain ⟨f, e1, g1, i1, l1, p1, q1⟩ := newNode_ok hi hg he hf at'
        obtain ⟨g2, i2⟩ := memoSave_ok (st := st) (a := a) (n := st.file.length) i1 rfl g1 e
          (by simp only; omega) hfresh (Nat.le_refl _)
        refine ⟨_, st.file.length, ?_, g2, i2, ?_, memoSave_memo _ _ _, p1⟩
        · rw [save, e]
          rcases hat with ⟨rfl, rfl⟩ | ⟨v, rfl, rfl⟩ <;> simp only [ho, newDataset, e1]
        · intro b m hb hm
          change (if b = a then some st.file.length else st.memo b) = some m at hm
          by_cases eb : b = a
          · subst eb
            rw [if_pos rfl, Option.some.injEq] at hm
            subst hm
            refine ⟨_, o, memoSave_memo _ _ _, ho, Nat.le_refl _, hr, ?_⟩
            rcases hat with ⟨rfl, rfl⟩ | ⟨v, rfl, rfl⟩ <;> exact q1
          · rw [if_neg eb, hb] at hm; cases hm
      have grp : isGroup o = true →
          ∃ st' n, save h (K + 1 + 1) st (.link p nm) a = some (st', n) ∧ Grow p st st' ∧ SInv st' ∧
            New h root st st' ∧ st'.memo a = some n ∧ st'.file[p]? = some ⟨g.attr, g.links ++ [(nm, n)]⟩ := by
        intro hgr
        obtain ⟨f, e1, g1, i1, l1, p1, q1⟩ := newNode_ok hi hg he hf .unset
        obtain ⟨g2, i2⟩ := memoSave_ok (st := st) (a := a) (n := st.file.length) i1 rfl g1 e
          (by simp only; omega) hfresh (Nat.le_refl _)
        have hc : createGroupFor st (.link p nm) a =
            some (memoSave { st with file := f } a st.file.length, st.file.length) := by
          rw [createGroupFor, createGroup, if_neg (by rintro ⟨-, h⟩; exact he h), e1]
        have hlt := unm_lt (h := h) (a := a) g2.memo (lt_of_getElem? ho) e (memoSave_memo _ _ _)
        obtain ⟨s2, e3, g3, i3, n3, st3⟩ := saveBody_ok hS ih e hr ho hgr hc i2 (by omega) q1
        have hm3 : s2.memo a = some st.file.length := g3.memo _ _ (memoSave_memo _ _ _)
        have hl1 : (memoSave { st with file := f } a st.file.length).file.length = st.file.length + 1 := l1
        refine ⟨s2, _, e3, g2.nested g3 (Nat.le_refl _), i3, ?_, hm3, ?_⟩
        · intro b m hb hm
          by_cases eb : b = a
          · subst eb
            exact ⟨_, o, hm3, ho, Nat.le_refl _, hr, st3.le g2.len⟩
          · exact (n3 b m (by
              show (if b = a then some st.file.length else st.memo b) = none
              rw [if_neg eb, hb]) hm).le g2.len
        · rw [g3.same p (by rw [hl1]; omega) (by omega)]; exact p1
      cases o with
      | none => exact leaf .none (Or.inl ⟨rfl, rfl⟩)
      | data v => exact leaf (.data v) (Or.inr ⟨v, rfl, rfl⟩)
      | ignored => exact absurd ho (hS.notIgnored a hr)
      | list xs => exact grp rfl
      | tuple xs => exact grp rfl
      | set xs => exact grp rfl
      | dict kvs => exact grp rfl
      | range x y z => exact grp rfl
      | inst c kvs => exact grp rfl

/-- What a complete file looks like. -/
structure Complete (h : Heap) (root : ℕ) (f : File) (memo : ℕ → Option ℕ) : Prop where
  top : memo root = some 0
  inj : ∀ b c m, memo b = some m → memo c = some m → b = c
  stored : ∀ b m, memo b = some m → ∃ o, h[b]? = some o ∧ Reach h root b ∧ Stored h f memo 0 m o

theorem saveFile_ok {h : Heap} {root : ℕ} (hS : Savable h root) {o : Obj} (ho : h[root]? = some o)
    (hgr : isGroup o = true) {fuel : ℕ} (hfuel : h.length + 2 ≤ fuel) :
    ∃ f memo, saveFile h fuel root = some f ∧ Complete h root f memo := by
  obtain ⟨K, rfl⟩ : ∃ K, fuel = K + 1 := ⟨fuel - 1, by omega⟩
  obtain ⟨J, rfl⟩ : ∃ J, K = J + 1 := ⟨K - 1, by have := lt_of_getElem? ho; omega⟩
  have hr : Reach h root root := Relation.ReflTransGen.refl
  let st : SaveState := ⟨[⟨.unset, []⟩], fun _ => none⟩
  have hi : SInv (memoSave st root 0) := by
    refine ⟨fun b m hb => ?_, fun b c m hb hc => ?_⟩
    · change (if b = root then some 0 else none) = some m at hb
      show m < 1
      split at hb
      · cases hb; decide
      · cases hb
    · change (if b = root then some 0 else none) = some m at hb
      change (if c = root then some 0 else none) = some m at hc
      split at hb
      · split at hc
        · simp_all
        · cases hc
      · cases hb
  obtain ⟨s2, e3, g3, i3, n3, st3⟩ := saveBody_ok (st := st) (d := .root) hS (save_ok hS J) rfl hr ho hgr rfl hi
    (by
      have : unm h (memoSave st root 0).memo ≤ h.length := by
        rw [unm]
        exact Nat.le_trans List.countP_le_length (by simp)
      omega) rfl
  have hm0 : s2.memo root = some 0 := g3.memo _ _ (memoSave_memo _ _ _)
  refine ⟨s2.file, s2.memo, ?_, hm0, i3.inj, ?_⟩
  · rw [saveFile, e3]; rfl
  · intro b m hb
    by_cases eb : b = root
    · subst eb
      rw [hm0, Option.some.injEq] at hb
      subst hb
      exact ⟨o, ho, hr, st3.le (Nat.zero_le _)⟩
    · obtain ⟨m', o', h1, h2, h3, h4, h5⟩ := n3 b m (if_neg eb) hb
      rw [hb, Option.some.injEq] at h1
      subst h1
      exact ⟨o', h2, h4, h5.le (Nat.zero_le _)⟩

end Cyten.Hdf5
