import Verif.Lemmas.FactMap3

/-! # The factorized mapping, one side -/

namespace Cyten.FT
open Cyten.FT.Spec Cyten.Tools Cyten.ListSum Cyten.Props Cyten.Spaces Cyten.Spaces.Spec Cyten.Abelian
  Cyten.FusionTrees Cyten.Mappings Cyten.Permute

variable {S K : Type} [LinearOrder S] [CommRing K] [StarRing K]

/-- The flat index of the multiplicities of some legs -/
def packM (l : List ℕ) (ch : ℕ → Cell S) (m : ℕ → ℕ) : ℕ :=
  packRow (makeStride (l.map fun x => (ch x).mult) true) (l.map m)

/-- What is known of the mapping of one side -/
structure SideMap (R : FusionRule S) (T : FTensors S K) (cj : Bool) (sec : FusionTree S → ℕ → S) (flag : ℕ → Bool)
    (l0 l1 : List ℕ) (cl : ℕ → List (Cell S)) (s s' : Side S) (l l' : BLeg S) (cs : List S) (m : TMap S K) : Prop where
  ok : SideOK R s l
  ok' : SideOK R s' l'
  cells : s.spaces.map (cells T.dim) = l0.map cl
  cells' : s'.spaces.map (FT.cells T.dim) = l1.map cl
  dual : s.areDual = l0.map flag
  dual' : s'.areDual = l1.map flag
  nodup : cs.Nodup
  map : TMapOK R T cj sec flag l0 l1 (keysOf R T.dim s cs) m
  secs : ∀ X ∈ keysOf R T.dim s cs, X.uncoupled = l0.map (sec X)

/-- The sectors of the legs of a tree of the new side -/
structure Chosen (T : FTensors S K) (l1 : List ℕ) (cl : ℕ → List (Cell S)) (t : FusionTree S) (ch : ℕ → Cell S) : Prop where
  mem : ∀ z ∈ l1, ch z ∈ cl z
  unc : t.uncoupled = l1.map fun z => (ch z).sec

section
variable {R : FusionRule S} {T : FTensors S K} {cj : Bool} {sec : FusionTree S → ℕ → S} {flag : ℕ → Bool}
  {l0 l1 : List ℕ} {cl : ℕ → List (Cell S)} {s s' : Side S} {l l' : BLeg S} {cs : List S} {m : TMap S K}

theorem SideMap.chosen (h : SideMap R T cj sec flag l0 l1 cl s s' l l' cs m) (hn : l1.Nodup) {e : S} {x : Placed S}
    (hx : x ∈ layout R T.dim s' e) : ∃ ch, Chosen T l1 cl x.tree ch := by
  obtain ⟨ch1, p1, p2, p3, -⟩ := h.ok'.placed T.dim hx
  rw [h.cells'] at p1
  obtain ⟨q, q1, q2⟩ := forall2_fun (⟨R.unit, 0, 0⟩ : Cell S) cl l1 hn ch1 p1
  exact ⟨q, q2, by rw [p3, q1, List.map_map]; rfl⟩

theorem SideMap.coupled (h : SideMap R T cj sec flag l0 l1 cl s s' l l' cs m) :
    ∀ p ∈ m.toSparse, ∀ q ∈ p.2, q.1.coupled = p.1.coupled := fun p hp q hq => ((h.map.col p hp).good q hq).2.1

theorem SideMap.keysNodup (h : SideMap R T cj sec flag l0 l1 cl s s' l l' cs m) (hR : R.Lawful) :
    (m.toSparse.map Prod.fst).Nodup := by rw [h.map.keys]; exact keysOf_nodup h.ok hR T.dim h.nodup

/-- The linear combination for one new tree -/
theorem SideMap.part (h : SideMap R T cj sec flag l0 l1 cl s s' l l' cs m) (hR : R.Lawful)
    (hp : l1.Perm l0) {e : S} (he : e ∈ cs) {x : Placed S} (hx : x ∈ layout R T.dim s' e) {ch : ℕ → Cell S}
    (hch : Chosen T l1 cl x.tree ch) (part : ℕ × ℕ → Mat K) (a b : ℕ → ℕ)
    (hpart : ∀ ρ k, (part (k, k + ρ)).rows = a ρ ∧ (part (k, k + ρ)).cols = b ρ) :
    let ρ := (l0.map fun z => (ch z).mult).prod
    ∃ o, treePart R id m.toSparse s part x.tree = some o ∧ (∀ B, o = some B → B.rows = a ρ ∧ B.cols = b ρ) ∧
      ∀ r t, ov o r t = ((layout R T.dim s e).map fun X => m.coef X.tree x.tree *
        (part (sl R s X.tree, sl R s X.tree + ρ)).val r t).sum := by
  intro ρ
  obtain ⟨o, o1, o2, o3⟩ := treePart_spec (R := R) (s := s) m.toSparse part x.tree ρ (a ρ) (b ρ) (hpart ρ) (by
    intro p hpm v hv
    have hk : p.1 ∈ keysOf R T.dim s cs := by rw [← h.map.keys]; exact List.mem_map_of_mem hpm
    obtain ⟨g1, g2, g3, g4⟩ := (h.map.col p hpm).good _ (mem_of_find _ hv)
    have hu := h.secs _ hk
    have hs : ∀ z ∈ l1, sec p.1 z = (ch z).sec := List.map_inj_left.1 (g3.symm.trans hch.unc)
    obtain ⟨e', -, hX⟩ := List.mem_flatMap.1 hk
    obtain ⟨X, hX, hXe⟩ := List.mem_map.1 hX
    have := slice_of h.ok hR T.dim h.cells (ch := ch) (fun z hz => hch.mem z (hp.mem_iff.2 hz)) hX (by
      rw [hXe, hu]
      exact List.map_congr_left fun z hz => hs z (hp.mem_iff.2 hz))
    rw [← hXe]
    exact this.2.2.2)
  refine ⟨o, o1, o2, fun r t => ?_⟩
  rw [o3]
  obtain ⟨-, -, -, -, g1, -⟩ := h.ok'.placed T.dim hx
  exact side_sum h.ok hR T.dim h.nodup h.map.keys h.coupled he x.tree g1
    fun X => (part (sl R s X, sl R s X + ρ)).val r t

/-- The identity -/
theorem SideMap.ident {ks : List (FusionTree S)}
    (h : SideMap R T cj sec flag l0 l1 cl s s' l l' cs (.ident ks)) (hR : R.Lawful) {e : S} (he : e ∈ cs) {x : Placed S}
    (hx : x ∈ layout R T.dim s' e) {ch : ℕ → Cell S} (hch : Chosen T l1 cl x.tree ch) (mm : ℕ → ℕ) (g : ℕ → K) :
    ((layout R T.dim s e).map fun X => (TMap.ident ks : TMap S K).coef X.tree x.tree *
      g (sl R s X.tree + packM l0 ch mm)).sum = g (x.start + packM l1 ch mm) := by
  classical
  have hl : l1 = l0 := h.map.ident ks rfl
  have hlay : layout R T.dim s e = layout R T.dim s' e :=
    layout_congr h.ok h.ok' T.dim (by rw [h.cells, h.cells', hl]) (by rw [h.dual, h.dual', hl]) e
  have hx' : x ∈ layout R T.dim s e := hlay ▸ hx
  have hkn := h.keysNodup hR
  have hco : ∀ X ∈ layout R T.dim s e, (TMap.ident ks : TMap S K).colOf X.tree = [(X.tree, 1)] := by
    intro X hX
    have hk : X.tree ∈ keysOf R T.dim s cs := List.mem_flatMap.2 ⟨e, he, List.mem_map_of_mem hX⟩
    have hks : X.tree ∈ ks := by
      have := h.map.keys
      simp only [TMap.toSparse, List.map_map] at this
      rw [← this] at hk
      obtain ⟨y, hy, hyX⟩ := List.mem_map.1 hk
      rw [← hyX]; exact hy
    exact colOf_mem hkn (p := (X.tree, [(X.tree, 1)])) (List.mem_map.2 ⟨X.tree, hks, rfl⟩)
  have htn := h.ok.tree_nodup hR T.dim e
  rw [sum_single' _ (List.Nodup.of_map _ htn) x hx']
  · obtain ⟨-, h2, -, -⟩ := slice_of h.ok hR T.dim h.cells (ch := ch) (fun z hz => hch.mem z (hl ▸ hz)) hx'
      (by rw [hch.unc, hl])
    unfold TMap.coef
    rw [hco x hx', h2, hl]
    simp [UMap.find]
  · intro X hX hne
    unfold TMap.coef
    rw [hco X hX]
    have : X.tree ≠ x.tree := fun h => hne (List.inj_on_of_nodup_map htn hX hx' h)
    simp [UMap.find, this]

theorem SideMap.lt (h : SideMap R T cj sec flag l0 l1 cl s s' l l' cs m) (hR : R.Lawful) {e : S} {x : Placed S}
    (hx : x ∈ layout R T.dim s' e) {ch : ℕ → Cell S} (hch : Chosen T l1 cl x.tree ch) {mm : ℕ → ℕ}
    (hm : ∀ z ∈ l1, mm z < (ch z).mult) : packM l1 ch mm < s'.size x.item := by
  obtain ⟨-, -, h3, -⟩ := slice_of h.ok' hR T.dim h.cells' hch.mem hx hch.unc
  rw [h3]
  exact packRow_lt (inShape_map l1 _ mm hm)

/-- The codomain -/
theorem SideMap.split {n : ℕ} {axes : List ℕ} (h : SideMap R T cj sec flag (List.range n) axes cl s s' l l' cs m)
    (hR : R.Lawful) (hp : axes.Perm (List.range n)) {e : S} (he : e ∈ cs) (old : Mat K) :
    ∃ B z, transformSplitting R id m old (Mat.zeros old.rows old.cols) e s s' axes = some (B, z) ∧
      B.rows = old.rows ∧ B.cols = old.cols ∧ (z = true → ∀ r t, B.val r t = 0) ∧
      ∀ x ∈ layout R T.dim s' e, ∀ ch, Chosen T axes cl x.tree ch → ∀ mm : ℕ → ℕ, (∀ z < n, mm z < (ch z).mult) →
        ∀ t < old.cols, B.val (x.start + packM axes ch mm) t =
          ((layout R T.dim s e).map fun X => m.coef X.tree x.tree *
            old.val (sl R s X.tree + packM (List.range n) ch mm) t).sum := by
  have hn : axes.Nodup := hp.nodup_iff.2 List.nodup_range
  cases m with
  | ident ks =>
    refine ⟨old, false, rfl, rfl, rfl, by simp, fun x hx ch hch mm _ t _ => ?_⟩
    exact (h.ident hR he hx hch mm fun r => old.val r t).symm
  | sparse m =>
    have hpart : ∀ x ∈ layout R T.dim s' e, ∀ ch, Chosen T axes cl x.tree ch →
        ∃ o, treePart R id m s (fun i => old.slice i (0, old.cols)) x.tree = some o ∧
          (∀ B, o = some B → B.rows = ((List.range n).map fun z => (ch z).mult).prod ∧ B.cols = old.cols) ∧
          ∀ r t, ov o r t = ((layout R T.dim s e).map fun X => (TMap.sparse m).coef X.tree x.tree *
            old.val (sl R s X.tree + r) t).sum := by
      intro x hx ch hch
      obtain ⟨o, o1, o2, o3⟩ := h.part hR hp he hx hch (fun i => old.slice i (0, old.cols)) id (fun _ => old.cols)
        fun ρ k => ⟨by simp [Mat.slice], by simp [Mat.slice]⟩
      refine ⟨o, o1, o2, fun r t => ?_⟩
      rw [o3]
      simp only [Mat.slice, Nat.zero_add]
    have hex : ∀ x, ∃ o, x ∈ layout R T.dim s' e →
        treePart R id m s (fun i => old.slice i (0, old.cols)) x.tree = some o := by
      intro x
      by_cases hx : x ∈ layout R T.dim s' e
      · obtain ⟨ch, hch⟩ := h.chosen hn hx
        obtain ⟨o, o1, -⟩ := hpart x hx ch hch
        exact ⟨o, fun _ => o1⟩
      · exact ⟨none, fun h => absurd h hx⟩
    choose o ho using hex
    obtain ⟨st', e1, e2, e3, e4, e5, e6⟩ := fold_set (fun st x => splitStep R id m old s axes st (blockOf s' x))
      (fun x => (x.start, x.start + s'.size x.item)) (fun _ => (0, old.cols))
      (fun x => (o x).map fun b => permuteIdx0 b (oldMults x.item.mults axes) axes) old.rows old.cols
      (layout R T.dim s' e) (by
        intro x hx st hr hc
        unfold splitStep
        simp only [blockOf]
        rw [ho x hx]
        simp only [Option.map_some]
        rcases o x with _ | b
        · rfl
        · simp only [setOpt, Option.map_some, hc]) (Mat.zeros old.rows old.cols, true) rfl rfl
    refine ⟨st'.1, st'.2, ?_, e2, e3, fun hz r t => by rw [e5 hz]; rfl, ?_⟩
    · unfold transformSplitting
      simp only
      rw [iterTreeBlocks_eq h.ok' T.dim, List.foldlM_map]
      exact e1
    · intro x hx ch hch mm hmm t ht
      have hm1 : ∀ z ∈ axes, mm z < (ch z).mult := fun z hz => hmm z (by simpa using hp.mem_iff.1 hz)
      have lt1 := h.lt hR hx hch hm1
      obtain ⟨o', p1, p2, p3⟩ := hpart x hx ch hch
      have hoo : o x = o' := Option.some.inj ((ho x hx).symm.trans p1)
      refine e6 _ _ _ (fun v hv h1 h2 => ?_) (Or.inr ⟨rfl, x, hx, ⟨Nat.le_add_right _ _, Nat.add_lt_add_left lt1 _⟩,
        Nat.zero_le _, ht⟩)
      obtain ⟨x0, -, -, u1⟩ := cover h.ok' T.dim e _ (layout_lt h.ok' T.dim hx lt1)
      obtain rfl : v = x := (u1 v hv h1).trans (u1 x hx ⟨Nat.le_add_right _ _, Nat.add_lt_add_left lt1 _⟩).symm
      rw [hoo, ← p3]
      simp only [Nat.add_sub_cancel_left, Nat.sub_zero]
      obtain ⟨im, -⟩ := slice_of h.ok' hR T.dim h.cells' hch.mem hx hch.unc
      rcases o' with _ | b
      · rfl
      · obtain ⟨r1, r2⟩ := p2 b rfl
        simp only [Option.map_some, ov, im]
        exact permuteIdx0_spec n axes hp (fun z => (ch z).mult) b r1 mm hmm t (by rw [r2]; exact ht)

/-- The domain -/
theorem SideMap.fuse {n : ℕ} {axes : List ℕ} {τ : ℕ → ℕ}
    (h : SideMap R T cj sec flag ((List.range n).map τ) (axes.map τ) cl s s' l l' cs m)
    (hR : R.Lawful) (hp : axes.Perm (List.range n)) (hτ : (axes.map τ).Nodup) {e : S} (he : e ∈ cs) (old : Mat K) :
    ∃ B z, transformFusion R id m old (Mat.zeros old.rows old.cols) e s s' axes = some (B, z) ∧
      B.rows = old.rows ∧ B.cols = old.cols ∧ (z = true → ∀ r t, B.val r t = 0) ∧
      ∀ x ∈ layout R T.dim s' e, ∀ ch, Chosen T (axes.map τ) cl x.tree ch → ∀ mm : ℕ → ℕ,
        (∀ z < n, mm (τ z) < (ch (τ z)).mult) →
        ∀ t < old.rows, B.val t (x.start + packM (axes.map τ) ch mm) =
          ((layout R T.dim s e).map fun X => m.coef X.tree x.tree *
            old.val t (sl R s X.tree + packM ((List.range n).map τ) ch mm)).sum := by
  cases m with
  | ident ks =>
    refine ⟨old, false, rfl, rfl, rfl, by simp, fun x hx ch hch mm _ t _ => ?_⟩
    exact (h.ident hR he hx hch mm fun r => old.val t r).symm
  | sparse m =>
    have hpart : ∀ x ∈ layout R T.dim s' e, ∀ ch, Chosen T (axes.map τ) cl x.tree ch →
        ∃ o, treePart R id m s (fun i => old.slice (0, old.rows) i) x.tree = some o ∧
          (∀ B, o = some B → B.rows = old.rows ∧ B.cols = (((List.range n).map τ).map fun z => (ch z).mult).prod) ∧
          ∀ t r, ov o t r = ((layout R T.dim s e).map fun X => (TMap.sparse m).coef X.tree x.tree *
            old.val t (sl R s X.tree + r)).sum := by
      intro x hx ch hch
      obtain ⟨o, o1, o2, o3⟩ := h.part hR (hp.map τ) he hx hch (fun i => old.slice (0, old.rows) i) (fun _ => old.rows) id
        fun ρ k => ⟨by simp [Mat.slice], by simp [Mat.slice]⟩
      refine ⟨o, o1, o2, fun r t => ?_⟩
      rw [o3]
      simp only [Mat.slice, Nat.zero_add]
    have hex : ∀ x, ∃ o, x ∈ layout R T.dim s' e →
        treePart R id m s (fun i => old.slice (0, old.rows) i) x.tree = some o := by
      intro x
      by_cases hx : x ∈ layout R T.dim s' e
      · obtain ⟨ch, hch⟩ := h.chosen hτ hx
        obtain ⟨o, o1, -⟩ := hpart x hx ch hch
        exact ⟨o, fun _ => o1⟩
      · exact ⟨none, fun h => absurd h hx⟩
    choose o ho using hex
    obtain ⟨st', e1, e2, e3, e4, e5, e6⟩ := fold_set (fun st x => fuseStep R id m old s axes st (blockOf s' x))
      (fun _ => (0, old.rows)) (fun x => (x.start, x.start + s'.size x.item))
      (fun x => (o x).map fun b => permuteIdx1 b (oldMults x.item.mults axes) axes) old.rows old.cols
      (layout R T.dim s' e) (by
        intro x hx st hr hc
        unfold fuseStep
        simp only [blockOf]
        rw [ho x hx]
        simp only [Option.map_some]
        rcases o x with _ | b
        · rfl
        · simp only [setOpt, Option.map_some, hr]) (Mat.zeros old.rows old.cols, true) rfl rfl
    refine ⟨st'.1, st'.2, ?_, e2, e3, fun hz r t => by rw [e5 hz]; rfl, ?_⟩
    · unfold transformFusion
      simp only
      rw [iterTreeBlocks_eq h.ok' T.dim, List.foldlM_map]
      exact e1
    · intro x hx ch hch mm hmm t ht
      have hm1 : ∀ z ∈ axes.map τ, mm z < (ch z).mult := by
        intro z hz
        obtain ⟨y, hy, rfl⟩ := List.mem_map.1 hz
        exact hmm y (by simpa using hp.mem_iff.1 hy)
      have lt1 := h.lt hR hx hch hm1
      obtain ⟨o', p1, p2, p3⟩ := hpart x hx ch hch
      have hoo : o x = o' := Option.some.inj ((ho x hx).symm.trans p1)
      refine e6 _ _ _ (fun v hv h1 h2 => ?_) (Or.inr ⟨rfl, x, hx, ⟨Nat.zero_le _, ht⟩,
        Nat.le_add_right _ _, Nat.add_lt_add_left lt1 _⟩)
      obtain ⟨x0, -, -, u1⟩ := cover h.ok' T.dim e _ (layout_lt h.ok' T.dim hx lt1)
      obtain rfl : v = x := (u1 v hv h2).trans (u1 x hx ⟨Nat.le_add_right _ _, Nat.add_lt_add_left lt1 _⟩).symm
      rw [hoo, ← p3]
      simp only [Nat.add_sub_cancel_left, Nat.sub_zero]
      obtain ⟨im, -⟩ := slice_of h.ok' hR T.dim h.cells' hch.mem hx hch.unc
      rcases o' with _ | b
      · rfl
      · obtain ⟨r1, r2⟩ := p2 b rfl
        simp only [Option.map_some, ov, im]
        have := permuteIdx1_spec n axes hp (fun z => (ch (τ z)).mult) b (by rw [r2, List.map_map]; rfl)
          (fun z => mm (τ z)) hmm t (by rw [r1]; exact ht)
        unfold packM
        simp only [List.map_map]
        exact this

end

end Cyten.FT
