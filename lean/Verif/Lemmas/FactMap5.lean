import Verif.Lemmas.FactMap4
import Verif.Props.TensorProduct

/-! # The factorized mapping, the blocks of the new tensor -/

namespace Cyten.FT
open Cyten.FT.Spec Cyten.Tools Cyten.ListSum Cyten.Props Cyten.Spaces Cyten.Spaces.Spec Cyten.Abelian
  Cyten.FusionTrees Cyten.Mappings Cyten.Permute

variable {S K : Type} [LinearOrder S] [CommRing K] [StarRing K]

section
variable {R : FusionRule S} {T : FTensors S K} {cj : Bool} {sec : FusionTree S → ℕ → S} {flag : ℕ → Bool}
  {l0 l1 : List ℕ} {cl : ℕ → List (Cell S)} {s s' : Side S} {l l' : BLeg S} {cs : List S} {m : TMap S K}

theorem SideMap.col (h : SideMap R T cj sec flag l0 l1 cl s s' l l' cs m) (hR : R.Lawful) {X : FusionTree S}
    (hX : X ∈ keysOf R T.dim s cs) : TreeCol R T cj (sec X) flag l1 X.coupled
      (fun idx k => conjIf cj (treeTensor T X (l0.map idx) k)) (m.colOf X) := by
  have := h.map.col _ (mem_colOf (h.keysNodup hR) (X := X) (by rw [h.map.keys]; exact hX))
  exact this

theorem SideMap.coef_good (h : SideMap R T cj sec flag l0 l1 cl s s' l l' cs m) (hR : R.Lawful) {X x : FusionTree S}
    (hX : X ∈ keysOf R T.dim s cs) (hx : m.coef X x ≠ 0) : x.coupled = X.coupled ∧ x.uncoupled = l1.map (sec X) := by
  unfold TMap.coef at hx
  rcases hf : (m.colOf X).find x with _ | v
  · rw [hf] at hx; exact absurd rfl hx
  · obtain ⟨-, g2, g3, -⟩ := (h.col hR hX).good _ (mem_of_find _ hf)
    exact ⟨g2, g3⟩

/-- An old row is a row of the old block. -/
theorem SideMap.old_lt (h : SideMap R T cj sec flag l0 l1 cl s s' l l' cs m) (hR : R.Lawful) (hp : l1.Perm l0) {e : S}
    (he : e ∈ cs) {X : Placed S} (hX : X ∈ layout R T.dim s e) {x : FusionTree S} {ch : ℕ → Cell S}
    (hch : Chosen T l1 cl x ch) (hx : m.coef X.tree x ≠ 0) {mm : ℕ → ℕ} (hm : ∀ z ∈ l1, mm z < (ch z).mult) :
    sl R s X.tree + packM l0 ch mm < mult l e := by
  have hk : X.tree ∈ keysOf R T.dim s cs := List.mem_flatMap.2 ⟨e, he, List.mem_map_of_mem hX⟩
  obtain ⟨-, g3⟩ := h.coef_good hR hk hx
  have hs : ∀ z ∈ l1, sec X.tree z = (ch z).sec := List.map_inj_left.1 (g3.symm.trans hch.unc)
  obtain ⟨-, h2, h3, -⟩ := slice_of h.ok hR T.dim h.cells (ch := ch) (fun z hz => hch.mem z (hp.mem_iff.2 hz)) hX (by
    rw [h.secs _ hk]
    exact List.map_congr_left fun z hz => hs z (hp.mem_iff.2 hz))
  rw [h2]
  refine layout_lt h.ok T.dim hX ?_
  rw [h3]
  exact packRow_lt (inShape_map l0 _ mm fun z hz => hm z (hp.mem_iff.2 hz))

end

section
variable {R : FusionRule S} {T : FTensors S K} {secS secF : FusionTree S → ℕ → S} {flagS flagF : ℕ → Bool}
  {J M : ℕ} {c' axes : List ℕ} {τ : ℕ → ℕ} {clC clD : ℕ → List (Cell S)} {cod dom cod' dom' : Side S}
  {lc ld lc' ld' : BLeg S} {cs : List S} {m : FactMap S K}

omit [StarRing K] in
theorem convFuse_id (m : TMap S K) : convFuse (id : K → K) id m = id := by cases m <;> rfl

theorem factBlock_spec (hs : SideMap R T true secS flagS (List.range J) c' clC cod cod' lc lc' cs m.split)
    (hf : SideMap R T false secF flagF ((List.range M).map τ) (axes.map τ) clD dom dom' ld ld' cs m.fuse)
    (hR : R.Lawful) (hp1 : c'.Perm (List.range J)) (hp2 : axes.Perm (List.range M)) (hτ : (axes.map τ).Nodup)
    {e : S} (he : e ∈ cs) (old : Mat K) (hr : old.rows = mult lc' e) (hc : old.cols = mult ld e) :
    ∃ o, factBlock R id id m old cod dom cod' dom' c' axes e old.rows old.cols = some o ∧
      (∀ B, o = some B → B.rows = old.rows ∧ B.cols = old.cols) ∧
      ∀ x ∈ layout R T.dim cod' e, ∀ y ∈ layout R T.dim dom' e, ∀ chx, Chosen T c' clC x.tree chx →
        ∀ chy, Chosen T (axes.map τ) clD y.tree chy → ∀ mm : ℕ → ℕ, (∀ z < J, mm z < (chx z).mult) →
        (∀ z < M, mm (τ z) < (chy (τ z)).mult) →
        ov o (x.start + packM c' chx mm) (y.start + packM (axes.map τ) chy mm) =
          ((layout R T.dim dom e).map fun Y => m.fuse.coef Y.tree y.tree *
            ((layout R T.dim cod e).map fun X => m.split.coef X.tree x.tree *
              old.val (sl R cod X.tree + packM (List.range J) chx mm)
                (sl R dom Y.tree + packM ((List.range M).map τ) chy mm)).sum).sum := by
  obtain ⟨B1, z1, a1, a2, a3, a4, a5⟩ := hs.split hR hp1 he old
  obtain ⟨B2, z2, b1, b2, b3, b4, b5⟩ := hf.fuse hR hp2 hτ he B1
  have hinner : ∀ x ∈ layout R T.dim cod' e, ∀ y ∈ layout R T.dim dom' e, ∀ chx, Chosen T c' clC x.tree chx →
        ∀ chy, Chosen T (axes.map τ) clD y.tree chy → ∀ mm : ℕ → ℕ, (∀ z < J, mm z < (chx z).mult) →
        (∀ z < M, mm (τ z) < (chy (τ z)).mult) →
        ((layout R T.dim dom e).map fun Y => m.fuse.coef Y.tree y.tree *
          B1.val (x.start + packM c' chx mm) (sl R dom Y.tree + packM ((List.range M).map τ) chy mm)).sum =
        ((layout R T.dim dom e).map fun Y => m.fuse.coef Y.tree y.tree *
            ((layout R T.dim cod e).map fun X => m.split.coef X.tree x.tree *
              old.val (sl R cod X.tree + packM (List.range J) chx mm)
                (sl R dom Y.tree + packM ((List.range M).map τ) chy mm)).sum).sum := by
    intro x hx y hy chx hchx chy hchy mm h1 h2
    refine sum_congr _ fun Y hY => ?_
    by_cases h0 : m.fuse.coef Y.tree y.tree = 0
    · rw [h0, zero_mul, zero_mul]
    · rw [a5 x hx chx hchx mm h1 _ (by
        rw [hc]
        refine hf.old_lt hR (hp2.map τ) he hY hchy h0 fun z hz => ?_
        obtain ⟨a, ha, rfl⟩ := List.mem_map.1 hz
        exact h2 a (by simpa using hp2.mem_iff.1 ha))]
  by_cases hz1 : z1 = true
  · refine ⟨none, ?_, by simp, fun x hx y hy chx hchx chy hchy mm h1 h2 => ?_⟩
    · unfold factBlock
      rw [a1]
      simp [hz1]
    · rw [← hinner x hx y hy chx hchx chy hchy mm h1 h2]
      refine (sum_zero _ _ fun Y _ => ?_).symm
      rw [a4 hz1, mul_zero]
  · refine ⟨if z2 then none else some B2, ?_, ?_, fun x hx y hy chx hchx chy hchy mm h1 h2 => ?_⟩
    · unfold factBlock
      rw [a1]
      simp only [Option.bind_some]
      rw [if_neg hz1, convFuse_id]
      rw [a2, a3] at b1
      rw [b1]; rfl
    · intro B hB
      by_cases hz2 : z2 = true
      · rw [if_pos hz2] at hB; cases hB
      · rw [if_neg hz2] at hB
        obtain rfl := Option.some.inj hB
        exact ⟨b2.trans a2, b3.trans a3⟩
    · rw [← hinner x hx y hy chx hchx chy hchy mm h1 h2]
      have lt1 := hs.lt hR hx hchx (mm := mm) fun z hz => h1 z (by simpa using hp1.mem_iff.1 hz)
      rw [← b5 y hy chy hchy mm h2 _ (by rw [a2, hr]; exact layout_lt hs.ok' T.dim hx lt1)]
      by_cases hz2 : z2 = true
      · rw [if_pos hz2, b4 hz2]; rfl
      · rw [if_neg hz2]; rfl

/-- The multiplicities do not change. -/
theorem mult_perm {s s' : Side S} {l l' : BLeg S} (h : SideOK R s l) (h' : SideOK R s' l') (hR : R.Lawful) {dual : S → S}
    (hN : FusionRingN R dual) (hp : (s'.spaces.map fun y => y.sectors.zip y.mults).Perm
      (s.spaces.map fun y => y.sectors.zip y.mults)) (e : S) : mult l' e = mult l e := by
  rw [h.mult, h'.mult, channels_eq R hR, channels_eq R hR, prodV_perm R hR hN]
  have := hp.map Cyten.Spaces.vec
  rw [List.map_map, List.map_map] at this
  exact this

end

end Cyten.FT
