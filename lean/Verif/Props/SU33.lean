import Verif.Lemmas.SU33

/-!
# C86: the SU(3)_3 anyon category (fusion multiplicity 2)

`SU33.cat` is the model of `SU3_3AnyonCategory` with its tables over `ℂ`;
`Spec.CatN.UnitaryBraided`, `QdimCharacter`, `Ribbon`, `Bending` are the textbook equations with
multiplicity indices.
-/

namespace Cyten.Props
open Cyten Cyten.Spec Cyten.SU33

/-- **C86**: the fusion rules form a commutative ring with unit, duals and Frobenius reciprocity. -/
theorem C86_ring : SU33.cat.FusionRing := by
  have hv := SU33.mem_secs
  constructor
  · rw [hv]; decide
  · intro a b ha hb c hc
    rw [hv] at *
    exact (by decide : ∀ a ∈ secs, ∀ b ∈ secs, ∀ c ∈ out a b, c ∈ secs) a ha b hb c hc
  · intro a b ha hb
    rw [hv] at *
    exact (by decide : ∀ a ∈ secs, ∀ b ∈ secs, (out a b).Nodup) a ha b hb
  · intro a b c ha hb hc
    rw [hv] at *
    exact (by decide : ∀ a ∈ secs, ∀ b ∈ secs, ∀ c ∈ secs, (c ∈ out a b ↔ 0 < N a b c))
      a ha b hb c hc
  · intro a c ha hc
    rw [hv] at *
    exact (by decide : ∀ a ∈ secs, ∀ c ∈ secs, N 0 a c = if c = a then 1 else 0) a ha c hc
  · intro a c ha hc
    rw [hv] at *
    exact (by decide : ∀ a ∈ secs, ∀ c ∈ secs, N a 0 c = if c = a then 1 else 0) a ha c hc
  · intro a b c ha hb hc
    rw [hv] at *
    exact (by decide : ∀ a ∈ secs, ∀ b ∈ secs, ∀ c ∈ secs, N a b c = N b a c) a ha b hb c hc
  · intro a b c d ha hb hc hd
    rw [hv] at *
    exact (by decide +kernel : ∀ a ∈ secs, ∀ b ∈ secs, ∀ c ∈ secs, ∀ d ∈ secs,
      ((out a b).map fun f => N a b f * N f c d).sum =
      ((out b c).map fun e => N b c e * N a e d).sum) a ha b hb c hc d hd
  · intro a ha
    rw [hv] at *
    exact (by decide : ∀ a ∈ secs, SU33.dual a ∈ secs) a ha
  · intro a ha
    rw [hv] at *
    exact (by decide : ∀ a ∈ secs, SU33.dual (SU33.dual a) = a) a ha
  · intro a b ha hb
    rw [hv] at *
    exact (by decide : ∀ a ∈ secs, ∀ b ∈ secs, N a b 0 = if b = SU33.dual a then 1 else 0) a ha b hb
  · intro a b c ha hb hc
    rw [hv] at *
    exact (by decide : ∀ a ∈ secs, ∀ b ∈ secs, ∀ c ∈ secs, N a b c = N c (SU33.dual b) a)
      a ha b hb c hc

/-- **C86**: unitary F-moves, triangle, pentagon, both hexagons, and the tabulated C-symbols. -/
theorem C86_category : SU33.cat.UnitaryBraided := by
  have hv := SU33.mem_secs
  have he := X.eval
  refine ⟨C86_ring, ?_, ?_, ?_, ?_, ?_, ?_, ?_, ?_⟩
  · have h := x_r
    simp only [rCheck, Bool.and_eq_true, List.all_eq_true, below_iff] at h
    constructor
    · intro a b c ha hb hc μ hμ
      rw [hv] at ha hb
      have := he.sound _ _ (h.1 a ha b hb c hc μ hμ)
      rwa [he.mul, he.star, he.one, ← cat_R] at this
    · intro a ha
      rw [hv] at ha
      have h1 := he.sound _ _ (h.2 a ha).1
      have h2 := he.sound _ _ (h.2 a ha).2
      rw [he.one, ← cat_R] at h1 h2
      exact ⟨h1, h2⟩
  · have h := x_f
    simp only [fCheck, Bool.and_eq_true, List.all_eq_true] at h
    constructor
    · intro a b c d ha hb hc hd x hx x' hx'
      rw [hv] at ha hb hc hd
      have := he.sound _ _ ((h a ha b hb c hc d hd).1 x hx x' hx')
      rw [he.sum, he.ite, List.map_map] at this
      rw [← this]
      congr 1
      apply List.map_congr_left
      intro y _
      simp only [Function.comp_def, he.mul, he.star, CatN.FM, cat_F]
    · intro a b c d ha hb hc hd x hx x' hx'
      rw [hv] at ha hb hc hd
      have := he.sound _ _ ((h a ha b hb c hc d hd).2 x hx x' hx')
      rw [he.sum, he.ite, List.map_map] at this
      rw [← this]
      congr 1
      apply List.map_congr_left
      intro y _
      simp only [Function.comp_def, he.mul, he.star, CatN.FM, cat_F]
  · have h := x_tri
    simp only [triCheck, Bool.and_eq_true, List.all_eq_true, below_iff] at h
    intro b c d hb hc hd μ hμ ν hν
    rw [hv] at hb hc
    obtain ⟨⟨h1, h2⟩, h3⟩ := h b hb c hc d hd μ hμ ν hν
    have h1 := he.sound _ _ h1
    have h2 := he.sound _ _ h2
    have h3 := he.sound _ _ h3
    rw [he.ite, ← cat_F] at h1 h2 h3
    exact ⟨h1, h2, h3⟩
  · have h := x_pent
    simp only [pentCheck, List.all_eq_true, below_iff, Bool.or_eq_true, Bool.not_eq_true',
      List.contains_eq_mem, decide_eq_false_iff_not] at h
    intro a b c d ha hb hc hd f hf g hg e hee j hj i hii hm μ hμ ν hν ρ hρ γ hγ δ hδ κ hκ
    rw [hv] at ha hb hc hd
    have := he.sound _ _ ((h a ha b hb c hc d hd f hf g hg e hee j hj i hii).resolve_left
      (not_not.2 hm) μ hμ ν hν ρ hρ γ hγ δ hδ κ hκ)
    rw [he.sum, he.sum] at this
    simp only [List.map_map, List.map_flatMap, Function.comp_def, he.mul, ← cat_F] at this
    exact this
  · have h := x_hex
    simp only [hexCheck, List.all_eq_true, below_iff, Bool.and_eq_true] at h
    intro a b c d ha hb hc hd e hee g hg α hα β hβ μ hμ ν hν
    rw [hv] at ha hb hc hd
    have := he.sound _ _ (h a ha b hb c hc d hd e hee g hg α hα β hβ μ hμ ν hν).1
    rw [he.sum] at this
    simp only [List.map_map, List.map_flatMap, Function.comp_def, he.mul, ← cat_F, ← cat_R] at this
    exact this
  · have h := x_hex
    simp only [hexCheck, List.all_eq_true, below_iff, Bool.and_eq_true] at h
    intro a b c d ha hb hc hd e hee g hg α hα β hβ μ hμ ν hν
    rw [hv] at ha hb hc hd
    have := he.sound _ _ (h a ha b hb c hc d hd e hee g hg α hα β hβ μ hμ ν hν).2
    rw [he.sum] at this
    simp only [List.map_map, List.map_flatMap, Function.comp_def, he.mul, he.star, ← cat_F,
      ← cat_R] at this
    exact this
  · have h := x_c
    simp only [cCheck, List.all_eq_true, below_iff, Bool.and_eq_true] at h
    intro a b c d ha hb hc hd e hee f hf μ hμ ν hν κ hκ l hl
    rw [hv] at ha hb hc hd
    have := he.sound _ _ ((h a ha b hb c hc d hd).1 e hee f hf μ hμ ν hν κ hκ l hl)
    rwa [he.mul, he.mul, he.star, ← cat_C, ← cat_R, ← cat_R, ← cat_F] at this
  · have h := x_c
    simp only [cCheck, List.all_eq_true, below_iff, Bool.and_eq_true] at h
    intro a b c d ha hb hc hd x hx x' hx'
    rw [hv] at ha hb hc hd
    have := he.sound _ _ ((h a ha b hb c hc d hd).2 x hx x' hx')
    rw [he.sum, he.ite, List.map_map] at this
    rw [← this]
    congr 1
    apply List.map_congr_left
    intro y _
    simp only [Function.comp_def, he.mul, he.star, CatN.CM, cat_C]

/-- **C86**: the F- and C-symbols of allowed labels are arrays whose axes are the multiplicities, in
the documented order; computing them does not throw. -/
theorem C86_shapes (a b c d : ℤ) (ha : SU33.cat.valid a) (hb : SU33.cat.valid b)
    (hc : SU33.cat.valid c) (hd : SU33.cat.valid d) :
    (∀ e ∈ out b c, d ∈ out a e → ∀ f ∈ out a b, d ∈ out f c →
      ∃ s, computeF consts a b c d e f = some s ∧
        s.shape = (N b c e, N a e d, N a b f, N f c d) ∧
        s.data.length = N b c e * N a e d * N a b f * N f c d) ∧
    (∀ e ∈ out a b, d ∈ out e c → ∀ f ∈ out a c, d ∈ out f b →
      ∃ s, cSym consts a b c d e f = some s ∧
        s.shape = (N a b e, N e c d, N a c f, N f b d) ∧
        s.data.length = N a b e * N e c d * N a c f * N f b d) := by
  have hv := SU33.mem_secs
  have hcl := C86_ring.closed
  have h := x_shape
  simp only [shapeCheck, List.all_eq_true, Bool.and_eq_true, Bool.or_eq_true, Bool.not_eq_true',
    List.contains_eq_mem, Bool.and_eq_false_iff, decide_eq_false_iff_not] at h
  constructor
  · intro e hee hd1 f hf hd2
    have hev := (hv e).1 (hcl b c hb hc e hee)
    have hfv := (hv f).1 (hcl a b ha hb f hf)
    rw [hv] at ha hb hc hd
    have h1 := (h a ha b hb c hc d hd e hev f hfv).1.resolve_left (by
      simp only [hee, hd1, hf, hd2, not_true_eq_false, or_self, not_false_eq_true])
    rw [consts_eq, computeF_map X.eval X.val_neg]
    cases hs : computeF xconsts a b c d e f with
    | none => rw [hs] at h1; simp at h1
    | some s =>
      rw [hs] at h1
      simp only [Bool.and_eq_true, beq_iff_eq] at h1
      refine ⟨_, rfl, h1.1, ?_⟩
      show (s.data.map X.val).length = _
      rw [List.length_map]; exact h1.2
  · intro e hee hd1 f hf hd2
    have hev := (hv e).1 (hcl a b ha hb e hee)
    have hfv := (hv f).1 (hcl a c ha hc f hf)
    rw [hv] at ha hb hc hd
    have h1 := (h a ha b hb c hc d hd e hev f hfv).2.resolve_left (by
      simp only [hee, hd1, hf, hd2, not_true_eq_false, or_self, not_false_eq_true])
    rw [consts_eq, cSym_map X.eval X.val_neg]
    cases hs : cSym xconsts a b c d e f with
    | none => rw [hs] at h1; simp at h1
    | some s =>
      rw [hs] at h1
      simp only [Bool.and_eq_true, beq_iff_eq] at h1
      refine ⟨_, rfl, h1.1, ?_⟩
      show (s.data.map X.val).length = _
      rw [List.length_map]; exact h1.2

/-- **C86**: the R- and B-symbols are a vector and a square matrix of the size of the
multiplicity. -/
theorem C86_shapes_rb (a b c : ℤ) (ha : SU33.cat.valid a) (hb : SU33.cat.valid b)
    (hc : c ∈ out a b) :
    (rSym consts a b c).shape = (N a b c, 1, 1, 1) ∧
    (rSym consts a b c).data.length = N a b c ∧
    ∃ s, bSym consts a b c = some s ∧ s.shape = (N a b c, N a b c, 1, 1) ∧
      s.data.length = N a b c * N a b c := by
  have h := x_shape'
  simp only [shapeCheck', List.all_eq_true, Bool.and_eq_true, beq_iff_eq] at h
  rw [SU33.mem_secs] at ha hb
  obtain ⟨⟨h1, h2⟩, h3⟩ := h a ha b hb c hc
  rw [consts_eq, rSym_map X.eval X.val_neg, bSym_map X.eval X.val_neg]
  refine ⟨h1, ?_, ?_⟩
  · show ((rSym xconsts a b c).data.map X.val).length = _
    rw [List.length_map]; exact h2
  · cases hs : bSym xconsts a b c with
    | none => rw [hs] at h3; simp at h3
    | some s =>
      rw [hs] at h3
      simp only [Bool.and_eq_true, beq_iff_eq] at h3
      refine ⟨_, rfl, h3.1, ?_⟩
      show (s.data.map X.val).length = _
      rw [List.length_map]; exact h3.2

/-- **C86**: `d_a d_b = Σ_c N_ab^c d_c` with `d_8 = 3`. -/
theorem C86_qdim : SU33.cat.QdimCharacter SU33.qdim := by
  have hv := SU33.mem_secs
  constructor
  · intro a _; unfold SU33.qdim; split <;> norm_num
  · show SU33.qdim 0 = 1
    norm_num [SU33.qdim]
  · intro a b ha hb
    rw [hv] at ha hb
    have h : ∀ a ∈ secs, ∀ b ∈ secs, (if a = 1 then 3 else 1 : ℕ) * (if b = 1 then 3 else 1) =
        ((out a b).map fun c => N a b c * (if c = 1 then 3 else 1 : ℕ)).sum := by decide
    have hq : ∀ a : ℤ, SU33.qdim a = ((if a = 1 then 3 else 1 : ℕ) : ℝ) := by
      intro a; unfold SU33.qdim; split <;> norm_num
    have h1 := congrArg (fun n : ℕ => (n : ℝ)) (h a ha b hb)
    simp only [Nat.cast_mul, Nat.cast_list_sum, List.map_map, Function.comp_def] at h1
    simp only [hq]
    exact h1
  · intro a ha
    rw [hv] at ha
    have h : ∀ a ∈ secs, (SU33.dual a = 1 ↔ a = 1) := by decide
    show SU33.qdim (SU33.dual a) = SU33.qdim a
    unfold SU33.qdim
    simp only [h a ha]

theorem su33_xd (a : ℤ) : ((SU33.qdim a : ℝ) : ℂ) = X.val (xd a) := by
  unfold SU33.qdim xd
  split
  · simp [X.val]
  · rw [X.eval.one]; simp

theorem su33_xθ (a : ℤ) : X.val (xθ a) = if a = 1 then -1 else 1 := by
  unfold xθ
  split
  · rw [X.val_neg, X.eval.one]
  · rw [X.eval.one]

/-- **C86**: the twist computed by the library is `-1` for the eight and `1` otherwise. -/
theorem C86_twist (a : ℤ) (ha : SU33.cat.valid a) :
    SU33.twist a = if a = 1 then -1 else 1 := by
  rw [SU33.mem_secs] at ha
  have h : a = 0 ∨ a = 1 ∨ a = 2 ∨ a = 3 := by simpa [secs] using ha
  rcases h with rfl | rfl | rfl | rfl
  · simp [SU33.twist, out, fusionMap, rSym, FSym.sum, FSym.one1D, SU33.qdim]
  · simp [SU33.twist, out, fusionMap, rSym, FSym.sum, FSym.one1D, FSym.scale, SU33.qdim, consts]
    norm_num
  · simp [SU33.twist, out, fusionMap, rSym, FSym.sum, FSym.one1D, SU33.qdim]
  · simp [SU33.twist, out, fusionMap, rSym, FSym.sum, FSym.one1D, SU33.qdim]

/-- **C86**: these twists satisfy the ribbon (balancing) equation. -/
theorem C86_ribbon : SU33.cat.Ribbon SU33.qdim SU33.twist := by
  have hv := SU33.mem_secs
  have he := X.eval
  have hθ : ∀ a, SU33.cat.valid a → SU33.twist a = X.val (xθ a) := fun a ha => by
    rw [C86_twist a ha, su33_xθ]
  have h := x_ribbon
  simp only [ribbonCheck, Bool.and_eq_true, List.all_eq_true, below_iff] at h
  constructor
  · intro a ha
    have := he.sound _ _ (h.1 a ((hv a).1 ha)).1.1
    rw [he.mul, he.sum] at this
    rw [hθ a ha, su33_xd, this]
    simp only [List.map_map, List.map_flatMap, Function.comp_def, he.mul, cat_R, su33_xd]
    rfl
  · intro a ha
    have := he.sound _ _ (h.1 a ((hv a).1 ha)).1.2
    rw [he.mul, he.star, he.one] at this
    rw [hθ a ha, this]
  · intro a b c ha hb hc μ hμ
    have := he.sound _ _ (h.2 a ((hv a).1 ha) b ((hv b).1 hb) c hc μ hμ)
    rw [he.mul, he.mul, he.mul] at this
    rw [hθ a ha, hθ b hb, hθ c (C86_ring.closed a b ha hb c hc), cat_R, cat_R, this]
  · intro a ha
    have := he.sound _ _ (h.1 a ((hv a).1 ha)).2
    rw [hθ a ha, hθ _ (C86_ring.dual_valid a ha)]
    exact this

/-- **C86**: the B-symbols (from `F`) are unitary up to `d_c / d_a` and satisfy the snake equation
with the Frobenius-Schur indicator, which is also the one read off `F^{a ā a}_a`. -/
theorem C86_bending : SU33.cat.Bending SU33.qdim SU33.frobeniusSchur := by
  have hv := SU33.mem_secs
  have he := X.eval
  have h := x_b
  simp only [bCheck, Bool.and_eq_true, List.all_eq_true, below_iff] at h
  constructor
  · intro a b c ha hb hc μ hμ μ' hμ'
    have := he.sound _ _ (h.1 a ((hv a).1 ha) b ((hv b).1 hb) c hc μ hμ μ' hμ').1
    rw [he.mul, he.sum, apply_ite X.val, he.zero, List.map_map] at this
    simp only [su33_xd, cat_B]
    rw [← this]
    congr 2
    apply List.map_congr_left
    intro ν _
    simp only [Function.comp_def, he.mul, he.star]
  · intro a b c ha hb hc μ hμ μ' hμ'
    have := he.sound _ _ (h.1 a ((hv a).1 ha) b ((hv b).1 hb) c hc μ hμ μ' hμ').2
    rw [he.sum, he.ite, List.map_map] at this
    simp only [cat_B, SU33.frobeniusSchur, Int.cast_one]
    rw [← this]
    congr 1
    apply List.map_congr_left
    intro ν _
    simp only [Function.comp_def, he.mul]
    rfl
  · intro a ha
    have := he.sound _ _ (h.2 a ((hv a).1 ha))
    rw [he.mul, he.one] at this
    rw [su33_xd, cat_F, SU33.frobeniusSchur, Int.cast_one, ← this]
    rfl

/-- **C86**: the batch version `dual_sectors` agrees with `dual_sector`. -/
theorem C86_dual_batch (a : ℤ) (ha : SU33.cat.valid a) : dualBatch a = SU33.dual a := by
  rw [SU33.mem_secs] at ha
  exact (by decide : ∀ a ∈ secs, dualBatch a = SU33.dual a) a ha

/-- Non-vacuity: `8 ⊗ 8` contains `8` twice, the F-move `8⊗8⊗8 → 8` is a 7 × 7 matrix, and it is not
diagonal. -/
example : N 1 1 1 = 2 ∧ (SU33.cat.chL 1 1 1 1).length = 7 ∧
    SU33.cat.F 1 1 1 1 0 1 0 0 0 0 = ((1 / Real.sqrt 3 : ℝ) : ℂ) := by
  refine ⟨by decide, by decide, ?_⟩
  show entryOf (computeF consts 1 1 1 1 0 1) 0 0 0 0 = consts.rs3
  rfl

end Cyten.Props
