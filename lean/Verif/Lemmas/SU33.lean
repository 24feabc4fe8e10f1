import Verif.Lemmas.SU33Check

namespace Cyten
open Spec

namespace FSym
variable {K : Type} [Zero K] [One K] [Add K] [Mul K] [Star K] {φ : K → ℂ} {eqB : K → K → Bool}

/-- Apply a function to all entries. -/
def mapE {K L : Type} (φ : K → L) (s : FSym K) : FSym L :=
  ⟨s.rank, s.s0, s.s1, s.s2, s.s3, s.data.map φ⟩

theorem mapE_get (he : Cat.Eval φ eqB) (s : FSym K) (i j k l : ℕ) :
    (s.mapE φ).get i j k l = φ (s.get i j k l) := by
  unfold get mapE
  simp only
  split
  · rw [List.getD_eq_getElem?_getD, List.getD_eq_getElem?_getD, List.getElem?_map]
    cases s.data[(((i * s.s1 + j) * s.s2 + k) * s.s3 + l)]? <;> simp [he.zero]
  · exact he.zero.symm

theorem mapE_build {K L : Type} (φ : K → L) (r a b c d : ℕ) (f : ℕ → ℕ → ℕ → ℕ → K) :
    (build r a b c d f).mapE φ = build r a b c d fun i j k l => φ (f i j k l) := by
  simp [build, mapE, List.map_flatMap, Function.comp_def]

theorem mapE_reshaped {K L : Type} (φ : K → L) (s : FSym K) (r a b c d : ℕ) :
    (s.mapE φ).reshaped r a b c d = (s.reshaped r a b c d).map (mapE φ) := by
  unfold reshaped
  by_cases h : a * b * c * d = s.s0 * s.s1 * s.s2 * s.s3
  · rw [if_pos h, if_pos (show a * b * c * d = (s.mapE φ).s0 * (s.mapE φ).s1 * (s.mapE φ).s2 *
      (s.mapE φ).s3 from h)]; rfl
  · rw [if_neg h, if_neg (show ¬ a * b * c * d = (s.mapE φ).s0 * (s.mapE φ).s1 * (s.mapE φ).s2 *
      (s.mapE φ).s3 from h)]; rfl

theorem mapE_conj (he : Cat.Eval φ eqB) (s : FSym K) : (s.mapE φ).conj = s.conj.mapE φ := by
  simp [conj, mapE, Function.comp_def, he.star]

theorem mapE_scale (he : Cat.Eval φ eqB) (s : FSym K) (c : K) :
    (s.mapE φ).scale (φ c) = (s.scale c).mapE φ := by
  simp [scale, mapE, Function.comp_def, he.mul]

theorem mapE_transpose2 (he : Cat.Eval φ eqB) (s : FSym K) :
    (s.mapE φ).transpose2 = s.transpose2.mapE φ := by
  unfold transpose2
  rw [mapE_build]
  simp only [mapE_get he]
  rfl

theorem mapE_slice2d (he : Cat.Eval φ eqB) (s : FSym K) (i j : ℕ) :
    (s.mapE φ).slice2d i j = (s.slice2d i j).map (mapE φ) := by
  unfold slice2d
  simp only [mapE_get he]
  by_cases h : s.rank ≠ 4
  · rw [if_pos h, if_pos (show (s.mapE φ).rank ≠ 4 from h)]; rfl
  · rw [if_neg h, if_neg (show ¬ (s.mapE φ).rank ≠ 4 from h)]
    simp only [Option.map_some, mapE_build]
    rfl

theorem mapE_multiply (he : Cat.Eval φ eqB) (s t : FSym K) :
    (s.mapE φ).multiply (t.mapE φ) = (s.multiply t).map (mapE φ) := by
  unfold multiply
  by_cases h : s.rank ≠ t.rank
  · rw [if_pos h, if_pos (show (s.mapE φ).rank ≠ (t.mapE φ).rank from h)]; rfl
  · rw [if_neg h, if_neg (show ¬ (s.mapE φ).rank ≠ (t.mapE φ).rank from h)]
    simp only [mapE_get he]
    show ((bcast s.s0 t.s0).bind fun n0 => (bcast s.s1 t.s1).bind fun n1 =>
      (bcast s.s2 t.s2).bind fun n2 => (bcast s.s3 t.s3).bind fun n3 => some _) =
      ((bcast s.s0 t.s0).bind fun n0 => (bcast s.s1 t.s1).bind fun n1 =>
      (bcast s.s2 t.s2).bind fun n2 => (bcast s.s3 t.s3).bind fun n3 => some _).map (mapE φ)
    cases bcast s.s0 t.s0 <;> [rfl; skip]
    cases bcast s.s1 t.s1 <;> [rfl; skip]
    cases bcast s.s2 t.s2 <;> [rfl; skip]
    cases bcast s.s3 t.s3 <;> [rfl; skip]
    simp only [Option.bind_some, Option.map_some, mapE_build, he.mul]
    rfl

theorem mapE_one4D (he : Cat.Eval φ eqB) : (one4D : FSym K).mapE φ = one4D := by
  simp [one4D, mapE, he.one]
theorem mapE_one1D (he : Cat.Eval φ eqB) : (one1D : FSym K).mapE φ = one1D := by
  simp [one1D, mapE, he.one]

end FSym

namespace SU33
variable {K : Type} [Zero K] [One K] [Neg K] [Add K] [Mul K] [Star K] {φ : K → ℂ}
  {eqB : K → K → Bool}

/-- Apply a function to all constants. -/
def Consts.mapC {K L : Type} (φ : K → L) (q : Consts K) : Consts L :=
  ⟨φ q.third, φ q.half, φ q.s32, φ q.rs3, φ q.rs12, φ q.im, φ q.s3⟩

theorem f4At_map (he : Cat.Eval φ eqB) (hn : ∀ x, φ (-x) = - φ x) (q : Consts K) (i j : ℕ) :
    f4At (q.mapC φ) i j = φ (f4At q i j) := by
  have h : f4Sets (q.mapC φ) = (f4Sets q).map fun s => (s.1, s.2.1, φ s.2.2) := by
    simp [f4Sets, Consts.mapC, hn]
  have hf : ∀ (l : List (ℕ × ℕ × K)) (x : K),
      (l.map fun s => (s.1, s.2.1, φ s.2.2)).foldl
        (fun acc s => if s.1 = i ∧ s.2.1 = j then s.2.2 else acc) (φ x) =
      φ (l.foldl (fun acc s => if s.1 = i ∧ s.2.1 = j then s.2.2 else acc) x) := by
    intro l
    induction l with
    | nil => intro x; rfl
    | cons s l ih =>
      intro x
      rw [List.map_cons, List.foldl_cons, List.foldl_cons, ← ih]
      congr 1
      split <;> rfl
  unfold f4At
  rw [h, ← he.zero, hf]

theorem f1_map (he : Cat.Eval φ eqB) : (f1 : FSym K).mapE φ = f1 := by
  simp [f1, FSym.mapE, he.one, he.zero]
theorem f2_map (hn : ∀ x, φ (-x) = - φ x) (q : Consts K) : f2 (q.mapC φ) = (f2 q).mapE φ := by
  simp [f2, FSym.mapE, hn, Consts.mapC]
theorem f3_map (he : Cat.Eval φ eqB) (hn : ∀ x, φ (-x) = - φ x) (q : Consts K) :
    f3 (q.mapC φ) = (f3 q).mapE φ := by
  unfold f3; rw [f2_map hn, FSym.mapE_transpose2 he]
theorem f4Block_map (he : Cat.Eval φ eqB) (hn : ∀ x, φ (-x) = - φ x) (q : Consts K)
    (r c : ℕ × ℕ) : f4Block (q.mapC φ) r c = (f4Block q r c).mapE φ := by
  unfold f4Block; rw [FSym.mapE_build]; simp only [f4At_map he hn]

theorem neg4_map (he : Cat.Eval φ eqB) (hn : ∀ x, φ (-x) = - φ x) :
    (FSym.one4D.scale (-1) : FSym ℂ) = (FSym.one4D.scale (-1) : FSym K).mapE φ := by
  rw [← FSym.mapE_scale he, hn, he.one, FSym.mapE_one4D he]

theorem computeF_map (he : Cat.Eval φ eqB) (hn : ∀ x, φ (-x) = - φ x) (q : Consts K)
    (a b c d e f : ℤ) :
    computeF (q.mapC φ) a b c d e f = (computeF q a b c d e f).map (FSym.mapE φ) := by
  have h1 : (FSym.one4D : FSym ℂ) = (FSym.one4D : FSym K).mapE φ := (FSym.mapE_one4D he).symm
  have h2 := neg4_map he hn
  have h3 : (f1 : FSym ℂ) = (f1 : FSym K).mapE φ := (f1_map he).symm
  unfold computeF
  simp only [f4Block_map he hn, f2_map hn, f3_map he hn]
  rw [h2, h1, h3]
  simp only [FSym.mapE_reshaped, apply_ite (Option.map (FSym.mapE φ)), Option.map_some]

theorem rSym_map (he : Cat.Eval φ eqB) (hn : ∀ x, φ (-x) = - φ x) (q : Consts K) (a b c : ℤ) :
    rSym (q.mapC φ) a b c = (rSym q a b c).mapE φ := by
  unfold rSym
  have h1 : (FSym.one1D.scale (-1) : FSym ℂ) = (FSym.one1D.scale (-1) : FSym K).mapE φ := by
    rw [← FSym.mapE_scale he, hn, he.one, FSym.mapE_one1D he]
  split_ifs
  · simp [FSym.mapE, Consts.mapC, hn]
  · exact h1
  · exact (FSym.mapE_one1D he).symm

theorem cSym_map (he : Cat.Eval φ eqB) (hn : ∀ x, φ (-x) = - φ x) (q : Consts K)
    (a b c d e f : ℤ) :
    cSym (q.mapC φ) a b c d e f = (cSym q a b c d e f).map (FSym.mapE φ) := by
  unfold cSym
  split_ifs
  · unfold defaultC
    simp only [rSym_map he hn, computeF_map he hn, FSym.mapE_conj he]
    cases computeF q c a b d e f with
    | none => rfl
    | some F =>
      generalize rSym q e c d = R1
      generalize (rSym q a c f).conj = R2
      show (((R1.mapE φ).reshaped 4 1 (R1.s0 * R1.s1 * R1.s2 * R1.s3) 1 1).bind fun x =>
        ((R2.mapE φ).reshaped 4 1 1 (R2.s0 * R2.s1 * R2.s2 * R2.s3) 1).bind fun y =>
        (x.multiply (F.mapE φ)).bind fun z => z.multiply y) =
        ((R1.reshaped 4 1 (R1.s0 * R1.s1 * R1.s2 * R1.s3) 1 1).bind fun x =>
        (R2.reshaped 4 1 1 (R2.s0 * R2.s1 * R2.s2 * R2.s3) 1).bind fun y =>
        (x.multiply F).bind fun z => z.multiply y).map (FSym.mapE φ)
      rw [FSym.mapE_reshaped, FSym.mapE_reshaped]
      cases R1.reshaped 4 1 (R1.s0 * R1.s1 * R1.s2 * R1.s3) 1 1 with
      | none => rfl
      | some x =>
        cases R2.reshaped 4 1 1 (R2.s0 * R2.s1 * R2.s2 * R2.s3) 1 with
        | none => rfl
        | some y =>
          simp only [Option.map_some, Option.bind_some, FSym.mapE_multiply he]
          cases x.multiply F with
          | none => rfl
          | some z => simp only [Option.map_some, Option.bind_some, FSym.mapE_multiply he]
  · simp [FSym.mapE_one4D he]

theorem bSym_map (he : Cat.Eval φ eqB) (hn : ∀ x, φ (-x) = - φ x) (q : Consts K) (a b c : ℤ) :
    bSym (q.mapC φ) a b c = (bSym q a b c).map (FSym.mapE φ) := by
  unfold bSym
  rw [computeF_map he hn]
  cases computeF q a b (dual b) a 0 c with
  | none => rfl
  | some F =>
    show ((F.mapE φ).conj.slice2d 0 0).bind (fun M =>
        some (M.scale (if b = 1 then (q.mapC φ).s3 else 1))) =
      ((F.conj.slice2d 0 0).bind fun M => some (M.scale (if b = 1 then q.s3 else 1))).map
        (FSym.mapE φ)
    rw [FSym.mapE_conj he, FSym.mapE_slice2d he]
    cases F.conj.slice2d 0 0 with
    | none => rfl
    | some M =>
      simp only [Option.map_some, Option.bind_some, ← FSym.mapE_scale he]
      congr 2
      split
      · rfl
      · exact he.one.symm

theorem entryOf_map (he : Cat.Eval φ eqB) (s : Option (FSym K)) (i j k l : ℕ) :
    entryOf (s.map (FSym.mapE φ)) i j k l = φ (entryOf s i j k l) := by
  cases s with
  | none => exact he.zero.symm
  | some s => exact FSym.mapE_get he s i j k l

theorem consts_eq : consts = xconsts.mapC X.val := by
  have h3 : (0:ℝ) < Real.sqrt 3 := Real.sqrt_pos.2 (by norm_num)
  have hs : Real.sqrt 3 * Real.sqrt 3 = 3 := Real.mul_self_sqrt (by norm_num)
  have h12 : Real.sqrt 12 = 2 * Real.sqrt 3 := by
    rw [show (12:ℝ) = 2 ^ 2 * 3 by norm_num, Real.sqrt_mul (by positivity),
      Real.sqrt_sq (by norm_num)]
  have hv : ∀ (a b : ℤ) (k : ℕ) (r : ℝ), r = (a + b * Real.sqrt 3) / 6 ^ k →
      (r : ℂ) = X.val ⟨a, b, 0, 0, k⟩ := by
    intro a b k r h
    rw [h, X.val]; push_cast; simp
  unfold consts Consts.mapC xconsts
  congr 1
  · exact hv _ _ _ _ (by norm_num)
  · exact hv _ _ _ _ (by norm_num)
  · exact hv _ _ _ _ (by push_cast; ring)
  · exact hv _ _ _ _ (by push_cast; field_simp; nlinarith)
  · exact hv _ _ _ _ (by rw [h12]; push_cast; field_simp; nlinarith)
  · simp [X.val]
  · exact hv _ _ _ _ (by push_cast; ring)

theorem cat_F (a b c d e f : ℤ) (i j k l : ℕ) :
    cat.F a b c d e f i j k l = X.val (xcat.F a b c d e f i j k l) := by
  show entryOf (computeF consts a b c d e f) i j k l = _
  rw [consts_eq, computeF_map X.eval X.val_neg, entryOf_map X.eval]; rfl

theorem cat_R (a b c : ℤ) (i : ℕ) : cat.R a b c i = X.val (xcat.R a b c i) := by
  show (rSym consts a b c).get i 0 0 0 = _
  rw [consts_eq, rSym_map X.eval X.val_neg, FSym.mapE_get X.eval]; rfl

theorem cat_C (a b c d e f : ℤ) (i j k l : ℕ) :
    cat.C a b c d e f i j k l = X.val (xcat.C a b c d e f i j k l) := by
  show entryOf (cSym consts a b c d e f) i j k l = _
  rw [consts_eq, cSym_map X.eval X.val_neg, entryOf_map X.eval]; rfl

theorem cat_B (a b c : ℤ) (i j : ℕ) : cat.B a b c i j = X.val (xcat.B a b c i j) := by
  show entryOf (bSym consts a b c) i j 0 0 = _
  rw [consts_eq, bSym_map X.eval X.val_neg, entryOf_map X.eval]; rfl

theorem mem_secs (a : ℤ) : cat.valid a ↔ a ∈ secs := by
  show (0 ≤ a ∧ a < 4) ↔ _
  simp [secs]; omega

end SU33
end Cyten
