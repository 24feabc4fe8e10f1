import Verif.Props.AbelianDecomp

/-!
# C48: decompositions in terms of `compose` and `dagger`, and a concrete case
-/

namespace Cyten.Props
open Cyten.Abelian Cyten.Abelian.Spec Cyten.Tables Cyten.Tools Cyten.ListSum Cyten.Spaces
open Cyten.FusionTrees

variable {S K : Type} [LinearOrder S] {sym : Sym S} {c d l : ESpace S}

omit [LinearOrder S] in
theorem legsOK_one {e : ESpace S} (h : (e.sectors sym).length = e.mults.length) :
    LegsOK [toBLeg sym e] := by
  intro b hb
  rw [List.mem_singleton.1 hb]
  exact h

/-- The composition through one leg does not raise. -/
theorem compose_one_isSome [AddCommMonoid K] [Mul K] [Star K] (R : FusionRule S) (a b e : ESpace S)
    (h : (b.sectors sym).length < maxInt) (A B : Ents K) :
    ∃ U, compose R [toBLeg sym a] [toBLeg sym b] [toBLeg sym e] A B = some U := by
  unfold compose
  rw [if_neg (by simp), if_neg (by simp)]
  unfold composeWorker
  by_cases he : (A.isEmpty || B.isEmpty) = true
  · rw [if_pos he]; exact ⟨_, rfl⟩
  · rw [if_neg he]
    have : makeStridePy ([toBLeg sym b].map fun l => l.sectors.length) false =
        some (makeStride [(b.sectors sym).length] false) := by
      show (if _ then _ else _) = _
      rw [if_pos (by simpa using (show (toBLeg sym b).sectors.length < maxInt from h))]
      rfl
    rw [this]
    exact ⟨_, rfl⟩

section
variable [Semiring K] [StarRing K] (R : FusionRule S) {T : Ents K}
  (hc : ValidSpace sym c) (hd : ValidSpace sym d) (hinj : Function.Injective sym.dual)
  (hN : IsNewLeg sym c d l) (hT : IsHom R [toBLeg sym c] [toBLeg sym d] T)

include hc hd hinj hN hT

/-- **C48**: `compose(Q, R)` has the matrix elements of the tensor. -/
theorem C48_qr_compose (hmax : (l.sectors sym).length < maxInt) (f : Blk K → Blk K × Blk K)
    (hf : ∀ p ∈ T, ∀ m n, p.2.shape = [m, n] → Factors m n p.2 (f p.2).1 (f p.2).2 ∧
      ColsOrtho m (min m n) (f p.2).1) :
    ∃ U, compose R [toBLeg sym c] [toBLeg sym l] [toBLeg sym d] (qr sym c d l f T).1
        (qr sym c d l f T).2 = some U ∧
      ∀ x ∈ basis [c.mults], ∀ z ∈ basis [d.mults], entry U x z = entry T x z := by
  obtain ⟨h1, h2, h3, -⟩ := C48_qr R hc hd hinj hN hT f hf
  obtain ⟨U, hU⟩ := compose_one_isSome (sym := sym) R c l d hmax (qr sym c d l f T).1
    (qr sym c d l f T).2
  refine ⟨U, hU, fun x hx z hz => ?_⟩
  rw [C33_matrix_product R _ _ _ _ _ U (legsOK_one (sectors_length hN.valid)) h1 h2 hU x z hx hz,
    h3 x hx z hz]
  rfl

/-- **C48**: `compose(dagger(Q), Q)` has the matrix elements of the identity on the new leg. -/
theorem C48_qr_isometry (hmax : (c.sectors sym).length < maxInt) (f : Blk K → Blk K × Blk K)
    (hf : ∀ p ∈ T, ∀ m n, p.2.shape = [m, n] → Factors m n p.2 (f p.2).1 (f p.2).2 ∧
      ColsOrtho m (min m n) (f p.2).1) :
    ∃ U, compose R [toBLeg sym l] [toBLeg sym c] [toBLeg sym l]
        (Abelian.dagger (qr sym c d l f T).1) (qr sym c d l f T).1 = some U ∧
      ∀ y ∈ basis [l.mults], ∀ y' ∈ basis [l.mults],
        entry U y y' = entry (eyeData [l.mults] : Ents K) y y' := by
  obtain ⟨h1, -, -, h4⟩ := C48_qr R hc hd hinj hN hT f hf
  obtain ⟨U, hU⟩ := compose_one_isSome (sym := sym) R l c l hmax
    (Abelian.dagger (qr sym c d l f T).1) (qr sym c d l f T).1
  refine ⟨U, hU, fun y hy y' hy' => ?_⟩
  rw [C33_matrix_product R _ _ _ _ _ U (legsOK_one (sectors_length hc)) (C34_isHom_dagger R _ _ _ h1)
    h1 hU y y' hy hy']
  rw [show entry (eyeData [l.mults] : Ents K) y y' = if y = y' then 1 else 0 from
    C46_entry_eye [toBLeg sym l] y y' hy hy', ← h4 y hy y' hy']
  refine sum_congr _ fun x hx => ?_
  rw [C34_entry_dagger R _ _ _ h1 x y hx hy]

/-- **C48**: `compose(L, Q)` has the matrix elements of the tensor. -/
theorem C48_lq_compose (hmax : (l.sectors sym).length < maxInt) (f : Blk K → Blk K × Blk K)
    (hf : ∀ p ∈ T, ∀ m n, p.2.shape = [m, n] → Factors m n p.2 (f p.2).1 (f p.2).2 ∧
      RowsOrtho (min m n) n (f p.2).2) :
    ∃ U, compose R [toBLeg sym c] [toBLeg sym l] [toBLeg sym d] (lq sym c d l f T).1
        (lq sym c d l f T).2 = some U ∧
      ∀ x ∈ basis [c.mults], ∀ z ∈ basis [d.mults], entry U x z = entry T x z := by
  obtain ⟨h1, h2, h3, -⟩ := C48_lq R hc hd hinj hN hT f hf
  obtain ⟨U, hU⟩ := compose_one_isSome (sym := sym) R c l d hmax (lq sym c d l f T).1
    (lq sym c d l f T).2
  refine ⟨U, hU, fun x hx z hz => ?_⟩
  rw [C33_matrix_product R _ _ _ _ _ U (legsOK_one (sectors_length hN.valid)) h1 h2 hU x z hx hz,
    h3 x hx z hz]
  rfl

end

/-! ## A concrete case -/

section Example

attribute [local instance] starRingOfComm

/-- Charges 0 and 1 and 3 of multiplicities 1, 2 and 1. -/
def decC : ESpace ℤ := ⟨[0, 1, 3], [1, 2, 1], false, none⟩

/-- A dual leg: charges 1, 0 and -2 (in this order) of multiplicities 2, 3 and 1. -/
def decD : ESpace ℤ := ⟨[-1, 0, 2], [2, 3, 1], true, none⟩

/-- The fusion rule of integer charges. -/
def intRule : FusionRule ℤ := ⟨0, fun a b => [a + b], fun _ _ _ => 1, true⟩

/-- One block, for the charge 1; the charge 0, which the legs have in common, has no block. -/
def decT : Ents ℤ := [([1, 0], ⟨[2, 2], fun i => [[0, 2], [1, 0]].getD (i.getD 0 0) [] |>.getD (i.getD 1 0) 0⟩)]

/-- The QR decomposition of this block. -/
def decF (b : Blk ℤ) : Blk ℤ × Blk ℤ :=
  (⟨[2, 2], fun i => [[0, 1], [1, 0]].getD (i.getD 0 0) [] |>.getD (i.getD 1 0) 0⟩,
    ⟨[2, 2], fun i => [[1, 0], [0, 2]].getD (i.getD 0 0) [] |>.getD (i.getD 1 0) 0⟩)

theorem decT_isHom : IsHom intRule [toBLeg exU1 decC] [toBLeg exU1 decD] decT := by
  refine ⟨Example.sane_of_saneB (by rfl), ?_⟩
  intro p hp
  rw [List.mem_singleton.1 hp]
  rfl

theorem dec_factors : ∀ p ∈ decT, ∀ m n, p.2.shape = [m, n] →
    Factors m n p.2 (decF p.2).1 (decF p.2).2 ∧ ColsOrtho m (min m n) (decF p.2).1 := by
  intro p hp m n h
  rw [List.mem_singleton.1 hp] at h ⊢
  injection h with h1 h2
  injection h2 with h2 _
  subst h1 h2
  refine ⟨⟨rfl, rfl, ?_⟩, ?_⟩
  · decide
  · unfold ColsOrtho
    decide

theorem dec_valid : ValidSpace exU1 decC ∧ ValidSpace exU1 decD := by
  refine ⟨⟨rfl, by decide, fun p hp => by cases hp⟩, ⟨rfl, by decide, fun p hp => by cases hp⟩⟩

/-- The new leg (dual) and the rows and shapes of the factors: `Q` has a block for each of the two
common charges, `R` only for the charge 1. -/
theorem C48_example :
    newLeg exU1 decC decD true = some ⟨[-1, 0], [2, 1], true, none⟩ ∧
    (qr exU1 decC decD ⟨[-1, 0], [2, 1], true, none⟩ decF decT).1.map (fun p => (p.1, p.2.shape)) =
      [([1, 0], [2, 2]), ([0, 1], [1, 1])] ∧
    (qr exU1 decC decD ⟨[-1, 0], [2, 1], true, none⟩ decF decT).2.map (fun p => (p.1, p.2.shape)) =
      [([0, 0], [2, 2])] ∧
    ∃ U, compose intRule [toBLeg exU1 decC] [toBLeg exU1 ⟨[-1, 0], [2, 1], true, none⟩]
        [toBLeg exU1 decD] (qr exU1 decC decD ⟨[-1, 0], [2, 1], true, none⟩ decF decT).1
        (qr exU1 decC decD ⟨[-1, 0], [2, 1], true, none⟩ decF decT).2 = some U ∧
      ∀ x ∈ basis [decC.mults], ∀ z ∈ basis [decD.mults], entry U x z = entry decT x z := by
  have hn : newLeg exU1 decC decD true = some ⟨[-1, 0], [2, 1], true, none⟩ := by decide +kernel
  refine ⟨hn, by decide +kernel, by decide +kernel, ?_⟩
  have hinv : Function.Involutive exU1.dual := neg_neg
  obtain ⟨l, h1, -, h3, -⟩ := C48_new_leg exU1_ok hinv dec_valid.1 dec_valid.2 (by decide) (by decide)
    true
  rw [hn] at h1
  injection h1 with h1
  subst h1
  exact C48_qr_compose intRule dec_valid.1 dec_valid.2 hinv.injective h3 decT_isHom
    (by decide) decF dec_factors

end Example

end Cyten.Props
