import Verif.Model.SU33
import Verif.Lemmas.CatCheck
import Mathlib.Tactic.Ring
import Mathlib.Tactic.LinearCombination
import Mathlib.Tactic.FieldSimp

/-!
The SU(3)_3 tables over exact numbers `(a + b√3 + c i + d i√3) / 6^k` and the category equations
evaluated there by the kernel.
-/

namespace Cyten.SU33
open Spec

/-- Exact numbers. -/
structure X where
  a : Int
  b : Int
  c : Int
  d : Int
  k : Nat

namespace X
instance : Zero X := ⟨⟨0, 0, 0, 0, 0⟩⟩
instance : One X := ⟨⟨1, 0, 0, 0, 0⟩⟩
instance : Neg X := ⟨fun x => ⟨-x.a, -x.b, -x.c, -x.d, x.k⟩⟩
instance : Add X := ⟨fun x y =>
  if x.k = y.k then ⟨x.a + y.a, x.b + y.b, x.c + y.c, x.d + y.d, x.k⟩ else
  let p : Int := 6 ^ y.k
  let r : Int := 6 ^ x.k
  ⟨p * x.a + r * y.a, p * x.b + r * y.b, p * x.c + r * y.c, p * x.d + r * y.d, x.k + y.k⟩⟩
instance : Mul X := ⟨fun x y =>
  ⟨x.a * y.a + 3 * (x.b * y.b) - x.c * y.c - 3 * (x.d * y.d),
   x.a * y.b + x.b * y.a - x.c * y.d - x.d * y.c,
   x.a * y.c + x.c * y.a + 3 * (x.b * y.d + x.d * y.b),
   x.a * y.d + x.d * y.a + x.b * y.c + x.c * y.b, x.k + y.k⟩⟩
instance : Star X := ⟨fun x => ⟨x.a, x.b, -x.c, -x.d, x.k⟩⟩

def eqB (x y : X) : Bool :=
  let z := x + -y
  z.a == 0 && z.b == 0 && z.c == 0 && z.d == 0

noncomputable def val (x : X) : ℂ :=
  (x.a + x.b * ((Real.sqrt 3 : ℝ) : ℂ) + x.c * Complex.I +
    x.d * (Complex.I * ((Real.sqrt 3 : ℝ) : ℂ))) / 6 ^ x.k

theorem s_sq : ((Real.sqrt 3 : ℝ) : ℂ) * ((Real.sqrt 3 : ℝ) : ℂ) = 3 := by
  rw [← Complex.ofReal_mul, Real.mul_self_sqrt (by norm_num)]; norm_num

theorem val_neg (x : X) : val (-x) = - val x := by
  show (((-x.a : ℤ) : ℂ) + ((-x.b : ℤ) : ℂ) * _ + ((-x.c : ℤ) : ℂ) * _ + ((-x.d : ℤ) : ℂ) * _) /
    6 ^ x.k = _
  rw [val]; push_cast; ring

theorem val_add (x y : X) : val (x + y) = val x + val y := by
  have hd : x + y = if x.k = y.k then ⟨x.a + y.a, x.b + y.b, x.c + y.c, x.d + y.d, x.k⟩ else
    ⟨6 ^ y.k * x.a + 6 ^ x.k * y.a, 6 ^ y.k * x.b + 6 ^ x.k * y.b, 6 ^ y.k * x.c + 6 ^ x.k * y.c,
      6 ^ y.k * x.d + 6 ^ x.k * y.d, x.k + y.k⟩ := rfl
  rw [hd]
  by_cases h : x.k = y.k
  · rw [if_pos h]
    simp only [val, ← h]
    push_cast
    ring
  · rw [if_neg h]
    simp only [val, pow_add]
    push_cast
    have h1 : (6 : ℂ) ^ x.k ≠ 0 := pow_ne_zero _ (by norm_num)
    have h2 : (6 : ℂ) ^ y.k ≠ 0 := pow_ne_zero _ (by norm_num)
    field_simp
    ring

theorem val_mul (x y : X) : val (x * y) = val x * val y := by
  show (((x.a * y.a + 3 * (x.b * y.b) - x.c * y.c - 3 * (x.d * y.d) : ℤ) : ℂ) +
   ((x.a * y.b + x.b * y.a - x.c * y.d - x.d * y.c : ℤ) : ℂ) * _ +
   ((x.a * y.c + x.c * y.a + 3 * (x.b * y.d + x.d * y.b) : ℤ) : ℂ) * _ +
   ((x.a * y.d + x.d * y.a + x.b * y.c + x.c * y.b : ℤ) : ℂ) * _) / 6 ^ (x.k + y.k) = _
  have h1 : (6 : ℂ) ^ x.k ≠ 0 := pow_ne_zero _ (by norm_num)
  have h2 : (6 : ℂ) ^ y.k ≠ 0 := pow_ne_zero _ (by norm_num)
  simp only [val, pow_add]
  rw [div_mul_div_comm]
  congr 1
  push_cast
  generalize hs : ((Real.sqrt 3 : ℝ) : ℂ) = s
  have hss : s * s = 3 := hs ▸ s_sq
  have hi : Complex.I * Complex.I = -1 := Complex.I_mul_I
  generalize Complex.I = i at hi
  linear_combination (-(x.b * y.b : ℂ) - (x.b * y.d + x.d * y.b) * i - x.d * y.d * (i * i)) * hss +
    (-(x.c * y.c : ℂ) - (x.c * y.d + x.d * y.c) * s - 3 * x.d * y.d) * hi

theorem val_star (x : X) : val (star x) = star (val x) := by
  show ((x.a : ℂ) + x.b * _ + ((-x.c : ℤ) : ℂ) * _ + ((-x.d : ℤ) : ℂ) * _) / 6 ^ x.k = _
  simp only [val, Complex.star_def, map_div₀, map_add, map_mul, map_pow, Complex.conj_I,
    Complex.conj_ofReal]
  have h6 : (starRingEnd ℂ) (6 : ℂ) = 6 := by
    have := Complex.conj_ofReal 6
    exact_mod_cast this
  have hz : ∀ n : ℤ, (starRingEnd ℂ) (n : ℂ) = n := fun n => by simp
  rw [h6, hz, hz, hz, hz]
  push_cast
  ring

theorem eval : Cat.Eval val eqB where
  zero := by show (((0 : ℤ) : ℂ) + ((0 : ℤ) : ℂ) * _ + ((0 : ℤ) : ℂ) * _ + ((0 : ℤ) : ℂ) * _) / 6 ^ 0 = _; simp
  one := by show (((1 : ℤ) : ℂ) + ((0 : ℤ) : ℂ) * _ + ((0 : ℤ) : ℂ) * _ + ((0 : ℤ) : ℂ) * _) / 6 ^ 0 = _; simp
  add := val_add
  mul := val_mul
  star := val_star
  sound x y h := by
    simp only [eqB, Bool.and_eq_true, beq_iff_eq] at h
    obtain ⟨⟨⟨h1, h2⟩, h3⟩, h4⟩ := h
    have h5 : val (x + -y) = 0 := by rw [val, h1, h2, h3, h4]; simp
    rw [val_add, val_neg] at h5
    linear_combination h5

end X

/-- The constants as exact numbers. -/
def xconsts : Consts X where
  third := ⟨2, 0, 0, 0, 1⟩
  half := ⟨3, 0, 0, 0, 1⟩
  s32 := ⟨0, 3, 0, 0, 1⟩
  rs3 := ⟨0, 2, 0, 0, 1⟩
  rs12 := ⟨0, 1, 0, 0, 1⟩
  im := ⟨0, 0, 1, 0, 0⟩
  s3 := ⟨0, 1, 0, 0, 0⟩

def secs : List ℤ := [0, 1, 2, 3]
def xcat : CatN ℤ X := catOf xconsts

open X

/-- `p` holds for all numbers below `n`. -/
def below (n : ℕ) (p : ℕ → Bool) : Bool := (List.range n).all p

theorem below_iff (n : ℕ) (p : ℕ → Bool) : below n p = true ↔ ∀ i < n, p i = true := by
  simp [below, List.all_eq_true]

def pentCheck (a : ℤ) : Bool :=
  secs.all fun b => secs.all fun c => secs.all fun d =>
    (out a b).all fun f => (out f c).all fun g => (out g d).all fun e =>
    (out c d).all fun j => (out b j).all fun i => !(out a i).contains e ||
    below (N a b f) fun μ => below (N f c g) fun ν => below (N g d e) fun ρ =>
    below (N c d j) fun γ => below (N b j i) fun δ => below (N a i e) fun κ =>
    eqB ((List.range (N f j e)).map fun σ =>
        xcat.F f c d e j g γ σ ν ρ * xcat.F a b j e i f δ κ μ σ).sum
      ((out b c).flatMap fun h => (List.range (N b c h)).flatMap fun σ =>
        (List.range (N a h g)).flatMap fun l => (List.range (N h d i)).map fun ω =>
        xcat.F a b c g h f σ l μ ν * xcat.F a h d e i g ω κ l ρ * xcat.F b c d i j h γ δ σ ω).sum

theorem x_pent : ∀ a ∈ secs, pentCheck a = true := by decide +kernel

def rCheck : Bool :=
  (secs.all fun a => secs.all fun b => (out a b).all fun c => below (N a b c) fun μ =>
    eqB (xcat.R a b c μ * star (xcat.R a b c μ)) 1) &&
  secs.all fun a => eqB (xcat.R a 0 a 0) 1 && eqB (xcat.R 0 a a 0) 1

theorem x_r : rCheck = true := by decide +kernel

def fCheck (a : ℤ) : Bool :=
  secs.all fun b => secs.all fun c => secs.all fun d =>
    ((xcat.chR a b c d).all fun x => (xcat.chR a b c d).all fun x' =>
      eqB ((xcat.chL a b c d).map fun y => xcat.FM a b c d x y * star (xcat.FM a b c d x' y)).sum
        (if x = x' then 1 else 0)) &&
    ((xcat.chL a b c d).all fun y => (xcat.chL a b c d).all fun y' =>
      eqB ((xcat.chR a b c d).map fun x => star (xcat.FM a b c d x y) * xcat.FM a b c d x y').sum
        (if y = y' then 1 else 0))

theorem x_f : ∀ a ∈ secs, fCheck a = true := by decide +kernel

def triCheck : Bool :=
  secs.all fun b => secs.all fun c => (out b c).all fun d =>
    below (N b c d) fun μ => below (N b c d) fun ν =>
      eqB (xcat.F 0 b c d d b μ 0 0 ν) (if μ = ν then 1 else 0) &&
      eqB (xcat.F b 0 c d c b 0 μ 0 ν) (if μ = ν then 1 else 0) &&
      eqB (xcat.F b c 0 d c d 0 μ ν 0) (if μ = ν then 1 else 0)

theorem x_tri : triCheck = true := by decide +kernel

def hexCheck (a : ℤ) : Bool :=
  secs.all fun b => secs.all fun c => secs.all fun d =>
    (out c a).all fun e => (out c b).all fun g =>
    below (N c a e) fun α => below (N e b d) fun β => below (N c b g) fun μ =>
    below (N a g d) fun ν =>
    eqB (xcat.R c a e α * xcat.F a c b d g e μ ν α β * xcat.R c b g μ)
      ((out a b).flatMap fun f => (List.range (N a b f)).flatMap fun δ =>
        (List.range (N c f d)).map fun σ =>
        xcat.F c a b d f e δ σ α β * xcat.R c f d σ * xcat.F a b c d g f μ ν δ σ).sum &&
    eqB (star (xcat.R a c e α) * xcat.F a c b d g e μ ν α β * star (xcat.R b c g μ))
      ((out a b).flatMap fun f => (List.range (N a b f)).flatMap fun δ =>
        (List.range (N c f d)).map fun σ =>
        xcat.F c a b d f e δ σ α β * star (xcat.R f c d σ) * xcat.F a b c d g f μ ν δ σ).sum

theorem x_hex : ∀ a ∈ secs, hexCheck a = true := by decide +kernel

def cCheck (a : ℤ) : Bool :=
  secs.all fun b => secs.all fun c => secs.all fun d =>
    ((out a b).all fun e => (out a c).all fun f =>
      below (N a b e) fun μ => below (N e c d) fun ν => below (N a c f) fun κ =>
      below (N f b d) fun l =>
        eqB (xcat.C a b c d e f μ ν κ l)
          (xcat.R e c d ν * xcat.F c a b d e f μ ν κ l * star (xcat.R a c f κ))) &&
    ((xcat.chL a b c d).all fun x => (xcat.chL a b c d).all fun x' =>
      eqB ((xcat.chL a c b d).map fun y => xcat.CM a b c d x y * star (xcat.CM a b c d x' y)).sum
        (if x = x' then 1 else 0))

theorem x_c : ∀ a ∈ secs, cCheck a = true := by decide +kernel

/-- `qdim` as an exact number. -/
def xd (a : ℤ) : X := if a = 1 then ⟨3, 0, 0, 0, 0⟩ else 1
/-- The twists. -/
def xθ (a : ℤ) : X := if a = 1 then -1 else 1

def ribbonCheck : Bool :=
  (secs.all fun a =>
    eqB (xd a * xθ a) (((out a a).flatMap fun b =>
      (List.range (N a a b)).map fun μ => xd b * xcat.R a a b μ).sum) &&
    eqB (xθ a * star (xθ a)) 1 && eqB (xθ (dual a)) (xθ a)) &&
  secs.all fun a => secs.all fun b => (out a b).all fun c => below (N a b c) fun μ =>
    eqB (xcat.R b a c μ * xcat.R a b c μ * (xθ a * xθ b)) (xθ c)

theorem x_ribbon : ribbonCheck = true := by decide +kernel

def bCheck : Bool :=
  (secs.all fun a => secs.all fun b => (out a b).all fun c =>
    below (N a b c) fun μ => below (N a b c) fun μ' =>
      eqB (xd a * ((List.range (N a b c)).map fun ν =>
        xcat.B a b c μ ν * star (xcat.B a b c μ' ν)).sum) (if μ = μ' then xd c else 0) &&
      eqB (((List.range (N a b c)).map fun ν => xcat.B a b c μ ν * xcat.B c (dual b) a μ' ν).sum)
        (if μ = μ' then 1 else 0)) &&
  secs.all fun a => eqB (xd a * xcat.F a (dual a) a a 0 0 0 0 0 0) 1

theorem x_b : bCheck = true := by decide +kernel

/-- Shapes: none of the computations throws, and the arrays have the documented shapes. -/
def shapeCheck : Bool :=
  secs.all fun a => secs.all fun b => secs.all fun c => secs.all fun d => secs.all fun e =>
    secs.all fun f =>
      (!((out b c).contains e && (out a e).contains d && (out a b).contains f &&
          (out f c).contains d) ||
        match computeF xconsts a b c d e f with
        | none => false
        | some s => s.shape == (N b c e, N a e d, N a b f, N f c d) &&
            s.data.length == N b c e * N a e d * N a b f * N f c d) &&
      (!((out a b).contains e && (out e c).contains d && (out a c).contains f &&
          (out f b).contains d) ||
        match cSym xconsts a b c d e f with
        | none => false
        | some s => s.shape == (N a b e, N e c d, N a c f, N f b d) &&
            s.data.length == N a b e * N e c d * N a c f * N f b d)

theorem x_shape : shapeCheck = true := by decide +kernel

def shapeCheck' : Bool :=
  secs.all fun a => secs.all fun b => (out a b).all fun c =>
    (rSym xconsts a b c).shape == (N a b c, 1, 1, 1) &&
    (rSym xconsts a b c).data.length == N a b c &&
    match bSym xconsts a b c with
    | none => false
    | some s => s.shape == (N a b c, N a b c, 1, 1) && s.data.length == N a b c * N a b c

theorem x_shape' : shapeCheck' = true := by decide +kernel

end Cyten.SU33
