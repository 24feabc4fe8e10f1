import Mathlib.Algebra.Star.Basic
import Mathlib.Data.Complex.Basic

/-!
# Specification: what the symbols of a multiplicity-free (pre-modular, unitary) category must satisfy

Nothing here refers to the model of the code.  A `Cat S K` is a bundle of observable data of a
symmetry whose fusion multiplicities are 0 or 1: sectors are the `a : S` with `valid a`, symbols
take values in `K` (`K = ℂ` for the code).  Conventions are the ones documented in cyten:
`F a b c d e f` belongs to the channels `b×c→e`, `a×e→d`, `a×b→f`, `f×c→d`;
`C a b c d e f` to `a×b→e`, `e×c→d`, `a×c→f`, `f×b→d`.
-/

namespace Cyten.Spec

/-- Observable data of a multiplicity-free symmetry. -/
structure Cat (S K : Type) where
  valid : S → Prop
  unit : S
  /-- list of fusion outcomes of `a × b` -/
  out : S → S → List S
  dual : S → S
  F : S → S → S → S → S → S → K
  R : S → S → S → K
  C : S → S → S → S → S → S → K

namespace Cat

section ring
variable {S K : Type} [DecidableEq S] (A : Cat S K)

/-- The fusion rules: closed on valid sectors, duplicate free, unit, commutative, associative, and
`dual a` is the unique sector that can fuse with `a` to the unit. -/
structure FusionRing : Prop where
  unit_valid : A.valid A.unit
  closed : ∀ a b, A.valid a → A.valid b → ∀ c ∈ A.out a b, A.valid c
  nodup : ∀ a b, A.valid a → A.valid b → (A.out a b).Nodup
  unit_left : ∀ a, A.valid a → A.out A.unit a = [a]
  unit_right : ∀ a, A.valid a → A.out a A.unit = [a]
  comm : ∀ a b, A.valid a → A.valid b → ∀ c, c ∈ A.out a b ↔ c ∈ A.out b a
  assoc : ∀ a b c d, A.valid a → A.valid b → A.valid c → A.valid d →
    ((A.out a b).filter fun f => d ∈ A.out f c).length =
      ((A.out b c).filter fun e => d ∈ A.out a e).length
  dual_valid : ∀ a, A.valid a → A.valid (A.dual a)
  dual_dual : ∀ a, A.valid a → A.dual (A.dual a) = a
  dual_iff : ∀ a b, A.valid a → A.valid b → (A.unit ∈ A.out a b ↔ b = A.dual a)

/-- Channels `e` of `b×c` with `d ∈ a×e`. -/
def chR (a b c d : S) : List S := (A.out b c).filter fun e => d ∈ A.out a e
/-- Channels `f` of `a×b` with `d ∈ f×c`. -/
def chL (a b c d : S) : List S := (A.out a b).filter fun f => d ∈ A.out f c

variable [Zero K] [One K] [Add K] [Mul K] [Star K]

/-- R-symbols are phases. -/
def RPhase : Prop := ∀ a b c, A.valid a → A.valid b → c ∈ A.out a b →
  A.R a b c * star (A.R a b c) = 1

/-- F-moves are unitary matrices. -/
structure FUnitary : Prop where
  rows : ∀ a b c d, A.valid a → A.valid b → A.valid c → A.valid d →
    ∀ f ∈ A.chL a b c d, ∀ f' ∈ A.chL a b c d,
      ((A.chR a b c d).map fun e => A.F a b c d e f * star (A.F a b c d e f')).sum =
        if f = f' then 1 else 0
  cols : ∀ a b c d, A.valid a → A.valid b → A.valid c → A.valid d →
    ∀ e ∈ A.chR a b c d, ∀ e' ∈ A.chR a b c d,
      ((A.chL a b c d).map fun f => star (A.F a b c d e f) * A.F a b c d e' f).sum =
        if e = e' then 1 else 0

/-- The pentagon equation (Eq. (33) of arXiv:1511.08090 in cyten's index order). -/
def Pentagon : Prop := ∀ a b c d, A.valid a → A.valid b → A.valid c → A.valid d →
  ∀ f ∈ A.out a b, ∀ g ∈ A.out f c, ∀ e ∈ A.out g d, ∀ j ∈ A.out c d, ∀ i ∈ A.out b j,
    e ∈ A.out f j → e ∈ A.out a i →
    A.F f c d e j g * A.F a b j e i f =
      (((A.out b c).filter fun h => g ∈ A.out a h ∧ i ∈ A.out h d).map fun h =>
        A.F a b c g h f * A.F a h d e i g * A.F b c d i j h).sum

/-- The first hexagon equation. -/
def Hexagon : Prop := ∀ a b c d, A.valid a → A.valid b → A.valid c → A.valid d →
  ∀ e ∈ A.out c a, d ∈ A.out e b → ∀ g ∈ A.out c b, d ∈ A.out a g →
    A.R c a e * A.F a c b d g e * A.R c b g =
      (((A.out a b).filter fun f => d ∈ A.out c f).map fun f =>
        A.F c a b d f e * A.R c f d * A.F a b c d g f).sum

/-- The second hexagon equation: `R^{ab}` replaced by the inverse of `R^{ba}`. -/
def Hexagon' : Prop := ∀ a b c d, A.valid a → A.valid b → A.valid c → A.valid d →
  ∀ e ∈ A.out c a, d ∈ A.out e b → ∀ g ∈ A.out c b, d ∈ A.out a g →
    star (A.R a c e) * A.F a c b d g e * star (A.R b c g) =
      (((A.out a b).filter fun f => d ∈ A.out c f).map fun f =>
        A.F c a b d f e * star (A.R f c d) * A.F a b c d g f).sum

/-- The braid of `b` and `c` in `(a b) c → d` expressed by F- and R-moves. -/
def CFromFR : Prop := ∀ a b c d e f, A.valid a → A.valid b → A.valid c → A.valid d →
  e ∈ A.out a b → d ∈ A.out e c → f ∈ A.out a c → d ∈ A.out f b →
    A.C a b c d e f = A.R e c d * A.F c a b d e f * star (A.R a c f)

/-- The F- and R-symbols form a unitary braided fusion category (nothing about `C`). -/
structure UnitaryBraidedFR : Prop where
  ring : A.FusionRing
  rPhase : A.RPhase
  fUnitary : A.FUnitary
  pentagon : A.Pentagon
  hexagon : A.Hexagon
  hexagon' : A.Hexagon'

/-- Everything together: a unitary braided fusion category. -/
structure UnitaryBraided : Prop where
  ring : A.FusionRing
  rPhase : A.RPhase
  fUnitary : A.FUnitary
  pentagon : A.Pentagon
  hexagon : A.Hexagon
  hexagon' : A.Hexagon'
  cFromFR : A.CFromFR

end ring

section complex
variable {S : Type} [DecidableEq S] (A : Cat S ℂ)

/-- Quantum dimensions are positive and form a character of the fusion ring. -/
structure QdimCharacter (d : S → ℝ) : Prop where
  pos : ∀ a, A.valid a → 0 < d a
  unit : d A.unit = 1
  mul : ∀ a b, A.valid a → A.valid b → d a * d b = ((A.out a b).map d).sum
  dual : ∀ a, A.valid a → d (A.dual a) = d a

/-- Topological twists: `θ_a = Σ_b d_b / d_a R^{aa}_b`, phases, and the balancing (ribbon) equation
`R^{ba}_c R^{ab}_c = θ_c / (θ_a θ_b)`. -/
structure Ribbon (d : S → ℝ) (θ : S → ℂ) : Prop where
  formula : ∀ a, A.valid a → (d a : ℂ) * θ a = ((A.out a a).map fun b => (d b : ℂ) * A.R a a b).sum
  phase : ∀ a, A.valid a → θ a * star (θ a) = 1
  balance : ∀ a b c, A.valid a → A.valid b → c ∈ A.out a b →
    A.R b a c * A.R a b c * (θ a * θ b) = θ c
  dual : ∀ a, A.valid a → θ (A.dual a) = θ a

end complex
end Cat
end Cyten.Spec
