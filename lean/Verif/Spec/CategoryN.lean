import Mathlib.Algebra.Star.Basic
import Mathlib.Data.Complex.Basic

/-!
# Specification: symbols of a unitary braided fusion category with fusion multiplicities

Nothing here refers to the model of the code.  A `CatN S K` bundles the observable topological data
of a symmetry whose fusion multiplicities `N a b c` are arbitrary.  Conventions are the ones
documented in cyten:
* `F a b c d e f μ ν κ λ`: `1 ⊗ X_μ : b⊗c→e`, `X_ν : a⊗e→d` versus `X_κ ⊗ 1 : a⊗b→f`,
  `X_λ : f⊗c→d`;
* `R a b c μ`: the diagonal of the (diagonal) matrix of the exchange in `a⊗b→c`;
* `C a b c d e f μ ν κ λ`: `μ : a⊗b→e`, `ν : e⊗c→d`, `κ : a⊗c→f`, `λ : f⊗b→d`;
* `B a b c μ ν`: bending the right leg of `a⊗b→c`.
-/

namespace Cyten.Spec

/-- Observable data of a symmetry with fusion multiplicities. -/
structure CatN (S K : Type) where
  valid : S → Prop
  unit : S
  /-- the distinct fusion outcomes of `a ⊗ b` -/
  out : S → S → List S
  /-- multiplicity of `c` in `a ⊗ b` -/
  N : S → S → S → ℕ
  dual : S → S
  F : S → S → S → S → S → S → ℕ → ℕ → ℕ → ℕ → K
  R : S → S → S → ℕ → K
  C : S → S → S → S → S → S → ℕ → ℕ → ℕ → ℕ → K
  B : S → S → S → ℕ → ℕ → K

namespace CatN

section ring
variable {S K : Type} [DecidableEq S] (A : CatN S K)

/-- The fusion rules form a commutative, associative ring with unit and duals; the listed outcomes
are the sectors of nonzero multiplicity, each listed once. -/
structure FusionRing : Prop where
  unit_valid : A.valid A.unit
  closed : ∀ a b, A.valid a → A.valid b → ∀ c ∈ A.out a b, A.valid c
  nodup : ∀ a b, A.valid a → A.valid b → (A.out a b).Nodup
  mem_iff : ∀ a b c, A.valid a → A.valid b → A.valid c → (c ∈ A.out a b ↔ 0 < A.N a b c)
  unit_left : ∀ a c, A.valid a → A.valid c → A.N A.unit a c = if c = a then 1 else 0
  unit_right : ∀ a c, A.valid a → A.valid c → A.N a A.unit c = if c = a then 1 else 0
  comm : ∀ a b c, A.valid a → A.valid b → A.valid c → A.N a b c = A.N b a c
  assoc : ∀ a b c d, A.valid a → A.valid b → A.valid c → A.valid d →
    ((A.out a b).map fun f => A.N a b f * A.N f c d).sum =
      ((A.out b c).map fun e => A.N b c e * A.N a e d).sum
  dual_valid : ∀ a, A.valid a → A.valid (A.dual a)
  dual_dual : ∀ a, A.valid a → A.dual (A.dual a) = a
  dual_iff : ∀ a b, A.valid a → A.valid b → A.N a b A.unit = if b = A.dual a then 1 else 0
  frobenius : ∀ a b c, A.valid a → A.valid b → A.valid c → A.N a b c = A.N c (A.dual b) a

/-- Basis `(e, μ, ν)` of the maps `a ⊗ (b ⊗ c) → d`. -/
def chR (a b c d : S) : List (S × ℕ × ℕ) :=
  (A.out b c).flatMap fun e => (List.range (A.N b c e)).flatMap fun μ =>
    (List.range (A.N a e d)).map fun ν => (e, μ, ν)
/-- Basis `(f, κ, λ)` of the maps `(a ⊗ b) ⊗ c → d`. -/
def chL (a b c d : S) : List (S × ℕ × ℕ) :=
  (A.out a b).flatMap fun f => (List.range (A.N a b f)).flatMap fun κ =>
    (List.range (A.N f c d)).map fun l => (f, κ, l)

/-- The F-move as a matrix between the two bases. -/
def FM (a b c d : S) (x y : S × ℕ × ℕ) : K := A.F a b c d x.1 y.1 x.2.1 x.2.2 y.2.1 y.2.2
/-- The C-move (exchange of `b` and `c` in `(a ⊗ b) ⊗ c → d`) as a matrix. -/
def CM (a b c d : S) (x y : S × ℕ × ℕ) : K := A.C a b c d x.1 y.1 x.2.1 x.2.2 y.2.1 y.2.2

variable [Zero K] [One K] [Add K] [Mul K] [Star K]

/-- R-symbols are phases, and the exchange with the unit is trivial. -/
structure RPhase : Prop where
  phase : ∀ a b c, A.valid a → A.valid b → c ∈ A.out a b → ∀ μ < A.N a b c,
    A.R a b c μ * star (A.R a b c μ) = 1
  unit : ∀ a, A.valid a → A.R a A.unit a 0 = 1 ∧ A.R A.unit a a 0 = 1

/-- F-moves are unitary matrices. -/
structure FUnitary : Prop where
  rows : ∀ a b c d, A.valid a → A.valid b → A.valid c → A.valid d →
    ∀ x ∈ A.chR a b c d, ∀ x' ∈ A.chR a b c d,
      ((A.chL a b c d).map fun y => A.FM a b c d x y * star (A.FM a b c d x' y)).sum =
        if x = x' then 1 else 0
  cols : ∀ a b c d, A.valid a → A.valid b → A.valid c → A.valid d →
    ∀ y ∈ A.chL a b c d, ∀ y' ∈ A.chL a b c d,
      ((A.chR a b c d).map fun x => star (A.FM a b c d x y) * A.FM a b c d x y').sum =
        if y = y' then 1 else 0

/-- Triangle equations: an F-move with a unit among `a`, `b`, `c` only renames the vertices. -/
def Triangle : Prop := ∀ b c d, A.valid b → A.valid c → d ∈ A.out b c →
  ∀ μ < A.N b c d, ∀ ν < A.N b c d,
    A.F A.unit b c d d b μ 0 0 ν = (if μ = ν then 1 else 0) ∧
    A.F b A.unit c d c b 0 μ 0 ν = (if μ = ν then 1 else 0) ∧
    A.F b c A.unit d c d 0 μ ν 0 = (if μ = ν then 1 else 0)

/-- The pentagon equation, Eq. (33) of arXiv:1511.08090 with cyten's index order. -/
def Pentagon : Prop := ∀ a b c d, A.valid a → A.valid b → A.valid c → A.valid d →
  ∀ f ∈ A.out a b, ∀ g ∈ A.out f c, ∀ e ∈ A.out g d, ∀ j ∈ A.out c d, ∀ i ∈ A.out b j,
    e ∈ A.out a i →
    ∀ μ < A.N a b f, ∀ ν < A.N f c g, ∀ ρ < A.N g d e, ∀ γ < A.N c d j, ∀ δ < A.N b j i,
    ∀ κ < A.N a i e,
    ((List.range (A.N f j e)).map fun σ =>
        A.F f c d e j g γ σ ν ρ * A.F a b j e i f δ κ μ σ).sum =
      ((A.out b c).flatMap fun h => (List.range (A.N b c h)).flatMap fun σ =>
        (List.range (A.N a h g)).flatMap fun l => (List.range (A.N h d i)).map fun ω =>
        A.F a b c g h f σ l μ ν * A.F a h d e i g ω κ l ρ * A.F b c d i j h γ δ σ ω).sum

/-- The first hexagon equation (Bonderson's thesis, indices as in cyten's documentation). -/
def Hexagon : Prop := ∀ a b c d, A.valid a → A.valid b → A.valid c → A.valid d →
  ∀ e ∈ A.out c a, ∀ g ∈ A.out c b,
    ∀ α < A.N c a e, ∀ β < A.N e b d, ∀ μ < A.N c b g, ∀ ν < A.N a g d,
    A.R c a e α * A.F a c b d g e μ ν α β * A.R c b g μ =
      ((A.out a b).flatMap fun f => (List.range (A.N a b f)).flatMap fun δ =>
        (List.range (A.N c f d)).map fun σ =>
        A.F c a b d f e δ σ α β * A.R c f d σ * A.F a b c d g f μ ν δ σ).sum

/-- The second hexagon equation: `R^{ab}` replaced by the inverse of `R^{ba}`. -/
def Hexagon' : Prop := ∀ a b c d, A.valid a → A.valid b → A.valid c → A.valid d →
  ∀ e ∈ A.out c a, ∀ g ∈ A.out c b,
    ∀ α < A.N c a e, ∀ β < A.N e b d, ∀ μ < A.N c b g, ∀ ν < A.N a g d,
    star (A.R a c e α) * A.F a c b d g e μ ν α β * star (A.R b c g μ) =
      ((A.out a b).flatMap fun f => (List.range (A.N a b f)).flatMap fun δ =>
        (List.range (A.N c f d)).map fun σ =>
        A.F c a b d f e δ σ α β * star (A.R f c d σ) * A.F a b c d g f μ ν δ σ).sum

/-- The braid of `b` and `c` in `(a ⊗ b) ⊗ c → d` expressed by F- and R-moves. -/
def CFromFR : Prop := ∀ a b c d, A.valid a → A.valid b → A.valid c → A.valid d →
  ∀ e ∈ A.out a b, ∀ f ∈ A.out a c,
    ∀ μ < A.N a b e, ∀ ν < A.N e c d, ∀ κ < A.N a c f, ∀ l < A.N f b d,
    A.C a b c d e f μ ν κ l = A.R e c d ν * A.F c a b d e f μ ν κ l * star (A.R a c f κ)

/-- C-moves are unitary. -/
def CUnitary : Prop := ∀ a b c d, A.valid a → A.valid b → A.valid c → A.valid d →
  ∀ x ∈ A.chL a b c d, ∀ x' ∈ A.chL a b c d,
    ((A.chL a c b d).map fun y => A.CM a b c d x y * star (A.CM a b c d x' y)).sum =
      if x = x' then 1 else 0

/-- A unitary braided fusion category. -/
structure UnitaryBraided : Prop where
  ring : A.FusionRing
  rPhase : A.RPhase
  fUnitary : A.FUnitary
  triangle : A.Triangle
  pentagon : A.Pentagon
  hexagon : A.Hexagon
  hexagon' : A.Hexagon'
  cFromFR : A.CFromFR
  cUnitary : A.CUnitary

end ring

section complex
variable {S : Type} [DecidableEq S] (A : CatN S ℂ)

/-- Quantum dimensions are positive and form a character of the fusion ring. -/
structure QdimCharacter (d : S → ℝ) : Prop where
  pos : ∀ a, A.valid a → 0 < d a
  unit : d A.unit = 1
  mul : ∀ a b, A.valid a → A.valid b →
    d a * d b = ((A.out a b).map fun c => (A.N a b c : ℝ) * d c).sum
  dual : ∀ a, A.valid a → d (A.dual a) = d a

/-- Twists: `d_a θ_a = Σ_{b μ} d_b [R^{aa}_b]_μ`, phases, and the balancing equation. -/
structure Ribbon (d : S → ℝ) (θ : S → ℂ) : Prop where
  formula : ∀ a, A.valid a → (d a : ℂ) * θ a =
    ((A.out a a).flatMap fun b => (List.range (A.N a a b)).map fun μ => (d b : ℂ) * A.R a a b μ).sum
  phase : ∀ a, A.valid a → θ a * star (θ a) = 1
  balance : ∀ a b c, A.valid a → A.valid b → c ∈ A.out a b → ∀ μ < A.N a b c,
    A.R b a c μ * A.R a b c μ * (θ a * θ b) = θ c
  dual : ∀ a, A.valid a → θ (A.dual a) = θ a

/-- Bending moves: `B B† = d_c / d_a` and the snake equation with the Frobenius-Schur indicator. -/
structure Bending (d : S → ℝ) (fs : S → ℤ) : Prop where
  norm : ∀ a b c, A.valid a → A.valid b → c ∈ A.out a b → ∀ μ < A.N a b c, ∀ μ' < A.N a b c,
    (d a : ℂ) * ((List.range (A.N a b c)).map fun ν => A.B a b c μ ν * star (A.B a b c μ' ν)).sum =
      if μ = μ' then (d c : ℂ) else 0
  snake : ∀ a b c, A.valid a → A.valid b → c ∈ A.out a b → ∀ μ < A.N a b c, ∀ μ' < A.N a b c,
    ((List.range (A.N a b c)).map fun ν => A.B a b c μ ν * A.B c (A.dual b) a μ' ν).sum =
      if μ = μ' then (fs b : ℂ) else 0
  indicator : ∀ a, A.valid a →
    (d a : ℂ) * A.F a (A.dual a) a a A.unit A.unit 0 0 0 0 = (fs a : ℂ)

end complex
end CatN
end Cyten.Spec
