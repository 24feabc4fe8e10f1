import Verif.Lemmas.CatCheck
import Mathlib.Tactic.Ring
import Mathlib.Tactic.LinearCombination
import Mathlib.Tactic.FieldSimp

/-!
A computable ring of exact numbers `(p(ζ) + s q(ζ)) / 2^k` with integer polynomials `p`, `q`, where
`ζ ^ n = -1`, `|ζ| = 1` and `s` is a real number with `s² = sq(ζ)`.  It contains all entries of the
Fibonacci and Ising tables.
-/

namespace Cyten.Exact

/-- Parameters: `ζ^n = -1`, `s² = sq(ζ)`, and `mlt(ζ) ≠ 0`, a factor used in the equality test. -/
structure Par where
  n : Nat
  sq : List Int
  mlt : List Int

def padd : List Int → List Int → List Int
  | [], l => l
  | l, [] => l
  | x :: l, y :: m => (x + y) :: padd l m

def pscale (c : Int) (l : List Int) : List Int := l.map (c * ·)

/-- reduction with `ζ^n = -1` (fuel `f`) -/
def pred (n : Nat) : Nat → List Int → List Int
  | 0, l => l
  | f + 1, l => if l.length ≤ n then l else padd (l.take n) (pscale (-1) (pred n f (l.drop n)))

def pmulRaw : List Int → List Int → List Int
  | [], _ => []
  | x :: l, m => padd (pscale x m) (0 :: pmulRaw l m)

def pmul (n : Nat) (l m : List Int) : List Int :=
  let r := pmulRaw l m
  pred n r.length r

/-- `ζ ↦ ζ⁻¹ = -ζ^(n-1)` -/
def pstar (n : Nat) : List Int → List Int
  | [] => []
  | x :: l => padd [x] (pscale (-1) (pmul n (List.replicate (n - 1) 0 ++ [1]) (pstar n l)))

variable (ζ : ℂ)

def ev : List Int → ℂ
  | [] => 0
  | x :: l => x + ζ * ev l

@[simp] theorem ev_nil : ev ζ [] = 0 := rfl
@[simp] theorem ev_cons (x : Int) (l : List Int) : ev ζ (x :: l) = x + ζ * ev ζ l := rfl

theorem ev_padd (l m : List Int) : ev ζ (padd l m) = ev ζ l + ev ζ m := by
  induction l generalizing m with
  | nil => simp [padd]
  | cons x l ih =>
    cases m with
    | nil => simp [padd]
    | cons y m => simp [padd, ih]; ring

theorem ev_pscale (c : Int) (l : List Int) : ev ζ (pscale c l) = c * ev ζ l := by
  induction l with
  | nil => simp [pscale]
  | cons x l ih => simp only [pscale, List.map_cons, ev_cons] at *; rw [ih]; push_cast; ring

theorem ev_append (l m : List Int) : ev ζ (l ++ m) = ev ζ l + ζ ^ l.length * ev ζ m := by
  induction l with
  | nil => simp
  | cons x l ih => simp [ih, pow_succ]; ring

theorem ev_pmulRaw (l m : List Int) : ev ζ (pmulRaw l m) = ev ζ l * ev ζ m := by
  induction l with
  | nil => simp [pmulRaw]
  | cons x l ih => simp [pmulRaw, ev_padd, ev_pscale, ih]; ring

variable {ζ}

theorem ev_pred {n : Nat} (hζ : ζ ^ n = -1) (f : Nat) (l : List Int) :
    ev ζ (pred n f l) = ev ζ l := by
  induction f generalizing l with
  | zero => rfl
  | succ f ih =>
    unfold pred
    split
    · rfl
    · rename_i h
      rw [ev_padd, ev_pscale, ih]
      conv_rhs => rw [← List.take_append_drop n l, ev_append]
      rw [List.length_take, min_eq_left (by omega), hζ]
      push_cast; ring

theorem ev_pmul {n : Nat} (hζ : ζ ^ n = -1) (l m : List Int) :
    ev ζ (pmul n l m) = ev ζ l * ev ζ m := by
  rw [pmul, ev_pred hζ, ev_pmulRaw]

theorem ev_replicate (k : Nat) : ev ζ (List.replicate k 0) = 0 := by
  induction k with
  | zero => rfl
  | succ k ih => simp [List.replicate_succ, ih]

theorem ev_pstar {n : Nat} (hn : 0 < n) (hζ : ζ ^ n = -1) (hs : star ζ * ζ = 1) (l : List Int) :
    ev ζ (pstar n l) = star (ev ζ l) := by
  have hz : star ζ = - ζ ^ (n - 1) := by
    have h1 : ζ ^ n = ζ ^ (n - 1) * ζ := by rw [← pow_succ]; congr 1; omega
    have : star ζ * ζ = - ζ ^ (n - 1) * ζ := by rw [hs, neg_mul, ← h1, hζ, neg_neg]
    exact mul_right_cancel₀ (by rintro rfl; simp at hs) this
  induction l with
  | nil => simp [pstar]
  | cons x l ih =>
    simp only [pstar, ev_padd, ev_pscale, ev_pmul hζ, ih, ev_append, ev_replicate, ev_cons, ev_nil,
      List.length_replicate, star_add, star_mul', hz]
    simp

/-- Exact numbers. -/
structure Num (P : Par) where
  p : List Int
  q : List Int
  k : Nat

namespace Num
variable {P : Par}

instance : Zero (Num P) := ⟨⟨[], [], 0⟩⟩
instance : One (Num P) := ⟨⟨[1], [], 0⟩⟩
instance : Add (Num P) := ⟨fun x y =>
  ⟨padd (pscale (2 ^ y.k) x.p) (pscale (2 ^ x.k) y.p),
   padd (pscale (2 ^ y.k) x.q) (pscale (2 ^ x.k) y.q), x.k + y.k⟩⟩
instance : Neg (Num P) := ⟨fun x => ⟨pscale (-1) x.p, pscale (-1) x.q, x.k⟩⟩
instance : Mul (Num P) := ⟨fun x y =>
  ⟨padd (pmul P.n x.p y.p) (pmul P.n P.sq (pmul P.n x.q y.q)),
   padd (pmul P.n x.p y.q) (pmul P.n x.q y.p), x.k + y.k⟩⟩
instance : Star (Num P) := ⟨fun x => ⟨pstar P.n x.p, pstar P.n x.q, x.k⟩⟩

def isZ (P : Par) (l : List Int) : Bool := (pmul P.n P.mlt l).all (fun x => x == 0)

def eqB (x y : Num P) : Bool :=
  let d := x + -y
  isZ P d.p && isZ P d.q

noncomputable def val (ζ s : ℂ) (x : Num P) : ℂ := (ev ζ x.p + s * ev ζ x.q) / 2 ^ x.k

/-- the assumptions on `ζ` and `s` -/
structure Good (P : Par) (ζ s : ℂ) : Prop where
  n_pos : 0 < P.n
  pow : ζ ^ P.n = -1
  norm : star ζ * ζ = 1
  s_real : star s = s
  s_sq : s * s = ev ζ P.sq
  mlt : ev ζ P.mlt ≠ 0

theorem ev_all_zero (l : List Int) (h : l.all (fun x => x == 0) = true) : ev ζ l = 0 := by
  induction l with
  | nil => rfl
  | cons x l ih =>
    simp only [List.all_cons, Bool.and_eq_true, beq_iff_eq] at h
    simp [h.1, ih h.2]

theorem isZ_sound {s : ℂ} (g : Good P ζ s) {l : List Int} (h : isZ P l = true) : ev ζ l = 0 := by
  have := ev_all_zero (ζ := ζ) _ h
  rw [ev_pmul g.pow] at this
  exact (mul_eq_zero.1 this).resolve_left g.mlt

theorem val_neg {s : ℂ} (x : Num P) : val ζ s (-x) = - val ζ s x := by
  show (ev ζ (pscale (-1) x.p) + s * ev ζ (pscale (-1) x.q)) / 2 ^ x.k = _
  rw [ev_pscale, ev_pscale, val]; push_cast; ring

theorem val_add {s : ℂ} (x y : Num P) : val ζ s (x + y) = val ζ s x + val ζ s y := by
  show (ev ζ (padd (pscale (2 ^ y.k) x.p) (pscale (2 ^ x.k) y.p)) +
    s * ev ζ (padd (pscale (2 ^ y.k) x.q) (pscale (2 ^ x.k) y.q))) / 2 ^ (x.k + y.k) = _
  simp only [ev_padd, ev_pscale, val, pow_add]
  push_cast
  field_simp
  ring

theorem eval {s : ℂ} (g : Good P ζ s) : Spec.Cat.Eval (val (P := P) ζ s) eqB where
  zero := by show (ev ζ [] + s * ev ζ []) / 2 ^ 0 = _; simp
  one := by show (ev ζ [1] + s * ev ζ []) / 2 ^ 0 = _; simp
  add := val_add
  mul x y := by
    show (ev ζ (padd (pmul P.n x.p y.p) (pmul P.n P.sq (pmul P.n x.q y.q))) +
      s * ev ζ (padd (pmul P.n x.p y.q) (pmul P.n x.q y.p))) / 2 ^ (x.k + y.k) = _
    simp only [ev_padd, ev_pmul g.pow, ← g.s_sq, val, pow_add]
    field_simp
    ring
  star x := by
    show (ev ζ (pstar P.n x.p) + s * ev ζ (pstar P.n x.q)) / 2 ^ x.k = _
    rw [ev_pstar g.n_pos g.pow g.norm, ev_pstar g.n_pos g.pow g.norm, val, star_div₀, star_add,
      star_mul', g.s_real, star_pow]
    congr 2
    simp
  sound x y h := by
    simp only [eqB, Bool.and_eq_true] at h
    have h1 := isZ_sound g h.1
    have h2 := isZ_sound g h.2
    have h3 : val ζ s (x + -y) = 0 := by rw [val, h1, h2]; simp
    rw [val_add, val_neg] at h3
    linear_combination h3

end Num
end Cyten.Exact
