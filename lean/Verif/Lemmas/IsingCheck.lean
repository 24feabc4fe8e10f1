import Verif.Model.Anyons
import Verif.Lemmas.ExactNum

/-! The Ising tables over exact numbers and the kernel-evaluated category equations (for the 8
distinct values of `nu`; the transport to `ℂ` and to all odd `nu` is in `Lemmas/Anyons.lean`). -/

namespace Cyten.Ising
open Spec Exact

abbrev P : Par := ⟨8, [], [1]⟩
/-- `ζ^k` -/
def zp (k : Nat) : Num P := ⟨pred 8 k (List.replicate k 0 ++ [1]), [], 0⟩
def xs (nu : Nat) : Num P := if fs1 nu = 1 then 1 else -1
def xh : Num P := ⟨[0, 0, 1, 0, 0, 0, -1], [], 1⟩
def xf (nu : Nat) : List (Num P) :=
  let x : Num P := xs nu * xh
  [x, 0, x, 0, -x]
def xph (nu : Nat) : Num P := zp (12 * nu % 16)
def xr (nu : Nat) : List (Num P) :=
  [xph nu, -1, zp (3 * nu % 16) * xs nu, zp (15 * nu % 16) * xs nu, 0]
def xcat (nu : Nat) : Cat ℤ (Num P) := catOf (xph nu) (xf nu) (xr nu)
def xd (a : ℤ) : Num P := if a = 1 then ⟨[0, 0, 1, 0, 0, 0, -1], [], 0⟩ else 1
def xθ (nu : Nat) (a : ℤ) : Num P :=
  if a = 1 then zp (nu % 16) else if a = 2 then -1 else 1

/-- the pairs `(b, c)` for which the tabulated C-symbols are right -/
def goodPair (b c : ℤ) : Bool := b == 0 || c == 0 || (b == 1 && c == 1)

def checks (r : Nat) : Bool :=
  (xcat r).ringCheck [0, 1, 2] && (xcat r).rCheck Num.eqB [0, 1, 2] &&
  (xcat r).fCheck Num.eqB [0, 1, 2] &&
  (xcat r).pentCheck Num.eqB [0, 1, 2] && (xcat r).hexCheck Num.eqB [0, 1, 2] &&
  (xcat r).cCheck Num.eqB [0, 1, 2] goodPair && (xcat r).qdimCheck Num.eqB [0, 1, 2] xd &&
  (xcat r).ribbonCheck Num.eqB [0, 1, 2] xd (xθ r)

theorem checks_true : ∀ k : Fin 8, checks (2 * k.1 + 1) = true := by decide +kernel


end Cyten.Ising
