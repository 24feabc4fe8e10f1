import Mathlib.Data.List.Lex
import Mathlib.Data.Prod.Lex
import Mathlib.Data.List.Sort
import Mathlib.Algebra.Order.Ring.Int

/-!
# Model of `src/tools/cost_polynomials.cpp`

`std::map<std::string, int64>` is an association list kept in the order of its keys, with an
arbitrary linearly ordered type of keys in place of the strings and unbounded integers in place of
`int64`; `std::set<BigOMonomial>` is a list kept in the order of `operator<` (the lexicographic
comparison of the maps) without equivalent elements.
-/

namespace Cyten.CostPoly

variable {K : Type} [LinearOrder K]

/-- `BigOMonomial::factors`. -/
abbrev Mono (K : Type) := List (K ×ₗ ℤ)

/-- `it == end() ? 0 : it->second`, src/tools/cost_polynomials.cpp:82, 87, 140. -/
def lookup (m : Mono K) (x : K) : ℤ :=
  match m.find? fun p => p.1 == x with
  | some p => p.2
  | none => 0

/-- `factors[s] += e` of `std::map`. -/
def addFactor (s : K) (e : ℤ) : Mono K → Mono K
  | [] => [toLex (s, e)]
  | p :: m =>
    if s < p.1 then toLex (s, e) :: p :: m
    else if s = p.1 then toLex (p.1, p.2 + e) :: m
    else p :: addFactor s e m

/-- src/tools/cost_polynomials.cpp:68-75 `BigOMonomial::operator*`. -/
def Mono.mul (a b : Mono K) : Mono K := b.foldl (fun r p => addFactor p.1 p.2 r) a

/-- src/tools/cost_polynomials.cpp:77-91 `BigOMonomial::operator==`. -/
def Mono.eq (a b : Mono K) : Bool :=
  a.all (fun p => lookup b p.1 == p.2) && b.all (fun p => lookup a p.1 == p.2)

/-- src/tools/cost_polynomials.cpp:29-60 `BigOMonomial::from_str` after splitting into tokens
`dim^exp` (an exponent of 1 if missing): a non-positive exponent raises. -/
def Mono.fromTokens : List (K × ℤ) → Option (Mono K)
  | toks => if toks.all (fun p => 0 < p.2) then
      some (toks.foldl (fun r p => addFactor p.1 p.2 r) []) else none

/-- src/tools/cost_polynomials.cpp:136-157 `BigOMonomial::is_negligible` (without `relations`,
for which the code raises). -/
def Mono.isNegligible (m : Mono K) (others : List (Mono K)) : Bool :=
  others.any fun o => m.all fun p => p.2 ≤ lookup o p.1

/-- `std::set<BigOMonomial>::insert`. -/
def setInsert (m : Mono K) : List (Mono K) → List (Mono K)
  | [] => [m]
  | t :: ts => if m < t then m :: t :: ts else if t < m then t :: setInsert m ts else t :: ts

/-- `set.insert(begin, end)` -/
def setInsertAll (s : List (Mono K)) (l : List (Mono K)) : List (Mono K) :=
  l.foldl (fun s m => setInsert m s) s

/-- src/tools/cost_polynomials.cpp:164-182 `BigOPolynomial::simplify_terms` -/
def simplifyTerms (terms : List (Mono K)) : List (Mono K) :=
  setInsertAll [] (terms.filter fun t => !(t.isNegligible (terms.filter fun u => !(u.eq t))))

/-- `BigOPolynomial::terms`. -/
abbrev Poly (K : Type) := List (Mono K)

/-- src/tools/cost_polynomials.cpp:159-162, the constructor. -/
def Poly.mk (terms : List (Mono K)) : Poly K := simplifyTerms terms

/-- src/tools/cost_polynomials.cpp:184-204 `BigOPolynomial::from_str` after parsing the terms. -/
def Poly.ofMonos (ms : List (Mono K)) : Poly K := Poly.mk (setInsertAll [] ms)

/-- src/tools/cost_polynomials.cpp:223-229 `BigOPolynomial::operator+`. -/
def Poly.add (p q : Poly K) : Poly K := Poly.mk (setInsertAll p q)

/-- src/tools/cost_polynomials.cpp:243-251 `BigOPolynomial::operator*`. -/
def Poly.mul (p q : Poly K) : Poly K :=
  Poly.mk (p.foldl (fun s m1 => q.foldl (fun s m2 => setInsert (m1.mul m2) s) s) [])

/-- src/tools/cost_polynomials.cpp:265-269 `BigOPolynomial::operator==`: `std::set` equality
compares the sizes and then the elements, in order, with `BigOMonomial::operator==`. -/
def Poly.eq : Poly K → Poly K → Bool
  | [], [] => true
  | a :: p, b :: q => a.eq b && Poly.eq p q
  | _, _ => false

/-- src/tools/cost_polynomials.cpp:298-307 `BigOPolynomial::prod`. -/
def Poly.prod (p : Poly K) : List (Poly K) → Poly K
  | [] => p
  | [q] => p.mul q
  | q :: qs => (p.mul q).prod qs

end Cyten.CostPoly
