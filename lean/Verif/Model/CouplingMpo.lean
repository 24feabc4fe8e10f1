import Mathlib.Algebra.BigOperators.Group.Finset.Basic
import Mathlib.Algebra.BigOperators.Ring.Finset

/-!
# A `Coupling` as a matrix product operator

Models `Coupling::from_tensor`, `to_tensor`, `test_sanity`, `stretch_with_identities`
(src/models/couplings.cpp), `Site::identity_tensor` (src/models/degrees_of_freedom.cpp) and the leg
bookkeeping of `planar_decomposition` / `horizontal_factorization` (src/tensors/planar.cpp).

Simplifications: tensors are dense arrays, listed with the legs of the codomain first and then the
legs of the domain in reverse order (the order of `Tensor.legs`); a leg is its label and dimension, so
that equality of legs is equality of dimensions and a trivial leg is one of dimension 1; braids and
bends act trivially on entries (bosonic symmetries; for these the dense semantics of `permute_legs`,
`compose`, `qr`, `add_trivial_leg` and `squeeze_legs` is C45, C05, C48, C46).  Labels are the
constructors of `Lab`; `"p{i}"` and `"p{i}*"` are `pn i` and `psn i`.
-/

namespace Cyten.CouplingMpo

/-- The leg labels in use: `"wL"`, `"wR"`, `"p"`, `"p*"`, `"p{i}"`, `"p{i}*"`
(src/models/couplings.cpp:424, 522-533, 540-568). -/
inductive Lab where
  | wL | wR | p | ps
  | pn (i : ℕ)
  | psn (i : ℕ)
  deriving DecidableEq

/-- A tensor: labels and dimensions of its legs in the order of `Tensor.legs`, the number of codomain
legs, and its entries. -/
structure Ten (K : Type) where
  legs : List (Lab × ℕ)
  ncod : ℕ
  val : List ℕ → K

/-- `permute_legs` with the positions of all legs in the new order (codomain, then reversed domain)
and the new number of codomain legs (src/tensors/ops_legs.cpp:332-640; dense semantics C45). -/
def permuteLegs {K : Type} (pos : List ℕ) (ncod : ℕ) (T : Ten K) : Ten K where
  legs := pos.map fun k => T.legs.getD k (.wL, 0)
  ncod := ncod
  val := fun idx => T.val ((List.range T.legs.length).map fun k => idx.getD (pos.idxOf k) 0)

/-- `Tensor.relabel` (src/models/couplings.cpp:540, 546, 556, 563, 582). -/
def relabel {K : Type} (f : Lab → Lab) (T : Ten K) : Ten K :=
  { T with legs := T.legs.map fun x => (f x.1, x.2) }

/-- `add_trivial_leg`: a leg of dimension 1 at position `k` of `Tensor.legs`, in the codomain or in
the domain (src/backends/abelian.cpp:595-613; C46). -/
def addTrivialLeg {K : Type} (k : ℕ) (inCodomain : Bool) (lab : Lab) (T : Ten K) : Ten K where
  legs := T.legs.insertIdx k (lab, 1)
  ncod := if inCodomain then T.ncod + 1 else T.ncod
  val := fun idx => T.val (idx.eraseIdx k)

/-- `squeeze_legs` of one leg, given by its label; raises unless the leg exists and is trivial
(src/tensors/ops_legs.cpp:1107-1168; C46). -/
def squeezeLeg {K : Type} (lab : Lab) (T : Ten K) : Option (Ten K) :=
  let k := (T.legs.map Prod.fst).idxOf lab
  match T.legs[k]? with
  | none => none
  | some l =>
    if l.2 = 1 then
      some { legs := T.legs.eraseIdx k
             ncod := if k < T.ncod then T.ncod - 1 else T.ncod
             val := fun idx => T.val (idx.insertIdx k 0) }
    else none

/-- `compose` of a tensor with one domain leg (listed last) with a tensor with one codomain leg
(listed first); raises if the legs differ (src/tensors/ops_algebra.cpp:614-684; C05). -/
def composeOne {K : Type} [CommSemiring K] (A B : Ten K) : Option (Ten K) :=
  match A.legs.getLast?, B.legs with
  | some a, b :: bs =>
    if A.ncod + 1 = A.legs.length ∧ B.ncod = 1 ∧ a.2 = b.2 then
      some { legs := A.legs.dropLast ++ bs
             ncod := A.ncod
             val := fun idx => ∑ w ∈ Finset.range b.2,
               A.val (idx.take (A.legs.length - 1) ++ [w]) * B.val (w :: idx.drop (A.legs.length - 1)) }
    else none
  | _, _ => none

/-- `qr` of the numerical backend on the matrix of a tensor: dimensions of rows and columns and the
matrix are given; returned are the new dimension and the two factors.  Its law is `QrLaw`. -/
abbrev Qr (K : Type) := List ℕ → List ℕ → (List ℕ → List ℕ → K) → ℕ × (List ℕ → ℕ → K) × (ℕ → List ℕ → K)

/-- `qr` of a tensor: codomain legs times the new leg, the new leg times the domain legs
(src/tensors/decompositions.cpp; C48). -/
def qrTen {K : Type} (qr : Qr K) (labQ labR : Lab) (T : Ten K) : Ten K × Ten K :=
  let rows := T.legs.take T.ncod
  let cols := T.legs.drop T.ncod
  let r := qr (rows.map Prod.snd) (cols.map Prod.snd) fun x y => T.val (x ++ y)
  ({ legs := rows ++ [(labQ, r.1)], ncod := T.ncod,
     val := fun idx => r.2.1 (idx.take T.ncod) (idx.getD T.ncod 0) },
   { legs := (labR, r.1) :: cols, ncod := 1,
     val := fun idx => r.2.2 (idx.getD 0 0) (idx.drop 1) })

/-- `planar_qr` = `planar_decomposition` with `qr`: permute such that the first `domCut` domain legs and
the first `codCut` codomain legs form the codomain, decompose, permute back; raises for cuts out of
range or if nothing is to be done (src/tensors/planar.cpp:273-372, 2877-2892).  The numbers `codom`,
`dom`, `A_codom`, `A_dom`, `B_codom`, `B_dom` are those of the code; `dom` lists are reversed, as
`Tensor.legs` lists the domain in reverse. -/
def planarQr {K : Type} (qr : Qr K) (labQ labR : Lab) (T : Ten K) (codCut domCut : ℕ) :
    Option (Ten K × Ten K) :=
  let n := T.legs.length
  let ndom := n - T.ncod
  if T.ncod < codCut ∨ ndom < domCut then none
  else if codCut = 0 ∧ domCut = 0 then none
  else if codCut = T.ncod ∧ domCut = ndom then none
  else
    let codom := List.range' (n - domCut) domCut ++ List.range codCut
    let dom := (List.range' codCut (n - domCut - codCut)).reverse
    let D := permuteLegs (codom ++ dom.reverse) codom.length T
    let AB := qrTen qr labQ labR D
    let bCodom := List.range (T.ncod - codCut + 1)
    let bDom := (List.range' (T.ncod - codCut + 1) (AB.2.legs.length - (T.ncod - codCut + 1))).reverse
    let B := permuteLegs (bCodom ++ bDom.reverse) bCodom.length AB.2
    let aCodom := List.range' domCut (AB.1.ncod - domCut)
    let aDom := (List.range domCut).reverse ++ [AB.1.ncod]
    let A := permuteLegs (aCodom ++ aDom.reverse) aCodom.length AB.1
    some (A, B)

/-- `horizontal_factorization` without cutoff (src/tensors/planar.cpp:1898-1907); the truncating
variant is not modelled. -/
def horizontalFactorization {K : Type} (qr : Qr K) (T : Ten K) (codCut domCut : ℕ) :
    Option (Ten K × Ten K) :=
  planarQr qr .wR .wL T codCut domCut

/-- `{ "p{i}", "p" }, { "p{i}*", "p*" }` (src/models/couplings.cpp:540, 546, 556, 563). -/
def toP (i : ℕ) (l : Lab) : Lab :=
  if l = .pn i then .p else if l = .psn i then .ps else l

/-- `{ "p", "p{i}" }, { "p*", "p{i}*" }` (src/models/couplings.cpp:582, 593-596). -/
def fromP (i : ℕ) (l : Lab) : Lab :=
  if l = .p then .pn i else if l = .ps then .psn i else l

/-- A coupling: dimensions of the site legs, one tensor per site
(src/models/couplings.cpp:394-407; names and levels left out). -/
structure Coupling (K : Type) where
  sites : List ℕ
  factorization : List (Ten K)

/-- The checks of one site tensor in `test_sanity`: 2 + 2 legs, labels `wL, p, wR, p*`, both physical
legs those of the site (src/models/couplings.cpp:413-438). -/
def siteOk {K : Type} (d : ℕ) (W : Ten K) : Bool :=
  decide (W.ncod = 2) && decide (W.legs.map Prod.fst = [.wL, .p, .wR, .ps]) &&
    decide ((W.legs.getD 1 (.wL, 0)).2 = d) && decide ((W.legs.getD 3 (.wL, 0)).2 = d)

/-- Dimension of the leg `wL` (src/models/couplings.cpp:439-448). -/
def dimL {K : Type} (W : Ten K) : ℕ := (W.legs.getD 0 (.wL, 0)).2

/-- Dimension of the leg `wR` (src/models/couplings.cpp:439-448). -/
def dimR {K : Type} (W : Ten K) : ℕ := (W.legs.getD 2 (.wL, 0)).2

/-- Neighbouring virtual legs match, the last `wR` is trivial (src/models/couplings.cpp:442-449). -/
def bondsOk {K : Type} : List (Ten K) → Bool
  | [] => true
  | [W] => decide (dimR W = 1)
  | W :: V :: rest => decide (dimR W = dimL V) && bondsOk (V :: rest)

/-- The constructor with `test_sanity`: one tensor per site, each site tensor fine, the first `wL`
trivial, bonds match; no sites: the code would read `factorization.front()` of an empty vector, here
an error (src/models/couplings.cpp:394-450). -/
def mkCoupling {K : Type} (sites : List ℕ) (ws : List (Ten K)) : Option (Coupling K) :=
  match ws with
  | [] => none
  | W :: rest =>
    if sites.length = (W :: rest).length ∧ (sites.zip (W :: rest)).all (fun x => siteOk x.1 x.2) ∧
        dimL W = 1 ∧ bondsOk (W :: rest) then some ⟨sites, W :: rest⟩
    else none

/-- The expected labels `p0, p1, ..., ..., p1*, p0*` with dimensions (src/models/couplings.cpp:522-533). -/
def opLegs (sites : List ℕ) : List (Lab × ℕ) :=
  (sites.zipIdx.map fun x => (Lab.pn x.2, x.1)) ++ (sites.zipIdx.map fun x => (Lab.psn x.2, x.1)).reverse

/-- The loop over the inner sites `i = k, ..., n - 2`, with `m` of them left, and the last tensor
(src/models/couplings.cpp:551-568). -/
def factorLoop {K : Type} (qr : Qr K) : ℕ → ℕ → Ten K → Option (List (Ten K))
  | 0, k, rest =>
    if rest.ncod ≠ 2 ∨ rest.legs.length ≠ 3 then none
    else some [addTrivialLeg 2 false .wR (relabel (toP k) rest)]
  | m + 1, k, rest =>
    match horizontalFactorization qr rest 2 1 with
    | none => none
    | some (W, rest') =>
      match factorLoop qr m (k + 1) rest' with
      | none => none
      | some ws => some (relabel (toP k) W :: ws)

/-- `Coupling::from_tensor` without cutoff: the legs of the operator must be those of the sites with
labels `p0, p1, ..., ..., p1*, p0*`; split off one site after the other
(src/models/couplings.cpp:500-571). -/
def fromTensor {K : Type} (qr : Qr K) (op : Ten K) (sites : List ℕ) : Option (Coupling K) :=
  if op.ncod ≠ sites.length ∨ op.legs ≠ opLegs sites then none
  else match sites.length with
    | 0 => none
    | 1 => mkCoupling sites
        [relabel (toP 0) (addTrivialLeg 2 false .wR (addTrivialLeg 0 true .wL op))]
    | m + 2 =>
      match horizontalFactorization qr op 1 1 with
      | none => none
      | some (W0, rest) =>
        match factorLoop qr m 1 rest with
        | none => none
        | some ws => mkCoupling sites (addTrivialLeg 0 true .wL (relabel (toP 0) W0) :: ws)

/-- The loop of `to_tensor` over the sites `i = k, ...`: bring `W` to the legs `wL | p*, wR, p`,
compose, move the new physical legs to the two ends of the codomain
(src/models/couplings.cpp:585-608). -/
def toTensorLoop {K : Type} [CommSemiring K] : ℕ → List (Ten K) → Ten K → Option (Ten K)
  | _, [], res => some res
  | i, W :: ws, res =>
    match composeOne res (relabel (fromP i) (permuteLegs [0, 1, 2, 3] 1 W)) with
    | none => none
    | some r => toTensorLoop (i + 1) ws
        (permuteLegs ((2 * i + 2) :: (List.range (2 * i) ++ [2 * i, 2 * i + 1])) (2 * i + 2) r)

/-- `Coupling::to_tensor` (src/models/couplings.cpp:573-618). -/
def toTensor {K : Type} [CommSemiring K] (c : Coupling K) : Option (Ten K) :=
  match c.factorization with
  | [] => none
  | W :: ws =>
    match squeezeLeg .wL W with
    | none => none
    | some s =>
      match toTensorLoop 1 ws (relabel (fromP 0) (permuteLegs [2, 0, 1] 2 s)) with
      | none => none
      | some r =>
        match squeezeLeg .wR r with
        | none => none
        | some t =>
          let n := c.sites.length
          let labs := (List.range n).map Lab.pn ++ ((List.range n).map Lab.psn).reverse
          some (permuteLegs (labs.map fun l => (t.legs.map Prod.fst).idxOf l) n t)

/-- `Site::identity_tensor`: the identity on the leg `p` (dimension `d`) times the virtual leg `w`,
with legs `wL, p, wR, p*` (src/models/degrees_of_freedom.cpp:443-455). -/
def identityTensor {K : Type} [CommSemiring K] (d w : ℕ) : Ten K where
  legs := [(.wL, w), (.p, d), (.wR, w), (.ps, d)]
  ncod := 2
  val := fun idx => if idx.getD 0 0 = idx.getD 2 0 ∧ idx.getD 1 0 = idx.getD 3 0 then 1 else 0

/-- `by_position`: the tensor of the coupling at `pos` (src/models/couplings.cpp:651-654). -/
def byPosition {K : Type} (positions : List ℕ) (ws : List (Ten K)) (pos : ℕ) : Option (Ten K) :=
  ((positions.zip ws).find? fun x => x.1 = pos).map Prod.snd

/-- The loop `for pos = start; pos < stop` with `m` positions left and the current `wR_space`
(src/models/couplings.cpp:658-669). -/
def stretchLoop {K : Type} [CommSemiring K] (allSites : List ℕ) (positions : List ℕ)
    (ws : List (Ten K)) : ℕ → ℕ → ℕ → List (Ten K)
  | 0, _, _ => []
  | m + 1, pos, w =>
    let T := match byPosition positions ws pos with
      | some W => W
      | none => identityTensor (allSites.getD pos 0) w
    T :: stretchLoop allSites positions ws m (pos + 1) (dimR T)

/-- `Coupling::stretch_with_identities`; positions are natural numbers, and a position outside
`all_sites`, an unchecked read in the code, is an error here
(src/models/couplings.cpp:628-677). -/
def stretch {K : Type} [CommSemiring K] (c : Coupling K) (allSites : List ℕ) (positions : List ℕ) :
    Option (Coupling K) :=
  if positions.length ≠ c.factorization.length then none
  else if ¬ positions.IsChain (· < ·) then none
  else if (c.sites.zip positions).any (fun x => decide (allSites[x.2]? ≠ some x.1)) then none
  else match positions.head?, positions.getLast? with
    | some start, some last =>
      mkCoupling ((List.range' start (last + 1 - start)).map fun pos => allSites.getD pos 0)
        (stretchLoop allSites positions c.factorization (last + 1 - start) start 0)
    | _, _ => none

end Cyten.CouplingMpo
