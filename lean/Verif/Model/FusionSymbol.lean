import Mathlib.Algebra.Star.Basic

/-!
# Model of `FusionSymbol` (`/repo/src/symmetries/fusion_symbol.cpp`)

A dense array with four axes (unused trailing axes have extent 1) and row-major data.  The rank is
kept; the dtype is not modelled (entries are numbers of one type `K`, for the code `ℂ`).  Functions
that throw give `none`; reading outside the array, which throws in C++, gives `0`.
-/

namespace Cyten

/-- `FusionSymbol`; `rank_`, `shape_`, `data_`, `/repo/src/symmetries/fusion_symbol.cpp:34-41`. -/
structure FSym (K : Type) where
  rank : ℕ
  s0 : ℕ
  s1 : ℕ
  s2 : ℕ
  s3 : ℕ
  data : List K

namespace FSym
variable {K : Type}

/-- `shape_`. -/
def shape (s : FSym K) : ℕ × ℕ × ℕ × ℕ := (s.s0, s.s1, s.s2, s.s3)

/-- `get_complex`, `/repo/src/symmetries/fusion_symbol.cpp:109-126`. -/
def get [Zero K] (s : FSym K) (i0 i1 i2 i3 : ℕ) : K :=
  if i0 < s.s0 ∧ i1 < s.s1 ∧ i2 < s.s2 ∧ i3 < s.s3 then
    s.data.getD (((i0 * s.s1 + i1) * s.s2 + i2) * s.s3 + i3) 0
  else 0

/-- An array filled by a loop over all indices with `out.set(i0, i1, i2, i3, f i0 i1 i2 i3)`, as in
`/repo/src/symmetries/fusion_symbol.cpp:345-360`. -/
def build (rank s0 s1 s2 s3 : ℕ) (f : ℕ → ℕ → ℕ → ℕ → K) : FSym K :=
  ⟨rank, s0, s1, s2, s3, (List.range s0).flatMap fun i0 => (List.range s1).flatMap fun i1 =>
    (List.range s2).flatMap fun i2 => (List.range s3).map fun i3 => f i0 i1 i2 i3⟩

/-- `reshaped`, `/repo/src/symmetries/fusion_symbol.cpp:200-219`. -/
def reshaped (s : FSym K) (rank s0 s1 s2 s3 : ℕ) : Option (FSym K) :=
  if s0 * s1 * s2 * s3 = s.s0 * s.s1 * s.s2 * s.s3 then some ⟨rank, s0, s1, s2, s3, s.data⟩
  else none

/-- `conj`, `/repo/src/symmetries/fusion_symbol.cpp:221-234`. -/
def conj [Star K] (s : FSym K) : FSym K := { s with data := s.data.map star }

/-- `operator*`, `/repo/src/symmetries/fusion_symbol.cpp:291-318`. -/
def scale [Mul K] (s : FSym K) (c : K) : FSym K := { s with data := s.data.map fun v => v * c }

/-- `sum`, `/repo/src/symmetries/fusion_symbol.cpp:275-289`. -/
def sum [Zero K] [Add K] (s : FSym K) : K := s.data.foldl (· + ·) 0

/-- Extent of a broadcast axis, `/repo/src/symmetries/fusion_symbol.cpp:327-338`. -/
def bcast (a b : ℕ) : Option ℕ :=
  if a = b then some a else if a = 1 then some b else if b = 1 then some a else none

/-- `multiply`, `/repo/src/symmetries/fusion_symbol.cpp:320-362`. -/
def multiply [Zero K] [Mul K] (s t : FSym K) : Option (FSym K) := do
  if s.rank ≠ t.rank then none else
  let n0 ← bcast s.s0 t.s0
  let n1 ← bcast s.s1 t.s1
  let n2 ← bcast s.s2 t.s2
  let n3 ← bcast s.s3 t.s3
  some (build s.rank n0 n1 n2 n3 fun i0 i1 i2 i3 =>
    s.get (if s.s0 = 1 then 0 else i0) (if s.s1 = 1 then 0 else i1)
      (if s.s2 = 1 then 0 else i2) (if s.s3 = 1 then 0 else i3) *
    t.get (if t.s0 = 1 then 0 else i0) (if t.s1 = 1 then 0 else i1)
      (if t.s2 = 1 then 0 else i2) (if t.s3 = 1 then 0 else i3))

/-- `slice2d`, `/repo/src/symmetries/fusion_symbol.cpp:364-378`. -/
def slice2d [Zero K] (s : FSym K) (i0 i1 : ℕ) : Option (FSym K) :=
  if s.rank ≠ 4 then none else
  some (build 2 s.s2 s.s3 1 1 fun i2 i3 _ _ => s.get i0 i1 i2 i3)

/-- `transpose` of the first two axes of a rank 2 array,
`/repo/src/symmetries/fusion_symbol.cpp:396-427` with axes `[1, 0, 2, 3]` (the only use modelled). -/
def transpose2 [Zero K] (s : FSym K) : FSym K :=
  build s.rank s.s1 s.s0 1 1 fun i j _ _ => s.get j i 0 0

/-- `kron`, `/repo/src/symmetries/fusion_symbol.cpp:558-597`: on every axis the output index is
`ia * b.extent + ib`; the recursion writes every output entry exactly once, here the entry is
computed from the output index. -/
def kron [Zero K] [Mul K] (a b : FSym K) : Option (FSym K) :=
  if a.rank ≠ b.rank then none else
  some (build a.rank (a.s0 * b.s0) (a.s1 * b.s1) (a.s2 * b.s2) (a.s3 * b.s3) fun i0 i1 i2 i3 =>
    a.get (i0 / b.s0) (i1 / b.s1) (i2 / b.s2) (i3 / b.s3) *
    b.get (i0 % b.s0) (i1 % b.s1) (i2 % b.s2) (i3 % b.s3))

/-- `one_1D`, `/repo/src/symmetries/fusion_symbol.cpp:540-544`. -/
def one1D [One K] : FSym K := ⟨1, 1, 1, 1, 1, [1]⟩
/-- `one_4D`, `/repo/src/symmetries/fusion_symbol.cpp:552-556`. -/
def one4D [One K] : FSym K := ⟨4, 1, 1, 1, 1, [1]⟩

end FSym
end Cyten
