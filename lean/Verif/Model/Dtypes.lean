/-!
# Model of the dtype enumeration and dtype promotion
-/

namespace Cyten.Dtypes

/-- include/cyten/block_backend/dtypes.h:10-20 `enum class Dtype`. -/
inductive Dtype
  | bool | int64 | float32 | complex64 | float64 | complex128
  deriving DecidableEq, Repr

/-- include/cyten/block_backend/dtypes.h:10-20: the underlying `uint8_t`. -/
def Dtype.val : Dtype → Nat
  | .bool => 2
  | .int64 => 4
  | .float32 => 8
  | .complex64 => 9
  | .float64 => 16
  | .complex128 => 17

/-- The inverse cast `static_cast<Dtype>(uint8)`; a value that is no enumerator is `none`
(in C++ it would be an unnamed enum value). -/
def Dtype.ofVal : Nat → Option Dtype
  | 2 => some .bool
  | 4 => some .int64
  | 8 => some .float32
  | 9 => some .complex64
  | 16 => some .float64
  | 17 => some .complex128
  | _ => none

/-- include/cyten/block_backend/dtypes.h:24-28 `is_real`. -/
def isReal (d : Dtype) : Bool := d.val % 2 == 0

/-- include/cyten/block_backend/dtypes.h:29-33 `is_complex`. -/
def isComplex (d : Dtype) : Bool := d.val % 2 == 1

/-- src/block_backend/dtypes.cpp:37-47 `to_complex`; `none` is the exception. -/
def toComplex (d : Dtype) : Option Dtype :=
  if d = .bool then none
  else if d = .int64 then none
  else if d.val % 2 == 1 then some d
  else Dtype.ofVal (d.val + 1)

/-- src/block_backend/dtypes.cpp:49-59 `to_real`; `none` is the exception. -/
def toReal (d : Dtype) : Option Dtype :=
  if d = .bool then none
  else if d = .int64 then none
  else if d.val % 2 == 0 then some d
  else Dtype.ofVal (d.val - 1)

/-- src/block_backend/dtypes.cpp:118-136 `common`; `none` is an exception. -/
def common (ds : List Dtype) : Option Dtype :=
  match ds with
  | [] => none
  | d :: _ =>
    let res := ds.foldl (fun res t => if t.val > res.val then t else res) d
    if isReal res then
      if ds.any isComplex then toComplex res else some res
    else some res

/-- src/block_backend/dtypes.cpp:61-74 `eps`: the exponent `k` of `2^(-k)`; `none` is an
exception.  `n_bits = 8 * (value / 2)` is a `uint8_t`: it is reduced modulo 256. -/
def epsExp (d : Dtype) : Option Nat :=
  if d = .bool then none
  else if d = .int64 then none
  else
    let nBits := (8 * (d.val / 2)) % 256
    if nBits = 32 then some 23
    else if nBits = 64 then some 52
    else none

end Cyten.Dtypes
