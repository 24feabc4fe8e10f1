import Verif.Model.AbelianPipe
import Verif.Spec.TensorProduct

/-! # Specification vocabulary for abelian pipes -/

namespace Cyten.Spaces.Spec
open Cyten.Spaces

variable {S : Type} [LinearOrder S]

/-- `Picks sym legs idcs cs ms`: taking on each leg the sector with the index `idcs[n]` gives the
sectors `cs` with the multiplicities `ms`. -/
inductive Picks (sym : Sym S) : List (ESpace S) → List ℕ → List S → List ℕ → Prop
  | nil : Picks sym [] [] [] []
  | cons {e : ESpace S} {legs : List (ESpace S)} {i : ℕ} {idcs : List ℕ} {s : S} {cs : List S}
      {m : ℕ} {ms : List ℕ} :
      (e.sectors sym)[i]? = some s → e.mults[i]? = some m → Picks sym legs idcs cs ms →
      Picks sym (e :: legs) (i :: idcs) (s :: cs) (m :: ms)

/-- `BasisCharges sym legs q cs`: the state number `q[n]` of the (public) basis of leg `n` has the
charge `cs[n]`. -/
inductive BasisCharges (sym : Sym S) : List (ESpace S) → List ℕ → List S → Prop
  | nil : BasisCharges sym [] [] []
  | cons {e : ESpace S} {legs : List (ESpace S)} {i : ℕ} {q : List ℕ} {s : S} {cs : List S}
      {L : List S} :
      e.sectorsOfBasis sym = some L → L[i]? = some s → BasisCharges sym legs q cs →
      BasisCharges sym (e :: legs) (i :: q) (s :: cs)

/-- `Locates sym legs idcs r q`: the state `r[n]` of the sector with index `idcs[n]` of leg `n` is
the state number `q[n]` of the (public) basis of that leg. -/
inductive Locates (sym : Sym S) : List (ESpace S) → List ℕ → List ℕ → List ℕ → Prop
  | nil : Locates sym [] [] [] []
  | cons {e : ESpace S} {legs : List (ESpace S)} {i x j b : ℕ} {idcs r q : List ℕ} :
      (e.bounds sym)[i]? = some b → (e.basisPerm sym)[b + x]? = some j →
      Locates sym legs idcs r q → Locates sym (e :: legs) (i :: idcs) (x :: r) (j :: q)

end Cyten.Spaces.Spec
