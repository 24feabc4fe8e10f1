import Verif.Props.AbelianCharge
import Verif.Props.AbelianMaskContract
import Verif.Props.AbelianCombine2
import Verif.Props.AbelianDecomp
import Verif.Props.AbelianCompare
import Verif.Props.AbelianExp
import Verif.Props.AbelianScale
import Verif.Props.AbelianPartialCompose
import Verif.Props.TensorGrid

/-!
# C41: histories of backend operations

`Made sym R o`: the object `o` (a tensor, a diagonal tensor, a mask) is the result of a finite
sequence of calls of the modelled operations of the abelian backend, starting from constructors.  The
premises of a rule are the documented conditions on the arguments (legs that match, valid spaces); no
rule asks for sorted tables, for shapes of blocks, or for the charge rule.
-/

namespace Cyten.Abelian.Spec
open Cyten.Abelian Cyten.Tables Cyten.Tools Cyten.Spaces Cyten.FusionTrees Cyten.Props

variable {S : Type}

/-- The objects a user holds. -/
inductive Obj (S : Type)
  | tensor (cod dom : List (BLeg S)) (data : Ents ℂ)
  | diag (e : ESpace S) (data : DEnts ℂ)
  | bdiag (e : ESpace S) (data : DEnts Bool)
  | mask (M : MaskT S)

/-- The legs of the codomain or domain as spaces. -/
abbrev legsOf (sym : Sym S) (l : List (ESpace S)) : List (BLeg S) := l.map (toBLeg sym)

/-- The trivial leg. -/
def unitLeg (R : Cyten.FusionRule S) : BLeg S := ⟨[R.unit], [1]⟩

/-- Objects produced by histories of operations of the abelian backend. -/
inductive Made [LinearOrder S] (sym : Sym S) (R : Cyten.FusionRule S) : Obj S → Prop
  -- constructors of tensors
  | zero (cod dom : List (BLeg S)) (allBlocks : Bool) (T : Ents ℂ) : LegsOK (cod ++ dom) →
      zeroData R cod dom allBlocks = some T → Made sym R (.tensor cod dom T)
  | eye (legs : List (BLeg S)) : Made sym R (.tensor legs legs (eyeData (multsOf legs)))
  | fromDense (cod dom : List (ESpace S)) (a : Blk ℂ) (tol : ℝ) (T : Ents ℂ) :
      (∀ e ∈ cod ++ dom, ValidSpace sym e) → fromDense sym R cod dom a tol = some T →
      Made sym R (.tensor (legsOf sym cod) (legsOf sym dom) T)
  | fromSectorBlockFunc (cod dom : List (BLeg S)) (func : List ℕ → S → Blk ℂ) (T : Ents ℂ) :
      LegsOK (cod ++ dom) → (∀ shape c, (func shape c).shape = shape) →
      fromSectorBlockFunc R func cod dom = some T → Made sym R (.tensor cod dom T)
  | fromGrid (grid : List (List (Option (GTensor S ℂ)))) (lefts rights ctail dhead : List (ESpace S))
      (t : GTensor S ℂ) :
      (∀ row ∈ grid, ∀ op, some op ∈ row → Made sym R (.tensor (legsOf sym op.cod) (legsOf sym op.dom) op.data)) →
      ((∀ row ∈ grid, ∀ op, some op ∈ row → IsHom R (legsOf sym op.cod) (legsOf sym op.dom) op.data) →
        GridOK sym R grid lefts rights ctail dhead) →
      tensorFromGrid sym grid = some t → Made sym R (.tensor (legsOf sym t.cod) (legsOf sym t.dom) t.data)
  -- linear structure, adjoint, products
  | linearCombination (cod dom : List (BLeg S)) (a b : ℂ) (v w : Ents ℂ) :
      Made sym R (.tensor cod dom v) → Made sym R (.tensor cod dom w) →
      Made sym R (.tensor cod dom (linearCombination a v b w))
  | mul (cod dom : List (BLeg S)) (a : ℂ) (v : Ents ℂ) : Made sym R (.tensor cod dom v) →
      Made sym R (.tensor cod dom (mul a v))
  | dagger (cod dom : List (BLeg S)) (v : Ents ℂ) : Made sym R (.tensor cod dom v) →
      Made sym R (.tensor dom cod (dagger v))
  | compose (cod contr dom : List (BLeg S)) (a b T : Ents ℂ) : LegsOK contr →
      Made sym R (.tensor cod contr a) → Made sym R (.tensor contr dom b) →
      compose R cod contr dom a b = some T → Made sym R (.tensor cod dom T)
  | outer (c1 d1 c2 d2 : List (BLeg S)) (a b : Ents ℂ) : Made sym R (.tensor c1 d1 a) →
      Made sym R (.tensor c2 d2 b) →
      Made sym R (.tensor (c1 ++ c2) (d1 ++ d2) (outer a b c1.length))
  | partialCompose (a b t : STensor S ℂ) (first : ℕ) : LegsOK (coDomainLegs a.cod a.dom) →
      LegsOK (coDomainLegs b.cod b.dom) → Made sym R (.tensor a.cod a.dom a.data) →
      Made sym R (.tensor b.cod b.dom b.data) → partialComposePy R sym.dual a b first = some t →
      Made sym R (.tensor t.cod t.dom t.data)
  | tdot (a b t : STensor S ℂ) (legs1 legs2 : List ℕ) : LegsOK (coDomainLegs a.cod a.dom) →
      LegsOK (coDomainLegs b.cod b.dom) → Made sym R (.tensor a.cod a.dom a.data) →
      Made sym R (.tensor b.cod b.dom b.data) → tdot R sym.dual a b legs1 legs2 = some (.tensor t) →
      Made sym R (.tensor t.cod t.dom t.data)
  -- legs
  | permuteLegs (cod dom : List (BLeg S)) (T : Ents ℂ) (ci di : List ℕ) : Made sym R (.tensor cod dom T) →
      (ci ++ di.reverse).Perm (List.range (cod.length + dom.length)) →
      Made sym R (.tensor (ci.map (asCodomainLeg sym.dual cod dom)) (di.map (asDomainLeg sym.dual cod dom))
        (permuteLegs T ci di))
  | partialTrace (cod dom : List (BLeg S)) (pairs : List (ℕ × ℕ)) (T U : Ents ℂ) :
      ValidPairs (coDomainLegs cod dom).length pairs → PairsMatch sym.dual cod dom pairs →
      LegsValid (coDomainLegs cod dom) → Made sym R (.tensor cod dom T) →
      partialTrace sym.dual (coDomainLegs cod dom) cod.length pairs T = some U →
      Made sym R (.tensor
        (((remainingLegs (coDomainLegs cod dom).length pairs).filter (· < cod.length)).map
          (asCodomainLeg sym.dual cod dom))
        (((remainingLegs (coDomainLegs cod dom).length pairs).filter
          (fun n => !(n < cod.length))).reverse.map (asDomainLeg sym.dual cod dom)) U)
  | addTrivialLegCodomain (cod dom : List (BLeg S)) (T : Ents ℂ) (k : ℕ) : Made sym R (.tensor cod dom T) →
      k ≤ cod.length → Made sym R (.tensor (cod.insertIdx k (unitLeg R)) dom (addTrivialLeg T k))
  | addTrivialLegDomain (cod dom : List (BLeg S)) (T : Ents ℂ) (k : ℕ) : Made sym R (.tensor cod dom T) →
      k ≤ dom.length → Made sym R (.tensor cod (dom.insertIdx k (unitLeg R))
        (addTrivialLeg T (cod.length + dom.length - k)))
  | squeezeLegs (cod dom : List (BLeg S)) (T : Ents ℂ) (idcs : List ℕ) : Made sym R (.tensor cod dom T) →
      TrivialLegsAt R idcs 0 (cod ++ dom.reverse) →
      Made sym R (.tensor (dropAt idcs 0 cod) (dropAt idcs cod.length dom.reverse).reverse (squeezeLegs T idcs))
  | combineLegs (csegs dsegs : List (Seg S)) (T : Ents ℂ) :
      (∀ s ∈ csegs, SegValid sym R s ∧ notInDomain s) →
      (∀ s ∈ dsegs, SegValid sym R s ∧ notInDomain (flipSeg s)) →
      Made sym R (.tensor (legsOf sym (csegs.flatMap Seg.legs)) (legsOf sym (dsegs.flatMap Seg.legs).reverse) T) →
      Made sym R (.tensor (legsOf sym (csegs.map Seg.leg)) (legsOf sym (dsegs.map Seg.leg).reverse)
        (combineSegs (csegs ++ dsegs) T))
  | splitLegs (csegs dsegs : List (Seg S)) (T : Ents ℂ) :
      (∀ s ∈ csegs, SegValid sym R s ∧ notInDomain s) →
      (∀ s ∈ dsegs, SegValid sym R s ∧ notInDomain (flipSeg s)) →
      Made sym R (.tensor (legsOf sym (csegs.map Seg.leg)) (legsOf sym (dsegs.map Seg.leg).reverse) T) →
      Made sym R (.tensor (legsOf sym (csegs.flatMap Seg.legs)) (legsOf sym (dsegs.flatMap Seg.legs).reverse)
        (splitSegs (csegs ++ dsegs) T))
  | scaleAxis (cod dom : List (BLeg S)) (T : Ents ℂ) (e : ESpace S) (D : DEnts ℂ) (leg : ℕ) :
      Made sym R (.tensor cod dom T) → Made sym R (.diag e D) → leg < cod.length + dom.length →
      Made sym R (.tensor cod dom (scaleAxis T D (cod.length + dom.length) leg))
  -- masks acting on tensors and diagonal tensors
  | maskCodomain (cod dom : List (BLeg S)) (T : Ents ℂ) (M : MaskT S) (ax : ℕ) :
      Made sym R (.tensor cod dom T) → Made sym R (.mask M) →
      cod[ax]? = some (toBLeg sym (if M.isProjection then M.large else M.small)) →
      Made sym R (.tensor (cod.set ax (toBLeg sym (if M.isProjection then M.small else M.large))) dom
        (maskContract (cod.length + dom.length) ax false M.isProjection T M.data))
  | maskDomain (cod dom : List (BLeg S)) (T : Ents ℂ) (M : MaskT S) (d : ℕ) :
      Made sym R (.tensor cod dom T) → Made sym R (.mask M) →
      dom[d]? = some (toBLeg sym (if M.isProjection then M.small else M.large)) →
      Made sym R (.tensor cod (dom.set d (toBLeg sym (if M.isProjection then M.large else M.small)))
        (maskContract (cod.length + dom.length) (cod.length + dom.length - 1 - d) true (!M.isProjection)
          T M.data))
  | maskDiagonal (M : MaskT S) (D : DEnts ℂ) : Made sym R (.mask M) → M.isProjection = true →
      Made sym R (.diag M.large D) → Made sym R (.diag M.small (maskDiagonal D M.data))
  -- decompositions and block functions; the factors of a block are those of the block backend
  | newQR (c d l : ESpace S) (isDual : Bool) (T : Ents ℂ) (f : Blk ℂ → Blk ℂ × Blk ℂ) (first : Bool) :
      ValidSpace sym c → ValidSpace sym d → (∀ m ∈ c.mults, 0 < m) → (∀ m ∈ d.mults, 0 < m) →
      newLeg sym c d isDual = some l → Made sym R (.tensor [toBLeg sym c] [toBLeg sym d] T) →
      (∀ p ∈ T, ∀ m n, p.2.shape = [m, n] → Factors m n p.2 (f p.2).1 (f p.2).2 ∧
        ColsOrtho m (min m n) (f p.2).1) →
      Made sym R (if first then .tensor [toBLeg sym c] [toBLeg sym l] (qr sym c d l f T).1
        else .tensor [toBLeg sym l] [toBLeg sym d] (qr sym c d l f T).2)
  | newLQ (c d l : ESpace S) (isDual : Bool) (T : Ents ℂ) (f : Blk ℂ → Blk ℂ × Blk ℂ) (first : Bool) :
      ValidSpace sym c → ValidSpace sym d → (∀ m ∈ c.mults, 0 < m) → (∀ m ∈ d.mults, 0 < m) →
      newLeg sym c d isDual = some l → Made sym R (.tensor [toBLeg sym c] [toBLeg sym d] T) →
      (∀ p ∈ T, ∀ m n, p.2.shape = [m, n] → Factors m n p.2 (f p.2).1 (f p.2).2 ∧
        RowsOrtho (min m n) n (f p.2).2) →
      Made sym R (if first then .tensor [toBLeg sym c] [toBLeg sym l] (lq sym c d l f T).1
        else .tensor [toBLeg sym l] [toBLeg sym d] (lq sym c d l f T).2)
  | newSVD (c d l : ESpace S) (isDual : Bool) (T : Ents ℂ) (f : Blk ℂ → Blk ℂ × List ℂ × Blk ℂ)
      (which : Fin 3) :
      ValidSpace sym c → ValidSpace sym d → (∀ m ∈ c.mults, 0 < m) → (∀ m ∈ d.mults, 0 < m) →
      newLeg sym c d isDual = some l → Made sym R (.tensor [toBLeg sym c] [toBLeg sym d] T) →
      (∀ p ∈ T, ∀ m n, p.2.shape = [m, n] → IsSVD m n p.2 (f p.2).1 (f p.2).2.1 (f p.2).2.2) →
      Made sym R (match which with
        | 0 => .tensor [toBLeg sym c] [toBLeg sym l] (svd sym c d l f T).1
        | 1 => .diag l (svd sym c d l f T).2.1
        | 2 => .tensor [toBLeg sym l] [toBLeg sym d] (svd sym c d l f T).2.2)
  | newEigh (e : ESpace S) (T : Ents ℂ) (f : Blk ℂ → List ℂ × Blk ℂ) (first : Bool) :
      ValidSpace sym e → Made sym R (.tensor [toBLeg sym e] [toBLeg sym e] T) →
      (∀ p ∈ T, ∀ m, p.2.shape = [m, m] → IsEigh m p.2 (f p.2).1 (f p.2).2) →
      Made sym R (if first then .diag e (eigh e.mults f T).1
        else .tensor [toBLeg sym e] [toBLeg sym e] (eigh e.mults f T).2)
  | actBlockDiagonal (e : ESpace S) (T : Ents ℂ) (f : Blk ℂ → Blk ℂ) : ValidSpace sym e →
      Made sym R (.tensor [toBLeg sym e] [toBLeg sym e] T) →
      (∀ (b : Blk ℂ) (m : ℕ), b.shape = [m, m] → (f b).shape = [m, m]) →
      Made sym R (.tensor [toBLeg sym e] [toBLeg sym e] (actBlockDiagonal e.mults f T))
  -- diagonal tensors
  | diagEye (e : ESpace S) : ValidSpace sym e → Made sym R (.diag e (diagonalEye e.mults))
  | diagFromBlock (e : ESpace S) (a : List ℂ) (D : DEnts ℂ) : ValidSpace sym e →
      fromDiagBlock sym e a = some D → Made sym R (.diag e D)
  | diagUnary (e : ESpace S) (D : DEnts ℂ) (g : ℂ → ℂ) (flag : Bool) : Made sym R (.diag e D) →
      (flag = true → g 0 = 0) → Made sym R (.diag e (elementwiseUnary e.mults (List.map g) flag D))
  | diagBinary (e : ESpace S) (D₁ D₂ : DEnts ℂ) (g : ℂ → ℂ → ℂ) : Made sym R (.diag e D₁) →
      Made sym R (.diag e D₂) → Made sym R (.diag e (elementwiseBinary e.mults (List.zipWith g) false D₁ D₂))
  | diagFull (e : ESpace S) (D : DEnts ℂ) : Made sym R (.diag e D) →
      Made sym R (.tensor [toBLeg sym e] [toBLeg sym e] (fullFromDiagonal D))
  -- masks
  | maskFromBlock (e : ESpace S) (v : List Bool) (M : MaskT S) : ValidSpace sym e →
      fromBlockMask sym e v = some M → Made sym R (.mask M)
  | diagCompare (e : ESpace S) (D₁ D₂ : DEnts ℂ) (g : ℂ → ℂ → Bool) : Made sym R (.diag e D₁) →
      Made sym R (.diag e D₂) → Made sym R (.bdiag e (elementwiseBinary e.mults (List.zipWith g) false D₁ D₂))
  | maskFromDiagonal (e : ESpace S) (D : DEnts Bool) : Made sym R (.bdiag e D) →
      Made sym R (.mask (maskFromDiagonal sym e D))
  | maskToDiagonal (M : MaskT S) : Made sym R (.mask M) → Made sym R (.diag M.large (maskToDiagonal M))
  | maskEye (e : ESpace S) : ValidSpace sym e → Made sym R (.mask (maskEye sym e))
  | maskZero (e : ESpace S) : ValidSpace sym e → Made sym R (.mask (maskZero e))
  | maskUnary (M : MaskT S) (g : Bool → Bool) : Made sym R (.mask M) →
      Made sym R (.mask (M.unary sym (List.map g)))
  | maskBinary (M₁ M₂ M : MaskT S) (g : Bool → Bool → Bool) : Made sym R (.mask M₁) →
      Made sym R (.mask M₂) → M₁.large = M₂.large → M₁.binary sym (List.zipWith g) M₂ = some M →
      Made sym R (.mask M)
  | maskDagger (M : MaskT S) : Made sym R (.mask M) → Made sym R (.mask M.dagger)
  | maskTranspose (M : MaskT S) : Made sym R (.mask M) → Made sym R (.mask M.transpose)
  | maskFull (M : MaskT S) : Made sym R (.mask M) → M.isProjection = true →
      Made sym R (.tensor [toBLeg sym M.small] [toBLeg sym M.large] (fullFromMask M))

/-- What the backend promises about its results: the rows of the table are in range, strictly sorted,
so without duplicates, the blocks have the shapes given by the multiplicities of the legs, and every
stored block conserves the charge. -/
def Good [LinearOrder S] (sym : Sym S) (R : Cyten.FusionRule S) : Obj S → Prop
  | .tensor cod dom T => Sane (multsOf cod ++ (multsOf dom).reverse) T ∧ Conserving R cod dom T
  | .diag e D => ValidSpace sym e ∧ DSane e.mults D
  | .bdiag e D => ValidSpace sym e ∧ DSane e.mults D
  | .mask M => MaskSane sym M

end Cyten.Abelian.Spec
