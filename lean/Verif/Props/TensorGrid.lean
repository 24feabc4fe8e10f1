import Verif.Lemmas.AbelianGrid2
import Mathlib.Data.List.ReduceOption

/-!
# C82: `tensor_from_grid` builds the block matrix

The dense array of the result is the block matrix: the rows are stacked along the first leg of the
codomain, the columns along the last leg of the domain.
-/

namespace Cyten.Abelian.Spec
open Cyten.Spaces Cyten.Props

variable {S K : Type} [LinearOrder S]

/-- A grid of symmetric tensors: the tensors in row `i` have the first codomain leg `lefts[i]`, those in
column `j` the last domain leg `rights[j]`, the other legs are equal for all of them, and there is a
tensor in each row and in each column. -/
structure GridOK (sym : Sym S) (R : Cyten.FusionRule S) (grid : List (List (Option (GTensor S K))))
    (lefts rights ctail dhead : List (ESpace S)) : Prop where
  dims : DimOK sym
  one : ∀ s, sym.dim s = 1
  drop : sym.canDrop = true
  inj : Function.Injective sym.dual
  rows : grid.length = lefts.length
  cols : ∀ row ∈ grid, row.length = rights.length
  rowFull : ∀ row ∈ grid, ∃ op, some op ∈ row
  colFull : ∀ j < rights.length, ∃ row ∈ grid, ∃ op, row[j]? = some (some op)
  nonempty : lefts ≠ []
  op : ∀ (i j : ℕ) (row : List (Option (GTensor S K))) (op : GTensor S K), grid[i]? = some row →
    row[j]? = some (some op) → ∃ l r c d, op.cod = l :: c ∧ op.dom = d ++ [r] ∧ lefts[i]? = some l ∧
      rights[j]? = some r ∧ SameLegs sym c ctail ∧ SameLegs sym d dhead ∧
      IsHom R (op.cod.map (toBLeg sym)) (op.dom.map (toBLeg sym)) op.data
  valid : ∀ e ∈ lefts ++ rights ++ ctail ++ dhead, ValidSpace sym e
  pos : ∀ e ∈ lefts ++ rights, ∀ m ∈ e.mults, 0 < m
  ldual : ∀ x ∈ lefts, ∀ y ∈ lefts, x.isDual = y.isDual
  rdual : ∀ x ∈ rights, ∀ y ∈ rights, x.isDual = y.isDual

end Cyten.Abelian.Spec

namespace Cyten.Props
open Cyten.Abelian Cyten.Abelian.Spec Cyten.Tables Cyten.Tools Cyten.Spaces Cyten.Spaces.Spec
open Cyten.FusionTrees

variable {S K : Type} [LinearOrder S] [AddCommMonoid K]

/-- The sum of spaces contains the sectors of the summands. -/
private theorem sum_where {sym : Sym S} (hd : DimOK sym) (h1 : ∀ s, sym.dim s = 1)
    (hcd : sym.canDrop = true) (hinj : Function.Injective sym.dual) {xs : List (ESpace S)}
    {l0 total : ESpace S} (h0 : xs.head? = some l0) (hsum : l0.directSum sym xs.tail = some total)
    (hv : ∀ x ∈ xs, ValidSpace sym x) {k : ℕ} {x : ESpace S} (hk : xs[k]? = some x) {j b off : ℕ} {s : S}
    (hp : IsPosition sym x j b off) (hs : (x.sectors sym)[b]? = some s) :
    ∃ b', (total.sectors sym)[b']? = some s ∧
      IsPosition sym total (((xs.take k).map (ESpace.dim sym)).sum + j) b' (before sym xs k s + off) := by
  have e : xs = l0 :: xs.tail := by
    cases xs with
    | nil => simp at h0
    | cons y ys => simp at h0; simp [h0]
  rw [e] at hv hk
  obtain ⟨b', h2, h3⟩ := C81_direct_sum_position sym hd h1 hcd hinj l0 xs.tail hv total hsum k x hk
    j b off s hp hs
  rw [← e] at h3
  exact ⟨b', h2, h3⟩

private theorem position_exists {sym : Sym S} (hd : DimOK sym) (h1 : ∀ s, sym.dim s = 1) {x : ESpace S}
    (hv : ValidSpace sym x) {b off : ℕ} (hb : b < x.mults.length) (ho : off < x.mults.getD b 0) :
    ∃ j, IsPosition sym x j b off := by
  have hlt := place_lt hb ho
  rw [← Cyten.Props.dim_eq hd h1 hv, ← basisPerm_length hd hv] at hlt
  exact ⟨_, (isPosition_iff h1 hv _ _ _).2 ⟨hb, ho, List.getElem?_eq_getElem hlt⟩⟩

/-- Where a block goes. -/
private structure PlacedAt (sym : Sym S) (lefts rights : List (ESpace S)) (left right : ESpace S)
    (it : GItem S K) (pl : List ℕ × List (ℕ × ℕ)) (nc : ℕ) (shc shd : List ℕ → List ℕ) : Prop where
  ex : ∃ (l r : ESpace S) (s t : S) (b0 b1 bl br : ℕ) (cm dm : List ℕ),
    lefts[it.i]? = some l ∧ rights[it.j]? = some r ∧ it.row = b0 :: (cm ++ b1 :: dm) ∧
    cm.length = nc ∧ (l.sectors sym)[b0]? = some s ∧ (r.sectors sym)[b1]? = some t ∧
    (left.sectors sym)[bl]? = some s ∧ (right.sectors sym)[br]? = some t ∧
    pl.1 = bl :: (cm ++ br :: dm) ∧
    pl.2 = (before sym lefts it.i s, before sym lefts (it.i + 1) s) :: ((shc cm).map (fun d => (0, d)) ++
      (before sym rights it.j t, before sym rights (it.j + 1) t) :: (shd dm).map fun d => (0, d))

private theorem rowShape_parts (sym : Sym S) (left right : ESpace S) (c d : List (ESpace S)) (x y : ℕ)
    (cm dm : List ℕ) (hc : cm.length = c.length) :
    rowShape ((legOrder (left :: c) (d ++ [right])).map (toBLeg sym)) (x :: (cm ++ y :: dm)) =
      left.mults.getD x 0 :: (shapeOf (legMults c) cm ++ right.mults.getD y 0 ::
        shapeOf (legMults d.reverse) dm) := by
  unfold rowShape legOrder shapeOf legMults
  rw [List.reverse_append, List.reverse_singleton, List.singleton_append, List.cons_append, List.map_cons,
    List.zipWith_cons_cons, List.map_append, List.zipWith_append (by simpa using hc.symm), List.map_cons,
    List.zipWith_cons_cons]
  simp only [List.zipWith_map_left, toBLeg]

private theorem zipWith_sub_zero (l : List ℕ) (sh : List ℕ) (h : l.length = sh.length) :
    List.zipWith (fun x (s : ℕ × ℕ) => x - s.1) l (sh.map fun d => (0, d)) = l := by
  induction l generalizing sh with
  | nil => rfl
  | cons x l ih =>
    cases sh with
    | nil => simp at h
    | cons d sh => simp only [List.map_cons, List.zipWith_cons_cons, ih sh (by simpa using h)]; simp

private theorem inSlices_zero (l : List ℕ) (sh : List ℕ) (rest : List ℕ) (sl : List (ℕ × ℕ))
    (h : InShape l sh) : inSlices (l ++ rest) (sh.map (fun d => (0, d)) ++ sl) = inSlices rest sl := by
  induction h with
  | nil => rfl
  | cons h _ ih => simp only [List.map_cons, List.cons_append, inSlices, ih]; simp [h]

private theorem located_single {sym : Sym S} {l : ESpace S} {a : ℕ} {r p : List ℕ}
    (h : Located sym [l] [a] r p) : ∃ b x : ℕ, r = [b] ∧ p = [x] ∧ IsPosition sym l a b x := by
  match r, p, h with
  | [b], [x], ⟨h1, _⟩ => exact ⟨b, x, rfl, rfl, h1⟩
  | [_], _ :: _ :: _, ⟨_, h2⟩ => exact h2.elim
  | _ :: _ :: _, [_], ⟨_, h2⟩ => exact h2.elim
  | _ :: _ :: _, _ :: _ :: _, ⟨_, h2⟩ => exact h2.elim

section
variable {sym : Sym S} {R : Cyten.FusionRule S} {grid : List (List (Option (GTensor S K)))}
  {lefts rights ctail dhead c0 d0 : List (ESpace S)} {left right l0 r0 : ESpace S}
  (h : GridOK sym R grid lefts rights ctail dhead) (hl0 : lefts.head? = some l0)
  (hleft : l0.directSum sym lefts.tail = some left) (hr0 : rights.head? = some r0)
  (hright : r0.directSum sym rights.tail = some right) (hc0 : SameLegs sym c0 ctail)
  (hd0 : SameLegs sym d0 dhead)
include h hl0 hleft hr0 hright hc0 hd0

private theorem sum_valid : ValidSpace sym left ∧ ValidSpace sym right := by
  have key : ∀ (xs : List (ESpace S)) (x0 tot : ESpace S), xs.head? = some x0 →
      x0.directSum sym xs.tail = some tot → (∀ x ∈ xs, ValidSpace sym x) → ValidSpace sym tot := by
    intro xs x0 tot h0 hs hv
    refine ((C27_direct_sum sym h.dims x0 xs.tail ?_).2 tot hs).1
    cases xs with
    | nil => simp at h0
    | cons y ys =>
      simp at h0
      subst h0
      simpa using hv
  exact ⟨key lefts l0 left hl0 hleft fun x hx => h.valid x (by simp [hx]),
    key rights r0 right hr0 hright fun x hx => h.valid x (by simp [hx])⟩

private theorem place_item (it : GItem S K) (hit : it ∈ gridItems grid) :
    ∃ pl : List ℕ × List (ℕ × ℕ), PlacedAt sym lefts rights left right it pl ctail.length
      (shapeOf (legMults ctail)) (shapeOf (legMults dhead.reverse)) ∧
      Placed sym left right (multSlices sym left lefts) (multSlices sym right rights)
        (left :: c0) (d0 ++ [right]) it pl.1 pl.2 ∧ it.row.length = ctail.length + dhead.length + 2 := by
  obtain ⟨row, hgi, hgj, hblk⟩ := mem_gridItems hit
  obtain ⟨l, r, c, d, ec, ed, hl, hr, hcc, hdd, hhom⟩ := h.op _ _ _ _ hgi hgj
  have hvl : ValidSpace sym l := h.valid l (by simp [List.mem_of_getElem? hl])
  have hvr : ValidSpace sym r := h.valid r (by simp [List.mem_of_getElem? hr])
  have hin := hhom.sane.inRange _ hblk
  have hsh := hhom.sane.shapes _ hblk
  simp only at hin hsh
  have eM : multsOf (it.op.cod.map (toBLeg sym)) ++ (multsOf (it.op.dom.map (toBLeg sym))).reverse =
      l.mults :: (legMults ctail ++ r.mults :: legMults dhead.reverse) := by
    rw [ec, ed]
    unfold multsOf legMults
    rw [← hcc.mults, ← hdd.reverse.mults]
    simp [toBLeg, Function.comp_def]
  rw [eM] at hin hsh
  simp only [List.map_cons, List.map_append] at hin
  obtain ⟨b0, cm, b1, dm, erow, hb0, hb1, hcm, hdm⟩ := inShape_parts hin
  have hcml : cm.length = ctail.length := by simpa [legMults] using hcm.length
  have hdml : dm.length = dhead.length := by simpa [legMults] using hdm.length
  have hb0s : b0 < (l.sectors sym).length := by rw [sectors_length hvl]; exact hb0
  have hb1s : b1 < (r.sectors sym).length := by rw [sectors_length hvr]; exact hb1
  have hs0 := List.getElem?_eq_getElem hb0s
  have hs1 := List.getElem?_eq_getElem hb1s
  set s := (l.sectors sym)[b0] with hs
  set t := (r.sectors sym)[b1] with ht
  have hml := List.getElem?_eq_getElem hb0
  have hmr := List.getElem?_eq_getElem hb1
  have hposl : 0 < l.mults.getD b0 0 := by
    rw [List.getD_eq_getElem _ _ hb0]
    exact h.pos l (by simp [List.mem_of_getElem? hl]) _ (List.getElem_mem hb0)
  have hposr : 0 < r.mults.getD b1 0 := by
    rw [List.getD_eq_getElem _ _ hb1]
    exact h.pos r (by simp [List.mem_of_getElem? hr]) _ (List.getElem_mem hb1)
  obtain ⟨j0, hj0⟩ := position_exists h.dims h.one hvl hb0 hposl
  obtain ⟨j1, hj1⟩ := position_exists h.dims h.one hvr hb1 hposr
  have hVl : ∀ x ∈ lefts, ValidSpace sym x := fun x hx => h.valid x (by simp [hx])
  have hVr : ∀ x ∈ rights, ValidSpace sym x := fun x hx => h.valid x (by simp [hx])
  obtain ⟨bl, hbl, -⟩ := sum_where h.dims h.one h.drop h.inj hl0 hleft hVl hl hj0 hs0
  obtain ⟨br, hbr, -⟩ := sum_where h.dims h.one h.drop h.inj hr0 hright hVr hr hj1 hs1
  obtain ⟨hvL, hvR⟩ := sum_valid h hl0 hleft hr0 hright hc0 hd0
  have hil : it.i < lefts.length := (List.getElem?_eq_some_iff.1 hl).1
  have hjl : it.j < rights.length := (List.getElem?_eq_some_iff.1 hr).1
  refine ⟨(bl :: (cm ++ br :: dm), (before sym lefts it.i s, before sym lefts (it.i + 1) s) ::
    ((shapeOf (legMults ctail) cm).map (fun d => (0, d)) ++
      (before sym rights it.j t, before sym rights (it.j + 1) t) ::
      (shapeOf (legMults dhead.reverse) dm).map fun d => (0, d))), ?_, ⟨?_, ?_⟩, ?_⟩
  · exact ⟨l, r, s, t, b0, b1, bl, br, cm, dm, hl, hr, erow, hcml, hs0, hs1, hbl, hbr, rfl, rfl⟩
  · intro acc
    have hc0l : c0.length = ctail.length := hc0.length_eq
    have hn : (left :: c0).length = cm.length + 1 := by simp [hc0l, hcml]
    obtain ⟨g0, g1⟩ := getD_parts b0 b1 cm dm _ hn
    unfold gridStep
    rw [ec, ed, List.head?_cons, Option.bind_some, erow, g0, hs0, Option.bind_some,
      whereSector?_eq (sectors_nodup h.inj hvL) hbl, Option.bind_some, List.getLast?_append,
      List.getLast?_singleton, Option.some_or, Option.bind_some, g1, hs1, Option.bind_some,
      whereSector?_eq (sectors_nodup h.inj hvR) hbr, Option.bind_some]
    simp only
    rw [set_parts _ _ _ _ _ _ _ hn, multSlices_get h.inj lefts hVl left bl s hbl _ hil.le,
      multSlices_get h.inj lefts hVl left bl s hbl _ hil,
      multSlices_get h.inj rights hVr right br t hbr _ hjl.le,
      multSlices_get h.inj rights hVr right br t hbr _ hjl,
      rowShape_parts sym left right c0 d0 bl br cm dm (by omega)]
    have e1 : legMults c0 = legMults ctail := hc0.mults
    have e2 : legMults d0.reverse = legMults dhead.reverse := hd0.reverse.mults
    rw [e1, e2, List.map_cons, List.map_append, List.map_cons]
    rw [set_parts]
    rw [hn, List.length_map, length_shapeOf _ _ (by simpa [legMults] using hcml), legMults,
      List.length_map, hcml]
  · have e0 : l.mults.getD b0 0 = before sym lefts (it.i + 1) s - before sym lefts it.i s := by
      rw [before_succ lefts it.i s l hl, multOf_at _ _ (sectors_nodup h.inj hvl)
        (by rw [sectors_length hvl]) b0 s _ hs0 hml, List.getD_eq_getElem _ _ hb0]
      omega
    have e1 : r.mults.getD b1 0 = before sym rights (it.j + 1) t - before sym rights it.j t := by
      rw [before_succ rights it.j t r hr, multOf_at _ _ (sectors_nodup h.inj hvr)
        (by rw [sectors_length hvr]) b1 t _ hs1 hmr, List.getD_eq_getElem _ _ hb1]
      omega
    rw [hsh, erow]
    simp only [List.map_cons, List.map_append, List.map_map]
    have e2 : shapeOf (l.mults :: (legMults ctail ++ r.mults :: legMults dhead.reverse))
        (b0 :: (cm ++ b1 :: dm)) = l.mults.getD b0 0 :: (shapeOf (legMults ctail) cm ++
          r.mults.getD b1 0 :: shapeOf (legMults dhead.reverse) dm) := by
      unfold shapeOf
      rw [List.zipWith_cons_cons, List.zipWith_append (by simpa [legMults] using hcml.symm),
        List.zipWith_cons_cons]
    rw [e2, e0, e1]
    have e3 : ∀ l : List ℕ, l.map ((fun s : ℕ × ℕ => s.2 - s.1) ∘ fun d => (0, d)) = l := by
      intro l
      conv_rhs => rw [← List.map_id l]
      exact List.map_congr_left fun x _ => by simp
    rw [e3, e3]
  · rw [erow]; simp; omega

omit h hl0 hleft hr0 hright hc0 hd0 in
/-- What it means that an entry of the result is written by a block. -/
private theorem placed_hit {it : GItem S K} {pl : List ℕ × List (ℕ × ℕ)} {nc : ℕ}
    {shc shd : List ℕ → List ℕ} (hp : PlacedAt sym lefts rights left right it pl nc shc shd)
    {bl br y0 y1 : ℕ} {s t : S} {cm dm cpos dpos : List ℕ} (hcm : cm.length = nc)
    (hs : (left.sectors sym)[bl]? = some s) (ht : (right.sectors sym)[br]? = some t)
    (hcp : InShape cpos (shc cm)) (hdp : InShape dpos (shd dm))
    (hr : bl :: (cm ++ br :: dm) = pl.1) (hin : inSlices (y0 :: (cpos ++ y1 :: dpos)) pl.2 = true) :
    ∃ (l r : ESpace S) (b0 b1 : ℕ), lefts[it.i]? = some l ∧ rights[it.j]? = some r ∧
      it.row = b0 :: (cm ++ b1 :: dm) ∧ (l.sectors sym)[b0]? = some s ∧ (r.sectors sym)[b1]? = some t ∧
      before sym lefts it.i s ≤ y0 ∧ y0 < before sym lefts (it.i + 1) s ∧
      before sym rights it.j t ≤ y1 ∧ y1 < before sym rights (it.j + 1) t := by
  obtain ⟨l, r, s', t', b0, b1, bl', br', cm', dm', hl, hr', erow, hcl, hs0, hs1, hbl, hbr, e1, e2⟩ := hp.ex
  rw [e1] at hr
  obtain ⟨rfl, k1⟩ := List.cons.inj hr
  obtain ⟨rfl, k2⟩ := List.append_inj k1 (by omega)
  obtain ⟨rfl, rfl⟩ := List.cons.inj k2
  rw [hs] at hbl
  rw [ht] at hbr
  cases hbl
  cases hbr
  rw [e2] at hin
  simp only [inSlices, Bool.and_eq_true, decide_eq_true_eq] at hin
  rw [inSlices_zero _ _ _ _ hcp] at hin
  simp only [inSlices, Bool.and_eq_true, decide_eq_true_eq] at hin
  exact ⟨l, r, b0, b1, hl, hr', erow, hs0, hs1, hin.1.1, hin.1.2, hin.2.1.1, hin.2.1.2⟩

omit hl0 hleft hr0 hright in
/-- The result is consistent. -/
private theorem charge_ok (it : GItem S K) (hit : it ∈ gridItems grid) {pl : List ℕ × List (ℕ × ℕ)}
    (hp : PlacedAt sym lefts rights left right it pl ctail.length
      (shapeOf (legMults ctail)) (shapeOf (legMults dhead.reverse)))
    (hlen : it.row.length = ctail.length + dhead.length + 2) :
    fusedCharge R ((left :: c0).map (toBLeg sym)) (pl.1.take (c0.length + 1)) =
      fusedCharge R ((d0 ++ [right]).map (toBLeg sym)) (pl.1.drop (c0.length + 1)).reverse := by
  obtain ⟨l, r, s, t, b0, b1, bl, br, cm, dm, hl, hr, erow, hcl, hs0, hs1, hbl, hbr, e1, e2⟩ := hp.ex
  obtain ⟨row, hgi, hgj, hblk⟩ := mem_gridItems hit
  obtain ⟨l', r', c, d, ec, ed, hl', hr', hcc, hdd, hhom⟩ := h.op _ _ _ _ hgi hgj
  rw [hl] at hl'
  rw [hr] at hr'
  cases hl'
  cases hr'
  have hch := hhom.charge _ hblk
  have lc : c.length = ctail.length := hcc.length_eq
  have lc0 : c0.length = ctail.length := hc0.length_eq
  have ld : d.length = dhead.length := hdd.length_eq
  have ld0 : d0.length = dhead.length := hd0.length_eq
  have hdl : dm.length = dhead.length := by
    rw [erow] at hlen
    simp only [List.length_cons, List.length_append] at hlen
    omega
  have tk : ∀ x y : ℕ, (x :: (cm ++ y :: dm)).take (ctail.length + 1) = x :: cm := by
    intro x y
    rw [List.take_succ_cons, List.take_append_of_le_length (by omega), List.take_of_length_le (by omega)]
  have dp : ∀ x y : ℕ, ((x :: (cm ++ y :: dm)).drop (ctail.length + 1)).reverse = dm.reverse ++ [y] := by
    intro x y
    rw [List.drop_succ_cons, List.drop_append_of_le_length (by omega), List.drop_of_length_le (by omega)]
    simp
  simp only at hch
  rw [ec, ed, erow, List.length_map, List.length_cons, lc, tk, dp] at hch
  rw [e1, lc0, tk, dp]
  have q1 : c.map (toBLeg sym) = c0.map (toBLeg sym) := (hcc.trans hc0.symm).blegs
  have q2 : d.map (toBLeg sym) = d0.map (toBLeg sym) := (hdd.trans hd0.symm).blegs
  have f1 : fusedCharge R ((l :: c).map (toBLeg sym)) (b0 :: cm) =
      fusedCharge R ((left :: c0).map (toBLeg sym)) (bl :: cm) := by
    unfold fusedCharge
    rw [List.map_cons, List.map_cons, List.zipWith_cons_cons, List.zipWith_cons_cons, q1]
    simp only [toBLeg, hs0, hbl]
  have f2 : fusedCharge R ((d ++ [r]).map (toBLeg sym)) (dm.reverse ++ [b1]) =
      fusedCharge R ((d0 ++ [right]).map (toBLeg sym)) (dm.reverse ++ [br]) := by
    unfold fusedCharge
    rw [List.map_append, List.map_append, q2, List.zipWith_append (by simp; omega),
      List.zipWith_append (by simp; omega)]
    simp only [toBLeg, List.map_cons, List.map_nil, List.zipWith_cons_cons, hs1, hbr]
  rw [← f1, ← f2, hch]

private theorem grid_core : ∃ T, fromGrid sym grid (left :: c0) (d0 ++ [right])
    (multSlices sym left lefts) (multSlices sym right rights) = some T ∧
    IsHom R ((left :: c0).map (toBLeg sym)) ((d0 ++ [right]).map (toBLeg sym)) T ∧
    ∀ (i j : ℕ) (row : List (Option (GTensor S K))) (o : Option (GTensor S K)) (l r : ESpace S),
      grid[i]? = some row → row[j]? = some o → lefts[i]? = some l → rights[j]? = some r →
      ∀ (a b : ℕ) (ci di : List ℕ), a < l.dim sym → b < r.dim sym →
        InShape ci (ctail.map (ESpace.dim sym)) → InShape di (dhead.reverse.map (ESpace.dim sym)) →
        (toDense sym ((left :: c0) ++ (d0 ++ [right]).reverse) T).val
          ((((lefts.take i).map (ESpace.dim sym)).sum + a) ::
            (ci ++ (((rights.take j).map (ESpace.dim sym)).sum + b) :: di)) =
        match o with
        | none => 0
        | some op => (toDense sym (op.cod ++ op.dom.reverse) op.data).val (a :: (ci ++ b :: di)) := by
  classical
  have hpl := fun it (hit : it ∈ gridItems grid) => place_item h hl0 hleft hr0 hright hc0 hd0 it hit
  obtain ⟨hvL, hvR⟩ := sum_valid h hl0 hleft hr0 hright hc0 hd0
  set place : GItem S K → List ℕ × List (ℕ × ℕ) := fun it =>
    if hit : it ∈ gridItems grid then (hpl it hit).choose else ([], []) with hplace
  have hP : ∀ it (hit : it ∈ gridItems grid), PlacedAt sym lefts rights left right it (place it)
      ctail.length (shapeOf (legMults ctail)) (shapeOf (legMults dhead.reverse)) ∧
      Placed sym left right (multSlices sym left lefts) (multSlices sym right rights)
        (left :: c0) (d0 ++ [right]) it (place it).1 (place it).2 ∧
      it.row.length = ctail.length + dhead.length + 2 := by
    intro it hit
    have : place it = (hpl it hit).choose := by rw [hplace]; exact dif_pos hit
    rw [this]
    exact (hpl it hit).choose_spec
  obtain ⟨T, hT, t1, t2, t3⟩ := gridLoop_spec sym (left :: c0) (d0 ++ [right]) left right
    (multSlices sym left lefts) (multSlices sym right rights) (gridItems grid) place
    (fun it hit => (hP it hit).2.1) []
  have lc0 : c0.length = ctail.length := hc0.length_eq
  have ld0 : d0.length = dhead.length := hd0.length_eq
  have eM : multsOf ((left :: c0).map (toBLeg sym)) ++ (multsOf ((d0 ++ [right]).map (toBLeg sym))).reverse =
      left.mults :: (legMults c0 ++ right.mults :: legMults d0.reverse) := by
    unfold multsOf legMults
    simp [toBLeg, Function.comp_def]
  have em1 : legMults c0 = legMults ctail := hc0.mults
  have em2 : legMults d0.reverse = legMults dhead.reverse := hd0.reverse.mults
  have hmem : ∀ p ∈ T, ∃ it ∈ gridItems grid, p.1 = (place it).1 ∧
      p.2.shape = rowShape ((legOrder (left :: c0) (d0 ++ [right])).map (toBLeg sym)) p.1 := by
    intro p hp
    rcases t2 p hp with ⟨q, hq, -⟩ | h
    · cases hq
    · exact h
  have hsane : Sane (left.mults :: (legMults c0 ++ right.mults :: legMults d0.reverse))
      (mkData T false) := by
    refine sane_mkData (fun p hp => ?_) (fun p hp => ?_) (t3 (by simp))
    · obtain ⟨it, hit, e, -⟩ := hmem p hp
      obtain ⟨⟨l, r, s, t, b0, b1, bl, br, cm, dm, hl, hr, erow, hcl, hs0, hs1, hbl, hbr, e1, e2⟩⟩ :=
        (hP it hit).1
      obtain ⟨row, hgi, hgj, hblk⟩ := mem_gridItems hit
      obtain ⟨l', r', c, d, ec, ed, hl', hr', hcc, hdd, hhom⟩ := h.op _ _ _ _ hgi hgj
      have hin := hhom.sane.inRange _ hblk
      have eM' : multsOf (it.op.cod.map (toBLeg sym)) ++ (multsOf (it.op.dom.map (toBLeg sym))).reverse =
          l'.mults :: (legMults ctail ++ r'.mults :: legMults dhead.reverse) := by
        rw [ec, ed]
        unfold multsOf legMults
        rw [← hcc.mults, ← hdd.reverse.mults]
        simp [toBLeg, Function.comp_def]
      simp only at hin
      rw [eM', List.map_cons, List.map_append, List.map_cons, erow] at hin
      obtain ⟨_, cm', _, dm', erow', -, -, hcm, hdm⟩ := inShape_parts hin
      obtain ⟨rfl, k1⟩ := List.cons.inj erow'
      obtain ⟨rfl, k2⟩ := List.append_inj k1 (by
        rw [hcl]; simpa [legMults] using hcm.length.symm)
      obtain ⟨rfl, rfl⟩ := List.cons.inj k2
      rw [e, e1, em1, em2]
      rw [List.map_cons, List.map_append, List.map_cons]
      refine List.Forall₂.cons ?_ (List.rel_append hcm (List.Forall₂.cons ?_ hdm))
      · rw [← sectors_length hvL]
        exact (List.getElem?_eq_some_iff.1 hbl).1
      · rw [← sectors_length hvR]
        exact (List.getElem?_eq_some_iff.1 hbr).1
    · obtain ⟨it, hit, e, e'⟩ := hmem p hp
      obtain ⟨⟨l, r, s, t, b0, b1, bl, br, cm, dm, hl, hr, erow, hcl, hs0, hs1, hbl, hbr, e1, e2⟩⟩ :=
        (hP it hit).1
      rw [e', e, e1, rowShape_parts _ _ _ _ _ _ _ _ _ (by omega)]
      unfold shapeOf
      rw [List.zipWith_cons_cons, List.zipWith_append (by simp [legMults]; omega), List.zipWith_cons_cons]
  refine ⟨mkData T false, ?_, ⟨by rw [eM]; exact hsane, fun p hp => ?_⟩, ?_⟩
  · unfold fromGrid
    rw [List.head?_cons, Option.bind_some, List.getLast?_append, List.getLast?_singleton, Option.some_or,
      Option.bind_some, hT]
    rfl
  · obtain ⟨it, hit, e, -⟩ := hmem p (mem_mkData.1 hp)
    rw [e, List.length_map, List.length_cons]
    exact charge_ok h hc0 hd0 it hit (hP it hit).1 (hP it hit).2.2
  intro i j row o l r hgi hgj hl hr a b ci di ha hb hci hdi
  have hvl : ValidSpace sym l := h.valid l (by simp [List.mem_of_getElem? hl])
  have hvr : ValidSpace sym r := h.valid r (by simp [List.mem_of_getElem? hr])
  have hVl : ∀ x ∈ lefts, ValidSpace sym x := fun x hx => h.valid x (by simp [hx])
  have hVr : ∀ x ∈ rights, ValidSpace sym x := fun x hx => h.valid x (by simp [hx])
  have hVc : ∀ x ∈ ctail, ValidSpace sym x := fun x hx => h.valid x (by simp [hx])
  have hVd : ∀ x ∈ dhead, ValidSpace sym x := fun x hx => h.valid x (by simp [hx])
  obtain ⟨cm, cpos, hcloc, hcidx⟩ := (C35_index_bijection sym ctail ⟨h.dims, h.one, h.drop, hVc⟩).1 ci hci
  obtain ⟨dm, dpos, hdloc, hdidx⟩ := (C35_index_bijection sym dhead.reverse
    ⟨h.dims, h.one, h.drop, fun x hx => hVd x (List.mem_reverse.1 hx)⟩).1 di hdi
  obtain ⟨rw0, ps0, hloc0, -⟩ := (C35_index_bijection sym [l]
    ⟨h.dims, h.one, h.drop, fun x hx => by rw [List.mem_singleton.1 hx]; exact hvl⟩).1 [a]
    (List.Forall₂.cons ha .nil)
  obtain ⟨rw1, ps1, hloc1, -⟩ := (C35_index_bijection sym [r]
    ⟨h.dims, h.one, h.drop, fun x hx => by rw [List.mem_singleton.1 hx]; exact hvr⟩).1 [b]
    (List.Forall₂.cons hb .nil)
  obtain ⟨b0, x0, rfl, rfl, hp0⟩ := located_single hloc0
  obtain ⟨b1, x1, rfl, rfl, hp1⟩ := located_single hloc1
  obtain ⟨hb0, hx0, -⟩ := (isPosition_iff h.one hvl _ _ _).1 hp0
  obtain ⟨hb1, hx1, -⟩ := (isPosition_iff h.one hvr _ _ _).1 hp1
  have hs0 := List.getElem?_eq_getElem (show b0 < (l.sectors sym).length by
    rw [sectors_length hvl]; exact hb0)
  have hs1 := List.getElem?_eq_getElem (show b1 < (r.sectors sym).length by
    rw [sectors_length hvr]; exact hb1)
  set s := (l.sectors sym)[b0]'(by rw [sectors_length hvl]; exact hb0) with hs
  set t := (r.sectors sym)[b1]'(by rw [sectors_length hvr]; exact hb1) with ht
  obtain ⟨bl, hbl, hposL⟩ := sum_where h.dims h.one h.drop h.inj hl0 hleft hVl hl hp0 hs0
  obtain ⟨br, hbr, hposR⟩ := sum_where h.dims h.one h.drop h.inj hr0 hright hVr hr hp1 hs1
  have hm0 : multOf (l.sectors sym) l.mults s = l.mults.getD b0 0 := by
    rw [multOf_at _ _ (sectors_nodup h.inj hvl) (by rw [sectors_length hvl]) b0 s _ hs0
      (List.getElem?_eq_getElem hb0), List.getD_eq_getElem _ _ hb0]
  have hm1 : multOf (r.sectors sym) r.mults t = r.mults.getD b1 0 := by
    rw [multOf_at _ _ (sectors_nodup h.inj hvr) (by rw [sectors_length hvr]) b1 t _ hs1
      (List.getElem?_eq_getElem hb1), List.getD_eq_getElem _ _ hb1]
  have hcml : cm.length = ctail.length := by simpa [legMults] using hcidx.1.length
  have hVc0 := SameLegs.valid h.dims hc0.symm hVc
  have hVd0 := SameLegs.valid h.dims hd0.symm hVd
  have hok : DenseOK sym ((left :: c0) ++ (d0 ++ [right]).reverse) := by
    refine ⟨h.dims, h.one, h.drop, fun e he => ?_⟩
    simp only [List.reverse_append, List.reverse_singleton, List.singleton_append, List.mem_append,
      List.mem_cons, List.mem_reverse] at he
    rcases he with (rfl | he) | (rfl | he)
    · exact hvL
    · exact hVc0 e he
    · exact hvR
    · exact hVd0 e he
  have hlocT : Located sym ((left :: c0) ++ (d0 ++ [right]).reverse)
      ((((lefts.take i).map (ESpace.dim sym)).sum + a) ::
            (ci ++ (((rights.take j).map (ESpace.dim sym)).sum + b) :: di))
      (bl :: (cm ++ br :: dm))
      ((before sym lefts i s + x0) :: (cpos ++ (before sym rights j t + x1) :: dpos)) := by
    rw [List.reverse_append, List.reverse_singleton, List.singleton_append, List.cons_append]
    exact ⟨hposL, located_append (hc0.symm.located hcloc) ⟨hposR, hd0.reverse.symm.located hdloc⟩⟩
  rw [(C35_to_dense sym _ hok (mkData T false) (by
    have : legMults (left :: c0 ++ (d0 ++ [right]).reverse) =
      left.mults :: (legMults c0 ++ right.mults :: legMults d0.reverse) := by simp [legMults]
    rw [this]; exact hsane)).2 _ _ _ hlocT, dense_mkData, t1, dense_nil, zero_add,
    sum_gridItems grid i j row o hgi hgj]
  · cases o with
    | none => rfl
    | some op =>
      simp only
      obtain ⟨l', r', c, d, ec, ed, hl', hr', hcc, hdd, hhom⟩ := h.op _ _ _ _ hgi hgj
      rw [hl] at hl'
      rw [hr] at hr'
      cases hl'
      cases hr'
      have hlocO : Located sym (op.cod ++ op.dom.reverse) (a :: (ci ++ b :: di))
          (b0 :: (cm ++ b1 :: dm)) (x0 :: (cpos ++ x1 :: dpos)) := by
        rw [ec, ed, List.reverse_append, List.reverse_singleton, List.singleton_append, List.cons_append]
        exact ⟨hp0, located_append (hcc.symm.located hcloc) ⟨hp1, hdd.reverse.symm.located hdloc⟩⟩
      have hokO : DenseOK sym (op.cod ++ op.dom.reverse) := by
        refine ⟨h.dims, h.one, h.drop, fun e he => ?_⟩
        rw [ec, ed] at he
        simp only [List.reverse_append, List.reverse_singleton, List.singleton_append, List.mem_append,
          List.mem_cons, List.mem_reverse] at he
        rcases he with (rfl | he) | (rfl | he)
        · exact hvl
        · exact SameLegs.valid h.dims hcc.symm hVc e he
        · exact hvr
        · exact SameLegs.valid h.dims hdd.symm hVd e he
      have hsO : Sane (legMults (op.cod ++ op.dom.reverse)) op.data := by
        have := hhom.sane
        have e : multsOf (op.cod.map (toBLeg sym)) ++ (multsOf (op.dom.map (toBLeg sym))).reverse =
            legMults (op.cod ++ op.dom.reverse) := by
          unfold multsOf legMults
          simp [toBLeg, Function.comp_def]
        rwa [e] at this
      rw [(C35_to_dense sym _ hokO op.data hsO).2 _ _ _ hlocO]
      unfold dense
      congr 1
      apply List.map_congr_left
      intro p hp
      have hit : (⟨i, j, op, p.1, p.2⟩ : GItem S K) ∈ gridItems grid := by
        unfold gridItems
        refine List.mem_flatMap.2 ⟨(row, i), List.mem_zipIdx_iff_getElem?.2 hgi, List.mem_flatMap.2
          ⟨(some op, j), List.mem_zipIdx_iff_getElem?.2 hgj, List.mem_map.2 ⟨p, hp, rfl⟩⟩⟩
      obtain ⟨hpa, hpp, -⟩ := hP _ hit
      by_cases hrow : p.1 = b0 :: (cm ++ b1 :: dm)
      · rw [if_pos hrow]
        obtain ⟨l', r', s', t', b0', b1', bl', br', cm', dm', hl', hr', erow, hcl', hs0', hs1', hbl', hbr',
          e1, e2⟩ := hpa.ex
        simp only at hl' hr' erow e2
        rw [hl] at hl'
        rw [hr] at hr'
        cases hl'
        cases hr'
        rw [hrow] at erow
        obtain ⟨rfl, k1⟩ := List.cons.inj erow
        obtain ⟨rfl, k2⟩ := List.append_inj k1 (by omega)
        obtain ⟨rfl, rfl⟩ := List.cons.inj k2
        rw [hs0] at hs0'
        rw [hs1] at hs1'
        obtain rfl := Option.some.inj hs0'
        obtain rfl := Option.some.inj hs1'
        have q0 : bl' = bl := by
          have := whereSector?_eq (sectors_nodup h.inj hvL) hbl
          rw [whereSector?_eq (sectors_nodup h.inj hvL) hbl'] at this
          simpa using this
        have q1 : br' = br := by
          have := whereSector?_eq (sectors_nodup h.inj hvR) hbr
          rw [whereSector?_eq (sectors_nodup h.inj hvR) hbr'] at this
          simpa using this
        subst q0 q1
        have hin : inSlices ((before sym lefts i s + x0) ::
            (cpos ++ (before sym rights j t + x1) :: dpos)) (place ⟨i, j, op, p.1, p.2⟩).2 = true := by
          rw [e2]
          simp only [inSlices, Bool.and_eq_true, decide_eq_true_eq]
          rw [inSlices_zero _ _ _ _ hcidx.2]
          simp only [inSlices, Bool.and_eq_true, decide_eq_true_eq]
          rw [before_succ lefts i s l hl, before_succ rights j t r hr, hm0, hm1]
          have := inSlices_zero dpos _ [] [] hdidx.2
          rw [List.append_nil, List.append_nil] at this
          rw [this]
          refine ⟨⟨by omega, by omega⟩, ⟨by omega, by omega⟩, rfl⟩
        rw [if_pos ⟨e1.symm, hin⟩, bcast_eq hpp.shape ?_ hin]
        · rw [e2, List.zipWith_cons_cons, List.zipWith_append (by
            rw [List.length_map]; exact hcidx.2.length), List.zipWith_cons_cons,
            zipWith_sub_zero _ _ hcidx.2.length, zipWith_sub_zero _ _ hdidx.2.length]
          simp
        · rw [e2]
          have k1 := hcidx.2.length
          have k2 := hdidx.2.length
          simp only [List.length_cons, List.length_append, List.length_map]
          omega
      · rw [if_neg hrow, if_neg]
        rintro ⟨h1, h2⟩
        obtain ⟨l', r', b0', b1', hl', hr', erow, hs0', hs1', -⟩ :=
          placed_hit hpa hcml hbl hbr hcidx.2 hdidx.2 h1 h2
        simp only at hl' hr' erow
        rw [hl] at hl'
        rw [hr] at hr'
        cases hl'
        cases hr'
        apply hrow
        have q0 : b0' = b0 := by
          have := whereSector?_eq (sectors_nodup h.inj hvl) hs0
          rw [whereSector?_eq (sectors_nodup h.inj hvl) hs0'] at this
          simpa using this
        have q1 : b1' = b1 := by
          have := whereSector?_eq (sectors_nodup h.inj hvr) hs1
          rw [whereSector?_eq (sectors_nodup h.inj hvr) hs1'] at this
          simpa using this
        rw [erow, q0, q1]
  · intro it hit hne
    refine if_neg ?_
    rintro ⟨h1, h2⟩
    obtain ⟨l', r', b0', b1', hl', hr', erow, hs0', hs1', i1, i2, i3, i4⟩ :=
      placed_hit (hP it hit).1 hcml hbl hbr hcidx.2 hdidx.2 h1 h2
    exact hne ⟨before_unique lefts s hl (by rw [hm0]; exact hx0) i1 i2,
      before_unique rights t hr (by rw [hm1]; exact hx1) i3 i4⟩

end

private theorem mapM_eq {α β : Type} (l : List α) (f : α → Option β) (m : List β)
    (hl : m.length = l.length) (h : ∀ (i : ℕ) (x : α), l[i]? = some x → f x = m[i]?) : l.mapM f = some m := by
  obtain ⟨m', h1, h2, h3⟩ := exists_mapM l f (fun i y => m[i]? = some y) 0 fun i x hx => by
    have hi : i < m.length := by rw [hl]; exact (List.getElem?_eq_some_iff.1 hx).1
    exact ⟨m[i], by rw [h i x hx, List.getElem?_eq_getElem hi], by
      rw [Nat.zero_add]; exact List.getElem?_eq_getElem hi⟩
  rw [h1]
  congr 1
  apply List.ext_getElem?
  intro i
  cases hm : m'[i]? with
  | some y => have := h3 i y hm; rw [Nat.zero_add] at this; exact this.symm
  | none =>
    have : m'.length ≤ i := List.getElem?_eq_none_iff.1 hm
    exact (List.getElem?_eq_none (by omega)).symm

private theorem sum_exists {sym : Sym S} (hd : DimOK sym) {xs : List (ESpace S)} (hne : xs ≠ [])
    (hv : ∀ x ∈ xs, ValidSpace sym x) (hdual : ∀ x ∈ xs, ∀ y ∈ xs, x.isDual = y.isDual) :
    ∃ x0 tot, xs.head? = some x0 ∧ x0.directSum sym xs.tail = some tot ∧
      tot.dim sym = (xs.map (ESpace.dim sym)).sum := by
  cases xs with
  | nil => exact absurd rfl hne
  | cons x0 xs =>
    obtain ⟨h1, h2⟩ := C27_direct_sum sym hd x0 xs hv
    cases hs : x0.directSum sym xs with
    | none =>
      obtain ⟨o, ho, hne⟩ := h1.1 hs
      exact absurd (hdual o (List.mem_cons_of_mem _ ho) x0 List.mem_cons_self) hne
    | some tot => exact ⟨x0, tot, rfl, hs, (h2 tot hs).2.2.2.1⟩

private theorem mem_flat {grid : List (List (Option (GTensor S K)))} {op : GTensor S K}
    (h : op ∈ grid.flatten.reduceOption) : ∃ (i j : ℕ) (row : List (Option (GTensor S K))),
      grid[i]? = some row ∧ row[j]? = some (some op) := by
  rw [List.reduceOption_mem_iff, List.mem_flatten] at h
  obtain ⟨row, hr, ho⟩ := h
  obtain ⟨i, hi⟩ := List.getElem?_of_mem hr
  obtain ⟨j, hj⟩ := List.getElem?_of_mem ho
  exact ⟨i, j, row, hi, hj⟩

/-- **C82**: `tensor_from_grid` of a consistent grid succeeds, and gives a symmetric tensor whose dense
array is the block matrix: the first codomain leg is the direct sum of the legs of the rows, the last
domain leg the direct sum of the legs of the columns, the other legs are unchanged; the entry in row
block `i` and column block `j` is the entry of the tensor of the grid at `(i, j)`, and zero if there is
none. -/
theorem C82_tensor_from_grid {sym : Sym S} {R : Cyten.FusionRule S}
    {grid : List (List (Option (GTensor S K)))} {lefts rights ctail dhead : List (ESpace S)}
    (h : GridOK sym R grid lefts rights ctail dhead) :
    ∃ (t : GTensor S K) (left right l0 r0 : ESpace S) (c d : List (ESpace S)),
      tensorFromGrid sym grid = some t ∧ t.cod = left :: c ∧ t.dom = d ++ [right] ∧
      lefts.head? = some l0 ∧ l0.directSum sym lefts.tail = some left ∧
      rights.head? = some r0 ∧ r0.directSum sym rights.tail = some right ∧
      SameLegs sym c ctail ∧ SameLegs sym d dhead ∧
      IsHom R (t.cod.map (toBLeg sym)) (t.dom.map (toBLeg sym)) t.data ∧
      left.dim sym = (lefts.map (ESpace.dim sym)).sum ∧
      right.dim sym = (rights.map (ESpace.dim sym)).sum ∧
      ∀ (i j : ℕ) (row : List (Option (GTensor S K))) (o : Option (GTensor S K)) (l r : ESpace S),
        grid[i]? = some row → row[j]? = some o → lefts[i]? = some l → rights[j]? = some r →
        ∀ (a b : ℕ) (ci di : List ℕ), a < l.dim sym → b < r.dim sym →
          InShape ci (ctail.map (ESpace.dim sym)) → InShape di (dhead.reverse.map (ESpace.dim sym)) →
          (toDense sym (t.cod ++ t.dom.reverse) t.data).val
            ((((lefts.take i).map (ESpace.dim sym)).sum + a) ::
              (ci ++ (((rights.take j).map (ESpace.dim sym)).sum + b) :: di)) =
          match o with
          | none => 0
          | some op => (toDense sym (op.cod ++ op.dom.reverse) op.data).val (a :: (ci ++ b :: di)) := by
  -- the first tensor
  obtain ⟨row0, rest, hgrid⟩ : ∃ row0 rest, grid = row0 :: rest := by
    cases hg : grid with
    | nil =>
      have := h.rows
      rw [hg] at this
      exact absurd (List.length_eq_zero_iff.1 this.symm) h.nonempty
    | cons a b => exact ⟨a, b, rfl⟩
  have hrow0 : row0 ∈ grid := by rw [hgrid]; exact List.mem_cons_self
  have hne : grid.flatten.reduceOption ≠ [] := by
    obtain ⟨op, hop⟩ := h.rowFull row0 hrow0
    intro hc
    have : op ∈ grid.flatten.reduceOption :=
      List.reduceOption_mem_iff.2 (List.mem_flatten.2 ⟨row0, hrow0, hop⟩)
    rw [hc] at this
    cases this
  obtain ⟨ref, href⟩ : ∃ ref, grid.flatten.reduceOption.head? = some ref := by
    cases hx : grid.flatten.reduceOption with
    | nil => exact absurd hx hne
    | cons a b => exact ⟨a, rfl⟩
  obtain ⟨i0, j0, rw0, hi0, hj0⟩ := mem_flat (List.mem_of_mem_head? href)
  obtain ⟨l1, r1, c, d, ec, ed, -, hr1, hcc, hdd, -⟩ := h.op _ _ _ _ hi0 hj0
  have hrne : rights ≠ [] := by rintro rfl; simp at hr1
  have hVl : ∀ x ∈ lefts, ValidSpace sym x := fun x hx => h.valid x (by simp [hx])
  have hVr : ∀ x ∈ rights, ValidSpace sym x := fun x hx => h.valid x (by simp [hx])
  obtain ⟨l0, left, hl0, hleft, hld⟩ := sum_exists h.dims h.nonempty hVl h.ldual
  obtain ⟨r0, right, hr0, hright, hrd⟩ := sum_exists h.dims hrne hVr h.rdual
  obtain ⟨T, hT, hhom, hent⟩ := grid_core h hl0 hleft hr0 hright hcc hdd
  refine ⟨⟨left :: c, d ++ [right], T⟩, left, right, l0, r0, c, d, ?_, rfl, rfl, hl0, hleft, hr0, hright, hcc,
    hdd, hhom, hld, hrd, hent⟩
  unfold tensorFromGrid
  have hck : grid.flatten.reduceOption.all (gridLegsOk sym ref) = true := by
    rw [List.all_eq_true]
    intro op hop
    obtain ⟨i, j, row, hi, hj⟩ := mem_flat hop
    obtain ⟨l2, r2, c2, d2, ec2, ed2, -, -, hcc2, hdd2, -⟩ := h.op _ _ _ _ hi hj
    have q1 := hcc2.trans hcc.symm
    have q2 := hdd2.trans hdd.symm
    unfold gridLegsOk
    rw [ec, ed, ec2, ed2]
    simp only [List.tail_cons, List.dropLast_concat, (sameLegs_iff _ _).2 q1, (sameLegs_iff _ _).2 q2]
    simp [q1.length_eq, q2.length_eq]
  have hrows : (grid.all fun row => row.length == row0.length) = true := by
    rw [List.all_eq_true]
    intro row hrow
    rw [beq_iff_eq, h.cols row hrow, h.cols row0 hrow0]
  obtain ⟨rightOps, hro, hrol, hroQ⟩ := exists_mapM (List.range row0.length) (firstInColumn grid)
    (fun j op => op.dom.getLast? = rights[j]?) 0 fun j x hx => by
      obtain ⟨hj, rfl⟩ : j < row0.length ∧ j = x := by
        obtain ⟨h1, h2⟩ := List.getElem?_eq_some_iff.1 hx
        exact ⟨by simpa using h1, by simpa using h2⟩
      rw [h.cols row0 hrow0] at hj
      obtain ⟨row, hrow, op, hop⟩ := h.colFull j hj
      cases hf : firstInColumn grid j with
      | none =>
        unfold firstInColumn at hf
        have := List.findSome?_eq_none_iff.1 hf row hrow
        rw [hop] at this
        cases this
      | some op' =>
        obtain ⟨row', hrow', he⟩ := List.exists_of_findSome?_eq_some hf
        have he' : row'[j]? = some (some op') := by
          cases hr' : row'[j]? with
          | none => rw [hr'] at he; cases he
          | some z => rw [hr'] at he; simp only [Option.join_some] at he; rw [he]
        obtain ⟨i, hi⟩ := List.getElem?_of_mem hrow'
        obtain ⟨l2, r2, c2, d2, ec2, ed2, -, hr2, -⟩ := h.op _ _ _ _ hi he'
        exact ⟨op', rfl, by rw [ed2, Nat.zero_add, hr2]; simp⟩
  have hrights : (rightOps.mapM fun (op : GTensor S K) => op.dom.getLast?) = some rights := by
    refine mapM_eq _ _ _ ?_ fun i x hx => ?_
    · rw [hrol, List.length_range, h.cols row0 hrow0]
    · rw [hroQ i x hx, Nat.zero_add]
  obtain ⟨leftOps, hlo, hlol, hloQ⟩ := exists_mapM grid firstInRow
    (fun i op => op.cod.head? = lefts[i]?) 0 fun i row hx => by
      obtain ⟨op, hop⟩ := h.rowFull row (List.mem_of_getElem? hx)
      cases hf : firstInRow row with
      | none =>
        unfold firstInRow at hf
        have := List.findSome?_eq_none_iff.1 hf _ hop
        cases this
      | some op' =>
        obtain ⟨z, hz, he⟩ := List.exists_of_findSome?_eq_some hf
        have : z = some op' := he
        subst this
        obtain ⟨j, hj⟩ := List.getElem?_of_mem hz
        obtain ⟨l2, r2, c2, d2, ec2, ed2, hl2, -⟩ := h.op _ _ _ _ hx hj
        exact ⟨op', rfl, by rw [ec2, Nat.zero_add, hl2]; rfl⟩
  have hlefts : (leftOps.mapM fun (op : GTensor S K) => op.cod.head?) = some lefts := by
    refine mapM_eq _ _ _ ?_ fun i x hx => ?_
    · rw [hlol, h.rows]
    · rw [hloQ i x hx, Nat.zero_add]
  rw [href, Option.bind_some, hck, if_neg (by simp)]
  have hh : grid.head? = some row0 := by rw [hgrid]; rfl
  rw [hh, Option.bind_some, hrows, if_neg (by simp), hro, Option.bind_some, hrights, Option.bind_some, hlo,
    Option.bind_some, hlefts, Option.bind_some, hl0, Option.bind_some, hleft, Option.bind_some, hr0,
    Option.bind_some, hright, Option.bind_some]
  simp only [ec, ed, List.tail_cons, List.dropLast_concat]
  rw [hT]
  rfl

end Cyten.Props
