import Verif.Lemmas.DirectSum

/-!
# C81: the basis of a direct sum

`IsPosition sym e j b off` says that the public basis vector `j` of the space `e` is vector number `off`
of its sector number `b`.
-/

namespace Cyten.Props
open Cyten.Tools Cyten.Tables Cyten.Spaces Cyten.Spaces.Spec

variable {S : Type} [LinearOrder S]

/-- **C81**: `direct_sum` for sectors of dimension one: the public basis vector `j` of summand number `k`
is the public basis vector `j` plus the dimensions of the previous summands, and it is stored in the
block of its sector behind the vectors of the previous summands in this sector. -/
theorem C81_direct_sum_position (sym : Sym S) (hd : DimOK sym) (h1 : ∀ s, sym.dim s = 1)
    (hcd : sym.canDrop = true) (hinj : Function.Injective sym.dual) (e : ESpace S)
    (others : List (ESpace S)) (hv : ∀ x ∈ e :: others, ValidSpace sym x) (r : ESpace S)
    (hr : e.directSum sym others = some r) (k : ℕ) (x : ESpace S) (hk : (e :: others)[k]? = some x)
    (j b off : ℕ) (s : S) (hp : IsPosition sym x j b off) (hs : (x.sectors sym)[b]? = some s) :
    ∃ b', (r.sectors sym)[b']? = some s ∧
      IsPosition sym r ((((e :: others).take k).map (ESpace.dim sym)).sum + j) b'
        ((((e :: others).take k).map fun y => multOf (y.sectors sym) y.mults s).sum + off) := by
  by_cases hnil : others = []
  · subst hnil
    cases k with
    | succ k => simp at hk
    | zero =>
      simp only [List.getElem?_cons_zero, Option.some.injEq] at hk
      subst hk
      simp only [ESpace.directSum, List.isEmpty_nil, if_true, Option.some.injEq] at hr
      subst hr
      exact ⟨b, hs, by simpa using hp⟩
  have hall : (others.all fun o => o.isDual == e.isDual) = true := by
    by_contra hc
    unfold ESpace.directSum at hr
    rw [if_neg (by simpa using hnil), if_neg hc] at hr
    cases hr
  have hdual : ∀ y ∈ e :: others, y.isDual = e.isDual := by
    intro y hy
    rcases List.mem_cons.1 hy with rfl | hy
    · rfl
    · simpa using List.all_eq_true.1 hall y hy
  set xs := e :: others with hxs
  have hsplit : xs = xs.take k ++ (x :: xs.drop (k + 1)) := by
    obtain ⟨h, rfl⟩ := List.getElem?_eq_some_iff.1 hk
    rw [← List.drop_eq_getElem_cons h, List.take_append_drop]
  have hvx : ValidSpace sym x := hv x (List.mem_of_getElem? hk)
  set O := ((xs.take k).map (ESpace.dim sym)).sum with hO
  obtain ⟨E1, a1, a2, a3, a4⟩ := exists_space_entries sym hd h1 (xs.take k)
    (fun y hy => hv y (List.mem_of_mem_take hy)) 0
  obtain ⟨Ex, b1, b2, b3, b4⟩ := exists_space_entries sym hd h1 [x]
    (fun y hy => by rw [List.mem_singleton.1 hy]; exact hvx) O
  obtain ⟨E2, c1, c2, c3, c4⟩ := exists_space_entries sym hd h1 (xs.drop (k + 1))
    (fun y hy => hv y (List.mem_of_mem_drop hy)) (O + x.dim sym)
  set E := E1 ++ (Ex ++ E2) with hE
  have hok : ∀ y ∈ E, y.ok sym.dim := by
    intro y hy
    rcases List.mem_append.1 hy with hy | hy
    · exact a4 y hy
    · rcases List.mem_append.1 hy with hy | hy
      · exact b4 y hy
      · exact c4 y hy
  have d1 : E.map (·.s) = xs.flatMap (·.defining) := by
    rw [hE, List.map_append, List.map_append, a1, b1, c1]
    conv_rhs => rw [hsplit]
    simp [List.flatMap_append]
  have d2 : E.map (·.m) = xs.flatMap (·.mults) := by
    rw [hE, List.map_append, List.map_append, a2, b2, c2]
    conv_rhs => rw [hsplit]
    simp [List.flatMap_append]
  have d3 : E.flatMap (·.c) = shiftedPerms sym 0 xs := by
    rw [hE, List.flatMap_append, List.flatMap_append, a3, b3, c3]
    conv_rhs => rw [hsplit]
    rw [shiftedPerms_append, Nat.zero_add, ← hO]
    simp [shiftedPerms]
  have hr' : ESpace.fromDefiningSectors sym (E.map (·.s)) (some (E.map (·.m))) e.isDual
      (some (E.flatMap (·.c))) false = some r := by
    rw [d1, d2, d3, ← hr]
    unfold ESpace.directSum
    rw [if_neg (by simpa using hnil), if_pos hall, foldl_shiftedPerms, hcd, if_pos rfl]
    simp only [hxs, List.flatMap_cons, shiftedPerms, Nat.add_zero, Nat.zero_add, List.map_id']
  rw [fromDefiningSectors_entries sym h1 hcd E hok, Option.some.injEq] at hr'
  set M := merged (·.s) (·.m) (runsOf (·.s) (sortBy (·.s) E)) with hM
  have hMs : (M.map Prod.fst).Pairwise (· < ·) := merged_sorted _ _ _ (sortBy_sorted _ E)
  have hMw : ∀ w : S → ℕ, (M.map fun p => w p.1 * p.2).sum = (E.map fun y => w y.s * y.m).sum := by
    intro w
    rw [hM, merged_sum]
    exact ((sortBy_perm (fun y : Entry S => y.s) E).map fun y => w y.s * y.m).sum_eq
  -- the entry of block `b` of `x`
  obtain ⟨s', m, q1, q2, q3, q4⟩ := hp
  have hbl : b < x.defining.length := by
    rw [← hvx.lengths]; exact (List.getElem?_eq_some_iff.1 q2).1
  set s0 := x.defining[b] with hs0
  have hs0' : x.defining[b]? = some s0 := List.getElem?_eq_getElem hbl
  have b1' : Ex.map (·.s) = x.defining := by rw [b1]; simp
  have b2' : Ex.map (·.m) = x.mults := by rw [b2]; simp
  have b3' : Ex.flatMap (·.c) = (x.basisPerm sym).map (· + O) := by rw [b3]; simp [shiftedPerms]
  have hExl : b < Ex.length := by
    have := congrArg List.length b1'; rw [List.length_map] at this; omega
  set y := Ex[b] with hy
  have hy' : Ex[b]? = some y := List.getElem?_eq_getElem hExl
  have hys : y.s = s0 := by
    have := congrArg (·[b]?) b1'
    simp only [List.getElem?_map, hy', hs0', Option.map_some, Option.some.injEq] at this
    exact this
  have hym : y.m = m := by
    have := congrArg (·[b]?) b2'
    simp only [List.getElem?_map, hy', q2, Option.map_some, Option.some.injEq] at this
    exact this
  have clen : ∀ z ∈ E, z.c.length = z.m := fun z hz => by rw [hok z hz, h1, Nat.one_mul]
  have hyE : y ∈ E := by
    rw [hE]; exact List.mem_append_right _ (List.mem_append_left _ (List.getElem_mem hExl))
  have hoff : off < y.c.length := by rw [clen y hyE, hym]; rw [h1, Nat.one_mul] at q3; exact q3
  have hyc : y.c[off]? = some (O + j) := by
    have hg := flatMap_get Ex (·.c) b off y hy' hoff
    rw [b3', List.getElem?_map] at hg
    have hst : ((Ex.take b).map fun z => z.c.length).sum =
        totalDim sym.dim ((x.sectors sym).take b) (x.mults.take b) := by
      rw [totalDim_take_one sym h1 _ _ (by
        rw [hvx.lengths]; unfold ESpace.sectors; split <;> simp), ← b2', List.map_take]
      congr 2
      exact List.map_congr_left fun z hz => clen z (by
        rw [hE]; exact List.mem_append_right _ (List.mem_append_left _ hz))
    rw [hst, q4] at hg
    rw [← hg, Option.map_some, Nat.add_comm]
  -- the vectors of the sector in the previous summands
  have hsec : s = if e.isDual then sym.dual s0 else s0 := by
    have hdx := hdual x (List.mem_of_getElem? hk)
    unfold ESpace.sectors at hs
    rw [hdx] at hs
    split_ifs with hc
    · rw [if_pos hc, List.getElem?_map, hs0'] at hs
      simpa using hs.symm
    · rw [if_neg hc, hs0'] at hs
      simpa using hs.symm
  have hA : ((E1.filter fun z => decide (z.s = s0)).flatMap (·.c)).length =
      ((xs.take k).map fun z => multOf (z.sectors sym) z.mults s).sum := by
    rw [length_flatMap_filter]
    have e1 : (E1.map fun z => if decide (z.s = s0) then z.c.length else 0).sum =
        (((xs.take k).flatMap (·.defining)).zip ((xs.take k).flatMap (·.mults)) |>.map
          fun p => if p.1 = s0 then p.2 else 0).sum := by
      rw [← a1, ← a2, List.zip_map', List.map_map]
      congr 1
      apply List.map_congr_left
      intro z hz
      simp only [Function.comp_apply, decide_eq_true_eq]
      rw [clen z (by rw [hE]; exact List.mem_append_left _ hz)]
    rw [e1]
    have hvt : ∀ z ∈ xs.take k, ValidSpace sym z ∧ z.isDual = e.isDual := fun z hz =>
      ⟨hv z (List.mem_of_mem_take hz), hdual z (List.mem_of_mem_take hz)⟩
    generalize xs.take k = l at hvt
    induction l with
    | nil => rfl
    | cons z l ih =>
      obtain ⟨hz1, hz2⟩ := hvt z List.mem_cons_self
      rw [List.flatMap_cons, List.flatMap_cons, List.zip_append hz1.lengths.symm, List.map_append,
        List.sum_append, ih fun w hw => hvt w (List.mem_cons_of_mem _ hw), List.map_cons, List.sum_cons]
      congr 1
      unfold multOf ESpace.sectors
      rw [hz2, hsec]
      by_cases hc : e.isDual = true
      · simp only [hc, if_true]
        rw [List.zip_map_left, List.map_map]
        congr 1
        apply List.map_congr_left
        intro p _
        simp only [Function.comp_apply, Prod.map_fst, Prod.map_snd, id_eq, hinj.eq_iff]
      · rw [if_neg hc, if_neg hc]
  set A := ((xs.take k).map fun z => multOf (z.sectors sym) z.mults s).sum with hAdef
  have hnd : Ex.Pairwise fun u v => u.s ≠ v.s := by
    have h := hvx.sorted
    rw [← b1', List.pairwise_map] at h
    exact h.imp fun h => h.ne
  have hfx : Ex.filter (fun z => decide (z.s = s0)) = [y] := by
    have hsp : Ex = Ex.take b ++ y :: Ex.drop (b + 1) := by
      rw [hy, ← List.drop_eq_getElem_cons hExl, List.take_append_drop]
    rw [hsp] at hnd
    obtain ⟨-, n2, n3⟩ := List.pairwise_append.1 hnd
    rw [hsp, List.filter_append, List.filter_cons_of_pos (by simpa using hys)]
    rw [List.filter_eq_nil_iff.2, List.filter_eq_nil_iff.2, List.nil_append]
    · intro z hz
      have := (List.pairwise_cons.1 n2).1 z hz
      simpa [← hys] using this.symm
    · intro z hz
      have := n3 z hz y List.mem_cons_self
      simpa [← hys] using this
  have hget : ((E.filter fun z => decide (z.s = s0)).flatMap (·.c))[A + off]? = some (O + j) := by
    rw [hE, List.filter_append, List.filter_append, List.flatMap_append, List.flatMap_append,
      List.getElem?_append_right (by omega), hA, Nat.add_sub_cancel_left, hfx,
      List.getElem?_append_left (by simpa using hoff)]
    simpa using hyc
  have hfin := sorted_get E s0 _ _ hget
  -- the block of the result
  have hex : ∃ b' m' : ℕ, M[b']? = some (s0, m') := by
    by_contra hc
    push Not at hc
    have hz := hMw fun t => if t = s0 then 1 else 0
    have e0 : (M.map fun p => (if p.1 = s0 then 1 else 0) * p.2).sum = 0 := by
      apply List.sum_eq_zero
      intro v hv'
      obtain ⟨p, hp, rfl⟩ := List.mem_map.1 hv'
      obtain ⟨i, hi, rfl⟩ := List.mem_iff_getElem.1 hp
      by_cases hps : (M[i]).1 = s0
      · exact absurd (by rw [List.getElem?_eq_getElem hi, ← hps]) (hc i (M[i]).2)
      · rw [if_neg hps, Nat.zero_mul]
    rw [e0] at hz
    have hle := List.le_sum_of_mem (xs := E.map fun z => (if z.s = s0 then 1 else 0) * z.m)
      (List.mem_map.2 ⟨y, hyE, rfl⟩)
    rw [← hz, if_pos hys, Nat.one_mul] at hle
    rw [clen y hyE] at hoff
    omega
  obtain ⟨b', m', hb'⟩ := hex
  obtain ⟨w1, w2⟩ := sum_sorted_keys M hMs b' s0 m' hb'
  have hrdef : r.defining = M.map Prod.fst := by rw [← hr']
  have hrm : r.mults = M.map Prod.snd := by rw [← hr']
  have hrd : r.isDual = e.isDual := by rw [← hr']
  have hrp : r.basisPerm sym = (sortBy (·.s) E).flatMap (·.c) := by rw [← hr']; rfl
  have hrs : (r.sectors sym)[b']? = some s := by
    unfold ESpace.sectors
    rw [hrd, hrdef, hsec]
    by_cases hc : e.isDual = true
    · simp [hc, List.getElem?_map, hb']
    · simp [hc, List.getElem?_map, hb']
  have hlt : A + off < m' := by
    rw [← w1, hMw fun t => if t = s0 then 1 else 0]
    have hl := (List.getElem?_eq_some_iff.1 hget).1
    rw [length_flatMap_filter] at hl
    refine lt_of_lt_of_eq hl ?_
    congr 1
    apply List.map_congr_left
    intro z hz
    rw [clen z hz]
    by_cases hc : z.s = s0 <;> simp [hc]
  refine ⟨b', hrs, s, m', hrs, by rw [hrm, List.getElem?_map, hb']; rfl, by rw [h1, Nat.one_mul]; exact hlt, ?_⟩
  rw [hrp, totalDim_take_one sym h1 _ _ (by
    rw [hrm]; unfold ESpace.sectors; rw [hrdef]; split <;> simp), hrm, ← w2,
    hMw fun t => if t < s0 then 1 else 0, ← hfin]
  congr 2
  congr 1
  apply List.map_congr_left
  intro z hz
  rw [clen z hz]
  by_cases hc : z.s < s0 <;> simp [hc]

end Cyten.Props
