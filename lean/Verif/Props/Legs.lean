import Verif.Spec.Legs
import Verif.Props.Spaces
import Verif.Props.Tools

/-!
# Property C28 (legs): duals of elementary spaces and nested pipes, and flat leg permutations
-/

set_option linter.unusedSectionVars false

namespace Cyten.Props
open Cyten.Spaces Cyten.Spaces.Spec Cyten.Tools Cyten.Spaces.Leg

variable {S : Type} [LinearOrder S]

/-! ## Involution -/

theorem dualAll_eq_map (ls : List (Leg S)) : dualAll ls = ls.map dual := by
  induction ls with
  | nil => rfl
  | cons l ls ih => rw [dualAll, ih]; rfl

mutual
theorem dual_dual_aux : ∀ l : Leg S, l.dual.dual = l
  | .space e => by
    rw [dual, dual]; cases e; simp [ESpace.dual]
  | .pipe ls d c => by
    rw [dual, dual, dualAll_eq_map, dualAll_eq_map, List.map_reverse, List.reverse_reverse,
      ← dualAll_eq_map ls, ← dualAll_eq_map, dualAll_dualAll ls]
    simp
theorem dualAll_dualAll : ∀ ls : List (Leg S), dualAll (dualAll ls) = ls
  | [] => rfl
  | l :: ls => by rw [dualAll, dualAll, dual_dual_aux l, dualAll_dualAll ls]
end

theorem dimAll_eq (sym : Sym S) (ls : List (Leg S)) : dimAll sym ls = (ls.map (dim sym)).prod := by
  induction ls with
  | nil => rfl
  | cons l ls ih => rw [dimAll, ih]; rfl

theorem flatAll_eq (ls : List (Leg S)) : flatAll ls = ls.flatMap flatLegs := by
  induction ls with
  | nil => rfl
  | cons l ls ih => rw [flatAll, ih]; rfl

theorem numFlatAll_eq (ls : List (Leg S)) : numFlatAll ls = (ls.map numFlat).sum := by
  induction ls with
  | nil => rfl
  | cons l ls ih => rw [numFlatAll, ih]; rfl

theorem permAll_eq (sym : Sym S) (ls : List (Leg S)) (ps : List (Option (List ℕ))) :
    permAll sym ls = some ps ↔ List.Forall₂ (fun l p => l.perm sym = some p) ls ps := by
  induction ls generalizing ps with
  | nil => rw [permAll]; simp [eq_comm]
  | cons l ls ih =>
    rw [permAll]
    cases h : l.perm sym with
    | none =>
      simp only [Option.bind_none, List.forall₂_cons_left_iff, h]
      constructor
      · intro h'; cases h'
      · rintro ⟨_, _, h', _⟩; cases h'
    | some p =>
      simp only [Option.bind_some, Option.map_eq_some_iff, List.forall₂_cons_left_iff, h,
        Option.some.injEq]
      constructor
      · rintro ⟨qs, hq, rfl⟩; exact ⟨p, qs, rfl, (ih qs).1 hq, rfl⟩
      · rintro ⟨_, qs, rfl, hq, rfl⟩; exact ⟨qs, (ih qs).2 hq, rfl⟩

theorem ESpace.sectors_length (sym : Sym S) (e : ESpace S) :
    (e.sectors sym).length = e.defining.length := by
  unfold ESpace.sectors; split_ifs <;> simp

theorem numStates_dual (sym : Sym S) (hdim : ∀ a, sym.dim (sym.dual a) = sym.dim a)
    (l : List S) (m : List ℕ) : numStates sym (l.map sym.dual) m = numStates sym l m := by
  unfold numStates
  rw [List.zipWith_map_left]
  simp only [hdim]

theorem ESpace.dim_dual (sym : Sym S) (hdim : ∀ a, sym.dim (sym.dual a) = sym.dim a)
    (e : ESpace S) : e.dual.dim sym = e.dim sym := by
  unfold ESpace.dim ESpace.sectors ESpace.dual
  cases h : e.isDual <;> simp [numStates_dual sym hdim]

mutual
theorem dim_dual_aux (sym : Sym S) (hdim : ∀ a, sym.dim (sym.dual a) = sym.dim a) :
    ∀ l : Leg S, l.dual.dim sym = l.dim sym
  | .space e => by rw [dual, dim, dim, ESpace.dim_dual sym hdim]
  | .pipe ls d c => by
    rw [dual, dim, dim, dimAll_eq, List.map_reverse, List.prod_reverse, ← dimAll_eq,
      dimAll_dual sym hdim ls]
theorem dimAll_dual (sym : Sym S) (hdim : ∀ a, sym.dim (sym.dual a) = sym.dim a) :
    ∀ ls : List (Leg S), dimAll sym (dualAll ls) = dimAll sym ls
  | [] => rfl
  | l :: ls => by rw [dualAll, dimAll, dimAll, dim_dual_aux sym hdim l, dimAll_dual sym hdim ls]
end

mutual
theorem flatLegs_dual_aux : ∀ l : Leg S, l.dual.flatLegs = (l.flatLegs.map dual).reverse
  | .space e => by rw [dual, flatLegs, flatLegs]; simp [dual]
  | .pipe ls d c => by
    rw [dual, flatLegs, flatLegs]
    exact flatAll_dual_aux ls
theorem flatAll_dual_aux :
    ∀ ls : List (Leg S), flatAll (dualAll ls).reverse = ((flatAll ls).map dual).reverse
  | [] => rfl
  | l :: ls => by
    rw [dualAll, List.reverse_cons, flatAll_eq, List.flatMap_append, ← flatAll_eq,
      flatAll_dual_aux ls, flatAll]
    simp [flatLegs_dual_aux l]
end

/-! ## basis permutations -/

theorem makeStridePy_some' (shape : List ℕ) (cstyle : Bool) (st : List ℕ)
    (h : makeStridePy shape cstyle = some st) : st = makeStride shape cstyle := by
  cases shape with
  | nil => cases h
  | cons a l =>
    simp only [makeStridePy] at h
    by_cases hc : (if cstyle = true then l.prod else (a :: l).dropLast.prod) * a < maxInt
    · rw [if_pos hc] at h
      injection h with h
      exact h.symm
    · rw [if_neg hc] at h
      cases h

theorem makeStride_reverse (shape : List ℕ) (c : Bool) :
    makeStride shape.reverse (!c) = (makeStride shape c).reverse := by
  cases c <;> simp [makeStride]

theorem makeGrid_reverse (shape : List ℕ) (c : Bool) :
    makeGrid shape.reverse (!c) = (makeGrid shape c).map List.reverse := by
  cases c <;> simp [makeGrid, gridF, Function.comp_def]

/-- Combining the reversed list in the opposite style is the same permutation. -/
theorem combinePermutations_reverse (perms : List (List ℕ)) (c : Bool) (r r' : List ℕ)
    (h : combinePermutations perms c = some r)
    (h' : combinePermutations perms.reverse (!c) = some r') : r' = r := by
  unfold combinePermutations at h h'
  split_ifs at h with h1
  split_ifs at h' with h2
  cases hm : makeStridePy (perms.map List.length) c with
  | none => rw [hm] at h; cases h
  | some st =>
    rw [hm] at h
    cases hm' : makeStridePy (perms.reverse.map List.length) (!c) with
    | none => rw [hm'] at h'; cases h'
    | some st' =>
      rw [hm'] at h'
      obtain rfl := makeStridePy_some' _ _ _ hm
      obtain rfl := makeStridePy_some' _ _ _ hm'
      simp only [Option.some.injEq] at h h'
      subst h h'
      rw [List.map_reverse, makeGrid_reverse, makeStride_reverse, List.map_map]
      apply List.map_congr_left
      intro row hrow
      have hl : row.length = (perms.map List.length).length :=
        (((C22_grid_complete _ c).1 row).1 hrow).length_eq
      have hl' : perms.length = row.length := by simpa using hl.symm
      simp only [Function.comp_apply]
      rw [← List.reverse_zipWith hl', packRow_reverse]
      simp [length_makeStride, hl']

theorem permOrId_dual (sym : Sym S) (hdim : ∀ a, sym.dim (sym.dual a) = sym.dim a) (l : Leg S)
    (p : Option (List ℕ)) : permOrId sym l.dual p = permOrId sym l p := by
  unfold permOrId
  rw [dim_dual_aux sym hdim]

mutual
theorem perm_dual_aux (sym : Sym S) (hdim : ∀ a, sym.dim (sym.dual a) = sym.dim a) :
    ∀ (l : Leg S) (p p' : Option (List ℕ)), l.perm sym = some p → l.dual.perm sym = some p' →
      p' = p
  | .space e, p, p', h, h' => by
    rw [Leg.perm] at h; rw [dual, Leg.perm] at h'
    simp only [Option.some.injEq, ESpace.dual] at h h'
    rw [← h, ← h']
  | .pipe ls d c, p, p', h, h' => by
    rw [Leg.perm] at h; rw [dual, Leg.perm] at h'
    cases hp : permAll sym ls with
    | none => rw [hp] at h; cases h
    | some ps =>
      rw [hp] at h
      cases hp' : permAll sym (dualAll ls).reverse with
      | none => rw [hp'] at h'; cases h'
      | some ps' =>
        rw [hp'] at h'
        simp only [Option.bind_some] at h h'
        have hps' : permAll sym (dualAll ls) = some ps'.reverse := by
          rw [permAll_eq] at hp' ⊢
          rw [← List.forall₂_reverse_iff, List.reverse_reverse]; exact hp'
        have e : ps'.reverse = ps := permAll_dual_aux sym hdim ls ps _ hp hps'
        have e' : ps' = ps.reverse := by rw [← e, List.reverse_reverse]
        subst e'
        have hlen : ls.length = ps.length := ((permAll_eq sym ls ps).1 hp).length_eq
        unfold combinedPerm at h h'
        rw [List.all_reverse] at h'
        by_cases hall : ps.all Option.isNone = true
        · rw [if_pos hall] at h h'
          rw [← Option.some.inj h, ← Option.some.inj h']
        · rw [if_neg hall] at h h'
          by_cases hd : sym.canDrop = true
          · rw [if_pos hd] at h h'
            obtain ⟨r, hr, rfl⟩ := Option.map_eq_some_iff.1 h
            obtain ⟨r', hr', rfl⟩ := Option.map_eq_some_iff.1 h'
            rw [← List.reverse_zipWith (by rw [dualAll_eq_map]; simpa using hlen),
              dualAll_eq_map, List.zipWith_map_left] at hr'
            simp only [permOrId_dual sym hdim] at hr'
            rw [combinePermutations_reverse _ c r r' hr hr']
          · rw [if_neg hd] at h; cases h
theorem permAll_dual_aux (sym : Sym S) (hdim : ∀ a, sym.dim (sym.dual a) = sym.dim a) :
    ∀ (ls : List (Leg S)) (ps ps' : List (Option (List ℕ))), permAll sym ls = some ps →
      permAll sym (dualAll ls) = some ps' → ps' = ps
  | [], ps, ps', h, h' => by
    rw [dualAll, permAll] at h'; rw [permAll] at h
    rw [← Option.some.inj h, ← Option.some.inj h']
  | l :: ls, ps, ps', h, h' => by
    rw [permAll_eq] at h h'
    rw [dualAll] at h'
    cases h with
    | cons h1 h2 =>
      cases h' with
      | cons h1' h2' =>
        rw [perm_dual_aux sym hdim l _ _ h1 h1',
          permAll_dual_aux sym hdim ls _ _ ((permAll_eq _ _ _).2 h2) ((permAll_eq _ _ _).2 h2')]
end

/-! ## Equality -/

theorem beqSpace_dual (sym : Sym S) (hdim : ∀ a, sym.dim (sym.dual a) = sym.dim a)
    (e f : ESpace S) : beqSpace sym e.dual f.dual = beqSpace sym e f := by
  have hb : ∀ g : ESpace S, g.dual.basisPerm sym = g.basisPerm sym := by
    intro g
    unfold ESpace.basisPerm
    rw [ESpace.dim_dual sym hdim]
    rfl
  unfold beqSpace
  rw [hb, hb]
  have hd : (e.dual.isDual != f.dual.isDual) = (e.isDual != f.isDual) := by
    simp only [ESpace.dual]; cases e.isDual <;> cases f.isDual <;> rfl
  rw [hd]
  rfl

theorem beqAll_eq (sym : Sym S) (ls ls' : List (Leg S)) :
    beqAll sym ls ls' = (List.zipWith (beq sym) ls ls').all id := by
  induction ls generalizing ls' with
  | nil => cases ls' <;> simp [beqAll]
  | cons l ls ih =>
    cases ls' with
    | nil => simp [beqAll]
    | cons l' ls' => simp [beqAll, ih]

theorem beqAll_reverse (sym : Sym S) (ls ls' : List (Leg S)) (h : ls.length = ls'.length) :
    beqAll sym ls.reverse ls'.reverse = beqAll sym ls ls' := by
  rw [beqAll_eq, beqAll_eq, ← List.reverse_zipWith h, List.all_reverse]

mutual
theorem beq_dual_aux (sym : Sym S) (hdim : ∀ a, sym.dim (sym.dual a) = sym.dim a) :
    ∀ l l' : Leg S, beq sym l.dual l'.dual = beq sym l l'
  | .space e, .space f => by rw [dual, dual, beq, beq, beqSpace_dual sym hdim]
  | .space e, .pipe ls d c => by rw [dual, dual, beq, beq]
  | .pipe ls d c, .space e => by rw [dual, dual, beq, beq]
  | .pipe ls d c, .pipe ls' d' c' => by
    rw [dual, dual, beq, beq]
    have e1 : ((!d) != !d') = (d != d') := by cases d <;> cases d' <;> rfl
    have e2 : ((!c) != !c') = (c != c') := by cases c <;> cases c' <;> rfl
    rw [e1, e2]
    simp only [List.length_reverse, dualAll_eq_map, List.length_map]
    by_cases hl : ls.length = ls'.length
    · rw [beqAll_reverse sym _ _ (by simpa using hl), ← dualAll_eq_map, ← dualAll_eq_map,
        beqAll_dual_aux sym hdim ls ls']
    · have : (ls.length != ls'.length) = true := by simpa using hl
      simp only [this, if_true]
theorem beqAll_dual_aux (sym : Sym S) (hdim : ∀ a, sym.dim (sym.dual a) = sym.dim a) :
    ∀ ls ls' : List (Leg S), beqAll sym (dualAll ls) (dualAll ls') = beqAll sym ls ls'
  | [], [] => rfl
  | [], _ :: _ => by rw [dualAll, dualAll, beqAll, beqAll]
  | _ :: _, [] => by rw [dualAll, dualAll, beqAll, beqAll]
  | l :: ls, l' :: ls' => by
    rw [dualAll, dualAll, beqAll, beqAll, beq_dual_aux sym hdim l l',
      beqAll_dual_aux sym hdim ls ls']
end

mutual
theorem beq_self_aux (sym : Sym S) : ∀ l : Leg S, beq sym l l = true
  | .space e => by rw [beq]; simp [beqSpace]
  | .pipe ls d c => by rw [beq]; simp [beqAll_self_aux sym ls]
theorem beqAll_self_aux (sym : Sym S) : ∀ ls : List (Leg S), beqAll sym ls ls = true
  | [] => by rw [beqAll]
  | l :: ls => by rw [beqAll, beq_self_aux sym l, beqAll_self_aux sym ls]; rfl
end

/-- **C28** (legs). For every leg, arbitrarily nested: the dual of the dual is the leg itself, and
taking duals respects `==` (`l == l'` exactly if their duals are equal; in particular the dual of
the dual is `==` to the leg). The dual leg has the same dimension. -/
theorem C28_leg_dual_involutive (sym : Sym S) (hdim : ∀ a, sym.dim (sym.dual a) = sym.dim a)
    (l l' : Leg S) :
    l.dual.dual = l ∧ beq sym l.dual.dual l = true ∧ beq sym l.dual l'.dual = beq sym l l' ∧
      l.dual.dim sym = l.dim sym :=
  ⟨dual_dual_aux l, by rw [dual_dual_aux]; exact beq_self_aux sym l, beq_dual_aux sym hdim l l',
    dim_dual_aux sym hdim l⟩

/-- **C28** (legs). The dual of a pipe consists of the duals of its legs in reversed order, with
both flags flipped; its flat legs are the duals of the flat legs in reversed order. -/
theorem C28_leg_dual_reverses (legs : List (Leg S)) (isDual cstyle : Bool) :
    (Leg.pipe legs isDual cstyle).dual =
        .pipe (legs.reverse.map dual) (!isDual) (!cstyle) ∧
      (Leg.pipe legs isDual cstyle).dual.flatLegs =
        (Leg.pipe legs isDual cstyle).flatLegs.reverse.map dual := by
  refine ⟨?_, ?_⟩
  · rw [dual, dualAll_eq_map, List.map_reverse]
  · rw [flatLegs_dual_aux, List.map_reverse]

/-- **C28** (legs). The dual leg has the same `basis_perm`: reversing the legs and flipping the
combination style leaves the combined basis where it is. -/
theorem C28_leg_dual_basis_perm (sym : Sym S) (hdim : ∀ a, sym.dim (sym.dual a) = sym.dim a)
    (l : Leg S) (p p' : Option (List ℕ)) (h : l.perm sym = some p)
    (h' : l.dual.perm sym = some p') : p' = p :=
  perm_dual_aux sym hdim l p p' h h'

theorem beqSpace_iff (sym : Sym S) (e f : ESpace S) :
    beqSpace sym e f = true ↔
      e.isDual = f.isDual ∧ e.mults = f.mults ∧ e.defining = f.defining ∧ e.basisPerm sym = f.basisPerm sym := by
  unfold beqSpace
  simp only [bne_iff_ne, ne_eq, Bool.or_eq_true]
  by_cases h1 : e.isDual = f.isDual
  · by_cases h2 : e.mults = f.mults
    · by_cases h3 : e.defining = f.defining
      · simp only [h1, h2, h3, not_true, if_false, true_and]
        by_cases h4 : e.perm.isSome = true ∨ f.perm.isSome = true
        · rw [if_pos h4]
          simp
        · rw [if_neg h4]
          push Not at h4
          have e1 : e.perm = none := by simpa using h4.1
          have e2 : f.perm = none := by simpa using h4.2
          simp [ESpace.basisPerm, e1, e2, ESpace.dim, ESpace.sectors, h1, h2, h3]
      · simp [h3, h2, h1]
    · simp [h2, h1]
  · simp [h1]

mutual
theorem beq_iff_aux (sym : Sym S) : ∀ l l' : Leg S,
    beq sym l l' = true ↔ explicitPerms sym l = explicitPerms sym l'
  | .space e, .space f => by
    rw [beq, beqSpace_iff, explicitPerms, explicitPerms]
    simp only [Leg.space.injEq, ESpace.mk.injEq, Option.some.injEq]
    show _ ↔ _ ∧ _ ∧ _ ∧ e.basisPerm sym = f.basisPerm sym
    tauto
  | .space e, .pipe ls d c => by rw [beq, explicitPerms, explicitPerms]; simp
  | .pipe ls d c, .space e => by rw [beq, explicitPerms, explicitPerms]; simp
  | .pipe ls d c, .pipe ls' d' c' => by
    rw [beq, explicitPerms, explicitPerms]
    have := beqAll_iff_aux sym ls ls'
    by_cases h1 : d = d'
    · by_cases h2 : c = c'
      · by_cases h3 : ls.length = ls'.length
        · simp [h1, h2, h3, this h3]
        · have : explicitAll sym ls ≠ explicitAll sym ls' := by
            intro h
            have := congrArg List.length h
            rw [explicitAll_length, explicitAll_length] at this
            exact h3 this
          simp [h1, h2, h3, this]
      · simp [h1, h2]
    · simp [h1]
theorem beqAll_iff_aux (sym : Sym S) : ∀ ls ls' : List (Leg S), ls.length = ls'.length →
    (beqAll sym ls ls' = true ↔ explicitAll sym ls = explicitAll sym ls')
  | [], [], _ => by rw [beqAll]; simp
  | [], _ :: _, h => by simp at h
  | _ :: _, [], h => by simp at h
  | l :: ls, l' :: ls', h => by
    rw [beqAll, explicitAll, explicitAll]
    simp only [Bool.and_eq_true, beq_iff_aux sym l l',
      beqAll_iff_aux sym ls ls' (by simpa using h), List.cons.injEq]
theorem explicitAll_length (sym : Sym S) : ∀ ls : List (Leg S), (explicitAll sym ls).length = ls.length
  | [] => by rw [explicitAll]
  | l :: ls => by rw [explicitAll, List.length_cons, explicitAll_length sym ls, List.length_cons]
end

/-- **C28** (legs). Two legs are `==` exactly if they agree in everything, at every level of nesting: sectors,
multiplicities, duality, combination style and basis permutation, where a missing basis permutation counts as
the identity.  In particular `==` is an equivalence relation. -/
theorem C28_leg_equality (sym : Sym S) (l l' l'' : Leg S) :
    (beq sym l l' = true ↔ explicitPerms sym l = explicitPerms sym l') ∧
    beq sym l l = true ∧ (beq sym l l' = true → beq sym l' l = true) ∧
    (beq sym l l' = true → beq sym l' l'' = true → beq sym l l'' = true) := by
  simp only [beq_iff_aux]
  exact ⟨trivial, trivial, fun h => h.symm, fun h h' => h.trans h'⟩

end Cyten.Props
