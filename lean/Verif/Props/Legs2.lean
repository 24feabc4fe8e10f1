import Verif.Props.Legs
import Verif.Props.Spaces2

/-!
# Property C28 (continued): flat leg permutations, duals and opposite duality of spaces
-/

set_option linter.unusedSectionVars false

namespace Cyten.Props
open Cyten.Spaces Cyten.Spaces.Spec Cyten.Tools Cyten.Spaces.Leg

variable {S : Type} [LinearOrder S]

/-- C-style offsets. -/
def cperm : List (Leg S) → ℕ → List ℕ
  | [], _ => []
  | l :: ls, o => l.flatPerm o ++ cperm ls (o + l.numFlat)

/-- F-style offsets. -/
def fperm : List (Leg S) → ℕ → List ℕ
  | [], _ => []
  | l :: ls, o => l.flatPerm (o + numFlatAll ls) ++ fperm ls o

theorem flatPermAll_c (ls : List (Leg S)) (o : ℕ) :
    flatPermAll ls (offsetsFrom o (numFlats ls)) = cperm ls o := by
  induction ls generalizing o with
  | nil => simp [flatPermAll, cperm]
  | cons l ls ih =>
    simp only [numFlats, List.map_cons, offsetsFrom, flatPermAll, cperm]
    rw [← ih]; rfl

theorem offsetsFrom_append (o : ℕ) (xs : List ℕ) (x : ℕ) :
    offsetsFrom o (xs ++ [x]) = offsetsFrom o xs ++ [o + xs.sum] := by
  induction xs generalizing o with
  | nil => simp [offsetsFrom]
  | cons y ys ih => simp [offsetsFrom, ih, Nat.add_assoc]

theorem flatPermAll_f (ls : List (Leg S)) (o : ℕ) :
    flatPermAll ls (offsetsFrom o (numFlats ls).reverse).reverse = fperm ls o := by
  induction ls generalizing o with
  | nil => simp [flatPermAll, fperm]
  | cons l ls ih =>
    simp only [numFlats, List.map_cons, List.reverse_cons]
    rw [offsetsFrom_append, List.reverse_append, List.sum_reverse, ← numFlatAll_eq]
    simp only [List.reverse_cons, List.reverse_nil, List.nil_append, List.singleton_append,
      flatPermAll, fperm]
    rw [← ih]; rfl

mutual
theorem numFlat_pos : ∀ l : Leg S, l.WF → 1 ≤ l.numFlat
  | .space e, _ => by rw [numFlat]
  | .pipe [] d c, h => by rw [WF] at h; exact absurd rfl h.1
  | .pipe (l :: ls) d c, h => by
    rw [WF] at h
    rw [numFlat, numFlatAll]
    rw [WFAll] at h
    have := numFlat_pos l h.2.1
    omega
end

theorem length_le_numFlatAll (ls : List (Leg S)) (h : WFAll ls) : ls.length ≤ numFlatAll ls := by
  induction ls with
  | nil => simp
  | cons l ls ih =>
    rw [WFAll] at h
    have := numFlat_pos l h.1
    have := ih h.2
    rw [numFlatAll, List.length_cons]; omega

theorem flatPerm_one (l : Leg S) (h : l.WF) (h1 : l.numFlat = 1) (o : ℕ) : l.flatPerm o = [o] := by
  cases l with
  | space e => rw [flatPerm]
  | pipe ls d c =>
    rw [WF] at h
    rw [numFlat] at h1
    rw [flatPerm]
    have h2 := length_le_numFlatAll ls h.2
    have h3 : ls.length = 1 := by
      have : 0 < ls.length := List.length_pos_iff.2 h.1
      omega
    rw [if_pos (by omega), h3]
    cases c <;> rfl

theorem perm_flat (ls : List (Leg S)) (h : WFAll ls) (he : ls.length = numFlatAll ls) (o : ℕ) :
    cperm ls o = List.range' o ls.length ∧ fperm ls o = (List.range' o ls.length).reverse := by
  induction ls generalizing o with
  | nil => simp [cperm, fperm]
  | cons l ls ih =>
    rw [WFAll] at h
    have h1 := numFlat_pos l h.1
    have h2 := length_le_numFlatAll ls h.2
    rw [numFlatAll, List.length_cons] at he
    have hl : l.numFlat = 1 := by omega
    have hls : ls.length = numFlatAll ls := by omega
    rw [cperm, fperm, (ih h.2 hls _).1, (ih h.2 hls _).2, flatPerm_one l h.1 hl,
      flatPerm_one l h.1 hl, hl, ← hls]
    constructor
    · rw [List.length_cons, List.range'_succ]; rfl
    · rw [List.length_cons, List.range'_concat]
      simp

theorem flatPerm_pipe (ls : List (Leg S)) (d c : Bool) (h : WFAll ls) (o : ℕ) :
    (Leg.pipe ls d c).flatPerm o = if c then cperm ls o else fperm ls o := by
  rw [flatPerm]
  by_cases he : ls.length = numFlatAll ls
  · rw [if_pos he, (perm_flat ls h he o).1, (perm_flat ls h he o).2]
  · rw [if_neg he]
    unfold pipeOffsets
    cases c
    · simp [flatPermAll_f]
    · simp [flatPermAll_c]

/-! ## grids -/

theorem gridC_append (A B : List ℕ) :
    gridC (A ++ B) = (gridC A).flatMap fun x => (gridC B).map (x ++ ·) := by
  induction A with
  | nil => simp [gridC]
  | cons a A ih =>
    simp only [List.cons_append, gridC, ih]
    simp only [List.flatMap_assoc, List.flatMap_map, List.map_flatMap, List.map_map]
    rfl

theorem permuted_lt {α : Type} (l : List α) (p : List ℕ) (h : ∀ i ∈ p, i < l.length) :
    permuted l p = p.pmap (fun i hi => l[i]'hi) h := by
  unfold permuted
  induction p with
  | nil => rfl
  | cons i p ih =>
    rw [List.filterMap_cons, List.getElem?_eq_getElem (h i List.mem_cons_self)]
    simp only [List.pmap_cons]
    rw [ih fun j hj => h j (List.mem_cons_of_mem _ hj)]

theorem permuted_append {α : Type} (l : List α) (p q : List ℕ) :
    permuted l (p ++ q) = permuted l p ++ permuted l q := List.filterMap_append

theorem permuted_left {α : Type} (x y : List α) (p : List ℕ) (h : ∀ i ∈ p, i < x.length) :
    permuted (x ++ y) p = permuted x p := by
  unfold permuted
  apply List.filterMap_congr
  intro i hi
  rw [List.getElem?_append_left (h i hi)]

theorem permuted_right {α : Type} (x y : List α) (p : List ℕ) :
    permuted (x ++ y) (p.map (x.length + ·)) = permuted y p := by
  unfold permuted
  rw [List.filterMap_map]
  apply List.filterMap_congr
  intro i _
  simp [List.getElem?_append_right]

/-- The statement about one leg (resp. one list of legs) that is proved by induction. -/
structure Claim (n : ℕ) (fp : ℕ → List ℕ) (dims : List ℕ) (basis : List (List ℕ))
    (P D : List ℕ) : Prop where
  shift : ∀ o, fp o = P.map (o + ·)
  perm : P.Perm (List.range n)
  len : D.length = n
  dims : permuted D P = dims
  basis : basis = (gridC D).map fun row => permuted row P

theorem Claim.lt {n : ℕ} {fp : ℕ → List ℕ} {dims : List ℕ} {basis : List (List ℕ)} {P D : List ℕ}
    (h : Claim n fp dims basis P D) : ∀ i ∈ P, i < n := fun i hi => by
  simpa using h.perm.mem_iff.1 hi

theorem length_of_mem_gridC {D row : List ℕ} (h : row ∈ gridC D) : row.length = D.length :=
  ((mem_gridC D row).1 h).length

theorem perm_range_append (m n : ℕ) (P Q : List ℕ) (hP : P.Perm (List.range m))
    (hQ : Q.Perm (List.range n)) : (P ++ Q.map (m + ·)).Perm (List.range (m + n)) := by
  rw [List.range_add]
  exact hP.append (hQ.map _)

/-- C-style combination. -/
theorem Claim.consC {n1 n2 : ℕ} {f1 f2 : ℕ → List ℕ} {d1 d2 : List ℕ} {b1 b2 : List (List ℕ)}
    {P1 D1 P2 D2 : List ℕ} (h1 : Claim n1 f1 d1 b1 P1 D1) (h2 : Claim n2 f2 d2 b2 P2 D2) :
    Claim (n1 + n2) (fun o => f1 o ++ f2 (o + n1)) (d1 ++ d2)
      (b1.flatMap fun x => b2.map (x ++ ·)) (P1 ++ P2.map (n1 + ·)) (D1 ++ D2) where
  shift o := by
    rw [h1.shift, h2.shift]
    simp [Function.comp_def, Nat.add_assoc]
  perm := perm_range_append _ _ _ _ h1.perm h2.perm
  len := by rw [List.length_append, h1.len, h2.len]
  dims := by
    rw [permuted_append, permuted_left _ _ _ (by rw [h1.len]; exact h1.lt), ← h1.len,
      permuted_right, h1.dims, h2.dims]
  basis := by
    rw [gridC_append, h1.basis, h2.basis]
    simp only [List.flatMap_map, List.map_flatMap, List.map_map]
    apply List.flatMap_congr
    intro x hx
    apply List.map_congr_left
    intro y hy
    have hxl : x.length = n1 := by rw [length_of_mem_gridC hx, h1.len]
    simp only [Function.comp_apply]
    rw [permuted_append, permuted_left _ _ _ (by rw [hxl]; exact h1.lt), ← hxl, permuted_right]

/-- F-style combination. -/
theorem Claim.consF {n1 n2 : ℕ} {f1 f2 : ℕ → List ℕ} {d1 d2 : List ℕ} {b1 b2 : List (List ℕ)}
    {P1 D1 P2 D2 : List ℕ} (h1 : Claim n1 f1 d1 b1 P1 D1) (h2 : Claim n2 f2 d2 b2 P2 D2) :
    Claim (n1 + n2) (fun o => f1 (o + n2) ++ f2 o) (d1 ++ d2)
      (b2.flatMap fun y => b1.map (· ++ y)) (P1.map (n2 + ·) ++ P2) (D2 ++ D1) where
  shift o := by
    rw [h1.shift, h2.shift]
    simp [Function.comp_def, Nat.add_assoc]
  perm := by
    rw [Nat.add_comm]
    exact List.perm_append_comm.trans (perm_range_append _ _ _ _ h2.perm h1.perm)
  len := by rw [List.length_append, h1.len, h2.len, Nat.add_comm]
  dims := by
    have e : permuted (D2 ++ D1) P2 = permuted D2 P2 :=
      permuted_left _ _ _ (by rw [h2.len]; exact h2.lt)
    rw [permuted_append, e, ← h2.len, permuted_right, h1.dims, h2.dims]
  basis := by
    rw [gridC_append, h1.basis, h2.basis]
    simp only [List.flatMap_map, List.map_flatMap, List.map_map]
    apply List.flatMap_congr
    intro x hx
    apply List.map_congr_left
    intro y hy
    have hxl : x.length = n2 := by rw [length_of_mem_gridC hx, h2.len]
    simp only [Function.comp_apply]
    have e : permuted (x ++ y) P2 = permuted x P2 :=
      permuted_left _ _ _ (by rw [hxl]; exact h2.lt)
    rw [permuted_append, e, ← hxl, permuted_right]

theorem Claim.nil {f : ℕ → List ℕ} (hf : ∀ o, f o = []) : Claim 0 f [] [[]] [] [] where
  shift o := hf o
  perm := List.Perm.refl _
  len := rfl
  dims := rfl
  basis := rfl

mutual
theorem claim_leg (sym : Sym S) : ∀ l : Leg S, l.WF → ∃ P D,
    Claim l.numFlat l.flatPerm (l.flatLegs.map (dim sym)) (combinedBasis sym l) P D
  | .space e, _ => by
    refine ⟨[0], [e.dim sym], ?_, ?_, ?_, ?_, ?_⟩
    · intro o; rw [flatPerm]; rfl
    · rw [numFlat]; exact List.Perm.refl _
    · rw [numFlat]; rfl
    · rw [flatLegs]; simp [permuted, dim]
    · rw [combinedBasis]
      simp only [gridC, List.map_cons, List.map_nil, ← List.map_eq_flatMap, List.map_map]
      rfl
  | .pipe ls d c, h => by
    rw [WF] at h
    have e : (Leg.pipe ls d c).flatPerm = fun o => if c then cperm ls o else fperm ls o :=
      funext fun o => flatPerm_pipe ls d c h.2 o
    rw [e, numFlat, flatLegs, combinedBasis]
    cases c
    · exact claim_f sym ls h.2
    · exact claim_c sym ls h.2
theorem claim_c (sym : Sym S) : ∀ ls : List (Leg S), WFAll ls → ∃ P D,
    Claim (numFlatAll ls) (cperm ls) ((flatAll ls).map (dim sym)) (prodC (combinedAll sym ls)) P D
  | [], _ => ⟨[], [], by
      rw [numFlatAll, flatAll, combinedAll, prodC]
      exact Claim.nil fun o => rfl⟩
  | l :: ls, h => by
    rw [WFAll] at h
    obtain ⟨P1, D1, h1⟩ := claim_leg sym l h.1
    obtain ⟨P2, D2, h2⟩ := claim_c sym ls h.2
    rw [numFlatAll, flatAll, combinedAll, prodC, List.map_append]
    exact ⟨_, _, h1.consC h2⟩
theorem claim_f (sym : Sym S) : ∀ ls : List (Leg S), WFAll ls → ∃ P D,
    Claim (numFlatAll ls) (fperm ls) ((flatAll ls).map (dim sym)) (prodF (combinedAll sym ls)) P D
  | [], _ => ⟨[], [], by
      rw [numFlatAll, flatAll, combinedAll, prodF]
      exact Claim.nil fun o => rfl⟩
  | l :: ls, h => by
    rw [WFAll] at h
    obtain ⟨P1, D1, h1⟩ := claim_leg sym l h.1
    obtain ⟨P2, D2, h2⟩ := claim_f sym ls h.2
    rw [numFlatAll, flatAll, combinedAll, prodF, List.map_append]
    exact ⟨_, _, h1.consF h2⟩
end

theorem permuted_inverse {α : Type} (D : List α) (P : List ℕ) (hP : P.Perm (List.range D.length)) :
    permuted (permuted D P) (inversePermutation P) = D := by
  have hlen : P.length = D.length := by simpa using hP.length_eq
  have hP' : P.Perm (List.range P.length) := by rw [hlen]; exact hP
  have hlt : ∀ i ∈ P, i < D.length := fun i hi => by simpa using hP.mem_iff.1 hi
  have hl : (permuted D P).length = D.length := by rw [permuted_lt D P hlt]; simp [hlen]
  apply List.ext_getElem?
  intro i
  have hinv := inversePermutation_perm hP'
  have hilt : ∀ j ∈ inversePermutation P, j < (permuted D P).length := by
    intro j hj
    have := hinv.mem_iff.1 hj
    rw [hl, ← hlen]; simpa using this
  rw [permuted_lt _ _ hilt]
  by_cases hi : i < D.length
  · have hi' : i < (inversePermutation P).length := by
      rw [length_inversePermutation]; omega
    rw [List.getElem?_eq_getElem (by simpa using hi'), List.getElem?_eq_getElem hi]
    congr 1
    rw [List.getElem_pmap]
    have hj : (inversePermutation P)[i] < P.length := by
      have := hilt _ (List.getElem_mem hi'); omega
    have key : P[(inversePermutation P)[i]]'hj = i := by
      have := inversePermutation_apply' hP' (List.getElem?_eq_getElem hi')
      rw [List.getElem?_eq_getElem hj] at this
      exact Option.some.inj this
    simp only [permuted_lt D P hlt, List.getElem_pmap, key]
  · rw [List.getElem?_eq_none (by simp [length_inversePermutation]; omega),
      List.getElem?_eq_none (by omega)]

/-- **C28** (legs). `_flat_leg_permutation` of an arbitrarily nested leg is a permutation, and its
documented meaning holds: splitting the leg in C style into the dimensions of the flat legs
permuted by the inverse, and then applying the permutation, gives for every basis index the same
multi-index of the flat legs as following the nested pipes with their own combination styles.
With an offset every entry is shifted by it. -/
theorem C28_flat_leg_permutation (sym : Sym S) (l : Leg S) (h : l.WF) :
    let P := l.flatPerm 0
    P.Perm (List.range l.numFlat) ∧ l.flatLegs.length = l.numFlat ∧
    (∀ offset, l.flatPerm offset = P.map (offset + ·)) ∧
    combinedBasis sym l =
      (makeGrid (permuted (l.flatLegs.map (dim sym)) (inversePermutation P)) true).map
        fun row => permuted row P := by
  intro P
  obtain ⟨P', D, hc⟩ := claim_leg sym l h
  have hP : P = P' := by
    have := hc.shift 0
    simpa using this
  rw [hP]
  have hl : l.flatLegs.length = l.numFlat := by
    have := congrArg List.length hc.dims
    rw [permuted_lt _ _ (by rw [hc.len]; exact hc.lt)] at this
    simp at this
    rw [← this]; simpa using hc.perm.length_eq
  refine ⟨hc.perm, hl, hc.shift, ?_⟩
  rw [← hc.dims, permuted_inverse D P' (by rw [hc.len]; exact hc.perm)]
  exact hc.basis

/-! ## Duals and opposite duality of elementary spaces -/

/-- The states of a list of dual sectors. -/
theorem publicStates_dual (sym : Sym S) (hd : DimOK sym) (sectors : List S) (mults p : List ℕ) :
    publicStates sym.dim (sectors.map sym.dual) mults p =
      (publicStates sym.dim sectors mults p).map fun x => (x.1, (sym.dual x.2.1, x.2.2)) := by
  unfold publicStates states
  have : ((sectors.map sym.dual).zip mults).flatMap (fun p => block sym.dim p.1 p.2) =
      ((sectors.zip mults).flatMap fun p => block sym.dim p.1 p.2).map
        fun x => (sym.dual x.1, x.2) := by
    rw [List.zip_map_left, List.flatMap_map, List.map_flatMap]
    apply List.flatMap_congr
    intro q _
    obtain ⟨a, m⟩ := q
    simp only [block, List.map_flatMap, Prod.map_apply, id, hd.dual, List.map_replicate]
  rw [this, List.zip_map_right]
  rfl

theorem multOf_dual (sym : Sym S) (hi : Function.Involutive sym.dual) (sectors : List S)
    (mults : List ℕ) (s : S) :
    multOf (sectors.map sym.dual) mults (sym.dual s) = multOf sectors mults s := by
  unfold multOf
  rw [List.zip_map_left, List.map_map]
  congr 1
  apply List.map_congr_left
  intro q _
  simp [hi.injective.eq_iff]

/-- **C28** (spaces). The sectors of the dual space are the duals of the sectors, one by one, with
the same multiplicities and the same basis permutation; the dual of a valid space is valid. -/
theorem C28_space_dual (sym : Sym S) (hi : Function.Involutive sym.dual) (e : ESpace S)
    (he : ValidSpace sym e) :
    e.dual.dual = e ∧ ValidSpace sym e.dual ∧
      e.dual.sectors sym = (e.sectors sym).map sym.dual ∧ e.dual.mults = e.mults ∧
      e.dual.perm = e.perm ∧ e.dual.isDual = !e.isDual := by
  refine ⟨?_, ⟨he.lengths, he.sorted, he.perm⟩, ?_, rfl, rfl, rfl⟩
  · cases e; simp [ESpace.dual]
  · unfold ESpace.sectors ESpace.dual
    cases h : e.isDual
    · simp
    · simp [List.map_map, hi.comp_self]

/-- **C28** (spaces). `with_opposite_duality` never fails on a valid space; it flips `is_dual` and
leaves every sector multiplicity and the whole public basis (which state sits at which public
index) unchanged. -/
theorem C28_with_opposite_duality (sym : Sym S) (hd : DimOK sym)
    (hi : Function.Involutive sym.dual) (e : ESpace S) (he : ValidSpace sym e)
    (hc : sym.canDrop = false → e.perm = none) :
    ∃ e', e.withOppositeDuality sym = some e' ∧ ValidSpace sym e' ∧ e'.isDual = !e.isDual ∧
      (∀ s, multOf (e'.sectors sym) e'.mults s = multOf (e.sectors sym) e.mults s) ∧
      (sym.canDrop = true → ∃ p, e'.perm = some p ∧
        (publicStates sym.dim (e'.sectors sym) e'.mults p).Perm
          (publicStates sym.dim (e.sectors sym) e.mults (e.basisPerm sym))) := by
  have hdd : (if e.isDual then e.sectors sym else e.defining.map sym.dual) =
      e.defining.map sym.dual := by
    unfold ESpace.sectors
    cases e.isDual <;> simp
  have htot : totalDim sym.dim (e.defining.map sym.dual) e.mults =
      totalDim sym.dim e.defining e.mults := by
    unfold totalDim
    rw [List.zip_map_left, List.map_map]
    congr 1
    apply List.map_congr_left
    intro q _
    simp [hd.dual]
  have hnd : (e.defining.map sym.dual).Nodup :=
    (he.sorted.imp (fun h => ne_of_lt h)).map _ (fun a b h => fun h' => h (hi.injective h'))
  have hdim : e.dim sym = totalDim sym.dim e.defining e.mults := by
    rw [← htot]
    unfold ESpace.dim ESpace.sectors numStates totalDim
    cases e.isDual
    · rw [← List.map_uncurry_zip_eq_zipWith, List.zip_map_left, List.map_map]
      simp only [Function.comp_def, Prod.map, id, hd.dual]
      rfl
    · rw [← List.map_uncurry_zip_eq_zipWith]
      rfl
  have hex : ∃ e', e.withOppositeDuality sym = some e' := by
    unfold ESpace.withOppositeDuality ESpace.fromDefiningSectors
    rw [hdd]
    simp only [Option.getD_some, List.length_map, he.lengths, ne_eq, not_true, if_false, if_true]
    by_cases hcd : sym.canDrop = true
    · simp [hcd]
    · have := hc (by simpa using hcd)
      simp [hcd, this]
  obtain ⟨e', he'⟩ := hex
  refine ⟨e', he', ?_⟩
  have he2 := he'
  unfold ESpace.withOppositeDuality at he2
  rw [hdd] at he2
  obtain ⟨h1, h2, h3, h4, h5, h6⟩ := C25_from_defining_sectors sym hd _ _ _ _ _ e'
    (fun _ => hnd) (fun p hp => by
      simp only [Option.getD_some]
      rw [htot]; exact he.perm p hp) he2
  simp only [Option.getD_some] at h3 h4 h5
  have hbp : e.perm.getD (List.range (totalDim sym.dim (e.defining.map sym.dual) e.mults)) =
      e.basisPerm sym := by
    unfold ESpace.basisPerm
    rw [hdim, htot]
    cases e.perm <;> rfl
  rw [hbp] at h5
  refine ⟨h1, h2, ?_, ?_⟩
  · intro s
    cases hb : e.isDual
    · have e1 : e'.sectors sym = e'.defining.map sym.dual := by
        unfold ESpace.sectors; rw [h2, hb]; rfl
      have e2 : e.sectors sym = e.defining := by unfold ESpace.sectors; rw [hb]; rfl
      rw [e1, e2]
      have := h3 (sym.dual s)
      rw [multOf_dual sym hi] at this
      rw [← this]
      have e3 := multOf_dual sym hi e'.defining e'.mults (sym.dual s)
      rw [hi s] at e3; exact e3
    · have e1 : e'.sectors sym = e'.defining := by
        unfold ESpace.sectors; rw [h2, hb]; rfl
      have e2 : e.sectors sym = e.defining.map sym.dual := by unfold ESpace.sectors; rw [hb]; rfl
      rw [e1, e2]
      exact h3 s
  · intro hcd
    obtain ⟨p, hp, hpp⟩ := h5 hcd
    refine ⟨p, hp, ?_⟩
    cases hb : e.isDual
    · have e1 : e'.sectors sym = e'.defining.map sym.dual := by
        unfold ESpace.sectors; rw [h2, hb]; rfl
      have e2 : e.sectors sym = (e.defining.map sym.dual).map sym.dual := by
        unfold ESpace.sectors; rw [hb]; simp [hi.comp_self]
      rw [e1, e2, publicStates_dual sym hd, publicStates_dual sym hd (e.defining.map sym.dual)]
      exact hpp.map _
    · have e1 : e'.sectors sym = e'.defining := by
        unfold ESpace.sectors; rw [h2, hb]; rfl
      have e2 : e.sectors sym = e.defining.map sym.dual := by unfold ESpace.sectors; rw [hb]; rfl
      rw [e1, e2]
      exact hpp

/-! ## Concrete cases -/

/-- A nested pipe with both styles: `((A, B)_F, C)_C` with a permuted basis on `A`. -/
def exLeg : Leg ℤ :=
  .pipe [.pipe [.space ⟨[0, 1], [1, 1], false, some [1, 0]⟩, .space ⟨[0], [3], true, none⟩] false false,
    .space ⟨[2], [2], false, none⟩] true true

example : exLeg.WF := by simp [exLeg, WF, WFAll]
example : exLeg.flatPerm 0 = [1, 0, 2] := by decide +kernel
example : exLeg.dual.flatPerm 0 = [2, 0, 1] := by decide +kernel
example : exLeg.perm exU1 = some (some [2, 3, 0, 1, 6, 7, 4, 5, 10, 11, 8, 9]) := by decide +kernel
example : exLeg.dual.perm exU1 = exLeg.perm exU1 := by decide +kernel
example : (combinedBasis exU1 exLeg)[5]? = some [0, 1, 1] := by decide +kernel
example : (ESpace.mk [0, 1] [1, 2] false (some [2, 0, 1]) : ESpace ℤ).withOppositeDuality exU1 =
    some ⟨[-1, 0], [2, 1], true, some [0, 1, 2]⟩ := by decide +kernel
example : ValidSpace exU1 (ESpace.mk [0, 1] [1, 2] false (some [2, 0, 1])) :=
  ⟨rfl, by decide, by intro p h; cases h; decide⟩

end Cyten.Props
