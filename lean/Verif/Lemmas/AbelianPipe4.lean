import Verif.Lemmas.AbelianPipe3
import Verif.Spec.AbelianPipe
import Verif.Props.TensorProduct
import Verif.Props.TreeBlocks

/-! # Lemmas on `AbelianLegPipe`: the rows of the block index map -/

namespace Cyten.Spaces
open Cyten.Tables Cyten.Tools Cyten.FusionTrees Cyten.Props Cyten.Spaces.Spec

set_option linter.unusedSectionVars false

variable {S : Type} [LinearOrder S]

namespace APipe

/-- The sorted entries. -/
def table (sym : Sym S) (R : FusionRule S) (legs : List (ESpace S)) (d c : Bool) :
    List (PipeEntry S) :=
  sortBy (·.sector) ((makeGrid (numSectors legs) c).map (entry sym R legs d))

theorem make_spec {sym : Sym S} {R : FusionRule S} {legs : List (ESpace S)} {d c : Bool}
    {p : APipe S} (h : make sym R legs d c = some p) :
    legs ≠ [] ∧ sym.isAbelian = true ∧ sym.canDrop = true ∧ p.legs = legs ∧ p.isDual = d ∧
    p.cstyle = c ∧ p.defining = (bunch (table sym R legs d c)).1 ∧
    p.mults = (bunch (table sym R legs d c)).2.1 ∧
    p.mapSlices = (bunch (table sym R legs d c)).2.2.1 ∧
    p.rows = (bunch (table sym R legs d c)).2.2.2 ∧
    p.perm = calcBasisPerm sym legs c (bunch (table sym R legs d c)).2.1
      (bunch (table sym R legs d c)).2.2.2 := by
  unfold make at h
  by_cases h1 : legs.isEmpty = true
  · rw [if_pos h1] at h; cases h
  rw [if_neg h1] at h
  by_cases h2 : (!(sym.isAbelian && sym.canDrop)) = true
  · rw [if_pos h2] at h; cases h
  rw [if_neg h2] at h
  have hT : gather (rawEntries sym R legs d c)
      (lexsortIndices ((rawEntries sym R legs d c).map (·.sector))) = table sym R legs d c := by
    rw [gather_lexsort, rawEntries_eq]; rfl
  simp only [hT, Option.some.injEq] at h
  subst h
  simp only [Bool.not_eq_true, Bool.not_eq_false', Bool.and_eq_true] at h2
  refine ⟨by simpa using h1, h2.1, h2.2, rfl, rfl, rfl, rfl, rfl, rfl, rfl, rfl⟩

theorem rowsFrom_idcs (J acc : ℕ) (g : List (PipeEntry S)) :
    (rowsFrom J acc g).map (·.idcs) = g.map (·.idcs) := by
  induction g generalizing acc with
  | nil => rfl
  | cons e g ih => simp [rowsFrom, ih]

theorem rowsFrom_J (J acc : ℕ) (g : List (PipeEntry S)) : ∀ r ∈ rowsFrom J acc g, r.J = J := by
  induction g generalizing acc with
  | nil => intro r hr; cases hr
  | cons e g ih =>
    intro r hr
    rw [rowsFrom] at hr
    rcases List.mem_cons.1 hr with rfl | hr
    · rfl
    · exact ih _ r hr

theorem rowsFrom_tiles (J acc : ℕ) (g : List (PipeEntry S)) :
    Tiles acc ((rowsFrom J acc g).map fun r => (r.start, r.stop)) (acc + (g.map (·.mult)).sum) := by
  induction g generalizing acc with
  | nil => simp [rowsFrom, Tiles]
  | cons e g ih =>
    rw [rowsFrom, List.map_cons, List.map_cons, List.sum_cons, ← Nat.add_assoc]
    exact ⟨rfl, Nat.le_add_right _ _, ih _⟩

theorem rowsFrom_mem (J acc : ℕ) (g : List (PipeEntry S)) (r : PipeRow) (h : r ∈ rowsFrom J acc g) :
    ∃ e ∈ g, r.idcs = e.idcs ∧ r.stop = r.start + e.mult := by
  induction g generalizing acc with
  | nil => cases h
  | cons e g ih =>
    rw [rowsFrom] at h
    rcases List.mem_cons.1 h with rfl | h
    · exact ⟨e, List.mem_cons_self, rfl, rfl⟩
    · obtain ⟨e', he', hh⟩ := ih _ h
      exact ⟨e', List.mem_cons_of_mem _ he', hh⟩

theorem rows_filter (gs : List (List (PipeEntry S))) (k J : ℕ) :
    ((gs.zipIdx k).flatMap fun gk => rowsFrom gk.2 0 gk.1).filter (fun r => decide (r.J = J)) =
      if k ≤ J then (match gs[J - k]? with | some g => rowsFrom J 0 g | none => []) else [] := by
  induction gs generalizing k with
  | nil => split_ifs <;> simp
  | cons g gs ih =>
    rw [List.zipIdx_cons, List.flatMap_cons, List.filter_append, ih (k + 1)]
    by_cases hk : k = J
    · subst hk
      rw [if_neg (by omega), if_pos le_rfl, List.append_nil, List.filter_eq_self.2, Nat.sub_self]
      · rfl
      · intro r hr
        simpa using rowsFrom_J _ _ _ r hr
    · rw [List.filter_eq_nil_iff.2, List.nil_append]
      · by_cases hlt : k < J
        · rw [if_pos (by omega), if_pos (by omega), show J - k = (J - (k + 1)) + 1 by omega,
            List.getElem?_cons_succ]
        · rw [if_neg (by omega), if_neg (by omega)]
      · intro r hr
        rw [rowsFrom_J _ _ _ r hr]
        simpa using hk

theorem rows_sorted (gs : List (List (PipeEntry S))) (k : ℕ) :
    (((gs.zipIdx k).flatMap fun gk => rowsFrom gk.2 0 gk.1)).Pairwise (fun a b => a.J ≤ b.J) := by
  induction gs generalizing k with
  | nil => simp
  | cons g gs ih =>
    rw [List.zipIdx_cons, List.flatMap_cons, List.pairwise_append]
    refine ⟨?_, ih (k + 1), ?_⟩
    · rw [List.pairwise_iff_forall_sublist]
      intro a b hab
      have ha : a ∈ rowsFrom k 0 g := hab.subset (by simp)
      have hb : b ∈ rowsFrom k 0 g := hab.subset (by simp)
      rw [rowsFrom_J _ _ _ a ha, rowsFrom_J _ _ _ b hb]
    · intro a ha b hb
      rw [rowsFrom_J _ _ _ a ha]
      obtain ⟨gk, hgk, hb⟩ := List.mem_flatMap.1 hb
      rw [rowsFrom_J _ _ _ b hb]
      have := List.le_snd_of_mem_zipIdx hgk
      omega

theorem rows_idcs (gs : List (List (PipeEntry S))) (k : ℕ) :
    ((gs.zipIdx k).flatMap fun gk => rowsFrom gk.2 0 gk.1).map (·.idcs) =
      gs.flatten.map (·.idcs) := by
  induction gs generalizing k with
  | nil => rfl
  | cons g gs ih =>
    rw [List.zipIdx_cons, List.flatMap_cons, List.map_append, ih, rowsFrom_idcs, List.flatten_cons,
      List.map_append]

theorem heads_eq (gs : List (List (PipeEntry S))) (hne : ∀ g ∈ gs, g ≠ []) (J : ℕ) (g : List (PipeEntry S))
    (hg : gs[J]? = some g) :
    (gs.filterMap fun g => g.head?.map (·.sector))[J]? = g.head?.map (·.sector) ∧
      (gs.filterMap fun g => g.head?.map (·.sector)).length = gs.length := by
  have : gs.filterMap (fun g => g.head?.map (·.sector)) =
      gs.pmap (fun g h => (g.head h).sector) (fun g hg => hne g hg) := by
    clear hg
    induction gs with
    | nil => rfl
    | cons x gs ih =>
      have hx := hne x List.mem_cons_self
      rw [List.filterMap_cons, List.pmap, ih fun g hg => hne g (List.mem_cons_of_mem _ hg)]
      cases x with
      | nil => exact absurd rfl hx
      | cons a x => rfl
  rw [this]
  constructor
  · rw [List.getElem?_pmap]
    have hn := hne g (List.mem_of_getElem? hg)
    cases hgg : g with
    | nil => exact absurd hgg hn
    | cons a l =>
      subst hgg
      simp [hg]
  · simp

theorem sortBy_filter (key : β → S) (l : List β) (s : S) :
    (sortBy key l).filter (fun x => decide (key x = s)) = l.filter (fun x => decide (key x = s)) := by
  symm
  apply List.Sublist.eq_of_length
  · have h1 : (l.filter (fun x => decide (key x = s))).Sublist (sortBy key l) := by
      have : Std.Total (fun a b : β => key a ≤ key b) := ⟨fun a b => le_total _ _⟩
      have : IsTrans β (fun a b : β => key a ≤ key b) := ⟨fun a b c => le_trans⟩
      unfold sortBy
      apply List.sublist_insertionSort
      · rw [List.pairwise_iff_forall_sublist]
        intro a b hab
        have ha : a ∈ l.filter (fun x => decide (key x = s)) := hab.subset (by simp)
        have hb : b ∈ l.filter (fun x => decide (key x = s)) := hab.subset (by simp)
        simp only [List.mem_filter, decide_eq_true_eq] at ha hb
        rw [ha.2, hb.2]
      · exact List.filter_sublist
    have := h1.filter (fun x => decide (key x = s))
    rwa [List.filter_filter, show (fun a => decide (key a = s) && decide (key a = s)) =
      (fun x => decide (key x = s)) by funext; simp] at this
  · exact (((sortBy_perm key l).filter _).length_eq).symm

theorem run_sublist (key : β → S) (l : List β) (g : List β) (hg : g ∈ runsOf key (sortBy key l)) :
    g.Sublist l := by
  have hne := runsOf_ne_nil key _ g hg
  have hk := runsOf_key key _ g hg
  obtain ⟨a, g', rfl⟩ := List.exists_cons_of_ne_nil hne
  have h1 : (a :: g').Sublist (sortBy key l) := by
    conv_rhs => rw [← runsOf_flatten key (sortBy key l)]
    exact List.sublist_flatten_of_mem hg
  have h2 := h1.filter (fun x => decide (key x = key a))
  rw [List.filter_eq_self.2 (by
    intro x hx
    simpa using hk x hx a List.mem_cons_self), sortBy_filter] at h2
  exact h2.trans List.filter_sublist

theorem map_injOn {α γ : Type} (f : α → γ) (L l l' : List α) (hL : (L.map f).Nodup)
    (h : ∀ x ∈ l, x ∈ L) (h' : ∀ x ∈ l', x ∈ L) (he : l.map f = l'.map f) : l = l' := by
  induction l generalizing l' with
  | nil => cases l' with
    | nil => rfl
    | cons b l' => simp at he
  | cons a l ih =>
    cases l' with
    | nil => simp at he
    | cons b l' =>
      simp only [List.map_cons, List.cons.injEq] at he
      have hab : a = b := List.inj_on_of_nodup_map hL (h a List.mem_cons_self)
        (h' b List.mem_cons_self) he.1
      rw [hab, ih l' (fun x hx => h x (List.mem_cons_of_mem _ hx))
        (fun x hx => h' x (List.mem_cons_of_mem _ hx)) he.2]

theorem table_perm (sym : Sym S) (R : FusionRule S) (legs : List (ESpace S)) (d c : Bool) :
    (table sym R legs d c).Perm ((makeGrid (numSectors legs) c).map (entry sym R legs d)) :=
  sortBy_perm _ _

theorem table_idcs (sym : Sym S) (R : FusionRule S) (legs : List (ESpace S)) (d c : Bool) :
    ((table sym R legs d c).map (·.idcs)).Perm (makeGrid (numSectors legs) c) := by
  have := (table_perm sym R legs d c).map (·.idcs)
  rw [List.map_map] at this
  have e1 : ((makeGrid (numSectors legs) c).map ((fun e : PipeEntry S => e.idcs) ∘ entry sym R legs d)) =
      makeGrid (numSectors legs) c := by
    conv_rhs => rw [← List.map_id (makeGrid (numSectors legs) c)]
    rfl
  rwa [e1] at this

theorem table_entry (sym : Sym S) (R : FusionRule S) (legs : List (ESpace S)) (d c : Bool)
    (e : PipeEntry S) (h : e ∈ table sym R legs d c) :
    e = entry sym R legs d e.idcs ∧ List.Forall₂ (· < ·) e.idcs (numSectors legs) := by
  obtain ⟨idcs, hi, rfl⟩ := List.mem_map.1 ((table_perm sym R legs d c).mem_iff.1 h)
  exact ⟨rfl, ((C22_grid_complete _ _).1 _).1 hi⟩

theorem picks_of_lt (sym : Sym S) (legs : List (ESpace S))
    (hl : ∀ e ∈ legs, e.mults.length = e.defining.length) (idcs : List ℕ)
    (h : List.Forall₂ (· < ·) idcs (numSectors legs)) :
    Picks sym legs idcs
      (List.zipWith (fun (e : ESpace S) i => (e.sectors sym)[i]?) legs idcs).reduceOption
      (multsAt legs idcs) := by
  induction legs generalizing idcs with
  | nil => cases h; exact Picks.nil
  | cons e legs ih =>
    rw [numSectors, List.map_cons] at h
    cases h with
    | cons hi ht =>
      rename_i i idcs
      have hs : i < (e.sectors sym).length := by unfold ESpace.sectors; split <;> simpa using hi
      have hm : i < e.mults.length := by rw [hl e List.mem_cons_self]; exact hi
      have e1 : (List.zipWith (fun (e : ESpace S) i => (e.sectors sym)[i]?) (e :: legs)
          (i :: idcs)).reduceOption = (e.sectors sym)[i] ::
          (List.zipWith (fun (e : ESpace S) i => (e.sectors sym)[i]?) legs idcs).reduceOption := by
        rw [List.zipWith_cons_cons, List.getElem?_eq_getElem hs]; rfl
      rw [e1, multsAt, List.zipWith_cons_cons]
      refine Picks.cons (List.getElem?_eq_getElem hs) ?_
        (ih (fun x hx => hl x (List.mem_cons_of_mem _ hx)) idcs ht)
      rw [List.getD_eq_getElem?_getD, List.getElem?_eq_getElem hm]; rfl

theorem picks_det {sym : Sym S} {legs : List (ESpace S)} {idcs : List ℕ} {cs cs' : List S}
    {ms ms' : List ℕ} (h : Picks sym legs idcs cs ms) (h' : Picks sym legs idcs cs' ms') :
    cs = cs' ∧ ms = ms' := by
  induction h generalizing cs' ms' with
  | nil => cases h'; exact ⟨rfl, rfl⟩
  | cons hs hm _ ih =>
    cases h' with
    | cons hs' hm' ht' =>
      obtain ⟨rfl, rfl⟩ := ih ht'
      rw [hs] at hs'; rw [hm] at hm'
      cases hs'; cases hm'
      exact ⟨rfl, rfl⟩

end APipe
end Cyten.Spaces
