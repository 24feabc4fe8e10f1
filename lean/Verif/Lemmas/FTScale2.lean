import Verif.Lemmas.FTScale
import Verif.Spec.FTDiagonal

/-! # The loops of `scale_axis` of the fusion tree backend -/

namespace Cyten.FT
open Cyten.FT.Spec Cyten.Tools Cyten.ListSum Cyten.Props Cyten.Spaces Cyten.Spaces.Spec Cyten.Abelian
  Cyten.FusionTrees

variable {S K A : Type} [LinearOrder S]

/-! ## Lookups of diagonal blocks -/

/-- Blocks of dimension one as matrices, to use the lookup lemma. -/
def fakeMat (e : (ℕ × ℕ) × List A) : (ℕ × ℕ) × Mat Unit := (e.1, ⟨e.2.length, e.2.length, fun _ _ => ()⟩)

theorem searchCol_map {B : Type} (D : List ((ℕ × ℕ) × A)) (g : (ℕ × ℕ) × A → (ℕ × ℕ) × B) (hg : ∀ e, (g e).1 = e.1)
    (v fuel lo hi : ℕ) : searchCol (D.map g) v fuel lo hi = searchCol D v fuel lo hi := by
  induction fuel generalizing lo hi with
  | zero => rfl
  | succ n ih =>
    unfold searchCol
    simp only [List.getElem?_map, Option.map_map, Function.comp_def, hg, ih]

theorem blockInd_map {B : Type} (D : List ((ℕ × ℕ) × A)) (g : (ℕ × ℕ) × A → (ℕ × ℕ) × B) (hg : ∀ e, (g e).1 = e.1)
    (leg : BLeg S) (c : S) : blockIndFromCoupled (D.map g) leg c = blockIndFromCoupled D leg c := by
  unfold blockIndFromCoupled blockIndFromDomain
  simp only [List.length_map, searchCol_map D g hg, List.getElem?_map, Option.map_map, Function.comp_def, hg]

theorem lookup_diag {leg : BLeg S} (hl : Coupled leg) (D : List ((ℕ × ℕ) × List A)) (hD : DSane leg D) (u : S) :
    (∃ (n : ℕ) (e : (ℕ × ℕ) × List A), blockIndFromCoupled D leg u = some (some n) ∧ D[n]? = some e ∧
      leg.sectors[e.1.1]? = some u ∧ D.find? (fun e => leg.sectors[e.1.1]? == some u) = some e) ∨
    (blockIndFromCoupled D leg u = some none ∧ D.find? (fun e => leg.sectors[e.1.1]? == some u) = none) := by
  have hs : FSane leg leg (D.map fakeMat) := by
    refine ⟨fun e he => ?_, fun e he => ?_, ?_⟩
    · obtain ⟨x, hx, rfl⟩ := List.mem_map.1 he
      obtain ⟨h1, h2⟩ := hD.diag x hx
      refine ⟨leg.sectors[x.1.1], List.getElem?_eq_getElem h2, ?_⟩
      show leg.sectors[x.1.2]? = _
      rw [← h1]
      exact List.getElem?_eq_getElem h2
    · obtain ⟨x, hx, rfl⟩ := List.mem_map.1 he
      have h1 := (hD.diag x hx).1
      have h2 := hD.shape x hx
      refine ⟨h2, ?_⟩
      show x.2.length = leg.mults.getD x.1.2 0
      rw [← h1]
      exact h2
    · rw [List.map_map]
      exact hD.sorted
  rw [← blockInd_map D fakeMat (fun _ => rfl)]
  rcases C61_block_ind_from_coupled hl _ hs u with ⟨n, e, h1, h2, h3⟩ | ⟨h1, h2⟩
  · rw [List.getElem?_map] at h2
    obtain ⟨x, hx, rfl⟩ := Option.map_eq_some_iff.1 h2
    have hxm := List.mem_of_getElem? hx
    have hxd := (hD.diag x hxm).1
    have h3' : leg.sectors[x.1.1]? = some u := by rw [hxd]; exact h3
    refine Or.inl ⟨n, x, h1, hx, h3', ?_⟩
    cases hf : D.find? (fun e => leg.sectors[e.1.1]? == some u) with
    | none =>
      have := List.find?_eq_none.1 hf x hxm
      simp [h3'] at this
    | some y =>
      have hy := List.find?_some hf
      have hym := List.mem_of_find?_eq_some hf
      have e1 : y.1.1 = x.1.1 := nodup_getElem? hl.nodup (by simpa using hy) h3'
      have e2 : y.1.2 = x.1.2 := by rw [← (hD.diag y hym).1, ← hxd, e1]
      have hn : (D.map fun e => e.1.2).Nodup := hD.sorted.imp fun h => Nat.ne_of_lt h
      rw [List.inj_on_of_nodup_map hn hym hxm e2]
  · refine Or.inr ⟨h1, List.find?_eq_none.2 fun x hx hh => ?_⟩
    have := h2 (fakeMat x) (List.mem_map.2 ⟨x, hx, rfl⟩)
    apply this
    show leg.sectors[x.1.2]? = _
    rw [← (hD.diag x hx).1]
    simpa using hh

/-! ## One block -/

/-- The entries of the result of the loop -/
def accVal [Zero K] (d : Bool) (o : Option (Mat K)) (p q : ℕ) : K := (o.map fun M => sideVal d M p q).getD 0

theorem accVal_getD [Zero K] (d : Bool) (o : Option (Mat K)) (m n p q : ℕ) :
    sideVal d (o.getD (Mat.zeros m n)) p q = accVal d o p q := by
  cases o with
  | none => cases d <;> rfl
  | some M => rfl

theorem scaleBlock_spec [MulZeroClass K] (R : FusionRule S) (c : S) (d : Bool) (idx : ℕ) (spaces : List (SpaceData S))
    (hg : ∀ x ∈ spaces, GoodSpace x) {leg : BLeg S} (hl : Coupled leg) (b : FDiag K) (hb : DSane leg b) (M : Mat K)
    (hidx : idx < spaces.length)
    (fbs : List (List S × (ℕ × ℕ))) (a z : ℕ) (ht : Tiles a (fbs.map Prod.snd) z)
    (hfb : ∀ fb ∈ fbs, ∃ item ∈ TProd.iterUncoupled spaces, fb.1 = item.1 ∧ fb.2.2 = fb.2.1 + itemSize R c item)
    (acc : Option (Mat K)) (hacc : ∀ A ∈ acc, A.rows = M.rows ∧ A.cols = M.cols)
    (hz : ∀ p q, a ≤ p → accVal d acc p q = 0) :
    ∃ o, scaleBlock d idx spaces leg b M fbs acc = some o ∧ (∀ A ∈ o, A.rows = M.rows ∧ A.cols = M.cols) ∧
      (∀ p q, q < otherDim d M → p < a → accVal d o p q = accVal d acc p q) ∧
      ∀ fb ∈ fbs, ∀ (mults ms : List ℕ) (t q : ℕ) (u : S), (fb.1, mults) ∈ TProd.iterUncoupled spaces →
        t < size R fb.1 c → InShape ms mults → q < otherDim d M → fb.1[idx]? = some u →
        accVal d o (fb.2.1 + (t * mults.prod + packRow (makeStride mults true) ms)) q =
          sideVal d M (fb.2.1 + (t * mults.prod + packRow (makeStride mults true) ms)) q *
            diagValue leg b u (ms.getD idx 0) := by
  induction fbs generalizing a acc with
  | nil => exact ⟨acc, rfl, hacc, fun _ _ _ _ => rfl, by simp⟩
  | cons fb fbs ih =>
    obtain ⟨t1, t2, t3⟩ := ht
    obtain ⟨item, hitem, f1, f2⟩ := hfb fb List.mem_cons_self
    have hlen : fb.1.length = spaces.length := by rw [f1]; exact (item_mults hg item hitem).2
    obtain ⟨u, hu⟩ : ∃ u, fb.1[idx]? = some u := ⟨_, List.getElem?_eq_getElem (by omega)⟩
    have hfb' := fun x hx => hfb x (List.mem_cons_of_mem _ hx)
    have hm : List.zipWith (fun (x : SpaceData S) s => x.sectorMultiplicity s) spaces fb.1 = item.2 := by
      rw [f1]; exact (item_mults hg item hitem).1
    have hsame : ∀ mults, (fb.1, mults) ∈ TProd.iterUncoupled spaces → mults = item.2 := by
      intro mults h
      rw [← hm]
      exact ((item_mults hg _ h).1).symm
    -- positions inside the forest block
    have hin : ∀ (ms : List ℕ) (t : ℕ), t < size R fb.1 c → InShape ms item.2 →
        fb.2.1 + (t * item.2.prod + packRow (makeStride item.2 true) ms) < fb.2.2 := by
      intro ms t ht hms
      have h1 := packRow_lt hms
      have h2 : (t + 1) * item.2.prod ≤ size R fb.1 c * item.2.prod := Nat.mul_le_mul_right _ ht
      have h3 : (t + 1) * item.2.prod = t * item.2.prod + item.2.prod := by ring
      have h4 : itemSize R c item = size R fb.1 c * item.2.prod := by rw [f1]; rfl
      omega
    rw [scaleBlock, hu]
    simp only []
    rcases lookup_diag hl b hb u with ⟨n, e, h1, h2, h3, h4⟩ | ⟨h1, h2⟩
    · rw [h1]
      simp only [h2, Option.map_some, Option.getD_some, hm]
      set F := scaleForest d idx item.2 (forestSlice d M fb.2) e.2 with hF
      set A := setForest d (acc.getD (Mat.zeros M.rows M.cols)) fb.2 F with hA
      have hsh : (acc.getD (Mat.zeros M.rows M.cols)).rows = M.rows ∧
          (acc.getD (Mat.zeros M.rows M.cols)).cols = M.cols := by
        cases acc with
        | none => exact ⟨rfl, rfl⟩
        | some A0 => exact hacc A0 rfl
      have hod : otherDim d (acc.getD (Mat.zeros M.rows M.cols)) = otherDim d M := by
        unfold otherDim; rw [hsh.1, hsh.2]
      have hval : ∀ p q, q < otherDim d M → accVal d (some A) p q =
          if fb.2.1 ≤ p ∧ p < fb.2.2 then F.val (pos2 d (p - fb.2.1) q) else accVal d acc p q := by
        intro p q hq
        show sideVal d A p q = _
        rw [hA, setForest_val _ _ _ _ _ _ (by rw [hod]; exact hq), accVal_getD]
      -- the rest of the loop needs a zero tail; values for `q` out of range do not matter
      obtain ⟨o, o1, o2, o3, o4⟩ : ∃ o, scaleBlock d idx spaces leg b M fbs (some A) = some o ∧
          (∀ A ∈ o, A.rows = M.rows ∧ A.cols = M.cols) ∧
          (∀ p q, q < otherDim d M → p < fb.2.2 → accVal d o p q = accVal d (some A) p q) ∧
          ∀ fb ∈ fbs, ∀ (mults ms : List ℕ) (t q : ℕ) (u : S), (fb.1, mults) ∈ TProd.iterUncoupled spaces →
            t < size R fb.1 c → InShape ms mults → q < otherDim d M → fb.1[idx]? = some u →
            accVal d o (fb.2.1 + (t * mults.prod + packRow (makeStride mults true) ms)) q =
              sideVal d M (fb.2.1 + (t * mults.prod + packRow (makeStride mults true) ms)) q *
                diagValue leg b u (ms.getD idx 0) := by
        refine ih fb.2.2 t3 hfb' (some A) (fun A' hA' => ?_) (fun p q hp => ?_)
        · obtain rfl : A = A' := Option.some.inj hA'
          exact ⟨hsh.1, hsh.2⟩
        · by_cases hq : q < otherDim d M
          · rw [hval p q hq, if_neg (by omega)]
            exact hz p q (by omega)
          · show sideVal d A p q = 0
            have hq' : ¬ q < otherDim d (acc.getD (Mat.zeros M.rows M.cols)) := by rw [hod]; exact hq
            have : sideVal d A p q = sideVal d (acc.getD (Mat.zeros M.rows M.cols)) p q := by
              rw [hA]
              cases d with
              | false =>
                have h' : ¬ (inSlices [p, q] [fb.2, (0, (acc.getD (Mat.zeros M.rows M.cols)).cols)] = true) := by
                  simp only [otherDim, Bool.false_eq_true, if_false] at hq'
                  simp [inSlices]; omega
                show (if inSlices [p, q] [fb.2, (0, (acc.getD (Mat.zeros M.rows M.cols)).cols)] = true then _
                  else _) = _
                rw [if_neg h']
                rfl
              | true =>
                have h' : ¬ (inSlices [q, p] [(0, (acc.getD (Mat.zeros M.rows M.cols)).rows), fb.2] = true) := by
                  simp only [otherDim, if_true] at hq'
                  simp [inSlices]; omega
                show (if inSlices [q, p] [(0, (acc.getD (Mat.zeros M.rows M.cols)).rows), fb.2] = true then _
                  else _) = _
                rw [if_neg h']
                rfl
            rw [this, accVal_getD]
            exact hz p q (by omega)
      refine ⟨o, o1, o2, fun p q hq hp => ?_, ?_⟩
      · rw [o3 p q hq (by omega), hval p q hq, if_neg (by omega)]
      · intro fb' hfb'' mults ms t q u' hmu htt hms hq hu'
        rcases List.mem_cons.1 hfb'' with rfl | hfb''
        · obtain rfl := hsame mults hmu
          obtain rfl : u = u' := Option.some.inj (hu.symm.trans hu')
          have hlt := hin ms t htt hms
          rw [o3 _ q hq hlt, hval _ q hq, if_pos ⟨by omega, hlt⟩, Nat.add_sub_cancel_left, hF]
          have hw : fb'.2.2 - fb'.2.1 = size R fb'.1 c * item.2.prod := by
            rw [f2, Nat.add_sub_cancel_left, f1]; rfl
          rw [scaleForest_val d idx item.2 ms M fb'.2 e.2 _ t q hw htt hms hq (by
            rw [← hm, List.length_zipWith]; omega)]
          unfold diagValue
          rw [h4]
        · exact o4 fb' hfb'' mults ms t q u' hmu htt hms hq hu'
    · rw [h1]
      simp only []
      obtain ⟨o, o1, o2, o3, o4⟩ := ih fb.2.2 t3 hfb' acc hacc fun p q hp => hz p q (by omega)
      refine ⟨o, o1, o2, fun p q hq hp => o3 p q hq (by omega), ?_⟩
      intro fb' hfb'' mults ms t q u' hmu htt hms hq hu'
      rcases List.mem_cons.1 hfb'' with rfl | hfb''
      · obtain rfl := hsame mults hmu
        obtain rfl : u = u' := Option.some.inj (hu.symm.trans hu')
        rw [o3 _ q hq (hin ms t htt hms), hz _ _ (by omega)]
        unfold diagValue
        rw [h2]
        simp
      · exact o4 fb' hfb'' mults ms t q u' hmu htt hms hq hu'

end Cyten.FT
