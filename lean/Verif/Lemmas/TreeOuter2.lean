import Verif.Lemmas.TreeOuter

/-! # The loop of `insert_at` -/

namespace Cyten.FT
open Cyten.FT.Spec Cyten.Tools Cyten.ListSum Cyten.Props Cyten.Mappings

variable {S K : Type} [LinearOrder S] [CommRing K] [StarRing K]
variable {R : FusionRule S} {T : FTensors S K} {D : Topo S K} {F : FSym S K}

/-- The F move with any direction of the arrow of the last leg -/
theorem f_move' (hL : GroupLaws R T D) (hO : OuterLaws R T F) (a b c d e : S) (dc : Bool) (mu nu i j k l : ℕ)
    (hmu : mu < R.nSymbol b c e) (hnu : nu < R.nSymbol a e d) (hi : i < T.dim a) (hj : j < T.dim b) (hk : k < T.dim c)
    (hl : l < T.dim d) :
    ((List.range (T.dim e)).map fun h => T.X b c e false dc mu j k h * T.X a e d false false nu i h l).sum =
      ((R.channels a b c d).map fun q => F a b c d e q.1 mu nu q.2.1 q.2.2 *
        ((List.range (T.dim q.1)).map fun h =>
          T.X a b q.1 false false q.2.1 i j h * T.X q.1 c d false dc q.2.2 h k l).sum).sum := by
  have e1 : ∀ h ∈ List.range (T.dim e), T.X b c e false dc mu j k h * T.X a e d false false nu i h l =
      ((List.range (T.dim c)).map fun y => legMat T dc c y k *
        (T.X b c e false false mu j y h * T.X a e d false false nu i h l)).sum := by
    intro h hh
    rw [x_right hL b c e false dc mu j k h hmu hj hk (List.mem_range.1 hh), sum_mul]
    exact sum_congr _ fun y _ => by ring
  have e2 : ∀ q ∈ R.channels a b c d, F a b c d e q.1 mu nu q.2.1 q.2.2 *
        ((List.range (T.dim q.1)).map fun h =>
          T.X a b q.1 false false q.2.1 i j h * T.X q.1 c d false dc q.2.2 h k l).sum =
      ((List.range (T.dim c)).map fun y => legMat T dc c y k * (F a b c d e q.1 mu nu q.2.1 q.2.2 *
        ((List.range (T.dim q.1)).map fun h =>
          T.X a b q.1 false false q.2.1 i j h * T.X q.1 c d false false q.2.2 h y l).sum)).sum := by
    rintro ⟨f, ka, la⟩ hq
    obtain ⟨hka, hla⟩ := (mem_channels R a b c d f ka la).1 hq
    simp only
    have e3 : ∀ h ∈ List.range (T.dim f), T.X a b f false false ka i j h * T.X f c d false dc la h k l =
        ((List.range (T.dim c)).map fun y => legMat T dc c y k *
          (T.X a b f false false ka i j h * T.X f c d false false la h y l)).sum := by
      intro h hh
      rw [x_right hL f c d false dc la h k l hla (List.mem_range.1 hh) hk hl, mul_sum]
      exact sum_congr _ fun y _ => by ring
    rw [sum_congr _ e3, sum_comm, mul_sum]
    refine sum_congr _ fun y _ => ?_
    rw [← mul_sum]
    ring
  rw [sum_congr _ e1, sum_congr _ e2]
  refine (sum_comm _ _ _).trans (Eq.trans ?_ (sum_comm _ _ _).symm)
  refine sum_congr _ fun y hy => ?_
  rw [← mul_sum, ← mul_sum, hO.f_move a b c d e mu nu i j y l hmu hnu hi hj (List.mem_range.1 hy) hl]

/-- The value of the parts `key` when the first legs of `t2` still form the tree `r2` -/
def partVal (T : FTensors S K) (a dI : S) (r2 : FusionTree S) (us : List S) (ds : List Bool) (key : PartsKey S) (g : ℕ)
    (jp jr : List ℕ) (k : ℕ) : K :=
  ((List.range (T.dim r2.coupled)).map fun h => treeTensor T r2 jp h *
    ((List.range (T.dim (key.1.headD dI))).map fun l =>
      T.X a r2.coupled (key.1.headD dI) false false (key.2.headD 0) g h l *
        chainMat T (key.1.headD dI) us ds (key.1 ++ [dI]).tail key.2.tail l jr k).sum).sum

/-- What holds of the parts -/
structure PartOK (R : FusionRule S) (a dI : S) (r2 : FusionTree S) (us : List S) (key : PartsKey S) : Prop where
  len : key.1.length = us.length
  ne : key.2 ≠ []
  head : key.2.headD 0 < R.nSymbol a r2.coupled (key.1.headD dI)
  chain : Chain R (key.1.headD dI) us (key.1 ++ [dI]).tail key.2.tail

omit [LinearOrder S] in
theorem pre_length {R : FusionRule S} [DecidableEq S] (r : FusionTree S) (h : r.Sane R) (hl : 1 ≤ r.uncoupled.length) :
    (pre r).length = r.uncoupled.length - 1 := by
  have := h.len_inner
  unfold pre
  split
  · simp; omega
  · omega

omit [CommRing K] [StarRing K] in
theorem insertMoves_eq (small : K → Bool) (a dI : S) (r : FusionTree S) (hr : r.Sane R) (hlr : 1 ≤ r.uncoupled.length)
    (c e : S) (multi : ℕ) (dc : Bool) (us : List S) (ds : List Bool) (es : List S) (ms : List ℕ)
    (hd : ds.length = us.length) (he : es.length = us.length) (hm : ms.length = us.length) (key : PartsKey S)
    (hk : key.1.length = us.length) :
    insertMoves R F small a dI (extendMany r (c :: us) (dc :: ds) (e :: es) (multi :: ms)) r.uncoupled.length key =
      ((R.channels a r.coupled c (key.1.headD dI)).map fun q => ((q.1 :: key.1, q.2.1 :: q.2.2 :: key.2.tail),
        F a r.coupled c (key.1.headD dI) e q.1 multi (key.2.headD 0) q.2.1 q.2.2)).filter fun p => !small p.2 := by
  have hpl := pre_length r hr hlr
  have hml := hr.len_mult
  rw [extendMany_eq r hlr c us (dc :: ds) e es (multi :: ms) (by simpa using hd) he (by simpa using hm)]
  unfold insertMoves
  simp only
  have hb : (if 1 < r.uncoupled.length then (pre r ++ (e :: es).dropLast).getD (r.uncoupled.length - 2) (es.getLastD e)
      else (r.uncoupled ++ c :: us).getD 0 (es.getLastD e)) = r.coupled := by
    by_cases h1 : 1 < r.uncoupled.length
    · rw [if_pos h1, pre, if_pos (by omega)]
      have := hr.len_inner
      simp [List.getD_eq_getElem?_getD, List.getElem?_append_right, this]
    · rw [if_neg h1]
      obtain ⟨x, hx⟩ : ∃ x, r.uncoupled = [x] := List.length_eq_one_iff.1 (by omega)
      rw [hx, ← hr.one_leg x hx]
      rfl
  have hc : (r.uncoupled ++ c :: us).getD r.uncoupled.length (es.getLastD e) = c := by simp
  have he' : (if key.1.isEmpty = true then es.getLastD e else
      (pre r ++ (e :: es).dropLast).getD (r.uncoupled.length - 1) (es.getLastD e)) = e := by
    rcases hk1 : key.1 with _ | ⟨x, xs⟩
    · rw [hk1] at hk
      have : es = [] := List.length_eq_zero_iff.1 (by rw [he, ← hk]; rfl)
      simp [this]
    · rw [hk1] at hk
      match es, he with
      | [], he => rw [← he] at hk; simp at hk
      | e2 :: es, he => simp [← hpl]
  have hmu : (r.mult ++ multi :: ms).getD (r.uncoupled.length - 1) 0 = multi := by
    rw [← hml]; simp
  rw [hb, hc, he', hmu]

theorem insertMoves_step (hL : GroupLaws R T D) (hO : OuterLaws R T F) {small : K → Bool} (hS : FCutoffExact F small)
    (a dI : S) (r : FusionTree S) (hr : r.Sane R) (hlr : 1 ≤ r.uncoupled.length)
    (c e : S) (multi : ℕ) (dc : Bool) (hmu : multi < R.nSymbol r.coupled c e) (us : List S) (ds : List Bool)
    (es : List S) (ms : List ℕ) (hd : ds.length = us.length) (he : es.length = us.length) (hm : ms.length = us.length)
    (key : PartsKey S) (hk : PartOK R a dI (r.extended c multi e dc) us key) :
    (∀ p ∈ insertMoves R F small a dI (extendMany r (c :: us) (dc :: ds) (e :: es) (multi :: ms)) r.uncoupled.length key,
      PartOK R a dI r (c :: us) p.1) ∧
    ∀ (g : ℕ) (jp : List ℕ) (j : ℕ) (jr : List ℕ) (k : ℕ), g < T.dim a → InDims T r.uncoupled jp → j < T.dim c →
      colSum (insertMoves R F small a dI (extendMany r (c :: us) (dc :: ds) (e :: es) (multi :: ms)) r.uncoupled.length
        key) (fun key => partVal T a dI r (c :: us) (dc :: ds) key g jp (j :: jr) k) =
      partVal T a dI (r.extended c multi e dc) us ds key g (jp ++ [j]) jr k := by
  obtain ⟨k1, k2, k3, k4⟩ := hk
  rw [extended_coupled] at k3
  rw [insertMoves_eq small a dI r hr hlr c e multi dc us ds es ms hd he hm key k1]
  have htl : key.1 ++ [dI] = key.1.headD dI :: (key.1 ++ [dI]).tail := by cases key.1 <;> rfl
  refine ⟨?_, ?_⟩
  · intro p hp
    obtain ⟨⟨f, ka, la⟩, hq, rfl⟩ := List.mem_map.1 (List.mem_filter.1 hp).1
    obtain ⟨hka, hla⟩ := (mem_channels R _ _ _ _ f ka la).1 hq
    refine ⟨by simp [k1], by simp, hka, ?_⟩
    show Chain R f (c :: us) (key.1 ++ [dI]) (la :: key.2.tail)
    rw [htl]
    exact ⟨hla, k4⟩
  · intro g jp j jr k hg hjp hj
    unfold colSum
    set d := key.1.headD dI with hdd
    set C : ℕ → K := fun l => chainMat T d us ds (key.1 ++ [dI]).tail key.2.tail l jr k with hC
    have e0 : ∀ p ∈ (R.channels a r.coupled c d).map fun q => ((q.1 :: key.1, q.2.1 :: q.2.2 :: key.2.tail),
        F a r.coupled c d e q.1 multi (key.2.headD 0) q.2.1 q.2.2),
        (if (!small p.2) = true then p.2 * partVal T a dI r (c :: us) (dc :: ds) p.1 g jp (j :: jr) k else 0) =
          p.2 * partVal T a dI r (c :: us) (dc :: ds) p.1 g jp (j :: jr) k := by
      intro p hp
      obtain ⟨⟨f, ka, la⟩, hq, rfl⟩ := List.mem_map.1 hp
      simp only
      rcases hsm : small (F a r.coupled c d e f multi (key.2.headD 0) ka la) with _ | _
      · simp
      · rw [hS _ _ _ _ _ _ _ _ _ _ hsm]; simp
    rw [sum_filter, sum_congr _ e0, List.map_map]
    have hpv : ∀ (f : S) (ka la : ℕ), partVal T a dI r (c :: us) (dc :: ds) (f :: key.1, ka :: la :: key.2.tail) g jp
        (j :: jr) k = ((List.range (T.dim r.coupled)).map fun x => treeTensor T r jp x *
          ((List.range (T.dim f)).map fun y => T.X a r.coupled f false false ka g x y *
            ((List.range (T.dim d)).map fun l => T.X f c d false dc la y j l * C l).sum).sum).sum := by
      intro f ka la
      unfold partVal
      refine sum_congr _ fun x _ => ?_
      congr 1
      refine sum_congr _ fun y _ => ?_
      congr 1
      show chainMat T f (c :: us) (dc :: ds) (key.1 ++ [dI]) (la :: key.2.tail) y (j :: jr) k = _
      rw [htl, chainMat]
    have e1 : ∀ q ∈ R.channels a r.coupled c d, ((fun p : PartsKey S × K => p.2 *
        partVal T a dI r (c :: us) (dc :: ds) p.1 g jp (j :: jr) k) ∘ fun q => ((q.1 :: key.1,
          q.2.1 :: q.2.2 :: key.2.tail), F a r.coupled c d e q.1 multi (key.2.headD 0) q.2.1 q.2.2)) q =
        ((List.range (T.dim r.coupled)).map fun x => ((List.range (T.dim d)).map fun l => treeTensor T r jp x * C l *
          (F a r.coupled c d e q.1 multi (key.2.headD 0) q.2.1 q.2.2 * ((List.range (T.dim q.1)).map fun y =>
            T.X a r.coupled q.1 false false q.2.1 g x y * T.X q.1 c d false dc q.2.2 y j l).sum)).sum).sum := by
      rintro ⟨f, ka, la⟩ _
      simp only [Function.comp_def]
      rw [hpv, mul_sum]
      refine sum_congr _ fun x _ => ?_
      have e2 : ((List.range (T.dim f)).map fun y => T.X a r.coupled f false false ka g x y *
            ((List.range (T.dim d)).map fun l => T.X f c d false dc la y j l * C l).sum).sum =
          ((List.range (T.dim d)).map fun l => C l * ((List.range (T.dim f)).map fun y =>
            T.X a r.coupled f false false ka g x y * T.X f c d false dc la y j l).sum).sum := by
        rw [sum_congr _ fun y _ => mul_sum _ _ _, sum_comm]
        refine sum_congr _ fun l _ => ?_
        rw [mul_sum]
        exact sum_congr _ fun y _ => by ring
      rw [e2, mul_sum, mul_sum]
      refine sum_congr _ fun l _ => ?_
      ring
    rw [sum_congr _ e1, sum_comm]
    have e3 : partVal T a dI (r.extended c multi e dc) us ds key g (jp ++ [j]) jr k =
        ((List.range (T.dim r.coupled)).map fun x => ((List.range (T.dim d)).map fun l => treeTensor T r jp x * C l *
          ((List.range (T.dim e)).map fun h => T.X r.coupled c e false dc multi x j h *
            T.X a e d false false (key.2.headD 0) g h l).sum).sum).sum := by
      unfold partVal
      rw [extended_coupled]
      have e4 : ∀ h ∈ List.range (T.dim e), treeTensor T (r.extended c multi e dc) (jp ++ [j]) h *
          ((List.range (T.dim d)).map fun l => T.X a e d false false (key.2.headD 0) g h l * C l).sum =
          ((List.range (T.dim r.coupled)).map fun x => ((List.range (T.dim d)).map fun l => treeTensor T r jp x * C l *
            (T.X r.coupled c e false dc multi x j h * T.X a e d false false (key.2.headD 0) g h l)).sum).sum := by
        intro h hh
        rw [treeTensor_extended hL r hr hlr c e multi dc hmu jp hjp j h hj (List.mem_range.1 hh), sum_mul]
        refine sum_congr _ fun x _ => ?_
        rw [mul_sum]
        exact sum_congr _ fun l _ => by ring
      refine (sum_congr _ e4).trans ?_
      rw [sum_comm]
      refine sum_congr _ fun x _ => ?_
      rw [sum_comm]
      refine sum_congr _ fun l _ => ?_
      rw [mul_sum]
    rw [e3]
    refine sum_congr _ fun x hx => ?_
    rw [sum_comm]
    refine sum_congr _ fun l hl => ?_
    rw [f_move' hL hO a r.coupled c d e dc multi (key.2.headD 0) g x j l hmu k3 hg (List.mem_range.1 hx) hj
      (List.mem_range.1 hl), mul_sum]

end Cyten.FT
