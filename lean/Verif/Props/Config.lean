import Verif.Model.Config
import Mathlib.Tactic.SplitIfs
import Mathlib.Tactic.NormNum

/-!
# C16: the configuration

`Valid` is the documented range of every option; `run P c p` executes a python program.
-/

namespace Cyten.Props
open Cyten.Config

/-- The documented ranges of the integer, boolean and string options. -/
structure ValidBut (c : Cfg) : Prop where
  linewidth : 10 ≤ c.print_linewidth
  indent : 0 ≤ c.print_indent
  spaces : 0 ≤ c.maxlines_spaces
  tensors : 0 ≤ c.maxlines_tensors
  tensorBackend : c.default_tensor_backend ∈ ["no_symmetry", "abelian", "fusion_tree"]
  blockBackend : c.default_block_backend ∈ ["numpy", "torch", "cpu", "gpu", "apple_silicon"]
  eps : c.fusion_tree_eps = .nan ∨ c.fusion_tree_eps.ltZero = false

theorem setFloat_valid {c c' : Cfg} {k : String} {x : Flt} (h : ValidBut c)
    (hs : setFloat c k x = .ok c') : ValidBut c' := by
  unfold setFloat at hs
  split_ifs at hs with h1 h2 <;> injection hs with hs <;> subst hs
  exact ⟨h.1, h.2, h.3, h.4, h.5, h.6, Or.inr (by simpa using h2)⟩

theorem setInt_valid {P : Parsers} {c c' : Cfg} {k : String} {z : ℤ} (h : ValidBut c)
    (hs : setInt P c k z = .ok c') : ValidBut c' := by
  unfold setInt at hs
  split_ifs at hs with h1 h2 h3 h4 h5 h6 h7 h8 h9
  all_goals first
    | exact setFloat_valid h hs
    | (injection hs with hs; subst hs; obtain ⟨a, b, c, d, e, f, g⟩ := h
       constructor <;> (try dsimp only) <;> first | assumption | omega)

theorem setBool_valid {c c' : Cfg} {k : String} {b : Bool} (h : ValidBut c)
    (hs : setBool c k b = .ok c') : ValidBut c' := by
  unfold setBool at hs
  split_ifs at hs <;> injection hs with hs <;> subst hs
  exact ⟨h.1, h.2, h.3, h.4, h.5, h.6, h.7⟩

theorem setStr_valid {P : Parsers} {c c' : Cfg} {k s : String} (h : ValidBut c)
    (hs : setStr P c k s = .ok c') : ValidBut c' := by
  unfold setStr at hs
  split_ifs at hs with h1 h2 h3 h4 h5 h6 h7
  · split at hs
    · cases hs
    · exact setInt_valid h hs
  · exact setBool_valid h hs
  · split at hs
    · cases hs
    · exact setFloat_valid h hs
  · injection hs with hs; subst hs
    exact ⟨h.1, h.2, h.3, h.4, h5, h.6, h.7⟩
  · injection hs with hs; subst hs
    exact ⟨h.1, h.2, h.3, h.4, h.5, h7, h.7⟩

theorem setVal_valid {P : Parsers} {c c' : Cfg} {k : String} {v : Val} (h : ValidBut c)
    (hs : setVal P c k v = .ok c') : ValidBut c' := by
  cases v with
  | bool b => exact setBool_valid h hs
  | int z =>
    simp only [setVal] at hs
    split_ifs at hs
    exact setInt_valid h hs
  | float x => exact setFloat_valid h hs
  | str s => exact setStr_valid h hs
  | other s => exact setStr_valid h hs

theorem update_valid {P : Parsers} (opts : List (String × Val)) {c : Cfg} (h : ValidBut c) :
    ValidBut (update P c opts).1 := by
  induction opts generalizing c with
  | nil => exact h
  | cons o opts ih =>
    obtain ⟨k, v⟩ := o
    simp only [update]
    split
    · exact h
    · rename_i c' hc'; exact ih (setVal_valid h hc')

/-- **C16**: after every program (any nesting of `set_option`, `set_options`, `temporary_options`
blocks, exceptions and handlers) started from the default configuration, the options are in their documented ranges, with
the one exception that `fusion_tree_eps` may be NaN (`C16_nan_wrong`). -/
theorem C16_always_valid_partial (P : Parsers) (p : Prog) (c : Cfg) (h : ValidBut c) :
    ValidBut (run P c p).1 := by
  induction p generalizing c with
  | skip => exact h
  | seq p q ihp ihq =>
    simp only [run]
    split
    · rename_i c' hc'; have := ihp c h; rw [hc'] at this; exact this
    · rename_i c' hc'; have := ihp c h; rw [hc'] at this; exact ihq c' this
  | setOption k v => exact update_valid _ h
  | setOptions opts => exact update_valid _ h
  | block opts body ih =>
    simp only [run]
    split
    · rename_i c' e hc'; have := update_valid (P := P) opts h; rw [hc'] at this; exact this
    · exact h
  | raise => exact h
  | tryExcept p ih => exact ih c h

/-- The defaults are valid. -/
theorem C16_default_valid : ValidBut {} := by
  constructor <;> first | decide | (right; simp only [Flt.ltZero]; norm_num)

/-- **C16 is false for NaN**: `set_option("fusion_tree_eps", nan)` is accepted. -/
theorem C16_nan_wrong (P : Parsers) (c : Cfg) :
    run P c (.setOption "fusion_tree_eps" (.float .nan)) =
      ({ c with fusion_tree_eps := .nan }, false) := by
  simp [run, update, setVal, setFloat, Flt.ltZero]

/-- **C16**: a `set_option` that raises changes nothing. -/
theorem C16_failed_set_option (P : Parsers) (c : Cfg) (k : String) (v : Val)
    (h : (run P c (.setOption k v)).2 = true) : (run P c (.setOption k v)).1 = c := by
  simp only [run, update] at h ⊢
  split
  · rfl
  · rename_i c' hc'; rw [hc'] at h; simp at h

/-- **C16**: leaving a `temporary_options` block that could be entered, normally or by an exception, after
whatever the body did, restores the configuration at entry. -/
theorem C16_block_restores (P : Parsers) (c c' : Cfg) (opts : List (String × Val)) (body : Prog)
    (henter : update P c opts = (c', none)) : (run P c (.block opts body)).1 = c := by
  simp [run, henter]

/-- **C16 is false when entering raises**: the options before the offending one stay changed after
the `with` statement has raised. -/
theorem C16_enter_failure_wrong (P : Parsers) :
    run P {} (.tryExcept (.block [("print_indent", .int 7), ("print_linewidth", .int 3)] .skip)) =
      ({ print_indent := 7 }, false) := by
  simp [run, update, setVal, setInt, IsInt64]

/-- **C16 is false for updates**: `set_options` that raises has applied the options before the
offending one. -/
theorem C16_update_not_atomic_wrong (P : Parsers) :
    run P {} (.setOptions [("print_indent", .int 7), ("no_such_option", .int 3)]) =
      ({ print_indent := 7 }, true) := by
  simp [run, update, setVal, setInt, allKeys, IsInt64]

/-- **C16**, what `set_options` does: it applies a prefix of the options; the whole list iff it does not
raise. -/
theorem C16_update_prefix (P : Parsers) (c : Cfg) (opts : List (String × Val)) :
    ∃ n ≤ opts.length, update P c (opts.take n) = ((update P c opts).1, none) ∧
      ((update P c opts).2 = none → n = opts.length) ∧
      (∀ e, (update P c opts).2 = some e → ∃ k v, opts[n]? = some (k, v) ∧
        setVal P (update P c opts).1 k v = .error e) := by
  induction opts generalizing c with
  | nil => exact ⟨0, le_refl _, by simp [update]⟩
  | cons o opts ih =>
    obtain ⟨k, v⟩ := o
    cases hv : setVal P c k v with
    | error e =>
      refine ⟨0, by simp, by simp [update, hv], by simp [update, hv], ?_⟩
      intro e' he'
      simp only [update, hv, Option.some.injEq] at he'
      subst he'
      exact ⟨k, v, rfl, by simpa [update, hv] using hv⟩
    | ok c' =>
      obtain ⟨n, hn, h1, h2, h3⟩ := ih c'
      refine ⟨n + 1, by simpa using hn, ?_, ?_, ?_⟩
      · simp only [List.take_succ_cons, update, hv]; exact h1
      · intro h; simp only [update, hv] at h; simp [h2 h]
      · intro e he
        simp only [update, hv] at he ⊢
        simpa using h3 e he

/-- **C16**: a successful `set_option` changes no other option, and an unknown key always raises. -/
theorem C16_set_option_frame (P : Parsers) (c c' : Cfg) (k k' : String) (v : Val) (hne : k' ≠ k)
    (h : setVal P c k v = .ok c') : getOption c' k' = getOption c k' ∧ k ∈ allKeys := by
  have hf : ∀ (c c' : Cfg) x, setFloat c k x = .ok c' → getOption c' k' = getOption c k' ∧ k ∈ allKeys := by
    intro c c' x hs
    unfold setFloat at hs
    split_ifs at hs with h1 h2
    injection hs with hs; subst hs; subst h1
    simp [getOption, allKeys, hne]
  have hi : ∀ (c c' : Cfg) z, setInt P c k z = .ok c' → getOption c' k' = getOption c k' ∧ k ∈ allKeys := by
    intro c c' z hs
    unfold setInt at hs
    split_ifs at hs with h1 h2 h3 h4 h5 h6 h7 h8 h9 <;>
      first
      | exact hf _ _ _ hs
      | (injection hs with hs; subst hs; subst k; simp [getOption, allKeys, hne])
  have hb : ∀ (c c' : Cfg) z, setBool c k z = .ok c' → getOption c' k' = getOption c k' ∧ k ∈ allKeys := by
    intro c c' z hs
    unfold setBool at hs
    split_ifs at hs with h1
    injection hs with hs; subst hs; subst k
    simp [getOption, allKeys, hne]
  have hs' : ∀ (c c' : Cfg) z, setStr P c k z = .ok c' → getOption c' k' = getOption c k' ∧ k ∈ allKeys := by
    intro c c' z hs
    unfold setStr at hs
    split_ifs at hs with h1 h2 h3 h4 h5 h6 h7
    · split at hs
      · cases hs
      · exact hi _ _ _ hs
    · exact hb _ _ _ hs
    · split at hs
      · cases hs
      · exact hf _ _ _ hs
    · injection hs with hs; subst hs; subst k; simp [getOption, allKeys, hne]
    · injection hs with hs; subst hs; subst k; simp [getOption, allKeys, hne]
  cases v with
  | bool b => exact hb _ _ _ h
  | int z =>
    simp only [setVal] at h
    split_ifs at h
    exact hi _ _ _ h
  | float x => exact hf _ _ _ h
  | str s => exact hs' _ _ _ h
  | other s => exact hs' _ _ _ h

/-- **C16**: setting an option to a value it can report makes it report that value. -/
theorem C16_get_set (P : Parsers) (c c' : Cfg) (k : String) (v : Val)
    (hk : (∃ b, v = .bool b) ∨ (∃ z, v = .int z ∧ k ≠ "fusion_tree_eps") ∨ (∃ x, v = .float x) ∨
      (∃ s, v = .str s ∧ (k = "default_tensor_backend" ∨ k = "default_block_backend")))
    (h : setVal P c k v = .ok c') : getOption c' k = some v := by
  rcases hk with ⟨b, rfl⟩ | ⟨z, rfl, hne⟩ | ⟨x, rfl⟩ | ⟨s, rfl, hk⟩
  · simp only [setVal, setBool] at h
    split_ifs at h with h1
    injection h with h; subst h; subst k; simp [getOption]
  · simp only [setVal, setInt, hne, if_false] at h
    split_ifs at h <;> (injection h with h; subst h; subst k; simp [getOption])
  · simp only [setVal, setFloat] at h
    split_ifs at h with h1
    injection h with h; subst h; subst k; simp [getOption]
  · rcases hk with rfl | rfl
    · simp [setVal, setStr] at h
      split_ifs at h
      injection h with h; subst h; simp [getOption]
    · simp [setVal, setStr] at h
      split_ifs at h
      injection h with h; subst h; simp [getOption]

theorem set_lw (P : Parsers) (c : Cfg) (z : ℤ) (h : IsInt64 z) (h' : ¬ z < 10) :
    setVal P c "print_linewidth" (.int z) = .ok { c with print_linewidth := z } := by
  simp [setVal, setInt, h, h']
theorem set_in (P : Parsers) (c : Cfg) (z : ℤ) (h : IsInt64 z) (h' : ¬ z < 0) :
    setVal P c "print_indent" (.int z) = .ok { c with print_indent := z } := by
  simp [setVal, setInt, h, h']
theorem set_ms (P : Parsers) (c : Cfg) (z : ℤ) (h : IsInt64 z) (h' : ¬ z < 0) :
    setVal P c "maxlines_spaces" (.int z) = .ok { c with maxlines_spaces := z } := by
  simp [setVal, setInt, h, h']
theorem set_mt (P : Parsers) (c : Cfg) (z : ℤ) (h : IsInt64 z) (h' : ¬ z < 0) :
    setVal P c "maxlines_tensors" (.int z) = .ok { c with maxlines_tensors := z } := by
  simp [setVal, setInt, h, h']
theorem set_cf (P : Parsers) (c : Cfg) (b : Bool) :
    setVal P c "check_fusion" (.bool b) = .ok { c with check_fusion := b } := by
  simp [setVal, setBool]
theorem set_tb (P : Parsers) (c : Cfg) (s : String) (h : s ∈ tensorBackends) :
    setVal P c "default_tensor_backend" (.str s) = .ok { c with default_tensor_backend := s } := by
  simp [setVal, setStr, h]
theorem set_bb (P : Parsers) (c : Cfg) (s : String) (h : s ∈ blockBackends) :
    setVal P c "default_block_backend" (.str s) = .ok { c with default_block_backend := s } := by
  simp [setVal, setStr, h]
theorem set_ep (P : Parsers) (c : Cfg) (x : Flt) (h : x.ltZero = false) :
    setVal P c "fusion_tree_eps" (.float x) = .ok { c with fusion_tree_eps := x } := by
  simp [setVal, setFloat, h]

/-- **C16**: saving a reachable configuration to hdf5 and loading it gives the same configuration
(`int64` range as in the program). -/
theorem C16_save_load (P : Parsers) (c : Cfg) (h : ValidBut c)
    (hr : IsInt64 c.print_linewidth ∧ IsInt64 c.print_indent ∧ IsInt64 c.maxlines_spaces ∧
      IsInt64 c.maxlines_tensors) : load P (save c) = (c, none) := by
  obtain ⟨h1, h2, h3, h4, h5, h6, h7⟩ := h
  obtain ⟨r1, r2, r3, r4⟩ := hr
  have hz : c.fusion_tree_eps.ltZero = false := by
    rcases h7 with h | h
    · rw [h]; rfl
    · exact h
  have n1 : ¬ c.print_linewidth < 10 := by omega
  have n2 : ¬ c.print_indent < 0 := by omega
  have n3 : ¬ c.maxlines_spaces < 0 := by omega
  have n4 : ¬ c.maxlines_tensors < 0 := by omega
  have hsave : save c = [("print_linewidth", .int c.print_linewidth),
      ("print_indent", .int c.print_indent), ("maxlines_spaces", .int c.maxlines_spaces),
      ("maxlines_tensors", .int c.maxlines_tensors), ("check_fusion", .bool c.check_fusion),
      ("default_tensor_backend", .str c.default_tensor_backend),
      ("default_block_backend", .str c.default_block_backend),
      ("fusion_tree_eps", .float c.fusion_tree_eps)] := by
    simp [save, allKeys, getOption]
  rw [hsave]
  have step : ∀ (c c' : Cfg) k v r, setVal P c k v = .ok c' →
      update P c ((k, v) :: r) = update P c' r := by
    intro c c' k v r h; simp only [update, h]
  unfold load
  rw [step _ _ _ _ _ (set_lw P _ _ r1 n1), step _ _ _ _ _ (set_in P _ _ r2 n2),
    step _ _ _ _ _ (set_ms P _ _ r3 n3), step _ _ _ _ _ (set_mt P _ _ r4 n4),
    step _ _ _ _ _ (set_cf P _ _), step _ _ _ _ _ (set_tb P _ _ h5),
    step _ _ _ _ _ (set_bb P _ _ h6), step _ _ _ _ _ (set_ep P _ _ hz)]
  rfl

/-- Non-vacuity: nested blocks, a body that fails and a handler. -/
example (P : Parsers) : run P {} (.seq
    (.block [("print_indent", .int 4)] (.tryExcept (.block [("check_fusion", .bool false)] .raise)))
    (.setOption "default_tensor_backend" (.str "fusion_tree"))) =
    ({ default_tensor_backend := "fusion_tree" }, false) := by
  simp [run, update, setVal, setInt, setBool, setStr, tensorBackends, IsInt64]

end Cyten.Props
