import Verif.Proofs.ChainPass
import Verif.Props.Passes
import Verif.Props.ToCodeErrors
/-
C70: no fixed number of passes is enough.
-/
namespace Verif
open Spec

theorem chJump_valid (l : Nat) : ∀ i, chJump l = .instr i → ValidInstr Py311.platform i := by
  intro i hi
  rw [chJump_eq] at hi
  cases hi
  have hv := made_valid Py311.wf (es := [chJump 0]) (by decide +kernel) ⟨"JUMP_FORWARD", 110, .label 0, none⟩ (by rw [chJump_eq]; simp)
  refine ⟨hv.name_op, hv.base, hv.not_ext, ?_, by simp⟩
  show ArgOK Py311.platform 110 (.label l)
  constructor
  · exact ⟨fun _ => by simp, fun _ => by decide +kernel⟩
  · exact fun _ => .inl ⟨l, rfl⟩
  all_goals clear hv
  all_goals (intro h; first | exact absurd h (by decide +kernel) | (intro h'; exact absurd h' (by decide +kernel)) | skip)

theorem chain_valid (n : Nat) : ∀ i, .instr i ∈ (chain n).elems → ValidInstr Py311.platform i := by
  intro i hi
  rcases chain_mem hi with ⟨l, h⟩ | ⟨l, h⟩ | h
  · exact chJump_valid l i h.symm
  · cases h
  · have hv := made_valid Py311.wf (es := [chNop]) (by decide +kernel)
    exact hv i (by rw [h]; simp)

theorem chain_noCache (n : Nat) : ∀ e ∈ (chain n).elems, e.isCache = false := by
  intro e he
  rcases chain_mem he with ⟨l, rfl⟩ | ⟨l, rfl⟩ | rfl <;> rfl

theorem wellTried_plain {es : List BElem} (h : ∀ e ∈ es, (∃ i, e = .instr i) ∨ ∃ l, e = .label l) : ∀ any, WellTried none [] any es := by
  induction es with
  | nil => intro any; rfl
  | cons e es ih =>
    intro any
    have ih := ih (fun x hx => h x (List.mem_cons_of_mem _ hx))
    rcases h e (by simp) with ⟨i, rfl⟩ | ⟨l, rfl⟩
    · exact ih true
    · exact ih any

theorem noEmpty_plain {es : List BElem} (h : ∀ e ∈ es, (∃ i, e = .instr i) ∨ ∃ l, e = .label l) : NoEmptyTry false es := by
  induction es with
  | nil => trivial
  | cons e es ih =>
    have ih := ih (fun x hx => h x (List.mem_cons_of_mem _ hx))
    rcases h e (by simp) with ⟨i, rfl⟩ | ⟨l, rfl⟩ <;> exact ih

theorem chCode_prefixes (n : Nat) : ∀ m, jumpPrefixes Py311.platform ((List.range m).map (chAt n (fun _ => 256))) = min (n + 1) ((m + 254) / 255) := by
  intro m
  have hj : Py311.platform.hasJump (chJumpI 256).opcode = true := by decide +kernel
  have hn : Py311.platform.hasJump chNopI.opcode = false := by decide +kernel
  have hs : prefixes (chJumpI 256) = 1 := by unfold prefixes; rw [chJumpI_size (by omega)]; rfl
  induction m with
  | zero => simp [jumpPrefixes]
  | succ m ih =>
    rw [List.range_succ, List.map_append]
    unfold jumpPrefixes at ih ⊢
    rw [List.filter_append, List.map_append, List.sum_append, ih]
    simp only [List.map_cons, List.map_nil]
    by_cases h : m % 255 = 0 ∧ m / 255 ≤ n
    · have : chAt n (fun _ => 256) m = chJumpI 256 := by simp [chAt, h]
      rw [this]
      simp [hj, hs]
      omega
    · have : chAt n (fun _ => 256) m = chNopI := by simp [chAt, h]
      rw [this]
      simp [hn]
      omega

section
variable {κ : Type} [DecidableEq κ] (key : Arg → κ) (eff : Instr → Bool → Py (Int × Int))

/-- **C70 (the bound is attained, whatever the number).** `chain n` is made of NOP and n + 1 forward jumps to labels of the code. Its code object has n + 1
EXTENDED_ARG before jumps. `to_code` gives it with any number of passes larger than that, and raises RuntimeError with any other. So no fixed number of
passes is enough for all programs. -/
theorem C70_tight (n : Nat) : ∃ co, jumpExtArgs Py311.platform co = n + 1 ∧
    ∀ passes, (chain n).toCode Py311.platform key eff passes (some 1) false = if n + 1 < passes then .ok co else .error .runtimeError := by
  have hc : toConcrete Py311.platform key (n + 2) (chain n) = .ok { attrs := Attrs.default, consts := [], names := [], varnames := [], excTable := [], elems := (chCode n (chArgs n (n + 2))).map .instr } := by
    rw [chain_toConcrete, if_pos (Nat.le_refl _)]
  obtain ⟨T, M, hF⟩ := toConcrete_Final Py311.wf (chain_noCache n) (chain_valid n) hc
  generalize hcc : ({ attrs := Attrs.default, consts := [], names := [], varnames := [], excTable := [], elems := (chCode n (chArgs n (n + 2))).map .instr } : Concrete) = c at hc hF
  cases he : c.emit Py311.platform 1 with
  | error e =>
    have hno : ∀ e ∈ (chain n).elems, (∃ i, e = .instr i) ∨ ∃ l, e = .label l := by
      intro e he
      rcases chain_mem he with ⟨l, rfl⟩ | ⟨l, rfl⟩ | rfl
      · exact .inl ⟨_, chJump_eq l⟩
      · exact .inr ⟨l, rfl⟩
      · exact .inl ⟨_, chNop_eq⟩
    obtain ⟨_, _, i, l, hi, hl, _⟩ := hF.emit_error (fun _ => ⟨wellTried_plain hno false, noEmpty_plain hno⟩) he
    rcases chain_mem hi with ⟨l', h⟩ | ⟨l', h⟩ | h
    · rw [chJump_eq] at h; cases h; cases hl
    · cases h
    · rw [chNop_eq] at h; cases h; cases hl
  | ok co =>
    have hx : jumpExtArgs Py311.platform co = n + 1 := by
      rw [← emit_prefixes Py311.wf (chain_noCache n) (chain_valid n) hc he, ← hcc]
      have : instrsOf ((chCode n (chArgs n (n + 2))).map .instr) = chCode n (fun _ => 256) := by
        rw [instrsOf_map]
        apply chCode_congr
        intro i hi
        unfold chArgs
        rw [if_neg (by omega), if_pos (by omega)]
      rw [this, chCode, chCode_prefixes]
      omega
    refine ⟨co, hx, fun passes => ?_⟩
    unfold Bytecode.toCode
    simp only [Bool.and_false, Bool.false_eq_true, if_false]
    rw [chain_toConcrete, hcc]
    by_cases h : n + 2 ≤ passes
    · rw [if_pos h, if_pos (by omega)]
      exact he
    · rw [if_neg h, if_neg (by omega)]; rfl

/-- **C70 (no number of passes is enough for all programs).** For every `N` there is a Bytecode of valid instructions that `to_code` assembles with more
than `N + 1` passes but not with `N + 1` or fewer, where it raises RuntimeError. -/
theorem C70_unbounded (N : Nat) : ∃ b : Bytecode, (∀ i, .instr i ∈ b.elems → ValidInstr Py311.platform i) ∧ (∀ e ∈ b.elems, e.isCache = false) ∧
    (∀ passes, N + 1 < passes → ∃ co, b.toCode Py311.platform key eff passes (some 1) false = .ok co) ∧
    (∀ passes, passes ≤ N + 1 → b.toCode Py311.platform key eff passes (some 1) false = .error .runtimeError) := by
  obtain ⟨co, _, h⟩ := C70_tight key eff N
  refine ⟨chain N, chain_valid N, chain_noCache N, fun passes hp => ⟨co, ?_⟩, fun passes hp => ?_⟩
  · rw [h, if_pos hp]
  · rw [h, if_neg (by omega)]

end
end Verif
