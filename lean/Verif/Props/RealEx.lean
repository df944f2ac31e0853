import Verif.Props.SmallTables
/-
A code object compiled by CPython 3.11.10 (a loop with a try statement), for C51, C62, C68 and C69:

    def f(xs):
        for x in xs:
            try:
                g(x)
            except ValueError:
                h()
        return x
-/
namespace Verif
open Spec

def realCode : Code where
  argcount := 1
  posonlyargcount := 0
  kwonlyargcount := 0
  nlocals := 2
  stacksize := 5
  flags := 3
  code := [151, 0, 124, 0, 68, 0, 93, 48, 125, 1, 9, 0, 116, 1, 0, 0, 0, 0, 0, 0, 0, 0, 0, 0, 124, 1, 166, 1, 0, 0, 171, 1, 0, 0, 0, 0, 0, 0, 0, 0,
    1, 0, 140, 19, 35, 0, 116, 2, 0, 0, 0, 0, 0, 0, 0, 0, 0, 0, 36, 0, 114, 17, 1, 0, 116, 5, 0, 0, 0, 0, 0, 0, 0, 0, 0, 0, 166, 0, 0, 0, 171, 0, 0,
    0, 0, 0, 0, 0, 0, 0, 1, 0, 89, 0, 140, 45, 119, 0, 120, 3, 89, 0, 119, 1, 124, 1, 83, 0]
  consts := [.other 0]
  names := ["g", "ValueError", "h"]
  varnames := ["xs", "x"]
  filename := "<string>"
  name := "f"
  qualname := "f"
  firstlineno := 2
  linetable := [128, 0, 216, 13, 15, 240, 0, 4, 5, 16, 240, 0, 4, 5, 16, 136, 1, 240, 2, 3, 9, 16, 221, 12, 13, 136, 97, 137, 68, 140, 68, 136, 68,
    136, 68, 248, 221, 15, 25, 240, 0, 1, 9, 16, 240, 0, 1, 9, 16, 240, 0, 1, 9, 16, 221, 12, 13, 137, 67, 140, 67, 136, 67, 136, 67, 136, 67, 240,
    3, 1, 9, 16, 248, 248, 248, 224, 11, 12, 128, 72]
  exctable := [134, 15, 22, 2, 150, 24, 49, 5, 176, 1, 49, 5]
  freevars := []
  cellvars := []

theorem realCode_ok : CodeOK Py311.platform realCode := codeOK_of (by decide +kernel)
theorem realCode_rewritable : Rewritable Py311.platform realCode := rewritable_of (by decide +kernel)

/-- The code object read. -/
def realRead : Bytecode := (Bytecode.fromCode Py311.platform realCode).toOption.get (by decide +kernel)
theorem realRead_ok : Bytecode.fromCode Py311.platform realCode = .ok realRead := toOption_ok (by simp [realRead])

/-- The graph of its instructions. -/
def realGraph : CFG := (fromBytecode Py311.platform realRead).toOption.get (by decide +kernel)
theorem realGraph_ok : fromBytecode Py311.platform realRead = .ok realGraph := toOption_ok (by simp [realGraph])

def realTry0 : TryB := ⟨0, 3, false, none⟩
def realTry1 : TryB := ⟨1, 6, true, none⟩
def realTry2 : TryB := ⟨2, 6, true, none⟩

/-- The number of values on the stack at the start of the blocks; the handlers are started with 1 and 2 values left. -/
def realMap : StackMap where
  entry := fun b => [some (0, none), some (1, none), some (2, none), some (2, none), some (3, some (realTry1, true)),
    some (3, some (realTry1, true)), some (4, none), some (0, none)][b]?.getD none
  base := fun b => if b = 3 then 1 else if b = 6 then 2 else 0
  joins := fun _ => false
  before := fun _ => []

theorem real_base (n : Nat) : 0 ≤ realMap.base n ∧ realMap.base n < 32768 := by
  unfold realMap
  simp only
  split
  · omega
  · split <;> omega

theorem real_valid : realMap.Valid Py311.platform eff311 realGraph 0 := valid_of (by decide +kernel) (fun n => (real_base n).2)

theorem real_safe : realMap.Safe Py311.platform eff311 realGraph := safe_of (by decide +kernel) (fun n => (real_base n).1)

theorem from_heap_none {P : Platform} {b : Bytecode} {c : CFG} (h : fromBytecode P b = .ok c) {k : Nat} (hk : c.blocks.length ≤ k) : (c.heap k).elems = [] := by
  obtain ⟨bs, rfl⟩ := from_blocks h
  simp only [CFG.ofBlocks, List.length_range] at hk ⊢
  rw [List.getElem?_eq_none hk]
  rfl

theorem real_tries : ∀ b t, BElem.tryBegin t ∈ (realGraph.heap b).elems → t ∈ [realTry0, realTry1, realTry2] := by
  intro b t ht
  by_cases hb : realGraph.blocks.length ≤ b
  · rw [from_heap_none realGraph_ok hb] at ht; cases ht
  · have h : (List.range realGraph.blocks.length).all (fun b => (realGraph.heap b).elems.all (fun
      | .tryBegin t => decide (t ∈ [realTry0, realTry1, realTry2])
      | _ => true)) = true := by decide +kernel
    have := List.all_eq_true.1 (List.all_eq_true.1 h b (List.mem_range.2 (by omega))) _ ht
    exact of_decide_eq_true this

/-- The end of the region of the try statement. -/
theorem real_end0 : realMap.Reached Py311.platform eff311 realGraph 2 8 1 (some (realTry0, true)) :=
  follow_reached (List.replicate 14 0) (0, 0, 0, none) (2, 8, 1, some (realTry0, true)) (.first (by decide +kernel) (by decide +kernel)) (by decide +kernel)

/-- The handler is reached, and the end of its own region. -/
theorem real_handler : realMap.Reached Py311.platform eff311 realGraph 3 0 2 none :=
  .handler (t := realTry0) real_end0 (.mark (by decide +kernel)) (by decide +kernel)

theorem real_end1 : realMap.Reached Py311.platform eff311 realGraph 4 5 2 (some (realTry1, true)) :=
  follow_reached (List.replicate 11 0) (3, 0, 2, none) (4, 5, 2, some (realTry1, true)) real_handler (by decide +kernel)

theorem real_ends : realMap.Ends Py311.platform eff311 realGraph := by
  intro b i d t f ins hr _
  have ht : t.target ∈ [3, 6] := by
    refine reached_targets ?_ ?_ hr t f rfl
    · intro b t ht
      have := real_tries b t ht
      simp only [List.mem_cons, List.not_mem_nil, or_false] at this
      rcases this with rfl | rfl | rfl <;> decide
    · intro b d t f he
      unfold realMap at he
      simp only at he
      match b with
      | 0 | 1 | 2 | 3 | 4 | 5 | 6 | 7 => simp at he <;> simp [← he.2.1, realTry1]
      | n + 8 => simp at he
  simp only [List.mem_cons, List.not_mem_nil, or_false] at ht
  rcases ht with ht | ht
  · exact ⟨2, 8, 1, _, realTry0, real_end0, .mark (by decide +kernel), by rw [ht]; rfl⟩
  · exact ⟨4, 5, 2, _, realTry1, real_end1, .mark (by decide +kernel), by rw [ht]; rfl⟩

theorem real_live : realMap.Live Py311.platform eff311 realGraph := by
  intro t ht
  obtain ⟨b, _, hb⟩ := List.mem_flatMap.1 ht
  have := real_tries b t hb
  simp only [List.mem_cons, List.not_mem_nil, or_false] at this
  have at_ : ∀ {b i : Nat}, ((realGraph.heap b).elems[i]?.any BElem.isInstr) = true → ∃ ins, (realGraph.heap b).elems[i]? = some (.instr ins) := by
    intro b i h
    cases hx : (realGraph.heap b).elems[i]? with
    | none => rw [hx] at h; cases h
    | some x => rw [hx] at h; cases x <;> first | exact ⟨_, rfl⟩ | cases h
  rcases this with rfl | rfl | rfl
  · have h := follow_reached (M := realMap) (P := Py311.platform) (eff := eff311) (c := realGraph) (List.replicate 9 0) (0, 0, 0, none)
      (2, 3, 1, some (realTry0, true)) (.first (by decide +kernel) (by decide +kernel)) (by decide +kernel)
    obtain ⟨ins, hi⟩ := at_ (b := 2) (i := 3) (by decide +kernel)
    exact ⟨2, 3, 1, true, ins, h, hi⟩
  · have h := follow_reached (M := realMap) (P := Py311.platform) (eff := eff311) (c := realGraph) [0] (3, 0, 2, none)
      (3, 1, 2, some (realTry1, true)) real_handler (by decide +kernel)
    obtain ⟨ins, hi⟩ := at_ (b := 3) (i := 1) (by decide +kernel)
    exact ⟨3, 1, 2, true, ins, h, hi⟩
  · have h := follow_reached (M := realMap) (P := Py311.platform) (eff := eff311) (c := realGraph) [0, 0, 0, 0, 1, 0, 0] (3, 0, 2, none)
      (5, 2, 3, some (realTry2, false)) real_handler (by decide +kernel)
    obtain ⟨ins, hi⟩ := at_ (b := 5) (i := 2) (by decide +kernel)
    exact ⟨5, 2, 3, false, ins, h, hi⟩

/-- The code object compiled by CPython, read and written with the default options: the same program, exception table included, and not longer,
and a stack size that is enough for all executions. -/
theorem real_round_trip : ∃ co', realRead.toCode Py311.platform (id : Arg → Arg) eff311 = .ok co' ∧
    programCode Py311.platform (id : Arg → Arg) co' = programCode Py311.platform (id : Arg → Arg) realCode ∧
    co'.code.length ≤ realCode.code.length ∧
    ∀ x, LTOnPath Py311.platform eff311 realRead ((programCode Py311.platform (id : Arg → Arg) realCode).map (·.handler)) 0 x → x.depth ≤ max co'.stacksize 0 := by
  have e0 : initialSize Py311.platform realRead.attrs.flags = 0 := by decide +kernel
  have := C69_passes (passes := 10) Py311.wf (by decide) (id : Arg → Arg) (fun i j => effOf_ne _ _ _ (.inr rfl) i j) (effOf_targetFree _ _)
    realCode_ok realCode_rewritable (by decide +kernel) (smallTables_of (by decide +kernel)) realRead_ok (fun i hi j => (effs_of (by decide +kernel) i hi j).imp fun _ h => h.1)
    realGraph_ok realMap (by rw [e0]; exact real_valid) real_safe real_ends real_live ?_ (by decide +kernel)
  · rw [e0] at this
    exact this
  · have h : ((programCode Py311.platform (id : Arg → Arg) realCode).map (·.handler)).all (fun
      | none => true
      | some h => (List.range realGraph.blocks.length).all (fun t => !decide (blockAt realGraph.heap t realGraph.blocks = some h.target) || decide (realMap.base t = h.depth))) = true := by
      decide +kernel
    intro x hx t ht
    have h1 := List.all_eq_true.1 h _ hx
    have hb : t ∈ realGraph.blocks := blockAt_mem ht
    have hb' : realGraph.blocks = List.range realGraph.blocks.length := by decide +kernel
    rw [hb'] at hb
    have h2 := List.all_eq_true.1 h1 t hb
    simpa [ht] using h2

end Verif
