import Verif.Props.ConcreteToCode
import Verif.Props.RealEx
/-
**C77.** The ways to assemble agree: `Bytecode.to_code`, `to_concrete_bytecode` followed by `ConcreteBytecode.to_code`, `ControlFlowGraph.from_bytecode`
followed by `ControlFlowGraph.to_code`; `compute_stacksize` of the three containers is the `co_stacksize` they write. These equations are between
results of Python calls, exceptions included.
-/
namespace Verif
open Spec
variable {P : Platform} {κ : Type} [DecidableEq κ] {key : Arg → κ} {eff : Instr → Bool → Py (Int × Int)}

/-- **C77 (two steps, 3.11+).** `b.to_code(passes)` is `c = b.to_concrete_bytecode(passes)`, `n = b.compute_stacksize()`, then
`c.to_code(stacksize=n, compute_exception_stack_depths=False)`; a stack size given to `to_code` is not used. -/
theorem C77_two_steps (h11 : P.py311 = true) (b : Bytecode) (passes : Nat) (stacksize : Option Int) :
    b.toCode P key eff passes stacksize true = (do
      let c ← toConcreteDepths P key eff passes true b
      let n ← b.computeStacksize P eff
      c.toCode P key eff (some n) false) := by
  simp only [Bytecode.toCode, toConcreteDepths, h11, Bool.and_true, if_true, Bytecode.sized, Bytecode.computeStacksize, Concrete.toCode, Bool.and_false,
    Bool.false_eq_true, if_false]
  cases fromBytecode P b with
  | error e => rfl
  | ok g =>
    cases hr : g.computeStacksize P eff true with
    | error e => simp [bind, Except.bind, hr]
    | ok r => simp only [bind, Except.bind, hr, pure, Except.pure]; cases r.2.toBytecode P with
      | error e => rfl
      | ok b' => rfl

/-- **C77 (two steps, depths kept or before 3.11).** With a stack size and no computation of the depths, `b.to_code(passes, n)` is
`b.to_concrete_bytecode(passes).to_code(n)` with the same option; before 3.11 the option changes nothing. -/
theorem C77_two_steps_given {depths : Bool} (hd : (P.py311 && depths) = false) (b : Bytecode) (passes : Nat) (n : Int) :
    b.toCode P key eff passes (some n) depths = (do
      let c ← toConcreteDepths P key eff passes depths b
      c.toCode P key eff (some n) depths) := by
  simp only [Bytecode.toCode, toConcreteDepths, Concrete.toCode, hd, Bool.false_eq_true, if_false]

/-- **C77 (the option before 3.11).** Before 3.11 there is no exception table: `compute_exception_stack_depths` does not change what is written. -/
theorem C77_old_option (h11 : P.py311 = false) (b : Bytecode) (passes : Nat) (n : Int) (depths : Bool) :
    b.toCode P key eff passes (some n) depths = b.toCode P key eff passes (some n) false ∧
      toConcreteDepths P key eff passes depths b = toConcreteDepths P key eff passes false b := by
  simp [Bytecode.toCode, toConcreteDepths, h11]

/-- **C77 (graph).** `ControlFlowGraph.from_bytecode(b).to_code()` is `b.to_code()`, with the depths of the handlers computed or not. -/
theorem C77_graph (b : Bytecode) (depths : Bool) :
    (fromBytecode P b >>= fun g => g.toCode P key eff none depths) = b.toCode P key eff 10 none depths := by
  have e : ∀ (x : Py (Int × Bytecode)), (x >>= fun r => toConcrete P key 10 r.2 >>= fun c => c.emit P r.1) =
      if (P.py311 && depths) = true then (x >>= fun r => toConcrete P key 10 r.2 >>= fun c => c.emit P r.1)
      else (x >>= fun r => toConcrete P key 10 r.2 >>= fun c => c.emit P r.1) := by intro x; split <;> rfl
  unfold Bytecode.toCode
  rw [← e]
  unfold CFG.toCode Bytecode.sized Bytecode.toCode
  cases fromBytecode P b with
  | error e => rfl
  | ok g =>
    simp only [bind, Except.bind, Bool.and_false, Bool.false_eq_true, if_false]
    cases g.computeStacksize P eff depths with
    | error e => rfl
    | ok r => simp only [pure, Except.pure]; cases r.2.toBytecode P with
      | error e => rfl
      | ok b' => rfl

/-- **C77 (graph, given stack size).** With a stack size the graph is written as `to_bytecode()` gives it. -/
theorem C77_graph_given (g : CFG) (n : Int) (depths : Bool) :
    g.toCode P key eff (some n) depths = (g.toBytecode P >>= fun b => b.toCode P key eff 10 (some n) false) := rfl

/-- The number does not depend on whether the depths are recorded. -/
theorem computeStacksize_option {g g' : CFG} {n : Int} {depths : Bool} (h : g.computeStacksize P eff depths = .ok (n, g')) :
    ∃ g'', g.computeStacksize P eff false = .ok (n, g'') := by
  cases depths with
  | false => exact ⟨g', h⟩
  | true =>
    unfold CFG.computeStacksize at h ⊢
    cases hb : g.blocks with
    | nil => rw [hb] at h; exact ⟨g', h⟩
    | cons b l =>
      rw [hb] at h
      obtain ⟨r, h1, h⟩ := except_bind_ok h
      simp only [h1, bind, Except.bind]
      simp only at h
      obtain ⟨ids, h2, h⟩ := except_bind_ok h
      simp only [h2]
      simp only [if_true] at h
      obtain ⟨c2, h3, h⟩ := except_bind_ok h
      cases h
      exact ⟨_, rfl⟩

/-- **C77 (stack size).** When `to_code` computes the stack size, the code object has the size `compute_stacksize()` answers (with the computation of the depths
`compute_stacksize()` succeeds as well). -/
theorem C77_stacksize {b : Bytecode} {co : Code} {passes : Nat} {stacksize : Option Int} {depths : Bool}
    (hd : P.py311 = true ∧ depths = true ∨ stacksize = none) (h : b.toCode P key eff passes stacksize depths = .ok co) :
    (depths = true → b.computeStacksize P eff = .ok co.stacksize) ∧ ∀ m, b.computeStacksize P eff = .ok m → co.stacksize = m := by
  have key' : ∃ r c, b.sized P eff depths = .ok r ∧ toConcrete P key passes r.2 = .ok c ∧ c.emit P r.1 = .ok co := by
    unfold Bytecode.toCode at h
    split at h
    · obtain ⟨r, h1, h⟩ := except_bind_ok h
      obtain ⟨c, h2, h⟩ := except_bind_ok h
      exact ⟨r, c, h1, h2, h⟩
    · rename_i hn
      rcases hd with ⟨h1, h2⟩ | rfl
      · simp [h1, h2] at hn
      · obtain ⟨r, h1, h⟩ := except_bind_ok h
        obtain ⟨c, h2, h⟩ := except_bind_ok h
        exact ⟨r, c, h1, h2, h⟩
  obtain ⟨r, c, h1, -, h3⟩ := key'
  have hs : co.stacksize = r.1 := by
    unfold Concrete.emit at h3
    simp only at h3
    obtain ⟨_, _, h3⟩ := except_bind_ok h3
    obtain ⟨_, _, h3⟩ := except_bind_ok h3
    cases h3; rfl
  unfold Bytecode.sized at h1
  obtain ⟨g, hg, h1⟩ := except_bind_ok h1
  obtain ⟨x, hx, h1⟩ := except_bind_ok h1
  obtain ⟨y, hy, h1⟩ := except_bind_ok h1
  cases h1
  refine ⟨?_, ?_⟩
  · rintro rfl
    simp only [Bytecode.computeStacksize, hg, bind, Except.bind, hx, pure, Except.pure, hs]
  · intro m hm
    simp only [Bytecode.computeStacksize, hg, bind, Except.bind] at hm
    cases hz : g.computeStacksize P eff true with
    | error e => rw [hz] at hm; cases hm
    | ok z =>
      rw [hz] at hm
      simp only [pure, Except.pure, Except.ok.injEq] at hm
      obtain ⟨z', q1⟩ := computeStacksize_option (n := z.1) (g' := z.2) hz
      obtain ⟨x', q2⟩ := computeStacksize_option (n := x.1) (g' := x.2) hx
      rw [q1] at q2
      rw [hs, ← hm]
      simp only [Except.ok.injEq, Prod.mk.injEq] at q2
      exact q2.1.symm

/-- **C77 (stack size, ConcreteBytecode).** The same for a ConcreteBytecode. -/
theorem C77_stacksize_concrete {c : Concrete} {co : Code} {stacksize : Option Int} (hd : P.py311 = true ∨ stacksize = none)
    (h : c.toCode P key eff stacksize true = .ok co) : c.computeStacksize P eff = .ok co.stacksize := by
  rw [C76_through_bytecode (by rcases hd with h | rfl <;> simp [*])] at h
  obtain ⟨b, hb, h⟩ := except_bind_ok h
  unfold Concrete.computeStacksize
  rw [hb]
  exact (C77_stacksize (by rcases hd with h | rfl <;> simp [*]) h).1 rfl

/-- **C77 (stack size, graph).** The same for a ControlFlowGraph, and the computed graph is the one that is written. -/
theorem C77_stacksize_graph {g : CFG} {co : Code} {depths : Bool} (h : g.toCode P key eff none depths = .ok co) :
    ∃ g', g.computeStacksize P eff depths = .ok (co.stacksize, g') ∧ g'.toCode P key eff (some co.stacksize) depths = .ok co := by
  unfold CFG.toCode at h
  obtain ⟨r, hr, h⟩ := except_bind_ok h
  obtain ⟨b, hb, h⟩ := except_bind_ok h
  have hs : co.stacksize = r.1 := by
    simp only [Bytecode.toCode, Bool.and_false, Bool.false_eq_true, if_false] at h
    obtain ⟨c, _, h3⟩ := except_bind_ok h
    unfold Concrete.emit at h3
    simp only at h3
    obtain ⟨_, _, h3⟩ := except_bind_ok h3
    obtain ⟨_, _, h3⟩ := except_bind_ok h3
    cases h3; rfl
  refine ⟨r.2, by have hr' : g.computeStacksize P eff depths = .ok r := hr; rw [hr', hs], ?_⟩
  rw [C77_graph_given, hs, hb]
  exact h

/-- The hypotheses are met: a function with a `with` block compiled by CPython (Props/RealEx) is written by all the ways, with the same result. -/
example : ∃ b g c co, Bytecode.fromCode Py311.platform realCode = .ok b ∧ fromBytecode Py311.platform b = .ok g ∧
    toConcreteDepths Py311.platform (id : Arg → Arg) eff311 10 true b = .ok c ∧
    b.toCode Py311.platform (id : Arg → Arg) eff311 = .ok co ∧ g.toCode Py311.platform (id : Arg → Arg) eff311 = .ok co ∧
    c.toCode Py311.platform (id : Arg → Arg) eff311 (some co.stacksize) false = .ok co ∧ b.computeStacksize Py311.platform eff311 = .ok co.stacksize := by
  obtain ⟨co, h2, -⟩ := real_round_trip
  have h1 := realRead_ok
  have h3 := C77_graph (P := Py311.platform) (key := (id : Arg → Arg)) (eff := eff311) realRead true
  rw [h2] at h3
  obtain ⟨g, hg, h3⟩ := except_bind_ok h3
  have h4 := C77_two_steps (P := Py311.platform) (key := (id : Arg → Arg)) (eff := eff311) (by decide) realRead 10 none
  rw [h2] at h4
  obtain ⟨c, hc, h4⟩ := except_bind_ok h4.symm
  obtain ⟨n, hn, h4⟩ := except_bind_ok h4
  have h5 := (C77_stacksize (.inr rfl) h2).1 rfl
  rw [hn] at h5
  cases h5
  exact ⟨realRead, g, c, co, h1, hg, hc, h2, h3, h4, hn⟩

end Verif
