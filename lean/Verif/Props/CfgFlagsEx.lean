import Verif.Props.CfgFlags
import Verif.Props.CfgEqualEx
/-
C84: `update_flags` of a graph; examples.
-/
namespace Verif
open Spec
section
variable {P : Platform} {c : CFG}

theorem flagBlock_attrs (x : Attrs) : ∀ (es : List BElem) (tries : List Nat), flagBlock P { c with attrs := x } tries es = flagBlock P c tries es := by
  intro es
  induction es with
  | nil => intro _; rfl
  | cons e r ih =>
    intro tries
    cases e <;> simp only [flagBlock, ih] <;> rfl

theorem flagBlocks_attrs (x : Attrs) : ∀ (bs tries : List Nat), flagBlocks P { c with attrs := x } tries bs = flagBlocks P c tries bs := by
  intro bs
  induction bs with
  | nil => intro _; rfl
  | cons b r ih =>
    intro tries
    simp only [flagBlocks, flagBlock_attrs, ih]

/-- **C84.** `update_flags` of a graph is idempotent and changes nothing but the flags. -/
theorem C84_update (P : Platform) (c c' : CFG) (a : Option Bool) (h : c.updateFlags P a = .ok c') :
    c'.updateFlags P a = .ok c' ∧ ∃ f, c' = { c with attrs := { c.attrs with flags := f } } ∧ OneKind f ∧
      ∀ n ∈ [bNEWLOCALS, bVARARGS, bVARKEYWORDS, bNESTED, bGENSTOP], f.testBit n = c.attrs.flags.testBit n := by
  unfold CFG.updateFlags at h
  obtain ⟨f, hf, h⟩ := except_bind_ok h
  simp only [pure, Except.pure, Except.ok.injEq] at h
  subst h
  unfold CFG.inferFlags at hf
  obtain ⟨v, hv, hf⟩ := except_bind_ok hf
  refine ⟨?_, f, rfl, C34_one_kind P _ _ _ _ _ _ hf, fun n hn => C34_kept P _ _ _ _ _ _ hf n hn⟩
  unfold CFG.updateFlags CFG.inferFlags
  rw [flagBlocks_attrs]
  simp only [bind, Except.bind]
  have h1 : flagBlocks P c [] c.blocks = .ok v := hv
  rw [h1]
  simp only [inferFlags_idem hf]
  rfl

end

/-- The flags inferred for a graph. -/
def graphFlags (c : CFG) (a : Option Bool := none) : Option Nat := (c.inferFlags Py311.platform a).toOption
/-- The exception. -/
def graphFlagsErr (c : CFG) (a : Option Bool := none) : Option PyErr := match c.inferFlags Py311.platform a with | .ok _ => none | .error e => some e

/-- A generator with a loop: three blocks, a jump back. -/
def genGraph : CFG := mkCFG [⟨[i311 "RETURN_GENERATOR", i311 "POP_TOP", i311 "RESUME" (.int 0)], some 1⟩,
  ⟨[i311 "LOAD_CONST" (.int 1), i311 "YIELD_VALUE", .setLineno 7, i311 "RESUME" (.int 1), i311 "POP_TOP", i311 "JUMP_BACKWARD" (.block 1)], none⟩,
  ⟨[i311 "LOAD_GLOBAL" (.tuple [.bool false, .str "x"]), i311 "RETURN_VALUE"], none⟩]

/-- OPTIMIZED, NOFREE, GENERATOR -/
example : graphFlags genGraph = some 97 := by decide +kernel

theorem resume311 : ∀ op, Py311.platform.opmap "RESUME" = some op → Py311.platform.hasJump op = false := by
  intro op h
  have : Py311.platform.opmap "RESUME" = some 151 := by decide +kernel
  rw [this] at h
  cases h
  decide +kernel

/-- The theorems used: the hypotheses are met. -/
example : ∀ b, genGraph.toBytecode Py311.platform = .ok b → genGraph.inferFlags Py311.platform none = b.inferFlags Py311.platform none := by
  intro b h
  have hmem : ∀ b ∈ genGraph.blocks, ∀ i, BElem.instr i ∈ (genGraph.heap b).elems → BElem.instr i ∈ allCode genGraph :=
    fun b hb i hi => List.mem_flatMap.2 ⟨b, hb, hi⟩
  refine C84_to_bytecode resume311 (made_valid Py311.wf (es := allCode genGraph) (by decide +kernel)) (comparable_of (mkCFG_indexOK _) (by decide) (by decide +kernel)) ?_ ?_ ?_ h none
  · intro b hb i hi l hl
    have h1 : (allCode genGraph).all (fun e => match e with
      | .instr i => (match i.arg with | .label _ => false | _ => true)
      | _ => true) = true := by decide +kernel
    have := List.all_eq_true.1 h1 _ (hmem b hb i hi)
    simp only [hl] at this
    cases this
  · intro k hk a i b hx hj
    have hit : ∀ k ∈ genGraph.blocks, (genGraph.heap k).elems.dropLast.all (fun e => match e with | .instr i => !(Py311.platform.hasJump i.opcode || isFinal i.name) | _ => true) = true := by
      decide +kernel
    cases b with
    | nil => rfl
    | cons y b =>
      exfalso
      have hd : BElem.instr i ∈ (genGraph.heap k).elems.dropLast := by
        rw [hx, List.dropLast_append_cons, List.dropLast_cons_of_ne_nil (by simp)]; simp
      have := List.all_eq_true.1 (hit k hk) _ hd
      simp only [Bool.not_eq_true', Bool.or_eq_false_iff] at this
      rcases hj with hj | hj
      · rw [this.1] at hj; cases hj
      · rw [this.2] at hj; cases hj
  · intro e he
    have h1 : (allCode genGraph).all (fun e => match e with | .tryBegin _ => false | .tryEnd _ => false | _ => true) = true := by decide +kernel
    have := List.all_eq_true.1 h1 _ he
    refine ⟨fun t ht => ?_, fun id hid => ?_⟩
    · subst ht; cases this
    · subst hid; cases this

/-- With try markers, AttributeError; the same code is fine as a Bytecode. -/
example : graphFlagsErr (mkCFG eqTry) = some .attributeError := by decide +kernel
example : (((⟨Attrs.default, [], [.tryBegin ⟨0, 1, false, none⟩, i311 "NOP", .tryEnd 0, i311 "LOAD_CONST" (.int 1), i311 "RETURN_VALUE", .label 1, i311 "RERAISE" (.int 0)]⟩ : Bytecode).inferFlags
    Py311.platform none).toOption) = some 65 := by decide +kernel
/-- Code hidden after a final instruction is not looked at: a `STORE_NAME` there does not clear OPTIMIZED. -/
example : graphFlags (mkCFG [⟨[i311 "LOAD_CONST" (.int 1), i311 "RETURN_VALUE", i311 "STORE_NAME" (.str "x")], none⟩]) = some 65 := by decide +kernel

end Verif
