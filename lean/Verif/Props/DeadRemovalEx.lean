import Verif.Props.DeadRemoval
import Verif.Props.CfgEqualEx
import Verif.Props.StackSizeEx
import Verif.Props.StackMapEx
/-
Examples for C85.
-/
namespace Verif
open Spec

/-- Control does not leave the blocks `K`. -/
def closedIn (c : CFG) (K : List Nat) : Bool :=
  c.blocks.head?.all (fun b => decide (b ∈ K)) &&
  K.all (fun a =>
    (c.heap a).elems.all (fun
      | .instr i => (match i.arg with | .block t => decide (t ∈ K) | _ => true)
      | .tryBegin t => decide (t.target ∈ K)
      | .tryEnd id => (allCode c).all (fun | .tryBegin t => decide (t.id = id → t.target ∈ K) | _ => true)
      | _ => true) &&
    (!fallsThrough (c.heap a).elems || (c.heap a).next.all (fun b => decide (b ∈ K))))

theorem entered_in {c : CFG} {K : List Nat} (h : closedIn c K = true) {b : Nat} (hb : Entered c b) : b ∈ K := by
  simp only [closedIn, Bool.and_eq_true, List.all_eq_true] at h
  obtain ⟨h0, h⟩ := h
  obtain ⟨e, he, hs⟩ := hb
  induction hs with
  | refl => rw [he] at h0; simpa using h0
  | tail hs hedge ih =>
    obtain ⟨h1, h2⟩ := h _ ih
    rcases hedge with (⟨i, hi, ha⟩ | ⟨t, ht, ha⟩) | ⟨hn, hf⟩ | ⟨id, t, hi, ht, hid, ha⟩
    · have := h1 _ hi
      simpa [ha] using this
    · have := h1 _ ht
      simpa [ha] using this
    · simpa [hf, hn] using h2
    · have := h1 _ hi
      simp only [List.all_eq_true] at this
      have := this _ ht
      simp only [decide_eq_true_eq] at this
      exact ha ▸ this hid

/-- A jump over an unused block with a protected region of its own, in front of a protected region with its handler. -/
def overDead : CFG := mkCFG [
  ⟨[i311 "JUMP_FORWARD" (.block 2)], none⟩,
  ⟨[.tryBegin ⟨7, 4, false, none⟩, i311 "LOAD_CONST" (.int 1), i311 "LOAD_CONST" (.int 1), i311 "LOAD_CONST" (.int 1), i311 "LOAD_CONST" (.int 1), .tryEnd 7], some 2⟩,
  ⟨[i311 "LOAD_CONST" (.int 5), .tryBegin ⟨3, 3, true, none⟩, i311 "LOAD_CONST" (.int 6), i311 "POP_TOP", .tryEnd 3, i311 "RETURN_VALUE"], none⟩,
  ⟨[i311 "RERAISE" (.int 1)], none⟩,
  ⟨[i311 "RERAISE" (.int 0)], none⟩]

def closedHeap (c : CFG) : Bool :=
  c.blocks.all (fun b => decide (b < c.fresh)) && (List.range c.fresh).all (fun b =>
    (c.heap b).elems.all (fun
      | .instr i => (match i.arg with | .block t => decide (t < c.fresh) | _ => true)
      | .tryBegin t => decide (t.target < c.fresh)
      | _ => true) && (c.heap b).next.all (fun n => decide (n < c.fresh)))

theorem closed_of {c : CFG} (h : closedHeap c = true) : Closed c := by
  simp only [closedHeap, Bool.and_eq_true, List.all_eq_true, List.mem_range, decide_eq_true_eq] at h
  refine ⟨h.1, ?_⟩
  intro b hb
  obtain ⟨h1, h2⟩ := h.2 b hb
  refine ⟨?_, ?_, ?_⟩
  · intro i t hi ht
    have := h1 _ hi
    simpa [ht] using this
  · intro t ht
    simpa using h1 _ ht
  · intro n hn
    rw [hn] at h2
    simpa using h2

theorem overDead_entered : ∀ d ∈ [1, 4], ¬ Entered overDead d := by
  intro d hd he
  have := entered_in (K := [0, 2, 3]) (by decide +kernel) he
  simp at hd this
  omega

def ownTries (c : CFG) (D : List Nat) : Bool :=
  D.all (fun d => (c.heap d).elems.all (fun
    | .tryBegin t => c.blocks.all (fun b => decide (b ∈ D) || (c.heap b).elems.all (fun
        | .tryEnd id => decide (id ≠ t.id)
        | .tryBegin u => decide (u.id ≠ t.id)
        | _ => true))
    | _ => true))

theorem ownTries_spec {c : CFG} {D : List Nat} (h : ownTries c D = true) : OwnTries c D := by
  simp only [ownTries, List.all_eq_true] at h
  intro d hd t ht b hb hn
  have h1 := h d hd _ ht
  simp only [List.all_eq_true, Bool.or_eq_true, decide_eq_true_eq] at h1
  have h2 := (h1 b hb).resolve_left hn
  refine ⟨?_, ?_⟩
  · intro he
    simpa using h2 _ he
  · intro u hu
    simpa using h2 _ hu

/-- The size of the graph, and the depths of its regions. -/
def sizeAnd (r : Py (Int × CFG)) : Option (Int × List (Option Nat)) :=
  match r with
  | .ok (n, g) => some (n, (allCode g).filterMap (fun | .tryBegin t => some t.depth | _ => none))
  | .error _ => none

theorem overDead_size : sizeAnd (overDead.computeStacksize Py311.platform eff311) = some (3, [some 32768, some 1]) := by decide +kernel

/-- The unused block and its handler can be deleted: the size is the same. -/
example : ∃ c' g', Deleted overDead [1, 4] c' ∧ c'.blocks = [0, 2, 3] ∧ c'.computeStacksize Py311.platform eff311 = .ok (3, g') := by
  have hi : IndexOK overDead := mkCFG_indexOK _
  have hc : Closed overDead := closed_of (by decide +kernel)
  obtain ⟨c', h1, h2, -⟩ := C85_deletes hi hc (D := [1, 4]) (by decide +kernel) (by decide)
  obtain ⟨n, g, h⟩ : ∃ n g, overDead.computeStacksize Py311.platform eff311 = .ok (n, g) := by
    have := overDead_size
    cases h : overDead.computeStacksize Py311.platform eff311 with
    | ok r => exact ⟨r.1, r.2, rfl⟩
    | error e => rw [h] at this; cases this
  have hn : n = 3 := by
    have := overDead_size
    rw [h] at this
    simp only [sizeAnd, Option.some.injEq, Prod.mk.injEq] at this
    exact this.1
  subst hn
  obtain ⟨g', h3, -⟩ := C85_size Py311.platform (fun i j => effOf_ne _ _ _ (.inr rfl) i j) hi hc overDead_entered (ownTries_spec (by decide +kernel)) h1 h
  exact ⟨c', g', h1, by rw [h2]; decide +kernel, h3⟩

/-- **What `get_dead_blocks` returns cannot be deleted blindly.** A block that is only reached by fall-through is among its
results; once it is deleted `compute_stacksize` raises KeyError, while it succeeded before. -/
theorem C85_dead_blocks_false :
    let c := mkCFG [⟨[i311 "NOP"], some 1⟩, ⟨[i311 "LOAD_CONST" (.int 1), i311 "RETURN_VALUE"], none⟩]
    c.getDeadBlocks Py311.platform = .ok [1] ∧ sizeAnd (c.computeStacksize Py311.platform eff311) = some (1, []) ∧
    (c.delBlock 1).2 = .ok () ∧
    (match (c.delBlock 1).1.computeStacksize Py311.platform eff311 with | .error e => some e | .ok _ => none) = some .keyError := by
  decide +kernel

end Verif
