import Verif.Proofs.HandlerDepths
import Verif.Proofs.GraphProgram
/- The programs of a Bytecode and of a graph, depths of handlers included, as functions of the code and of the handlers. -/
namespace Verif
open Spec
variable {κ : Type}

def handlerD (idx : Nat → Nat) : Option HandlerAt → Option Handler
  | some (some n, l, some d) => some ⟨idx n, l, d⟩
  | _ => none

def progD (P : Platform) (key : Arg → κ) (idx : Nat → Nat) (loc : Loc) : List CodeItem → List (Option HandlerAt) → List (Op κ)
  | [], _ => []
  | .line n :: r, hs => progD P key idx (Loc.line (some n)) r hs
  | .op _ _ _ _ :: _, [] => []
  | .op name o a l :: r, h :: hs =>
    (expandI P key idx name o a).map (fun p => ⟨p.1, p.2, l.getD loc, handlerD idx h⟩) ++ progD P key idx (l.getD loc) r hs

theorem handlerB_D (lab : Nat → Option Nat) (idx : Nat → Nat) (tr : Option TryB) :
    tr.bind (handlerB (fun l => (lab l).map idx)) = handlerD idx ((tr.map (fun t => (t.target, t.lasti, t.depth))).map (fun g => (lab g.1, g.2))) := by
  cases tr with
  | none => rfl
  | some t =>
    simp only [Option.bind_some, handlerB, Option.map_some]
    cases lab t.target <;> cases t.depth <;> rfl

theorem ops_itemsD {P : Platform} (hP : P.WF) (key : Arg → κ) (lab : Nat → Option Nat) (idx : Nat → Nat) (es : List BElem)
    (hv : ∀ i, BElem.instr i ∈ es → ValidInstr P i) (hb : ∀ i, BElem.instr i ∈ es → ∀ x, i.arg ≠ .block x) : ∀ (loc : Loc) (tr : Option TryB),
    opsB P key (fun l => (lab l).map idx) loc tr es =
      progD P key idx loc (resolved lab (fun _ => none) es)
        ((guardsD (tr.map (fun t => (t.target, t.lasti, t.depth))) es).map (Option.map (fun g => (lab g.1, g.2)))) := by
  induction es with
  | nil => intro loc tr; rfl
  | cons e es ih =>
    intro loc tr
    have ih' := ih (fun i hi => hv i (by simp [hi])) (fun i hi => hb i (by simp [hi]))
    cases e with
    | label l => exact ih' loc tr
    | setLineno n => exact ih' _ tr
    | tryBegin t => exact ih' loc (some t)
    | tryEnd id => exact ih' loc none
    | instr i =>
      have e1 : resolved lab (fun _ => none) (.instr i :: es) =
        .op i.name i.opcode (argRef lab (fun _ => none) i.arg) i.loc :: resolved lab (fun _ => none) es := rfl
      rw [e1]
      simp only [opsB, guardsD, List.map_cons, progD]
      rw [ih' _ tr, expand_item hP key lab idx i (hv i (by simp)) (hb i (by simp)), handlerB_D]

theorem opsG_itemsD {P : Platform} (hP : P.WF) (key : Arg → κ) (blk : Nat → Option Nat) (idx : Nat → Nat) (es : List BElem)
    (hv : ∀ i, BElem.instr i ∈ es → ValidInstr P i) (hl : ∀ i, BElem.instr i ∈ es → ∀ x, i.arg ≠ .label x) : ∀ (loc : Loc) (tr : Option TryB),
    opsG P key (fun l => (blk l).map idx) loc tr es =
      progD P key idx loc (resolved (fun _ => none) blk es) ((guardsDG tr es).map (Option.map (fun g => (blk g.1, g.2)))) := by
  induction es with
  | nil => intro loc tr; rfl
  | cons e es ih =>
    intro loc tr
    have ih' := ih (fun i hi => hv i (by simp [hi])) (fun i hi => hl i (by simp [hi]))
    cases e with
    | label l => exact ih' loc tr
    | setLineno n => exact ih' _ tr
    | tryBegin t => exact ih' loc (some t)
    | tryEnd id => exact ih' loc _
    | instr i =>
      have e1 : resolved (fun _ => none) blk (.instr i :: es) =
        .op i.name i.opcode (argRef (fun _ => none) blk i.arg) i.loc :: resolved (fun _ => none) blk es := rfl
      rw [e1]
      simp only [opsG, guardsDG, List.map_cons, progD]
      rw [ih' _ tr, expandG_lab hP key _ i (hv i (by simp)) (hl i (by simp)),
        expand_item hP key blk idx _ (valid_lab (hv i (by simp))) (by
          intro x hx
          have hx' : argLab i.arg = .block x := hx
          cases ha : i.arg <;> rw [ha] at hx' <;> cases hx'), handlerB_D]
      simp only
      rw [argRef_lab _ _ (hl i (by simp))]

theorem program_itemsD {P : Platform} (hP : P.WF) (key : Arg → κ) (b : Bytecode)
    (hv : ∀ i, BElem.instr i ∈ b.elems → ValidInstr P i) (hb : LabelsOnly b) :
    programB P key b = progD P key (itemIdx P (codeB b)) (Loc.line (some b.attrs.firstLineno)) (codeB b) (handlersD b) := by
  have := ops_itemsD hP key (fun l => labelAt l b.elems) (itemIdx P (codeB b)) b.elems hv (fun i hi x => hb i hi x)
    (Loc.line (some b.attrs.firstLineno)) none
  unfold programB
  rw [show (fun l => labelPos P l 0 b.elems) = (fun l => (labelAt l b.elems).map (itemIdx P (codeB b))) from funext (fun l => labelPos_idx P b l)]
  exact this

theorem programG_itemsD {P : Platform} (hP : P.WF) (key : Arg → κ) (c : CFG)
    (hv : ∀ i, BElem.instr i ∈ allCode c → ValidInstr P i) (hb : BlocksOnly c) :
    programG P key c = progD P key (itemIdx P (codeG c)) (Loc.line (some c.attrs.firstLineno)) (codeG c) (handlersDG c) := by
  have hl : ∀ i, BElem.instr i ∈ allCode c → ∀ x, i.arg ≠ .label x := by
    intro i hi
    obtain ⟨b, hbm, hib⟩ := List.mem_flatMap.1 hi
    exact hb b hbm i hib
  have := opsG_itemsD hP key (fun b => blockAt c.heap b c.blocks) (itemIdx P (codeG c)) (allCode c) hv hl
    (Loc.line (some c.attrs.firstLineno)) none
  unfold programG
  rw [show (fun l => blockPos P c.heap l c.blocks) = (fun l => (blockAt c.heap l c.blocks).map (itemIdx P (codeG c))) from funext (fun l => blockPos_idx P c l)]
  exact this

/-- `to_bytecode` gives the program of the graph, depths included. -/
theorem to_programD {P : Platform} (hP : P.WF) (key : Arg → κ) {c : CFG} {b : Bytecode} (hn : c.blocks.Nodup) (hb : BlocksOnly c)
    (hv : ∀ i, .instr i ∈ allCode c → ValidInstr P i) (ho : Ordered (allCode c)) (hsd : SameDepth (allCode c)) (h : c.toBytecode P = .ok b) :
    programB P key b = programG P key c := by
  have hinstr : ∀ i, BElem.instr i ∈ b.elems → ∃ j, BElem.instr j ∈ allCode c ∧ i = { j with arg := argLab j.arg } := fun i hi => to_instr h hi
  have hvb : ∀ i, BElem.instr i ∈ b.elems → ValidInstr P i := by
    intro i hi
    obtain ⟨j, hj, rfl⟩ := hinstr i hi
    exact valid_lab (hv j hj)
  have hlb : LabelsOnly b := by
    intro i hi x hx
    obtain ⟨j, hj, rfl⟩ := hinstr i hi
    have hx' : argLab j.arg = .block x := hx
    cases ha : j.arg <;> rw [ha] at hx' <;> cases hx'
  obtain ⟨b1, b2, _⟩ := C26_to P c b hn hb h
  rw [program_itemsD hP key b hvb hlb, programG_itemsD hP key c hv hb, b1, b2, to_depths hn ho hsd h]

end Verif
