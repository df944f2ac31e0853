import Verif.Spec.Depths
import Verif.Spec.CfgCode
import Verif.Spec.Kept
import Verif.Spec.Operands
import Verif.Proofs.Operand
import Verif.Props.CfgConv
/-
The program of a Bytecode as a function of its code and of its handlers, depths apart.
-/
namespace Verif
open Spec
variable {κ : Type}

/-- Numbers of operations of the instructions of the code. -/
def itemCounts (P : Platform) (items : List CodeItem) : List Nat :=
  items.filterMap (fun | .line _ => none | .op n o _ _ => some (opCount P n o))

/-- The operand of an item. -/
def operandI (P : Platform) (key : Arg → κ) (idx : Nat → Nat) (op : Nat) (r : ArgRef) : Operand κ :=
  match r with
  | .target n => .jump (idx n)
  | .lost => .invalid
  | .value a => operandB P key (fun _ => none) op a

/-- The operations of an item. -/
def expandI (P : Platform) (key : Arg → κ) (idx : Nat → Nat) (name : String) (op : Nat) (r : ArgRef) : List (String × Operand κ) :=
  if name = "CACHE" then []
  else match P.dualSingles op with
    | some (n1, n2) =>
      match r with
      | .value (.tuple [x, y]) => [(n1, slotOf x), (n2, slotOf y)]
      | _ => [(n1, .invalid), (n2, .invalid)]
    | none => [(name, operandI P key idx op r)]

/-- A handler without depth. -/
def handlerI (idx : Nat → Nat) (h : Option (Option Nat × Bool)) : Option Handler :=
  match h with
  | some (some n, l) => some ⟨idx n, l, 0⟩
  | _ => none

/-- The program of a code. -/
def progI (P : Platform) (key : Arg → κ) (idx : Nat → Nat) (loc : Loc) : List CodeItem → List (Option (Option Nat × Bool)) → List (Op κ)
  | [], _ => []
  | .line n :: r, hs => progI P key idx (Loc.line (some n)) r hs
  | .op _ _ _ _ :: _, [] => []
  | .op name o a l :: r, h :: hs =>
    (expandI P key idx name o a).map (fun p => ⟨p.1, p.2, l.getD loc, handlerI idx h⟩) ++ progI P key idx (l.getD loc) r hs

/-- Number of operations of the first `n` instructions. -/
def itemIdx (P : Platform) (items : List CodeItem) (n : Nat) : Nat := ((itemCounts P items).take n).sum

theorem itemCounts_resolved (P : Platform) (lab blk : Nat → Option Nat) (es : List BElem) :
    itemCounts P (resolved lab blk es) = es.filterMap (fun | .instr i => some (opCount P i.name i.opcode) | _ => none) := by
  unfold itemCounts resolved
  rw [List.filterMap_filterMap]
  congr 1
  funext e
  cases e <;> rfl

theorem labelPos_at (P : Platform) (l : Nat) (es : List BElem) : ∀ m, labelPos P l m es =
    (labelAt l es).map (fun n => m + ((es.filterMap (fun | .instr i => some (opCount P i.name i.opcode) | _ => none)).take n).sum) := by
  induction es with
  | nil => intro m; rfl
  | cons e es ih =>
    intro m
    cases e with
    | label l' =>
      simp only [labelPos, labelAt, ih, List.filterMap_cons]
      cases labelAt l es with
      | none => by_cases h : l' = l <;> simp [h]
      | some n => simp
    | instr i =>
      simp only [labelPos, labelAt, ih, List.filterMap_cons]
      cases labelAt l es with
      | none => rfl
      | some n => simp only [Option.map_some, List.take_succ_cons, List.sum_cons]; congr 1; omega
    | setLineno _ => simp only [labelPos, labelAt, ih, List.filterMap_cons]
    | tryBegin _ => simp only [labelPos, labelAt, ih, List.filterMap_cons]
    | tryEnd _ => simp only [labelPos, labelAt, ih, List.filterMap_cons]

theorem labelPos_idx (P : Platform) (b : Bytecode) (l : Nat) : labelPos P l 0 b.elems = (labelAt l b.elems).map (itemIdx P (codeB b)) := by
  rw [labelPos_at]
  congr 1
  funext n
  unfold itemIdx codeB
  rw [itemCounts_resolved, Nat.zero_add]

/-- Operands that are no labels do not depend on the positions of labels. -/
theorem operandB_tgt (P : Platform) (key : Arg → κ) (tgt tgt' : Nat → Option Nat) (op : Nat) (a : Arg) (h : ∀ l, a ≠ .label l) :
    operandB P key tgt op a = operandB P key tgt' op a := by
  unfold operandB
  by_cases hj : P.hasJump op = true
  · cases a with
    | label l => exact absurd rfl (h l)
    | _ => rfl
  · simp only [hj, if_false, Bool.false_eq_true]

theorem expand_item {P : Platform} (hP : P.WF) (key : Arg → κ) (lab : Nat → Option Nat) (idx : Nat → Nat) (i : Instr) (hv : ValidInstr P i)
    (hb : ∀ x, i.arg ≠ .block x) :
    expandB P key (fun l => (lab l).map idx) i = expandI P key idx i.name i.opcode (argRef lab (fun _ => none) i.arg) := by
  have hK := kinds_excl hP i.opcode
  have hA := hv.arg_ok
  unfold expandB expandI
  split
  · rfl
  · cases hd : P.dualSingles i.opcode with
    | some p =>
      obtain ⟨n1, n2⟩ := p
      have hdual : P.dual i.opcode = true := by simp [Platform.dual, hd]
      obtain ⟨x, y, hxy, _⟩ := hA.dual hdual
      rw [hxy]
      rfl
    | none =>
      simp only
      congr 2
      by_cases hl : ∃ l, i.arg = .label l
      · obtain ⟨l, hl⟩ := hl
        have hj : P.hasJump i.opcode = true := by
          cases hx : P.hasJump i.opcode with
          | true => rfl
          | false =>
            exfalso
            have hpres := hA.present
            by_cases ha : P.hasArg i.opcode = true
            · have hc : P.hasconst i.opcode = false := by
                cases hc : P.hasconst i.opcode with
                | false => rfl
                | true => exact absurd hl ((hA.const hc).1 l)
              have hf : P.hasfree i.opcode = false := by
                cases hc : P.hasfree i.opcode with
                | false => rfl
                | true => rcases hA.free hc with ⟨n, e⟩ | ⟨n, e⟩ <;> rw [hl] at e <;> cases e
              have hcm : P.hascompare i.opcode = false := by
                cases hc : P.hascompare i.opcode with
                | false => rfl
                | true => obtain ⟨n, e⟩ := hA.compare hc; rw [hl] at e; cases e
              have h1 : P.intrinsic1 i.opcode = false := by
                cases hc : P.intrinsic1 i.opcode with
                | false => rfl
                | true => obtain ⟨n, e⟩ := hA.intr1 hc; rw [hl] at e; cases e
              have h2 : P.intrinsic2 i.opcode = false := by
                cases hc : P.intrinsic2 i.opcode with
                | false => rfl
                | true => obtain ⟨n, e⟩ := hA.intr2 hc; rw [hl] at e; cases e
              have hlo : P.haslocal i.opcode = false := by
                cases hc : P.haslocal i.opcode with
                | false => rfl
                | true =>
                  rcases hA.local_ hc (by simp [Platform.dual, hd]) with ⟨n, e⟩ | ⟨_, ⟨n, e⟩ | ⟨n, e⟩⟩ <;> rw [hl] at e <;> cases e
              have hna : P.hasname i.opcode = false := by
                cases hc : P.hasname i.opcode with
                | false => rfl
                | true =>
                  cases hb1 : P.bitflag i.opcode with
                  | true => obtain ⟨_, _, e⟩ := hA.flag hb1; rw [hl] at e; cases e
                  | false =>
                    cases hb2 : P.bitflag2 i.opcode with
                    | true => obtain ⟨_, _, _, e⟩ := hA.flag2 hb2; rw [hl] at e; cases e
                    | false => obtain ⟨_, e⟩ := hA.name hc hb1 hb2; rw [hl] at e; cases e
              obtain ⟨v, e, _⟩ := hA.int (by simp [hx, hc, hf, hcm, h1, h2, hlo, hna]) ha
              rw [hl] at e
              simp [Arg.asInt] at e
            · exact ha (hpres.2 (by rw [hl]; simp))
        rw [hl]
        simp only [operandB, hj, if_true, argRef, operandI]
        cases lab l <;> rfl
      · have hne : ∀ l, i.arg ≠ .label l := fun l h => hl ⟨l, h⟩
        have : argRef lab (fun _ => none) i.arg = .value i.arg := by
          unfold argRef
          split
          · rename_i l h; exact absurd h (hne l)
          · rename_i l h; exact absurd h (hb l)
          · rfl
        rw [this]
        exact operandB_tgt P key _ _ _ _ hne

theorem ops_items {P : Platform} (hP : P.WF) (key : Arg → κ) (lab : Nat → Option Nat) (idx : Nat → Nat) (es : List BElem)
    (hv : ∀ i, BElem.instr i ∈ es → ValidInstr P i) (hb : ∀ i, BElem.instr i ∈ es → ∀ x, i.arg ≠ .block x)
    (hd : ∀ t, BElem.tryBegin t ∈ es → t.depth.isSome = true) : ∀ (loc : Loc) (tr : Option TryB), (∀ t, tr = some t → t.depth.isSome = true) →
    (opsB P key (fun l => (lab l).map idx) loc tr es).map Op.noDepth =
      progI P key idx loc (resolved lab (fun _ => none) es)
        ((guards (tr.map (fun t => (t.target, t.lasti))) es).map (Option.map (fun g => (lab g.1, g.2)))) := by
  induction es with
  | nil => intro loc tr _; rfl
  | cons e es ih =>
    intro loc tr htr
    have ih' := ih (fun i hi => hv i (by simp [hi])) (fun i hi => hb i (by simp [hi])) (fun t ht => hd t (by simp [ht]))
    cases e with
    | label l => exact ih' loc tr htr
    | setLineno n => exact ih' _ tr htr
    | tryBegin t => exact ih' loc (some t) (by rintro _ ⟨⟩; exact hd t (by simp))
    | tryEnd id => exact ih' loc none (by simp)
    | instr i =>
      have e1 : resolved lab (fun _ => none) (.instr i :: es) =
        .op i.name i.opcode (argRef lab (fun _ => none) i.arg) i.loc :: resolved lab (fun _ => none) es := rfl
      rw [e1]
      simp only [opsB, guards, List.map_cons, progI, List.map_append]
      rw [ih' _ tr htr, expand_item hP key lab idx i (hv i (by simp)) (hb i (by simp)), List.map_map]
      congr 1
      apply List.map_congr_left
      intro p _
      simp only [Function.comp, Op.noDepth]
      congr 1
      cases tr with
      | none => rfl
      | some t =>
        obtain ⟨d, hdt⟩ := Option.isSome_iff_exists.1 (htr t rfl)
        simp only [Option.bind_some, handlerB, hdt, Option.map_some]
        cases lab t.target <;> rfl

theorem program_items {P : Platform} (hP : P.WF) (key : Arg → κ) (b : Bytecode)
    (hv : ∀ i, BElem.instr i ∈ b.elems → ValidInstr P i) (hb : LabelsOnly b)
    (hd : ∀ t, BElem.tryBegin t ∈ b.elems → t.depth.isSome = true) :
    (programB P key b).map Op.noDepth = progI P key (itemIdx P (codeB b)) (Loc.line (some b.attrs.firstLineno)) (codeB b) (handlersOf b) := by
  have := ops_items hP key (fun l => labelAt l b.elems) (itemIdx P (codeB b)) b.elems hv (fun i hi x => hb i hi x) hd
    (Loc.line (some b.attrs.firstLineno)) none (by simp)
  unfold programB
  rw [show (fun l => labelPos P l 0 b.elems) = (fun l => (labelAt l b.elems).map (itemIdx P (codeB b))) from funext (fun l => labelPos_idx P b l)]
  exact this

/-! ### Depths set to 0 -/

theorem zero_instr {b : Bytecode} {i : Instr} : BElem.instr i ∈ (zeroDepths b).elems ↔ BElem.instr i ∈ b.elems := by
  constructor
  · intro h
    obtain ⟨e, he, hx⟩ := List.mem_map.1 h
    cases e <;> simp [zeroDepth] at hx
    subst hx; exact he
  · intro h
    exact List.mem_map.2 ⟨_, h, rfl⟩

theorem zero_labelAt (l : Nat) (es : List BElem) :
    labelAt l (es.map zeroDepth) = labelAt l es := by
  induction es with
  | nil => rfl
  | cons e es ih => cases e <;> simp only [List.map_cons, zeroDepth, labelAt, ih]

theorem zero_code (b : Bytecode) : codeB (zeroDepths b) = codeB b := by
  unfold codeB resolved zeroDepths
  simp only [zero_labelAt]
  rw [List.filterMap_map]
  congr 1
  funext e
  cases e <;> rfl

theorem zero_guards (es : List BElem) : ∀ cur, guards cur (es.map zeroDepth) = guards cur es := by
  induction es with
  | nil => intro _; rfl
  | cons e es ih => intro cur; cases e <;> simp only [List.map_cons, zeroDepth, guards, ih]

theorem zero_handlers (b : Bytecode) : handlersOf (zeroDepths b) = handlersOf b := by
  unfold handlersOf zeroDepths
  simp only [zero_labelAt, zero_guards]

theorem opsB_noDepth_zero (P : Platform) (key : Arg → κ) (tgt : Nat → Option Nat) (es : List BElem) : ∀ loc tr,
    (∀ t, BElem.tryBegin t ∈ es → t.depth = some 0) → (∀ t, tr = some t → t.depth = some 0) →
    (opsB P key tgt loc tr es).map Op.noDepth = opsB P key tgt loc tr es := by
  induction es with
  | nil => intro loc tr _ _; rfl
  | cons e es ih =>
    intro loc tr h htr
    have ih' := fun loc tr => ih loc tr (fun t ht => h t (by simp [ht]))
    cases e with
    | label l => exact ih' loc tr htr
    | setLineno n => exact ih' _ tr htr
    | tryBegin t => exact ih' loc (some t) (by rintro _ ⟨⟩; exact h t (by simp))
    | tryEnd id => exact ih' loc none (by simp)
    | instr i =>
      simp only [opsB, List.map_append, List.map_map]
      rw [ih' _ tr htr]
      congr 1
      apply List.map_congr_left
      intro p _
      simp only [Function.comp, Op.noDepth]
      congr 1
      cases tr with
      | none => rfl
      | some t =>
        simp only [Option.bind_some, handlerB, htr t rfl]
        cases tgt t.target <;> rfl

theorem zero_depth {b : Bytecode} {t : TryB} (h : BElem.tryBegin t ∈ (zeroDepths b).elems) : t.depth = some 0 := by
  obtain ⟨e, he, hx⟩ := List.mem_map.1 h
  cases e <;> simp [zeroDepth] at hx
  subst hx; rfl

/-- Same code, same handlers: same program, depths apart. -/
theorem program_same {P : Platform} (hP : P.WF) (key : Arg → κ) (b b' : Bytecode)
    (hv : ∀ i, BElem.instr i ∈ b.elems → ValidInstr P i) (hb : LabelsOnly b)
    (hv' : ∀ i, BElem.instr i ∈ b'.elems → ValidInstr P i) (hb' : LabelsOnly b')
    (hd : ∀ t, BElem.tryBegin t ∈ b'.elems → t.depth.isSome = true)
    (hc : codeB b' = codeB b) (hh : handlersOf b' = handlersOf b) (hf : b'.attrs.firstLineno = b.attrs.firstLineno) :
    (programB P key b').map Op.noDepth = programB P key (zeroDepths b) := by
  rw [program_items hP key b' hv' hb' hd, hc, hh, hf]
  have h1 := program_items hP key (zeroDepths b) (fun i hi => hv i (zero_instr.1 hi)) (fun i hi => hb i (zero_instr.1 hi))
    (fun t ht => by rw [zero_depth ht]; rfl)
  rw [zero_code, zero_handlers] at h1
  have e : (zeroDepths b).attrs.firstLineno = b.attrs.firstLineno := rfl
  rw [e] at h1
  rw [← h1]
  exact opsB_noDepth_zero P key _ _ _ _ (fun t ht => zero_depth ht) (by simp)

/-! ### Instructions of the same code -/

/-- An instruction of one is in the other, up to the label. -/
theorem item_instr {b b' : Bytecode} (hb : LabelsOnly b) (hc : codeB b' = codeB b) (hlost : ∀ m o loc, CodeItem.op m o .lost loc ∉ codeB b)
    {i : Instr} (hi : BElem.instr i ∈ b'.elems) : ∃ j, BElem.instr j ∈ b.elems ∧ j.name = i.name ∧ j.opcode = i.opcode ∧ j.loc = i.loc ∧
      (j.arg = i.arg ∨ (∃ l, i.arg = .label l) ∧ ∃ l, j.arg = .label l) ∧ ∀ x, i.arg ≠ .block x := by
  have hm : CodeItem.op i.name i.opcode (argRef (fun l => labelAt l b'.elems) (fun _ => none) i.arg) i.loc ∈ codeB b' :=
    List.mem_filterMap.2 ⟨_, hi, rfl⟩
  rw [hc] at hm
  obtain ⟨e, he, hx⟩ := List.mem_filterMap.1 hm
  cases e with
  | instr j =>
    simp only [Option.some.injEq, CodeItem.op.injEq] at hx
    obtain ⟨h1, h2, h3, h4⟩ := hx
    refine ⟨j, he, h1, h2, h4, ?_, ?_⟩
    · have hjb := hb j he
      cases hja : j.arg with
      | block x => exact absurd hja (hjb x)
      | label l =>
        right
        cases hia : i.arg with
        | label l' => exact ⟨⟨l', rfl⟩, l, rfl⟩
        | block x =>
          rw [hia] at hm
          exact absurd hm (hlost _ _ _)
        | _ =>
          rw [hja, hia] at h3
          simp only [argRef] at h3
          cases hll : labelAt l b.elems <;> rw [hll] at h3 <;> cases h3
      | _ =>
        left
        cases hia : i.arg with
        | label l' =>
          rw [hja, hia] at h3
          simp only [argRef] at h3
          cases hll : labelAt l' b'.elems <;> rw [hll] at h3 <;> cases h3
        | block x =>
          rw [hia] at hm
          exact absurd hm (hlost _ _ _)
        | _ =>
          rw [hja, hia] at h3 <;> exact ArgRef.value.inj h3
    · intro x hia
      rw [hia] at hm
      exact hlost _ _ _ hm
  | setLineno _ => cases hx
  | label _ => cases hx
  | tryBegin _ => cases hx
  | tryEnd _ => cases hx

theorem argOK_label {P : Platform} {op l l' : Nat} (h : ArgOK P op (.label l)) : ArgOK P op (.label l') := by
  constructor
  · rw [h.present]; simp
  · intro _; exact .inl ⟨l', rfl⟩
  · intro hx; rcases h.free hx with ⟨n, e⟩ | ⟨n, e⟩ <;> cases e
  · intro h1 h2 h3; obtain ⟨_, e⟩ := h.name h1 h2 h3; cases e
  · intro h1; obtain ⟨_, _, e⟩ := h.flag h1; cases e
  · intro h1; obtain ⟨_, _, _, e⟩ := h.flag2 h1; cases e
  · intro h1 h2; rcases h.local_ h1 h2 with ⟨n, e⟩ | ⟨_, ⟨n, e⟩ | ⟨n, e⟩⟩ <;> cases e
  · intro h1; obtain ⟨_, _, e, _⟩ := h.dual h1; cases e
  · intro h1; exact absurd rfl ((h.const h1).1 l)
  · intro h1; obtain ⟨_, e⟩ := h.compare h1; cases e
  · intro h1; obtain ⟨_, e⟩ := h.intr1 h1; cases e
  · intro h1; obtain ⟨_, e⟩ := h.intr2 h1; cases e
  · intro h1 h2; obtain ⟨_, e, _⟩ := h.int h1 h2; simp [Arg.asInt] at e

theorem valid_same {P : Platform} {b b' : Bytecode} (hb : LabelsOnly b) (hc : codeB b' = codeB b) (hlost : ∀ m o loc, CodeItem.op m o .lost loc ∉ codeB b)
    (hv : ∀ i, BElem.instr i ∈ b.elems → ValidInstr P i) : ∀ i, BElem.instr i ∈ b'.elems → ValidInstr P i := by
  intro i hi
  obtain ⟨j, hj, h1, h2, h3, h4, _⟩ := item_instr hb hc hlost hi
  have hvj := hv j hj
  refine ⟨by rw [← h1, ← h2]; exact hvj.name_op, by rw [← h2]; exact hvj.base, by rw [← h1]; exact hvj.not_ext, ?_, by rw [← h3]; exact hvj.loc_ok⟩
  have := hvj.arg_ok
  rw [h2] at this
  rcases h4 with h4 | ⟨⟨l, h4⟩, l', h5⟩
  · rwa [h4] at this
  · rw [h5] at this; rw [h4]; exact argOK_label this

theorem noCache_same {b b' : Bytecode} (hb : LabelsOnly b) (hc : codeB b' = codeB b) (hlost : ∀ m o loc, CodeItem.op m o .lost loc ∉ codeB b)
    (h : ∀ e ∈ b.elems, e.isCache = false) : ∀ e ∈ b'.elems, e.isCache = false := by
  intro e he
  cases e with
  | instr i =>
    obtain ⟨j, hj, h1, _⟩ := item_instr hb hc hlost he
    have := h _ hj
    simp only [BElem.isCache] at *
    rw [← h1]; exact this
  | _ => rfl

theorem operandOK_same {P : Platform} {b b' : Bytecode} {vs : List String} (hb : LabelsOnly b) (hc : codeB b' = codeB b)
    (hlost : ∀ m o loc, CodeItem.op m o .lost loc ∉ codeB b) (hv : ∀ i, BElem.instr i ∈ b.elems → OperandOK P vs i) :
    ∀ i, BElem.instr i ∈ b'.elems → OperandOK P vs i := by
  intro i hi
  obtain ⟨j, hj, h1, h2, h3, h4, _⟩ := item_instr hb hc hlost hi
  have := hv j hj
  rcases h4 with h4 | ⟨⟨l, h4⟩, _⟩
  · exact ⟨by rw [← h2, ← h4]; exact this.compare, by rw [← h2, ← h4]; exact this.dual⟩
  · exact ⟨(by rw [h4]; intro _ v e; cases e), (by rw [h4]; intro _ a b e; cases e)⟩

end Verif
