import Verif.Spec.GraphProgram
import Verif.Proofs.Sized
import Verif.Proofs.ProgCode
import Verif.Proofs.CfgTryWell
/- The program of a graph as a function of its code and handlers; what `to_bytecode` makes of instructions. -/
namespace Verif
open Spec
variable {κ : Type}

/-- a block argument as a label -/
def argLab : Arg → Arg
  | .block b => .label b
  | a => a

theorem argOK_asLab {P : Platform} {op b l : Nat} (h : ArgOK P op (.block b)) : ArgOK P op (.label l) := by
  constructor
  · rw [h.present]; simp
  · intro _; exact .inl ⟨l, rfl⟩
  · intro hx; rcases h.free hx with ⟨n, e⟩ | ⟨n, e⟩ <;> cases e
  · intro h1 h2 h3; obtain ⟨_, e⟩ := h.name h1 h2 h3; cases e
  · intro h1; obtain ⟨_, _, e⟩ := h.flag h1; cases e
  · intro h1; obtain ⟨_, _, _, e⟩ := h.flag2 h1; cases e
  · intro h1 h2; rcases h.local_ h1 h2 with ⟨n, e⟩ | ⟨_, ⟨n, e⟩ | ⟨n, e⟩⟩ <;> cases e
  · intro h1; obtain ⟨_, _, e, _⟩ := h.dual h1; cases e
  · intro h1; exact absurd rfl ((h.const h1).2 b)
  · intro h1; obtain ⟨_, e⟩ := h.compare h1; cases e
  · intro h1; obtain ⟨_, e⟩ := h.intr1 h1; cases e
  · intro h1; obtain ⟨_, e⟩ := h.intr2 h1; cases e
  · intro h1 h2; obtain ⟨_, e, _⟩ := h.int h1 h2; simp [Arg.asInt] at e

theorem valid_lab {P : Platform} {i : Instr} (h : ValidInstr P i) : ValidInstr P { i with arg := argLab i.arg } := by
  refine ⟨h.name_op, h.base, h.not_ext, ?_, h.loc_ok⟩
  have := h.arg_ok
  show ArgOK P i.opcode (argLab i.arg)
  cases ha : i.arg with
  | block b => rw [ha] at this; exact argOK_asLab this
  | _ => rw [ha] at this; exact this

/-- an opcode that is not a jump has no block argument -/
theorem block_jump {P : Platform} (hP : P.WF) {i : Instr} (h : ValidInstr P i) {b : Nat} (hb : i.arg = .block b) : P.hasJump i.opcode = true ∧ P.dualSingles i.opcode = none := by
  have hA := h.arg_ok
  rw [hb] at hA
  have hdn : P.dualSingles i.opcode = none := by
    cases hd : P.dualSingles i.opcode with
    | none => rfl
    | some p =>
      obtain ⟨_, _, e, _⟩ := hA.dual (by simp [Platform.dual, hd])
      cases e
  refine ⟨?_, hdn⟩
  cases hx : P.hasJump i.opcode with
  | true => rfl
  | false =>
    exfalso
    have ha : P.hasArg i.opcode = true := hA.present.2 (by simp)
    have hc : P.hasconst i.opcode = false := by
      cases hc : P.hasconst i.opcode with
      | false => rfl
      | true => exact absurd rfl ((hA.const hc).2 b)
    have hf : P.hasfree i.opcode = false := by
      cases hc : P.hasfree i.opcode with
      | false => rfl
      | true => rcases hA.free hc with ⟨n, e⟩ | ⟨n, e⟩ <;> cases e
    have hcm : P.hascompare i.opcode = false := by
      cases hc : P.hascompare i.opcode with
      | false => rfl
      | true => obtain ⟨n, e⟩ := hA.compare hc; cases e
    have h1 : P.intrinsic1 i.opcode = false := by
      cases hc : P.intrinsic1 i.opcode with
      | false => rfl
      | true => obtain ⟨n, e⟩ := hA.intr1 hc; cases e
    have h2 : P.intrinsic2 i.opcode = false := by
      cases hc : P.intrinsic2 i.opcode with
      | false => rfl
      | true => obtain ⟨n, e⟩ := hA.intr2 hc; cases e
    have hlo : P.haslocal i.opcode = false := by
      cases hc : P.haslocal i.opcode with
      | false => rfl
      | true =>
        rcases hA.local_ hc (by simp [Platform.dual, hdn]) with ⟨n, e⟩ | ⟨_, ⟨n, e⟩ | ⟨n, e⟩⟩ <;> cases e
    have hna : P.hasname i.opcode = false := by
      cases hc : P.hasname i.opcode with
      | false => rfl
      | true =>
        cases hb1 : P.bitflag i.opcode with
        | true => obtain ⟨_, _, e⟩ := hA.flag hb1; cases e
        | false =>
          cases hb2 : P.bitflag2 i.opcode with
          | true => obtain ⟨_, _, _, e⟩ := hA.flag2 hb2; cases e
          | false => obtain ⟨_, e⟩ := hA.name hc hb1 hb2; cases e
    obtain ⟨v, e, _⟩ := hA.int (by simp [hx, hc, hf, hcm, h1, h2, hlo, hna]) ha
    simp [Arg.asInt] at e

/-- the operations of an instruction are those of the instruction with a label instead of the block -/
theorem expandG_lab {P : Platform} (hP : P.WF) (key : Arg → κ) (tgt : Nat → Option Nat) (i : Instr) (hv : ValidInstr P i) (hl : ∀ l, i.arg ≠ .label l) :
    expandG P key tgt i = expandB P key tgt { i with arg := argLab i.arg } := by
  unfold expandG expandB
  split
  · rfl
  · cases hd : P.dualSingles i.opcode with
    | some p =>
      obtain ⟨n1, n2⟩ := p
      obtain ⟨x, y, hxy, _⟩ := hv.arg_ok.dual (by simp [Platform.dual, hd])
      simp only [hxy, argLab]
    | none =>
      simp only
      congr 2
      unfold operandG
      split
      · rename_i hj
        cases ha : i.arg with
        | label l => exact absurd ha (hl l)
        | block b => simp only [argLab, operandB, hj, if_true]
        | _ => simp only [argLab, operandB, hj, if_true]
      · rename_i hj
        have : argLab i.arg = i.arg := by
          cases ha : i.arg with
          | block b => exact absurd (block_jump hP hv ha).1 hj
          | _ => rfl
        rw [this]
        exact operandB_tgt P key _ _ _ _ hl

theorem argRef_lab (lab : Nat → Option Nat) (a : Arg) (hl : ∀ l, a ≠ .label l) :
    argRef lab (fun _ => none) (argLab a) = argRef (fun _ => none) lab a := by
  cases a with
  | label l => exact absurd rfl (hl l)
  | _ => rfl

theorem opsG_items {P : Platform} (hP : P.WF) (key : Arg → κ) (blk : Nat → Option Nat) (idx : Nat → Nat) (es : List BElem)
    (hv : ∀ i, BElem.instr i ∈ es → ValidInstr P i) (hl : ∀ i, BElem.instr i ∈ es → ∀ x, i.arg ≠ .label x)
    (hd : ∀ t, BElem.tryBegin t ∈ es → t.depth.isSome = true) : ∀ (loc : Loc) (tr : Option TryB), (∀ t, tr = some t → t.depth.isSome = true) →
    (opsG P key (fun l => (blk l).map idx) loc tr es).map Op.noDepth =
      progI P key idx loc (resolved (fun _ => none) blk es)
        ((guardsG (tr.map (fun t => (t.id, t.target, t.lasti))) es).map (Option.map (fun g => (blk g.1, g.2)))) := by
  induction es with
  | nil => intro loc tr _; rfl
  | cons e es ih =>
    intro loc tr htr
    have ih' := ih (fun i hi => hv i (by simp [hi])) (fun i hi => hl i (by simp [hi])) (fun t ht => hd t (by simp [ht]))
    cases e with
    | label l => exact ih' loc tr htr
    | setLineno n => exact ih' _ tr htr
    | tryBegin t => exact ih' loc (some t) (by rintro _ ⟨⟩; exact hd t (by simp))
    | tryEnd id =>
      have := ih' loc (if tr.map (·.id) = some id then none else tr) (by
        intro t ht
        split at ht
        · cases ht
        · exact htr t ht)
      simp only [opsG, guardsG]
      rw [this]
      have e0 : ((if tr.map (·.id) = some id then none else tr : Option TryB).map (fun t => (t.id, t.target, t.lasti))) =
          (if (tr.map (fun t => (t.id, t.target, t.lasti))).map (·.1) = some id then none else tr.map (fun t => (t.id, t.target, t.lasti))) := by
        cases tr with
        | none => simp
        | some t => by_cases h : t.id = id <;> simp [h]
      rw [e0]
      rfl
    | instr i =>
      have e1 : resolved (fun _ => none) blk (.instr i :: es) =
        .op i.name i.opcode (argRef (fun _ => none) blk i.arg) i.loc :: resolved (fun _ => none) blk es := rfl
      rw [e1]
      simp only [opsG, guardsG, List.map_cons, progI, List.map_append]
      rw [ih' _ tr htr, expandG_lab hP key _ i (hv i (by simp)) (hl i (by simp)),
        expand_item hP key blk idx _ (valid_lab (hv i (by simp))) (by
          intro x hx
          have hx' : argLab i.arg = .block x := hx
          cases ha : i.arg <;> rw [ha] at hx' <;> cases hx'), List.map_map]
      simp only
      rw [argRef_lab _ _ (hl i (by simp))]
      congr 1
      apply List.map_congr_left
      intro p _
      simp only [Function.comp, Op.noDepth]
      congr 1
      cases tr with
      | none => rfl
      | some t =>
        obtain ⟨d, hdt⟩ := Option.isSome_iff_exists.1 (htr t rfl)
        simp only [Option.bind_some, handlerB, hdt, Option.map_some]
        cases blk t.target <;> rfl

/-! ### Positions of blocks -/

def countsOf (P : Platform) (es : List BElem) : List Nat := es.filterMap (fun | .instr i => some (opCount P i.name i.opcode) | _ => none)

theorem countsOf_append (P : Platform) (a b : List BElem) : countsOf P (a ++ b) = countsOf P a ++ countsOf P b := List.filterMap_append ..

theorem countsOf_length (P : Platform) (es : List BElem) : (countsOf P es).length = instrCount es := by
  induction es with
  | nil => rfl
  | cons e es ih =>
    unfold countsOf instrCount at *
    cases e <;> simp_all [BElem.isInstr, List.filterMap_cons, List.countP_cons]

theorem countsOf_sum (P : Platform) (es : List BElem) : (countsOf P es).sum = opNumber P es := by
  induction es with
  | nil => rfl
  | cons e es ih =>
    unfold countsOf opNumber at *
    cases e <;> simp_all [List.filterMap_cons]

theorem blockPos_at (P : Platform) (heap : Nat → Blk) (b : Nat) (bs : List Nat) : blockPos P heap b bs =
    (blockAt heap b bs).map (fun n => ((countsOf P (bs.flatMap (fun k => (heap k).elems))).take n).sum) := by
  induction bs with
  | nil => rfl
  | cons k bs ih =>
    unfold blockPos blockAt
    split
    · simp
    · rw [ih]
      cases hb : blockAt heap b bs with
      | none => rfl
      | some n =>
        simp only [Option.map_some, List.flatMap_cons, countsOf_append, Option.some.injEq]
        rw [show n + instrCount (heap k).elems = (countsOf P (heap k).elems).length + n by rw [countsOf_length]; omega,
          List.take_length_add_append, List.sum_append, countsOf_sum]

theorem blockPos_idx (P : Platform) (c : CFG) (b : Nat) : blockPos P c.heap b c.blocks = (blockAt c.heap b c.blocks).map (itemIdx P (codeG c)) := by
  rw [blockPos_at]
  congr 1
  funext n
  unfold itemIdx codeG
  rw [itemCounts_resolved]
  rfl

theorem programG_items {P : Platform} (hP : P.WF) (key : Arg → κ) (c : CFG)
    (hv : ∀ i, BElem.instr i ∈ allCode c → ValidInstr P i) (hb : BlocksOnly c)
    (hd : ∀ t, BElem.tryBegin t ∈ allCode c → t.depth.isSome = true) :
    (programG P key c).map Op.noDepth = progI P key (itemIdx P (codeG c)) (Loc.line (some c.attrs.firstLineno)) (codeG c) (handlersG c) := by
  have hl : ∀ i, BElem.instr i ∈ allCode c → ∀ x, i.arg ≠ .label x := by
    intro i hi
    obtain ⟨b, hbm, hib⟩ := List.mem_flatMap.1 hi
    exact hb b hbm i hib
  have := opsG_items hP key (fun b => blockAt c.heap b c.blocks) (itemIdx P (codeG c)) (allCode c) hv hl hd
    (Loc.line (some c.attrs.firstLineno)) none (by simp)
  unfold programG
  rw [show (fun l => blockPos P c.heap l c.blocks) = (fun l => (blockAt c.heap l c.blocks).map (itemIdx P (codeG c))) from funext (fun l => blockPos_idx P c l)]
  exact this

/-! ### Depths 0 -/

theorem zeroG_only (c : CFG) : DepthsOnly c (zeroDepthsG c) := by
  refine ⟨rfl, rfl, rfl, fun b => ?_⟩
  simp only [zeroDepthsG, List.map_map]
  apply List.map_congr_left
  intro e _
  cases e <;> rfl

theorem zeroG_allCode (c : CFG) : allCode (zeroDepthsG c) = (allCode c).map zeroDepth := by
  unfold allCode zeroDepthsG
  rw [List.map_flatMap]
  rfl

theorem opsG_noDepth_zero (P : Platform) (key : Arg → κ) (tgt : Nat → Option Nat) (es : List BElem) : ∀ loc tr,
    (∀ t, BElem.tryBegin t ∈ es → t.depth = some 0) → (∀ t, tr = some t → t.depth = some 0) →
    (opsG P key tgt loc tr es).map Op.noDepth = opsG P key tgt loc tr es := by
  induction es with
  | nil => intro loc tr _ _; rfl
  | cons e es ih =>
    intro loc tr h htr
    have ih' := fun loc tr => ih loc tr (fun t ht => h t (by simp [ht]))
    cases e with
    | label l => exact ih' loc tr htr
    | setLineno n => exact ih' _ tr htr
    | tryBegin t => exact ih' loc (some t) (by rintro _ ⟨⟩; exact h t (by simp))
    | tryEnd id =>
      refine ih' loc _ ?_
      intro t ht
      split at ht
      · cases ht
      · exact htr t ht
    | instr i =>
      simp only [opsG, List.map_append, List.map_map]
      rw [ih' _ tr htr]
      congr 1
      apply List.map_congr_left
      intro p _
      simp only [Function.comp, Op.noDepth]
      congr 1
      cases tr with
      | none => rfl
      | some t =>
        simp only [Option.bind_some, handlerB, htr t rfl]
        cases tgt t.target <;> rfl

/-- The program of a graph with the depths at 0. -/
theorem programG_zero {P : Platform} (hP : P.WF) (key : Arg → κ) (c : CFG)
    (hv : ∀ i, BElem.instr i ∈ allCode c → ValidInstr P i) (hb : BlocksOnly c) :
    programG P key (zeroDepthsG c) = progI P key (itemIdx P (codeG c)) (Loc.line (some c.attrs.firstLineno)) (codeG c) (handlersG c) := by
  have ho := zeroG_only c
  have hz : ∀ t, BElem.tryBegin t ∈ allCode (zeroDepthsG c) → t.depth = some 0 := by
    intro t ht
    rw [zeroG_allCode] at ht
    obtain ⟨e, he, hx⟩ := List.mem_map.1 ht
    cases e <;> simp [zeroDepth] at hx
    subst hx; rfl
  have h1 := programG_items hP key (zeroDepthsG c) (fun i hi => hv i (by
    rw [zeroG_allCode] at hi
    obtain ⟨e, he, hx⟩ := List.mem_map.1 hi
    cases e <;> simp [zeroDepth] at hx
    subst hx; exact he)) (blocksOnly_only ho hb) (fun t ht => by rw [hz t ht]; rfl)
  rw [codeG_only ho, handlersG_only ho] at h1
  rw [show c.attrs.firstLineno = (zeroDepthsG c).attrs.firstLineno from rfl, ← h1]
  exact (opsG_noDepth_zero P key _ _ _ _ hz (by simp)).symm

/-! ### `to_bytecode` -/

theorem mapM_mem {α β : Type} {f : α → Py β} : ∀ {l : List α} {l' : List β}, l.mapM f = .ok l' → ∀ y ∈ l', ∃ x ∈ l, f x = .ok y := by
  intro l
  induction l with
  | nil =>
    intro l' h y hy
    simp only [List.mapM_nil, pure, Except.pure, Except.ok.injEq] at h
    subst h; cases hy
  | cons a l ih =>
    intro l' h y hy
    rw [List.mapM_cons] at h
    obtain ⟨z, hz, h⟩ := except_bind_ok h
    obtain ⟨r, hr, h⟩ := except_bind_ok h
    simp only [pure, Except.pure, Except.ok.injEq] at h
    subst h
    rcases List.mem_cons.1 hy with rfl | hy
    · exact ⟨a, by simp, hz⟩
    · obtain ⟨x, hx, h1⟩ := ih hr y hy
      exact ⟨x, by simp [hx], h1⟩

/-- The instructions of the result are those of the graph, blocks being replaced by labels. -/
theorem to_instr {P : Platform} {c : CFG} {bc : Bytecode} (h : c.toBytecode P = .ok bc) {i : Instr} (hi : BElem.instr i ∈ bc.elems) :
    ∃ j, BElem.instr j ∈ allCode c ∧ i = { j with arg := argLab j.arg } := by
  unfold CFG.toBytecode at h
  obtain ⟨used, hu, h⟩ := except_bind_ok h
  obtain ⟨s, hs, h⟩ := except_bind_ok h
  obtain ⟨es, hes, h⟩ := except_bind_ok h
  simp only [pure, Except.pure, Except.ok.injEq] at h
  have hinit : TInv ⟨[], fun _ => none, [], none, none⟩ [] := ⟨rfl, fun t b p hp => by cases hp⟩
  have inv := toLoop_ok c.blocks hinit hs
  rw [List.nil_append] at inv
  have hmem : ∀ i, BElem.instr i ∈ s.out → BElem.instr i ∈ allCode c := by
    intro i hi
    have h1 : BElem.instr i ∈ skel s.out := List.mem_filter.2 ⟨hi, rfl⟩
    rw [inv.skel] at h1
    obtain ⟨b, hb, h1⟩ := List.mem_flatMap.1 h1
    refine List.mem_flatMap.2 ⟨b, hb, ?_⟩
    rw [List.mem_append] at h1
    rcases h1 with h1 | h1
    · split at h1 <;> simp at h1
    · exact (List.mem_filter.1 h1).1
  subst h
  obtain ⟨x, hx, hf⟩ := mapM_mem hes _ hi
  cases x with
  | instr j =>
    refine ⟨j, hmem j hx, ?_⟩
    unfold toLabelElem at hf
    cases ha : j.arg with
    | block b =>
      simp only [ha] at hf
      split at hf
      · simp only [Except.ok.injEq, BElem.instr.injEq] at hf
        exact hf.symm
      · cases hf
    | _ =>
      simp only [ha, Except.ok.injEq, BElem.instr.injEq] at hf
      subst hf
      rw [show argLab _ = j.arg by rw [ha]; rfl]
  | tryBegin t =>
    unfold toLabelElem at hf
    simp only at hf
    split at hf <;> simp at hf
  | _ => simp [toLabelElem] at hf

/-! ### Markers in order -/

theorem wellTriedG_run (es : List BElem) : ∀ (pre : List BElem) (c : Option TryB) (s : List Nat) (a : Bool),
    WellTriedG (c.map (·.id)) s a es → (∀ n, n ∈ s → n ∈ begins pre) → (∀ n, n ∈ begins pre → n ∈ s) → (begins pre).Nodup →
    Bef pre → (a = true → 0 < instrCount pre) →
    Tidy c es ∧ (begins (pre ++ es)).Nodup ∧ Bef (pre ++ es) ∧ stW nextId c es = none := by
  induction es with
  | nil =>
    intro pre c s a h _ _ hn hb _
    refine ⟨trivial, by simpa using hn, by simpa using hb, ?_⟩
    cases c with
    | none => rfl
    | some t => cases h
  | cons e es ih =>
    intro pre c s a h h1 h2 hn hb ha
    rw [show pre ++ e :: es = (pre ++ [e]) ++ es by simp]
    cases e with
    | label l =>
      obtain ⟨i1, i2, i3, i4⟩ := ih (pre ++ [.label l]) c s a h (by simpa [begins_append, begins] using h1) (by simpa [begins_append, begins] using h2)
        (by simpa [begins_append, begins] using hn) (bef_push hb (by simp)) (fun hx => by
          have := ha hx
          unfold instrCount at *
          rw [List.countP_append]; omega)
      exact ⟨⟨by simp, i1⟩, i2, i3, i4⟩
    | setLineno l =>
      obtain ⟨i1, i2, i3, i4⟩ := ih (pre ++ [.setLineno l]) c s a h (by simpa [begins_append, begins] using h1) (by simpa [begins_append, begins] using h2)
        (by simpa [begins_append, begins] using hn) (bef_push hb (by simp)) (fun hx => by
          have := ha hx
          unfold instrCount at *
          rw [List.countP_append]; omega)
      exact ⟨⟨by simp, i1⟩, i2, i3, i4⟩
    | instr l =>
      obtain ⟨i1, i2, i3, i4⟩ := ih (pre ++ [.instr l]) c s true h (by simpa [begins_append, begins] using h1) (by simpa [begins_append, begins] using h2)
        (by simpa [begins_append, begins] using hn) (bef_push hb (by simp)) (fun hx => by
          unfold instrCount at *
          rw [List.countP_append]; simp [BElem.isInstr])
      exact ⟨⟨by simp, i1⟩, i2, i3, i4⟩
    | tryBegin t =>
      obtain ⟨g1, g2, g3⟩ := h
      have hc : c = none := by cases c with
        | none => rfl
        | some t => cases g1
      obtain ⟨i1, i2, i3, i4⟩ := ih (pre ++ [.tryBegin t]) (some t) (t.id :: s) a g3
        (by
          intro n hn'
          rw [begins_append, List.mem_append]
          rcases List.mem_cons.1 hn' with rfl | hn'
          · right; simp [begins]
          · exact .inl (h1 n hn'))
        (by
          intro n hn'
          rw [begins_append, List.mem_append] at hn'
          rcases hn' with hn' | hn'
          · exact List.mem_cons_of_mem _ (h2 n hn')
          · simp [begins] at hn'; simp [hn'])
        (by
          rw [begins_append, List.nodup_append]
          refine ⟨hn, by simp [begins], ?_⟩
          rintro x hx y hy rfl
          simp [begins] at hy
          subst hy
          exact g2 (h2 _ hx)) (bef_push hb (by simp)) (fun hx => by
          have := ha hx
          unfold instrCount at *
          rw [List.countP_append]; omega)
      exact ⟨⟨fun _ _ => hc, i1⟩, i2, i3, i4⟩
    | tryEnd id =>
      obtain ⟨g1, g2, g3⟩ := h
      have hc : (if c.map (·.id) = some id then none else c.map (·.id)) = (nextId c (.tryEnd id)).map (·.id) := by
        simp only [nextId]
        split <;> rfl
      rw [hc] at g3
      obtain ⟨i1, i2, i3, i4⟩ := ih (pre ++ [.tryEnd id]) (nextId c (.tryEnd id)) s a g3 (by simpa [begins_append, begins] using h1) (by simpa [begins_append, begins] using h2)
        (by simpa [begins_append, begins] using hn) (bef_push hb (by
          rintro n ⟨⟩
          exact ⟨h1 _ g2, ha g1⟩)) (fun hx => by
          have := ha hx
          unfold instrCount at *
          rw [List.countP_append]; omega)
      exact ⟨⟨by simp, i1⟩, i2, i3, i4⟩

theorem wellTriedG_ordered {es : List BElem} (h : WellTriedG none [] false es) : Ordered es ∧ stW nextId none es = none := by
  obtain ⟨h1, h2, h3, h4⟩ := wellTriedG_run es [] none [] false h (by simp) (by simp [begins]) (by simp [begins])
    (by intro a n b hab; simp at hab) (by simp)
  exact ⟨⟨h1, by simpa using h2, by simpa using h3⟩, h4⟩

end Verif
