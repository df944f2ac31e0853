import Verif.Model.CfgFlags
import Verif.Props.Flags
import Verif.Props.CfgEqual
import Verif.Props.CfgConv
import Verif.Props.LinearSize
import Verif.Proofs.CfgToTotal
import Verif.Proofs.GraphProgram
import Verif.Proofs.DecodeTry
import Verif.Proofs.AssembleF
/-
C84: the flags inferred for a `ControlFlowGraph`.
-/
namespace Verif
open Spec
section
variable {P : Platform} {c : CFG}

/-- a view without the argument of jumps -/
def FView.norm (P : Platform) : FView → FView
  | .instr n op a => .instr n op (if P.hasJump op then .unset else a)
  | v => v

/-- the views of the elements of a graph -/
def gview : BElem → FView
  | .instr i => .instr i.name i.opcode i.arg
  | .tryBegin _ => .tuple
  | .tryEnd _ => .tuple
  | _ => .skip

/-- the view of a jump does not matter but for its name -/
def FView.Plain (P : Platform) : FView → Prop
  | .instr n op a => P.hasJump op = true → a.pairHasCell = false ∧ a.isCellOrFree = false ∧ n ≠ "RESUME"
  | _ => True

theorem scanLoop_norm {conc : Bool} : ∀ (vs : List FView), (∀ v ∈ vs, v.Plain P) → ∀ (pend : Bool) (s : Scan),
    scanLoop P conc pend s (vs.map (FView.norm P)) = scanLoop P conc pend s vs := by
  intro vs
  induction vs with
  | nil => intro _ _ _; rfl
  | cons v r ih =>
    intro hp pend s
    have ih := ih (fun x hx => hp x (by simp [hx]))
    cases v with
    | skip => exact ih pend s
    | tuple => rfl
    | instr n op a =>
      have hv := hp _ (List.mem_cons_self ..)
      simp only [FView.Plain] at hv
      simp only [List.map_cons, FView.norm, scanLoop]
      cases hj : P.hasJump op with
      | false => simp only [Bool.false_eq_true, if_false, ih]
      | true =>
        obtain ⟨h1, h2, h3⟩ := hv hj
        have h4 : scanInstr P conc s op .unset = scanInstr P conc s op a := by
          unfold scanInstr
          simp only [h1, h2]
          rfl
        have h5 : ∀ b, scanResume s n b = .error .assertionError := by
          intro b
          unfold scanResume pyAssert
          have : (n == "RESUME") = false := by simpa using h3
          rw [this]; rfl
        simp only [if_true, h4, h5, ih]

theorem scanLoop_skip {conc : Bool} : ∀ (vs : List FView) (pend : Bool) (s : Scan),
    scanLoop P conc pend s (vs.filter (fun v => match v with | .skip => false | _ => true)) = scanLoop P conc pend s vs := by
  intro vs
  induction vs with
  | nil => intro _ _; rfl
  | cons v r ih =>
    intro pend s
    cases v with
    | skip => exact ih pend s
    | tuple => rfl
    | instr n op a =>
      rw [List.filter_cons_of_pos (by rfl)]
      simp only [scanLoop, ih]

theorem scanLoop_tuple {conc : Bool} : ∀ (vs : List FView) (pend : Bool) (s : Scan), .tuple ∈ vs → ∃ e, scanLoop P conc pend s vs = .error e := by
  intro vs
  induction vs with
  | nil => intro _ _ h; cases h
  | cons v r ih =>
    intro pend s h
    cases v with
    | skip =>
      rcases List.mem_cons.1 h with h | h
      · cases h
      · exact ih pend s h
    | tuple => exact ⟨_, rfl⟩
    | instr n op a =>
      rcases List.mem_cons.1 h with h | h
      · cases h
      · unfold scanLoop
        cases pend with
        | true =>
          simp only [if_true, bind, Except.bind]
          cases scanResume s n a with
          | error e => exact ⟨e, rfl⟩
          | ok s' => exact ih false s' h
        | false => exact ih _ _ h

theorem graphTryEnd_any {κ κ' : Type} (tries : List Nat) (id : Nat) :
    (∃ e, (graphTryEnd tries id : Py (GraphItem κ)) = .error e ∧ (graphTryEnd tries id : Py (GraphItem κ')) = .error e) ∨
    ∃ x y, (graphTryEnd tries id : Py (GraphItem κ)) = .ok x ∧ (graphTryEnd tries id : Py (GraphItem κ')) = .ok y := by
  unfold graphTryEnd
  split
  · exact .inr ⟨_, _, rfl, rfl⟩
  · exact .inl ⟨_, rfl, rfl⟩

theorem trailing_shown (r : List BElem) : firstEnd r = (match trailingTryEnd r with | none => [] | some id => [.tryEnd id]) := by
  induction r with
  | nil => rfl
  | cons e r ih =>
    cases e <;> simp_all [firstEnd, trailingTryEnd, List.find?]

/-- `flagBlock` fails when `graphBlock` does, and sees the elements `==` looks at. -/
theorem flagBlock_spec {κ : Type} (key : Arg → κ) : ∀ (es : List BElem) (tries : List Nat),
    (∃ e, graphBlock P key c tries es = .error e ∧ flagBlock P c tries es = .error e) ∨
    ∃ q v t, graphBlock P key c tries es = .ok (q, t) ∧ flagBlock P c tries es = .ok (v, t) ∧
      v.map (FView.norm P) = (shownBlock P es).map (FView.norm P ∘ gview) ∧ (∀ x ∈ v, ∀ n op a, x = .instr n op a → P.hasJump op = true → ∃ k, a = .int k) := by
  intro es
  induction es with
  | nil => intro tries; exact .inr ⟨[], [], tries, rfl, rfl, rfl, by simp⟩
  | cons e r ih =>
    intro tries
    unfold graphBlock flagBlock
    simp only [bind, Except.bind]
    cases hb : blkCheck P e r with
    | error x => exact .inl ⟨x, rfl, rfl⟩
    | ok u =>
      simp only
      cases e with
      | label l => exact .inl ⟨_, rfl, rfl⟩
      | setLineno n =>
        rcases ih tries with ⟨x, h1, h2⟩ | ⟨q, v, t, h1, h2, h3, h4⟩
        · simp only [h1, h2]; exact .inl ⟨_, rfl, rfl⟩
        · simp only [h1, h2]
          refine .inr ⟨_, _, _, rfl, rfl, ?_, ?_⟩
          · simp only [List.map_cons, shownBlock, h3]; rfl
          · intro x hx n op a hxe
            rcases List.mem_cons.1 hx with hx | hx
            · rw [hx] at hxe; cases hxe
            · exact h4 x hx n op a hxe
      | tryBegin t0 =>
        cases hg : c.getBlockIndex t0.target with
        | error x => simp only [hg]; exact .inl ⟨_, rfl, rfl⟩
        | ok k =>
          simp only [hg]
          rcases ih (setDefault tries t0.id) with ⟨x, h1, h2⟩ | ⟨q, v, t, h1, h2, h3, h4⟩
          · simp only [h1, h2]; exact .inl ⟨_, rfl, rfl⟩
          · simp only [h1, h2]
            refine .inr ⟨_, _, _, rfl, rfl, ?_, ?_⟩
            · simp only [List.map_cons, shownBlock, h3]; rfl
            · intro x hx n op a hxe
              rcases List.mem_cons.1 hx with hx | hx
              · rw [hx] at hxe; cases hxe
              · exact h4 x hx n op a hxe
      | tryEnd id =>
        simp only
        rcases graphTryEnd_any (κ := κ) (κ' := Unit) tries id with ⟨x, g1, g2⟩ | ⟨x, y, g1, g2⟩
        · simp only [g1, g2]; exact .inl ⟨_, rfl, rfl⟩
        · simp only [g1, g2]
          rcases ih tries with ⟨x, h1, h2⟩ | ⟨q, v, t, h1, h2, h3, h4⟩
          · simp only [h1, h2]; exact .inl ⟨_, rfl, rfl⟩
          · simp only [h1, h2]
            refine .inr ⟨_, _, _, rfl, rfl, ?_, ?_⟩
            · simp only [List.map_cons, shownBlock, h3]; rfl
            · intro x hx n op a hxe
              rcases List.mem_cons.1 hx with hx | hx
              · rw [hx] at hxe; cases hxe
              · exact h4 x hx n op a hxe
      | instr i =>
        simp only [shownBlock, endsBlock]
        rcases Bool.eq_false_or_eq_true (P.hasJump i.opcode || isFinal i.name) with hend | hend
        case inr =>
          have hj : P.hasJump i.opcode = false := (Bool.or_eq_false_iff.1 hend).1
          simp only [hend, Bool.false_eq_true, if_false]
          rcases ih tries with ⟨x, h1, h2⟩ | ⟨q, v, t, h1, h2, h3, h4⟩
          · simp only [h1, h2]; exact .inl ⟨_, rfl, rfl⟩
          · simp only [h1, h2]
            refine .inr ⟨_, _, _, rfl, rfl, ?_, ?_⟩
            · simp only [List.map_cons, h3]; rfl
            · intro x hx n op a hxe hjo
              rcases List.mem_cons.1 hx with hx | hx
              · rw [hx] at hxe; cases hxe; rw [hj] at hjo; cases hjo
              · exact h4 x hx n op a hxe hjo
        case inl =>
          simp only [hend, if_true]
          have hlast : (∃ e, graphLast P key c i = .error e ∧ flagLast P c i = .error e) ∨
              ∃ x a, graphLast P key c i = .ok x ∧ flagLast P c i = .ok (.instr i.name i.opcode a) ∧
                (FView.norm P (.instr i.name i.opcode a) = FView.norm P (gview (.instr i))) ∧ (P.hasJump i.opcode = true → ∃ k, a = .int k) := by
            unfold graphLast flagLast
            cases hj : P.hasJump i.opcode with
            | false => exact .inr ⟨_, _, rfl, rfl, rfl, by simp⟩
            | true =>
              simp only [if_true]
              cases i.arg.asBlock with
              | none => exact .inl ⟨_, rfl, rfl⟩
              | some b =>
                simp only [bind, Except.bind]
                cases c.getBlockIndex b with
                | error e => exact .inl ⟨_, rfl, rfl⟩
                | ok k =>
                  simp only
                  cases checkArgInt (.int k) with
                  | error e => exact .inl ⟨_, rfl, rfl⟩
                  | ok n => exact .inr ⟨_, _, rfl, rfl, by simp [FView.norm, gview, hj], fun _ => ⟨_, rfl⟩⟩
          rcases hlast with ⟨x, h1, h2⟩ | ⟨x, a, h1, h2, h3, h4⟩
          · simp only [h1, h2]; exact .inl ⟨_, rfl, rfl⟩
          · simp only [h1, h2, trailing_shown]
            cases trailingTryEnd r with
            | none =>
              refine .inr ⟨_, _, _, rfl, rfl, by simp only [List.map_cons, h3]; rfl, ?_⟩
              intro x hx n op a hxe hjo
              rw [List.mem_singleton.1 hx] at hxe; cases hxe; exact h4 hjo
            | some id =>
              simp only
              rcases graphTryEnd_any (κ := κ) (κ' := Unit) tries id with ⟨x, g1, g2⟩ | ⟨x, y, g1, g2⟩
              · simp only [g1, g2]; exact .inl ⟨_, rfl, rfl⟩
              · simp only [g1, g2]
                refine .inr ⟨_, _, _, rfl, rfl, by simp only [List.map_cons, h3]; rfl, ?_⟩
                intro x hx n op a hxe hjo
                rcases List.mem_cons.1 hx with hx | hx
                · rw [hx] at hxe; cases hxe; exact h4 hjo
                · rw [List.mem_singleton.1 hx] at hxe; cases hxe

theorem flagBlocks_spec {κ : Type} (key : Arg → κ) : ∀ (bs : List Nat) (tries : List Nat),
    (∃ e, graphBlocks P key c tries bs = .error e ∧ flagBlocks P c tries bs = .error e) ∨
    ∃ q v, graphBlocks P key c tries bs = .ok q ∧ flagBlocks P c tries bs = .ok v ∧
      v.map (FView.norm P) = (bs.flatMap (fun b => shownBlock P (c.heap b).elems)).map (FView.norm P ∘ gview) ∧
      (∀ x ∈ v, ∀ n op a, x = .instr n op a → P.hasJump op = true → ∃ k, a = .int k) := by
  intro bs
  induction bs with
  | nil => intro tries; exact .inr ⟨[], [], rfl, rfl, rfl, by simp⟩
  | cons b bs ih =>
    intro tries
    unfold graphBlocks flagBlocks
    simp only [bind, Except.bind]
    rcases flagBlock_spec (P := P) (c := c) key (c.heap b).elems tries with ⟨e, h1, h2⟩ | ⟨q, v, t, h1, h2, h3, h4⟩
    · simp only [h1, h2]; exact .inl ⟨_, rfl, rfl⟩
    · simp only [h1, h2]
      rcases ih t with ⟨e, g1, g2⟩ | ⟨q', v', g1, g2, g3, g4⟩
      · simp only [g1, g2]; exact .inl ⟨_, rfl, rfl⟩
      · simp only [g1, g2]
        refine .inr ⟨_, _, rfl, rfl, ?_, ?_⟩
        · rw [List.map_append, h3, g3, List.flatMap_cons, List.map_append]
        · intro x hx
          rcases List.mem_append.1 hx with hx | hx
          · exact h4 x hx
          · exact g4 x hx

/-- **C84.** `infer_flags` never works for a graph with try markers. -/
theorem C84_refused (P : Platform) (c : CFG) (a : Option Bool) (h : ∃ e ∈ shown P c, (∃ t, e = .tryBegin t) ∨ ∃ id, e = .tryEnd id) :
    ∃ e, c.inferFlags P a = .error e := by
  unfold CFG.inferFlags
  simp only [bind, Except.bind]
  rcases flagBlocks_spec (P := P) (c := c) (id : Arg → Arg) c.blocks [] with ⟨e, _, h2⟩ | ⟨q, v, _, h2, h3, _⟩
  · rw [h2]; exact ⟨_, rfl⟩
  · rw [h2]
    simp only
    have ht : FView.tuple ∈ v := by
      have : FView.tuple ∈ v.map (FView.norm P) := by
        rw [h3]
        obtain ⟨e, he, hx⟩ := h
        refine List.mem_map.2 ⟨e, he, ?_⟩
        rcases hx with ⟨t, rfl⟩ | ⟨id, rfl⟩ <;> rfl
      obtain ⟨x, hx, hxe⟩ := List.mem_map.1 this
      cases x <;> simp [FView.norm] at hxe
      exact hx
    obtain ⟨e, he⟩ := scanLoop_tuple (P := P) (conc := false) v false ⟨true, false, false, false, false⟩ ht
    unfold Verif.inferFlags
    simp only [he]
    exact ⟨_, rfl⟩

theorem inferFlags_congr {fl : Nat} {a : Option Bool} {x y : List FView} (h : ∀ s, scanLoop P false false s x = scanLoop P false false s y) :
    Verif.inferFlags P false false fl x a = Verif.inferFlags P false false fl y a := by
  unfold Verif.inferFlags
  rw [h]

/-- No try markers. -/
def NoTries (es : List BElem) : Prop := ∀ e ∈ es, (∀ t, e ≠ .tryBegin t) ∧ ∀ id, e ≠ .tryEnd id

theorem plain_views (hR : ∀ op, P.opmap "RESUME" = some op → P.hasJump op = false) {es : List BElem} (hv : ∀ i, .instr i ∈ es → ValidInstr P i) :
    ∀ v ∈ es.map BElem.fview, v.Plain P := by
  intro v hx
  obtain ⟨e, he, rfl⟩ := List.mem_map.1 hx
  cases e with
  | instr i =>
    intro hj
    have hi := hv i he
    have hn : i.name ≠ "RESUME" := by
      intro hn
      have := hR i.opcode (by rw [← hn]; exact hi.name_op)
      rw [this] at hj; cases hj
    rcases hi.arg_ok.jump hj with ⟨l, hl⟩ | ⟨l, hl⟩ <;> rw [hl] <;> exact ⟨rfl, rfl, hn⟩
  | _ => trivial

/-- **C84.** Without try markers, the flags inferred for a graph are those inferred for the instructions of its blocks, each up to its first jump or final
instruction. -/
theorem C84_shown (hR : ∀ op, P.opmap "RESUME" = some op → P.hasJump op = false) (hv : ∀ i, .instr i ∈ shown P c → ValidInstr P i) (hc : ComparableG P c)
    (hn : NoTries (shown P c)) (a : Option Bool) :
    c.inferFlags P a = ({ attrs := c.attrs, argnames := c.argnames, elems := shown P c } : Bytecode).inferFlags P a := by
  obtain ⟨q, hq, _⟩ := getInstructions_spec (id : Arg → Arg) hc
  unfold CFG.getInstructions at hq
  rcases flagBlocks_spec (P := P) (c := c) (id : Arg → Arg) c.blocks [] with ⟨e, h1, _⟩ | ⟨q', v, h1, h2, h3, h4⟩
  · rw [h1] at hq; cases hq
  · unfold CFG.inferFlags Bytecode.inferFlags
    have hi : (iterElems false (shown P c)).2 = .ok () := iter_noTry (fun t ht => (hn _ ht).1 t rfl)
    simp only [bind, Except.bind, h2, hi]
    apply inferFlags_congr
    have hg : (shown P c).map (FView.norm P ∘ gview) = ((shown P c).map BElem.fview).map (FView.norm P) := by
      rw [List.map_map]
      apply List.map_congr_left
      intro e he
      have := hn e he
      cases e with
      | tryBegin t => exact absurd rfl (this.1 t)
      | tryEnd id => exact absurd rfl (this.2 id)
      | _ => rfl
    have hp := plain_views hR hv
    intro s
    rw [← scanLoop_norm (P := P) _ hp, ← hg]
    have h3' : v.map (FView.norm P) = (shown P c).map (FView.norm P ∘ gview) := h3
    rw [← h3']
    symm
    apply scanLoop_norm
    intro x hx
    cases x with
    | instr n op b =>
      intro hj
      obtain ⟨k, rfl⟩ := h4 _ hx n op b rfl hj
      refine ⟨rfl, rfl, ?_⟩
      have hm : FView.norm P (.instr n op (.int k)) ∈ v.map (FView.norm P) := List.mem_map.2 ⟨_, hx, rfl⟩
      rw [h3', hg] at hm
      obtain ⟨y, hy, hye⟩ := List.mem_map.1 hm
      have hpy := hp y hy
      cases y with
      | instr n' op' b' =>
        simp only [FView.norm, FView.instr.injEq] at hye
        rw [← hye.1]
        exact (hpy (by rw [hye.2.1]; exact hj)).2.2
      | _ => cases hye
    | _ => trivial

/-- **C84.** So they are right for these instructions (as C35, C36 say for a Bytecode). -/
theorem C84_right (hP : P.WF) (hF : FlagOps P) (hR : ∀ op, P.opmap "RESUME" = some op → P.hasJump op = false)
    (hv : ∀ i, .instr i ∈ shown P c → ValidInstr P i) (hc : ComparableG P c) (hn : NoTries (shown P c)) {a : Option Bool} {f : Nat} (h : c.inferFlags P a = .ok f) :
    FlagsRight P (fiB P (shown P c)) c.attrs.flags a f ∧ (f.testBit bNOFREE = true ↔ ∀ i ∈ fiB P (shown P c), i.deref = false) := by
  rw [C84_shown hR hv hc hn] at h
  exact ⟨C35_bytecode P hP hF _ a f hv h, C36_nofree_bytecode P hP hF _ a f hv h⟩

/-! ### A graph and its Bytecode -/

theorem argOK_asBlk {op l k : Nat} (h : ArgOK P op (.label l)) : ArgOK P op (.block k) := by
  refine ⟨⟨fun _ => by simp, fun _ => h.present.2 (by simp)⟩, fun _ => .inr ⟨k, rfl⟩, ?_, ?_, ?_, ?_, ?_, ?_, ?_, ?_, ?_, ?_, ?_⟩
  · intro h1; rcases h.free h1 with ⟨_, e⟩ | ⟨_, e⟩ <;> cases e
  · intro h1 h2 h3; obtain ⟨_, e⟩ := h.name h1 h2 h3; cases e
  · intro h1; obtain ⟨_, _, e⟩ := h.flag h1; cases e
  · intro h1; obtain ⟨_, _, _, e⟩ := h.flag2 h1; cases e
  · intro h1 h2; rcases h.local_ h1 h2 with ⟨_, e⟩ | ⟨_, ⟨_, e⟩ | ⟨_, e⟩⟩ <;> cases e
  · intro h1; obtain ⟨_, _, e, _⟩ := h.dual h1; cases e
  · intro h1; exact absurd rfl ((h.const h1).1 l)
  · intro h1; obtain ⟨_, e⟩ := h.compare h1; cases e
  · intro h1; obtain ⟨_, e⟩ := h.intr1 h1; cases e
  · intro h1; obtain ⟨_, e⟩ := h.intr2 h1; cases e
  · intro h1 h2; obtain ⟨_, e, _⟩ := h.int h1 h2; simp [Arg.asInt] at e

/-- is not skipped -/
def FView.seen : FView → Bool
  | .skip => false
  | _ => true

theorem scanLoop_seen {conc : Bool} (vs : List FView) (pend : Bool) (s : Scan) : scanLoop P conc pend s (vs.filter FView.seen) = scanLoop P conc pend s vs := by
  rw [← scanLoop_skip vs]
  congr 2

/-- the view of an item -/
def itemView (P : Platform) : CodeItem → Option FView
  | .line _ => none
  | .op n o r _ => some (.instr n o (if P.hasJump o then .unset else match r with | .value a => a | _ => .unset))

theorem items_views {lab blk : Nat → Option Nat} : ∀ {es : List BElem}, (∀ i, .instr i ∈ es → P.hasJump i.opcode = false → ∀ l, i.arg ≠ .label l ∧ i.arg ≠ .block l) →
    (resolved lab blk es).filterMap (itemView P) = ((es.map BElem.fview).map (FView.norm P)).filter FView.seen := by
  intro es
  induction es with
  | nil => intro _; rfl
  | cons e r ih =>
    intro h
    have ih := ih (fun i hi => h i (by simp [hi]))
    cases e with
    | instr i =>
      show (CodeItem.op i.name i.opcode (argRef lab blk i.arg) i.loc :: resolved lab blk r).filterMap (itemView P) = _
      rw [List.filterMap_cons]
      simp only [itemView, ih, List.map_cons, BElem.fview, FView.norm]
      rw [List.filter_cons_of_pos (by rfl)]
      congr 2
      cases hj : P.hasJump i.opcode with
      | true => rfl
      | false =>
        have hx := h i (by simp) hj
        cases ha : i.arg with
        | label l => exact absurd ha (hx l).1
        | block l => exact absurd ha (hx l).2
        | _ => rfl
    | setLineno n =>
      show (CodeItem.line n :: resolved lab blk r).filterMap (itemView P) = _
      rw [List.filterMap_cons]
      exact ih
    | label l => exact ih
    | tryBegin t => exact ih
    | tryEnd id => exact ih

theorem valid_plain {i : Instr} (h : ValidInstr P i) (hj : P.hasJump i.opcode = false) : ∀ l, i.arg ≠ .label l ∧ i.arg ≠ .block l :=
  fun l => ⟨fun hx => (by rw [valid_label h hx] at hj; cases hj), fun hx => (by have := h.arg_ok; rw [hx] at this; rw [argOK_block this] at hj; cases hj)⟩

theorem shownBlock_views {es : List BElem} (ho : OnlyLastJumps P es) (hn : NoTries es) :
    ((shownBlock P es).map BElem.fview).filter FView.seen = (es.map BElem.fview).filter FView.seen := by
  induction es with
  | nil => rfl
  | cons e r ih =>
    have ih := ih (fun a i b h => ho (e :: a) i b (by rw [h]; rfl)) (fun x hx => hn x (by simp [hx]))
    cases e with
    | instr i =>
      simp only [shownBlock]
      by_cases hend : endsBlock P i = true
      · rw [if_pos hend]
        have h0 := ho [] i r rfl (by simpa [endsBlock] using hend)
        have hr : (r.map BElem.fview).filter FView.seen = [] := by
          rw [List.filter_eq_nil_iff]
          intro v hv
          obtain ⟨x, hx, rfl⟩ := List.mem_map.1 hv
          have := List.countP_eq_zero.1 h0 x hx
          cases x with
          | instr j => exact absurd rfl this
          | _ => simp [BElem.fview, FView.seen]
        have hf : firstEnd r = [] := by
          unfold firstEnd
          rw [List.find?_eq_none.2]
          · rfl
          · intro x hx
            cases x with
            | tryEnd id => exact absurd rfl ((hn _ (List.mem_cons_of_mem _ hx)).2 id)
            | _ => simp
        rw [hf, List.map_cons, List.map_cons, List.filter_cons_of_pos (by rfl), List.filter_cons_of_pos (by rfl), hr]
        rfl
      · rw [if_neg hend, List.map_cons, List.map_cons, List.filter_cons_of_pos (by rfl), List.filter_cons_of_pos (by rfl), ih]
    | _ => exact ih

theorem shown_views (ho : ∀ b ∈ c.blocks, OnlyLastJumps P (c.heap b).elems) (hn : NoTries (allCode c)) :
    ((shown P c).map BElem.fview).filter FView.seen = ((allCode c).map BElem.fview).filter FView.seen := by
  have : ∀ bs : List Nat, (∀ b ∈ bs, OnlyLastJumps P (c.heap b).elems) → (∀ b ∈ bs, NoTries (c.heap b).elems) →
      ((bs.flatMap (fun b => shownBlock P (c.heap b).elems)).map BElem.fview).filter FView.seen =
      ((bs.flatMap (fun b => (c.heap b).elems)).map BElem.fview).filter FView.seen := by
    intro bs
    induction bs with
    | nil => intro _ _; rfl
    | cons b bs ih =>
      intro h1 h2
      simp only [List.flatMap_cons, List.map_append, List.filter_append]
      rw [shownBlock_views (h1 b (by simp)) (h2 b (by simp)), ih (fun x hx => h1 x (by simp [hx])) (fun x hx => h2 x (by simp [hx]))]
  exact this c.blocks ho (fun b hb e he => hn e (List.mem_flatMap.2 ⟨b, hb, he⟩))

theorem shown_mem {e : BElem} (h : e ∈ shown P c) : e ∈ allCode c := by
  have hs : ∀ es : List BElem, ∀ x ∈ shownBlock P es, x ∈ es := by
    intro es
    induction es with
    | nil => intro x hx; exact hx
    | cons e r ih =>
      intro x hx
      cases e with
      | instr i =>
        simp only [shownBlock] at hx
        split at hx
        · rcases List.mem_cons.1 hx with hx | hx
          · rw [hx]; exact List.mem_cons_self ..
          · unfold firstEnd at hx
            have := Option.mem_toList.1 hx
            exact List.mem_cons_of_mem _ (List.mem_of_find?_eq_some this)
        · rcases List.mem_cons.1 hx with hx | hx
          · rw [hx]; exact List.mem_cons_self ..
          · exact List.mem_cons_of_mem _ (ih x hx)
      | _ =>
        rcases List.mem_cons.1 hx with hx | hx
        · rw [hx]; exact List.mem_cons_self ..
        · exact List.mem_cons_of_mem _ (ih x hx)
  obtain ⟨b, hb, he⟩ := List.mem_flatMap.1 h
  exact List.mem_flatMap.2 ⟨b, hb, hs _ _ he⟩

theorem same_views {b : Bytecode} (hR : ∀ op, P.opmap "RESUME" = some op → P.hasJump op = false) (hvc : ∀ i, .instr i ∈ allCode c → ValidInstr P i)
    (hvb : ∀ i, .instr i ∈ b.elems → ValidInstr P i) (hcode : codeB b = codeG c) (ho : ∀ k ∈ c.blocks, OnlyLastJumps P (c.heap k).elems) (hn : NoTries (allCode c))
    (s : Scan) : scanLoop P false false s ((shown P c).map BElem.fview) = scanLoop P false false s (b.elems.map BElem.fview) := by
  have h1 := items_views (P := P) (lab := fun l => labelAt l b.elems) (blk := fun _ => none) (fun i hi hj => valid_plain (hvb i hi) hj)
  have h2 := items_views (P := P) (lab := fun _ => none) (blk := fun b => blockAt c.heap b c.blocks) (fun i hi hj => valid_plain (hvc i hi) hj)
  have h3 : (codeB b).filterMap (itemView P) = (codeG c).filterMap (itemView P) := by rw [hcode]
  have h4 : ((b.elems.map BElem.fview).map (FView.norm P)).filter FView.seen = (((allCode c).map BElem.fview).map (FView.norm P)).filter FView.seen :=
    h1.symm.trans (h3.trans h2)
  have h5 : ∀ es : List BElem, (∀ v ∈ es.map BElem.fview, v.Plain P) →
      scanLoop P false false s (((es.map BElem.fview).map (FView.norm P)).filter FView.seen) = scanLoop P false false s (es.map BElem.fview) := by
    intro es hp
    rw [scanLoop_seen, scanLoop_norm _ hp]
  have h6 := h5 _ (plain_views hR hvb)
  rw [h4, h5 _ (plain_views hR hvc)] at h6
  rw [← h6, ← scanLoop_seen, shown_views ho hn, scanLoop_seen]

/-- **C84.** A graph without try markers and its Bytecode get the same flags, or the same exception. -/
theorem C84_to_bytecode (hR : ∀ op, P.opmap "RESUME" = some op → P.hasJump op = false) (hv : ∀ i, .instr i ∈ allCode c → ValidInstr P i) (hc : ComparableG P c)
    (hb : BlocksOnly c) (ho : ∀ k ∈ c.blocks, OnlyLastJumps P (c.heap k).elems) (hn : NoTries (allCode c)) {b : Bytecode} (h : c.toBytecode P = .ok b) (a : Option Bool) :
    c.inferFlags P a = b.inferFlags P a := by
  have hnd := nodup_of_index hc.index
  obtain ⟨b1, b2, b3⟩ := C26_to P c b hnd hb h
  have hvb : ∀ i, BElem.instr i ∈ b.elems → ValidInstr P i := by
    intro i hi
    obtain ⟨j, hj, rfl⟩ := to_instr h hi
    exact valid_lab (hv j hj)
  have hwt : ∀ (es : List BElem) (any : Bool), NoTries es → WellTriedG none [] any es := by
    intro es
    induction es with
    | nil => intro _ _; rfl
    | cons e r ih =>
      intro any hn
      have := hn e (by simp)
      cases e with
      | tryBegin t => exact absurd rfl (this.1 t)
      | tryEnd id => exact absurd rfl (this.2 id)
      | _ => exact ih _ (fun x hx => hn x (by simp [hx]))
  obtain ⟨ho', hs'⟩ := wellTriedG_ordered (hwt _ false hn)
  have hwb := to_well ho' hs' h
  have hi : (iterElems false b.elems).2 = .ok () := by
    apply iter_total
    · intro pre t mid t' post he
      rw [he] at hwb
      exact wellTried_nested hwb
    · intro hx; cases hx
  rw [C84_shown hR (fun i hi => hv i (shown_mem hi)) hc (fun e he => hn e (shown_mem he))]
  have hi' : (iterElems false (shown P c)).2 = .ok () := iter_noTry (fun t ht => (hn _ (shown_mem ht)).1 t rfl)
  unfold Bytecode.inferFlags
  simp only [bind, Except.bind, hi, hi', b2]
  exact inferFlags_congr (fun s => same_views hR hv hvb b1 ho hn s)

/-- **C84.** A Bytecode without try markers and its graph get the same flags, or the same exception. -/
theorem C84_from_bytecode (hR : ∀ op, P.opmap "RESUME" = some op → P.hasJump op = false) {b : Bytecode} (hl : LabelsOnly b) (hv : ∀ i, .instr i ∈ b.elems → ValidInstr P i)
    (hn : NoTries b.elems) (h : fromBytecode P b = .ok c) (hfew : c.blocks.length ≤ 2147483647) (a : Option Bool) : c.inferFlags P a = b.inferFlags P a := by
  obtain ⟨c1, c2, c3, c4, c5⟩ := C26_from P b c hl h
  obtain ⟨⟨n, _, hbl, hbs⟩, hI, _⟩ := C27 P b c hl h
  obtain ⟨x1, x2⟩ := from_src hl h
  have hjl : ∀ i, BElem.instr i ∈ b.elems → P.hasJump i.opcode = true → ∃ l, i.arg = .label l := by
    intro i hi hj
    rcases (hv i hi).arg_ok.jump hj with h | ⟨b, h⟩
    · exact h
    · exact absurd h (hl i hi b)
  have hit := C27_iterable P b c hl hjl h
  have hwt : ∀ (es : List BElem) (any : Bool), NoTries es → WellTried none [] any es := by
    intro es
    induction es with
    | nil => intro _ _; rfl
    | cons e r ih =>
      intro any hn
      have := hn e (by simp)
      cases e with
      | tryBegin t => exact absurd rfl (this.1 t)
      | tryEnd id => exact absurd rfl (this.2 id)
      | _ => exact ih _ (fun x hx => hn x (by simp [hx]))
  have hord := (from_tries (hwt _ _ hn) h).1
  have hnb : ∀ t, BElem.tryBegin t ∉ allCode c := by
    intro t ht
    obtain ⟨_, u, hu, _⟩ := x2 t ht
    exact (hn _ hu).1 u rfl
  have hnc : NoTries (allCode c) := by
    intro e he
    refine ⟨fun t ht => hnb t (ht ▸ he), ?_⟩
    rintro id rfl
    obtain ⟨p, q, hpq⟩ := List.append_of_mem he
    have := (hord.bef p id q hpq).1
    unfold begins at this
    obtain ⟨x, hx, hxe⟩ := List.mem_filterMap.1 this
    cases x with
    | tryBegin t => exact hnb t (by rw [hpq]; simp [hx])
    | _ => cases hxe
  have hvc : ∀ i, BElem.instr i ∈ allCode c → ValidInstr P i := by
    intro i hi
    obtain ⟨j, hj, e1, e2, e3, e4⟩ := x1 i hi
    have hvj := hv j hj
    refine ⟨by rw [e1, e2]; exact hvj.name_op, by rw [e2]; exact hvj.base, by rw [e1]; exact hvj.not_ext, ?_, by rw [e3]; exact hvj.loc_ok⟩
    rcases e4 with ⟨k, l, a1, a2, _⟩ | ⟨a1, _⟩
    · have := hvj.arg_ok
      rw [a2] at this
      rw [a1, e2]
      exact argOK_asBlk this
    · rw [a1, e2]; exact hvj.arg_ok
  have hc : ComparableG P c := by
    refine ⟨hI, hfew, hit, ?_, ?_, ?_, fun i hi => (hvc i (shown_mem hi)).name_op, fun i hi hj => valid_plain (hvc i (shown_mem hi)) hj⟩
    · intro i k hi hk
      obtain ⟨j, hj, _, _, _, e4⟩ := x1 i (shown_mem hi)
      rcases e4 with ⟨k', l, a1, a2, a3⟩ | ⟨a1, _⟩
      · rw [hk] at a1; cases a1; exact a3
      · exact absurd (a1.symm.trans hk) (hl j hj k)
    · intro t ht; exact absurd (shown_mem ht) (hnb t)
    · intro x id y hx
      have : BElem.tryEnd id ∈ shown P c := by rw [hx]; simp
      exact absurd rfl ((hnc _ (shown_mem this)).2 id)
  rw [C84_shown hR (fun i hi => hvc i (shown_mem hi)) hc (fun e he => hnc e (shown_mem he))]
  have hi' : (iterElems false (shown P c)).2 = .ok () := iter_noTry (fun t ht => hnb t (shown_mem ht))
  have hi : (iterElems false b.elems).2 = .ok () := iter_noTry (fun t ht => (hn _ ht).1 t rfl)
  unfold Bytecode.inferFlags
  simp only [bind, Except.bind, hi, hi', c2]
  refine inferFlags_congr (fun s => same_views hR hvc hv c1.symm ?_ hnc s)
  intro k hk
  rw [hbl] at hk
  exact (hbs k (List.mem_range.1 hk)).1

end
end Verif
