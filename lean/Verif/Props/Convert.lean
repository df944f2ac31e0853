import Verif.Proofs.Caches
import Verif.Instances.Py310
import Verif.Instances.Py311
import Verif.Instances.Py312
import Verif.Instances.Py313
/-
C14-C21, C45: `Bytecode.to_concrete_bytecode` (without recomputation of the stack depths), on input without
manual CACHE instructions unless said otherwise.
-/
namespace Verif
open Spec
section
variable {κ : Type} [DecidableEq κ]
variable {P : Platform} {key : Arg → κ} {b : Bytecode} {c : Concrete} {passes : Nat}

theorem label_hasJump {i : Instr} {l : Nat} (hv : ValidInstr P i) (hl : i.arg = .label l) : P.hasJump i.opcode = true := by
  have ha := hv.arg_ok
  rw [hl] at ha
  have hA : P.hasArg i.opcode = true := ha.present.2 (by simp)
  cases hj : P.hasJump i.opcode with
  | true => rfl
  | false =>
    exfalso
    have h1 : P.hasfree i.opcode = false := by
      cases h : P.hasfree i.opcode with
      | false => rfl
      | true => rcases ha.free h with ⟨_, h⟩ | ⟨_, h⟩ <;> simp at h
    have h2 : P.haslocal i.opcode = false := by
      cases h : P.haslocal i.opcode with
      | false => rfl
      | true =>
        cases hd : P.dual i.opcode with
        | true => obtain ⟨_, _, h, _⟩ := ha.dual hd; simp at h
        | false => rcases ha.local_ h hd with ⟨_, h⟩ | ⟨_, ⟨_, h⟩ | ⟨_, h⟩⟩ <;> simp at h
    have h3 : P.hasname i.opcode = false := by
      cases h : P.hasname i.opcode with
      | false => rfl
      | true =>
        cases hf : P.bitflag i.opcode with
        | true => obtain ⟨_, _, h⟩ := ha.flag hf; simp at h
        | false =>
          cases hg : P.bitflag2 i.opcode with
          | true => obtain ⟨_, _, _, h⟩ := ha.flag2 hg; simp at h
          | false => obtain ⟨_, h⟩ := ha.name h hf hg; simp at h
    have h4 : P.hasconst i.opcode = false := by
      cases h : P.hasconst i.opcode with
      | false => rfl
      | true => exact absurd rfl ((ha.const h).1 l)
    have h5 : P.hascompare i.opcode = false := by
      cases h : P.hascompare i.opcode with
      | false => rfl
      | true => obtain ⟨_, h⟩ := ha.compare h; simp at h
    have h6 : P.intrinsic1 i.opcode = false := by
      cases h : P.intrinsic1 i.opcode with
      | false => rfl
      | true => obtain ⟨_, h⟩ := ha.intr1 h; simp at h
    have h7 : P.intrinsic2 i.opcode = false := by
      cases h : P.intrinsic2 i.opcode with
      | false => rfl
      | true => obtain ⟨_, h⟩ := ha.intr2 h; simp at h
    obtain ⟨v, hv, _⟩ := ha.int (by simp [hj, h1, h2, h3, h4, h5, h6, h7]) hA
    simp [Arg.asInt] at hv

/-- The operations of the result in place of one instruction that is not a two-variable one. -/
theorem convert_at (hP : P.WF) (hcache : ∀ e ∈ b.elems, e.isCache = false) (hv : ∀ i, .instr i ∈ b.elems → ValidInstr P i)
    (h : toConcrete P key passes b = .ok c) {es1 es2 : List BElem} {i : Instr} (he : b.elems = es1 ++ .instr i :: es2)
    (hok : OperandOK P c.varnames i) (hd : P.dual i.opcode = false) :
    ∃ o, (programC P key c)[opNumber P es1]? = some o ∧ o.name = i.name ∧
      o.operand = operandB P key (fun l => labelPos P l 0 b.elems) i.opcode i.arg := by
  obtain ⟨T, M, hF⟩ := toConcrete_Final hP hcache hv h
  have hat := hF.at he hok
  have hn : i.name ≠ "CACHE" := by
    have := hcache (.instr i) (by rw [he]; simp)
    simpa [BElem.isCache] using this
  have hcnt : opCount P i.name i.opcode = 1 := by simp [opCount, hn, hd]
  have hds : P.dualSingles i.opcode = none := by simpa [Platform.dual] using hd
  have hnum : (es1.map (opCountE P)).sum = opNumber P es1 := rfl
  rw [hcnt, hnum, expandB, if_neg hn, hds] at hat
  simp only at hat
  obtain ⟨o, ho, h2⟩ := List.map_eq_singleton_iff.1 hat
  simp only [Prod.mk.injEq] at h2
  refine ⟨o, ?_, h2.1, h2.2⟩
  have := congrArg (·[0]?) ho
  simpa [List.getElem?_take, List.getElem?_drop] using this


theorem operandOK_of {varnames : List String} {i : Instr} (hc : P.hascompare i.opcode = false) (hd : P.dual i.opcode = false) :
    OperandOK P varnames i := by
  constructor
  · intro h; rw [hc] at h; simp at h
  · intro h; rw [hd] at h; simp at h

theorem not_dual_of_local (hP : P.WF) {op : Nat} (h : P.haslocal op = false) : P.dual op = false := by
  cases hd : P.dual op with
  | false => rfl
  | true => rw [hP.dual_local op hd] at h; simp at h

/-! ### C14 -/

/-- **C14.** If the conversion succeeds, every jump to a label goes, in the result (its target computed by
`get_jump_target` at its offset), to the operation that follows the label: in particular to the start of an
instruction, EXTENDED_ARG prefixes included and never to a CACHE entry. -/
theorem C14_jump_lands_on_label (hP : P.WF) (hcache : ∀ e ∈ b.elems, e.isCache = false)
    (hv : ∀ i, .instr i ∈ b.elems → ValidInstr P i) (h : toConcrete P key passes b = .ok c) (es1 es2 : List BElem) (i : Instr)
    (l : Nat) (he : b.elems = es1 ++ .instr i :: es2) (hl : i.arg = .label l) :
    ∃ t o, labelPos P l 0 b.elems = some t ∧ (programC P key c)[opNumber P es1]? = some o ∧ o.name = i.name ∧ o.operand = .jump t := by
  have hvi := hv i (by rw [he]; simp)
  have hj := label_hasJump hvi hl
  have hK := kinds_excl hP i.opcode
  have hloc : P.haslocal i.opcode = false := by
    cases hx : P.haslocal i.opcode with
    | false => rfl
    | true => rw [(hK.local_ hx).1] at hj; simp at hj
  have hd := not_dual_of_local hP hloc
  have hok : OperandOK P c.varnames i := by constructor <;> simp [hl]
  obtain ⟨o, h1, h2, h3⟩ := convert_at hP hcache hv h he hok hd
  obtain ⟨T, M, hF⟩ := toConcrete_Final hP hcache hv h
  have hel := hF.lay.elems
  rw [he] at hel
  obtain ⟨M1, M2', e1, e2, e3⟩ := List.map_eq_append_iff.1 hel
  obtain ⟨d, M2, e4, e5, e6⟩ := List.map_eq_cons_iff.1 e3
  subst e4
  obtain ⟨a, k, _, hk, _⟩ := hF.dest e1 e5 hl
  refine ⟨k, o, hk, h1, h2, ?_⟩
  rw [h3]; unfold operandB; rw [if_pos hj, hl]
  simp [hk, jumpOr]

/-! ### C15 -/

/-- The instructions after a number of passes of jump resolution. -/
def afterPasses (P : Platform) (labels jumps : List (Nat × Nat)) : Nat → List CInstr → Py (List CInstr)
  | 0, l => .ok l
  | n + 1, l => do
    let r ← jumpPass P labels jumps l
    afterPasses P labels jumps n r.1

/-- **C15 (monotone).** No pass of jump resolution makes an instruction smaller. -/
theorem C15_sizes_never_shrink (hP : P.WF) (hcache : ∀ e ∈ b.elems, e.isCache = false)
    (hv : ∀ i, .instr i ∈ b.elems → ValidInstr P i) (st : Conv) (h : concreteInstructions P key b = .ok st) (n : Nat)
    (l l' : List CInstr) (m : Bool) (hl : afterPasses P st.labels st.jumps n st.instrs = .ok l)
    (hl' : jumpPass P st.labels st.jumps l = .ok (l', m)) :
    l'.length = l.length ∧ ∀ (k : Nat) (i i' : CInstr), l[k]? = some i → l'[k]? = some i' → i.size ≤ i'.size := by
  obtain ⟨M, hM⟩ := start_of hP hcache hv h
  have key : ∀ (n : Nat) (l0 : List CInstr), Ready P st.labels st.jumps l0 → PreFix P st.labels st.jumps l0 →
      afterPasses P st.labels st.jumps n l0 = .ok l → Ready P st.labels st.jumps l ∧ PreFix P st.labels st.jumps l := by
    intro n
    induction n with
    | zero =>
      intro l0 h1 h2 h3
      simp only [afterPasses, Except.ok.injEq] at h3
      subst h3; exact ⟨h1, h2⟩
    | succ n ih =>
      intro l0 h1 h2 h3
      obtain ⟨⟨o, m⟩, h4, h5⟩ := except_bind_ok h3
      exact ih o (pass_ready h1 h4) (pass_prefix h1 h2 h4) h5
  obtain ⟨h1, h2⟩ := key n _ hM.ready hM.pre hl
  have := pass_smaller h1 h2 hl'
  exact ⟨this.1, fun k i i' hi hi' => (this.2 k i i' hi hi').1⟩

/-- **C15 (convergence).** With more than 3 times as many passes allowed as there are jumps, the conversion never gives
up: it does not raise RuntimeError (iteration of the `Bytecode` itself not raising). -/
theorem C15_converges (hP : P.WF) (hcache : ∀ e ∈ b.elems, e.isCache = false)
    (hv : ∀ i, .instr i ∈ b.elems → ValidInstr P i) (hi : (iterElems false b.elems).2 = .ok ())
    (hp : 3 * jumpCount b.elems < passes) : toConcrete P key passes b ≠ .error .runtimeError :=
  toConcrete_nrt hP hcache hv hi hp

/-- **C15 (independence).** More passes, or any number above 3 times the number of jumps, give the same result. -/
theorem C15_more_passes_same (hP : P.WF) (hcache : ∀ e ∈ b.elems, e.isCache = false)
    (hv : ∀ i, .instr i ∈ b.elems → ValidInstr P i) (h : toConcrete P key passes b = .ok c) (m : Nat)
    (hm : passes ≤ m ∨ 3 * jumpCount b.elems < m) : toConcrete P key m b = .ok c :=
  toConcrete_passes hP hcache hv h hm

/-- **C15 (least).** Any other layout of the same code whose jumps go to the same operations has every instruction at
least as large. -/
theorem C15_least_layout (hP : P.WF) (hcache : ∀ e ∈ b.elems, e.isCache = false)
    (hv : ∀ i, .instr i ∈ b.elems → ValidInstr P i) (h : toConcrete P key passes b = .ok c) (l N : List CInstr)
    (hl : c.elems = l.map .instr) (hN : Relayout P l N) :
    ∀ (k : Nat) (i i' : CInstr), l[k]? = some i → N[k]? = some i' → i.size ≤ i'.size :=
  toConcrete_least hP hcache hv h l N hl hN

/-! ### C16 -/

/-- **C16 (partial).** If the try markers delimit regions (`WellTried`: each TryBegin once, closed by its TryEnd, none
before the first instruction left empty), each operation of the result has the handler of the region it is in, or
none: the operation following the target label, with the stack depth and lasti flag of the TryBegin. Missing: an empty
region before the first instruction, for which the claim fails (`C16_statement_false`), and markers of one
TryBegin used twice. -/
theorem C16_handlers_partial (hP : P.WF) (hcache : ∀ e ∈ b.elems, e.isCache = false)
    (hv : ∀ i, .instr i ∈ b.elems → ValidInstr P i) (h : toConcrete P key passes b = .ok c) (hw : WellTried none [] false b.elems) :
    (programC P key c).map (fun o => o.handler) = (programB P key b).map (fun o => o.handler) := by
  obtain ⟨T, M, hF⟩ := toConcrete_Final hP hcache hv h
  exact hF.view_handler hw (toConcrete_depths h)

theorem regs_length (M : List Cell) (n : Nat) (cur : Option (Nat × TryB)) (seen : List Nat) (any : Bool)
    (hw : WellTried (cur.map (·.2.id)) seen any (M.map (·.e))) :
    (regs P n cur M).length = (M.map (·.e)).countP (fun e => match e with | .tryBegin _ => true | _ => false) + (if cur.isSome then 1 else 0) := by
  induction M generalizing n cur seen any with
  | nil => simp only [List.map_nil, WellTried] at hw; simp only [Option.map_eq_none_iff] at hw; subst hw; rfl
  | cons d M ih =>
    rw [List.map_cons, List.countP_cons]
    unfold regs
    cases hd : d.e with
    | tryBegin t =>
      simp only [List.map_cons, hd, WellTried, Option.map_eq_none_iff] at hw
      obtain ⟨rfl, _, hw⟩ := hw
      simp only
      rw [ih n (some (n, t)) _ _ hw]; simp
    | tryEnd id =>
      simp only [List.map_cons, hd, WellTried, Option.map_eq_some_iff] at hw
      obtain ⟨⟨⟨s, t⟩, rfl, _⟩, _, hw⟩ := hw
      simp only [List.length_cons]
      rw [ih n none _ _ hw]; simp
    | instr i =>
      simp only [List.map_cons, hd, WellTried] at hw
      simp only; rw [ih _ cur _ _ hw]; simp
    | label l =>
      simp only [List.map_cons, hd, WellTried] at hw
      simp only; rw [ih _ cur _ _ hw]; simp
    | setLineno l =>
      simp only [List.map_cons, hd, WellTried] at hw
      simp only; rw [ih _ cur _ _ hw]; simp

theorem mapM_length {α β : Type} (f : α → Py β) : ∀ (l : List α) (r : List β), l.mapM f = .ok r → r.length = l.length := by
  intro l
  induction l with
  | nil => intro r h; simp only [List.mapM_nil, pure, Except.pure, Except.ok.injEq] at h; subst h; rfl
  | cons x l ih =>
    intro r h
    rw [List.mapM_cons] at h
    obtain ⟨y, _, h⟩ := except_bind_ok h
    obtain ⟨ys, hys, h⟩ := except_bind_ok h
    simp only [pure, Except.pure, Except.ok.injEq] at h
    subst h
    simp [ih _ hys]

/-- **C16 (count).** There is one exception table entry for each TryBegin. -/
theorem C16_one_entry_each (hP : P.WF) (hcache : ∀ e ∈ b.elems, e.isCache = false)
    (hv : ∀ i, .instr i ∈ b.elems → ValidInstr P i) (h : toConcrete P key passes b = .ok c) (hw : WellTried none [] false b.elems) :
    c.excTable.length = b.elems.countP (fun e => match e with | .tryBegin _ => true | _ => false) := by
  obtain ⟨T, M, hF⟩ := toConcrete_Final hP hcache hv h
  rw [mapM_length _ _ _ hF.table]
  have hw' := hw
  rw [← hF.lay.elems] at hw'
  rw [(blocks_regs M 0 [] false [] (by simp)).1 hw', List.nil_append, regs_length M 0 none [] false hw', hF.lay.elems]
  rfl

/-! ### C17 -/

/-- **C17 (constants).** -/
theorem C17_const (hP : P.WF) (hcache : ∀ e ∈ b.elems, e.isCache = false) (hv : ∀ i, .instr i ∈ b.elems → ValidInstr P i)
    (h : toConcrete P key passes b = .ok c) (es1 es2 : List BElem) (i : Instr) (he : b.elems = es1 ++ .instr i :: es2)
    (hk : P.hasconst i.opcode = true) :
    ∃ o, (programC P key c)[opNumber P es1]? = some o ∧ o.name = i.name ∧ o.operand = .const (key i.arg) := by
  have hK := kinds_excl hP i.opcode
  have := hK.const hk
  have hl : P.haslocal i.opcode = false := by grind
  obtain ⟨o, h1, h2, h3⟩ := convert_at hP hcache hv h he (operandOK_of (by grind) (not_dual_of_local hP hl)) (not_dual_of_local hP hl)
  exact ⟨o, h1, h2, by rw [h3]; unfold operandB; rw [if_neg (by grind), if_pos hk]⟩

/-- **C17 (names).** -/
theorem C17_name (hP : P.WF) (hcache : ∀ e ∈ b.elems, e.isCache = false) (hv : ∀ i, .instr i ∈ b.elems → ValidInstr P i)
    (h : toConcrete P key passes b = .ok c) (es1 es2 : List BElem) (i : Instr) (he : b.elems = es1 ++ .instr i :: es2)
    (hk : P.hasname i.opcode = true) (n : String) (ha : i.arg = .str n) :
    ∃ o, (programC P key c)[opNumber P es1]? = some o ∧ o.name = i.name ∧ o.operand = .name n := by
  have hK := kinds_excl hP i.opcode
  have := hK.name hk
  have hl : P.haslocal i.opcode = false := by grind
  obtain ⟨o, h1, h2, h3⟩ := convert_at hP hcache hv h he (operandOK_of (by grind) (not_dual_of_local hP hl)) (not_dual_of_local hP hl)
  exact ⟨o, h1, h2, by rw [h3]; unfold operandB; rw [if_neg (by grind), if_neg (by grind), if_neg (by simp; grind), if_pos hk, ha]⟩

/-- **C17 (locals).** -/
theorem C17_local (hP : P.WF) (hcache : ∀ e ∈ b.elems, e.isCache = false) (hv : ∀ i, .instr i ∈ b.elems → ValidInstr P i)
    (h : toConcrete P key passes b = .ok c) (es1 es2 : List BElem) (i : Instr) (he : b.elems = es1 ++ .instr i :: es2)
    (hk : P.haslocal i.opcode = true) (n : String) (ha : i.arg = .str n) :
    ∃ o, (programC P key c)[opNumber P es1]? = some o ∧ o.name = i.name ∧ o.operand = .slot (.named n) := by
  have hK := kinds_excl hP i.opcode
  have := hK.local_ hk
  have hd : P.dual i.opcode = false := by
    cases hd : P.dual i.opcode with
    | false => rfl
    | true =>
      obtain ⟨_, _, hx, _⟩ := (hv i (by rw [he]; simp)).arg_ok.dual hd
      rw [ha] at hx; simp at hx
  obtain ⟨o, h1, h2, h3⟩ := convert_at hP hcache hv h he (operandOK_of (by grind) hd) hd
  exact ⟨o, h1, h2, by rw [h3]; unfold operandB; rw [if_neg (by grind), if_neg (by grind), if_pos (by simp [hk]), ha]⟩

/-- **C17 (tables).** Attributes are kept; names have no duplicates, variables none but those of the argument names,
constants none by key; the argument names come first in `varnames` and the docstring, if set, is constant 0. -/
theorem C17_tables (hP : P.WF) (hcache : ∀ e ∈ b.elems, e.isCache = false) (hv : ∀ i, .instr i ∈ b.elems → ValidInstr P i)
    (h : toConcrete P key passes b = .ok c) :
    c.attrs = b.attrs ∧ c.names.Nodup ∧ (b.argnames.Nodup → c.varnames.Nodup) ∧ (c.consts.map key).Nodup ∧
      b.argnames <+: c.varnames ∧ (∀ d, b.attrs.docstring = some d → c.consts[0]? = some d) := by
  obtain ⟨vs, loc, st, hvs, hst, e1, e2, e3⟩ := toConcrete_conv h
  obtain ⟨T, M, hF⟩ := toConcrete_Final hP hcache hv h
  obtain ⟨hl1, hl2, hl3⟩ := hF.tabs
  refine ⟨hF.attrs, ?_, ?_, ?_, by rw [hF.varnames]; exact hl3, ?_⟩
  · rw [e2]
    exact conv_inv (fun T => T.names.Nodup) (fun _ _ h => h) (fun _ _ h => addTo_nodup h) (fun _ _ h => h) _ _ _ _ hst (by simp [Conv.init])
  · intro ha
    rw [e3]
    exact conv_inv (fun T => T.varnames.Nodup) (fun _ _ h => h) (fun _ _ h => h) (fun _ _ h => addTo_nodup h) _ _ _ _ hst
      (by simpa [Conv.init] using prepass_nodup hvs ha)
  · rw [e1]
    refine conv_inv (fun T => (T.consts.map key).Nodup) (fun _ _ h => addConst_nodup key h) (fun _ _ h => h) (fun _ _ h => h) _ _ _ _ hst ?_
    simp only [Conv.init]
    cases b.attrs.docstring <;> simp
  · intro d hd
    rw [hF.consts]
    obtain ⟨t, ht⟩ := hl1
    rw [← ht]; simp [Conv.init, hd]

/-! ### C18 -/

/-- **C18 (to concrete).** An instruction on CellVar(n) designates the slot of the local or cell variable n, one on
FreeVar(n) the slot of the free variable n. -/
theorem C18_cell_free_slot (hP : P.WF) (hcache : ∀ e ∈ b.elems, e.isCache = false) (hv : ∀ i, .instr i ∈ b.elems → ValidInstr P i)
    (h : toConcrete P key passes b = .ok c) (es1 es2 : List BElem) (i : Instr) (he : b.elems = es1 ++ .instr i :: es2)
    (hk : (P.haslocal i.opcode || P.hasfree i.opcode) = true) (n : String) :
    (i.arg = .cell n → ∃ o, (programC P key c)[opNumber P es1]? = some o ∧ o.name = i.name ∧ o.operand = .slot (.named n)) ∧
    (i.arg = .free n → ∃ o, (programC P key c)[opNumber P es1]? = some o ∧ o.name = i.name ∧ o.operand = .slot (.free n)) := by
  have hK := kinds_excl hP i.opcode
  have hb : P.hasJump i.opcode = false ∧ P.hasconst i.opcode = false ∧ P.hascompare i.opcode = false := by
    rcases Bool.or_eq_true _ _ ▸ hk with hk | hk
    · have := hK.local_ hk; grind
    · have := hK.free hk; grind
  have hd : ∀ x, i.arg = x → (∀ y, x ≠ .tuple y) → P.dual i.opcode = false := by
    intro x hx hy
    cases hd : P.dual i.opcode with
    | false => rfl
    | true =>
      obtain ⟨_, _, hz, _⟩ := (hv i (by rw [he]; simp)).arg_ok.dual hd
      exact absurd (hx ▸ hz) (hy _)
  constructor <;> intro ha
  · have hd := hd _ ha (by simp)
    obtain ⟨o, h1, h2, h3⟩ := convert_at hP hcache hv h he (operandOK_of hb.2.2 hd) hd
    exact ⟨o, h1, h2, by rw [h3]; unfold operandB; rw [if_neg (by grind), if_neg (by grind), if_pos hk, ha]⟩
  · have hd := hd _ ha (by simp)
    obtain ⟨o, h1, h2, h3⟩ := convert_at hP hcache hv h he (operandOK_of hb.2.2 hd) hd
    exact ⟨o, h1, h2, by rw [h3]; unfold operandB; rw [if_neg (by grind), if_neg (by grind), if_pos hk, ha]⟩

/-! ### C19 -/

/-- **C19 (automatic caches).** Without manual CACHE, every instruction of the result is followed by exactly the CACHE
entries its opcode requires and CACHE occurs nowhere else. -/
theorem C19_caches_emitted_partial (hP : P.WF) (hcache : ∀ e ∈ b.elems, e.isCache = false)
    (hv : ∀ i, .instr i ∈ b.elems → ValidInstr P i) (h : toConcrete P key passes b = .ok c) : CachesOK P 0 (instrsOf c.elems) := by
  obtain ⟨T, M, hF⟩ := toConcrete_Final hP hcache hv h
  exact hF.caches

/-- **C19 (manual caches).** The conversion succeeds only if every manual CACHE immediately follows an instruction whose
opcode requires CACHE entries. -/
theorem C19_manual_cache_follows_owner (hP : P.WF) (h11 : P.py311 = true) (h : toConcrete P key passes b = .ok c)
    (es1 es2 : List BElem) (i : Instr) (he : b.elems = es1 ++ .instr i :: es2) (hi : i.name = "CACHE") :
    ∃ es0 j, es1 = es0 ++ [.instr j] ∧ ∃ op, P.opmap j.name = some op ∧ 0 < P.cacheEntries op := by
  obtain ⟨vs, loc, st, _, hst, _⟩ := toConcrete_conv h
  rw [he] at hst
  exact conv_manual hP h11 _ _ _ (by simp [BElem.isCache, hi]) hst rfl

/-! ### C20 -/

/-- **C20 (comparisons, to concrete).** -/
theorem C20_compare (hP : P.WF) (hcache : ∀ e ∈ b.elems, e.isCache = false) (hv : ∀ i, .instr i ∈ b.elems → ValidInstr P i)
    (h : toConcrete P key passes b = .ok c) (es1 es2 : List BElem) (i : Instr) (he : b.elems = es1 ++ .instr i :: es2)
    (hk : P.hascompare i.opcode = true) (v : Nat) (ha : i.arg = .compare v) (hm : CompareMember P v) :
    ∃ o, (programC P key c)[opNumber P es1]? = some o ∧ o.name = i.name ∧ o.operand = .compare v := by
  have hK := kinds_excl hP i.opcode
  have := hK.compare hk
  have hl : P.haslocal i.opcode = false := by grind
  have hd := not_dual_of_local hP hl
  obtain ⟨o, h1, h2, h3⟩ := convert_at hP hcache hv h he (by
    constructor
    · intro _ w hw; rw [ha] at hw; cases hw; exact hm
    · intro hx; rw [hd] at hx; simp at hx) hd
  refine ⟨o, h1, h2, ?_⟩
  rw [h3]; unfold operandB; rw [if_neg (by grind), if_neg (by grind), if_neg (by simp; grind), if_neg (by grind), if_pos hk, ha]

/-- Every comparison of the version can be encoded. -/
theorem C20_compare_encodes (v : Nat) (hm : CompareMember P v) : ∃ a, encodeCompare P v = .ok a ∧ compareOf P a = v := by
  have h12 : P.py313 = true → P.py312 = true := by simp [Platform.py313, Platform.py312]; omega
  have h9 : P.py312 = true → P.py39 = true := by simp [Platform.py39, Platform.py312]; omega
  have key : ∀ v, v ≤ 5 ∨ (16 ≤ v ∧ v ≤ 21) → ∃ m, compareMask v = some m ∧ m < 16 := by
    intro v hv
    have : v = 0 ∨ v = 1 ∨ v = 2 ∨ v = 3 ∨ v = 4 ∨ v = 5 ∨ v = 16 ∨ v = 17 ∨ v = 18 ∨ v = 19 ∨ v = 20 ∨ v = 21 := by omega
    rcases this with rfl | rfl | rfl | rfl | rfl | rfl | rfl | rfl | rfl | rfl | rfl | rfl <;> exact ⟨_, rfl, by decide⟩
  unfold encodeCompare compareOf
  cases h313 : P.py313 with
  | true =>
    have hv : v ≤ 5 ∨ (16 ≤ v ∧ v ≤ 21) := by
      rcases hm with h | h | h
      · exact .inl h
      · rw [h9 (h12 h313)] at h; simp at h
      · exact .inr h.2
    have : v = 0 ∨ v = 1 ∨ v = 2 ∨ v = 3 ∨ v = 4 ∨ v = 5 ∨ v = 16 ∨ v = 17 ∨ v = 18 ∨ v = 19 ∨ v = 20 ∨ v = 21 := by omega
    rcases this with rfl | rfl | rfl | rfl | rfl | rfl | rfl | rfl | rfl | rfl | rfl | rfl <;> exact ⟨_, rfl, rfl⟩
  | false =>
    cases h312 : P.py312 with
    | true =>
      have hv : v ≤ 5 := by
        rcases hm with h | h | h
        · exact h
        · rw [h9 h312] at h; simp at h
        · rw [h313] at h; simp at h
      obtain ⟨m, h1, h2⟩ := key v (.inl hv)
      simp only [Bool.false_eq_true, if_false, if_true, h1]
      refine ⟨_, rfl, ?_⟩
      rw [Nat.shiftLeft_eq]; omega
    | false => exact ⟨v, rfl, by simp⟩

/-- **C20 (flagged names and intrinsics, to concrete).** -/
theorem C20_flags_intrinsics (hP : P.WF) (hcache : ∀ e ∈ b.elems, e.isCache = false) (hv : ∀ i, .instr i ∈ b.elems → ValidInstr P i)
    (h : toConcrete P key passes b = .ok c) (es1 es2 : List BElem) (i : Instr) (he : b.elems = es1 ++ .instr i :: es2) :
    (P.bitflag i.opcode = true → ∀ f n, i.arg = .tuple [.bool f, .str n] →
      ∃ o, (programC P key c)[opNumber P es1]? = some o ∧ o.name = i.name ∧ o.operand = .flagName f n) ∧
    (P.bitflag2 i.opcode = true → ∀ f g n, i.arg = .tuple [.bool f, .bool g, .str n] →
      ∃ o, (programC P key c)[opNumber P es1]? = some o ∧ o.name = i.name ∧ o.operand = .flag2Name f g n) ∧
    (P.intrinsic1 i.opcode = true → ∀ v, i.arg = .intr1 v →
      ∃ o, (programC P key c)[opNumber P es1]? = some o ∧ o.name = i.name ∧ o.operand = .intrinsic v) ∧
    (P.intrinsic2 i.opcode = true → ∀ v, i.arg = .intr2 v →
      ∃ o, (programC P key c)[opNumber P es1]? = some o ∧ o.name = i.name ∧ o.operand = .intrinsic v) := by
  have hK := kinds_excl hP i.opcode
  refine ⟨fun hk f n ha => ?_, fun hk f g n ha => ?_, fun hk v ha => ?_, fun hk v ha => ?_⟩
  · have hn := (hP.bitflag_name _ hk).1
    have := hK.name hn
    have hl : P.haslocal i.opcode = false := by grind
    obtain ⟨o, h1, h2, h3⟩ := convert_at hP hcache hv h he (operandOK_of (by grind) (not_dual_of_local hP hl)) (not_dual_of_local hP hl)
    exact ⟨o, h1, h2, by rw [h3]; unfold operandB; rw [if_neg (by grind), if_neg (by grind), if_neg (by simp; grind), if_pos hn, ha]⟩
  · have hn := hP.bitflag2_name _ hk
    have := hK.name hn
    have hl : P.haslocal i.opcode = false := by grind
    obtain ⟨o, h1, h2, h3⟩ := convert_at hP hcache hv h he (operandOK_of (by grind) (not_dual_of_local hP hl)) (not_dual_of_local hP hl)
    exact ⟨o, h1, h2, by rw [h3]; unfold operandB; rw [if_neg (by grind), if_neg (by grind), if_neg (by simp; grind), if_pos hn, ha]⟩
  · have hn := (hP.intr_plain _ (by rw [hk]; rfl)).2
    simp only [Bool.or_eq_false_iff] at hn
    have hl : P.haslocal i.opcode = false := by grind
    obtain ⟨o, h1, h2, h3⟩ := convert_at hP hcache hv h he (operandOK_of (by grind) (not_dual_of_local hP hl)) (not_dual_of_local hP hl)
    exact ⟨o, h1, h2, by rw [h3]; unfold operandB; rw [if_neg (by grind), if_neg (by grind), if_neg (by simp; grind), if_neg (by grind), if_neg (by grind), if_pos (by simp [hk]), ha]⟩
  · have hn := (hP.intr_plain _ (by rw [hk]; simp)).2
    simp only [Bool.or_eq_false_iff] at hn
    have hl : P.haslocal i.opcode = false := by grind
    obtain ⟨o, h1, h2, h3⟩ := convert_at hP hcache hv h he (operandOK_of (by grind) (not_dual_of_local hP hl)) (not_dual_of_local hP hl)
    exact ⟨o, h1, h2, by rw [h3]; unfold operandB; rw [if_neg (by grind), if_neg (by grind), if_neg (by simp; grind), if_neg (by grind), if_neg (by grind), if_pos (by simp [hk]), ha]⟩

/-! ### C21 -/

/-- **C21 (partial).** A two-variable opcode on (a, b) gives the two operations, in order, on a and on b — as one
instruction or two — unless b is the 17th variable and a one of the first 17, for which the claim fails
(`C21_statement_false`). -/
theorem C21_two_variables_partial (hP : P.WF) (hcache : ∀ e ∈ b.elems, e.isCache = false) (hv : ∀ i, .instr i ∈ b.elems → ValidInstr P i)
    (h : toConcrete P key passes b = .ok c) (es1 es2 : List BElem) (i : Instr) (he : b.elems = es1 ++ .instr i :: es2)
    (n1 n2 x y : String) (hd : P.dualSingles i.opcode = some (n1, n2)) (ha : i.arg = .tuple [.str x, .str y])
    (h16 : ¬ (c.varnames.idxOf y = 16 ∧ c.varnames.idxOf x ≤ 16)) :
    ∃ o1 o2, (programC P key c)[opNumber P es1]? = some o1 ∧ (programC P key c)[opNumber P es1 + 1]? = some o2 ∧
      o1.name = n1 ∧ o1.operand = .slot (.named x) ∧ o2.name = n2 ∧ o2.operand = .slot (.named y) := by
  obtain ⟨T, M, hF⟩ := toConcrete_Final hP hcache hv h
  have hdual : P.dual i.opcode = true := by simp [Platform.dual, hd]
  have hK := kinds_excl hP i.opcode
  have := hK.local_ (hP.dual_local _ hdual)
  have hok : OperandOK P c.varnames i := by
    constructor
    · intro hx; grind
    · intro _ a b hab; rw [ha] at hab; cases hab; exact h16
  have hat := hF.at he hok
  have hn : i.name ≠ "CACHE" := by
    have := hcache (.instr i) (by rw [he]; simp)
    simpa [BElem.isCache] using this
  have hcnt : opCount P i.name i.opcode = 2 := by simp [opCount, hn, hdual]
  have hnum : (es1.map (opCountE P)).sum = opNumber P es1 := rfl
  rw [hcnt, hnum, expandB, if_neg hn, hd, ha] at hat
  simp only [slotOf] at hat
  obtain ⟨o1, r1, e1, e2, e3⟩ := List.map_eq_cons_iff.1 hat
  obtain ⟨o2, e4, e5⟩ := List.map_eq_singleton_iff.1 e3
  subst e4
  simp only [Prod.mk.injEq] at e2 e5
  have g0 := congrArg (·[0]?) e1
  have g1 := congrArg (·[1]?) e1
  exact ⟨o1, o2, by simpa [List.getElem?_take, List.getElem?_drop] using g0, by simpa [List.getElem?_take, List.getElem?_drop] using g1,
    e2.1, e2.2, e5.1, e5.2⟩

/-! ### C45 -/

/-- **C45.** The conversion keeps the program: the same operations in the same order, with the same operands, jump
targets, locations and handlers (operands and try markers as in `OperandOK`, `WellTried`). -/
theorem C45_program_preserved (hP : P.WF) (hcache : ∀ e ∈ b.elems, e.isCache = false) (hv : ∀ i, .instr i ∈ b.elems → ValidInstr P i)
    (h : toConcrete P key passes b = .ok c) (hok : ∀ i, .instr i ∈ b.elems → OperandOK P c.varnames i)
    (hw : WellTried none [] false b.elems) : programC P key c = programB P key b := by
  obtain ⟨T, M, hF⟩ := toConcrete_Final hP hcache hv h
  exact hF.program hok hw (toConcrete_depths h)

/-- **C45 (locations).** The locations are kept, whatever the operands and try markers. -/
theorem C45_locations (hP : P.WF) (hcache : ∀ e ∈ b.elems, e.isCache = false) (hv : ∀ i, .instr i ∈ b.elems → ValidInstr P i)
    (h : toConcrete P key passes b = .ok c) :
    (programC P key c).map (fun o => o.loc) = (programB P key b).map (fun o => o.loc) := by
  obtain ⟨T, M, hF⟩ := toConcrete_Final hP hcache hv h
  exact hF.view_loc
end
end Verif
