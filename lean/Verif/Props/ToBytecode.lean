import Verif.Proofs.DecodeHandlers
import Verif.Proofs.RoundTrip
import Verif.Props.Convert
/-
C22, C23, C18-C20 (reading back): `ConcreteBytecode.to_bytecode`, and the round trip through concrete bytecode.
-/
namespace Verif
open Spec

section
variable {κ : Type} [DecidableEq κ] {P : Platform} {key : Arg → κ} {b : Bytecode} {c : Concrete} {es : List CElem} {prune conserve : Bool}

theorem toBytecode_ok (h : toBytecode P prune conserve c = .ok b) :
    ∃ es d, removeExtendedArgs P 0 none c.elems = .ok es ∧
      decodeLoop P c prune conserve (jumpTargets P 0 es ++ c.excTable.map (·.target)) 0 [] (normalizeLineno c.attrs.firstLineno es) = .ok d ∧
      (∀ t ∈ d.jumps, ∃ n ∈ d.labels, t = (n : Int)) ∧
      (∀ k ∈ d.tbs, ∃ n ∈ d.labels, (c.excTable[k]?.map (·.target)).getD (-1) = (n : Int)) ∧
      b = { attrs := { c.attrs with docstring := setDocstring c.attrs.docstring c.consts }, argnames := c.varnames.take (nargs c.attrs), elems := d.elems } := by
  unfold toBytecode at h
  obtain ⟨es, h1, h⟩ := except_bind_ok h
  simp only at h
  obtain ⟨_, _, h⟩ := except_bind_ok h
  obtain ⟨d, h2, h⟩ := except_bind_ok h
  refine ⟨es, d, h1, h2, ?_⟩
  split at h
  · simp [bind, Except.bind, throw, throwThe, MonadExceptOf.throw] at h
  · rename_i hj
    split at h
    · simp [bind, Except.bind, throw, throwThe, MonadExceptOf.throw] at h
    · rename_i ht
      simp only [pure, Except.pure, Except.ok.injEq] at h
      simp only [Bool.not_eq_true', Bool.not_eq_false, List.all_eq_true, decide_eq_true_eq, List.mem_map] at hj ht
      refine ⟨fun t h' => ?_, fun k h' => ?_, h.symm⟩
      · obtain ⟨n, h1, h2⟩ := hj t h'; exact ⟨n, h1, h2.symm⟩
      · obtain ⟨n, h1, h2⟩ := ht k h'; exact ⟨n, h1, h2.symm⟩

/-- Folding EXTENDED_ARG keeps instructions valid. -/
theorem removeExtendedArgs_valid (P : Platform) (l : List CElem) (hl : ∀ ci, .instr ci ∈ l → ValidCInstr P ci) (nb : Nat) (ext : Option Nat) (es : List CElem)
    (h : removeExtendedArgs P nb ext l = .ok es) : ∀ ci, .instr ci ∈ es → ValidCInstr P ci := by
  induction l generalizing nb ext es with
  | nil =>
    unfold removeExtendedArgs at h
    split at h <;> simp only [Except.ok.injEq, reduceCtorEq] at h
    subst h; simp
  | cons e l ih =>
    have ih := ih (fun ci hci => hl ci (by simp [hci]))
    cases e with
    | setLineno n =>
      rw [removeExtendedArgs] at h
      obtain ⟨r, h1, h⟩ := except_bind_ok h
      simp only [pure, Except.pure, Except.ok.injEq] at h
      subst h
      intro ci hci
      simp only [List.mem_cons, reduceCtorEq, false_or] at hci
      exact ih _ _ _ h1 ci hci
    | instr i =>
      unfold removeExtendedArgs at h
      have hi := hl i (by simp)
      split at h
      · split at h
        · simp at h
        · split at h <;> exact ih _ _ _ h
      · split at h
        · obtain ⟨a, _, h⟩ := except_bind_ok h
          obtain ⟨i', h1, h⟩ := except_bind_ok h
          obtain ⟨r, h2, h⟩ := except_bind_ok h
          simp only [pure, Except.pure, Except.ok.injEq] at h
          subst h
          intro ci hci
          simp only [List.mem_cons, CElem.instr.injEq] at hci
          rcases hci with rfl | hci
          · exact (C09_constructed_valid P _ _ _ _ (fun l hl => hi.loc_ok l hl) _ _ h1).1
          · exact ih _ _ _ h2 ci hci
        · obtain ⟨r, h2, h⟩ := except_bind_ok h
          simp only [pure, Except.pure, Except.ok.injEq] at h
          subst h
          intro ci hci
          simp only [List.mem_cons, CElem.instr.injEq] at hci
          rcases hci with rfl | hci
          · exact hi
          · exact ih _ _ _ h2 ci hci

theorem expandC_elems (c : Concrete) (es : List CElem) (dest : Option Nat) (ci : CInstr) :
    expandC P key { c with elems := es } dest ci = expandC P key c dest ci := rfl

/-! ### C22 -/

/-- **C22 (partial).** If `to_bytecode` succeeds, the operations of the result are those of the concrete code (`es`: the
concrete code with its EXTENDED_ARG folded) in the same order, with the operand each integer argument denotes in the
tables, the same jump target operations and the same locations. Assumed: the concrete code denotes a program (no jump
into a CACHE entry); and on 3.13 no free variable is also a local one, for which the claim fails
(`C22_statement_false`). -/
theorem C22_operations_partial (hP : P.WF) (hv : ∀ ci, .instr ci ∈ c.elems → ValidCInstr P ci)
    (h : toBytecode P prune conserve c = .ok b) (hes : removeExtendedArgs P 0 none c.elems = .ok es)
    (hok : ∀ o ∈ programC P key { c with elems := es }, o.operand ≠ .invalid)
    (hf : P.py313 = true → ∀ n ∈ c.attrs.freevars, n ∉ c.varnames) :
    (programB P key b).map (fun o => (o.name, o.operand, o.loc)) =
      (programC P key { c with elems := es }).map (fun o => (o.name, o.operand, o.loc)) := by
  obtain ⟨es', d, h1, h2, h3, h4, h5⟩ := toBytecode_ok h
  rw [hes] at h1; cases h1
  have hve := removeExtendedArgs_valid P _ hv _ _ _ hes
  unfold programB programC
  rw [h5]
  refine loop_ops hP { c with elems := es } (fun dest ci => expandC_elems c es dest ci) es (fun ci _ _ => slotsRead_apart hf ci) hve _ _ _ d h2 _ ?_ hok _ _
  intro t ht k hk
  obtain ⟨n, hn, rfl⟩ := h3 t ht
  obtain ⟨_, m, g1, g2⟩ := (loop_labels hP es hve _ _ _ d h2 0 n).1 hn
  rw [g2 k hk]
  simpa using g1

/-- **C22 (handlers).** With `conserve_exception_block_stackdepth=True` and a table as CPython writes them (`TableOK`),
the whole program is kept: also the handler of each operation. -/
theorem C22_program_partial (hP : P.WF) (hv : ∀ ci, .instr ci ∈ c.elems → ValidCInstr P ci)
    (h : toBytecode P prune true c = .ok b) (hes : removeExtendedArgs P 0 none c.elems = .ok es)
    (hok : ∀ o ∈ programC P key { c with elems := es }, o.operand ≠ .invalid)
    (hf : P.py313 = true → ∀ n ∈ c.attrs.freevars, n ∉ c.varnames) (hT : TableOK P { c with elems := es }) :
    programB P key b = programC P key { c with elems := es } := by
  have hops := C22_operations_partial hP hv h hes hok hf
  obtain ⟨es', d, h1, h2, h3, h4, h5⟩ := toBytecode_ok h
  rw [hes] at h1; cases h1
  have hve := removeExtendedArgs_valid P _ hv _ _ _ hes
  have hh : (programB P key b).map (fun o => o.handler) = (programC P key { c with elems := es }).map (fun o => o.handler) := by
    unfold programB programC
    rw [h5]
    refine loop_handlers (c := c) hP { c with elems := es } rfl hT.nonempty hT.disjoint hT.target_ es hve _ _ _ d h2 ?_ ?_ _ ?_ _ _ ?_
    · intro e he; right; exact hT.start_ e he
    · intro e he; right; exact hT.stop_ e he
    · intro k hk e he m hm
      obtain ⟨n, hn, hkn⟩ := h4 k hk
      rw [he] at hkn
      simp only [Option.map_some, Option.getD_some] at hkn
      obtain ⟨_, m', g1, g2⟩ := (loop_labels hP es hve _ _ _ d h2 0 n).1 hn
      rw [hkn] at hm ⊢
      rw [g2 m hm]
      simpa using g1
    · refine ⟨?_, by simp, ?_⟩
      · intro k e he
        obtain ⟨j, _, hj⟩ := hT.start_ e (List.mem_of_getElem? he)
        simp; omega
      · intro k e he h1
        obtain ⟨j, _, hj⟩ := hT.start_ e (List.mem_of_getElem? he)
        omega
  apply ext_of_maps (fun o : Op κ => (o.name, o.operand, o.loc)) (fun _ => ()) (fun o => o.handler) _ _ _ hops
    (by have := congrArg List.length hops; simp only [List.length_map] at this; simp only [List.map_const', this]) hh
  rintro ⟨a, b, c, d⟩ ⟨a', b', c', d'⟩ h1 _ h3
  simp_all

theorem loop_instrs (hP : P.WF) {targets : List Int} (l : List (Nat × CInstr)) (hv : ∀ p ∈ l, ValidCInstr P p.2) (off : Nat) (tbs : List Nat) (d : Dec)
    (h : decodeLoop P c prune conserve targets off tbs l = .ok d) (i : Instr) (hi : .instr i ∈ d.elems) :
    ValidInstr P i ∧ ∃ p ∈ l, p.2.name = i.name ∧ p.2.opcode = i.opcode ∧ (prune = true → i.name ≠ "CACHE") := by
  induction l generalizing off tbs d with
  | nil =>
    simp only [decodeLoop, Except.ok.injEq] at h
    subst h; simp at hi
  | cons p l ih =>
    obtain ⟨main, d', h1, h2, h3, _⟩ := loop_cons h (valid_size (hv p (by simp)))
    rw [h3] at hi
    simp only [List.mem_append] at hi
    rcases hi with hi | hi | hi | hi | hi
    · split at hi <;> simp at hi
    · have := open_marker _ _ _ hi; simp [isMarker] at this
    · rcases decodeInstr_ok hP (hv p (by simp)) h1 with ⟨_, _, rfl⟩ | ⟨j, rfl, hvj, hn, ho, _⟩
      · simp at hi
      · simp only [List.mem_singleton, BElem.instr.injEq] at hi
        subst hi
        refine ⟨hvj, p, by simp, hn.symm, ho.symm, ?_⟩
        intro hp hc
        unfold decodeInstr at h1
        simp only [hp, Bool.true_and] at h1
        rw [if_pos (by rw [← hn, hc]; rfl)] at h1
        obtain ⟨_, _, h1⟩ := except_bind_ok h1
        simp [pure, Except.pure] at h1
    · have := close_marker _ _ _ hi; simp [isMarker] at this
    · obtain ⟨g1, q, g2, g3⟩ := ih (fun q hq => hv q (by simp [hq])) _ _ d' h2 hi
      exact ⟨g1, q, by simp [g2], g3⟩

/-- **C22 (validity), C19 (pruning).** Every instruction of the result is valid, there is no SetLineno, and with
`prune_caches=True` no CACHE. -/
theorem C19_pruned (hP : P.WF) (hv : ∀ ci, .instr ci ∈ c.elems → ValidCInstr P ci) (h : toBytecode P prune conserve c = .ok b) :
    ∀ i, .instr i ∈ b.elems → ValidInstr P i ∧ i.name ≠ "EXTENDED_ARG" ∧ (prune = true → i.name ≠ "CACHE") := by
  intro i hi
  obtain ⟨es', d, h1, h2, h3, h4, h5⟩ := toBytecode_ok h
  have hve := removeExtendedArgs_valid P _ hv _ _ _ h1
  rw [h5] at hi
  obtain ⟨g1, p, _, _, _, g2⟩ := loop_instrs hP _ (fun p hp => hve _ (normalize_mem _ _ p hp)) _ _ d h2 i hi
  exact ⟨g1, g1.not_ext, g2⟩

/-- **C22 (attributes).** Attributes are kept; the argument names are the first variables; the docstring becomes the
first constant when this is a string or None. -/
theorem C22_attributes (h : toBytecode P prune conserve c = .ok b) :
    { b.attrs with docstring := c.attrs.docstring } = c.attrs ∧ b.argnames = c.varnames.take (nargs c.attrs) ∧
      (∀ s, c.consts[0]? = some (.str s) → b.attrs.docstring = some (.str s)) ∧
      (c.consts = [] → b.attrs.docstring = c.attrs.docstring) := by
  obtain ⟨es', d, h1, h2, h3, h4, rfl⟩ := toBytecode_ok h
  refine ⟨rfl, rfl, ?_, ?_⟩
  · intro s hs
    cases hc : c.consts with
    | nil => rw [hc] at hs; simp at hs
    | cons x l => rw [hc] at hs; simp at hs; subst hs; simp [setDocstring]
  · intro hc; simp [setDocstring, hc]

/-! ### C23 -/

theorem convert_remove (hP : P.WF) {passes : Nat} (hcache : ∀ e ∈ b.elems, e.isCache = false) (hv : ∀ i, .instr i ∈ b.elems → ValidInstr P i)
    (h : toConcrete P key passes b = .ok c) :
    removeExtendedArgs P 0 none c.elems = .ok c.elems ∧ ∀ ci, .instr ci ∈ c.elems → ValidCInstr P ci := by
  obtain ⟨T, M, hF⟩ := toConcrete_Final hP hcache hv h
  have := hF.instrs_valid
  rw [hF.elems]
  refine ⟨remove_noext P _ (fun ci hci => (this ci hci).2) 0, ?_⟩
  intro ci hci
  obtain ⟨x, h1, h2⟩ := List.mem_map.1 hci
  cases h2
  exact (this _ h1).1

/-- **C23 (operations).** `to_concrete_bytecode` then `to_bytecode` keeps the operations, their order, operands, jump
targets and locations. Excluded: the operands of C21 (`OperandOK`) and, on 3.13, a free variable that is also a
local one (`C22_statement_false`). -/
theorem C23_operations_partial {b' : Bytecode} {passes : Nat} (hP : P.WF) (hcache : ∀ e ∈ b.elems, e.isCache = false) (hv : ∀ i, .instr i ∈ b.elems → ValidInstr P i)
    (h : toConcrete P key passes b = .ok c) (h' : toBytecode P prune conserve c = .ok b')
    (hok : ∀ i, .instr i ∈ b.elems → OperandOK P c.varnames i) (hf : P.py313 = true → ∀ n ∈ b.attrs.freevars, n ∉ c.varnames) :
    (programB P key b').map (fun o => (o.name, o.operand, o.loc)) = (programB P key b).map (fun o => (o.name, o.operand, o.loc)) := by
  obtain ⟨hr, hvc⟩ := convert_remove hP hcache hv h
  obtain ⟨T, M, hF⟩ := toConcrete_Final hP hcache hv h
  have h1 := C22_operations_partial (key := key) hP hvc h' hr (hF.program_valid hok) (by rw [hF.attrs]; exact hf)
  rw [h1]
  apply ext_of_maps (fun x : String × Operand κ × Loc => (x.1, x.2.1)) (fun x => x.2.2) (fun _ => ())
  · rintro ⟨a, b, c⟩ ⟨a', b', c'⟩ h1 h2 _; simp_all
  · rw [List.map_map, List.map_map]; exact hF.view_operand hok
  · rw [List.map_map, List.map_map]; exact hF.view_loc
  · have := congrArg List.length (hF.view_operand hok)
    simp only [List.length_map] at this
    simp only [List.map_const', List.length_map, this]

/-- **C23 (partial).** … and, with `conserve_exception_block_stackdepth=True`, the whole program, handlers included,
if every try region holds an instruction and starts with one that needs no EXTENDED_ARG. For a region starting
otherwise the claim fails: `C23_statement_false`. -/
theorem C23_roundtrip_partial {b' : Bytecode} {passes : Nat} (hP : P.WF) (hcache : ∀ e ∈ b.elems, e.isCache = false) (hv : ∀ i, .instr i ∈ b.elems → ValidInstr P i)
    (h : toConcrete P key passes b = .ok c) (h' : toBytecode P prune true c = .ok b')
    (hok : ∀ i, .instr i ∈ b.elems → OperandOK P c.varnames i) (hf : P.py313 = true → ∀ n ∈ b.attrs.freevars, n ∉ c.varnames)
    (hw : WellTried none [] false b.elems) (hne : NoEmptyTry false b.elems)
    (hs : ∀ e ∈ c.excTable, ∃ k ∈ starts P 0 c.elems, e.start = k) :
    programB P key b' = programB P key b := by
  obtain ⟨hr, hvc⟩ := convert_remove hP hcache hv h
  obtain ⟨T, M, hF⟩ := toConcrete_Final hP hcache hv h
  rw [← C45_program_preserved hP hcache hv h hok hw]
  exact C22_program_partial hP hvc h' hr (hF.program_valid hok) (by rw [hF.attrs]; exact hf) (hF.tableOK hw hne hs)

/-- The operation of an instruction in the round trip, in its place. -/
theorem roundtrip_at {b' : Bytecode} {passes : Nat} (hP : P.WF) (hcache : ∀ e ∈ b.elems, e.isCache = false) (hv : ∀ i, .instr i ∈ b.elems → ValidInstr P i)
    (h : toConcrete P key passes b = .ok c) (h' : toBytecode P prune conserve c = .ok b')
    (hok : ∀ i, .instr i ∈ b.elems → OperandOK P c.varnames i) (hf : P.py313 = true → ∀ n ∈ b.attrs.freevars, n ∉ c.varnames)
    (es1 es2 : List BElem) (i : Instr) (he : b.elems = es1 ++ .instr i :: es2) (hd : P.dual i.opcode = false) :
    ∃ o, (programB P key b')[opNumber P es1]? = some o ∧ o.name = i.name ∧
      o.operand = operandB P key (fun l => labelPos P l 0 b.elems) i.opcode i.arg := by
  obtain ⟨o, h1, h2, h3⟩ := convert_at hP hcache hv h he (hok i (by rw [he]; simp)) hd
  obtain ⟨T, M, hF⟩ := toConcrete_Final hP hcache hv h
  have e1 := C23_operations_partial hP hcache hv h h' hok hf
  have e2 := hF.view_operand hok
  have e1' := congrArg (List.map (fun x : String × Operand κ × Loc => (x.1, x.2.1))) e1
  rw [List.map_map, List.map_map] at e1'
  have e3 : (programB P key b').map (fun o => (o.name, o.operand)) = (programC P key c).map (fun o => (o.name, o.operand)) :=
    e1'.trans e2.symm
  have e4 := congrArg (·[opNumber P es1]?) e3
  simp only [List.getElem?_map, h1, Option.map_some, Option.map_eq_some_iff, Prod.mk.injEq] at e4
  obtain ⟨o', g1, g2, g3⟩ := e4
  exact ⟨o', g1, by rw [g2, h2], by rw [g3, h3]⟩

/-- **C18 (and back).** After the round trip the operation on CellVar(n) is still one on the local or cell variable n, the one
on FreeVar(n) one on the free variable n. -/
theorem C18_roundtrip_partial {b' : Bytecode} {passes : Nat} (hP : P.WF) (hcache : ∀ e ∈ b.elems, e.isCache = false) (hv : ∀ i, .instr i ∈ b.elems → ValidInstr P i)
    (h : toConcrete P key passes b = .ok c) (h' : toBytecode P prune conserve c = .ok b')
    (hok : ∀ i, .instr i ∈ b.elems → OperandOK P c.varnames i) (hf : P.py313 = true → ∀ n ∈ b.attrs.freevars, n ∉ c.varnames)
    (es1 es2 : List BElem) (i : Instr) (he : b.elems = es1 ++ .instr i :: es2) (hk : (P.haslocal i.opcode || P.hasfree i.opcode) = true) (n : String) :
    (i.arg = .cell n → ∃ o, (programB P key b')[opNumber P es1]? = some o ∧ o.name = i.name ∧ o.operand = .slot (.named n)) ∧
    (i.arg = .free n → ∃ o, (programB P key b')[opNumber P es1]? = some o ∧ o.name = i.name ∧ o.operand = .slot (.free n)) := by
  have hK := kinds_excl hP i.opcode
  have hb : P.hasJump i.opcode = false ∧ P.hasconst i.opcode = false := by
    rcases Bool.or_eq_true _ _ ▸ hk with hk | hk
    · have := hK.local_ hk; grind
    · have := hK.free hk; grind
  have hd : ∀ x, i.arg = x → (∀ y, x ≠ .tuple y) → P.dual i.opcode = false := by
    intro x hx hy
    cases hd : P.dual i.opcode with
    | false => rfl
    | true =>
      obtain ⟨_, _, hz, _⟩ := (hv i (by rw [he]; simp)).arg_ok.dual hd
      exact absurd (hx ▸ hz) (hy _)
  constructor <;> intro ha
  · obtain ⟨o, h1, h2, h3⟩ := roundtrip_at hP hcache hv h h' hok hf _ _ _ he (hd _ ha (by simp))
    exact ⟨o, h1, h2, by rw [h3]; unfold operandB; rw [if_neg (by grind), if_neg (by grind), if_pos hk, ha]⟩
  · obtain ⟨o, h1, h2, h3⟩ := roundtrip_at hP hcache hv h h' hok hf _ _ _ he (hd _ ha (by simp))
    exact ⟨o, h1, h2, by rw [h3]; unfold operandB; rw [if_neg (by grind), if_neg (by grind), if_pos hk, ha]⟩

/-- **C20 (and back).** After the round trip the operand of a comparison, flagged name or intrinsic is the same. -/
theorem C20_roundtrip {b' : Bytecode} {passes : Nat} (hP : P.WF) (hcache : ∀ e ∈ b.elems, e.isCache = false) (hv : ∀ i, .instr i ∈ b.elems → ValidInstr P i)
    (h : toConcrete P key passes b = .ok c) (h' : toBytecode P prune conserve c = .ok b')
    (hok : ∀ i, .instr i ∈ b.elems → OperandOK P c.varnames i) (hf : P.py313 = true → ∀ n ∈ b.attrs.freevars, n ∉ c.varnames)
    (es1 es2 : List BElem) (i : Instr) (he : b.elems = es1 ++ .instr i :: es2) :
    (P.hascompare i.opcode = true → ∀ v, i.arg = .compare v →
      ∃ o, (programB P key b')[opNumber P es1]? = some o ∧ o.name = i.name ∧ o.operand = .compare v) ∧
    (P.bitflag i.opcode = true → ∀ f n, i.arg = .tuple [.bool f, .str n] →
      ∃ o, (programB P key b')[opNumber P es1]? = some o ∧ o.name = i.name ∧ o.operand = .flagName f n) ∧
    (P.bitflag2 i.opcode = true → ∀ f g n, i.arg = .tuple [.bool f, .bool g, .str n] →
      ∃ o, (programB P key b')[opNumber P es1]? = some o ∧ o.name = i.name ∧ o.operand = .flag2Name f g n) ∧
    (P.intrinsic1 i.opcode = true → ∀ v, i.arg = .intr1 v →
      ∃ o, (programB P key b')[opNumber P es1]? = some o ∧ o.name = i.name ∧ o.operand = .intrinsic v) ∧
    (P.intrinsic2 i.opcode = true → ∀ v, i.arg = .intr2 v →
      ∃ o, (programB P key b')[opNumber P es1]? = some o ∧ o.name = i.name ∧ o.operand = .intrinsic v) := by
  have hK := kinds_excl hP i.opcode
  have hat := fun hl => roundtrip_at hP hcache hv h h' hok hf _ _ _ he (not_dual_of_local hP hl)
  refine ⟨fun hk v ha => ?_, fun hk f n ha => ?_, fun hk f g n ha => ?_, fun hk v ha => ?_, fun hk v ha => ?_⟩
  · have := hK.compare hk
    obtain ⟨o, h1, h2, h3⟩ := hat (by grind)
    exact ⟨o, h1, h2, by rw [h3]; unfold operandB; rw [if_neg (by grind), if_neg (by grind), if_neg (by simp; grind), if_neg (by grind), if_pos hk, ha]⟩
  · have hn := (hP.bitflag_name _ hk).1
    have := hK.name hn
    obtain ⟨o, h1, h2, h3⟩ := hat (by grind)
    exact ⟨o, h1, h2, by rw [h3]; unfold operandB; rw [if_neg (by grind), if_neg (by grind), if_neg (by simp; grind), if_pos hn, ha]⟩
  · have hn := hP.bitflag2_name _ hk
    have := hK.name hn
    obtain ⟨o, h1, h2, h3⟩ := hat (by grind)
    exact ⟨o, h1, h2, by rw [h3]; unfold operandB; rw [if_neg (by grind), if_neg (by grind), if_neg (by simp; grind), if_pos hn, ha]⟩
  · have hn := (hP.intr_plain _ (by rw [hk]; rfl)).2
    simp only [Bool.or_eq_false_iff] at hn
    obtain ⟨o, h1, h2, h3⟩ := hat (by grind)
    exact ⟨o, h1, h2, by rw [h3]; unfold operandB; rw [if_neg (by grind), if_neg (by grind), if_neg (by simp; grind), if_neg (by grind), if_neg (by grind), if_pos (by simp [hk]), ha]⟩
  · have hn := (hP.intr_plain _ (by rw [hk]; simp)).2
    simp only [Bool.or_eq_false_iff] at hn
    obtain ⟨o, h1, h2, h3⟩ := hat (by grind)
    exact ⟨o, h1, h2, by rw [h3]; unfold operandB; rw [if_neg (by grind), if_neg (by grind), if_neg (by simp; grind), if_neg (by grind), if_neg (by grind), if_pos (by simp [hk]), ha]⟩

end
end Verif
