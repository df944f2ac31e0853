import Verif.Proofs.OldTotal
import Verif.Props.FromCode
import Verif.Props.OldCode
/-
C64, C65: reading code objects of 3.8 to 3.10, and the round trip.
-/
namespace Verif
open Spec
section
variable {κ : Type} [DecidableEq κ]
variable {P : Platform} {key : Arg → κ} {co : Code}

/-! ### No exception table, no try region -/

def BElem.isTry : BElem → Bool
  | .tryBegin _ => true
  | .tryEnd _ => true
  | _ => false

theorem decodeInstr_noTry {c : Concrete} {prune : Bool} {off lineno : Nat} {ci : CInstr} {main : List BElem}
    (h : decodeInstr P c prune off lineno ci = .ok main) : ∀ e ∈ main, e.isTry = false := by
  unfold decodeInstr at h
  simp only at h
  split at h
  · obtain ⟨_, _, h⟩ := except_bind_ok h
    simp only [pure, Except.pure, Except.ok.injEq] at h
    subst h; simp
  · obtain ⟨arg, h1, h⟩ := except_bind_ok h
    obtain ⟨loc, h2, h⟩ := except_bind_ok h
    obtain ⟨i, h3, h⟩ := except_bind_ok h
    simp only [pure, Except.pure, Except.ok.injEq] at h
    subst h; simp [BElem.isTry]

theorem loop_noTry {c : Concrete} (hc : c.excTable = []) {prune conserve : Bool} {targets : List Int} (l : List (Nat × CInstr)) : ∀ off tbs d,
    decodeLoop P c prune conserve targets off tbs l = .ok d → ∀ e ∈ d.elems, e.isTry = false := by
  have h1 : ∀ tbs off, openEntry c conserve tbs off = ([], tbs) := by
    intro tbs off; unfold openEntry exStart; rw [hc]; rfl
  have h2 : ∀ off, exEnd c off = [] := by
    intro off; unfold exEnd; rw [hc]; rfl
  induction l with
  | nil =>
    intro off tbs d h
    simp only [decodeLoop, Except.ok.injEq] at h
    subst h; simp
  | cons p l ih =>
    intro off tbs d h
    obtain ⟨lineno, ci⟩ := p
    unfold decodeLoop at h
    simp only [h1, h2, List.reverse_nil, closeEntries, List.append_nil] at h
    obtain ⟨main, hm, h⟩ := except_bind_ok h
    obtain ⟨d', hd, h⟩ := except_bind_ok h
    simp only [pure, Except.pure, Except.ok.injEq] at h
    subst h
    intro e he
    simp only [List.mem_append] at he
    rcases he with (he | he) | he
    · split at he
      · simp at he; subst he; rfl
      · cases he
    · exact decodeInstr_noTry hm e he
    · exact ih _ _ _ hd e he

theorem toBytecode_noTry {c : Concrete} (hc : c.excTable = []) {prune conserve : Bool} {b : Bytecode} (h : toBytecode P prune conserve c = .ok b) :
    ∀ e ∈ b.elems, e.isTry = false := by
  obtain ⟨es, d, _, h2, _, _, h5⟩ := toBytecode_ok h
  rw [h5]
  exact loop_noTry hc _ _ _ _ h2

theorem noTry_wellTried {es : List BElem} (h : ∀ e ∈ es, e.isTry = false) : ∀ s a, WellTried none s a es := by
  induction es with
  | nil => intro s a; rfl
  | cons e es ih =>
    intro s a
    have h0 := h e (by simp)
    have ih' := ih (fun x hx => h x (by simp [hx]))
    cases e <;> first | (simp [BElem.isTry] at h0; done) | exact ih' _ _

theorem noTry_forget {es : List BElem} (h : ∀ e ∈ es, e.isTry = false) : es.map forget = es := by
  conv => rhs; rw [← List.map_id es]
  apply List.map_congr_left
  intro e he
  have h0 := h e he
  cases e <;> first | (simp [BElem.isTry] at h0; done) | rfl

/-! ### C64 -/

omit [DecidableEq κ] in
theorem programOld_invalid (h : ∀ o ∈ programOld P (id : Arg → Arg) co, o.operand ≠ .invalid) :
    ∀ o ∈ programOld P key co, o.operand ≠ .invalid := by
  intro o ho
  unfold programOld at ho
  simp only at ho
  obtain ⟨f, hf, ho⟩ := List.mem_flatMap.1 ho
  obtain ⟨p, hp, rfl⟩ := List.mem_map.1 ho
  refine expandC_invalid (key' := (id : Arg → Arg)) ?_ p hp
  intro q hq
  exact h ⟨q.1, q.2, Loc.line ((lineOfByte P co (2 * f.unit)).map Int.toNat), none⟩ (by
    unfold programOld
    exact List.mem_flatMap.2 ⟨f, hf, List.mem_map.2 ⟨q, hq, rfl⟩⟩)

/-- **C64 (ConcreteBytecode).** On 3.8 to 3.10, `ConcreteBytecode.from_code` of a code object as the compiler writes them
succeeds; the instructions denote the program of the code object, with the line of each; tables and attributes are kept (there is
no qualified name before 3.11: the default one is left). -/
theorem C64_concrete (hP : P.WF) (h11 : P.py311 = false) (key : Arg → κ) (hok : OldCodeOK P co) :
    ∃ c, Concrete.fromCodeOld P co = .ok c ∧ programC P key c = programOld P key co ∧
      c.consts = co.consts ∧ c.names = co.names ∧ c.varnames = co.varnames ∧ c.excTable = [] ∧
      { c.attrs with docstring := none } = { (tablesOf co).attrs with qualname := Attrs.default.qualname } ∧
      (∀ ci, .instr ci ∈ c.elems → ValidCInstr P ci ∧ ci.name ≠ "EXTENDED_ARG") := by
  obtain ⟨js, h1, h2, hR⟩ := readFromOld_of hP h11 key hok
  refine ⟨_, h1, h2, rfl, rfl, rfl, rfl, rfl, fun ci hci => ?_⟩
  obtain ⟨j, hj, e⟩ := List.mem_map.1 hci
  cases e
  exact ⟨(hR.readable _ hj).valid, (hR.readable _ hj).noext⟩

theorem fromCodeOld_parts (hP : P.WF) (h11 : P.py311 = false) (key : Arg → κ) (hok : OldCodeOK P co) (prune conserve : Bool) :
    ∃ b, Bytecode.fromCodeOld P co prune conserve = .ok b ∧ programB P key b = programOld P key co ∧
      (∀ i, .instr i ∈ b.elems → ValidInstr P i ∧ i.name ≠ "EXTENDED_ARG" ∧ i.name ≠ "CACHE") ∧ LabelsOnly b ∧
      (∀ e ∈ b.elems, e.isTry = false) ∧
      { b.attrs with docstring := none } = { (tablesOf co).attrs with qualname := Attrs.default.qualname } ∧
      (∀ s, co.consts[0]? = some (.str s) → b.attrs.docstring = some (.str s)) ∧
      b.argnames = co.varnames.take (nargs (tablesOf co).attrs) := by
  obtain ⟨js, g1, g2, hR⟩ := readFromOld_of hP h11 key hok
  have h13 : P.py313 = false := by simp [Platform.py313, Platform.py311] at *; omega
  have hv := hR.valid
  obtain ⟨b, hb⟩ := hR.total hP h11 hok prune conserve
  have hb1 : toBytecode P prune true (readOld co js) = .ok b := by
    cases conserve with
    | true => exact hb
    | false =>
      obtain ⟨b1, hb1⟩ := hR.total hP h11 hok prune true
      rw [toBytecode_forget, hb1] at hb
      simp only [Except.map, Except.ok.injEq] at hb
      rw [noTry_forget (toBytecode_noTry rfl hb1)] at hb
      rw [hb1, ← hb]
  have hp1 : programB P key b = programOld P key co := by
    rw [← g2]
    exact C22_program_partial hP hv hb1 hR.remove (by
      show ∀ o ∈ programC P key (readOld co js), _
      rw [g2]; exact programOld_invalid hok.operands) (fun h => by rw [h13] at h; cases h) (tableOK_empty rfl)
  obtain ⟨a1, a2, a3, a4⟩ := C22_attributes hb
  refine ⟨b, by unfold Bytecode.fromCodeOld; rw [g1]; exact hb, hp1, ?_, toBytecode_labelsOnly hP hv hb, toBytecode_noTry rfl hb, ?_, ?_, a2⟩
  · intro i hi
    obtain ⟨x, y, z⟩ := C19_pruned hP hv hb i hi
    exact ⟨x, y, fun e => by
      have := x.name_op
      rw [e, hP.old_name h11] at this
      cases this⟩
  · exact congrArg (fun A : Attrs => { A with docstring := none }) a1
  · intro s hs
    exact a3 s hs

/-- **C64.** On 3.8 to 3.10, `Bytecode.from_code` of a code object as the compiler writes them (`OldCodeOK`) succeeds, and the
Bytecode denotes the program of the code object: the same operations in order with the same names, operands, targets of jumps
and lines. Attributes are kept, but the qualified name, which these versions do not have. -/
theorem C64_from_code (hP : P.WF) (h11 : P.py311 = false) (key : Arg → κ) (hok : OldCodeOK P co) (prune conserve : Bool) :
    ∃ b, Bytecode.fromCodeOld P co prune conserve = .ok b ∧ programB P key b = programOld P key co ∧
      { b.attrs with docstring := none } = { (tablesOf co).attrs with qualname := Attrs.default.qualname } ∧
      (∀ s, co.consts[0]? = some (.str s) → b.attrs.docstring = some (.str s)) ∧
      b.argnames = co.varnames.take (nargs (tablesOf co).attrs) := by
  obtain ⟨b, h1, h2, _, _, _, h6, h7, h8⟩ := fromCodeOld_parts hP h11 key hok prune conserve
  exact ⟨b, h1, h2, h6, h7, h8⟩

/-- **C64 (usable).** What `from_code` returns has valid instructions, no EXTENDED_ARG, jumps to labels and no try region: it meets
what `to_code` needs (C63). -/
theorem C64_usable (hP : P.WF) (h11 : P.py311 = false) (hok : OldCodeOK P co) {prune conserve : Bool} {b : Bytecode}
    (h : Bytecode.fromCodeOld P co prune conserve = .ok b) :
    (∀ i, .instr i ∈ b.elems → ValidInstr P i ∧ i.name ≠ "EXTENDED_ARG" ∧ i.name ≠ "CACHE") ∧ LabelsOnly b ∧
      WellTried none [] false b.elems ∧ ∀ e ∈ b.elems, e.isTry = false := by
  obtain ⟨b', h1, _, h4, h5, h6, _⟩ := fromCodeOld_parts hP h11 (id : Arg → Arg) hok prune conserve
  rw [h] at h1; cases h1
  exact ⟨h4, h5, noTry_wellTried h6 _ _, h6⟩

/-! ### C65 -/

omit [DecidableEq κ] in
theorem opsB_located (tgt : Nat → Option Nat) (i : Instr) (hn : i.name ≠ "CACHE") (es : List BElem) : ∀ (loc : Loc) (tr : Option TryB), .instr i ∈ es →
    ∃ l', ∀ p ∈ expandB P key tgt i, ∃ o ∈ opsB P key tgt loc tr es, o.operand = p.2 ∧ o.loc = i.loc.getD l' := by
  induction es with
  | nil => intro _ _ hx; simp at hx
  | cons e es ih =>
    intro loc tr hx
    rcases List.mem_cons.1 hx with rfl | hm
    · refine ⟨loc, fun p hp => ?_⟩
      rw [opsB]
      exact ⟨_, List.mem_append_left _ (List.mem_map.2 ⟨p, hp, rfl⟩), rfl, rfl⟩
    · cases e with
      | instr j =>
        obtain ⟨l', h⟩ := ih (j.loc.getD loc) tr hm
        refine ⟨l', fun p hp => ?_⟩
        obtain ⟨o, ho, hx⟩ := h p hp
        rw [opsB]
        exact ⟨o, List.mem_append_right _ ho, hx⟩
      | _ => exact ih _ _ hm

omit [DecidableEq κ] in
theorem expandB_mem (tgt : Nat → Option Nat) (i : Instr) (hn : i.name ≠ "CACHE") : ∃ p, p ∈ expandB P key tgt i := by
  apply List.exists_mem_of_length_pos
  unfold expandB
  rw [if_neg hn]
  repeat' split
  all_goals simp

theorem compare_back_old (hP : P.WF) (h11 : P.py311 = false) (hok : OldCodeOK P co) {prune conserve : Bool} {b : Bytecode}
    (h : Bytecode.fromCodeOld P co prune conserve = .ok b) (i : Instr) (hi : .instr i ∈ b.elems) (hc : P.hascompare i.opcode = true)
    (v : Nat) (ha : i.arg = .compare v) : CompareMember P v := by
  obtain ⟨b', h1, h2, h4, _⟩ := fromCodeOld_parts hP h11 (id : Arg → Arg) hok prune conserve
  rw [h] at h1; cases h1
  obtain ⟨l', hl⟩ := opsB_located (P := P) (key := (id : Arg → Arg)) (fun l => labelPos P l 0 b.elems) i (h4 i hi).2.2 b.elems
    (Loc.line (some b.attrs.firstLineno)) none hi
  have hex : expandB P (id : Arg → Arg) (fun l => labelPos P l 0 b.elems) i = [(i.name, .compare v)] := by
    obtain ⟨k1, k2, k3, k4, k5⟩ := (kinds_excl hP i.opcode).compare hc
    unfold expandB operandB
    rw [if_neg (h4 i hi).2.2, not_dual hP k3]
    simp [k1, k2, k3, k4, k5, hc, ha]
  obtain ⟨o, ho, hx, _⟩ := hl (i.name, .compare v) (by rw [hex]; simp)
  have ho' : o ∈ programB P (id : Arg → Arg) b := ho
  rw [h2] at ho'
  unfold programOld at ho'
  simp only at ho'
  obtain ⟨f, hf, ho'⟩ := List.mem_flatMap.1 ho'
  obtain ⟨p, hp, rfl⟩ := List.mem_map.1 ho'
  obtain ⟨q1, a, q2, q3⟩ := expandC_compare hp hx
  simp only at q1 q2
  split at q2
  · cases q2; rw [q3]; exact hok.compares f hf q1
  · cases q2

theorem operands_old (hP : P.WF) (h11 : P.py311 = false) (hok : OldCodeOK P co) {prune conserve : Bool} {b : Bytecode}
    (h : Bytecode.fromCodeOld P co prune conserve = .ok b) (vs : List String) : ∀ i, .instr i ∈ b.elems → OperandOK P vs i := by
  have h13 : P.py313 = false := by simp [Platform.py313, Platform.py311] at *; omega
  intro i hi
  exact ⟨fun hc v hv => compare_back_old hP h11 hok h i hi hc v hv, fun hd => by simp [Platform.dual, Platform.dualSingles, h13] at hd⟩

omit [DecidableEq κ] in
theorem programOld_lineOnly : (programOld P key co).map Op.lineOnly = programOld P key co := by
  conv => rhs; rw [← List.map_id (programOld P key co)]
  apply List.map_congr_left
  intro o ho
  unfold programOld at ho
  simp only at ho
  obtain ⟨f, hf, ho⟩ := List.mem_flatMap.1 ho
  obtain ⟨p, hp, rfl⟩ := List.mem_map.1 ho
  rfl

theorem fetchedOf_unit (js : List CInstr) (hs : ∀ j ∈ js, 2 ≤ j.size) : ∀ u, ∀ f ∈ fetchedOf u js, f.unit < u + unitsOf js := by
  induction js with
  | nil => intro u f hf; simp [fetchedOf] at hf
  | cons j js ih =>
    intro u f hf
    have := hs j (by simp)
    have ih' := ih (fun i hi => hs i (by simp [hi])) (u + j.size / 2)
    have e : unitsOf (j :: js) = j.size / 2 + unitsOf js := by simp [unitsOf]
    unfold fetchedOf at hf
    split at hf
    · have := ih' f hf; omega
    · rcases List.mem_cons.1 hf with rfl | hf
      · simp only; omega
      · have := ih' f hf; omega

theorem fetched_unit_old (hP : P.WF) (h11 : P.py311 = false) (hok : OldCodeOK P co) : ∀ f ∈ fetched P co, 2 * f.unit < co.code.length := by
  obtain ⟨js, _, _, hR⟩ := readFromOld_of hP h11 (id : Arg → Arg) hok
  intro f hf
  rw [hR.fetch_] at hf
  have := fetchedOf_unit js (fun j hj => valid_size (hR.readable j hj).valid) 0 f hf
  rw [hR.units_]; omega

/-- **C65.** On 3.8 to 3.10, reading a code object and writing it back, `Bytecode.from_code(code).to_code(...)` whatever the
options, gives a code object denoting the same program: the same operations in order, with the same names, operands, targets of
jumps and lines, provided the lines are writable (`LinesWritable`: always so before 3.10, and on 3.10 when each instruction has a
line; otherwise a line can be lost: `C65_line_lost`). -/
theorem C65_round_trip (hP : P.WF) (h11 : P.py311 = false) {eff : Instr → Bool → Py (Int × Int)} {passes : Nat} {stacksize : Option Int}
    {prune conserve depths : Bool} {b : Bytecode} {co' : Code} (hok : OldCodeOK P co)
    (hl : LinesWritable P co.firstlineno ((programOld P key co).map (·.loc.lineno)))
    (h : Bytecode.fromCodeOld P co prune conserve = .ok b) (h' : b.toCode P key eff passes stacksize depths = .ok co') :
    programOld P key co' = programOld P key co := by
  obtain ⟨h1, h2, h3, _⟩ := C64_usable hP h11 hok h
  obtain ⟨b', g1, g2, _, _, _, g3, _⟩ := fromCodeOld_parts hP h11 key hok prune conserve
  rw [h] at g1; cases g1
  have hf : b.attrs.firstLineno = co.firstlineno := congrArg Attrs.firstLineno g3
  rw [C63_to_code_lines hP h11 ?_ (fun i hi => (h1 i hi).1) h2 h3 h' (operands_old hP h11 hok h _) (by rw [g2, hf]; exact hl), g2, programOld_lineOnly]
  intro e he
  cases e with
  | instr i => simpa [BElem.isCache] using (h1 i he).2.2
  | _ => rfl

/-- **C65 (operations).** Without the condition on lines, the operations are the same: names, operands and targets of jumps. -/
theorem C65_operations (hP : P.WF) (h11 : P.py311 = false) {eff : Instr → Bool → Py (Int × Int)} {passes : Nat} {stacksize : Option Int}
    {prune conserve depths : Bool} {b : Bytecode} {co' : Code} (hok : OldCodeOK P co)
    (h : Bytecode.fromCodeOld P co prune conserve = .ok b) (h' : b.toCode P key eff passes stacksize depths = .ok co') :
    (programOld P key co').map (fun o => (o.name, o.operand)) = (programOld P key co).map (fun o => (o.name, o.operand)) := by
  obtain ⟨h1, h2, h3, _⟩ := C64_usable hP h11 hok h
  obtain ⟨b', g1, g2, _⟩ := fromCodeOld_parts hP h11 key hok prune conserve
  rw [h] at g1; cases g1
  rw [C63_to_code_operations hP h11 ?_ (fun i hi => (h1 i hi).1) h2 h3 h' (operands_old hP h11 hok h _), g2]
  intro e he
  cases e with
  | instr i => simpa [BElem.isCache] using (h1 i he).2.2
  | _ => rfl

omit [DecidableEq κ] in
/-- Lines are always writable before 3.10. -/
theorem C65_lines_before_310 (h10 : P.py310 = false) : LinesWritable P co.firstlineno ((programOld P key co).map (·.loc.lineno)) := by
  refine linesWritable_all _ (fun l hl => ?_)
  obtain ⟨o, ho, rfl⟩ := List.mem_map.1 hl
  unfold programOld at ho
  simp only at ho
  obtain ⟨f, hf, ho⟩ := List.mem_flatMap.1 ho
  obtain ⟨p, hp, rfl⟩ := List.mem_map.1 ho
  simp [lineOfByte, h10, Loc.line]

end
end Verif
