import Verif.Proofs.FromCodeRules
import Verif.Props.CfgRules
import Verif.Props.FromCodeEx
/-
C62: the round trip code object → Bytecode → code object always succeeds.
-/
namespace Verif
open Spec
section
variable {κ : Type} [DecidableEq κ] {P : Platform} {key : Arg → κ} {co : Code} {b : Bytecode}

/-! ### Number of jumps -/

omit [DecidableEq κ] in
theorem loop_jumps {c : Concrete} {conserve : Bool} {targets : List Int} (hP : P.WF) (h11 : P.py311 = true) (js : List CInstr)
    (hv : ∀ j ∈ js, ValidCInstr P j) (line off u : Nat) (tbs : List Nat)
    (d : Dec) (h : decodeLoop P c true conserve targets off tbs (normalizeLineno line (js.map .instr)) = .ok d) :
    jumpCount d.elems ≤ (fetchedOf u js).countP (fun f => P.hasJump f.opcode) := by
  have hmk : ∀ ms : List BElem, (∀ e ∈ ms, isMarker e = true) → ms.countP BElem.jumps = 0 := by
    intro ms hm
    rw [List.countP_eq_zero]
    intro e he
    have := hm e he
    cases e <;> simp_all [isMarker, BElem.jumps]
  induction js generalizing line off u tbs d with
  | nil =>
    simp only [List.map_nil, normalizeLineno, decodeLoop, Except.ok.injEq] at h
    subst h; simp [jumpCount]
  | cons j js ih =>
    rw [List.map_cons, normalizeLineno] at h
    have hj := hv j (by simp)
    obtain ⟨main, d', h1, h2, h3, _⟩ := loop_cons h (valid_size hj)
    have ih' := ih (fun q hq => hv q (by simp [hq])) _ _ (u + j.size / 2) _ d' h2
    rw [h3]
    unfold jumpCount at ih' ⊢
    have hlab : (((if (off : Int) ∈ targets then [BElem.label off] else []) : List BElem)).countP BElem.jumps = 0 := by
      split <;> rfl
    simp only [List.countP_append, hmk _ (open_marker _ _), hmk _ (close_marker _ _), hlab]
    unfold fetchedOf
    rcases decodeInstr_ok hP hj h1 with ⟨hn, _, rfl⟩ | ⟨i, rfl, hvi, hn, ho, _⟩
    · rw [if_pos ((cache_iff hP h11 hj).1 hn)]
      simp only [List.countP_nil]; omega
    · have h0 : j.opcode ≠ 0 := by
        intro h0
        have hc := (cache_iff hP h11 hj).2 h0
        unfold decodeInstr at h1
        simp only [hc, beq_self_eq_true, Bool.and_true, if_true] at h1
        obtain ⟨_, _, h1⟩ := except_bind_ok h1
        simp [pure, Except.pure] at h1
      rw [if_neg h0]
      simp only [List.countP_cons, List.countP_nil, ← ho]
      have : BElem.jumps (.instr i) = true → P.hasJump i.opcode = true := by
        intro hx
        simp only [BElem.jumps] at hx
        split at hx
        · rename_i l hl; exact label_hasJump hvi hl
        · cases hx
      cases hb : BElem.jumps (.instr i) with
      | false => simp only [Bool.false_eq_true, if_false]; omega
      | true => rw [this hb]; omega

/-- The number of jumps of a code object. -/
def jumpsOfCode (P : Platform) (co : Code) : Nat := (fetched P co).countP (fun f => P.hasJump f.opcode)

theorem fromCode_jumps (hP : P.WF) (h11 : P.py311 = true) (hok : CodeOK P co) {conserve : Bool}
    (h : Bytecode.fromCode P co true conserve = .ok b) : jumpCount b.elems ≤ jumpsOfCode P co := by
  obtain ⟨js, g1, _, hR, _⟩ := readFrom_of (key := (id : Arg → Arg)) hP h11 hok
  have ht : toBytecode P true conserve (readOf co js) = .ok b := by
    unfold Bytecode.fromCode at h; rw [g1] at h; exact h
  obtain ⟨es', d, h1, h2, h3, h4, h5⟩ := toBytecode_ok ht
  rw [hR.remove] at h1; cases h1
  rw [h5]
  have := loop_jumps hP h11 js (fun j hj => (hR.readable j hj).valid) _ _ 0 _ d h2
  rw [← hR.fetch_] at this
  exact this

/-! ### The options of `from_code` -/

/-- The default option gives the same Bytecode without the depths. -/
theorem fromCode_forget (h : Bytecode.fromCode P co true false = .ok b) :
    ∃ b1, Bytecode.fromCode P co true true = .ok b1 ∧ b = { b1 with elems := b1.elems.map forget } := by
  unfold Bytecode.fromCode at *
  obtain ⟨c, hc, h⟩ := except_bind_ok h
  rw [toBytecode_forget] at h
  cases hx : toBytecode P true true c with
  | error e => rw [hx] at h; cases h
  | ok b1 =>
    rw [hx] at h
    simp only [Except.map, Except.ok.injEq] at h
    exact ⟨b1, by rw [hc]; exact hx, h.symm⟩

omit [DecidableEq κ] in
theorem forget_noEmpty {es : List BElem} : ∀ {e : Bool}, NoEmptyTry e es → NoEmptyTry e (es.map forget) := by
  induction es with
  | nil => intro e h; exact h
  | cons e r ih =>
    intro o h
    cases e with
    | tryBegin t => exact ih h
    | tryEnd t => exact ⟨h.1, ih h.2⟩
    | instr t => exact ih h
    | label t => exact ih h
    | setLineno t => exact ih h

theorem forget_instr {es : List BElem} {i : Instr} : .instr i ∈ es.map forget ↔ .instr i ∈ es := by
  rw [List.mem_map]
  constructor
  · rintro ⟨e, he, h⟩
    cases e <;> simp only [forget] at h <;> cases h
    exact he
  · intro h; exact ⟨_, h, rfl⟩

theorem forget_room {es : List BElem} : (es.map forget).map (room P) = es.map (room P) := by
  rw [List.map_map]
  apply List.map_congr_left
  intro e _
  cases e <;> rfl

theorem forget_jumps {es : List BElem} : jumpCount (es.map forget) = jumpCount es := by
  unfold jumpCount
  rw [List.countP_map]
  congr 1
  funext e
  cases e <;> rfl

/-! ### C62 -/

/-- **C62 (rules).** What `from_code` reads from a code object as the compiler writes them follows all the rules of `to_code`
(C58, C59), whatever `conserve_exception_block_stackdepth`; only the depths are missing by default. -/
theorem C62_rules (hP : P.WF) (h11 : P.py311 = true) (hok : CodeOK P co) (hre : Rewritable P co) (conserve : Bool) :
    ∃ b, Bytecode.fromCode P co true conserve = .ok b ∧ WellMade P b ∧ WellTried none [] false b.elems ∧ NoEmptyTry false b.elems ∧
      Assemblable P (zeroDepths b) ∧ (conserve = true → Assemblable P b) ∧ ∀ i l, .instr i ∈ b.elems → i.loc = some l → ¬ Unencodable l := by
  obtain ⟨b, hb, _⟩ := fromCode_parts hP h11 (id : Arg → Arg) hok conserve
  obtain ⟨hval, hlo, hwt⟩ := C51_usable hP h11 hok conserve hb
  cases conserve with
  | true =>
    obtain ⟨h1, h2, h3, h4⟩ := fromCode_rules hP h11 hok hre hb
    exact ⟨b, hb, h1, hwt, h2, zero_assemblable hlo (fun i hi => (hval i hi).1) hwt h2 h3, fun _ => h3, h4⟩
  | false =>
    obtain ⟨b1, hb1, e⟩ := fromCode_forget hb
    obtain ⟨hval1, hlo1, hwt1⟩ := C51_usable hP h11 hok true hb1
    obtain ⟨h1, h2, h3, h4⟩ := fromCode_rules hP h11 hok hre hb1
    have hz : zeroDepths b = zeroDepths b1 := by
      rw [e]; unfold zeroDepths; simp [List.map_map, Function.comp_def, forget_zero]
    refine ⟨b, hb, ?_, hwt, ?_, ?_, (fun h => by cases h), ?_⟩
    · subst e
      refine ⟨fun i hi => h1.valid i (forget_instr.1 hi), fun i v hi => h1.compare i v (forget_instr.1 hi), fun i v hi => h1.intrinsic i v (forget_instr.1 hi), ?_, ?_⟩
      · intro t t' ht ht' hid; exact wellTried_count hwt ht ht' hid
      · have := h1.size
        show 8 * ((b1.elems.map forget).map (room P)).sum + _ + _ + _ ≤ _
        rw [forget_room]; exact this
    · subst e; exact forget_noEmpty h2
    · rw [hz]; exact zero_assemblable hlo1 (fun i hi => (hval1 i hi).1) hwt1 h2 h3
    · subst e
      exact fun i l hi => h4 i l (forget_instr.1 hi)

/-- **C62 (explicit).** Keeping the depths and giving the stack size, every code object as the compiler writes them is read and
written again: nothing fails. -/
theorem C62_round_trip_total (hP : P.WF) (h11 : P.py311 = true) (key : Arg → κ) (eff : Instr → Bool → Py (Int × Int)) (hok : CodeOK P co)
    (hre : Rewritable P co) {passes : Nat} (hp : 3 * jumpsOfCode P co < passes) (n : Int) :
    ∃ b co', Bytecode.fromCode P co true true = .ok b ∧ b.toCode P key eff passes (some n) false = .ok co' := by
  obtain ⟨b, hb, h1, h2, h3, _, h5, h6⟩ := C62_rules hP h11 hok hre true
  have hj := fromCode_jumps hP h11 hok hb
  obtain ⟨co', hco⟩ := (C59_written_iff_rules (key := key) hP eff h1 (fun _ => ⟨h2, h3⟩) (passes := passes) (by omega) (depths := false) (.inr rfl) n).2
    ⟨h5 rfl, fun _ => h6⟩
  exact ⟨b, co', hb, hco⟩

theorem noDual_of (hP : P.WF) (h11 : P.py311 = true) (hok : CodeOK P co) (hd : ∀ f ∈ fetched P co, P.dual f.opcode = false) {conserve : Bool}
    (hb : Bytecode.fromCode P co true conserve = .ok b) : ∀ i, .instr i ∈ b.elems → P.dual i.opcode = false := by
  intro i hi
  obtain ⟨js, g1, _, hR, _⟩ := readFrom_of (key := (id : Arg → Arg)) hP h11 hok
  have ht : toBytecode P true conserve (readOf co js) = .ok b := by
    unfold Bytecode.fromCode at hb; rw [g1] at hb; exact hb
  obtain ⟨f, hf, e, _⟩ := hR.instr hP h11 ht hi
  rw [← e]; exact hd f hf

omit [DecidableEq κ] in
theorem keptLoc_program (hok : CodeOK P co) (hre : Rewritable P co) : (programCode P key co).map (Op.mapLoc keptLoc) = programCode P key co := by
  conv => rhs; rw [← List.map_id (programCode P key co)]
  apply List.map_congr_left
  intro o ho
  have : keptLoc o.loc = o.loc := kept_of_columns hok hre.columns o ho
  simp only [Op.mapLoc, this]; rfl

/-- **C62 (identity).** Keeping the depths and giving the stack size, a code object as the compiler writes them (on 3.13,
without two-variable instructions: finding 6) is read and written again without failing, and the code object written denotes
exactly the program of the one read: the same operations with the same operands, targets of jumps, locations and handlers. -/
theorem C62_round_trip_identity (hP : P.WF) (h11 : P.py311 = true) (key : Arg → κ) (eff : Instr → Bool → Py (Int × Int)) (hok : CodeOK P co)
    (hre : Rewritable P co) (hd : ∀ f ∈ fetched P co, P.dual f.opcode = false) {passes : Nat} (hp : 3 * jumpsOfCode P co < passes) :
    ∃ b co', Bytecode.fromCode P co true true = .ok b ∧ b.toCode P key eff passes (some co.stacksize) false = .ok co' ∧
      programCode P key co' = programCode P key co ∧ co'.stacksize = co.stacksize := by
  obtain ⟨b, co', h1, h2⟩ := C62_round_trip_total hP h11 key eff hok hre hp co.stacksize
  have hnd := noDual_of hP h11 hok hd h1
  obtain ⟨h3, h4⟩ := C52_exact hP h11 hok h1 h2 (fun i hi hx => by rw [hnd i hi] at hx; cases hx)
  rw [keptLoc_program hok hre] at h3
  exact ⟨b, co', h1, h2, h3, h4⟩

/-- **C62 (default options).** With the default options, where `to_code` computes the stack size and the depths, the round trip
succeeds iff the stack analysis of the graph of the code does (C61 says when), and then keeps the program, depths apart. -/
theorem C62_default_iff_analysis (hP : P.WF) (h11 : P.py311 = true) (key : Arg → κ) (eff : Instr → Bool → Py (Int × Int)) (hok : CodeOK P co)
    (hre : Rewritable P co) {passes : Nat} (hp : 3 * jumpsOfCode P co < passes) (stacksize : Option Int) :
    ∃ b, Bytecode.fromCode P co = .ok b ∧
      ((∃ co', b.toCode P key eff passes stacksize true = .ok co') ↔ ∃ g r, fromBytecode P b = .ok g ∧ g.computeStacksize P eff true = .ok r) ∧
      ∀ co', b.toCode P key eff passes stacksize true = .ok co' → (∀ f ∈ fetched P co, P.dual f.opcode = false) →
        (programCode P key co').map Op.noDepth = (programCode P key co).map Op.noDepth := by
  obtain ⟨b, hb, h1, h2, h3, h4, _, h6⟩ := C62_rules hP h11 hok hre false
  have hj := fromCode_jumps hP h11 hok hb
  refine ⟨b, hb, ?_, fun co' hco hd => ?_⟩
  · rw [C60_default_iff_analysis hP h11 eff h1 (C51_usable hP h11 hok false hb).2.1 h2 h3 (by omega) stacksize]
    exact ⟨fun h => h.1, fun h => ⟨h, h4, h6⟩⟩
  · have hnd := noDual_of hP h11 hok hd hb
    exact C52_locations hP h11 hok hre.columns hb hco (fun i hi hx => by rw [hnd i hi] at hx; cases hx)

end

/-! ### Examples -/

/-- A test of `Rewritable`. -/
def rewritableB (P : Platform) (co : Code) : Bool :=
  (fetched P co).all (fun f => !P.hasfree f.opcode || (match (derefSlots P (tablesOf co))[f.arg]? with
    | some (.named n) => decide (n ∈ co.cellvars)
    | _ => true)) &&
  (fetched P co).all (fun f => !P.dual f.opcode || (decide (f.arg / 16 < co.varnames.length) && decide (f.arg % 16 < co.varnames.length))) &&
  decide (8 * co.code.length + co.varnames.length + co.cellvars.length + co.freevars.length ≤ 2147483647) &&
  ((readLocs co.firstlineno co.linetable).getD []).all (fun p => p.col.isSome || decide (p.endLine = p.line))

theorem rewritable_of {P : Platform} {co : Code} (h : rewritableB P co = true) : Rewritable P co := by
  simp only [rewritableB, Bool.and_eq_true, List.all_eq_true, decide_eq_true_iff, Bool.or_eq_true, Bool.not_eq_true'] at h
  obtain ⟨⟨⟨h1, h2⟩, h3⟩, h4⟩ := h
  refine ⟨?_, ?_, h3, ?_⟩
  · intro f hf hx n hn
    rcases h1 f hf with h | h
    · rw [hx] at h; cases h
    · rw [hn] at h; simpa using h
  · intro f hf hx
    rcases h2 f hf with h | h
    · rw [hx] at h; cases h
    · exact h
  · intro p hp hc
    rcases h4 p hp with h | h
    · rw [hc] at h; cases h
    · exact h

/-- The code object of C48 (a try region, a loop, cell, free, local and global variables, columns, caches) with the default
number of passes. -/
example : ∃ b co', Bytecode.fromCode Py311.platform toCodeExCode true true = .ok b ∧
    b.toCode Py311.platform (id : Arg → Arg) eff311 10 (some toCodeExCode.stacksize) false = .ok co' ∧
    programCode Py311.platform (id : Arg → Arg) co' = programCode Py311.platform (id : Arg → Arg) toCodeExCode ∧
    co'.stacksize = toCodeExCode.stacksize :=
  C62_round_trip_identity Py311.wf (by decide) _ _ toCodeExCode_ok (rewritable_of (by decide +kernel)) (by decide +kernel) (by decide +kernel)

/-- The one with EXTENDED_ARG before a jump and at the start of a try region. -/
example : ∃ b co', Bytecode.fromCode Py311.platform farCode true true = .ok b ∧
    b.toCode Py311.platform (id : Arg → Arg) eff311 10 (some farCode.stacksize) false = .ok co' ∧
    programCode Py311.platform (id : Arg → Arg) co' = programCode Py311.platform (id : Arg → Arg) farCode ∧ co'.stacksize = farCode.stacksize :=
  C62_round_trip_identity Py311.wf (by decide) _ _ farCode_ok (rewritable_of (by decide +kernel)) (by decide +kernel) (by decide +kernel)

end Verif
