import Verif.Proofs.ConcreteWrite
import Verif.Props.RoundTripTotal
import Verif.Props.FromCodeEx
import Verif.Props.SmallTables
import Verif.Props.Determined
/-
C76: `ConcreteBytecode.to_code`.
-/
namespace Verif
open Spec
section
variable {κ : Type} [DecidableEq κ]
variable {P : Platform} {key : Arg → κ} {eff : Instr → Bool → Py (Int × Int)} {co co' : Code} {c : Concrete} {b : Bytecode} {es : List CElem}

/-- The regions of the table written. -/
theorem assembleExcTable_regions {es : List ExcEntry} {bs : Bytes} (h : assembleExcTable es = .ok bs) :
    readRegions bs.length bs = es.map regionOf := by
  have hval : ∀ e ∈ es, 0 ≤ e.start ∧ e.start - 1 ≤ e.stop ∧ 0 ≤ e.target ∧ 0 ≤ e.depth := by
    intro e hm
    by_cases hx : 0 ≤ e.start ∧ e.start - 1 ≤ e.stop ∧ 0 ≤ e.target ∧ 0 ≤ e.depth
    · exact hx
    · have := (C01_exception_table_error es).1 ⟨e, hm, hx⟩
      rw [h] at this
      simp at this
  obtain ⟨chunks, hch1, hch2, hch3, _⟩ := C02_exception_table_format es hval
  rw [h] at hch1
  cases hch1
  exact readRegions_chunks es chunks _ hch2 (Nat.le_refl _) hch3

omit [DecidableEq κ] in
/-- Locations read are kept by a second writing. -/
theorem kept_positions (hpos : ∀ p ∈ (readLocs co.firstlineno co.linetable).getD [], ValidArgs true p.line p.endLine p.col p.endCol)
    (hcol : ∀ p ∈ (readLocs co.firstlineno co.linetable).getD [], p.col = none → p.endLine = p.line)
    (o : Op κ) (ho : o ∈ programCode P key co) : keptLoc o.loc = o.loc := by
  obtain ⟨u, hu⟩ := programCode_loc o ho
  rw [hu]
  unfold locOfUnit
  cases hx : ((readLocs co.firstlineno co.linetable).getD [])[u]? with
  | none => rfl
  | some p =>
    have hm := List.mem_of_getElem? hx
    exact (kept_pos (hcol p hm) (locOfPos_ok (hpos p hm))).2

/-- **C76 (what is computed).** When the stack size is not given, or on 3.11+ when the depths are computed (which is the default),
`ConcreteBytecode.to_code` is `to_bytecode().to_code()` with the same options: the same code object or the same exception. -/
theorem C76_through_bytecode {stacksize : Option Int} {depths : Bool} (hd : P.py311 = true ∧ depths = true ∨ stacksize = none) :
    c.toCode P key eff stacksize depths = (toBytecode P true false c >>= fun b => b.toCode P key eff 10 stacksize depths) := by
  unfold Concrete.toCode Bytecode.toCode
  by_cases h : (P.py311 && depths) = true
  · simp only [if_pos h]
  · rcases hd with ⟨h1, h2⟩ | rfl
    · simp [h1, h2] at h
    · simp only [if_neg h]

/-- **C76 (default options).** `to_code()` with no argument computes the stack size, and on 3.11+ the depths: it is
`to_bytecode().to_code()`. -/
theorem C76_defaults : c.toCode P key eff = (toBytecode P true false c >>= fun b => b.toCode P key eff) := C76_through_bytecode (.inr rfl)

/-- **C76 (given stack size).** With a stack size and without the computation of depths (never done before 3.11) the ConcreteBytecode is written as
it is: the bytes of its instructions, its tables and attributes, its exception table, and the stack size given. -/
theorem C76_direct {n : Int} {depths : Bool} (hd : (P.py311 && depths) = false) (h : c.toCode P key eff (some n) depths = .ok co) :
    co.code = (instrsOf c.elems).flatMap (CInstr.assemble P) ∧ co.consts = c.consts ∧ co.names = c.names ∧ co.varnames = c.varnames ∧ co.stacksize = n ∧
      co.nlocals = c.varnames.length ∧ co.argcount = c.attrs.argcount ∧ co.posonlyargcount = c.attrs.posonlyargcount ∧
      co.kwonlyargcount = c.attrs.kwonlyargcount ∧ co.flags = c.attrs.flags ∧ co.filename = c.attrs.filename ∧ co.name = c.attrs.name ∧
      co.qualname = c.attrs.qualname ∧ co.firstlineno = c.attrs.firstLineno ∧ co.freevars = c.attrs.freevars ∧
      (P.py311 = true → regions co = c.excTable.map (fun e =>
        ⟨e.start.toNat, (e.stop - e.start + 1).toNat, e.target.toNat, 2 * e.depth.toNat + if e.lasti then 1 else 0⟩)) := by
  unfold Concrete.toCode at h
  rw [if_neg (by simp [hd])] at h
  simp only at h
  have h' := h
  unfold Concrete.emit at h
  simp only at h
  obtain ⟨table, htab, h⟩ := except_bind_ok h
  obtain ⟨exc, hexc, h⟩ := except_bind_ok h
  simp only [pure, Except.pure, Except.ok.injEq] at h
  subst h
  refine ⟨?_, rfl, rfl, rfl, rfl, rfl, rfl, rfl, rfl, rfl, rfl, rfl, rfl, rfl, rfl, ?_⟩
  · exact assembleCodeLoop_bytes P c.elems _ _
  · intro h11
    simp only [h11, if_true] at hexc
    exact assembleExcTable_regions hexc

/-! ### Read and written -/

/-- **C76 (identity).** On 3.11+, a code object read with `ConcreteBytecode.from_code` and written with `to_code(stacksize=n,
compute_exception_stack_depths=False)` is written, with the same code string (useless EXTENDED_ARG included), the same constants, names, variables
and attributes in the same order, the same regions in the exception table, the same program, locations and depths included. The code string is made
of instructions with their EXTENDED_ARG and zeroed caches, and positions without columns are on one line; jumps, operands and the exception
table are not constrained. `cellvars` are in the order code objects keep. -/
theorem C76_identity (hP : P.WF) (h11 : P.py311 = true) (key : Arg → κ) (eff : Instr → Bool → Py (Int × Int)) (hb : WellCoded P co.code)
    (hpos : ∀ p ∈ (readLocs co.firstlineno co.linetable).getD [], ValidArgs true p.line p.endLine p.col p.endCol)
    (hcol : ∀ p ∈ (readLocs co.firstlineno co.linetable).getD [], p.col = none → p.endLine = p.line) (n : Int) :
    ∃ c co', Concrete.fromCode P co = .ok c ∧ c.toCode P key eff (some n) false = .ok co' ∧
      programCode P key co' = programCode P key co ∧ regions co' = regions co ∧ co'.stacksize = n ∧
      co'.code = co.code ∧ co'.consts = co.consts ∧ co'.names = co.names ∧ co'.varnames = co.varnames ∧ co'.nlocals = co.varnames.length ∧
      co'.argcount = co.argcount ∧ co'.posonlyargcount = co.posonlyargcount ∧ co'.kwonlyargcount = co.kwonlyargcount ∧ co'.flags = co.flags ∧
      co'.filename = co.filename ∧ co'.name = co.name ∧ co'.qualname = co.qualname ∧ co'.firstlineno = co.firstlineno ∧ co'.freevars = co.freevars ∧
      (co.varnames.Nodup → CellsOrdered co.varnames co.cellvars → co'.cellvars = co.cellvars) := by
  obtain ⟨is, h1, h2, h3, h4⟩ := wellCoded_cache P hP h11 hb
  obtain ⟨js, g1, g2, g3, g4, g5⟩ := fromCode_program P hP h11 key co is h1 h2 h3 (fun p hp => locOfPos_ok (hpos p hp))
  have hloc := fromCode_locs hcol g1
  have hlay := layout_same h2 g3
  have hsz : ∀ i ∈ js, i.size % 2 = 0 ∧ 2 ≤ i.size := by
    intro i hi
    have := size_of_units (g4 i hi)
    omega
  have hins : instrsOf (readOf co js).elems = js := instrsOf_instrs js
  have hinf : ∀ x ∈ (assembleCode P co.firstlineno (readOf co js).elems).2,
      (x.size % 2 = 0 ∧ 2 ≤ x.size) ∧ ∀ l, x.loc = some l → Coherent l ∧ ¬ Unencodable l := by
    obtain ⟨hszs, hlocs⟩ := assembleCodeLoop_sizes P (readOf co js).elems co.firstlineno 0
    rw [hins] at hszs hlocs
    intro x hx
    constructor
    · have : x.size ∈ js.map (·.size) := by rw [← hszs]; exact List.mem_map_of_mem hx
      obtain ⟨i, hi, he⟩ := List.mem_map.1 this
      rw [← he]; exact hsz i hi
    · intro l hl
      have : x.loc ∈ js.map (·.loc) := by rw [← hlocs]; exact List.mem_map_of_mem hx
      obtain ⟨i, hi, he⟩ := List.mem_map.1 this
      rw [hl] at he
      obtain ⟨l', hl', hq, _⟩ := hloc i hi
      rw [hl'] at he; cases he
      exact ⟨(g4 i hi).valid.loc_ok _ hl', hq⟩
  obtain ⟨table, htab, _⟩ := C03_positions_are_locations co.firstlineno (assembleCode P co.firstlineno (readOf co js).elems).2
    (fun x hx => (hinf x hx).1) (fun x hx => (hinf x hx).2)
  obtain ⟨exc, hexc, _⟩ := C01_exception_table_roundtrip (readOf co js).excTable (parseExcTable_valid _)
  have hem : ∃ co', (readOf co js).emit P n = .ok co' := by
    unfold Concrete.emit
    simp only [h11, if_true]
    have e1 : assembleLocations (readOf co js).attrs.firstLineno (assembleCode P (readOf co js).attrs.firstLineno (readOf co js).elems).2 = .ok table := htab
    rw [e1, hexc]
    exact ⟨_, rfl⟩
  obtain ⟨co', he⟩ := hem
  have ht : (readOf co js).toCode P key eff (some n) false = .ok co' := by
    unfold Concrete.toCode
    simp only [Bool.and_false, Bool.false_eq_true, if_false]
    exact he
  obtain ⟨d1, d2, d3, d4, d5, d6, d7, d8, d9, d10, d11, d12, d13, d14, d15, d16⟩ := C76_direct (by simp) ht
  refine ⟨_, co', g1, ht, ?_, ?_, d5, ?_, d2, d3, d4, d6, d7, d8, d9, d10, d11, d12, d13, d14, d15, ?_⟩
  · rw [emit_program P hP h11 key (readOf co js) js (fun i => i.loc.getD (Loc.line none)) rfl hlay g4 ?_ n co' he, ← g2]
    · conv => rhs; rw [← List.map_id (programC P key (readOf co js))]
      apply List.map_congr_left
      intro o ho
      have : keptLoc o.loc = o.loc := by
        rw [g2] at ho
        exact kept_positions hpos hcol o ho
      show ({ o with loc := keptLoc o.loc } : Op κ) = o
      rw [this]
    · intro i hi
      obtain ⟨l, hl, _⟩ := hloc i hi
      rw [hl]; rfl
  · rw [d16 h11]
    exact parseExcTable_map _
  · rw [d1, hins, h1]
    exact flatMap_same g3 (fun i hi => ⟨h3 i hi, h4 i hi⟩) (fun j hj => ⟨g4 j hj, g5 j hj⟩)
  · intro hv hc
    have hE := emitted P hP h11 (readOf co js) js (fun i => i.loc.getD (Loc.line none)) rfl hlay g4 (by
      intro i hi
      obtain ⟨l, hl, _⟩ := hloc i hi
      rw [hl]; rfl) n co' he
    rw [hE.cellvars_]
    exact codeCellvars_ordered P _ _ hv hc

/-- **C76 (program).** On 3.11+, whenever `to_code` computes the depths or the stack size, what it writes denotes the program of the
ConcreteBytecode (its EXTENDED_ARG folded, `es`): the same operations in order, with the operands their integer arguments denote in the tables,
the same targets of jumps, locations (as code objects keep them) and handlers, depths apart (they are computed). Its exception table is as
CPython writes them (TableOK), it does not begin with a CACHE, and its operands are those the format can hold (see C45). -/
theorem C76_program (hP : P.WF) (h11 : P.py311 = true) {stacksize : Option Int} {depths : Bool} (hd : depths = true ∨ stacksize = none)
    (hv : ∀ ci, .instr ci ∈ c.elems → ValidCInstr P ci) (hes : removeExtendedArgs P 0 none c.elems = .ok es)
    (hok : ∀ o ∈ programC P key { c with elems := es }, o.operand ≠ .invalid) (hf : P.py313 = true → ∀ n ∈ c.attrs.freevars, n ∉ c.varnames)
    (hT : TableOK P { c with elems := es }) (hfirst : ∀ p, (normalizeLineno c.attrs.firstLineno es).head? = some p → p.2.name ≠ "CACHE")
    (h : c.toCode P key eff stacksize depths = .ok co) (hop : ∀ b, toBytecode P true false c = .ok b → ∀ i, .instr i ∈ b.elems → OperandOK P co.varnames i) :
    (programCode P key co).map Op.noDepth = ((programC P key { c with elems := es }).map Op.noDepth).map (Op.mapLoc keptLoc) := by
  rw [C76_through_bytecode (by rcases hd with rfl | rfl <;> simp [h11])] at h
  obtain ⟨b, hb, h⟩ := except_bind_ok h
  have hb' := hb
  rw [toBytecode_forget] at hb'
  cases hb1 : toBytecode P true true c with
  | error e => rw [hb1] at hb'; cases hb'
  | ok b1 =>
    rw [hb1] at hb'
    simp only [Except.map, Except.ok.injEq] at hb'
    have hzz : zeroDepths b = zeroDepths b1 := by
      rw [← hb']
      unfold zeroDepths
      simp [List.map_map, Function.comp_def, forget_zero]
    have hp1 := C22_program_partial hP hv hb1 hes hok hf hT
    have hz1 : programB P key (zeroDepths b1) = (programB P key b1).map Op.noDepth :=
      (program_same hP key b1 b1 (fun i hi => (C19_pruned hP hv hb1 i hi).1) (toBytecode_labelsOnly hP hv hb1)
        (fun i hi => (C19_pruned hP hv hb1 i hi).1) (toBytecode_labelsOnly hP hv hb1) (toBytecode_depths hv hb1) rfl rfl rfl).symm
    rw [C48_to_code_program hP h11 ?_ (fun i hi => (C19_pruned hP hv hb i hi).1) (toBytecode_labelsOnly hP hv hb)
      (toBytecode_wellTried hP hv hb hes hT (.inr hfirst)) h (hop b hb), hzz, hz1, hp1]
    intro e he
    cases e with
    | instr i => simpa [BElem.isCache] using (C19_pruned hP hv hb i he).2.2 rfl
    | _ => rfl

/-- **C76 (from_code then to_code).** `ConcreteBytecode.from_code(code).to_code()` is `Bytecode.from_code(code).to_code()`: what C52, C62, C69, C71
and C72 say of the latter holds of the former. -/
theorem C76_from_code_to_code {stacksize : Option Int} {depths : Bool} (hd : P.py311 = true ∧ depths = true ∨ stacksize = none) :
    (Concrete.fromCode P co >>= fun c => c.toCode P key eff stacksize depths) =
      (Bytecode.fromCode P co >>= fun b => b.toCode P key eff 10 stacksize depths) := by
  unfold Bytecode.fromCode
  cases Concrete.fromCode P co with
  | error e => rfl
  | ok c => exact C76_through_bytecode hd

/-- **C76 (default round trip).** On 3.11+, `ConcreteBytecode.from_code(code).to_code()` succeeds iff the stack analysis of the code does, at most ten
passes being enough when fewer than ten EXTENDED_ARG are before jumps, and then writes the program of the code object, depths apart. -/
theorem C76_default_round_trip (hP : P.WF) (h11 : P.py311 = true) (key : Arg → κ) (eff : Instr → Bool → Py (Int × Int)) (hok : CodeOK P co)
    (hre : Rewritable P co) (hd : ∀ f ∈ fetched P co, P.dual f.opcode = false) (hsm : SmallTables P co) (hp : jumpExtArgs P co < 10) :
    ∃ c b, Concrete.fromCode P co = .ok c ∧ toBytecode P true false c = .ok b ∧
      ((∃ co', c.toCode P key eff = .ok co') ↔ ∃ g r, fromBytecode P b = .ok g ∧ g.computeStacksize P eff true = .ok r) ∧
      ∀ co', c.toCode P key eff = .ok co' →
        (programCode P key co').map Op.noDepth = (programCode P key co).map Op.noDepth ∧ co'.code.length ≤ co.code.length := by
  obtain ⟨b, h1, h2, h3⟩ := C62_passes_default hP h11 key eff hok hre hd hsm hp none
  have h1' := h1
  unfold Bytecode.fromCode at h1'
  obtain ⟨c, hc, hb⟩ := except_bind_ok h1'
  have e : c.toCode P key eff = b.toCode P key eff := by
    rw [C76_defaults, hb]; rfl
  refine ⟨c, b, hc, hb, ?_, ?_⟩
  · rw [e]; exact h2
  · rw [e]; exact h3

end

/-! ### Concrete cases -/

/-- The hypotheses of C76_identity on a code object with a try region, a loop, cells and columns; and on one with EXTENDED_ARG before a jump. -/
example : ∃ c co', Concrete.fromCode Py311.platform toCodeExCode = .ok c ∧ c.toCode Py311.platform (id : Arg → Arg) eff311 (some 9) false = .ok co' ∧
    co'.code = toCodeExCode.code ∧ co'.stacksize = 9 ∧ regions co' = regions toCodeExCode := by
  obtain ⟨c, co', h1, h2, _, h3, h4, h5, _⟩ := C76_identity Py311.wf (by decide) (id : Arg → Arg) eff311 toCodeExCode_ok.bytes toCodeExCode_ok.positions
    (rewritable_of (by decide +kernel) : Rewritable Py311.platform toCodeExCode).columns 9
  exact ⟨c, co', h1, h2, h5, h4, h3⟩

example : ∃ c co', Concrete.fromCode Py311.platform farCode = .ok c ∧ c.toCode Py311.platform (id : Arg → Arg) eff311 (some 9) false = .ok co' ∧
    co'.code = farCode.code := by
  obtain ⟨c, co', h1, h2, _, h3, h4, h5, _⟩ := C76_identity Py311.wf (by decide) (id : Arg → Arg) eff311 farCode_ok.bytes farCode_ok.positions
    (rewritable_of (by decide +kernel) : Rewritable Py311.platform farCode).columns 9
  exact ⟨c, co', h1, h2, h5⟩

/-- The default round trip of the first one. -/
example : ∃ c co', Concrete.fromCode Py311.platform toCodeExCode = .ok c ∧ c.toCode Py311.platform (id : Arg → Arg) eff311 = .ok co' ∧
    (programCode Py311.platform (id : Arg → Arg) co').map Op.noDepth = (programCode Py311.platform (id : Arg → Arg) toCodeExCode).map Op.noDepth := by
  obtain ⟨c, b, h1, h2, h3, h4⟩ := C76_default_round_trip Py311.wf (by decide) (id : Arg → Arg) eff311 toCodeExCode_ok (rewritable_of (by decide +kernel))
    (by decide +kernel) (smallTables_of (by decide +kernel)) (by decide +kernel)
  have hb : Bytecode.fromCode Py311.platform toCodeExCode = .ok b := by unfold Bytecode.fromCode; rw [h1]; exact h2
  rw [toCodeEx_read] at hb
  cases hb
  obtain ⟨co', hco⟩ := h3.2 (by
    have hs := readEx_sized
    unfold Bytecode.sized at hs
    obtain ⟨g, hg, hs⟩ := except_bind_ok hs
    obtain ⟨r, hr, _⟩ := except_bind_ok hs
    exact ⟨g, r, hg, hr⟩)
  exact ⟨c, co', h1, hco, (h4 co' hco).1⟩

/-- A concrete instruction of 3.11 without location. -/
def ci311 (n : String) (a : Option Nat) : CInstr := ⟨n, (Py311.platform.opmap n).getD 0, a, none, none, sizeFor a none⟩

/-- A ConcreteBytecode with an EXTENDED_ARG written by hand (for nothing), a SetLineno and a region with its handler. -/
def rawEx : Concrete where
  attrs := Attrs.default
  consts := [.str "doc", .int 7]
  names := []
  varnames := []
  excTable := [⟨1, 2, 4, 0, false⟩]
  elems := [.instr (ci311 "RESUME" (some 0)), .setLineno 8, .instr (ci311 "EXTENDED_ARG" (some 0)),
    .instr (ci311 "LOAD_CONST" (some 1)), .instr (ci311 "RETURN_VALUE" none),
    .instr (ci311 "PUSH_EXC_INFO" none), .instr (ci311 "LOAD_CONST" (some 0)),
    .instr (ci311 "RETURN_VALUE" none)]

/-- Its EXTENDED_ARG folded. -/
def rawExFolded : List CElem := [.instr (ci311 "RESUME" (some 0)), .setLineno 8,
    .instr { ci311 "LOAD_CONST" (some 1) with ext := some 1, size := 4 }, .instr (ci311 "RETURN_VALUE" none),
    .instr (ci311 "PUSH_EXC_INFO" none), .instr (ci311 "LOAD_CONST" (some 0)),
    .instr (ci311 "RETURN_VALUE" none)]

def rawExRead : Bytecode := (toBytecode Py311.platform true false rawEx).toOption.get (by decide +kernel)
theorem rawExRead_ok : toBytecode Py311.platform true false rawEx = .ok rawExRead := toOption_ok (by simp [rawExRead])

example : ∃ co, rawEx.toCode Py311.platform (id : Arg → Arg) eff311 = .ok co ∧ (programCode Py311.platform (id : Arg → Arg) co).map Op.noDepth =
    ((programC Py311.platform (id : Arg → Arg) { rawEx with elems := rawExFolded }).map Op.noDepth).map (Op.mapLoc keptLoc) := by
  have hv : ∀ ci, .instr ci ∈ rawEx.elems → ValidCInstr Py311.platform ci := by
    have h1 : ∀ (n : String) (a : CArg), (CInstr.make Py311.platform (some n) a).toOption = some (ci311 n (match a with | .int v => some v.toNat | _ => none)) →
        ValidCInstr Py311.platform (ci311 n (match a with | .int v => some v.toNat | _ => none)) :=
      fun n a h => (C09_constructed_valid Py311.platform _ _ _ _ (by simp) _ _ (toOption_ok h)).1
    intro ci hci
    simp only [rawEx, List.mem_cons, CElem.instr.injEq, reduceCtorEq, List.not_mem_nil, or_false, false_or] at hci
    rcases hci with rfl | rfl | rfl | rfl | rfl | rfl | rfl
    · exact h1 "RESUME" (.int 0) (by decide +kernel)
    · exact h1 "EXTENDED_ARG" (.int 0) (by decide +kernel)
    · exact h1 "LOAD_CONST" (.int 1) (by decide +kernel)
    · exact h1 "RETURN_VALUE" .unset (by decide +kernel)
    · exact h1 "PUSH_EXC_INFO" .unset (by decide +kernel)
    · exact h1 "LOAD_CONST" (.int 0) (by decide +kernel)
    · exact h1 "RETURN_VALUE" .unset (by decide +kernel)
  have hc : ∃ co, rawEx.toCode Py311.platform (id : Arg → Arg) eff311 = .ok co := by
    rw [C76_defaults, rawExRead_ok]
    exact isOk_ok (x := rawExRead.toCode Py311.platform (id : Arg → Arg) eff311) (by decide +kernel)
  obtain ⟨co, hco⟩ := hc
  refine ⟨co, hco, C76_program Py311.wf (by decide) (.inl rfl) hv (toOption_ok (by decide +kernel)) (by decide +kernel)
    (fun h => absurd h (by decide)) (by decide +kernel) (by decide +kernel) hco ?_⟩
  intro b hb i hi
  rw [rawExRead_ok] at hb
  cases hb
  have h1 : rawExRead.elems.all (fun e => match e with
      | .instr i => (match i.arg with | .compare v => decide (v ≤ 5) | _ => true) && !Py311.platform.dual i.opcode
      | _ => true) = true := by decide +kernel
  have := List.all_eq_true.1 h1 _ hi
  simp only [Bool.and_eq_true, Bool.not_eq_true'] at this
  refine ⟨fun _ v hx => .inl ?_, fun hx => by rw [this.2] at hx; cases hx⟩
  have h3 := this.1
  rw [hx] at h3
  simpa using h3

end Verif
