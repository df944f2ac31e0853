import Verif.Props.ConcreteToCode
import Verif.Props.OldCodeEx
/-
C76 before 3.11: reading a code object as a ConcreteBytecode and writing it.
-/
namespace Verif
open Spec
section
variable {κ : Type} [DecidableEq κ]
variable {P : Platform} {key : Arg → κ} {eff : Instr → Bool → Py (Int × Int)} {co co' : Code} {c : Concrete}

theorem fetched_span (js : List CInstr) : ∀ u, ∀ j ∈ js, j.opcode ≠ 0 → ∃ f ∈ fetchedOf u js, f.unit = f.first + j.size / 2 - 1 := by
  induction js with
  | nil => intro u j hj; simp at hj
  | cons i js ih =>
    intro u j hj h0
    unfold fetchedOf
    rcases List.mem_cons.1 hj with rfl | hj
    · rw [if_neg h0]; exact ⟨_, List.mem_cons_self, rfl⟩
    · obtain ⟨f, hf, hx⟩ := ih (u + i.size / 2) j hj h0
      refine ⟨f, ?_, hx⟩
      split
      · exact hf
      · exact List.mem_cons_of_mem _ hf

/-- What the interpreter fetches determines the bytes. -/
theorem fetched_bytes (hP : P.WF) (h11 : P.py311 = false) (is : List CInstr) : ∀ (js : List CInstr) (u : Nat), (∀ i ∈ is, Readable P i) → (∀ j ∈ js, Readable P j) →
    fetchedOf u is = fetchedOf u js → js.flatMap (CInstr.assemble P) = is.flatMap (CInstr.assemble P) := by
  induction is with
  | nil =>
    intro js u _ hj h
    cases js with
    | nil => rfl
    | cons j js =>
      have := old_opcode hP h11 (hj j (by simp)).valid
      simp [fetchedOf, this] at h
  | cons i is ih =>
    intro js u hi hj h
    have h0 := old_opcode hP h11 (hi i (by simp)).valid
    cases js with
    | nil => simp [fetchedOf, h0] at h
    | cons j js =>
      have h0' := old_opcode hP h11 (hj j (by simp)).valid
      have r1 := hi i (by simp)
      have r2 := hj j (by simp)
      have s1 := size_of_units r1
      have s2 := size_of_units r2
      simp only [fetchedOf, if_neg h0, if_neg h0', List.cons.injEq, Fetched.mk.injEq] at h
      obtain ⟨⟨e1, e2, _, e3⟩, h⟩ := h
      have hs : j.size = i.size := by omega
      have ha : j.arg = i.arg := by
        by_cases hx : P.hasArg i.opcode = true
        · obtain ⟨v, hv⟩ := Option.isSome_iff_exists.1 (r1.valid.arg_required hx)
          obtain ⟨w, hw⟩ := Option.isSome_iff_exists.1 (r2.valid.arg_required (by rw [← e1]; exact hx))
          rw [hv, hw] at e2
          simp only [Option.getD_some] at e2
          rw [hv, hw, e2]
        · rw [r1.valid.arg_forbidden (by simpa using hx) h0, r2.valid.arg_forbidden (by rw [← e1]; simpa using hx) h0']
      have hn : nPrefix j = nPrefix i := by omega
      rw [List.flatMap_cons, List.flatMap_cons, assemble_eq P j r2.valid.size_eq, assemble_eq P i r1.valid.size_eq, ha, ← e1, hn]
      congr 1
      refine ih js (u + i.size / 2) (fun i h => hi i (by simp [h])) (fun j h => hj j (by simp [h])) ?_
      rw [h, hs]

/-- **C76 (identity before 3.11).** On 3.8 to 3.10, a code object read with `ConcreteBytecode.from_code` and written with `to_code(stacksize=n)` is written,
with the same code string (useless EXTENDED_ARG included), constants, names, variables and attributes in the same order and the same operations with
the same operands and jumps; when no instruction has more than three EXTENDED_ARG and the lines can be written (C63), the lines too. -/
theorem C76_identity_old (hP : P.WF) (h11 : P.py311 = false) (key : Arg → κ) (eff : Instr → Bool → Py (Int × Int)) (hb : WellCoded P co.code)
    (hl : OldLinesOK P co) (n : Int) (depths : Bool) :
    ∃ c co', Concrete.fromCodeOld P co = .ok c ∧ c.toCode P key eff (some n) depths = .ok co' ∧
      (programOld P key co').map (fun o => (o.name, o.operand)) = (programOld P key co).map (fun o => (o.name, o.operand)) ∧
      ((∀ f ∈ fetched P co, f.unit ≤ f.first + 3) → LinesWritable P co.firstlineno ((programOld P key co).map (·.loc.lineno)) →
        programOld P key co' = programOld P key co) ∧
      co'.stacksize = n ∧ co'.code = co.code ∧ co'.consts = co.consts ∧ co'.names = co.names ∧ co'.varnames = co.varnames ∧
      co'.nlocals = co.varnames.length ∧ co'.argcount = co.argcount ∧ co'.posonlyargcount = co.posonlyargcount ∧
      co'.kwonlyargcount = co.kwonlyargcount ∧ co'.flags = co.flags ∧ co'.filename = co.filename ∧ co'.name = co.name ∧
      co'.firstlineno = co.firstlineno ∧ co'.freevars = co.freevars ∧ co'.cellvars = co.cellvars := by
  obtain ⟨is, e, hr⟩ := wellCoded_old hP h11 hb
  obtain ⟨hf, hlen⟩ := fetch_old hP h11 hr e
  obtain ⟨js, g1, g2, g3, g4, g5⟩ := fromCodeOld_program hP h11 key hb hl
  have hins : instrsOf (readOld co js).elems = js := instrsOf_instrs js
  have hrj : ∀ j ∈ js, Readable P j := fun j hj => (g3 j hj).1
  have hnc : ∀ j ∈ js, j.name ≠ "CACHE" := fun j hj => old_name hP h11 (hrj j hj).valid
  have hsort : Sorted 0 (assembleCode P co.firstlineno (readOld co js).elems).2 := by
    have := assembleCodeLoop_infos P (readOld co js).elems co.firstlineno 0 (by
      intro i hi
      obtain ⟨j, hj, e⟩ := List.mem_map.1 hi
      cases e
      have := size_of_units (hrj _ hj)
      omega)
    simpa [assembleCode] using this
  have hem : ∃ co', (readOld co js).emit P n = .ok co' := by
    unfold Concrete.emit
    simp only [h11, Bool.false_eq_true, if_false]
    have ht : ∃ bs, (if P.py310 = true then assembleLinetable (readOld co js).attrs.firstLineno (assembleCode P (readOld co js).attrs.firstLineno (readOld co js).elems).2
        else assembleLnotab (readOld co js).attrs.firstLineno (assembleCode P (readOld co js).attrs.firstLineno (readOld co js).elems).2) = .ok bs := by
      split
      · exact assembleLinetable_total _ _ hsort
      · obtain ⟨bs, hb, _⟩ := assembleLnotabLoop_ok _ 0 (readOld co js).attrs.firstLineno hsort
        exact ⟨bs, hb⟩
    obtain ⟨bs, hb⟩ := ht
    exact bind_total hb (bind_total rfl ⟨_, rfl⟩)
  obtain ⟨co', he⟩ := hem
  have ht : (readOld co js).toCode P key eff (some n) depths = .ok co' := by
    unfold Concrete.toCode
    simp only [h11, Bool.false_and, Bool.false_eq_true, if_false]
    exact he
  obtain ⟨d1, d2, d3, d4, d5, d6, d7, d8, d9, d10, d11, d12, _, d14, d15, _⟩ := C76_direct (by simp [h11]) ht
  obtain ⟨_, _, _, _, q5, _⟩ := emit_old h11 he
  refine ⟨_, co', g1, ht, ?_, ?_, d5, ?_, d2, d3, d4, d6, d7, d8, d9, d10, d11, d12, d14, d15, q5⟩
  · rw [emit_program_old_noloc hP h11 key he js rfl hrj hnc, g2]
  · intro h8 hw
    have hw' : (js.map (fun i => i.loc.bind (·.lineno))) = (programOld P key co).map (·.loc.lineno) := by
      have h13 : P.py313 = false := by simp [Platform.py313, Platform.py311] at *; omega
      rw [← g2, programC, show (readOld co js).elems = js.map CElem.instr from rfl, opsC_opsI js (by
        intro j hj; obtain ⟨l, h, _⟩ := (g3 j hj).2; simp [h]), opsI_lines h13 js hnc (by
        intro j hj; obtain ⟨l, h, _⟩ := (g3 j hj).2; exact ⟨l, h⟩)]
    rw [emit_program_old hP h11 key he js rfl hrj ?_ hnc (fun j hj => by obtain ⟨l, h, _⟩ := (g3 j hj).2; exact ⟨l, h⟩) (by rw [hw']; exact hw), g2,
      programOld_lineOnly]
    intro j hj
    obtain ⟨f, hf, e1⟩ := fetched_span js 0 j hj (old_opcode hP h11 (hrj j hj).valid)
    have := h8 f (by rw [g4]; exact hf)
    have := size_of_units (hrj j hj)
    omega
  · rw [d1, hins, e]
    exact fetched_bytes hP h11 is js 0 hr hrj (by rw [← g4]; exact hf.symm)

end

section
/-- Two real code objects read as ConcreteBytecode and written. -/
example (n : Int) : ∃ c co', Concrete.fromCodeOld Py39.platform oldEx39 = .ok c ∧ c.toCode Py39.platform (id : Arg → Arg) (effOf Py39.platform true) (some n) true = .ok co' ∧
    programOld Py39.platform (id : Arg → Arg) co' = programOld Py39.platform (id : Arg → Arg) oldEx39 ∧ co'.code = oldEx39.code := by
  obtain ⟨c, co', h1, h2, _, h3, _, h4, _⟩ := C76_identity_old Py39.wf (by decide) (id : Arg → Arg) (effOf Py39.platform true) oldEx39_ok.bytes oldEx39_ok.lines n true
  exact ⟨c, co', h1, h2, h3 (by decide +kernel) (by decide +kernel), h4⟩

example (n : Int) : ∃ c co', Concrete.fromCodeOld Py310.platform oldEx310 = .ok c ∧ c.toCode Py310.platform (id : Arg → Arg) (effOf Py310.platform true) (some n) false = .ok co' ∧
    programOld Py310.platform (id : Arg → Arg) co' = programOld Py310.platform (id : Arg → Arg) oldEx310 ∧ co'.code = oldEx310.code := by
  obtain ⟨c, co', h1, h2, _, h3, _, h4, _⟩ := C76_identity_old Py310.wf (by decide) (id : Arg → Arg) (effOf Py310.platform true) oldEx310_ok.bytes oldEx310_ok.lines n false
  exact ⟨c, co', h1, h2, h3 (by decide +kernel) (by decide +kernel), h4⟩
end
end Verif
