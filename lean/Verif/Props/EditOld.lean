import Verif.Props.EditTotal
import Verif.Props.OldCodeEx
/-
C68 on 3.8 to 3.10.
-/
namespace Verif
open Spec
section
variable {κ : Type} [DecidableEq κ] {P : Platform} {key : Arg → κ} {pre mid mid' post : List BElem} {keep : Bool} {b b' : Bytecode} {co co' : Code}

theorem retarget_line (ψ : Nat → Nat) (o : Op κ) : (o.retarget ψ).lineOnly = o.lineOnly.retarget ψ := rfl

theorem tryAfter_none {es : List BElem} (h : ∀ e ∈ es, e.isTry = false) : tryAfter none es = none := by
  induction es with
  | nil => rfl
  | cons e es ih =>
    have ih' := ih (fun e he => h e (by simp [he]))
    cases e with
    | tryBegin t => cases h _ (List.mem_cons_self ..)
    | tryEnd t => exact ih'
    | _ => exact ih'

/-- **C68 (code objects, 3.8 to 3.10).** A code object as the compiler writes them is read, the instructions `mid` of the Bytecode are
replaced by the instructions `mid'`, and the result written, whatever the options. The code object written has the operations of the one
read, with the same names, operands and lines, except for those of `mid`, which are replaced by those of `mid'`; every target moved
with the operation it points to. (Lines that can be written: always so before 3.10, and when every instruction has a line.) -/
theorem C68_patch_before_311 (hP : P.WF) (h11 : P.py311 = false) {eff : Instr → Bool → Py (Int × Int)} {passes : Nat} {stacksize : Option Int}
    {prune conserve depths : Bool} (hok : OldCodeOK P co)
    (h : Bytecode.fromCodeOld P co prune conserve = .ok b) (hb : b.elems = pre ++ mid ++ post) (hb' : b' = { b with elems := pre ++ mid' ++ post })
    (hm : Instrs mid) (hm' : Instrs mid') (hc : Clear P pre mid post keep) (hl : LocationsKept mid mid' post)
    (hv : ∀ i, .instr i ∈ mid' → ValidInstr P i ∧ i.name ≠ "CACHE" ∧ (∀ x, i.arg ≠ .block x) ∧ ∀ v, i.arg = .compare v → CompareMember P v)
    (hline : LinesWritable P co.firstlineno ((programB P key b').map (·.loc.lineno)))
    (h' : b'.toCode P key eff passes stacksize depths = .ok co') :
    ∃ A B C X : List (Op κ), programOld P key co = A ++ B ++ C ∧ A.length = opNumber P pre ∧ B.length = opNumber P mid ∧
      programOld P key co' = A.map (Op.retarget (moved (opNumber P pre) (opNumber P mid) (opNumber P mid') keep)) ++
        X ++ C.map (Op.retarget (moved (opNumber P pre) (opNumber P mid) (opNumber P mid') keep)) ∧
      X = (opsB P key (fun l => labelPos P l 0 b'.elems) (locAfter (Loc.line (some co.firstlineno)) pre) none mid').map Op.lineOnly := by
  have e' : b'.elems = pre ++ mid' ++ post := by rw [hb']
  have ha : b'.attrs = b.attrs := by rw [hb']
  obtain ⟨h1, h2, h3, hno⟩ := C64_usable hP h11 hok h
  obtain ⟨b0, g1, g2, _, _, _, g3, _⟩ := fromCodeOld_parts hP h11 key hok prune conserve
  rw [h] at g1; cases g1
  have hf : b.attrs.firstLineno = co.firstlineno := congrArg Attrs.firstLineno g3
  have old : ∀ i, BElem.instr i ∈ b'.elems → .instr i ∈ b.elems ∨ .instr i ∈ mid' := by
    intro i hi
    rw [e'] at hi
    rw [hb]
    simp only [List.mem_append] at hi ⊢
    rcases hi with (hi | hi) | hi
    · exact .inl (.inl (.inl hi))
    · exact .inr hi
    · exact .inl (.inr hi)
  have h13 : P.py313 = false := by simp [Platform.py313, Platform.py311] at *; omega
  have hno' : ∀ e ∈ b'.elems, e.isTry = false := by
    intro e he
    rw [e'] at he
    simp only [List.mem_append] at he
    rcases he with (he | he) | he
    · exact hno e (by rw [hb]; simp [he])
    · obtain ⟨i, rfl⟩ := hm' e he; rfl
    · exact hno e (by rw [hb]; simp [he])
  have hp' := C63_to_code_lines hP h11 (fun e he => ?_) (fun i hi => ?_) (fun i hi => ?_)
    (noTry_wellTried hno' _ _) h' (fun i hi => ⟨fun hcmp v hva => ?_, fun hd => ?_⟩) (by rw [ha, hf]; exact hline)
  · obtain ⟨A, B, C, X, q1, q2, q3, q4, q5, q6⟩ := C68_edit_program (P := P) (key := key) (b := b) (b' := b') hb e' (by rw [ha]) hm hm' hc hl
    have hk : ∀ o ∈ A ++ B ++ C, o.lineOnly = o := by
      intro o ho
      rw [← q1, g2] at ho
      have h4 : (programOld P key co).map Op.lineOnly = (programOld P key co).map id := by rw [programOld_lineOnly, List.map_id]
      exact (List.map_inj_left.1 h4) o ho
    refine ⟨A, B, C, X.map Op.lineOnly, by rw [← g2, q1], q2, q3, ?_, ?_⟩
    · have hsame : ∀ (L : List (Op κ)) (ψ : Nat → Nat), (∀ o ∈ L, o.lineOnly = o) → (L.map (Op.retarget ψ)).map Op.lineOnly = L.map (Op.retarget ψ) := by
        intro L ψ hL
        rw [List.map_map]
        apply List.map_congr_left
        intro o ho
        simp only [Function.comp, retarget_line, hL o ho]
      rw [hp', q4]
      simp only [List.map_append]
      rw [hsame A _ (fun o ho => hk o (by simp [ho])), hsame C _ (fun o ho => hk o (by simp [ho]))]
    · rw [q6, hf]
      rw [tryAfter_none (fun e he => hno e (by rw [hb]; simp [he]))]
  · cases e with
    | instr i =>
      rcases old i he with hi | hi
      · simpa [BElem.isCache] using (h1 i hi).2.2
      · simpa [BElem.isCache] using (hv i hi).2.1
    | _ => rfl
  · rcases old i hi with hi | hi
    · exact (h1 i hi).1
    · exact (hv i hi).1
  · rcases old i hi with hi | hi
    · exact h2 i hi
    · exact (hv i hi).2.2.1
  · rcases old i hi with hi | hi
    · exact (operands_old hP h11 hok h co'.varnames i hi).compare hcmp v hva
    · exact (hv i hi).2.2.2 v hva
  · simp [Platform.dual, Platform.dualSingles, h13] at hd

theorem noTry_edit (hb : b.elems = pre ++ mid ++ post) (hb' : b' = { b with elems := pre ++ mid' ++ post }) (hm' : Instrs mid')
    (hno : ∀ e ∈ b.elems, e.isTry = false) : ∀ e ∈ b'.elems, e.isTry = false := by
  subst hb'
  intro e he
  simp only [List.mem_append] at he
  rcases he with (he | he) | he
  · exact hno e (by rw [hb]; simp [he])
  · obtain ⟨i, rfl⟩ := hm' e he; rfl
  · exact hno e (by rw [hb]; simp [he])

/-- **C68 (nothing fails, 3.8 to 3.10).** A code object as the compiler writes them is read, some of its instructions replaced by
insertable ones, and the result written with a stack size given: writing never fails. -/
theorem C68_written_before_311 (hP : P.WF) (h11 : P.py311 = false) (key : Arg → κ) (eff : Instr → Bool → Py (Int × Int)) {prune conserve : Bool}
    (hok : OldCodeOK P co) (hre : OldRewritable co)
    (h : Bytecode.fromCodeOld P co prune conserve = .ok b) (hb : b.elems = pre ++ mid ++ post) (hb' : b' = { b with elems := pre ++ mid' ++ post })
    (hm : Instrs mid) (hm' : Instrs mid') (hnew : ∀ i, .instr i ∈ mid' → Insertable P b pre post i)
    (hback : ∀ i l, .instr i ∈ pre → i.arg = .label l → isBackwardRelJump P i.name i.opcode = true → .label l ∉ post)
    (hsize : 8 * (b'.elems.map (room P)).sum + b.argnames.length + b.attrs.cellvars.length + b.attrs.freevars.length ≤ 2147483647)
    {passes : Nat} (hp : 3 * jumpCount b'.elems < passes) (n : Int) (depths : Bool) : ∃ co', b'.toCode P key eff passes (some n) depths = .ok co' := by
  obtain ⟨h1, h2, _⟩ := C65_rules hP h11 hok hre h
  have hno := noTry_edit hb hb' hm' (C64_usable hP h11 hok h).2.2.2
  have hrules := C68_edit_rules hb hb' hm hm' (begin_instr (noTry_wellTried hno _ _) (noTry_noEmpty hno _)) hnew hback h2
  exact (C59_written_iff_rules (key := key) hP eff (wellMade_edit hb hb' hm' hnew hsize h1) (fun h => by rw [h11] at h; cases h) hp
    (depths := depths) (.inl h11) n).2 ⟨hrules, fun h => by rw [h11] at h; cases h⟩

/-- **C68 (default options, 3.8 to 3.10).** With the default options the edited code is written iff its stack can be analysed. -/
theorem C68_default_before_311 (hP : P.WF) (h11 : P.py311 = false) (key : Arg → κ) (eff : Instr → Bool → Py (Int × Int)) {prune conserve : Bool}
    (hok : OldCodeOK P co) (hre : OldRewritable co)
    (h : Bytecode.fromCodeOld P co prune conserve = .ok b) (hb : b.elems = pre ++ mid ++ post) (hb' : b' = { b with elems := pre ++ mid' ++ post })
    (hm : Instrs mid) (hm' : Instrs mid') (hnew : ∀ i, .instr i ∈ mid' → Insertable P b pre post i)
    (hback : ∀ i l, .instr i ∈ pre → i.arg = .label l → isBackwardRelJump P i.name i.opcode = true → .label l ∉ post)
    (hsize : 8 * (b'.elems.map (room P)).sum + b.argnames.length + b.attrs.cellvars.length + b.attrs.freevars.length ≤ 2147483647)
    {passes : Nat} (hp : 3 * jumpCount b'.elems < passes) :
    (∃ co', b'.toCode P key eff passes = .ok co') ↔ ∃ g r, fromBytecode P b' = .ok g ∧ g.computeStacksize P eff true = .ok r := by
  obtain ⟨h1, h2, _⟩ := C65_rules hP h11 hok hre h
  obtain ⟨_, hlo, _, hno0⟩ := C64_usable hP h11 hok h
  have hno := noTry_edit hb hb' hm' hno0
  have hrules := C68_edit_rules hb hb' hm hm' (begin_instr (noTry_wellTried hno _ _) (noTry_noEmpty hno _)) hnew hback h2
  have hlo' : LabelsOnly b' := by
    intro i hi
    have e : b'.elems = pre ++ mid' ++ post := by rw [hb']
    rw [e] at hi
    simp only [List.mem_append] at hi
    rcases hi with (hi | hi) | hi
    · exact hlo i (by rw [hb]; simp [hi])
    · exact (hnew i hi).block
    · exact hlo i (by rw [hb]; simp [hi])
  rw [C60_default_before_311 hP h11 eff (wellMade_edit hb hb' hm' hnew hsize h1) hlo' (noTry_wellTried hno _ _) (noTry_noEmpty hno _) hp,
    noTry_zero hno]
  exact ⟨fun h => h.1, fun h => ⟨h, hrules⟩⟩

end

/-! ### A concrete case on 3.10 -/

/-- `oldEx310` read. -/
def oldRead310 : Bytecode := (Bytecode.fromCodeOld Py310.platform oldEx310).toOption.get (by decide +kernel)

theorem oldRead310_ok : Bytecode.fromCodeOld Py310.platform oldEx310 = .ok oldRead310 := toOption_ok (by simp [oldRead310])

/-- Two instructions that change nothing. -/
def editNew310 : List BElem := [.instr ⟨"LOAD_CONST", 100, .str "new", none⟩, .instr ⟨"POP_TOP", 1, .unset, none⟩]

theorem editNew310_instrs : Instrs editNew310 := by
  intro e he
  simp only [editNew310, List.mem_cons, List.not_mem_nil, or_false] at he
  rcases he with rfl | rfl <;> exact ⟨_, rfl⟩

theorem editNew310_insertable (i : Instr) (hi : .instr i ∈ editNew310) (pre post : List BElem) :
    Insertable Py310.platform oldRead310 pre post i := by
  have hvm := made_valid Py310.wf (es := editNew310) (by decide +kernel) i hi
  simp only [editNew310, List.mem_cons, List.not_mem_nil, or_false] at hi
  rcases hi with hi | hi <;> cases hi <;>
    exact ⟨⟨hvm, by decide +kernel⟩, (by intro x hx; cases hx), (by intro x hx; cases hx), (by rintro x (hx | hx) <;> cases hx),
      (by intro hj; exact absurd hj (by decide +kernel)), (by intro x hx; cases hx), (by intro x hx; cases hx), (by intro x _ hx; cases hx),
      (by intro x _ hx; cases hx), (by intro hd; exact absurd hd (by decide +kernel)), (by intro x hx; cases hx)⟩

/-- `oldEx310` read, with instructions added in the middle. -/
def editKept310 : Bytecode := { oldRead310 with elems := oldRead310.elems.take 5 ++ editNew310 ++ oldRead310.elems.drop 5 }

example (key : Arg → Arg) : ∃ co', editKept310.toCode Py310.platform key (effOf Py310.platform true) 16 (some 305) = .ok co' := by
  refine C68_written_before_311 (pre := oldRead310.elems.take 5) (mid := []) (mid' := editNew310) (post := oldRead310.elems.drop 5)
    Py310.wf (by decide) key _ oldEx310_ok ⟨by decide, by decide⟩ oldRead310_ok (by simp) rfl (by intro e he; cases he) editNew310_instrs
    (fun i hi => editNew310_insertable i hi _ _) ?_ (by decide +kernel) (by decide +kernel) 305 true
  intro i l hi hl hj
  have h1 : (oldRead310.elems.take 5).all (fun e => match e with
      | .instr i => !isBackwardRelJump Py310.platform i.name i.opcode
      | _ => true) = true := by decide +kernel
  have := List.all_eq_true.1 h1 _ hi
  simp [hj] at this

/-- A check that is enough for `Clear` without `keep`: the place edited comes right after an operation. -/
theorem clear_after {P : Platform} {p mid post : List BElem} {i : Instr} (hx : 0 < opCount P i.name i.opcode) :
    Clear P (p ++ [.instr i]) mid post false := by
  intro l p' q h
  rcases List.eq_nil_or_concat q with rfl | ⟨q', y, rfl⟩
  · have := (List.append_inj' h rfl).2
    simp at this
  · rw [List.concat_eq_append, ← List.cons_append, ← List.append_assoc] at h
    have := (List.append_inj' h rfl).2
    simp only [List.cons.injEq, and_true] at this
    subst this
    simp [opNumber]
    omega

/-- What the code object written says: five operations, the two new ones, and the rest, with the targets moved. -/
example {co' : Code} (h : editKept310.toCode Py310.platform (id : Arg → Arg) (effOf Py310.platform true) 16 (some 305) = .ok co') :
    ∃ A C : List (Op Arg), programOld Py310.platform id oldEx310 = A ++ C ∧ A.length = 4 ∧
      programOld Py310.platform id co' = A.map (Op.retarget (moved 4 0 2 false)) ++
        (opsB Py310.platform (id : Arg → Arg) (fun l => labelPos Py310.platform l 0 editKept310.elems) (locAfter (Loc.line (some 10)) (oldRead310.elems.take 5)) none editNew310).map Op.lineOnly ++
        C.map (Op.retarget (moved 4 0 2 false)) := by
  obtain ⟨A, B, C, X, h1, h2, h3, h4, h5⟩ := C68_patch_before_311 (b' := editKept310) (pre := oldRead310.elems.take 5) (mid := []) (mid' := editNew310) (post := oldRead310.elems.drop 5)
    (key := (id : Arg → Arg)) (keep := false) Py310.wf (by decide) oldEx310_ok oldRead310_ok (by simp) rfl (by intro e he; cases he) editNew310_instrs
    (by
      have e : oldRead310.elems.take 5 = oldRead310.elems.take 4 ++ [.instr ⟨"LOAD_CONST", 100, .str "x", some (Loc.line (some 12))⟩] := by decide +kernel
      rw [e]
      exact clear_after (by decide +kernel))
    (.inl (by
      intro i hi
      simp only [editNew310, List.nil_append, List.mem_cons, List.not_mem_nil, or_false] at hi
      rcases hi with hi | hi <;> cases hi <;> rfl))
    (fun i hi => ⟨(editNew310_insertable i hi [] []).valid.1, (editNew310_insertable i hi [] []).valid.2, (editNew310_insertable i hi [] []).block,
      (editNew310_insertable i hi [] []).compare⟩) (by decide +kernel) h
  have hB : B = [] := List.eq_nil_of_length_eq_zero (by rw [h3]; rfl)
  have e1 : opNumber Py310.platform (oldRead310.elems.take 5) = 4 := by decide +kernel
  have e2 : opNumber Py310.platform editNew310 = 2 := by decide +kernel
  have e3 : opNumber Py310.platform ([] : List BElem) = 0 := rfl
  rw [e1, e2, e3] at h4
  rw [e1] at h2
  refine ⟨A, C, by rw [h1, hB, List.append_nil], h2, ?_⟩
  rw [h4, h5]; rfl

end Verif
