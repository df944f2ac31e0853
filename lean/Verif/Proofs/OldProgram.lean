import Verif.Spec.OldProgram
import Verif.Proofs.CodeProgram
import Verif.Props.LineTables
/-
The program of a code object of 3.8 to 3.10 and that of a ConcreteBytecode.
-/
namespace Verif
open Spec
variable {κ : Type} {P : Platform}

/-- Bytes per unit of offset. -/
def scaleOf (P : Platform) : Nat := if P.py310 then 2 else 1

theorem scale_width {i : CInstr} (h : i.size % 2 = 0) : scaleOf P * width P i = i.size := by
  unfold scaleOf width
  cases P.py310 <;> simp <;> omega

theorem scale_pos : 0 < scaleOf P := by unfold scaleOf; split <;> omega

theorem old_opcode (hP : P.WF) (h11 : P.py311 = false) {i : CInstr} (hv : ValidCInstr P i) : i.opcode ≠ 0 :=
  fun h => hP.no_zero h11 i.name (by rw [hv.name_op, h])

/-- Before 3.11 nothing is called CACHE. -/
def NoCacheName (P : Platform) : Prop := P.opmap "CACHE" = none

theorem opAtByte_lt (P : Platform) (t : Int) (len : Nat) (fs : List Fetched) (h : ∀ f ∈ fs, t < 2 * (f.first : Int)) (hl : t < len) : ∀ n, opAtByte P t len n fs = none := by
  induction fs with
  | nil => intro n; simp [opAtByte]; omega
  | cons f fs ih =>
    intro n
    have := h f (by simp)
    rw [opAtByte, if_neg (by omega), ih (fun x hx => h x (by simp [hx]))]

theorem opAtByte_fetched (hP : P.WF) (h11 : P.py311 = false) (t : Int) (is : List CInstr) (hr : ∀ i ∈ is, Readable P i) (hc : ∀ i ∈ is, i.name ≠ "CACHE") :
    ∀ u cur n, scaleOf P * cur = 2 * u → opAtByte P (scaleOf P * t) (2 * (u + unitsOf is)) n (fetchedOf u is) = opAt P t cur n (is.map .instr) := by
  have hs := scale_pos (P := P)
  have hinj : ∀ (cur u : Nat), scaleOf P * cur = 2 * u → ((scaleOf P : Int) * t = 2 * (u : Int) ↔ t = cur) := by
    intro cur u h
    have h' : (scaleOf P : Int) * cur = 2 * u := by exact_mod_cast h
    rw [← h']
    constructor
    · intro e; exact Int.eq_of_mul_eq_mul_left (by omega) e
    · intro e; rw [e]
  induction is with
  | nil =>
    intro u cur n hu
    have := hinj cur u hu
    have e : (((2 * (u + unitsOf []) : Nat)) : Int) = 2 * (u : Int) := by simp [unitsOf]
    simp only [fetchedOf, opAtByte, List.map_nil, opAt, e, this]
  | cons i is ih =>
    intro u cur n hu
    have hi := hr i (by simp)
    have hsz := size_of_units hi
    have e : 2 * (u + unitsOf (i :: is)) = 2 * ((u + i.size / 2) + unitsOf is) := by simp [unitsOf]; omega
    rw [e]
    have hu' : scaleOf P * (cur + width P i) = 2 * (u + i.size / 2) := by
      rw [Nat.mul_add, hu, scale_width (by omega)]; omega
    simp only [List.map_cons, opAt, fetchedOf, if_neg (old_opcode hP h11 hi.valid), opAtByte, if_neg (hc i (by simp))]
    rw [ih (fun x hx => hr x (by simp [hx])) (fun x hx => hc x (by simp [hx])) _ _ _ hu', nameOf_valid hP hi.valid]
    have := hinj cur u hu
    by_cases ht : t = cur
    · rw [if_pos (this.2 ht), if_pos ht]
    · rw [if_neg (fun h => ht (this.1 h)), if_neg ht]

theorem old_layout (hP : P.WF) (h11 : P.py311 = false) (is : List CInstr) (hr : ∀ i ∈ is, Readable P i) : CacheLayout P is := by
  induction is with
  | nil => exact .nil
  | cons i is ih =>
    exact .group i [] is (old_opcode hP h11 (hr i (by simp)).valid) (by simp [hP.old_cache h11]) (by simp) (ih (fun x hx => hr x (by simp [hx])))

/-- Only the tables matter. -/
theorem expandC_old (h11 : P.py311 = false) {key : Arg → κ} {c c' : Concrete} {d : Option Nat} {i i' : CInstr}
    (h1 : c'.consts = c.consts) (h2 : c'.names = c.names) (h3 : c'.varnames = c.varnames)
    (h4 : c'.attrs.cellvars = c.attrs.cellvars) (h5 : c'.attrs.freevars = c.attrs.freevars)
    (k1 : i'.name = i.name) (k2 : i'.opcode = i.opcode) (k3 : i'.arg = i.arg) :
    expandC P key c' d i' = expandC P key c d i := by
  have e1 : localSlots P c' = localSlots P c := by
    unfold localSlots; rw [h4, h3, h5]
  have e2 : derefSlots P c' = derefSlots P c := by
    unfold derefSlots; rw [h3, h4, h5]
  unfold expandC operandC
  rw [k1, k2, k3, e1, e2, h1, h2]

/-- What is fetched from assembled instructions. -/
theorem fetch_old (hP : P.WF) (h11 : P.py311 = false) {co : Code} {is : List CInstr} (hr : ∀ i ∈ is, Readable P i) (hcode : co.code = is.flatMap (CInstr.assemble P)) :
    fetch P 0 0 0 0 co.code = fetchedOf 0 is ∧ co.code.length = 2 * unitsOf is := by
  refine ⟨by rw [hcode]; exact fetch_layout P hP is (old_layout hP h11 is hr) hr 0, ?_⟩
  rw [hcode]
  clear hcode
  induction is with
  | nil => rfl
  | cons i is ih =>
    have hi := hr i (by simp)
    have := size_of_units hi
    simp only [List.flatMap_cons, List.length_append]
    rw [ih (fun x hx => hr x (by simp [hx])), hi.size]
    simp only [unitsOf, List.map_cons, List.sum_cons]
    omega

/-- A code object and a ConcreteBytecode with the same instructions, tables and (through `f`) lines denote the same
program. -/
theorem code_program_old (hP : P.WF) (h11 : P.py311 = false) (key : Arg → κ) (c : Concrete) (co : Code) (is : List CInstr) {β : Type} (g f : Op κ → β)
    (he : c.elems = is.map .instr) (hr : ∀ i ∈ is, Readable P i) (hc : ∀ i ∈ is, i.name ≠ "CACHE")
    (hfs : fetch P 0 0 0 0 co.code = fetchedOf 0 is) (hlen : co.code.length = 2 * unitsOf is)
    (t1 : co.consts = c.consts) (t2 : co.names = c.names) (t3 : co.varnames = c.varnames)
    (t4 : co.cellvars = c.attrs.cellvars) (t5 : co.freevars = c.attrs.freevars)
    (hloc : ∀ (a : List CInstr) (i : CInstr) (r : List CInstr) (line : Nat) (x : String) (y : Operand κ) (p : Nat), is = a ++ i :: r →
      g ⟨x, y, Loc.line ((lineOfByte P co (2 * (unitsOf a + i.size / 2 - 1))).map Int.toNat), none⟩ = f ⟨x, y, i.loc.getD (Loc.line (some line)), handlerAt P c p⟩) :
    (programOld P key co).map g = (programC P key c).map f := by
  have hsz : ∀ i ∈ is, i.size % 2 = 0 ∧ 2 ≤ i.size := by
    intro i hi
    have := size_of_units (hr i hi)
    omega
  have hop : ∀ t : Int, opAtByte P (scaleOf P * t) co.code.length 0 (fetchedOf 0 is) = opAt P t 0 0 c.elems := by
    intro t
    rw [hlen, he]
    have := opAtByte_fetched hP h11 t is hr hc 0 0 0 (by simp)
    rwa [Nat.zero_add] at this
  -- the walk
  have key' : ∀ (r a : List CInstr) (line cur : Nat), is = a ++ r → scaleOf P * cur = 2 * unitsOf a →
      ((fetchedOf (unitsOf a) r).flatMap (fun f =>
        (expandC P key (tablesOf co) ((jumpByte P f).bind (fun t => opAtByte P t co.code.length 0 (fetchedOf 0 is)))
          ⟨nameOf P f.opcode, f.opcode, if P.hasArg f.opcode then some f.arg else none, none, none, 2⟩).map
        (fun p => (⟨p.1, p.2, Loc.line ((lineOfByte P co (2 * f.unit)).map Int.toNat), none⟩ : Op κ)))).map g =
      (opsC P key c line cur (r.map .instr)).map f := by
    intro r
    induction r with
    | nil => intro a line cur _ _; rfl
    | cons i r ih =>
      intro a line cur e hcur
      have hi : i ∈ is := by rw [e]; simp
      have hri := hr i hi
      have hv := hri.valid
      have hs := hsz i hi
      have e' : is = (a ++ [i]) ++ r := by rw [e]; simp
      have eu : unitsOf (a ++ [i]) = unitsOf a + i.size / 2 := by simp [unitsOf]
      have h0 := old_opcode hP h11 hv
      simp only [List.map_cons, opsC, List.map_append]
      have hcur' : scaleOf P * (cur + width P i) = 2 * (unitsOf a + i.size / 2) := by
        rw [Nat.mul_add, hcur, scale_width hs.1]; omega
      have ih' := ih (a ++ [i]) ((i.loc.bind (·.lineno)).getD line) (cur + width P i) e' (by rw [eu]; exact hcur')
      rw [eu] at ih'
      rw [← ih']
      simp only [fetchedOf, h0, if_false, List.flatMap_cons, List.map_append]
      congr 1
      have harg : (if P.hasArg i.opcode then some (i.arg.getD 0) else none) = i.arg := by
        by_cases ha : P.hasArg i.opcode = true
        · rw [if_pos ha]
          obtain ⟨v, hv'⟩ := Option.isSome_iff_exists.1 (hv.arg_required ha)
          rw [hv']; rfl
        · rw [if_neg ha, hv.arg_forbidden (by simpa using ha) h0]
      have hexp : expandC P key (tablesOf co) ((jumpByte P ⟨i.opcode, i.arg.getD 0, unitsOf a, unitsOf a + i.size / 2 - 1⟩).bind
            (fun t => opAtByte P t co.code.length 0 (fetchedOf 0 is)))
          ⟨nameOf P i.opcode, i.opcode, if P.hasArg i.opcode then some (i.arg.getD 0) else none, none, none, 2⟩ =
          expandC P key c ((i.getJumpTarget P cur).bind (fun t => opAt P t 0 0 c.elems)) i := by
        rw [expandC_old (i' := ⟨nameOf P i.opcode, i.opcode, if P.hasArg i.opcode then some (i.arg.getD 0) else none, none, none, 2⟩) h11 (c' := tablesOf co) (c := c) (i := i) t1 t2 t3 t4 t5 (nameOf_valid hP hv) rfl harg]
        by_cases hj : P.hasJump i.opcode = true
        · obtain ⟨v, hv'⟩ := Option.isSome_iff_exists.1 (hv.arg_required (hasJump_hasArg hP hv hj))
          congr 1
          have hju : jumpByte P ⟨i.opcode, i.arg.getD 0, unitsOf a, unitsOf a + i.size / 2 - 1⟩ = (i.getJumpTarget P cur).map (fun t => (scaleOf P : Int) * t) := by
            have e1 : (2 : Int) * (((unitsOf a + i.size / 2 - 1 : Nat) : Int) + 1) = (scaleOf P : Int) * ((cur : Int) + (width P i : Int)) := by
              have : ((scaleOf P * (cur + width P i) : Nat) : Int) = ((2 * (unitsOf a + i.size / 2) : Nat) : Int) := by rw [hcur']
              push_cast at this
              rw [this]; omega
            have e2 : (if P.py310 = true then (2 : Int) else 1) = scaleOf P := by unfold scaleOf; split <;> rfl
            have e3 : (if P.py310 = true then i.size / 2 else i.size) = width P i := rfl
            unfold jumpByte CInstr.getJumpTarget CInstr.useCacheOpcodes
            rw [hv']
            simp only [nameOf_valid hP hv, h11, Option.getD_some, e1, e2, e3, Bool.false_eq_true, if_false, Nat.add_zero]
            split
            · simp only [Option.map_some, Option.some.injEq]; grind
            · split
              · simp only [Option.map_some, Option.some.injEq]; grind
              · split <;> rfl
          rw [hju]
          cases i.getJumpTarget P cur with
          | none => rfl
          | some t => exact hop t
        · exact expandC_dest (by simpa using hj)
      rw [hexp, List.map_map, List.map_map]
      apply List.map_congr_left
      intro p _
      exact hloc a i r _ p.1 p.2 _ e
  unfold programOld programC
  rw [hfs, he]
  exact key' is [] _ 0 rfl (by simp [unitsOf])

/-! ### Lines -/

theorem emit_old {c : Concrete} {co : Code} {n : Int} (h11 : P.py311 = false) (h : c.emit P n = .ok co) :
    co.code = (instrsOf c.elems).flatMap (CInstr.assemble P) ∧ co.consts = c.consts ∧ co.names = c.names ∧ co.varnames = c.varnames ∧
    co.cellvars = c.attrs.cellvars ∧ co.freevars = c.attrs.freevars ∧ co.firstlineno = c.attrs.firstLineno ∧ co.stacksize = n ∧
    (if P.py310 then assembleLinetable c.attrs.firstLineno (assembleCode P c.attrs.firstLineno c.elems).2
      else assembleLnotab c.attrs.firstLineno (assembleCode P c.attrs.firstLineno c.elems).2) = .ok co.linetable := by
  unfold Concrete.emit at h
  simp only [h11, if_false, Bool.false_eq_true] at h
  obtain ⟨table, htab, h⟩ := except_bind_ok h
  obtain ⟨exc, _, h⟩ := except_bind_ok h
  simp only [pure, Except.pure, Except.ok.injEq] at h
  subst h
  refine ⟨?_, rfl, rfl, rfl, ?_, rfl, rfl, rfl, htab⟩
  · show (assembleCodeLoop P 0 (normalizeLineno c.attrs.firstLineno c.elems)).1 = _
    rw [assembleCodeLoop_bytes]
  · show codeCellvars P _ _ = _
    unfold codeCellvars
    simp [h11]

theorem codeSize_instrs (is : List CInstr) (h : ∀ i ∈ is, i.size % 2 = 0) : codeSize (is.map .instr) = 2 * unitsOf is := by
  unfold codeSize unitsOf
  induction is with
  | nil => rfl
  | cons i is ih =>
    have := h i (by simp)
    simp only [List.map_cons, List.sum_cons] at *
    rw [ih (fun x hx => h x (by simp [hx]))]
    omega

theorem instrLines_all (is : List CInstr) (h : ∀ i ∈ is, ∃ l, i.loc = some l) : ∀ cur,
    instrLines cur (is.map .instr) = is.map (fun i => (i.size, i.loc.bind (·.lineno))) := by
  induction is with
  | nil => intro cur; rfl
  | cons i is ih =>
    intro cur
    obtain ⟨l, h1⟩ := h i (by simp)
    have ih' := ih (fun x hx => h x (by simp [hx]))
    cases h2 : l.lineno <;> simp [instrLines, h1, h2, ih']

/-- Lines kept, on instructions. -/
theorem noLineOK_of (is : List CInstr) (h : ∀ i ∈ is, ∃ l, i.loc = some l) (h8 : ∀ i ∈ is, 2 ≤ i.size ∧ i.size ≤ 8) :
    ∀ (prev run bytes : Nat), (run = 0 → bytes = 0) → bytes ≤ 8 * run → LinesKept prev run (is.map (fun i => i.loc.bind (·.lineno))) →
      NoLineOK prev prev bytes (is.map .instr) := by
  induction is with
  | nil => intro _ _ _ _ _ _; trivial
  | cons i is ih =>
    intro prev run bytes h0 hb hk
    obtain ⟨l, h1⟩ := h i (by simp)
    have hs := h8 i (by simp)
    have ih' := ih (fun x hx => h x (by simp [hx])) (fun x hx => h8 x (by simp [hx]))
    cases h2 : l.lineno with
    | none =>
      simp only [List.map_cons, h1, Option.bind_some, h2, LinesKept] at hk
      simp only [List.map_cons, NoLineOK, h1, h2]
      exact ⟨trivial, by omega, ih' _ _ _ (by omega) (by omega) hk.2⟩
    | some n =>
      simp only [List.map_cons, h1, Option.bind_some, h2, LinesKept] at hk
      simp only [List.map_cons, NoLineOK, h1, h2]
      exact ⟨hk.1.imp_left h0, ih' _ _ _ (fun _ => rfl) (by omega) hk.2⟩

/-- Writing: the line of each unit is that of its instruction. -/
theorem emit_lines {c : Concrete} {co : Code} {n : Int} (h11 : P.py311 = false) (h : c.emit P n = .ok co) (is : List CInstr) (he : c.elems = is.map .instr)
    (hsz : ∀ i ∈ is, i.size % 2 = 0 ∧ 2 ≤ i.size ∧ i.size ≤ 8) (hl : ∀ i ∈ is, ∃ l, i.loc = some l)
    (hw : LinesWritable P c.attrs.firstLineno (is.map (fun i => i.loc.bind (·.lineno))))
    (a : List CInstr) (i : CInstr) (r : List CInstr) (e : is = a ++ i :: r) :
    (lineOfByte P co (2 * (unitsOf a + i.size / 2 - 1))).map Int.toNat = i.loc.bind (·.lineno) := by
  obtain ⟨_, _, _, _, _, _, hfl, _, htab⟩ := emit_old h11 h
  have hi : i ∈ is := by rw [e]; simp
  have hs := hsz i hi
  unfold lineOfByte
  unfold LinesWritable at hw
  cases h10 : P.py310 with
  | true =>
    rw [h10] at htab hw
    simp only [if_true] at htab hw ⊢
    obtain ⟨bs, hb, hrd⟩ := C06_linetable_lines_partial P h10 c.attrs.firstLineno c.elems (by
      intro j hj; rw [he] at hj; obtain ⟨x, hx, ex⟩ := List.mem_map.1 hj; cases ex; have := hsz _ hx; omega) (by
      rw [he]; exact noLineOK_of is hl (fun j hj => (hsz j hj).2) _ 0 0 (fun _ => rfl) (by omega) hw)
    rw [hb] at htab
    cases htab
    rw [hfl, hrd, he, instrLines_all is hl, List.flatMap_map, e]
    have hsum : (a.map (fun i => i.size)).sum = 2 * unitsOf a := by
      have := codeSize_instrs a (fun j hj => (hsz j (by rw [e]; simp [hj])).1)
      rw [← this]
      unfold codeSize; rw [List.map_map]; rfl
    rw [show 2 * (unitsOf a + i.size / 2 - 1) = (a.map (fun i => i.size)).sum + (i.size - 2) by omega]
    rw [getElem_flatMap_replicate (fun i : CInstr => i.size) (fun i => (i.loc.bind (·.lineno)).map Int.ofNat) a i r _ (by omega)]
    cases i.loc.bind (·.lineno) <;> simp
  | false =>
    rw [h10] at htab hw
    simp only [Bool.false_eq_true, if_false] at htab hw ⊢
    obtain ⟨bs, hb, hq⟩ := C05_lnotab_lines P (by simpa [Platform.py310] using h10) c.attrs.firstLineno c.elems (by
      intro j hj; rw [he] at hj; obtain ⟨x, hx, ex⟩ := List.mem_map.1 hj; cases ex; exact (hsz _ hx).1)
    rw [hb] at htab
    cases htab
    have hcs := codeSize_instrs a (fun j hj => (hsz j (by rw [e]; simp [hj])).1)
    have := hq (a.map .instr) i (r.map .instr) (by rw [he, e]; simp) (2 * (unitsOf a + i.size / 2 - 1)) (by omega) (by omega)
    rw [hfl, this]
    obtain ⟨l, e1⟩ := hl i hi
    have hne := hw _ (List.mem_map.2 ⟨i, hi, rfl⟩)
    rw [e1, Option.bind_some] at hne
    obtain ⟨k, e2⟩ := Option.ne_none_iff_exists'.1 hne
    have hcl : currentLine c.attrs.firstLineno (a.map .instr ++ [.instr i]) = k := by
      unfold currentLine
      rw [List.filterMap_append]
      simp [lineOf, e1, e2]
    rw [hcl, e1]; simp [e2]

/-- A code object emitted from located instructions with writable lines denotes the program of the ConcreteBytecode, with their
lines. -/
theorem emit_program_old (hP : P.WF) (h11 : P.py311 = false) (key : Arg → κ) {c : Concrete} {co : Code} {n : Int} (h : c.emit P n = .ok co) (is : List CInstr)
    (he : c.elems = is.map .instr) (hr : ∀ i ∈ is, Readable P i) (h8 : ∀ i ∈ is, i.size ≤ 8) (hc : ∀ i ∈ is, i.name ≠ "CACHE") (hl : ∀ i ∈ is, ∃ l, i.loc = some l)
    (hw : LinesWritable P c.attrs.firstLineno (is.map (fun i => i.loc.bind (·.lineno)))) :
    programOld P key co = (programC P key c).map Op.lineOnly := by
  obtain ⟨h1, h2, h3, h4, h5, h6, _, _, _⟩ := emit_old h11 h
  rw [he, instrsOf_instrs] at h1
  obtain ⟨f1, f2⟩ := fetch_old hP h11 hr h1
  have := code_program_old hP h11 key c co is id Op.lineOnly he hr hc f1 f2 h2 h3 h4 h5 h6 ?_
  · rwa [List.map_id] at this
  intro a i r line x y hh e
  have hsz : ∀ i ∈ is, i.size % 2 = 0 ∧ 2 ≤ i.size ∧ i.size ≤ 8 := by
    intro i hi
    have := size_of_units (hr i hi)
    have := h8 i hi
    omega
  rw [emit_lines h11 h is he hsz hl hw a i r e]
  obtain ⟨l, e1⟩ := hl i (by rw [e]; simp)
  simp only [Op.lineOnly, e1, Option.bind_some, Option.getD_some, id]

/-- The same, whatever the lines, locations apart. -/
theorem emit_program_old_noloc (hP : P.WF) (h11 : P.py311 = false) (key : Arg → κ) {c : Concrete} {co : Code} {n : Int} (h : c.emit P n = .ok co) (is : List CInstr)
    (he : c.elems = is.map .instr) (hr : ∀ i ∈ is, Readable P i) (hc : ∀ i ∈ is, i.name ≠ "CACHE") :
    (programOld P key co).map (fun o => (o.name, o.operand)) = (programC P key c).map (fun o => (o.name, o.operand)) := by
  obtain ⟨h1, h2, h3, h4, h5, h6, _, _, _⟩ := emit_old h11 h
  rw [he, instrsOf_instrs] at h1
  obtain ⟨f1, f2⟩ := fetch_old hP h11 hr h1
  exact code_program_old hP h11 key c co is _ _ he hr hc f1 f2 h2 h3 h4 h5 h6 (fun _ _ _ _ _ _ _ _ => rfl)

end Verif
