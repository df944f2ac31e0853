import Verif.Props.FromCode
/-
A computable test of `CodeOK`, and concrete cases of C50, C51 and C52.
-/
namespace Verif
open Spec

/-- A test of `WellCoded`: `exts` are the bytes of the EXTENDED_ARG read so far. -/
def wellCodedB (P : Platform) (exts : List Nat) : Nat → Bytes → Bool
  | 0, bs => bs.isEmpty && exts.isEmpty
  | n + 1, bs =>
    match bs with
    | [] => exts.isEmpty
    | [_] => false
    | op :: a :: r =>
      decide (a < 256) &&
      if op = P.extendedArg then wellCodedB P (exts ++ [a]) n r
      else (P.opname op).isSome && decide (op ≠ 0) && decide (op < P.minInstrumented) && decide (op < 256) &&
        decide (wideArg exts a ≤ 2147483647) && (P.hasArg op || (exts.isEmpty && decide (a = 0))) &&
        decide (r.take (2 * P.cacheEntries op) = List.replicate (2 * P.cacheEntries op) 0) &&
        wellCodedB P [] n (r.drop (2 * P.cacheEntries op))

theorem wellCoded_of (P : Platform) (n : Nat) : ∀ exts bs, (∀ e ∈ exts, e < 256) → wellCodedB P exts n bs = true →
    WellCoded P (exts.flatMap (fun e => [P.extendedArg, e]) ++ bs) := by
  induction n with
  | zero =>
    intro exts bs _ h
    simp only [wellCodedB, Bool.and_eq_true, List.isEmpty_iff] at h
    rw [h.1, h.2]; exact .nil
  | succ n ih =>
    intro exts bs he h
    unfold wellCodedB at h
    split at h
    · rw [List.isEmpty_iff.1 h]; exact .nil
    · cases h
    · rename_i op a r
      rw [Bool.and_eq_true, decide_eq_true_iff] at h
      obtain ⟨ha, h⟩ := h
      split at h
      · rename_i hx
        subst hx
        have := ih (exts ++ [a]) r (by
          intro e hm
          rcases List.mem_append.1 hm with hm | hm
          · exact he e hm
          · rw [List.mem_singleton.1 hm]; exact ha) h
        simpa [List.flatMap_append, List.append_assoc] using this
      · rename_i hx
        simp only [Bool.and_eq_true, decide_eq_true_iff, Bool.or_eq_true, List.isEmpty_iff] at h
        obtain ⟨⟨⟨⟨⟨⟨⟨h1, h2⟩, h3⟩, h4⟩, h5⟩, h6⟩, h7⟩, h8⟩ := h
        obtain ⟨name, hn⟩ := Option.isSome_iff_exists.1 h1
        have hr : r = List.replicate (2 * P.cacheEntries op) 0 ++ r.drop (2 * P.cacheEntries op) := by
          conv => lhs; rw [← List.take_append_drop (2 * P.cacheEntries op) r]
          rw [h7]
        rw [hr]
        refine .instr exts name op a _ he hn h2 hx h3 h4 ha h5 ?_ ?_
        · intro hf
          rcases h6 with h6 | h6
          · rw [hf] at h6; cases h6
          · exact h6
        · have := ih [] _ (by simp) h8
          simpa using this

/-- A test of `ValidArgs true`. -/
def validPosB (p : Pos) : Bool :=
  p.line.all (decide <| 0 ≤ ·) && p.endLine.all (decide <| 1 ≤ ·) && p.col.all (decide <| 0 ≤ ·) && p.endCol.all (decide <| 0 ≤ ·) &&
  p.endLine.all (fun e => p.line.any (fun b => decide (b ≤ e))) && (p.col.isSome == p.endCol.isSome) && (!p.col.isSome || p.endLine.isSome) &&
  (decide (p.line ≠ p.endLine) || p.col.all (fun a => p.endCol.all (fun b => decide (a ≤ b))))

theorem validPos_of {p : Pos} (h : validPosB p = true) : ValidArgs true p.line p.endLine p.col p.endCol := by
  obtain ⟨l, el, c, ec⟩ := p
  simp only [validPosB, Bool.and_eq_true, Bool.or_eq_true, Option.all_eq_true, decide_eq_true_iff, Option.any_eq_true, beq_iff_eq,
    Bool.not_eq_true'] at h
  obtain ⟨⟨⟨⟨⟨⟨⟨h1, h2⟩, h3⟩, h4⟩, h5⟩, h6⟩, h7⟩, h8⟩ := h
  refine ⟨fun x hx => by simpa using h1 x hx, h2, h3, h4, fun e he => ?_, h6, fun hc => ?_, fun he a b ha hb => ?_⟩
  · obtain ⟨b, hb, hbe⟩ := h5 e he; exact ⟨b, hb, hbe⟩
  · rcases h7 with h7 | h7
    · rw [hc] at h7; cases h7
    · exact h7
  · rcases h8 with h8 | h8
    · exact absurd he h8
    · exact h8 a ha b hb

/-- A test of `CodeOK`. -/
def codeOKB (P : Platform) (co : Code) : Bool :=
  let fs := fetched P co
  let rs := regions co
  let fst := fs.map (·.first)
  wellCodedB P [] (co.code.length + 1) co.code && ((readLocs co.firstlineno co.linetable).getD []).all validPosB &&
  fs.all (fun f => (jumpUnit P f).all (fun (t : Int) => fs.any (fun g => decide (t = (g.first : Int))))) &&
  (programCode P (id : Arg → Arg) co).all (fun o => decide (o.operand ≠ .invalid)) &&
  fs.all (fun f => !P.hascompare f.opcode || decide (CompareMember P (compareOf P f.arg))) &&
  fs.all (fun f => (!P.intrinsic1 f.opcode || decide (f.arg ≤ 11)) && (!P.intrinsic2 f.opcode || decide (f.arg ≤ 4))) &&
  fs.all (fun f => !P.dual f.opcode || [f.arg / 16, f.arg % 16].all (fun k => match (localSlots P (tablesOf co))[k]? with
    | some (.named _) => true
    | _ => false)) &&
  (!P.py313 || co.freevars.all (fun n => !co.varnames.contains n)) &&
  co.consts.all (fun v => match v with
    | .unset | .label _ | .block _ => false
    | _ => true) &&
  rs.all (fun r => decide (0 < r.size) && decide (r.start ∈ fst) && (decide (r.start + r.size ∈ fst) || decide (r.start + r.size = co.code.length / 2)) &&
    decide (r.target ∈ fst)) &&
  decide (rs.Pairwise (fun r s => r.start + r.size ≤ s.start ∨ s.start + s.size ≤ r.start))

theorem codeOK_of {P : Platform} {co : Code} (h : codeOKB P co = true) : CodeOK P co := by
  simp only [codeOKB, Bool.and_eq_true, List.all_eq_true, decide_eq_true_iff, Bool.or_eq_true, Option.all_eq_true, List.any_eq_true] at h
  obtain ⟨⟨⟨⟨⟨⟨⟨⟨⟨⟨h1, h2⟩, h3⟩, h4⟩, h5⟩, h6⟩, h7⟩, h8⟩, h9⟩, h10⟩, h11⟩ := h
  have hfst : ∀ x, x ∈ (fetched P co).map (·.first) → ∃ f ∈ fetched P co, x = f.first := by
    intro x hx
    obtain ⟨f, hf, e⟩ := List.mem_map.1 hx
    exact ⟨f, hf, e.symm⟩
  constructor
  · have := wellCoded_of P _ [] _ (by simp) h1
    simpa using this
  · exact fun p hp => validPos_of (h2 p hp)
  · exact fun f hf t ht => h3 f hf t ht
  · exact h4
  · intro f hf hc
    rcases h5 f hf with h | h
    · rw [hc] at h; cases h
    · exact h
  · intro f hf
    obtain ⟨a, b⟩ := h6 f hf
    refine ⟨fun hc => ?_, fun hc => ?_⟩
    · rcases a with a | a
      · rw [hc] at a; cases a
      · exact a
    · rcases b with a | a
      · rw [hc] at a; cases a
      · exact a
  · intro f hf hd k hk
    rcases h7 f hf with h | h
    · rw [hd] at h; cases h
    · have := h k hk
      split at this
      · rename_i n hx; exact ⟨n, hx⟩
      · cases this
  · intro hp n hn hv
    rcases h8 with h | h
    · rw [hp] at h; cases h
    · have := h n hn; simp [hv] at this
  · intro v hv
    have := h9 v hv
    cases v <;> simp_all
  · intro r hr
    obtain ⟨⟨⟨a, b⟩, c⟩, d⟩ := h10 r hr
    refine ⟨a, hfst _ b, ?_, hfst _ d⟩
    rcases c with c | c
    · exact .inl (hfst _ c)
    · exact .inr c
  · exact h11

/-! ### A concrete case -/

/-- The code object of C48's example: a try region with a conditional jump in it, a loop, cell, free, local and global
variables, columns, caches. -/
theorem toCodeExCode_ok : CodeOK Py311.platform toCodeExCode := codeOK_of (by decide +kernel)

/-- A code object with an EXTENDED_ARG before a jump and one at the start of a try region. -/
def farCode : Code where
  argcount := 1
  posonlyargcount := 0
  kwonlyargcount := 0
  nlocals := 1
  stacksize := 5
  flags := 0
  code := [151, 0, 124, 0, 144, 1, 114, 0] ++ (List.replicate 256 [9, 0]).flatten ++ [144, 1, 100, 0, 83, 0, 35, 0, 83, 0]
  consts := .other 0 :: (List.range 256).map (fun n => .int n)
  names := []
  varnames := ["a"]
  filename := "f.py"
  name := "f"
  qualname := "f"
  firstlineno := 1
  linetable := [128, 0]
  exctable := [196, 4] ++ [2] ++ [196, 7] ++ [1]
  freevars := []
  cellvars := []

theorem farCode_ok : CodeOK Py311.platform farCode := codeOK_of (by decide +kernel)

/-- C50, C51 on these two. -/
example : ∃ c, Concrete.fromCode Py311.platform farCode = .ok c ∧
    programC Py311.platform (id : Arg → Arg) c = programCode Py311.platform (id : Arg → Arg) farCode := by
  obtain ⟨c, h1, h2, _⟩ := C50_concrete_from_code Py311.wf (by decide) (id : Arg → Arg) farCode_ok.bytes farCode_ok.positions
  exact ⟨c, h1, h2⟩

example : ∃ b, Bytecode.fromCode Py311.platform farCode true true = .ok b ∧
    programB Py311.platform (id : Arg → Arg) b = programCode Py311.platform (id : Arg → Arg) farCode :=
  C51_conserve Py311.wf (by decide) (id : Arg → Arg) farCode_ok

/-- The jump over 256 instructions, and the constant 256 with the handler. -/
example : ((programCode Py311.platform (id : Arg → Arg) farCode)[2]?.map (fun o : Op Arg => (o.name, o.operand)),
      (programCode Py311.platform (id : Arg → Arg) farCode)[259]?.map (fun o : Op Arg => (o.name, o.operand, o.handler))) =
    (some ("POP_JUMP_FORWARD_IF_FALSE", .jump 259), some ("LOAD_CONST", .const (.int 255), some ⟨261, true, 0⟩)) := by
  decide +kernel

/-- What is read from the code object of C48's example, with label names `t` (the loop), `x` (the exit), `h` (the handler)
and the depth `d` of the handler. -/
def readEx (t x h : Nat) (d : Option Nat) : Bytecode :=
  let l4 : Option Loc := some ⟨some 4, some 4, none, none⟩
  let l5 : Option Loc := some ⟨some 5, some 5, none, none⟩
  let l6 : Option Loc := some ⟨some 6, some 6, some 2, some 4⟩
  { attrs := { Attrs.default with cellvars := ["a", "c"], freevars := ["f"], docstring := some (.str "doc") }
    argnames := []
    elems := [ins Py311.platform "RESUME" (.int 0) l4, ins Py311.platform "LOAD_CONST" (.int 7) l4, .label t,
      .tryBegin ⟨0, h, true, d⟩, ins Py311.platform "LOAD_FAST" (.str "b") l5, ins Py311.platform "LOAD_CONST" (.str "x") l6,
      ins Py311.platform "COMPARE_OP" (.compare 2) l6, ins Py311.platform "POP_JUMP_FORWARD_IF_FALSE" (.label x) l6, .tryEnd 0,
      ins Py311.platform "LOAD_GLOBAL" (.tuple [.bool true, .str "print"]) l6, ins Py311.platform "POP_TOP" .unset l6,
      ins Py311.platform "POP_TOP" .unset l6, ins Py311.platform "JUMP_BACKWARD" (.label t) l6, .label x,
      ins Py311.platform "LOAD_DEREF" (.free "f") l6, ins Py311.platform "RETURN_VALUE" .unset l6, .label h,
      ins Py311.platform "PUSH_EXC_INFO" .unset l6, ins Py311.platform "LOAD_CONST" (.str "doc") l6,
      ins Py311.platform "RETURN_VALUE" .unset l6] }

theorem toCodeEx_read : Bytecode.fromCode Py311.platform toCodeExCode = .ok (readEx 2 17 19 none) := toOption_ok (by decide +kernel)

theorem readEx_sized : (readEx 2 17 19 none).sized Py311.platform eff311 true = .ok (5, readEx 1 3 4 (some 1)) := toOption_ok (by decide +kernel)

theorem readEx_emit : ((toConcrete Py311.platform (id : Arg → Arg) 10 (readEx 1 3 4 (some 1))).toOption.bind
    (fun c => (c.emit Py311.platform 5).toOption)).isSome = true := by
  decide +kernel

/-- The round trip succeeds on it, and C52 applies. -/
example : ∃ b co', Bytecode.fromCode Py311.platform toCodeExCode = .ok b ∧ b.toCode Py311.platform (id : Arg → Arg) eff311 = .ok co' ∧
    (programCode Py311.platform (id : Arg → Arg) co').map Op.noDepth = (programCode Py311.platform (id : Arg → Arg) toCodeExCode).map Op.noDepth := by
  have h : ∃ co', (readEx 2 17 19 none).toCode Py311.platform (id : Arg → Arg) eff311 = .ok co' := by
    unfold Bytecode.toCode
    rw [if_pos (by decide), readEx_sized]
    have h := readEx_emit
    show ∃ co', (toConcrete Py311.platform (id : Arg → Arg) 10 (readEx 1 3 4 (some 1)) >>= fun c => c.emit Py311.platform 5) = _
    cases hc : toConcrete Py311.platform (id : Arg → Arg) 10 (readEx 1 3 4 (some 1)) with
    | error e => rw [hc] at h; cases h
    | ok c =>
      rw [hc] at h
      obtain ⟨co', h⟩ := Option.isSome_iff_exists.1 h
      exact ⟨co', toOption_ok h⟩
  obtain ⟨co', h⟩ := h
  refine ⟨_, co', toCodeEx_read, h, ?_⟩
  refine C52_locations Py311.wf (by decide) toCodeExCode_ok (by decide +kernel) toCodeEx_read h ?_
  intro i hi hd
  have h1 : (readEx 2 17 19 none).elems.all (fun e => match e with
      | .instr i => !Py311.platform.dual i.opcode
      | _ => true) = true := by decide +kernel
  have := List.all_eq_true.1 h1 _ hi
  simp [hd] at this

end Verif
