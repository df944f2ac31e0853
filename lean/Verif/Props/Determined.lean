import Verif.Proofs.SameTable
import Verif.Props.Passes
import Verif.Props.ToCodeTotal
/-
C72: `to_code` depends on nothing but the program.
-/
namespace Verif
open Spec
section
variable {κ : Type} [DecidableEq κ] {P : Platform} {key : Arg → κ} {b b' : Bytecode} {c c' : Concrete} {T T' : Tabs} {M M' : List Cell}

/-! ### Constants up to their key -/

def mapConst (f : Arg → κ) : Operand Arg → Operand κ
  | .none => .none
  | .int v => .int v
  | .const k => .const (f k)
  | .name n => .name n
  | .flagName x n => .flagName x n
  | .flag2Name x y n => .flag2Name x y n
  | .slot s => .slot s
  | .compare v => .compare v
  | .intrinsic v => .intrinsic v
  | .jump t => .jump t
  | .invalid => .invalid

omit [DecidableEq κ] in
theorem operandB_map (key : Arg → κ) (tgt : Nat → Option Nat) (op : Nat) (a : Arg) :
    operandB P key tgt op a = mapConst key (operandB P id tgt op a) := by
  have hj : ∀ t, (jumpOr t : Operand κ) = mapConst key (jumpOr t) := by intro t; cases t <;> rfl
  unfold operandB
  split
  · cases a <;> first | rfl | exact hj _
  · split
    · rfl
    · split
      · cases a <;> rfl
      · split
        · repeat' split
          all_goals first | rfl | simp_all [mapConst]
        · split
          · cases a <;> rfl
          · split
            · cases a <;> rfl
            · cases a <;> rfl

omit [DecidableEq κ] in
theorem expandB_map (key : Arg → κ) (tgt : Nat → Option Nat) (i : Instr) :
    expandB P key tgt i = (expandB P id tgt i).map (fun p => (p.1, mapConst key p.2)) := by
  have hs : ∀ x, (slotOf x : Operand κ) = mapConst key (slotOf x) := by intro x; cases x <;> rfl
  unfold expandB
  split
  · rfl
  · split
    · split
      · simp [hs]
      · rfl
    · simp [operandB_map key]

omit [DecidableEq κ] in
theorem opsB_map (key : Arg → κ) (tgt : Nat → Option Nat) (es : List BElem) : ∀ (loc : Loc) (tr : Option TryB),
    opsB P key tgt loc tr es = (opsB P id tgt loc tr es).map (fun o => ⟨o.name, mapConst key o.operand, o.loc, o.handler⟩) := by
  induction es with
  | nil => intro _ _; rfl
  | cons e es ih =>
    intro loc tr
    cases e with
    | instr i => simp only [opsB, expandB_map key, List.map_append, List.map_map, ih]; rfl
    | _ => simp only [opsB, ih]

omit [DecidableEq κ] in
/-- The program with its constants compared up to `const_key` is known from the program with its constants. -/
theorem programB_key (key : Arg → κ) (h : programB P (id : Arg → Arg) b' = programB P (id : Arg → Arg) b) : programB P key b' = programB P key b := by
  unfold programB at h ⊢
  rw [opsB_map key, h, ← opsB_map key]

/-! ### Locations -/

theorem flay_locs (tgt : Nat → Option Nat) {A : Attrs} (es : List BElem) : ∀ (loc : Loc) (tr : Option TryB) (M : List Cell), FLay P key A T loc es M →
    (∀ i, .instr i ∈ es → i.name ≠ "CACHE" ∧ P.dual i.opcode = false) →
    (∀ d ∈ M, ∀ i, d.e = .instr i → d.code P = (mains P i.name d.loc d.enc) ++ List.replicate (nCaches P i.name) (mkI P "CACHE" (some 0) d.loc) ∧ (mains P i.name d.loc d.enc).length = 1) →
    (code P M).map (·.loc) = (opsB P key tgt loc tr es).flatMap (fun o => List.replicate (1 + nCaches P o.name) (some o.loc)) := by
  induction es with
  | nil =>
    intro loc tr M h _ _
    cases M with
    | nil => rfl
    | cons c L => exact absurd h (by simp [FLay])
  | cons e es ih =>
    intro loc tr M h hn hc
    cases M with
    | nil => exact absurd h (by simp [FLay])
    | cons d M =>
      obtain ⟨a1, a2, a3, a4⟩ := h
      have ih := fun tr => ih _ tr M a4 (fun i hi => hn i (by simp [hi])) (fun x hx => hc x (by simp [hx]))
      rw [code_cons, List.map_append]
      cases he : e with
      | instr i =>
        subst he
        obtain ⟨c1, c2⟩ := hc d (by simp) i a1
        obtain ⟨n1, n2⟩ := hn i (by simp)
        simp only [opsB, List.flatMap_append]
        have : (expandB P key tgt i).map (·.1) = [i.name] := by
          unfold expandB
          rw [if_neg n1]
          unfold Platform.dual at n2
          cases hd : P.dualSingles i.opcode with
          | none => rfl
          | some p => rw [hd] at n2; cases n2
        rw [ih tr]
        congr 1
        have hl : ∀ x ∈ d.code P, x.loc = some d.loc := fun x hx => cell_loc d x hx
        have hlen : (d.code P).length = 1 + nCaches P i.name := by rw [c1, List.length_append, c2, List.length_replicate]
        have h1 : (d.code P).map (·.loc) = List.replicate (1 + nCaches P i.name) (some d.loc) := by
          rw [← hlen]
          exact List.map_eq_replicate_iff.2 hl
        rw [h1, a2]
        obtain ⟨o, ho⟩ : ∃ o, expandB P key tgt i = [(i.name, o)] := by
          cases hx : expandB P key tgt i with
          | nil => rw [hx] at this; cases this
          | cons p l =>
            rw [hx] at this
            simp only [List.map_cons, List.cons.injEq, List.map_eq_nil_iff] at this
            exact ⟨p.2, by rw [this.2, ← this.1]⟩
        rw [ho]
        simp [nextLoc]
      | label l =>
        subst he
        rw [ih tr]; simp [Cell.code, a1, opsB, nextLoc]
      | setLineno l =>
        subst he
        rw [ih tr]; simp [Cell.code, a1, opsB, nextLoc]
      | tryBegin t =>
        subst he
        rw [ih (some t)]; simp [Cell.code, a1, opsB, nextLoc]
      | tryEnd t =>
        subst he
        rw [ih none]; simp [Cell.code, a1, opsB, nextLoc]

/-- The locations of the code: that of each operation, for its instruction and its caches. -/
theorem Final.code_locs (hF : Final P key b c T M) (hd : ∀ i, .instr i ∈ b.elems → P.dual i.opcode = false) :
    (code P M).map (·.loc) = (programB P key b).flatMap (fun o => List.replicate (1 + nCaches P o.name) (some o.loc)) := by
  refine flay_locs _ _ _ _ _ hF.lay (fun i hi => ⟨?_, hd i hi⟩) ?_
  · have := hF.noCache _ hi; simpa [BElem.isCache] using this
  · intro d hd' i hi
    have hin : d.e ∈ b.elems := by rw [← hF.lay.elems]; exact List.mem_map_of_mem hd'
    rw [hi] at hin
    rcases hF.shape hd' hi with ⟨a, h1, h2⟩ | ⟨n1, i1, n2, i2, _, hs, _⟩
    · rw [h1]; exact ⟨h2, rfl⟩
    · have := hd i hin
      unfold Platform.dual at this
      rw [hs] at this; cases this

theorem code_eq {l l' : List CInstr} (h1 : l'.map bareC = l.map bareC) (h2 : l'.map (·.loc) = l.map (·.loc)) : l' = l := by
  induction l generalizing l' with
  | nil => simpa using h1
  | cons i l ih =>
    cases l' with
    | nil => simp at h1
    | cons i' l' =>
      simp only [List.map_cons, List.cons.injEq] at h1 h2
      rw [ih h1.2 h2.2]
      congr 1
      obtain ⟨n, o, a, lo, e, s⟩ := i
      obtain ⟨n', o', a', lo', e', s'⟩ := i'
      have := h1.1
      simp only [bareC, CInstr.mk.injEq] at this
      simp only at h2
      simp only [CInstr.mk.injEq]
      exact ⟨this.1, this.2.1, this.2.2.1, h2.1, this.2.2.2.2.1, this.2.2.2.2.2⟩

/-! ### The conversion -/

omit [DecidableEq κ] in
theorem frameSlots_nodup {vs cs fs : List String} (h1 : vs.Nodup) (h2 : cs.Nodup) (h3 : fs.Nodup) : (frameSlots vs cs fs).Nodup := by
  unfold frameSlots
  rw [List.nodup_append]
  have hinj : ∀ {l : List String} {f : String → Slot}, (∀ a b, f a = f b → a = b) → l.Nodup → (l.map f).Nodup := by
    intro l f hf hl
    exact List.Nodup.map (fun a b h => hf a b h) hl
  refine ⟨hinj (fun a b h => by cases h; rfl) ?_, hinj (fun a b h => by cases h; rfl) h3, ?_⟩
  · rw [List.nodup_append]
    refine ⟨h1, h2.filter _, ?_⟩
    intro a ha x hx hax
    subst hax
    simp [ha] at hx
  · intro a ha x hx hax
    subst hax
    obtain ⟨n, _, rfl⟩ := List.mem_map.1 ha
    obtain ⟨m, _, hm⟩ := List.mem_map.1 hx
    cases hm

theorem dualUses_nil (hd : ∀ i, .instr i ∈ b.elems → P.dual i.opcode = false) : usesOf (dualUse P) b.elems = [] := by
  rw [List.eq_nil_iff_forall_not_mem]
  intro n hn
  obtain ⟨e, he, hx⟩ := List.mem_flatMap.1 hn
  cases e with
  | instr i =>
    simp only [dualUse, hd i he, Bool.false_eq_true, if_false] at hx
    cases hx
  | _ => cases hx

theorem nameTable_nodup (hP : P.WF) {passes : Nat} (hv : ∀ i, .instr i ∈ b.elems → ValidInstr P i) (h : toConcrete P key passes b = .ok c)
    (hargs : b.argnames.Nodup) : (c.consts.map key).Nodup ∧ c.names.Nodup ∧ c.varnames.Nodup := by
  obtain ⟨e1, e2, e3⟩ := C17_exact hP hv h
  refine ⟨by rw [e1]; exact firsts_nodup key _, ?_, ?_⟩
  · rw [e2]; have := firsts_nodup (id : String → String) (usesOf (nameUse P) b.elems); simpa using this
  · rw [e3, List.nodup_append]
    refine ⟨hargs, List.Nodup.filter _ ?_, ?_⟩
    · have := firsts_nodup (id : String → String) ((if P.py313 then usesOf (dualUse P) b.elems else []) ++ usesOf (localUse P) b.elems); simpa using this
    · intro a ha x hx hax
      subst hax
      have := (List.mem_filter.1 hx).2
      simp [ha] at this

/-- **C72.** The conversion depends on nothing but the program: two Bytecode without two-variable opcodes that have the same attributes and argument
names, denote the same program (operations, operands, targets, locations, handlers and their depths) and have the same protected regions are
converted to the same ConcreteBytecode. Labels (their identity, their number, the unused ones, where they stand among the markers), SetLineno and
repeated locations, the identity of TryBegin: nothing of these shows, and neither does the number of passes. -/
theorem C72_conversion (hP : P.WF) (h11 : P.py311 = true) {passes passes' : Nat} (hc : toConcrete P key passes b = .ok c)
    (hc' : toConcrete P key passes' b' = .ok c') (hcache : ∀ e ∈ b.elems, e.isCache = false) (hcache' : ∀ e ∈ b'.elems, e.isCache = false)
    (hv : ∀ i, .instr i ∈ b.elems → ValidInstr P i) (hv' : ∀ i, .instr i ∈ b'.elems → ValidInstr P i)
    (hw : WellTried none [] false b.elems) (hw' : WellTried none [] false b'.elems)
    (hd : ∀ i, .instr i ∈ b.elems → P.dual i.opcode = false) (hd' : ∀ i, .instr i ∈ b'.elems → P.dual i.opcode = false)
    (hok : ∀ i, .instr i ∈ b.elems → OperandOK P c.varnames i) (hok' : ∀ i, .instr i ∈ b'.elems → OperandOK P c'.varnames i)
    (hcell : ∀ i, .instr i ∈ b.elems → P.haslocal i.opcode = true → ∀ n, i.arg ≠ .cell n)
    (hcell' : ∀ i, .instr i ∈ b'.elems → P.haslocal i.opcode = true → ∀ n, i.arg ≠ .cell n)
    (hargs : b.argnames.Nodup) (hcells : b.attrs.cellvars.Nodup) (hfrees : b.attrs.freevars.Nodup)
    (hattrs : b'.attrs = b.attrs) (hargn : b'.argnames = b.argnames)
    (hprog : programB P (id : Arg → Arg) b' = programB P (id : Arg → Arg) b) (hreg : regionsB P b' = regionsB P b) : c' = c := by
  obtain ⟨T, M, hF⟩ := toConcrete_Final hP hcache hv hc
  obtain ⟨T', M', hF'⟩ := toConcrete_Final hP hcache' hv' hc'
  have hprogk := programB_key key hprog
  obtain ⟨n1, n2, n3⟩ := nameTable_nodup hP hv hc hargs
  obtain ⟨t1, t2, t3⟩ := C17_exact hP hv hc
  obtain ⟨t1', t2', t3'⟩ := C17_exact hP hv' hc'
  have u1 : usesOf (constUse P) b'.elems = usesOf (constUse P) b.elems := by
    have a := uses_consts (key := (id : Arg → Arg)) hP hcache hd
    have a' := uses_consts (key := (id : Arg → Arg)) hP hcache' hd'
    rw [hprog, ← a] at a'
    simpa using a'
  have u2 : usesOf (nameUse P) b'.elems = usesOf (nameUse P) b.elems := by
    rw [uses_names (key := key) hP hcache hv hd, uses_names (key := key) hP hcache' hv' hd', hprogk]
  have u3 : usesOf (localUse P) b'.elems = usesOf (localUse P) b.elems := by
    have a := uses_locals (key := key) hP hcache hv hd (usesOf (localUse P) b.elems ++ usesOf (localUse P) b'.elems) (fun n hn => by simp [hn])
      (fun i hi hl n hx => absurd hx (hcell i hi hl n))
    have a' := uses_locals (key := key) hP hcache' hv' hd' (usesOf (localUse P) b.elems ++ usesOf (localUse P) b'.elems) (fun n hn => by simp [hn])
      (fun i hi hl n hx => absurd hx (hcell' i hi hl n))
    rw [a', hprogk, ← a]
  rw [dualUses_nil hd] at t3
  rw [dualUses_nil hd', u3, hargn, ← t3] at t3'
  rw [u1, hattrs, ← t1] at t1'
  rw [u2, ← t2] at t2'
  have ha : c'.attrs = c.attrs := by rw [hF.attrs, hF'.attrs, hattrs]
  have hS : SameOps P key c c' := by
    have hfs : (frameSlots c.varnames c.attrs.cellvars c.attrs.freevars).Nodup := by
      rw [hF.attrs]; exact frameSlots_nodup n3 hcells hfrees
    refine ⟨?_, t1', t2', ?_, ?_, n1, n2, ?_, ?_, hF.program_valid hok⟩
    · rw [hF.program hok hw (toConcrete_depths hc), hF'.program hok' hw' (toConcrete_depths hc'), hprogk]
    · unfold localSlots; rw [t3', ha]
    · unfold derefSlots; rw [t3', ha]
    · unfold localSlots
      split
      · exact hfs
      · exact List.Nodup.map (fun a b h => by cases h; rfl) n3
    · unfold derefSlots
      rw [if_pos h11]
      exact hfs
  have hcode := same_code h11 hc hc' hF hF' hok hok' hd hd' hS
  have htab := same_table hF hF' hw hw' (toConcrete_depths hc) (toConcrete_depths hc') hcode hreg
  have hcc : code P M' = code P M := code_eq hcode (by rw [hF.code_locs hd, hF'.code_locs hd', hprogk])
  have he : c'.elems = c.elems := by rw [hF.elems, hF'.elems, hcc]
  obtain ⟨a1, a2, a3, a4, a5, a6⟩ := c
  obtain ⟨b1, b2, b3, b4, b5, b6⟩ := c'
  simp only at ha t1' t2' t3' htab he
  subst ha; subst t1'; subst t2'; subst t3'; subst htab; subst he
  rfl

/-- **C72.** The same of `to_code` with a given stack size: the code object is the same, whatever the labels, SetLineno, TryBegin identities and
the numbers of passes are. -/
theorem C72_to_code (hP : P.WF) (h11 : P.py311 = true) {eff eff' : Instr → Bool → Py (Int × Int)} {passes passes' : Nat} {n : Int} {co co' : Code}
    (hco : b.toCode P key eff passes (some n) false = .ok co) (hco' : b'.toCode P key eff' passes' (some n) false = .ok co')
    (hcache : ∀ e ∈ b.elems, e.isCache = false) (hcache' : ∀ e ∈ b'.elems, e.isCache = false)
    (hv : ∀ i, .instr i ∈ b.elems → ValidInstr P i) (hv' : ∀ i, .instr i ∈ b'.elems → ValidInstr P i)
    (hw : WellTried none [] false b.elems) (hw' : WellTried none [] false b'.elems)
    (hd : ∀ i, .instr i ∈ b.elems → P.dual i.opcode = false) (hd' : ∀ i, .instr i ∈ b'.elems → P.dual i.opcode = false)
    (hok : ∀ i, .instr i ∈ b.elems → OperandOK P co.varnames i) (hok' : ∀ i, .instr i ∈ b'.elems → OperandOK P co'.varnames i)
    (hcell : ∀ i, .instr i ∈ b.elems → P.haslocal i.opcode = true → ∀ n, i.arg ≠ .cell n)
    (hcell' : ∀ i, .instr i ∈ b'.elems → P.haslocal i.opcode = true → ∀ n, i.arg ≠ .cell n)
    (hargs : b.argnames.Nodup) (hcells : b.attrs.cellvars.Nodup) (hfrees : b.attrs.freevars.Nodup)
    (hattrs : b'.attrs = b.attrs) (hargn : b'.argnames = b.argnames)
    (hprog : programB P (id : Arg → Arg) b' = programB P (id : Arg → Arg) b) (hreg : regionsB P b' = regionsB P b) : co' = co := by
  unfold Bytecode.toCode at hco hco'
  simp only [Bool.and_false, Bool.false_eq_true, if_false] at hco hco'
  obtain ⟨c, hc, he⟩ := except_bind_ok hco
  obtain ⟨c', hc', he'⟩ := except_bind_ok hco'
  obtain ⟨_, _, hvn⟩ := emit_tables he
  obtain ⟨_, _, hvn'⟩ := emit_tables he'
  rw [hvn] at hok
  rw [hvn'] at hok'
  have := C72_conversion hP h11 hc hc' hcache hcache' hv hv' hw hw' hd hd' hok hok' hcell hcell' hargs hcells hfrees hattrs hargn hprog hreg
  rw [this, he] at he'
  cases he'
  rfl

/-- **C72.** And the second is written whenever the first is, if it follows the rules of the assembler (C58) and there are more passes than
EXTENDED_ARG before the jumps of the code object. -/
theorem C72_total (hP : P.WF) (h11 : P.py311 = true) {eff eff' : Instr → Bool → Py (Int × Int)} {passes : Nat} {n : Int} {co : Code}
    (hco : b.toCode P key eff passes (some n) false = .ok co) (hm : WellMade P b) (hm' : WellMade P b') (ha' : Assemblable P b')
    (hw : WellTried none [] false b.elems) (hw' : WellTried none [] false b'.elems)
    (hd : ∀ i, .instr i ∈ b.elems → P.dual i.opcode = false) (hd' : ∀ i, .instr i ∈ b'.elems → P.dual i.opcode = false)
    (hcell : ∀ i, .instr i ∈ b.elems → P.haslocal i.opcode = true → ∀ n, i.arg ≠ .cell n)
    (hcell' : ∀ i, .instr i ∈ b'.elems → P.haslocal i.opcode = true → ∀ n, i.arg ≠ .cell n)
    (hargs : b.argnames.Nodup) (hcells : b.attrs.cellvars.Nodup) (hfrees : b.attrs.freevars.Nodup)
    (hattrs : b'.attrs = b.attrs) (hargn : b'.argnames = b.argnames)
    (hprog : programB P (id : Arg → Arg) b' = programB P (id : Arg → Arg) b) (hreg : regionsB P b' = regionsB P b)
    (m : Nat) (hpass : jumpExtArgs P co < m) : b'.toCode P key eff' m (some n) false = .ok co := by
  unfold Bytecode.toCode at hco ⊢
  simp only [Bool.and_false, Bool.false_eq_true, if_false] at hco ⊢
  obtain ⟨c, hc, he⟩ := except_bind_ok hco
  obtain ⟨c', hc'⟩ := toConcrete_total hP key hm' ha' (Nat.lt_succ_self (3 * jumpCount b'.elems))
  have hv := fun i hi => (hm.valid i hi).1
  have hv' := fun i hi => (hm'.valid i hi).1
  have hop : ∀ {x : Bytecode} (vs : List String), WellMade P x → (∀ i, .instr i ∈ x.elems → P.dual i.opcode = false) →
      ∀ i, .instr i ∈ x.elems → OperandOK P vs i := by
    intro x vs hx hdx i hi
    exact ⟨fun hcmp v hv => hx.compare i v hi hcmp hv, fun h => by rw [hdx i hi] at h; cases h⟩
  have := C72_conversion hP h11 hc hc' (noCache_of hm) (noCache_of hm') hv hv' hw hw' hd hd' (hop _ hm hd) (hop _ hm' hd') hcell hcell' hargs hcells
    hfrees hattrs hargn hprog hreg
  subst this
  have h1 := toConcrete_enough hP (noCache_of hm') hv' hc' (m := m) (by rw [emit_prefixes hP (noCache_of hm) hv hc he]; exact hpass)
  rw [h1]
  exact he

end

/-- The example of C48 written differently: other labels, one of them unused, locations in the instructions instead of SetLineno, a label after the
TryBegin instead of before it, another TryBegin object. -/
def toCodeExOther : Bytecode where
  attrs := toCodeEx.attrs
  argnames := ["a"]
  elems := [.label 41, .setLineno 4, ins Py311.platform "RESUME" (.int 0), ins Py311.platform "LOAD_CONST" (.int 7),
    .tryBegin ⟨3, 22, true, some 1⟩, .label 20,
    ins Py311.platform "LOAD_FAST" (.str "b") (some (Loc.line (some 5))), ins Py311.platform "LOAD_CONST" (.str "x") (some ⟨some 6, some 6, some 2, some 4⟩),
    ins Py311.platform "COMPARE_OP" (.compare 2) (some ⟨some 6, some 6, some 2, some 4⟩), .label 40,
    ins Py311.platform "POP_JUMP_FORWARD_IF_FALSE" (.label 21), .tryEnd 3, ins Py311.platform "LOAD_GLOBAL" (.tuple [.bool true, .str "print"]), ins Py311.platform "POP_TOP", ins Py311.platform "POP_TOP",
    ins Py311.platform "JUMP_BACKWARD" (.label 20), .label 21,
    ins Py311.platform "LOAD_DEREF" (.free "f"), ins Py311.platform "RETURN_VALUE", .label 22, ins Py311.platform "PUSH_EXC_INFO",
    ins Py311.platform "LOAD_CONST" (.str "doc"), ins Py311.platform "RETURN_VALUE"]

/-- A check of the hypotheses about one Bytecode. -/
def plainly (P : Platform) (b : Bytecode) : Bool :=
  b.elems.all (fun e => match e with
    | .instr i => !P.dual i.opcode && (!P.haslocal i.opcode || (match i.arg with | .cell _ => false | _ => true))
    | _ => true)

theorem plainly_spec {P : Platform} {b : Bytecode} (h : plainly P b = true) : (∀ i, .instr i ∈ b.elems → P.dual i.opcode = false) ∧
    ∀ i, .instr i ∈ b.elems → P.haslocal i.opcode = true → ∀ n, i.arg ≠ .cell n := by
  have h := List.all_eq_true.1 h
  refine ⟨fun i hi => ?_, fun i hi hl n hn => ?_⟩
  · have := h _ hi; simp only [Bool.and_eq_true, Bool.not_eq_true'] at this; exact this.1
  · have := h _ hi; simp [hl, hn] at this

theorem isOk_ok {α : Type} {x : Py α} (h : x.toOption.isSome = true) : ∃ a, x = .ok a := by
  cases x with
  | error e => cases h
  | ok a => exact ⟨a, rfl⟩

theorem toCodeExSized_code : toCodeExSized.toCode Py311.platform (id : Arg → Arg) eff311 10 (some 5) false = .ok toCodeExCode := by
  have h := toCodeExSized_emit
  show (toConcrete Py311.platform (id : Arg → Arg) 10 toCodeExSized >>= fun c => c.emit Py311.platform 5) = _
  cases hc : toConcrete Py311.platform (id : Arg → Arg) 10 toCodeExSized with
  | error e => rw [hc] at h; cases h
  | ok c => rw [hc] at h; exact toOption_ok h

/-- The other way of writing the program gives the same code object. -/
example : toCodeExOther.toCode Py311.platform (id : Arg → Arg) eff311 1 (some 5) false = .ok toCodeExCode := by
  have hm' : WellMade Py311.platform toCodeExOther := wellMade_spec Py311.wf (by decide +kernel)
  have h1 := plainly_spec (P := Py311.platform) (b := toCodeExSized) (by decide +kernel)
  have h2 := plainly_spec (P := Py311.platform) (b := toCodeExOther) (by decide +kernel)
  exact C72_total Py311.wf (by decide) toCodeExSized_code (wellMade_spec Py311.wf (by decide +kernel)) hm'
    ((C58_assembled_iff_rules (key := (id : Arg → Arg)) Py311.wf hm' (by decide : 3 * jumpCount toCodeExOther.elems < 10)).1 
      (isOk_ok (by decide +kernel)))
    (by decide +kernel) (by decide +kernel) h1.1 h2.1 h1.2 h2.2 (by decide) (by decide) (by decide) rfl rfl (by decide +kernel) (by decide +kernel) 1
    (by decide +kernel)

end Verif
