import Verif.Proofs.FromCodeTotal
import Verif.Proofs.DecodeTry
import Verif.Props.ToCode
/-
C50, C51, C52: reading code objects, and the round trip code object → Bytecode → code object.
-/
namespace Verif
open Spec
section
variable {κ : Type} [DecidableEq κ]
variable {P : Platform} {key : Arg → κ} {co : Code}

/-! ### Operands do not depend on the keys of constants, as to their existence -/

omit [DecidableEq κ] in
theorem expandC_invalid {κ' : Type} {P : Platform} {key : Arg → κ} {key' : Arg → κ'} {c : Concrete} {d : Option Nat} {i : CInstr}
    (h : ∀ p ∈ expandC P key' c d i, p.2 ≠ .invalid) : ∀ p ∈ expandC P key c d i, p.2 ≠ .invalid := by
  unfold expandC at *
  split
  · simp
  · rename_i hn
    rw [if_neg hn] at h
    cases hd : P.dualSingles i.opcode with
    | some q =>
      simp only [hd] at h ⊢
      cases ha : i.arg with
      | none => simp [ha] at h
      | some a =>
        simp only [ha, List.forall_mem_cons, List.not_mem_nil, false_implies, implies_true, and_true, slotAt] at h ⊢
        refine ⟨fun e => h.1 ?_, fun e => h.2 ?_⟩ <;> (split at e <;> simp_all)
    | none =>
      simp only [hd, List.mem_singleton, forall_eq] at h ⊢
      unfold operandC at *
      split
      · rename_i hj
        rw [if_pos hj] at h
        cases d <;> simp_all [jumpOr]
      · rename_i hj
        rw [if_neg hj] at h
        cases ha : i.arg with
        | none => simp
        | some a =>
          simp only [ha] at h ⊢
          split
          · rename_i hc
            rw [if_pos hc] at h
            cases hx : c.consts[a]? <;> simp_all
          · rename_i hc
            rw [if_neg hc] at h
            unfold slotAt nameAt at *
            repeat' split
            all_goals simp_all

omit [DecidableEq κ] in
theorem programCode_invalid {κ' : Type} {key' : Arg → κ'} (h : ∀ o ∈ programCode P key' co, o.operand ≠ .invalid) :
    ∀ o ∈ programCode P key co, o.operand ≠ .invalid := by
  intro o ho
  unfold programCode at ho
  simp only at ho
  obtain ⟨f, hf, ho⟩ := List.mem_flatMap.1 ho
  obtain ⟨p, hp, rfl⟩ := List.mem_map.1 ho
  refine expandC_invalid (key' := key') ?_ p hp
  intro q hq
  exact h ⟨q.1, q.2, locOfUnit co f.unit, handlerOfUnit P co (fetch P 0 0 0 0 co.code) f.unit⟩ (by
    unfold programCode
    exact List.mem_flatMap.2 ⟨f, hf, List.mem_map.2 ⟨q, hq, rfl⟩⟩)

/-! ### conserve_exception_block_stackdepth gives all the depths -/

theorem mkTry_depth (c : Concrete) (k : Nat) (t : TryB) (h : .tryBegin t ∈ mkTry c true k) : t.depth.isSome = true := by
  unfold mkTry at h
  split at h
  · simp at h; subst h; rfl
  · simp at h

theorem close_depth (c : Concrete) (t : TryB) (l : List Nat) : ∀ tbs, .tryBegin t ∈ (closeEntries c true tbs l).1 → t.depth.isSome = true := by
  induction l with
  | nil => intro tbs h; simp [closeEntries] at h
  | cons k l ih =>
    intro tbs h
    unfold closeEntries at h
    split at h
    · simp only [List.mem_cons, reduceCtorEq, false_or] at h; exact ih _ h
    · simp only [List.mem_append, List.mem_cons, reduceCtorEq, false_or] at h
      rcases h with h | h
      · exact mkTry_depth c k t h
      · exact ih _ h

theorem open_depth (c : Concrete) (t : TryB) (tbs : List Nat) (off : Nat) (h : .tryBegin t ∈ (openEntry c true tbs off).1) : t.depth.isSome = true := by
  unfold openEntry at h
  split at h
  · split at h
    · simp at h
    · exact mkTry_depth c _ t h
  · simp at h

theorem decode_noTry {c : Concrete} {prune : Bool} {off lineno : Nat} {ci : CInstr} {main : List BElem} {t : TryB}
    (h : decodeInstr P c prune off lineno ci = .ok main) (ht : .tryBegin t ∈ main) : False := by
  unfold decodeInstr at h
  simp only at h
  split at h
  · obtain ⟨_, _, h⟩ := except_bind_ok h
    simp only [pure, Except.pure, Except.ok.injEq] at h
    subst h; simp at ht
  · obtain ⟨arg, h1, h⟩ := except_bind_ok h
    obtain ⟨loc, h2, h⟩ := except_bind_ok h
    obtain ⟨i, h3, h⟩ := except_bind_ok h
    simp only [pure, Except.pure, Except.ok.injEq] at h
    subst h; simp at ht

theorem loop_depth {c : Concrete} {prune : Bool} {targets : List Int} (t : TryB) (l : List (Nat × CInstr)) (hv : ∀ p ∈ l, 2 ≤ p.2.size) (off : Nat)
    (tbs : List Nat) (d : Dec) (h : decodeLoop P c prune true targets off tbs l = .ok d) (hi : .tryBegin t ∈ d.elems) : t.depth.isSome = true := by
  induction l generalizing off tbs d with
  | nil =>
    simp only [decodeLoop, Except.ok.injEq] at h
    subst h; simp at hi
  | cons p l ih =>
    obtain ⟨main, d', h1, h2, h3, _⟩ := loop_cons h (hv p (by simp))
    rw [h3] at hi
    simp only [List.mem_append] at hi
    rcases hi with hi | hi | hi | hi | hi
    · split at hi <;> simp at hi
    · exact open_depth _ _ _ _ hi
    · exact (decode_noTry h1 hi).elim
    · exact close_depth _ _ _ _ hi
    · exact ih (fun q hq => hv q (by simp [hq])) _ _ d' h2 hi

theorem toBytecode_depths {c : Concrete} {prune : Bool} {b : Bytecode} (hv : ∀ ci, .instr ci ∈ c.elems → ValidCInstr P ci)
    (h : toBytecode P prune true c = .ok b) (t : TryB) (ht : .tryBegin t ∈ b.elems) : t.depth.isSome = true := by
  obtain ⟨es', d, h1, h2, h3, h4, h5⟩ := toBytecode_ok h
  have hve := removeExtendedArgs_valid P _ hv _ _ _ h1
  rw [h5] at ht
  exact loop_depth t _ (fun p hp => valid_size (hve _ (normalize_mem _ _ p hp))) _ _ d h2 ht

/-! ### C50 -/

theorem locOfPos_ok {p : Pos} (h : ValidArgs true p.line p.endLine p.col p.endCol) : ∃ l, locOfPos p = .ok l := by
  obtain ⟨l, hl, _⟩ := (C11_location_accepts_exactly_coherent true p.line p.endLine p.col p.endCol).1 h
  exact ⟨l, hl⟩

/-- **C50.** On 3.11+, `ConcreteBytecode.from_code` of a code object whose bytes are instructions with their caches and
whose positions are valid succeeds; the result denotes the program of the code object and keeps its tables and attributes. -/
theorem C50_concrete_from_code (hP : P.WF) (h11 : P.py311 = true) (key : Arg → κ) (hb : WellCoded P co.code)
    (hpos : ∀ p ∈ (readLocs co.firstlineno co.linetable).getD [], ValidArgs true p.line p.endLine p.col p.endCol) :
    ∃ c, Concrete.fromCode P co = .ok c ∧ programC P key c = programCode P key co ∧
      c.consts = co.consts ∧ c.names = co.names ∧ c.varnames = co.varnames ∧
      { c.attrs with docstring := none } = (tablesOf co).attrs ∧
      (∀ s, co.consts[0]? = some (.str s) → c.attrs.docstring = some (.str s)) := by
  obtain ⟨is, h1, h2, h3⟩ := wellCoded_instrs P hP h11 hb
  obtain ⟨js, g1, g2, _⟩ := fromCode_program P hP h11 key co is h1 h2 h3 (fun p hp => locOfPos_ok (hpos p hp))
  refine ⟨_, g1, g2, rfl, rfl, rfl, rfl, ?_⟩
  intro s hs
  show setDocstring none co.consts = _
  cases hc : co.consts with
  | nil => rw [hc] at hs; simp at hs
  | cons x l => rw [hc] at hs; simp at hs; subst hs; rfl

/-! ### C51 -/

theorem readFrom_of (hP : P.WF) (h11 : P.py311 = true) (hok : CodeOK P co) :
    ∃ js, Concrete.fromCode P co = .ok (readOf co js) ∧ (programC P key (readOf co js) = programCode P key co) ∧ ReadFrom P co js ∧
      (∀ j, js.head? = some j → j.opcode ≠ 0) := by
  obtain ⟨is, h1, h2, h3⟩ := wellCoded_instrs P hP h11 hok.bytes
  obtain ⟨js, g1, g2, g3, g4, g5⟩ := fromCode_program P hP h11 key co is h1 h2 h3 (fun p hp => locOfPos_ok (hok.positions p hp))
  refine ⟨js, g1, g2, ⟨?_, ?_, g4, g5, layout_same h2 g3⟩, ?_⟩
  · unfold fetched
    rw [h1, fetch_layout P hP is h2 h3, fetchedOf_same g3]
  · rw [h1, assemble_units P is h3, unitsOf_same g3]
  · intro j hj
    cases h2 with
    | nil => cases g3; simp at hj
    | group i cs rest hi _ _ _ =>
      cases g3 with
      | cons hs _ => simp at hj; subst hj; rw [hs.opcode]; exact hi

/-- The result of `to_bytecode` on what is read. -/
theorem fromCode_parts (hP : P.WF) (h11 : P.py311 = true) (key : Arg → κ) (hok : CodeOK P co) (conserve : Bool) :
    ∃ b, Bytecode.fromCode P co true conserve = .ok b ∧ programB P key (zeroDepths b) = (programCode P key co).map Op.noDepth ∧
      (conserve = true → programB P key b = programCode P key co) ∧
      (∀ i, .instr i ∈ b.elems → ValidInstr P i ∧ i.name ≠ "EXTENDED_ARG" ∧ i.name ≠ "CACHE") ∧ LabelsOnly b ∧
      WellTried none [] false b.elems ∧ { b.attrs with docstring := none } = (tablesOf co).attrs ∧
      (∀ s, co.consts[0]? = some (.str s) → b.attrs.docstring = some (.str s)) ∧
      b.argnames = co.varnames.take (nargs (tablesOf co).attrs) := by
  obtain ⟨js, g1, g2, hR, hhead⟩ := readFrom_of (key := key) hP h11 hok
  have hf : ∀ conserve, Bytecode.fromCode P co true conserve = toBytecode P true conserve (readOf co js) := by
    intro conserve; unfold Bytecode.fromCode; rw [g1]; rfl
  have hv := hR.valid
  have hT := hR.tableOK hP h11 hok
  obtain ⟨b1, hb1⟩ := hR.total hP h11 hok true true (.inl rfl)
  have hp1 : programB P key b1 = programCode P key co := by
    rw [← g2]
    exact C22_program_partial hP hv hb1 hR.remove (by
      show ∀ o ∈ programC P key (readOf co js), _
      rw [g2]; exact programCode_invalid hok.operands) hok.apart hT
  have hz1 : programB P key (zeroDepths b1) = (programB P key b1).map Op.noDepth :=
    (program_same hP key b1 b1 (fun i hi => (C19_pruned hP hv hb1 i hi).1) (toBytecode_labelsOnly hP hv hb1)
      (fun i hi => (C19_pruned hP hv hb1 i hi).1) (toBytecode_labelsOnly hP hv hb1) (toBytecode_depths hv hb1) rfl rfl rfl).symm
  obtain ⟨b, hb⟩ := hR.total hP h11 hok true conserve (.inl rfl)
  have hzz : zeroDepths b = zeroDepths b1 := by
    cases conserve with
    | true => rw [hb] at hb1; cases hb1; rfl
    | false =>
      rw [toBytecode_forget, hb1] at hb
      simp only [Except.map, Except.ok.injEq] at hb
      rw [← hb]
      unfold zeroDepths
      simp [List.map_map, Function.comp_def, forget_zero]
  obtain ⟨a1, a2, a3, a4⟩ := C22_attributes hb
  refine ⟨b, by rw [hf, hb], by rw [hzz, hz1, hp1], ?_, ?_, toBytecode_labelsOnly hP hv hb, ?_, ?_, ?_, a2⟩
  · intro hc
    subst hc
    rw [hb] at hb1; cases hb1
    exact hp1
  · intro i hi
    obtain ⟨x, y, z⟩ := C19_pruned hP hv hb i hi
    exact ⟨x, y, z rfl⟩
  · refine toBytecode_wellTried hP hv hb hR.remove hT (.inr ?_)
    intro p hp
    cases hjs : js with
    | nil => rw [hjs] at hp; simp [readOf, normalizeLineno] at hp
    | cons j r =>
      rw [hjs] at hp
      simp only [readOf, List.map_cons, normalizeLineno, List.head?_cons, Option.some.injEq] at hp
      subst hp
      have h0 := hhead j (by rw [hjs]; rfl)
      intro e
      exact h0 ((cache_iff hP h11 (hR.readable j (by rw [hjs]; simp)).valid).1 e)
  · have := congrArg (fun A : Attrs => { A with docstring := none }) a1
    exact this
  · intro s hs
    exact a3 s hs

/-- **C51.** On 3.11+, `Bytecode.from_code` of a code object as the compiler writes them (`CodeOK`) succeeds, and the
Bytecode denotes the program of the code object: the same operations in order with the same names, operands, targets of
jumps, locations and handlers (all but the depths, which are not kept by default). Attributes are kept. -/
theorem C51_from_code (hP : P.WF) (h11 : P.py311 = true) (key : Arg → κ) (hok : CodeOK P co) :
    ∃ b, Bytecode.fromCode P co = .ok b ∧ programB P key (zeroDepths b) = (programCode P key co).map Op.noDepth ∧
      { b.attrs with docstring := none } = (tablesOf co).attrs ∧
      (∀ s, co.consts[0]? = some (.str s) → b.attrs.docstring = some (.str s)) ∧
      b.argnames = co.varnames.take (nargs (tablesOf co).attrs) := by
  obtain ⟨b, h1, h2, _, _, _, _, h7, h8, h9⟩ := fromCode_parts hP h11 key hok false
  exact ⟨b, h1, h2, h7, h8, h9⟩

/-- **C51 (depths).** With `conserve_exception_block_stackdepth=True` the whole program is kept, depths included. -/
theorem C51_conserve (hP : P.WF) (h11 : P.py311 = true) (key : Arg → κ) (hok : CodeOK P co) :
    ∃ b, Bytecode.fromCode P co true true = .ok b ∧ programB P key b = programCode P key co := by
  obtain ⟨b, h1, _, h3, _⟩ := fromCode_parts hP h11 key hok true
  exact ⟨b, h1, h3 rfl⟩

/-- **C51 (usable).** What `from_code` returns has valid instructions, no EXTENDED_ARG and no CACHE, jumps to labels and
well delimited try regions: it meets what `to_code` needs (C48). -/
theorem C51_usable (hP : P.WF) (h11 : P.py311 = true) (hok : CodeOK P co) (conserve : Bool) {b : Bytecode}
    (h : Bytecode.fromCode P co true conserve = .ok b) :
    (∀ i, .instr i ∈ b.elems → ValidInstr P i ∧ i.name ≠ "EXTENDED_ARG" ∧ i.name ≠ "CACHE") ∧ LabelsOnly b ∧
      WellTried none [] false b.elems := by
  obtain ⟨b', h1, _, _, h4, h5, h6, _⟩ := fromCode_parts hP h11 (id : Arg → Arg) hok conserve
  rw [h] at h1; cases h1
  exact ⟨h4, h5, h6⟩

/-- **C51 (depths not kept by default).** Without `conserve_exception_block_stackdepth` no TryBegin of the result has a depth,
for any code object and both values of the other option: `to_code` then computes them. -/
theorem C51_depths_forgotten (prune : Bool) {b : Bytecode} (h : Bytecode.fromCode P co prune false = .ok b) :
    ∀ t, BElem.tryBegin t ∈ b.elems → t.depth = none := by
  unfold Bytecode.fromCode at h
  obtain ⟨c, _, h⟩ := except_bind_ok h
  rw [toBytecode_forget] at h
  cases hx : toBytecode P prune true c with
  | error e => rw [hx] at h; cases h
  | ok b' =>
    rw [hx] at h
    simp only [Except.map, Except.ok.injEq] at h
    subst h
    intro t ht
    simp only [List.mem_map] at ht
    obtain ⟨e, _, he⟩ := ht
    cases e <;> simp only [forget] at he <;> cases he
    rfl

/-! ### C52 -/

theorem expandC_compare {c : Concrete} {d : Option Nat} {i : CInstr} {p : String × Operand Arg} {v : Nat}
    (hp : p ∈ expandC P (id : Arg → Arg) c d i) (hx : p.2 = .compare v) :
    P.hascompare i.opcode = true ∧ ∃ a, i.arg = some a ∧ v = compareOf P a := by
  unfold expandC at hp
  split at hp
  · simp at hp
  · split at hp
    · split at hp
      · simp only [List.mem_cons, List.not_mem_nil, or_false] at hp
        rcases hp with rfl | rfl <;> (simp only [slotAt] at hx; split at hx <;> cases hx)
      · simp only [List.mem_cons, List.not_mem_nil, or_false] at hp
        rcases hp with rfl | rfl <;> cases hx
    · rw [List.mem_singleton.1 hp] at hx
      unfold operandC at hx
      simp only at hx
      split at hx
      · simp only [jumpOr] at hx; split at hx <;> cases hx
      · split at hx
        · cases hx
        · rename_i a hfa
          simp only [slotAt, nameAt] at hx
          repeat' split at hx
          all_goals first | cases hx | skip
          all_goals exact ⟨by assumption, a, hfa, rfl⟩

theorem compare_back (hP : P.WF) (h11 : P.py311 = true) (hok : CodeOK P co) (conserve : Bool) {b : Bytecode}
    (h : Bytecode.fromCode P co true conserve = .ok b) (i : Instr) (hi : .instr i ∈ b.elems) (hc : P.hascompare i.opcode = true)
    (v : Nat) (ha : i.arg = .compare v) : CompareMember P v := by
  obtain ⟨b', h1, h2, _, h4, h5, h6, _⟩ := fromCode_parts hP h11 (id : Arg → Arg) hok conserve
  rw [h] at h1; cases h1
  have hk := (kinds_excl hP i.opcode)
  have hmem : ∀ (tgt : Nat → Option Nat) (es : List BElem) (loc : Loc) (tr : Option TryB), .instr i ∈ es →
      ∃ o ∈ opsB P (id : Arg → Arg) tgt loc tr es, o.operand = .compare v := by
    intro tgt es
    induction es with
    | nil => intro _ _ hx; simp at hx
    | cons e es ih =>
      intro loc tr hx
      rcases List.mem_cons.1 hx with rfl | hm
      · have hex : expandB P (id : Arg → Arg) tgt i = [(i.name, .compare v)] := by
          obtain ⟨k1, k2, k3, k4, k5⟩ := hk.compare hc
          unfold expandB operandB
          rw [if_neg (h4 i hi).2.2, not_dual hP k3]
          simp [k1, k2, k3, k4, k5, hc, ha]
        simp only [opsB, hex]
        exact ⟨_, List.mem_append_left _ (by simp; rfl), rfl⟩
      · cases e with
        | instr j =>
          obtain ⟨o, ho, hx⟩ := ih (j.loc.getD loc) tr hm
          exact ⟨o, List.mem_append_right _ ho, hx⟩
        | _ => exact ih _ _ hm
  obtain ⟨o, ho, hx⟩ := hmem (fun l => labelPos P l 0 (zeroDepths b).elems) (zeroDepths b).elems (Loc.line (some b.attrs.firstLineno)) none (zero_instr.2 hi)
  have ho : o ∈ programB P (id : Arg → Arg) (zeroDepths b) := ho
  rw [h2] at ho
  obtain ⟨o', ho', rfl⟩ := List.mem_map.1 ho
  have hx : o'.operand = .compare v := hx
  unfold programCode at ho'
  simp only at ho'
  obtain ⟨f, hf, ho'⟩ := List.mem_flatMap.1 ho'
  obtain ⟨p, hp, rfl⟩ := List.mem_map.1 ho'
  have hx : p.2 = .compare v := hx
  have : P.hascompare f.opcode = true ∧ v = compareOf P f.arg := by
    obtain ⟨q1, a, q2, q3⟩ := expandC_compare hp hx
    simp only at q1 q2
    split at q2
    · cases q2; exact ⟨q1, q3⟩
    · cases q2
  rw [this.2]
  exact hok.compares f hf this.1

/-- **C52.** On 3.11+, reading a code object and writing it back, `Bytecode.from_code(code).to_code(...)` whatever the
options, gives a code object denoting the same program: the same operations in order, with the same names, operands,
targets of jumps, locations (as code objects keep them, see C52_locations) and handlers, the depths of handlers apart (recomputed). On 3.13, two-variable
instructions must not be about the 17th local (finding 6). -/
theorem C52_round_trip (hP : P.WF) (h11 : P.py311 = true) {eff : Instr → Bool → Py (Int × Int)} {passes : Nat} {stacksize : Option Int}
    {conserve depths : Bool} {b : Bytecode} {co' : Code} (hok : CodeOK P co)
    (h : Bytecode.fromCode P co true conserve = .ok b) (h' : b.toCode P key eff passes stacksize depths = .ok co')
    (hdual : ∀ i, .instr i ∈ b.elems → P.dual i.opcode = true → ∀ x y, i.arg = .tuple [.str x, .str y] →
      ¬ (co'.varnames.idxOf y = 16 ∧ co'.varnames.idxOf x ≤ 16)) :
    (programCode P key co').map Op.noDepth = ((programCode P key co).map Op.noDepth).map (Op.mapLoc keptLoc) := by
  obtain ⟨h4, h5, h6⟩ := C51_usable hP h11 hok conserve h
  obtain ⟨b', g1, g2, _⟩ := fromCode_parts hP h11 key hok conserve
  rw [h] at g1; cases g1
  rw [← g2]
  refine C48_to_code_program hP h11 ?_ (fun i hi => (h4 i hi).1) h5 h6 h' (fun i hi => ⟨fun hc v hv => ?_, hdual i hi⟩)
  · intro e he
    cases e with
    | instr i => simpa [BElem.isCache] using (h4 i he).2.2
    | _ => rfl
  · exact compare_back hP h11 hok conserve h i hi hc v hv

omit [DecidableEq κ] in
theorem programCode_loc (o : Op κ) (ho : o ∈ programCode P key co) : ∃ u, o.loc = locOfUnit co u := by
  unfold programCode at ho
  simp only at ho
  obtain ⟨f, hf, ho⟩ := List.mem_flatMap.1 ho
  obtain ⟨p, hp, rfl⟩ := List.mem_map.1 ho
  exact ⟨_, rfl⟩

omit [DecidableEq κ] in
theorem kept_of_columns (hok : CodeOK P co) (hcol : ∀ p ∈ (readLocs co.firstlineno co.linetable).getD [], p.col = none → p.endLine = p.line)
    (o : Op κ) (ho : o ∈ programCode P key co) : keptLoc o.loc = o.loc := by
  obtain ⟨u, hu⟩ := programCode_loc o ho
  rw [hu]
  unfold locOfUnit
  cases hx : ((readLocs co.firstlineno co.linetable).getD [])[u]? with
  | none => rfl
  | some p =>
    have hm := List.mem_of_getElem? hx
    have hv := hok.positions p hm
    have hc := hcol p hm
    simp only [keptLoc]
    cases hl : p.line with
    | none =>
      have he : p.endLine = none := by
        cases he : p.endLine with
        | none => rfl
        | some e => obtain ⟨x, hx, _⟩ := hv.lines e he; rw [hl] at hx; cases hx
      have hcl : p.col = none := by
        cases hcl : p.col with
        | none => rfl
        | some e => have := hv.colLine (by rw [hcl]; rfl); rw [he] at this; cases this
      have hcr := hv.colPair
      rw [hcl] at hcr
      cases hec : p.endCol with
      | none => simp [he, hcl]
      | some e => rw [hec] at hcr; cases hcr
    | some n =>
      cases hcl : p.col with
      | none =>
        have := hc hcl
        rw [this, hl]; rfl
      | some e => rfl

/-- **C52 (exact locations).** When the positions without columns are on a single line (as CPython writes them), the
locations are exactly those of the original: the round trip changes nothing but the depths. -/
theorem C52_locations (hP : P.WF) (h11 : P.py311 = true) {eff : Instr → Bool → Py (Int × Int)} {passes : Nat} {stacksize : Option Int}
    {conserve depths : Bool} {b : Bytecode} {co' : Code} (hok : CodeOK P co)
    (hcol : ∀ p ∈ (readLocs co.firstlineno co.linetable).getD [], p.col = none → p.endLine = p.line)
    (h : Bytecode.fromCode P co true conserve = .ok b) (h' : b.toCode P key eff passes stacksize depths = .ok co')
    (hdual : ∀ i, .instr i ∈ b.elems → P.dual i.opcode = true → ∀ x y, i.arg = .tuple [.str x, .str y] →
      ¬ (co'.varnames.idxOf y = 16 ∧ co'.varnames.idxOf x ≤ 16)) :
    (programCode P key co').map Op.noDepth = (programCode P key co).map Op.noDepth := by
  rw [C52_round_trip hP h11 hok h h' hdual, List.map_map]
  apply List.map_congr_left
  intro o ho
  have : keptLoc o.loc = o.loc := kept_of_columns hok hcol o ho
  simp only [Function.comp, Op.mapLoc, Op.noDepth, this]

/-- **C52 (exact).** With `conserve_exception_block_stackdepth=True`, the stack size given and no depth computation, the
depths are kept too: the code object written denotes exactly the program of the one read. -/
theorem C52_exact (hP : P.WF) (h11 : P.py311 = true) {eff : Instr → Bool → Py (Int × Int)} {passes : Nat} {n : Int}
    {b : Bytecode} {co' : Code} (hok : CodeOK P co)
    (h : Bytecode.fromCode P co true true = .ok b) (h' : b.toCode P key eff passes (some n) false = .ok co')
    (hdual : ∀ i, .instr i ∈ b.elems → P.dual i.opcode = true → ∀ x y, i.arg = .tuple [.str x, .str y] →
      ¬ (co'.varnames.idxOf y = 16 ∧ co'.varnames.idxOf x ≤ 16)) :
    programCode P key co' = (programCode P key co).map (Op.mapLoc keptLoc) ∧ co'.stacksize = n := by
  obtain ⟨h4, h5, h6⟩ := C51_usable hP h11 hok true h
  obtain ⟨b', g1, g2⟩ := C51_conserve hP h11 key hok
  rw [h] at g1; cases g1
  rw [← g2]
  refine C48_explicit hP h11 ?_ (fun i hi => (h4 i hi).1) h6 h' (fun i hi => ⟨fun hc v hv => ?_, hdual i hi⟩)
  · intro e he
    cases e with
    | instr i => simpa [BElem.isCache] using (h4 i he).2.2
    | _ => rfl
  · exact compare_back hP h11 hok true h i hi hc v hv

end
end Verif
