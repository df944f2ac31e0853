import Verif.Props.ReadExact
/-
C22, C18 (exact): what `to_bytecode` reads for each operation.
-/
namespace Verif
open Spec

section
variable {κ : Type} [DecidableEq κ] {P : Platform} {key : Arg → κ} {b : Bytecode} {c : Concrete} {es : List CElem} {prune conserve : Bool}

/-- `ReadAs` for names and operands. -/
def ReadOperand (P : Platform) (c : Concrete) (x y : String × Operand κ) : Prop :=
  x.1 = y.1 ∧ (P.py313 = false ∨ (∀ op, P.opmap y.1 = some op → P.haslocal op = false) ∨ (∀ n, y.2 ≠ .slot (.free n)) → x.2 = y.2) ∧
  (P.py313 = true → (∃ op, P.opmap y.1 = some op ∧ P.haslocal op = true) → ∀ n, y.2 = .slot (.free n) →
    ∃ (j : Nat) (m : String), c.attrs.freevars[j]? = some n ∧ (c.attrs.freevars.filter (fun n => !(c.varnames.contains n)))[j]? = some m ∧ x.2 = .slot (.free m))

theorem readOperand_eq {x : String × Operand κ} (h : P.py313 = false ∨ (∀ op, P.opmap x.1 = some op → P.haslocal op = false)) : ReadOperand P c x x := by
  refine ⟨rfl, fun _ => rfl, ?_⟩
  intro h13 ⟨op, h1, h2⟩ n _
  rcases h with h | h
  · rw [h13] at h; simp at h
  · rw [h op h1] at h2; simp at h2

/-- A local variable read at an index. -/
theorem readOperand_local {s : String} (hl : ∃ op, P.opmap s = some op ∧ P.haslocal op = true) {k : Nat} {x : Atom} (h : argIdx (localsLookup P c) k = .ok x) :
    ReadOperand P c (s, (slotOf x : Operand κ)) (s, slotAt (localSlots P c) k) := by
  have hx := argIdx_ok h
  have hso := slotOf_atom (κ := κ) (List.mem_of_getElem? hx)
  cases h13 : P.py313 with
  | false =>
    rw [local_slotAt (by rw [locals_slots (fun h' => by rw [h13] at h'; simp at h')]) h]
    exact readOperand_eq (.inl h13)
  | true =>
    have hL : localSlots P c = (cellsLookup P c).map atomSlot ++ c.attrs.freevars.map .free := by
      unfold localSlots; rw [if_pos h13, cells_slots _ (py313_311 h13)]
    have hR : localsLookup P c = cellsLookup P c ++ (c.attrs.freevars.filter (fun n => !c.varnames.contains n)).map .free := by
      unfold localsLookup; rw [if_pos h13]
    by_cases hlt : k < (cellsLookup P c).length
    · have e : (localSlots P c)[k]? = ((localsLookup P c).map atomSlot)[k]? := by
        rw [hL, hR, List.map_append, List.getElem?_append_left (by simpa using hlt), List.getElem?_append_left (by simpa using hlt)]
      rw [local_slotAt e h]
      rw [hR, List.getElem?_append_left hlt] at hx
      refine ⟨rfl, fun _ => rfl, ?_⟩
      intro _ _ n hn
      rcases cells_atoms (List.mem_of_getElem? hx) with ⟨m, rfl⟩ | ⟨m, rfl⟩ <;> simp [slotOf] at hn
    · rw [hR, List.getElem?_append_right (by omega), List.getElem?_map] at hx
      obtain ⟨m, hm, rfl⟩ := Option.map_eq_some_iff.1 hx
      have hj : k - (cellsLookup P c).length < c.attrs.freevars.length := by
        have h1 := (List.getElem?_eq_some_iff.1 hm).1
        have h2 := List.length_filter_le (fun n => !c.varnames.contains n) c.attrs.freevars
        omega
      obtain ⟨n, hn⟩ : ∃ n, c.attrs.freevars[k - (cellsLookup P c).length]? = some n := ⟨_, List.getElem?_eq_getElem hj⟩
      have hs : (slotAt (localSlots P c) k : Operand κ) = .slot (.free n) := by
        unfold slotAt
        rw [hL, List.getElem?_append_right (by simpa using hlt), List.length_map, List.getElem?_map, hn]; rfl
      rw [hs]
      refine ⟨rfl, ?_, ?_⟩
      · rintro (h' | h' | h')
        · rw [h13] at h'; simp at h'
        · obtain ⟨op, h1, h2⟩ := hl
          rw [h' op h1] at h2; simp at h2
        · exact absurd rfl (h' n)
      · intro _ _ n' hn'
        simp only [Operand.slot.injEq, Slot.free.injEq] at hn'
        subst hn'
        exact ⟨_, m, hn, hm, rfl⟩

/-- The operations of the instruction `to_bytecode` builds. -/
theorem decode_reads (hP : P.WF) {ci : CInstr} (hv : ValidCInstr P ci) {arg : Arg} {i : Instr} {off : Int}
    (h : decodeOperand P c ci = .ok arg) (hn : i.name = ci.name) (ho : i.opcode = ci.opcode)
    (hi : i.arg = match ci.getJumpTarget P off with | some t => .label t.toNat | none => arg)
    (tgt : Nat → Option Nat) (dest : Option Nat) (ht : ∀ t, ci.getJumpTarget P off = some t → tgt t.toNat = dest) :
    List.Forall₂ (ReadOperand P c) (expandB P key tgt i) (expandC P key c dest ci) := by
  cases hloc : P.haslocal ci.opcode with
  | false =>
    have hd : P.dualSingles ci.opcode = none := not_dual hP hloc
    rw [decode_expand (key := key) hP (fun a _ hl => by rw [hloc] at hl; simp at hl) hv h hn ho hi tgt dest ht]
    unfold expandC
    split
    · exact .nil
    · rw [hd]
      refine .cons (readOperand_eq (.inr ?_)) .nil
      intro op hop
      simp only at hop
      rw [hv.name_op] at hop
      cases hop
      exact hloc
  | true =>
    have hK := (kinds_excl hP ci.opcode).local_ hloc
    have htn : ci.getJumpTarget P off = none := by
      cases hx : ci.getJumpTarget P off with
      | none => rfl
      | some t => rw [target_hasJump hx] at hK; simp at hK
    rw [htn] at hi
    simp only at hi
    unfold expandB expandC
    rw [hn, ho, hi]
    split
    · exact .nil
    · unfold decodeOperand at h
      cases ha : ci.arg with
      | none => rw [ha] at h; simp [hloc] at h
      | some a =>
        rw [ha] at h
        simp only at h
        unfold decodeArg at h
        rw [if_neg (by simp [hK]), if_pos hloc] at h
        cases hd : P.dualSingles ci.opcode with
        | none =>
          rw [if_neg (by simp [Platform.dual, hd])] at h
          obtain ⟨x, hx, h⟩ := except_bind_ok h
          simp only [pure, Except.pure, Except.ok.injEq] at h
          subst h
          simp only
          have e1 : operandB P key tgt ci.opcode x.toArg = slotOf x := by
            unfold operandB
            rw [if_neg (by simp [hK]), if_neg (by simp [hK]), if_pos (by simp [hloc])]
            rcases locals_atoms (List.mem_of_getElem? (argIdx_ok hx)) with ⟨n, rfl⟩ | ⟨n, rfl⟩ | ⟨n, rfl⟩ <;> rfl
          have e2 : operandC P key c dest ci = slotAt (localSlots P c) a := by
            unfold operandC
            rw [if_neg (by simp [hK]), ha]
            simp only
            rw [if_neg (by simp [hK]), if_pos hloc]
          rw [e1, e2]
          exact .cons (readOperand_local ⟨_, hv.name_op, hloc⟩ hx) .nil
        | some p =>
          obtain ⟨n1, n2⟩ := p
          rw [if_pos (by simp [Platform.dual, hd])] at h
          obtain ⟨x, hx, h⟩ := except_bind_ok h
          obtain ⟨y, hy, h⟩ := except_bind_ok h
          simp only [pure, Except.pure, Except.ok.injEq] at h
          subst h
          rw [shr4] at hx
          rw [and15] at hy
          simp only
          have s1 := hP.dual_single _ _ _ hd n1 (.inl rfl)
          have s2 := hP.dual_single _ _ _ hd n2 (.inr rfl)
          exact .cons (readOperand_local (by obtain ⟨o, q1, q2, _⟩ := s1; exact ⟨o, q1, q2⟩) hx)
            (.cons (readOperand_local (by obtain ⟨o, q1, q2, _⟩ := s2; exact ⟨o, q1, q2⟩) hy) .nil)

theorem forall₂_ops {x y : List (String × Operand κ)} (h : List.Forall₂ (ReadOperand P c) x y) (f g : String × Operand κ → Op κ)
    (hfn : ∀ p, (f p).name = p.1) (hfo : ∀ p, (f p).operand = p.2) (hgn : ∀ p, (g p).name = p.1) (hgo : ∀ p, (g p).operand = p.2)
    (hl : ∀ p q, (f p).loc = (g q).loc) : List.Forall₂ (ReadAs P c) (x.map f) (y.map g) := by
  induction h with
  | nil => exact .nil
  | cons h _ ih =>
    refine .cons ⟨?_, hl _ _, ?_, ?_⟩ ih
    · rw [hfn, hgn]; exact h.1
    · rw [hgn, hfo, hgo]; exact h.2.1
    · rw [hgn, hfo, hgo]; exact h.2.2

theorem forall₂_plain {R : Op κ → Op κ → Prop} (hR : ∀ a a' b, plainOp a = plainOp a' → R a b → R a' b) {x x' y : List (Op κ)}
    (he : x.map plainOp = x'.map plainOp) (h : List.Forall₂ R x y) : List.Forall₂ R x' y := by
  induction h generalizing x' with
  | nil => cases x' with
    | nil => exact .nil
    | cons => simp at he
  | cons h _ ih =>
    cases x' with
    | nil => simp at he
    | cons a' x' =>
      simp only [List.map_cons, List.cons.injEq] at he
      exact .cons (hR _ _ _ he.1 h) (ih he.2)

theorem readAs_plain (a a' d : Op κ) (h : plainOp a = plainOp a') (hr : ReadAs P c a d) : ReadAs P c a' d := by
  simp only [plainOp, Prod.mk.injEq] at h
  obtain ⟨h1, h2, h3⟩ := h
  exact ⟨h1 ▸ hr.name, h3 ▸ hr.loc, h2 ▸ hr.same, h2 ▸ hr.free⟩

theorem append_forall₂ {α β : Type} {R : α → β → Prop} {a c : List α} {b d : List β} (h1 : List.Forall₂ R a b) (h2 : List.Forall₂ R c d) :
    List.Forall₂ R (a ++ c) (b ++ d) := by
  induction h1 with
  | nil => exact h2
  | cons h _ ih => exact .cons h ih

/-- The loop reads every operation. -/
theorem loop_reads (hP : P.WF) (c' : Concrete) (hc' : ∀ (dest : Option Nat) ci, expandC P key c' dest ci = expandC P key c dest ci)
    {targets : List Int} (es : List CElem) (hv : ∀ ci, .instr ci ∈ es → ValidCInstr P ci) (line off : Nat) (tbs : List Nat) (d : Dec)
    (h : decodeLoop P c prune conserve targets off tbs (normalizeLineno line es) = .ok d)
    (tgt : Nat → Option Nat) (htgt : ∀ t ∈ d.jumps, ∀ k, opAt P t 0 0 c'.elems = some k → tgt t.toNat = some k)
    (hok : ∀ o ∈ opsC P key c' line off es, o.operand ≠ .invalid) (loc : Loc) (tr : Option TryB) :
    List.Forall₂ (ReadAs P c) (opsB P key tgt loc tr d.elems) (opsC P key c' line off es) := by
  induction es generalizing line off tbs d loc tr with
  | nil =>
    simp only [normalizeLineno, decodeLoop, Except.ok.injEq] at h
    subst h; exact .nil
  | cons e es ih =>
    cases e with
    | setLineno l =>
      rw [normalizeLineno] at h
      exact ih (fun ci hci => hv ci (by simp [hci])) l off tbs d h htgt (by simpa [opsC] using hok) loc tr
    | instr ci =>
      rw [normalizeLineno] at h
      have hci := hv ci (by simp)
      obtain ⟨main, d', h1, h2, h3, _, h5, _⟩ := loop_cons h (valid_size hci)
      have hlab : ∀ r, (opsB P key tgt loc tr ((if (off : Int) ∈ targets then [BElem.label off] else []) ++ r)).map plainOp
          = (opsB P key tgt loc tr r).map plainOp := by
        intro r; split <;> rfl
      simp only [opsC] at hok ⊢
      have ih' := fun loc tr => ih (fun ci hci => hv ci (by simp [hci])) _ _ _ d' h2
        (fun t ht => htgt t (by rw [h5]; simp [ht])) (by
          intro o ho; exact hok o (by rw [List.mem_append]; right; rw [width_units]; exact ho)) loc tr
      rcases decodeInstr_ok hP hci h1 with ⟨hn, _, rfl⟩ | ⟨i, rfl, hvi, hn, ho, hl, arg, ha, hia⟩
      · refine forall₂_plain readAs_plain (x := opsB P key tgt loc none d'.elems) ?_ ?_
        · rw [h3, hlab, opsB_marker _ _ _ (open_marker _ _), List.nil_append, opsB_marker _ _ _ (close_marker _ _)]
        · rw [expandC, if_pos hn, List.map_nil, List.nil_append, width_units]; exact ih' _ _
      · refine forall₂_plain readAs_plain (x := (expandB P key tgt i).map (fun p => ⟨p.1, p.2, i.loc.getD loc, none⟩) ++
          opsB P key tgt (i.loc.getD loc) none d'.elems) ?_ ?_
        · rw [h3, hlab, opsB_marker _ _ _ (open_marker _ _), List.singleton_append, opsB, List.map_append, List.map_append,
            opsB_marker _ _ _ (close_marker _ _)]
          rfl
        · refine append_forall₂ ?_ (by rw [width_units]; exact ih' _ _)
          have hx : List.Forall₂ (ReadOperand P c) (expandB P key tgt i)
              (expandC P key c' ((ci.getJumpTarget P off).bind (fun t => opAt P t 0 0 c'.elems)) ci) := by
            rw [hc']
            by_cases hcc : ci.name = "CACHE"
            · simp [expandB, expandC, hn, hcc]
            apply decode_reads hP hci ha hn ho hia
            intro t ht
            rw [ht]
            simp only [Option.bind_some]
            cases hat : opAt P t 0 0 c'.elems with
            | some k => exact htgt t (by rw [h5, ht]; simp) k hat
            | none =>
              exfalso
              have hj := target_hasJump ht
              have hds := not_dual hP (((kinds_excl hP ci.opcode).jump hj).2.1)
              refine hok ⟨ci.name, .invalid, _, _⟩ (List.mem_append.2 (.inl (List.mem_map.2 ⟨(ci.name, .invalid), ?_, rfl⟩))) rfl
              rw [ht]
              simp [expandC, hcc, hds, operandC, hj, hat, jumpOr]
          refine forall₂_ops hx _ _ (fun _ => rfl) (fun _ => rfl) (fun _ => rfl) (fun _ => rfl) ?_
          intro p q
          rw [hl]
          simp [locLine?]

/-- **C22 (exact, each operation).** If `to_bytecode` succeeds, each operation of the result is what `ReadAs` says of the
corresponding operation of the concrete code: the same, but for the free variables of 3.13 in instructions on local
variables. -/
theorem C22_read (hP : P.WF) (hv : ∀ ci, .instr ci ∈ c.elems → ValidCInstr P ci)
    (h : toBytecode P prune conserve c = .ok b) (hes : removeExtendedArgs P 0 none c.elems = .ok es)
    (hok : ∀ o ∈ programC P key { c with elems := es }, o.operand ≠ .invalid) :
    List.Forall₂ (ReadAs P c) (programB P key b) (programC P key { c with elems := es }) := by
  obtain ⟨es', d, h1, h2, h3, h4, h5⟩ := toBytecode_ok h
  rw [hes] at h1; cases h1
  have hve := removeExtendedArgs_valid P _ hv _ _ _ hes
  unfold programB programC
  rw [h5]
  refine loop_reads hP { c with elems := es } (fun dest ci => expandC_elems c es dest ci) es hve _ _ _ d h2 _ ?_ hok _ _
  intro t ht k hk
  obtain ⟨n, hn, rfl⟩ := h3 t ht
  obtain ⟨_, m, g1, g2⟩ := (loop_labels hP es hve _ _ _ d h2 0 n).1 hn
  rw [g2 k hk]
  simpa using g1

theorem forall₂_get {α β : Type} {R : α → β → Prop} {x : List α} {y : List β} (h : List.Forall₂ R x y) (k : Nat) {v : β} (hy : y[k]? = some v) :
    ∃ u, x[k]? = some u ∧ R u v := by
  induction h generalizing k with
  | nil => simp at hy
  | cons h _ ih =>
    cases k with
    | zero => simp at hy; subst hy; exact ⟨_, rfl, h⟩
    | succ k => simpa using ih k (by simpa using hy)

/-- **C18 (exact, and back).** After the round trip the operation on CellVar(n) is one on the local or cell variable n,
always; that on FreeVar(n) is one on the free variable n for the instructions on cell and free variables, and before 3.13; for
the instructions on local variables of 3.13 it is one on the `j`-th of the free variables that are not local ones, `n` being
the `j`-th free variable. -/
theorem C18_exact {b' : Bytecode} {passes : Nat} (hP : P.WF) (hcache : ∀ e ∈ b.elems, e.isCache = false) (hv : ∀ i, .instr i ∈ b.elems → ValidInstr P i)
    (h : toConcrete P key passes b = .ok c) (h' : toBytecode P prune conserve c = .ok b')
    (hok : ∀ i, .instr i ∈ b.elems → OperandOK P c.varnames i)
    (es1 es2 : List BElem) (i : Instr) (he : b.elems = es1 ++ .instr i :: es2) (hk : (P.haslocal i.opcode || P.hasfree i.opcode) = true) (n : String) :
    (i.arg = .cell n → ∃ o, (programB P key b')[opNumber P es1]? = some o ∧ o.name = i.name ∧ o.operand = .slot (.named n)) ∧
    (i.arg = .free n → ∃ o, (programB P key b')[opNumber P es1]? = some o ∧ o.name = i.name ∧
      (P.py313 = false ∨ P.haslocal i.opcode = false → o.operand = .slot (.free n)) ∧
      (P.py313 = true → P.haslocal i.opcode = true → ∃ (j : Nat) (m : String), b.attrs.freevars[j]? = some n ∧
        (b.attrs.freevars.filter (fun n => !(c.varnames.contains n)))[j]? = some m ∧ o.operand = .slot (.free m))) := by
  have hK := kinds_excl hP i.opcode
  have hb : P.hasJump i.opcode = false ∧ P.hasconst i.opcode = false := by
    rcases Bool.or_eq_true _ _ ▸ hk with hk | hk
    · have := hK.local_ hk; grind
    · have := hK.free hk; grind
  have hvi := hv i (by rw [he]; simp)
  have hd : ∀ x, i.arg = x → (∀ y, x ≠ .tuple y) → P.dual i.opcode = false := by
    intro x hx hy
    cases hd : P.dual i.opcode with
    | false => rfl
    | true =>
      obtain ⟨_, _, hz, _⟩ := hvi.arg_ok.dual hd
      exact absurd (hx ▸ hz) (hy _)
  obtain ⟨hr, hvc⟩ := convert_remove hP hcache hv h
  obtain ⟨T, M, hF⟩ := toConcrete_Final hP hcache hv h
  have hread := C22_read (key := key) hP hvc h' hr (hF.program_valid hok)
  have hi : .instr i ∈ b.elems := by rw [he]; simp
  constructor <;> intro ha
  · obtain ⟨o, h1, h2, h3⟩ := convert_at hP hcache hv h he (hok i hi) (hd _ ha (by simp))
    obtain ⟨u, g1, g2⟩ := forall₂_get hread _ h1
    have h4 : o.operand = .slot (.named n) := by
      rw [h3]; unfold operandB; rw [if_neg (by grind), if_neg (by grind), if_pos hk, ha]
    exact ⟨u, g1, by rw [g2.name, h2], by rw [g2.same (.inr (.inr (by rw [h4]; simp))), h4]⟩
  · obtain ⟨o, h1, h2, h3⟩ := convert_at hP hcache hv h he (hok i hi) (hd _ ha (by simp))
    obtain ⟨u, g1, g2⟩ := forall₂_get hread _ h1
    have h4 : o.operand = .slot (.free n) := by
      rw [h3]; unfold operandB; rw [if_neg (by grind), if_neg (by grind), if_pos hk, ha]
    have hop : P.opmap o.name = some i.opcode := by rw [h2]; exact hvi.name_op
    refine ⟨u, g1, by rw [g2.name, h2], ?_, ?_⟩
    · intro hc
      rw [g2.same ?_, h4]
      rcases hc with hc | hc
      · exact .inl hc
      · exact .inr (.inl (by intro op h; rw [hop] at h; cases h; exact hc))
    · intro h13 hl
      obtain ⟨j, m, q1, q2, q3⟩ := g2.free h13 ⟨_, hop, hl⟩ n h4
      rw [hF.attrs] at q1 q2
      exact ⟨j, m, q1, q2, q3⟩

end
end Verif

namespace Verif
open Spec
/-! ### Examples -/

/-- 3.13: `g` and `x` are free variables, `x` is also a local one: slots x, g, (free) x. -/
def readGood : Concrete := ⟨{ Attrs.default with freevars := ["g", "x"] }, [], [], ["x"], [],
  [cins Py313.platform "LOAD_FAST" (some 1), cins Py313.platform "LOAD_DEREF" (some 2), cins Py313.platform "RETURN_VALUE"]⟩
/-- The same with an instruction on local variables at the slot of the free variable f that follows x. -/
def readBad : Concrete := ⟨{ Attrs.default with freevars := ["x", "f", "g"] }, [], [], ["x"], [],
  [cins Py313.platform "LOAD_DEREF" (some 1), cins Py313.platform "LOAD_FAST" (some 2), cins Py313.platform "RETURN_VALUE"]⟩

example : (toBytecode Py313.platform true true readGood).isOk = true ∧ slotsBefore readGood = 2 ∧ readGood.attrs.freevars.Nodup ∧
    (∀ ci ∈ instrsOf readGood.elems, ∀ k ∈ localIndexes Py313.platform ci, k < slotsBefore readGood) ∧
    (∀ o ∈ programC Py313.platform (id : Arg → Arg) readGood, o.operand ≠ .invalid) ∧
    (match removeExtendedArgs Py313.platform 0 none readGood.elems with | .ok es => es == readGood.elems | .error _ => false) = true := by
  decide +kernel

/-- LOAD_FAST 2 is the free variable f; it is read as LOAD_FAST of the free variable g. -/
example : (toBytecode Py313.platform true true readBad).isOk = true ∧ slotsBefore readBad = 1 ∧ readBad.attrs.freevars.Nodup ∧
    ¬ (∀ ci ∈ instrsOf readBad.elems, ∀ k ∈ localIndexes Py313.platform ci, k < slotsBefore readBad) ∧
    (programC Py313.platform (id : Arg → Arg) readBad).map (·.operand) = [.slot (.free "x"), .slot (.free "f"), .none] ∧
    (match toBytecode Py313.platform true true readBad with
      | .ok b => (programB Py313.platform (id : Arg → Arg) b).map (·.operand)
      | .error _ => []) = [.slot (.free "x"), .slot (.free "g"), .none] := by
  decide +kernel

/-- For `C18_exact`: a Bytecode with free variables g, x and f, x being also a local one. -/
def freeEx : Bytecode := ⟨{ Attrs.default with freevars := ["x", "f", "g"] }, [], [ins Py313.platform "LOAD_FAST" (.str "x"),
  ins Py313.platform "LOAD_FAST" (.free "f"), ins Py313.platform "LOAD_DEREF" (.free "f"), ins Py313.platform "RETURN_VALUE"]⟩

example : (∀ e ∈ freeEx.elems, e.isCache = false) ∧ (roundTrip Py313.platform freeEx).map (fun b => (programB Py313.platform (id : Arg → Arg) b).map (·.operand)) =
    some [.slot (.named "x"), .slot (.free "g"), .slot (.free "f"), .none] :=
  ⟨noCache_spec (by decide +kernel), by decide +kernel⟩

end Verif
