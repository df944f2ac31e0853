import Verif.Proofs.Instr
import Verif.Props.ConcreteInstr
/-
C10: abstract instructions.
-/
namespace Verif
open Spec

/-- An InstrLocation passed to the `location` setter is coherent because it was constructed (C11). -/
def Instr.Op.LocOK : Instr.Op → Prop
  | .setLocation (.loc l) => Coherent l
  | _ => True

/-- `_set` either raises and changes nothing, or stores the arguments and leaves a valid pair. -/
theorem Instr.set_spec (P : Platform) (hP : P.WF) (s : Instr) (name : Option String) (arg : Arg) :
    ((s.set_ P name arg).2 = .ok () ∧ some (s.set_ P name arg).1.name = name ∧ (s.set_ P name arg).1.arg = arg ∧
      (s.set_ P name arg).1.loc = s.loc ∧ P.opmap (s.set_ P name arg).1.name = some (s.set_ P name arg).1.opcode ∧
      (s.set_ P name arg).1.opcode < P.minInstrumented ∧ (s.set_ P name arg).1.name ≠ "EXTENDED_ARG" ∧
      ArgOK P (s.set_ P name arg).1.opcode (s.set_ P name arg).1.arg) ∨
    (∃ e, s.set_ P name arg = (s, .error e)) := by
  unfold Instr.set_
  cases hl : lookupName P name with
  | error e => exact .inr ⟨e, rfl⟩
  | ok p =>
    obtain ⟨n, op⟩ := p
    obtain ⟨h1, h2, h3⟩ := lookupName_ok hl
    simp only
    cases hc : Instr.checkArg P n op arg with
    | error e => exact .inr ⟨e, rfl⟩
    | ok u =>
      have hne : n ≠ "EXTENDED_ARG" := by
        intro hn; subst hn; simp [Instr.checkArg] at hc
      exact .inl ⟨rfl, h1.symm, rfl, rfl, h2, h3, hne, (checkArg_iff P hP n op hne arg).1 hc⟩

/-- **C10 (construction).** Every `Instr` that can be constructed is valid and holds what was given. -/
theorem C10_constructed_valid (P : Platform) (hP : P.WF) (name : Option String) (arg : Arg) (lineno : LinenoArg)
    (location : Option Loc) (hl : ∀ l, location = some l → Coherent l) (s : Instr)
    (h : Instr.make P name arg lineno location = .ok s) :
    ValidInstr P s ∧ some s.name = name ∧ s.arg = arg := by
  unfold Instr.make at h
  rcases Instr.set_spec P hP ⟨"", 0, .unset, none⟩ name arg with ⟨h1, hn, ha, _, v1, v2, v3, v4⟩ | ⟨e, he⟩
  · simp only [h1, bind, Except.bind] at h
    cases hi : initLocation P.py311 lineno location with
    | error e => rw [hi] at h; simp at h
    | ok l =>
      rw [hi] at h
      simp only [pure, Except.pure, Except.ok.injEq] at h
      subst h
      refine ⟨⟨v1, v2, v3, v4, ?_⟩, hn, ha⟩
      intro x hx
      simp only at hx
      subst hx
      unfold initLocation at hi
      cases location with
      | some y => simp at hi; subst hi; exact hl y rfl
      | none =>
        cases lineno with
        | unset => simp at hi
        | val v =>
          simp only at hi
          cases hm : Loc.make P.py311 v none none none with
          | error e => rw [hm] at hi; simp [Except.map] at hi
          | ok y =>
            rw [hm] at hi; simp only [Except.map, Except.ok.injEq, Option.some.injEq] at hi; subst hi
            exact Loc.make_coherent hm
  · simp [he, bind, Except.bind] at h

/-- **C10 (acceptance).** Constructing an instruction with a known base opcode name other than EXTENDED_ARG, and no
location, succeeds exactly when the argument is of the documented kind. -/
theorem C10_accepts_iff (P : Platform) (hP : P.WF) (name : String) (op : Nat) (hn : P.opmap name = some op)
    (hb : op < P.minInstrumented) (hne : name ≠ "EXTENDED_ARG") (arg : Arg) :
    (∃ s, Instr.make P (some name) arg = .ok s) ↔ ArgOK P op arg := by
  rw [← checkArg_iff P hP name op hne arg]
  unfold Instr.make Instr.set_ lookupName
  simp only [hn]
  rw [if_neg (by omega)]
  simp only
  cases Instr.checkArg P name op arg with
  | error e => simp [bind, Except.bind]
  | ok u => simp [bind, Except.bind, initLocation, pure, Except.pure]

/-- **C10 (one operation).** A mutation keeps the instruction valid; if it raises, the instruction is unchanged. -/
theorem C10_step (P : Platform) (hP : P.WF) (s : Instr) (hv : ValidInstr P s) (op : Instr.Op) (ho : op.LocOK) :
    ValidInstr P (s.step P op).1 ∧ ((s.step P op).2 = .ok () ∨ (s.step P op).1 = s) := by
  have hset : ∀ n a, ValidInstr P (s.set_ P n a).1 ∧ ((s.set_ P n a).2 = .ok () ∨ (s.set_ P n a).1 = s) := by
    intro n a
    rcases Instr.set_spec P hP s n a with ⟨h1, _, _, hloc, v1, v2, v3, v4⟩ | ⟨e, he⟩
    · exact ⟨⟨v1, v2, v3, v4, by rw [hloc]; exact hv.loc_ok⟩, .inl h1⟩
    · rw [he]; exact ⟨hv, .inr rfl⟩
  have hloc : ∀ l, (∀ x, l = some x → Coherent x) → ValidInstr P { s with loc := l } := by
    intro l hl
    obtain ⟨v1, v2, v3, v4, _⟩ := hv
    exact ⟨v1, v2, v3, v4, hl⟩
  cases op with
  | set n a => exact hset n a
  | setName n => exact hset n s.arg
  | setArg a => exact hset (some s.name) a
  | setOpcode op =>
    simp only [Instr.step]
    cases op with
    | none => exact ⟨hv, .inr rfl⟩
    | some op =>
      simp only
      split
      · cases P.opname op.toNat with
        | none => exact ⟨hv, .inr rfl⟩
        | some n => exact hset (some n) s.arg
      · exact ⟨hv, .inr rfl⟩
  | setLineno l =>
    simp only [Instr.step]
    cases h : setLineno P.py311 s.loc l with
    | error e => exact ⟨hv, .inr rfl⟩
    | ok loc => exact ⟨hloc loc (setLineno_coherent h), .inl rfl⟩
  | setLocation l =>
    simp only [Instr.step]
    cases l with
    | none => exact ⟨hloc none (by simp), .inl rfl⟩
    | other => exact ⟨hv, .inr rfl⟩
    | loc l => exact ⟨hloc (some l) (by intro x hx; simp at hx; subst hx; exact ho), .inl rfl⟩

/-- A mutation that does not raise does what it says. -/
theorem C10_step_stores (P : Platform) (hP : P.WF) (s : Instr) (hv : ValidInstr P s) (op : Instr.Op)
    (h : (s.step P op).2 = .ok ()) :
    let t := (s.step P op).1
    match op with
    | .set n a => some t.name = n ∧ t.arg = a ∧ t.loc = s.loc
    | .setName n => some t.name = n ∧ t.arg = s.arg ∧ t.loc = s.loc
    | .setOpcode o => o = some (t.opcode : Int) ∧ t.arg = s.arg ∧ t.loc = s.loc
    | .setArg a => t.name = s.name ∧ t.opcode = s.opcode ∧ t.arg = a ∧ t.loc = s.loc
    | .setLineno _ => t.name = s.name ∧ t.opcode = s.opcode ∧ t.arg = s.arg
    | .setLocation l => t.name = s.name ∧ t.opcode = s.opcode ∧ t.arg = s.arg ∧
        (t.loc = match l with | .loc x => some x | _ => none) := by
  have hset : ∀ n a, (s.set_ P n a).2 = .ok () → some (s.set_ P n a).1.name = n ∧ (s.set_ P n a).1.arg = a ∧
      (s.set_ P n a).1.loc = s.loc ∧ P.opmap (s.set_ P n a).1.name = some (s.set_ P n a).1.opcode := by
    intro n a hh
    rcases Instr.set_spec P hP s n a with ⟨h1, h2, h3, hloc, v1, v2, v3, v4⟩ | ⟨e, he⟩
    · exact ⟨h2, h3, hloc, v1⟩
    · rw [he] at hh; simp at hh
  cases op with
  | set n a => have := hset n a h; exact ⟨this.1, this.2.1, this.2.2.1⟩
  | setName n => have := hset n s.arg h; exact ⟨this.1, this.2.1, this.2.2.1⟩
  | setArg a =>
    have := hset (some s.name) a h
    refine ⟨by simpa [Instr.step] using this.1, ?_, this.2.1, this.2.2.1⟩
    have h1 := this.2.2.2
    have h0 : (s.set_ P (some s.name) a).1.name = s.name := by simpa using this.1
    rw [h0, hv.name_op] at h1
    simpa [Instr.step] using h1.symm
  | setOpcode op =>
    simp only [Instr.step] at h ⊢
    cases op with
    | none => simp at h
    | some op =>
      simp only at h ⊢
      split at h
      · rename_i hr
        rw [if_pos hr]
        cases hn : P.opname op.toNat with
        | none => rw [hn] at h; simp at h
        | some n =>
          rw [hn] at h
          simp only at h ⊢
          have := hset (some n) s.arg h
          refine ⟨?_, this.2.1, this.2.2.1⟩
          have h0 : (s.set_ P (some n) s.arg).1.name = n := by simpa using this.1
          have h1 := this.2.2.2
          rw [h0, hP.op_name op.toNat n (by omega) hn] at h1
          simp only [Option.some.injEq] at h1 ⊢
          omega
      · simp at h
  | setLineno l =>
    simp only [Instr.step] at h ⊢
    cases hl : setLineno P.py311 s.loc l with
    | error e => rw [hl] at h; simp at h
    | ok loc => simp
  | setLocation l =>
    simp only [Instr.step] at h ⊢
    cases l with
    | none => simp [setLocation]
    | other => simp [setLocation] at h
    | loc l => simp [setLocation]

/-- **C10.** From any constructible instruction, after any sequence of mutations (successful or raising), the
instruction is valid: the argument is of the kind the documentation requires for its opcode. -/
theorem C10_instr_always_valid (P : Platform) (hP : P.WF) (name : Option String) (arg : Arg) (lineno : LinenoArg)
    (location : Option Loc) (hl : ∀ l, location = some l → Coherent l) (s : Instr)
    (h : Instr.make P name arg lineno location = .ok s) (ops : List Instr.Op) (ho : ∀ op ∈ ops, op.LocOK) :
    ValidInstr P (ops.foldl (fun s op => (s.step P op).1) s) := by
  have hv := (C10_constructed_valid P hP name arg lineno location hl s h).1
  clear h
  induction ops generalizing s with
  | nil => exact hv
  | cons op ops ih =>
    exact ih _ (fun o ho' => ho o (by simp [ho'])) (C10_step P hP s hv op (ho op (by simp))).1

/-- `Instr.copy()` gives back the same instruction (C38 for abstract instructions). -/
theorem C38_instr_copy (P : Platform) (hP : P.WF) (s : Instr) (hv : ValidInstr P s) : s.copy P = .ok s := by
  obtain ⟨v1, v2, v3, v4, _⟩ := hv
  obtain ⟨n, op, a, l⟩ := s
  simp only at v1 v2 v3 v4
  unfold Instr.copy Instr.make Instr.set_ lookupName
  simp only [v1]
  rw [if_neg (by omega)]
  simp only [(checkArg_iff P hP n op v3 a).2 v4, bind, Except.bind]
  cases l <;> simp [initLocation, pure, Except.pure]

/-! Concrete cases on the 3.11 tables. -/
example : ∃ s, Instr.make Py311.platform (some "LOAD_GLOBAL") (.tuple [.bool true, .str "x"]) = .ok s := by
  refine (C10_accepts_iff _ Py311.wf _ 116 (by decide +kernel) (by decide +kernel) (by decide) _).2 ?_
  rw [← checkArg_iff _ Py311.wf "LOAD_GLOBAL" _ (by decide)]; decide +kernel
example : Instr.make Py311.platform (some "LOAD_GLOBAL") (.str "x") = .error .typeError := by decide +kernel
example : Instr.make Py311.platform (some "JUMP_FORWARD") (.int 3) = .error .typeError := by decide +kernel
example : (Instr.make Py311.platform (some "POP_JUMP_FORWARD_IF_TRUE") (.label 3)).isOk = true := by decide +kernel
/-- renaming to an opcode of another kind is refused and leaves the instruction alone -/
example : ∀ s, Instr.make Py311.platform (some "LOAD_CONST") (.str "x") = .ok s →
    (s.step Py311.platform (.setName (some "COMPARE_OP"))) = (s, .error .typeError) := by
  intro s h
  have : s = ⟨"LOAD_CONST", 100, .str "x", none⟩ := by
    have h2 : Instr.make Py311.platform (some "LOAD_CONST") (.str "x") = .ok ⟨"LOAD_CONST", 100, .str "x", none⟩ := by decide +kernel
    rw [h2] at h; simpa using h.symm
  subst this; decide +kernel

end Verif
