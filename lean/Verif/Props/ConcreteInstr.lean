import Verif.Proofs.ConcreteInstr
import Verif.Instances.Py311
/-
C07, C09, C12: concrete instructions.
-/
namespace Verif
open Spec

/-! ### C09 -/

/-- An InstrLocation passed to the `location` setter is coherent because it was constructed (C11). -/
def CInstr.Op.LocOK : CInstr.Op → Prop
  | .setLocation (.loc l) => Coherent l
  | _ => True

/-- **C09 (construction).** Every `ConcreteInstr` that can be constructed is valid. -/
theorem C09_constructed_valid (P : Platform) (name : Option String) (arg : CArg) (lineno : LinenoArg)
    (location : Option Loc) (hl : ∀ l, location = some l → Coherent l) (ext : Option Nat) (s : CInstr)
    (h : CInstr.make P name arg lineno location ext = .ok s) :
    ValidCInstr P s ∧ some s.name = name ∧ s.argVal = arg ∧ s.ext = ext := by
  unfold CInstr.make at h
  rcases set_spec P ⟨"", 0, none, none, ext, 0⟩ name arg with ⟨h1, hloc, hext, hn, ha, h2⟩ | ⟨e, he⟩
  · simp only [h1, bind, Except.bind] at h
    cases hi : initLocation P.py311 lineno location with
    | error e => rw [hi] at h; simp at h
    | ok l =>
      rw [hi] at h
      simp only [pure, Except.pure, Except.ok.injEq] at h
      subst h
      obtain ⟨v1, v2, v3, v4, v5, v6, _⟩ := h2 (by simp)
      refine ⟨⟨v1, v2, v3, v4, v5, v6, ?_⟩, hn, ha, hext⟩
      intro x hx
      simp only at hx
      subst hx
      unfold initLocation at hi
      cases location with
      | some y => simp at hi; subst hi; exact hl y rfl
      | none =>
        cases lineno with
        | unset => simp at hi
        | val v =>
          simp only at hi
          cases hm : Loc.make P.py311 v none none none with
          | error e => rw [hm] at hi; simp [Except.map] at hi
          | ok y =>
            rw [hm] at hi; simp only [Except.map, Except.ok.injEq, Option.some.injEq] at hi; subst hi
            exact Loc.make_coherent hm
  · simp [he, bind, Except.bind] at h

/-- **C09 (one operation).** A mutation keeps the instruction valid; if it raises, the instruction is unchanged. -/
theorem C09_step (P : Platform) (s : CInstr) (hv : ValidCInstr P s) (op : CInstr.Op) (ho : op.LocOK) :
    ValidCInstr P (s.step P op).1 ∧ ((s.step P op).2 = .ok () ∨ (s.step P op).1 = s) := by
  have hloc : ∀ l, (∀ x, l = some x → Coherent x) → ValidCInstr P { s with loc := l } := by
    intro l hl
    obtain ⟨v1, v2, v3, v4, v5, v6, _⟩ := hv
    exact ⟨v1, v2, v3, v4, v5, v6, hl⟩
  cases op with
  | set n a => exact valid_of_set hv n a
  | setName n => exact valid_of_set hv n s.argVal
  | setArg a => exact valid_of_set hv (some s.name) a
  | setOpcode op =>
    simp only [CInstr.step, CInstr.setOpcode]
    cases op with
    | none => exact ⟨hv, .inr rfl⟩
    | some op =>
      simp only
      split
      · cases P.opname op.toNat with
        | none => exact ⟨hv, .inr rfl⟩
        | some n => exact valid_of_set hv (some n) s.argVal
      · exact ⟨hv, .inr rfl⟩
  | setLineno l =>
    simp only [CInstr.step]
    cases h : setLineno P.py311 s.loc l with
    | error e => exact ⟨hv, .inr rfl⟩
    | ok loc => exact ⟨hloc loc (setLineno_coherent h), .inl rfl⟩
  | setLocation l =>
    simp only [CInstr.step]
    cases l with
    | none => exact ⟨hloc none (by simp), .inl rfl⟩
    | other => exact ⟨hv, .inr rfl⟩
    | loc l => exact ⟨hloc (some l) (by intro x hx; simp at hx; subst hx; exact ho), .inl rfl⟩

/-- **C09.** From any constructible concrete instruction, after any sequence of mutations (successful or raising),
the instruction is valid: name and opcode agree, the argument is absent or in 0..2147483647 as the opcode requires,
the size is the one determined by argument and extended_args. -/
theorem C09_concrete_instr_always_valid (P : Platform) (name : Option String) (arg : CArg) (lineno : LinenoArg)
    (location : Option Loc) (hl : ∀ l, location = some l → Coherent l) (ext : Option Nat) (s : CInstr)
    (h : CInstr.make P name arg lineno location ext = .ok s) (ops : List CInstr.Op) (ho : ∀ op ∈ ops, op.LocOK) :
    ValidCInstr P (ops.foldl (fun s op => (s.step P op).1) s) := by
  have hv := (C09_constructed_valid P name arg lineno location hl ext s h).1
  clear h
  induction ops generalizing s with
  | nil => exact hv
  | cons op ops ih =>
    exact ih _ (fun o ho' => ho o (by simp [ho'])) (C09_step P s hv op (ho op (by simp))).1

/-- Assigning a name and an argument the platform accepts stores exactly those. -/
theorem C09_set_stores (P : Platform) (s : CInstr) (name : Option String) (arg : CArg)
    (h : (s.step P (.set name arg)).2 = .ok ()) :
    some (s.step P (.set name arg)).1.name = name ∧ (s.step P (.set name arg)).1.argVal = arg ∧
      (s.step P (.set name arg)).1.loc = s.loc := by
  simp only [CInstr.step] at h ⊢
  rcases set_spec P s name arg with ⟨h1, hloc, hext, hn, ha, h2⟩ | ⟨e, he⟩
  · exact ⟨hn, ha, hloc⟩
  · rw [he] at h; simp at h

/-- The opcode setter gives the instruction exactly that opcode (on tables where names and opcodes correspond). -/
theorem C09_set_opcode_stores (P : Platform) (hP : P.WF) (s : CInstr) (op : Int)
    (h : (s.step P (.setOpcode (some op))).2 = .ok ()) :
    ((s.step P (.setOpcode (some op))).1.opcode : Int) = op := by
  simp only [CInstr.step, CInstr.setOpcode] at h ⊢
  split at h
  · rename_i hr
    rw [if_pos hr]
    cases hn : P.opname op.toNat with
    | none => rw [hn] at h; simp at h
    | some n =>
      rw [hn] at h
      simp only at h ⊢
      unfold CInstr.set_ at h ⊢
      cases hl : lookupName P (some n) with
      | error e => rw [hl] at h; simp at h
      | ok p =>
        obtain ⟨n', o⟩ := p
        obtain ⟨h1, h2, h3⟩ := lookupName_ok hl
        simp only [Option.some.injEq] at h1; subst h1
        have := hP.op_name op.toNat n (by omega) hn
        rw [h2] at this
        simp only [Option.some.injEq] at this
        rw [hl] at h
        simp only at h ⊢
        cases hc : CInstr.checkArg P o s.argVal with
        | error e => rw [hc] at h; simp at h
        | ok a => simp only; omega
  · simp at h

example : (CInstr.make Py311.platform (some "LOAD_CONST") (.int 70000)).isOk = true := by decide +kernel
example : (CInstr.make Py311.platform (some "LOAD_CONST") (.int 2147483648)) = .error .valueError := by decide +kernel
example : (CInstr.make Py311.platform (some "NOP") (.int 0)) = .error .valueError := by decide +kernel

/-! ### C12 -/

/-- **C12.** Assigning `lineno` raises RuntimeError exactly when the location has an end line or columns; otherwise it
sets a location with exactly that line (or unsets it), or raises ValueError for a line below the minimum. -/
theorem C12_set_lineno (py311 : Bool) (loc : Option Loc) (l : LinenoArg) :
    (setLineno py311 loc l = .error .runtimeError ↔
      ∃ x, loc = some x ∧ (x.endLineno ≠ none ∨ x.col ≠ none ∨ x.endCol ≠ none)) ∧
    (∀ r, setLineno py311 loc l = .ok r →
      match l with
      | .unset => r = none
      | .val v => ∃ n : Option Nat, n.map Int.ofNat = v ∧ r = some ⟨n, none, none, none⟩) ∧
    (∀ e, setLineno py311 loc l = .error e → e = .runtimeError ∨
      (e = .valueError ∧ ∃ v, l = .val (some v) ∧ v < if py311 then 0 else 1)) := by
  have hdet : detailedLoc loc = true ↔ ∃ x, loc = some x ∧ (x.endLineno ≠ none ∨ x.col ≠ none ∨ x.endCol ≠ none) := by
    cases loc with
    | none => simp [detailedLoc]
    | some x => simp [detailedLoc, Option.isSome_iff_ne_none, or_assoc]
  have hline : ∀ v : Option Int, (∃ n : Option Nat, n.map Int.ofNat = v ∧ Loc.make py311 v none none none = .ok ⟨n, none, none, none⟩) ∨
      (Loc.make py311 v none none none = .error .valueError ∧ ∃ x, v = some x ∧ x < if py311 then 0 else 1) := by
    intro v
    by_cases hv : ValidArgs py311 v none none none
    · obtain ⟨loc', h, e1, e2, e3, e4⟩ := (C11_location_accepts_exactly_coherent py311 v none none none).1 hv
      obtain ⟨a, b, c, d⟩ := loc'
      simp only [Option.map_eq_none_iff] at e2 e3 e4
      subst e2 e3 e4
      exact .inl ⟨a, e1, h⟩
    · refine .inr ⟨(C11_location_accepts_exactly_coherent py311 v none none none).2 hv, ?_⟩
      cases v with
      | none => exact absurd ⟨by simp, by simp, by simp, by simp, by simp, rfl, by simp, by simp⟩ hv
      | some x =>
        refine ⟨x, rfl, ?_⟩
        rw [← Int.not_le]
        intro hle
        exact hv ⟨by simpa using hle, by simp, by simp, by simp, by simp, rfl, by simp, by simp⟩
  unfold setLineno
  by_cases hd : detailedLoc loc = true
  · simp only [hd, if_true]
    exact ⟨by simpa using hdet.1 hd, by simp, by simp⟩
  · simp only [hd, Bool.false_eq_true, if_false]
    rw [hdet] at hd
    cases l with
    | unset => exact ⟨⟨by simp, fun h => absurd h hd⟩, by simp, by simp⟩
    | val v =>
      rcases hline v with ⟨n, hn, hm⟩ | ⟨hm, hx⟩
      · simp only [hm, Except.map]
        exact ⟨⟨by simp, fun h => absurd h hd⟩, fun r hr => ⟨n, hn, by simpa using hr.symm⟩, by simp⟩
      · simp only [hm, Except.map]
        refine ⟨⟨by simp, fun h => absurd h hd⟩, by simp, ?_⟩
        intro e he
        simp only [Except.error.injEq] at he
        subst he
        obtain ⟨x, rfl, hlt⟩ := hx
        exact .inr ⟨rfl, x, rfl, hlt⟩

/-- **C12 (on instructions).** A raising `lineno=` leaves the instruction as it was; a successful one changes only the
location; any sequence of assignments keeps the location coherent (C09_concrete_instr_always_valid). -/
theorem C12_set_lineno_instr (P : Platform) (s : CInstr) (l : LinenoArg) :
    (∀ e, (s.step P (.setLineno l)).2 = .error e → (s.step P (.setLineno l)).1 = s) ∧
    ((s.step P (.setLineno l)).2 = .ok () → ∃ loc, setLineno P.py311 s.loc l = .ok loc ∧
      (s.step P (.setLineno l)).1 = { s with loc := loc }) := by
  simp only [CInstr.step]
  cases h : setLineno P.py311 s.loc l with
  | error e => simp
  | ok loc => simp

example : setLineno true (some ⟨some 1, none, none, none⟩) (.val (some 7)) = .ok (some ⟨some 7, none, none, none⟩) := by
  decide
example : setLineno true (some ⟨some 1, some 1, none, none⟩) (.val (some 7)) = .error .runtimeError := by decide

/-! ### C07 -/

/-- **C07 (layout).** The bytes of a valid instruction with an argument are EXTENDED_ARG units, as many as the
argument needs or as many as `extended_args` asks for, whichever is more, then the opcode unit; decoding them with
CPython's rule gives back opcode and argument. -/
theorem C07_assemble_decodes (P : Platform) (s : CInstr) (hv : ValidCInstr P s) (a : Nat) (ha : s.arg = some a)
    (hne : s.opcode ≠ P.extendedArg) :
    decodeUnits P.extendedArg 0 (s.assemble P) = some (s.opcode, a) ∧
    (s.assemble P).length = 2 + 2 * max (extNeeded a) (s.ext.getD 0) := by
  constructor
  · rw [assemble_eq P s hv.size_eq, ha]
    simp only [List.append_assoc]
    rw [decodeUnits_pad _ _ _ (by simp), decodeUnits_ext _ _ _ (by simp)]
    simp [decodeUnits, hne]; omega
  · rw [assemble_length P s hv.size_eq, nPrefix, ha]

/-- `extNeeded` is the least number of prefixes: `n` prefixes suffice iff the argument fits in `n + 1` bytes. -/
theorem C07_extNeeded_least (n a : Nat) : extNeeded a ≤ n ↔ a < 256 ^ (n + 1) := extNeeded_le_iff n a

/-- An instruction without argument is one unit. -/
theorem C07_assemble_no_arg (P : Platform) (s : CInstr) (ha : s.arg = none) : s.assemble P = [s.opcode, 0] := by
  rw [CInstr.assemble, ha]

/-- The full C07: the size is the number of bytes assembled. -/
def C07_statement (P : Platform) : Prop := ∀ s : CInstr, ValidCInstr P s → (s.assemble P).length = s.size

/-- **C07 (exact condition).** `len(assemble()) == size` iff `extended_args` is not given, or is 0 without argument, or
is enough for the argument. -/
theorem C07_size_eq_length_iff (P : Platform) (s : CInstr) (hv : ValidCInstr P s) :
    (s.assemble P).length = s.size ↔ ∀ n, s.ext = some n → (s.arg = none → n = 0) ∧ (∀ a, s.arg = some a → extNeeded a ≤ n) := by
  rw [assemble_length P s hv.size_eq, hv.size_eq]
  unfold nPrefix sizeFor
  cases hx : s.ext with
  | none => cases s.arg <;> simp [extNeeded_lt]
  | some n =>
    cases s.arg with
    | none => simp; omega
    | some a => simp; omega

/-- **C07 (partial).** For instructions created without `extended_args` (all those made by conversion) it holds, also
after any sequence of mutations. -/
theorem C07_size_partial (P : Platform) (name : Option String) (arg : CArg) (lineno : LinenoArg)
    (location : Option Loc) (hl : ∀ l, location = some l → Coherent l) (s : CInstr)
    (h : CInstr.make P name arg lineno location none = .ok s) (ops : List CInstr.Op) (ho : ∀ op ∈ ops, op.LocOK) :
    let s' := ops.foldl (fun s op => (s.step P op).1) s
    (s'.assemble P).length = s'.size := by
  have hv := C09_concrete_instr_always_valid P name arg lineno location hl none s h ops ho
  have hext : ∀ (ops : List CInstr.Op) (s : CInstr), s.ext = none → (ops.foldl (fun s op => (s.step P op).1) s).ext = none := by
    have hset : ∀ s : CInstr, s.ext = none → ∀ n a, (s.set_ P n a).1.ext = none := by
      intro s hs n a
      rcases set_spec P s n a with ⟨_, _, he, _⟩ | ⟨e, he⟩
      · rw [he, hs]
      · rw [he]; exact hs
    intro ops
    induction ops with
    | nil => intro s hs; exact hs
    | cons op ops ih =>
      intro s hs
      refine ih _ ?_
      cases op with
      | set n a => exact hset s hs n a
      | setName n => exact hset s hs n _
      | setArg a => exact hset s hs _ a
      | setOpcode op =>
        simp only [CInstr.step, CInstr.setOpcode]
        cases op with
        | none => exact hs
        | some op =>
          simp only
          split
          · cases P.opname op.toNat with
            | none => exact hs
            | some n => exact hset s hs _ _
          · exact hs
      | setLineno l =>
        simp only [CInstr.step]
        cases setLineno P.py311 s.loc l <;> exact hs
      | setLocation l =>
        simp only [CInstr.step]
        cases setLocation l <;> exact hs
  have he := hext ops s (C09_constructed_valid P name arg lineno location hl none s h).2.2.2
  intro s'
  rw [C07_size_eq_length_iff P s' hv]
  intro n hn
  rw [show s'.ext = none from he] at hn
  simp at hn

/-- **C07 is false in general:** a NOP with `extended_args=1` (which `from_code` itself produces for a NOP preceded by an
EXTENDED_ARG) has size 4 and assembles to 2 bytes; so does too small an `extended_args` the other way round. -/
theorem C07_statement_false : ¬ C07_statement Py311.platform := by
  intro h
  have hm : CInstr.make Py311.platform (some "NOP") .unset .unset none (some 1) = .ok ⟨"NOP", 9, none, none, some 1, 4⟩ := by
    decide +kernel
  have := h _ (C09_constructed_valid _ _ _ _ _ (by simp) _ _ hm).1
  revert this
  decide +kernel

example : (CInstr.make Py311.platform (some "LOAD_CONST") (.int 300) .unset none (some 0)).map
    (fun s => ((s.assemble Py311.platform).length, s.size)) = .ok (4, 2) := by decide +kernel
example : (CInstr.make Py311.platform (some "LOAD_CONST") (.int 70000)).map
    (fun s => (s.assemble Py311.platform, s.size)) = .ok ([144, 1, 144, 17, 100, 112], 6) := by decide +kernel

end Verif
