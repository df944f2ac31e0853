import Verif.Proofs.LineTables
/-
C05, C06: line tables of 3.8-3.10.
-/
namespace Verif
open Spec

/-- **C05.** On 3.8/3.9 the emitted co_lnotab gives, at every byte of every instruction, the line of that
instruction: the last line set by it or by an element before it, else the first line of the code. -/
theorem C05_lnotab_lines (P : Platform) (hP : P.minor < 10) (first : Nat) (code : List CElem)
    (hsz : ∀ i, .instr i ∈ code → i.size % 2 = 0) :
    ∃ bs, assembleLnotab first (assembleCode P first code).2 = .ok bs ∧
      ∀ pre i post, code = pre ++ .instr i :: post → ∀ q, codeSize pre ≤ q → q < codeSize pre + i.size →
        lnotabLine 0 first q bs = currentLine first (pre ++ [.instr i]) := by
  have hp : P.py310 = false := by simp [Platform.py310]; omega
  have hs := assembleCodeLoop_infos P code first 0 hsz
  rw [hp] at hs
  obtain ⟨bs, hb, hq⟩ := assembleLnotabLoop_ok (assembleCode P first code).2 0 first (by simpa [assembleCode] using hs)
  refine ⟨bs, hb, ?_⟩
  rintro pre i post rfl q h1 h2
  have := infoLine_code P pre post i first 0 first hsz q (by simpa [hp] using h1) (by simpa [hp] using h2)
  rw [hq]
  exact this

/-- Non-vacuity: forward and backward jumps of more than 127 lines and more than 255 bytes. -/
example : ∃ code : List CElem, (∀ i, .instr i ∈ code → i.size % 2 = 0) ∧ code.length = 4 ∧
    (code.map lineOf) = [some 400, none, some 3, none] :=
  ⟨[.setLineno 400, .instr ⟨"NOP", 9, none, none, some 200, 402⟩, .instr ⟨"NOP", 9, none, some (Loc.line (some 3)), none, 2⟩,
    .instr ⟨"NOP", 9, none, none, none, 2⟩], by simp, rfl, rfl⟩

/-- The full C06: on 3.10 the emitted co_linetable gives every byte of every instruction the line of that
instruction, or "no line". -/
def C06_statement (P : Platform) : Prop :=
  ∀ (first : Nat) (code : List CElem), (∀ i, .instr i ∈ code → i.size % 2 = 0 ∧ 2 ≤ i.size) →
    ∃ bs, assembleLinetable first (assembleCode P first code).2 = .ok bs ∧
      readLinetable first bs = (instrLines first code).flatMap (fun p => List.replicate p.1 (p.2.map Int.ofNat))

theorem C06_aux (P : Platform) (hP : P.py310 = true) (first : Nat) (code : List CElem)
    (hsz : ∀ i, .instr i ∈ code → i.size % 2 = 0 ∧ 2 ≤ i.size) : ∀ cur, NoLineOK first cur 0 code →
    ∃ bs, assembleLinetable first (assembleCodeLoop P 0 (normalizeLineno cur code)).2 = .ok bs ∧
      readLinetable first bs = (instrLines cur code).flatMap (fun p => List.replicate p.1 (p.2.map Int.ofNat)) := by
  induction code with
  | nil => intro cur _; exact ⟨[], rfl, rfl⟩
  | cons e es ih =>
    intro cur hok
    have hsz' : ∀ i, .instr i ∈ es → i.size % 2 = 0 ∧ 2 ≤ i.size := fun i hi => hsz i (by simp [hi])
    have hsz'' : ∀ i, .instr i ∈ es → i.size % 2 = 0 ∧ 0 < i.size := fun i hi => by have := hsz' i hi; omega
    cases e with
    | setLineno n => exact ih hsz' n hok
    | instr i =>
      obtain ⟨hi, hi2⟩ := hsz i (by simp)
      simp only [normalizeLineno, assembleCodeLoop, assembleLinetable, hP, if_true, NoLineOK] at hok ⊢
      have key := fun (cur line ref : Nat) dl h1 h2 h3 => assembleLinetableLoop_ok P hP es 0 i.size cur line ref dl hsz''
        rfl hi h1 h2 h3
      simp only [Nat.zero_add, Nat.zero_mul] at key ⊢
      cases hloc : i.loc with
      | none =>
        rw [hloc] at hok
        obtain ⟨bs, hb, hr⟩ := key cur cur first (some ((cur : Int) - first)) (by intro d h; simp at h; omega) (by simp)
          (by simpa using hok.2)
        refine ⟨bs, by simpa [linetableDelta, locLine?] using hb, ?_⟩
        rw [hr]; simp [instrLines, hloc]
      | some l =>
        rw [hloc] at hok
        cases hl : l.lineno with
        | some n =>
          simp only [hl] at hok
          obtain ⟨bs, hb, hr⟩ := key n n first (some ((n : Int) - first)) (by intro d h; simp at h; omega) (by simp)
            (by simpa using hok.2)
          refine ⟨bs, by simpa [linetableDelta, locLine?, hl] using hb, ?_⟩
          rw [hr]; simp [instrLines, hloc, hl]
        | none =>
          simp only [hl] at hok
          obtain ⟨hcur, hrun, hok'⟩ := hok
          obtain ⟨bs, hb, hr⟩ := key cur first first none (by simp) (fun _ => ⟨rfl, by omega, by omega⟩)
            (by simpa using hok')
          refine ⟨bs, by simpa [linetableDelta, locLine?, hl, hcur] using hb, ?_⟩
          rw [hr]; simp [instrLines, hloc, hl]

/-- **C06 (partial).** It holds for all codes whose runs of "no line" instructions are at most 254 bytes long, are
followed by a line different from the one before the run, and are not preceded by a SetLineno without
instruction (`NoLineOK`). -/
theorem C06_linetable_lines_partial (P : Platform) (hP : P.py310 = true) (first : Nat) (code : List CElem)
    (hsz : ∀ i, .instr i ∈ code → i.size % 2 = 0 ∧ 2 ≤ i.size) (hok : NoLineOK first first 0 code) :
    ∃ bs, assembleLinetable first (assembleCode P first code).2 = .ok bs ∧
      readLinetable first bs = (instrLines first code).flatMap (fun p => List.replicate p.1 (p.2.map Int.ofNat)) :=
  C06_aux P hP first code hsz first hok

/-- In particular it holds for every code in which no instruction is explicitly marked as having no line. -/
theorem C06_linetable_lines_all_lines_partial (P : Platform) (hP : P.py310 = true) (first : Nat) (code : List CElem)
    (hsz : ∀ i, .instr i ∈ code → i.size % 2 = 0 ∧ 2 ≤ i.size)
    (hl : ∀ i, .instr i ∈ code → ∀ l, i.loc = some l → l.lineno ≠ none) :
    ∃ bs, assembleLinetable first (assembleCode P first code).2 = .ok bs ∧
      readLinetable first bs = (instrLines first code).flatMap (fun p => List.replicate p.1 (p.2.map Int.ofNat)) := by
  refine C06_linetable_lines_partial P hP first code hsz ?_
  clear hsz
  suffices h : ∀ prev cur, NoLineOK prev cur 0 code from h first first
  induction code with
  | nil => intro _ _; trivial
  | cons e es ih =>
    intro prev cur
    have ih' := ih (fun i hi => hl i (by simp [hi]))
    cases e with
    | setLineno n => exact ih' prev n
    | instr i =>
      simp only [NoLineOK]
      cases hloc : i.loc with
      | none => exact ⟨.inl trivial, ih' _ _⟩
      | some l =>
        cases hll : l.lineno with
        | none => exact absurd hll (hl i (by simp) l hloc)
        | some n => simp only [hll]; exact ⟨.inl trivial, ih' _ _⟩

/-- NOP at a line, for the examples. -/
def nopAt (l : Option Loc) (size : Nat := 2) : CElem := .instr ⟨"NOP", 9, none, l, none, size⟩

/-- Non-vacuity of `NoLineOK` with a no-line run. -/
example : NoLineOK 1 1 0 [nopAt none, nopAt (some (Loc.line none)), nopAt (some (Loc.line none)),
    nopAt (some (Loc.line (some 300))), .setLineno 2, nopAt none] := by
  simp [NoLineOK, nopAt, Loc.line]

/-- A platform whose only relevant fact is its version, to evaluate the line tables. -/
def platform310 : Platform where
  minor := 10
  opmap := fun _ => none
  opname := fun _ => none
  hasArg := fun _ => false
  minInstrumented := 256
  extendedArg := 144
  hasconst := fun _ => false
  haslocal := fun _ => false
  hasname := fun _ => false
  hasfree := fun _ => false
  hascompare := fun _ => false
  hasjrel := fun _ => false
  hasjabs := fun _ => false
  cacheEntries := fun _ => 0
  stackEffect := fun _ _ _ => none

/-- **C06 is false of the code (1).** After a no-line instruction, an instruction on the same line as before it loses
its line: `dlineno == 0` skips it (concrete.py 552). -/
theorem C06_statement_false : ¬ C06_statement platform310 := by
  intro h
  obtain ⟨bs, hb, hr⟩ := h 1 [nopAt (some (Loc.line (some 1))), nopAt (some (Loc.line none)), nopAt (some (Loc.line (some 1)))]
    (by simp [nopAt])
  have : bs = [2, 0, 4, 128] := by
    have h2 : assembleLinetable 1 (assembleCode platform310 1
      [nopAt (some (Loc.line (some 1))), nopAt (some (Loc.line none)), nopAt (some (Loc.line (some 1)))]).2
      = .ok [2, 0, 4, 128] := by decide +kernel
    rw [h2] at hb; simpa using hb.symm
  subst this
  revert hr
  decide +kernel

/-- **C06 is false of the code (2).** A no-line run of more than 254 bytes is continued with delta 0, which gives its
tail a line (concrete.py 507-510). -/
theorem C06_long_no_line_run_false :
    assembleLinetable 1 (assembleCode platform310 1 [nopAt (some (Loc.line none)) 300]).2 = .ok [254, 128, 46, 0] ∧
    readLinetable 1 [254, 128, 46, 0] ≠ List.replicate 300 none := by decide +kernel

/-- **C06 is false of the code (3).** A SetLineno before a no-line instruction shifts the lines after it: the delta
of the next line is taken from the SetLineno line, which was never emitted (concrete.py 554). -/
theorem C06_setlineno_no_line_false :
    ∃ bs, assembleLinetable 1 (assembleCode platform310 1
        [nopAt none, .setLineno 5, nopAt (some (Loc.line none)), nopAt (some (Loc.line (some 6)))]).2 = .ok bs ∧
      readLinetable 1 bs ≠ [some 1, some 1, none, none, some 6, some 6] :=
  ⟨[2, 0, 2, 128, 2, 1], by decide +kernel, by decide +kernel⟩

end Verif
