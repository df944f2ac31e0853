import Verif.Proofs.Disassemble
import Verif.Instances.Py311
/-
C08, C44: reading assembled code back; re-assembling read code.
-/
namespace Verif
open Spec

theorem sameInstr_of_reread {f : Option Nat → Option Nat} {i j : CInstr} (h : noLoc j = reread f i) : SameInstr i j := by
  have h1 := congrArg CInstr.name h
  have h2 := congrArg CInstr.opcode h
  have h3 := congrArg CInstr.size h
  have h4 := congrArg CInstr.arg h
  simp only [noLoc, reread] at h1 h2 h3 h4
  exact ⟨h1, h2, h3, fun h0 => by rw [h4, if_neg h0]⟩

theorem forall₂_of_map {f : Option Nat → Option Nat} {is js : List CInstr} (h : js.map noLoc = is.map (reread f)) :
    List.Forall₂ SameInstr is js := by
  induction is generalizing js with
  | nil => simp at h; subst h; exact .nil
  | cons i is ih =>
    cases js with
    | nil => simp at h
    | cons j js =>
      simp only [List.map_cons, List.cons.injEq] at h
      exact .cons (sameInstr_of_reread h.1) (ih h.2)

/-- **C08 (3.11+).** Take any list of constructible concrete instructions, none of which is an explicit EXTENDED_ARG,
whose `size` is their assembled length (C07_size_eq_length_iff says when), laid out with the CACHE entries CPython
requires. Reading the assembled code string unit by unit and then folding EXTENDED_ARG gives back the same
instructions: same names, opcodes, arguments and sizes, in the same order. -/
theorem C08_read_311 (P : Platform) (hP : P.WF) (h11 : P.py311 = true) (is : List CInstr) (hl : CacheLayout P is)
    (hv : ∀ i ∈ is, ValidCInstr P i) (hs : ∀ i ∈ is, (i.assemble P).length = i.size) (hn : ∀ i ∈ is, i.name ≠ "EXTENDED_ARG") :
    ∃ us js : List CInstr, disUnits P 0 (is.flatMap (CInstr.assemble P)) = .ok us ∧
      removeExtendedArgs P 0 none (us.map .instr) = .ok (js.map .instr) ∧ List.Forall₂ SameInstr is js := by
  have hr : ∀ i ∈ is, Readable P i := fun i hi => ⟨hv i hi, hs i hi, hn i hi⟩
  obtain ⟨h1, h2⟩ := disUnits_layout P hP h11 is hl hr
  have hnl : (is.flatMap (unitInstrs P (fun _ => some 0))).map noLoc = is.flatMap (unitInstrs P (fun _ => some 0)) := by
    rw [List.map_flatMap]
    apply flatMap_congr'
    intro i _
    unfold unitInstrs
    split <;> simp [noLoc, extInstr]
  obtain ⟨js, h3, h4, _⟩ := removeExtendedArgs_list P hP (fun _ => some 0) is hr
    (fun i hi h0 => ⟨h2 i hi h0, fun a ha => by simp at ha; omega⟩) _ hnl
  exact ⟨_, js, h1, h3, forall₂_of_map h4⟩

/-- **C08 (3.8 - 3.10).** Same for the reader used before 3.11, whatever lines it finds in the line table (as long as
they are lines `InstrLocation` accepts). -/
theorem C08_read_before_311 (P : Platform) (hP : P.WF) (h11 : P.py311 = false) (is : List CInstr)
    (hv : ∀ i ∈ is, ValidCInstr P i) (hs : ∀ i ∈ is, (i.assemble P).length = i.size) (hn : ∀ i ∈ is, i.name ≠ "EXTENDED_ARG")
    (lineAt : Nat → Option LinenoArg) (first : LinenoArg) (hla : ∀ off l, lineAt off = some l → LineOK P l) (hf : LineOK P first) :
    ∃ us js : List CInstr,
      disassembleAll P lineAt first (is.flatMap (CInstr.assemble P)) (is.flatMap (CInstr.assemble P)).length 0 = .ok us ∧
      removeExtendedArgs P 0 none (us.map .instr) = .ok (js.map .instr) ∧ List.Forall₂ SameInstr is js := by
  have hr : ∀ i ∈ is, Readable P i := fun i hi => ⟨hv i hi, hs i hi, hn i hi⟩
  have h0 : ∀ i ∈ is, i.opcode ≠ 0 := fun i hi h => hP.no_zero h11 i.name (by rw [(hv i hi).name_op, h])
  rw [flatPairs_flatMap P is hv]
  obtain ⟨us, h1, h2⟩ := disassembleAll_units P hP lineAt hla (is.flatMap (unitPairs P)) (by
    intro p hp
    obtain ⟨i, hi, hp⟩ := List.mem_flatMap.1 hp
    exact unitPairs_lt P hP i (hv i hi) p hp) [] first (flatPairs (is.flatMap (unitPairs P))).length hf
    (by rw [flatPairs_length]; omega)
  have h3 : us.map noLoc = is.flatMap (unitInstrs P id) := by
    rw [h2, List.map_flatMap]
    apply flatMap_congr'
    intro i hi
    exact unitPairs_raw P hP i (hv i hi) (h0 i hi)
  obtain ⟨js, h4, h5, _⟩ := removeExtendedArgs_list P hP id is hr (fun i hi h => absurd h (h0 i hi)) us h3
  refine ⟨us, js, ?_, h4, forall₂_of_map h5⟩
  simpa using h1

/-- **C08 (unfolded).** With `extended_arg=True` every instruction read is one code unit: its size is 2 and the code
string is the concatenation of the units. Here for any code string of bytes on 3.11+ whose cache units are zero. -/
theorem C08_units_311 (P : Platform) (hP : P.WF) (h11 : P.py311 = true) (is : List CInstr) (hl : CacheLayout P is)
    (hv : ∀ i ∈ is, ValidCInstr P i) (hs : ∀ i ∈ is, (i.assemble P).length = i.size) (hn : ∀ i ∈ is, i.name ≠ "EXTENDED_ARG")
    (hc : ∀ i ∈ is, i.opcode = 0 → i.arg.getD 0 = 0) :
    ∃ us : List CInstr, disUnits P 0 (is.flatMap (CInstr.assemble P)) = .ok us ∧ (∀ u ∈ us, u.size = 2 ∧ u.ext = none) ∧
      us.flatMap (CInstr.assemble P) = is.flatMap (CInstr.assemble P) := by
  have hr : ∀ i ∈ is, Readable P i := fun i hi => ⟨hv i hi, hs i hi, hn i hi⟩
  obtain ⟨h1, h2⟩ := disUnits_layout P hP h11 is hl hr
  refine ⟨_, h1, ?_, ?_⟩
  · intro u hu
    obtain ⟨i, _, hu⟩ := List.mem_flatMap.1 hu
    unfold unitInstrs at hu
    split at hu
    · simp at hu; subst hu; exact ⟨rfl, rfl⟩
    · simp only [List.mem_append, List.mem_map, List.mem_singleton] at hu
      rcases hu with ⟨b, _, rfl⟩ | rfl
      · exact ⟨rfl, rfl⟩
      · exact ⟨rfl, rfl⟩
  · rw [List.flatMap_assoc]
    apply flatMap_congr'
    intro i hi
    have hsmall : ∀ b, b < 256 → ∀ n op l, (CInstr.mk n op (some b) l none 2).assemble P = [op, b] := by
      intro b hb n op l
      simp only [CInstr.assemble]
      rw [assembleArgLoop, if_neg (by omega), and255, Nat.mod_eq_of_lt hb]
    unfold unitInstrs
    by_cases h0 : i.opcode = 0
    · have hnp := h2 i hi h0
      simp only [h0, if_true, hnp, prefixBytes, List.map_nil, List.nil_append, List.flatMap_cons, List.flatMap_nil, List.append_nil]
      rw [hsmall _ (by decide)]
      cases ha : i.arg with
      | none => rw [CInstr.assemble, ha, h0]
      | some a =>
        have := hc i hi h0; rw [ha] at this; simp at this; subst this
        rw [assemble_prefix P i (hv i hi).size_eq 0 ha, hnp, h0]; rfl
    · rw [if_neg h0]
      cases ha : i.arg with
      | none => simp [CInstr.assemble, ha]
      | some a =>
        rw [assemble_prefix P i (hv i hi).size_eq a ha]
        simp only [List.flatMap_append, List.flatMap_cons, List.flatMap_nil, List.append_nil, hsmall _ (Nat.mod_lt a (by decide : 0 < 256))]
        congr 1
        rw [List.flatMap_map]
        unfold unitsFlat
        apply flatMap_congr'
        intro b hb
        exact hsmall b (prefixBytes_lt _ _ b hb) _ _ _

/-! ### C44 -/

/-- **C44.** Any code read by either reader as single units and then folded assembles to exactly the units that were
read (useless EXTENDED_ARG prefixes included), as long as no NOP carries an EXTENDED_ARG. -/
theorem C44_reassemble_partial (P : Platform) (hP : P.WF) (us : List CInstr) (hus : ∀ u ∈ us, RawInstr P u)
    (es : List CElem) (h : removeExtendedArgs P 0 none (us.map .instr) = .ok es)
    (hnop : ∀ i, CElem.instr i ∈ es → i.name = "NOP" → i.ext = none) :
    es.flatMap (elemBytes P) = us.flatMap (CInstr.assemble P) := by
  have := removeExtendedArgs_bytes P hP us hus [] (by simp) es (by simpa [extState] using h) hnop
  simpa [unitsFlat] using this

/-- **C44 (3.11+, from the code string).** If `from_code` reads the code string of a code object, assembling the
result gives back the code string (inline caches and ignored argument bytes zeroed), again unless a NOP carries an
EXTENDED_ARG. -/
theorem C44_from_code_to_code_311_partial (P : Platform) (hP : P.WF) (h11 : P.py311 = true) (code : Bytes) (hc : ∀ b ∈ code, b < 256)
    (us : List CInstr) (h : disUnits P 0 code = .ok us) (es : List CElem) (h' : removeExtendedArgs P 0 none (us.map .instr) = .ok es)
    (hnop : ∀ i, CElem.instr i ∈ es → i.name = "NOP" → i.ext = none) :
    es.flatMap (elemBytes P) = significant P 0 code := by
  obtain ⟨h1, h2⟩ := disUnits_raw P hP h11 code _ (Nat.le_refl _) hc 0 us h
  rw [C44_reassemble_partial P hP us h1 es h' hnop]
  simpa using h2

/-- **C44 (the excluded case is a real loss).** A NOP preceded by an EXTENDED_ARG loses it: 4 bytes are read, 2 are
written, so every later offset moves. -/
theorem C44_statement_false :
    ∃ us es : List CInstr, disUnits Py311.platform 0 [144, 1, 9, 0] = .ok us ∧
      removeExtendedArgs Py311.platform 0 none (us.map .instr) = .ok (es.map .instr) ∧
      es.flatMap (CInstr.assemble Py311.platform) = [9, 0] := by
  refine ⟨[⟨"EXTENDED_ARG", 144, some 1, none, none, 2⟩, ⟨"NOP", 9, none, none, none, 2⟩], [⟨"NOP", 9, none, none, some 1, 4⟩], ?_, ?_, ?_⟩
  all_goals decide +kernel

/-! ### Non-vacuity -/

/-- `LOAD_CONST 70000; LOAD_GLOBAL 600 + its 5 CACHEs; RETURN_VALUE` meets the hypotheses of C08. -/
def c08Example : List CInstr :=
  [⟨"LOAD_CONST", 100, some 70000, none, none, 6⟩, ⟨"LOAD_GLOBAL", 116, some 600, none, some 3, 8⟩] ++
  (List.replicate 5 ⟨"CACHE", 0, some 0, none, none, 2⟩) ++ [⟨"RETURN_VALUE", 83, none, none, none, 2⟩]

example : CacheLayout Py311.platform c08Example := by
  refine .group _ [] _ (by decide) (by decide +kernel) (by simp) ?_
  refine .group _ (List.replicate 5 ⟨"CACHE", 0, some 0, none, none, 2⟩) [⟨"RETURN_VALUE", 83, none, none, none, 2⟩] (by decide) (by decide +kernel) (by simp) ?_
  exact .group _ [] [] (by decide) (by decide +kernel) (by simp) .nil
example : c08Example.all (fun i => (CInstr.make Py311.platform (some i.name) i.argVal .unset none i.ext) == .ok i &&
    (i.assemble Py311.platform).length == i.size) = true := by decide +kernel
example : significant Py311.platform 0 (c08Example.flatMap (CInstr.assemble Py311.platform)) =
    c08Example.flatMap (CInstr.assemble Py311.platform) := by decide +kernel
example : (disUnits Py311.platform 0 (c08Example.flatMap (CInstr.assemble Py311.platform))).map List.length = .ok (3 + 4 + 5 + 1) := by
  decide +kernel

end Verif
