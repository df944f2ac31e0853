import Verif.Props.Exact
import Verif.Proofs.OldRead
/-
C44 on code strings: what from_code then assembling gives, on every code string.
-/
namespace Verif
open Spec

/-- One unit read by `ConcreteInstr.disassemble`. -/
theorem disassemble_raw (P : Platform) (hP : P.WF) (code : Bytes) (hc : ∀ b ∈ code, b < 256) (lineno : LinenoArg) (off : Nat) (i : CInstr)
    (h : CInstr.disassemble P lineno code off = .ok i) :
    RawInstr P i ∧ i.size = 2 ∧ ∃ op, code[if P.py310 then 2 * off else off]? = some op ∧ i.opcode = op ∧
      (P.hasArg op = true → code[(if P.py310 then 2 * off else off) + 1]? = some (i.arg.getD 0)) ∧ (P.hasArg op = false → i.arg = none) := by
  unfold CInstr.disassemble at h
  simp only at h
  generalize (if P.py310 = true then 2 * off else off) = idx at h ⊢
  cases hop : code[idx]? with
  | none => rw [hop] at h; cases h
  | some op =>
    rw [hop] at h
    simp only at h
    have hopb : op < 256 := hc _ (List.mem_of_getElem? hop)
    cases hno : P.opname op with
    | none => rw [hno] at h; simp only at h; split at h <;> cases h
    | some nm =>
      rw [hno] at h
      simp only at h
      have hopm := hP.op_name op nm hopb hno
      have key : ∀ a, (∀ x, a = .int x → 0 ≤ x ∧ x < 256) → CInstr.make P (some nm) a lineno = .ok i → RawInstr P i ∧ i.size = 2 ∧ i.opcode = op ∧ i.argVal = a := by
        intro a ha hm
        obtain ⟨hv, hn, hia, hie⟩ := C09_constructed_valid P _ _ _ _ (fun l' e => by cases e) _ _ hm
        have hb : ∀ x, i.arg = some x → x < 256 := by
          intro x hx
          have : a = .int x := by rw [← hia, CInstr.argVal, hx]; rfl
          have := ha _ this
          omega
        refine ⟨⟨hv, hie, hb⟩, ?_, ?_, hia⟩
        · rw [hv.size_eq, hie, sizeFor_small _ hb]
        · have := hv.name_op
          rw [Option.some.inj hn, hopm] at this
          exact (Option.some.inj this).symm
      cases hA : P.hasArg op with
      | true =>
        rw [hA, if_pos rfl] at h
        cases hx : code[idx + 1]? with
        | none => rw [hx] at h; cases h
        | some a =>
          rw [hx] at h
          simp only at h
          obtain ⟨h1, h2, h3, h4⟩ := key _ (by intro x e; cases e; have := hc a (List.mem_of_getElem? hx); omega) h
          refine ⟨h1, h2, op, rfl, h3, fun _ => ?_, fun e => (by rw [hA] at e; cases e)⟩
          unfold CInstr.argVal at h4
          cases hy : i.arg with
          | none => rw [hy] at h4; simp [CArg.ofOpt] at h4
          | some y => rw [hy] at h4; simp only [CArg.ofOpt, CArg.int.injEq] at h4; simp; omega
      | false =>
        rw [hA] at h
        simp only [Bool.false_eq_true, if_false] at h
        obtain ⟨h1, h2, h3, h4⟩ := key _ (by intro x e; cases e) h
        refine ⟨h1, h2, op, rfl, h3, fun e => (by rw [hA] at e; cases e), fun _ => ?_⟩
        unfold CInstr.argVal at h4
        cases hy : i.arg with
        | none => rfl
        | some y => rw [hy] at h4; simp [CArg.ofOpt] at h4

/-- Reading a code string before 3.11 gives units that assemble to it, the ignored argument bytes put aside. -/
theorem disassembleAll_raw (P : Platform) (hP : P.WF) (h11 : P.py311 = false) (lineAt : Nat → Option LinenoArg) (code : Bytes) (hev : code.length % 2 = 0)
    (hc : ∀ b ∈ code, b < 256) (fuel : Nat) : ∀ (lineno : LinenoArg) (off : Nat) (us : List CInstr), (P.py310 = false → off % 2 = 0) →
    disassembleAll P lineAt lineno code fuel off = .ok us →
    (∀ u ∈ us, RawInstr P u) ∧ us.flatMap (CInstr.assemble P) = significant P 0 (code.drop (if P.py310 then 2 * off else off)) := by
  have hend : ∀ off, ¬ off < code.length / (if P.py310 = true then 2 else 1) → code.drop (if P.py310 = true then 2 * off else off) = [] := by
    intro off h
    apply List.drop_eq_nil_of_le
    split at h <;> simp_all <;> omega
  have hsig : significant P 0 [] = [] := by simp [significant]
  induction fuel with
  | zero =>
    intro lineno off us hoff h
    rw [disassembleAll] at h
    by_cases hm : off < code.length / (if P.py310 = true then 2 else 1)
    · rw [if_pos hm] at h; cases h
    · rw [if_neg hm] at h; cases h
      rw [hend off hm, hsig]; simp
  | succ fuel ih =>
    intro lineno off us hoff h
    rw [disassembleAll] at h
    by_cases hm : off < code.length / (if P.py310 = true then 2 else 1)
    · rw [if_pos hm] at h
      simp only at h
      obtain ⟨i, hi, h⟩ := except_bind_ok h
      obtain ⟨r, hr, h⟩ := except_bind_ok h
      simp only [pure, Except.pure, Except.ok.injEq] at h
      subst h
      obtain ⟨hri, hsz, op, hop, hio, hia, hin⟩ := disassemble_raw P hP code hc _ _ _ hi
      rw [hsz] at hr
      obtain ⟨h1, h2⟩ := ih _ _ _ (by intro h; simp only [h, Bool.false_eq_true, if_false]; have := hoff h; omega) hr
      refine ⟨by simpa using ⟨hri, h1⟩, ?_⟩
      have hidx : (if P.py310 = true then 2 * (off + 2 / 2) else off + 2) = (if P.py310 = true then 2 * off else off) + 2 := by
        split <;> omega
      have h2' : r.flatMap (CInstr.assemble P) = significant P 0 (code.drop ((if P.py310 = true then 2 * off else off) + 2)) := by
        rw [h2]; congr 2; cases P.py310 <;> simp <;> omega
      have hpar : (if P.py310 = true then 2 * off else off) % 2 = 0 := by
        cases h10 : P.py310 with
        | true => simp
        | false => simpa [h10] using hoff h10
      generalize (if P.py310 = true then 2 * off else off) = idx at hop hia hpar h2' ⊢
      have hl1 : idx < code.length := (List.getElem?_eq_some_iff.1 hop).1
      have hl2 : idx + 1 < code.length := by omega
      rw [List.drop_eq_getElem_cons hl1, List.drop_eq_getElem_cons hl2, significant, hP.old_cache h11, ← h2', List.flatMap_cons, raw_assemble P i hri]
      have e1 : code[idx] = op := (List.getElem?_eq_some_iff.1 hop).2
      rw [e1, hio]
      cases hA : P.hasArg op with
      | true =>
        simp only [if_true]
        rw [← (List.getElem?_eq_some_iff.1 (hia hA)).2]; rfl
      | false => rw [hin hA]; simp
    · rw [if_neg hm] at h; cases h
      rw [hend off hm, hsig]; simp

/-- **C44 (code strings, exact).** Reading a code string and assembling the instructions gives it back, inline caches and ignored argument bytes put aside, exactly
when no NOP carries an EXTENDED_ARG; otherwise each of the EXTENDED_ARG before a NOP is lost. From 3.11. -/
theorem C44_code_exact_311 (P : Platform) (hP : P.WF) (h11 : P.py311 = true) (code : Bytes) (hc : ∀ b ∈ code, b < 256)
    (us : List CInstr) (h : disUnits P 0 code = .ok us) (es : List CElem) (h' : removeExtendedArgs P 0 none (us.map .instr) = .ok es) :
    (es.flatMap (elemBytes P)).length + 2 * lostPrefixes es = (significant P 0 code).length ∧
    (es.flatMap (elemBytes P) = significant P 0 code ↔ lostPrefixes es = 0) := by
  obtain ⟨h1, h2⟩ := disUnits_raw P hP h11 code _ (Nat.le_refl _) hc 0 us h
  have h2' : us.flatMap (CInstr.assemble P) = significant P 0 code := by simpa using h2
  rw [← h2']
  exact C44_exact P hP us h1 es h'

/-- **C44 (code strings, exact).** The same before 3.11, for code strings of even length (as all are). -/
theorem C44_code_exact_old (P : Platform) (hP : P.WF) (h11 : P.py311 = false) (lineAt : Nat → Option LinenoArg) (lineno : LinenoArg) (code : Bytes)
    (hev : code.length % 2 = 0) (hc : ∀ b ∈ code, b < 256)
    (us : List CInstr) (h : disassembleAll P lineAt lineno code code.length 0 = .ok us) (es : List CElem) (h' : removeExtendedArgs P 0 none (us.map .instr) = .ok es) :
    (es.flatMap (elemBytes P)).length + 2 * lostPrefixes es = code.length ∧
    (es.flatMap (elemBytes P) = significant P 0 code ↔ lostPrefixes es = 0) := by
  obtain ⟨h1, h2⟩ := disassembleAll_raw P hP h11 lineAt code hev hc _ _ 0 us (by simp) h
  have h2' : us.flatMap (CInstr.assemble P) = significant P 0 code := by simpa using h2
  have hl : ∀ n (code : Bytes), code.length = 2 * n → (significant P 0 code).length = code.length := by
    intro n
    induction n with
    | zero => intro code hn; rw [List.length_eq_zero_iff.1 (by omega : code.length = 0)]; simp [significant]
    | succ n ih =>
      intro code hn
      match code, hn with
      | op :: a :: rest, hn =>
        rw [significant, hP.old_cache h11]
        simp only [List.length_cons] at hn ⊢
        rw [ih rest (by omega)]
  have := C44_exact P hP us h1 es h'
  rw [h2', hl (code.length / 2) code (by omega)] at this
  exact this

/-- `EXTENDED_ARG 1; NOP; LOAD_CONST 0; RETURN_VALUE` on 3.9 loses its first unit, and `EXTENDED_ARG 0; LOAD_CONST 0; RETURN_VALUE` none. -/
example : (disassembleAll Py39.platform (fun _ => none) (.val (some 1)) [144, 1, 9, 0, 100, 0, 83, 0] 8 0).bind (fun us =>
      (removeExtendedArgs Py39.platform 0 none (us.map .instr)).map (fun es => (lostPrefixes es, es.flatMap (elemBytes Py39.platform)))) = .ok (1, [9, 0, 100, 0, 83, 0]) ∧
    (disassembleAll Py39.platform (fun _ => none) (.val (some 1)) [144, 0, 100, 0, 83, 0] 6 0).bind (fun us =>
      (removeExtendedArgs Py39.platform 0 none (us.map .instr)).map (fun es => (lostPrefixes es, es.flatMap (elemBytes Py39.platform)))) = .ok (0, [144, 0, 100, 0, 83, 0]) := by
  constructor <;> decide +kernel

/-- The same on 3.11. -/
example : (disUnits Py311.platform 0 [144, 1, 9, 0, 100, 0, 83, 0]).bind (fun us =>
      (removeExtendedArgs Py311.platform 0 none (us.map .instr)).map (fun es => (lostPrefixes es, es.flatMap (elemBytes Py311.platform)))) = .ok (1, [9, 0, 100, 0, 83, 0]) := by
  decide +kernel

end Verif
