import Verif.Proofs.OldProgram
import Verif.Proofs.OldLines
import Verif.Proofs.FromCodeTotal
/-
Reading a code object of 3.8 to 3.10.
-/
namespace Verif
open Spec
variable {P : Platform}

theorem initLocation_line {v : Option Int} (h : ∀ l, v = some l → 1 ≤ l) : initLocation P.py311 (.val v) none = .ok (some (Loc.line (v.map Int.toNat))) := by
  have hv : ValidArgs P.py311 v none none none := by
    refine ⟨fun l hl => ?_, ?_, ?_, ?_, ?_, ?_, ?_, ?_⟩
    · have := h l hl
      split <;> omega
    all_goals simp
  obtain ⟨l, hl, e1, e2, e3, e4⟩ := (C11_location_accepts_exactly_coherent P.py311 _ _ _ _).1 hv
  unfold initLocation
  simp only [hl, Except.map]
  congr 2
  obtain ⟨a, b, c, d⟩ := l
  simp only [Option.map_eq_none_iff] at e2 e3 e4
  subst e2 e3 e4
  unfold Loc.line
  congr 1
  rw [← e1]
  cases a <;> simp

theorem make_line (hP : P.WF) {n : String} {op : Nat} (hn : P.opmap n = some op) (hb : op < P.minInstrumented)
    (a : Option Nat) (h1 : P.hasArg op = true → a.isSome) (h2 : P.hasArg op = false → op ≠ 0 → a = none)
    (h3 : ∀ v, a = some v → v ≤ 2147483647) {v : Option Int} (hl : ∀ l, v = some l → 1 ≤ l) :
    CInstr.make P (some n) (.ofOpt a) (.val v) = .ok ⟨n, op, a, some (Loc.line (v.map Int.toNat)), none, sizeFor a none⟩ := by
  have := make_ok P hP n op hn hb a h1 h2 h3 none none
  have hi : initLocation P.py311 .unset none = .ok none := rfl
  revert this
  simp only [CInstr.make, initLocation_line hl, hi, bind, Except.bind, pure, Except.pure]
  cases (CInstr.set_ P ⟨"", 0, none, none, none, 0⟩ (some n) (CArg.ofOpt a)).2 with
  | error e => simp
  | ok u =>
    intro h
    simp only [Except.ok.injEq, CInstr.mk.injEq] at h ⊢
    exact ⟨h.1, h.2.1, h.2.2.1, trivial, h.2.2.2.2.1, h.2.2.2.2.2⟩

/-- Reading units with their lines: `L` is the line of each unit. -/
theorem disassembleAll_lines (hP : P.WF) (lineAt : Nat → Option LinenoArg) (L : Nat → Option Int) (N : Nat)
    (hL : ∀ k, k < N → match lineAt (2 * k) with
      | some x => x = .val (L k)
      | none => 0 < k ∧ L k = L (k - 1))
    (hpos : ∀ k, k < N → ∀ l, L k = some l → 1 ≤ l) (ps : List (Nat × Nat))
    (hps : ∀ p ∈ ps, p.2 < 256 ∧ ∃ n, P.opmap n = some p.1 ∧ p.1 < P.minInstrumented) :
    ∀ (pre : List (Nat × Nat)) (lineno : LinenoArg) (fuel : Nat), (0 < pre.length → lineno = .val (L (pre.length - 1))) → ps.length ≤ fuel → (pre ++ ps).length ≤ N →
    ∃ js : List CInstr, disassembleAll P lineAt lineno (flatPairs (pre ++ ps)) fuel
        (if P.py310 then pre.length else 2 * pre.length) = .ok js ∧ js.map noLoc = ps.map (rawUnit P) ∧
        js.map (·.loc) = (List.range' pre.length ps.length).map (fun k => some (Loc.line ((L k).map Int.toNat))) := by
  induction ps with
  | nil =>
    intro pre lineno fuel _ _ _
    refine ⟨[], ?_, rfl, rfl⟩
    have hnot : ¬ (if P.py310 then pre.length else 2 * pre.length) <
        (flatPairs (pre ++ [])).length / (if P.py310 then 2 else 1) := by
      rw [flatPairs_length]; split <;> simp
    cases fuel with
    | zero => rw [disassembleAll, if_neg hnot]
    | succ f => rw [disassembleAll, if_neg hnot]
  | cons p ps ih =>
    intro pre lineno fuel hl hf hN
    obtain ⟨f, rfl⟩ : ∃ f, fuel = f + 1 := ⟨fuel - 1, by simp at hf; omega⟩
    obtain ⟨hb, n, hn, hbase⟩ := hps p (by simp)
    have hname := (hP.name_op n p.1 hn hbase).2
    have hk : pre.length < N := by simp at hN; omega
    have hlt : (if P.py310 then pre.length else 2 * pre.length) <
        (flatPairs (pre ++ p :: ps)).length / (if P.py310 then 2 else 1) := by
      rw [flatPairs_length]; split <;> simp
    have hidx : (if P.py310 then 2 * (if P.py310 then pre.length else 2 * pre.length) else
        (if P.py310 then pre.length else 2 * pre.length)) = 2 * pre.length := by split <;> rfl
    have hl' : (lineAt (2 * pre.length)).getD lineno = .val (L pre.length) := by
      have := hL pre.length hk
      cases hx : lineAt (2 * pre.length) with
      | some x => rw [hx] at this; exact this
      | none => rw [hx] at this; rw [Option.getD_none, this.2]; exact hl this.1
    have hc0 : (flatPairs (pre ++ p :: ps))[2 * pre.length]? = some p.1 := by
      have : flatPairs (pre ++ p :: ps) = flatPairs pre ++ (p.1 :: p.2 :: flatPairs ps) := by simp [flatPairs]
      rw [this, List.getElem?_append_right (by rw [flatPairs_length]; omega), flatPairs_length]; simp
    have hc1 : (flatPairs (pre ++ p :: ps))[2 * pre.length + 1]? = some p.2 := by
      have : flatPairs (pre ++ p :: ps) = flatPairs pre ++ (p.1 :: p.2 :: flatPairs ps) := by simp [flatPairs]
      rw [this, List.getElem?_append_right (by rw [flatPairs_length]; omega), flatPairs_length]
      rw [show 2 * pre.length + 1 - 2 * pre.length = 1 by omega]; rfl
    have hmk := make_line hP hn hbase (if P.hasArg p.1 then some p.2 else none) (by intro h; simp [h])
      (by intro h; simp [h]) (by intro v hv; split at hv <;> simp at hv; omega) (hpos _ hk)
    rw [sizeFor_small _ (by intro v hv; split at hv <;> simp at hv; omega)] at hmk
    have hdis : CInstr.disassemble P (.val (L pre.length)) (flatPairs (pre ++ p :: ps)) (if P.py310 then pre.length else 2 * pre.length) =
        .ok ⟨n, p.1, if P.hasArg p.1 then some p.2 else none, some (Loc.line ((L pre.length).map Int.toNat)), none, 2⟩ := by
      unfold CInstr.disassemble
      simp only [hidx, hc0, hname]
      cases hA : P.hasArg p.1 with
      | true => simp only [if_true, hc1]; simp only [hA, if_true, CArg.ofOpt] at hmk; exact hmk
      | false => simp only [hA, CArg.ofOpt] at hmk; simpa using hmk
    obtain ⟨js, hjs, hjn, hjl⟩ := ih (fun q hq => hps q (by simp [hq])) (pre ++ [p]) (.val (L pre.length)) f (by simp) (by simp at hf; omega) (by simpa using hN)
    have hoff : (if P.py310 then pre.length else 2 * pre.length) + (if P.py310 then 2 / 2 else 2) =
        (if P.py310 then (pre ++ [p]).length else 2 * (pre ++ [p]).length) := by split <;> simp; omega
    refine ⟨⟨n, p.1, if P.hasArg p.1 then some p.2 else none, some (Loc.line ((L pre.length).map Int.toNat)), none, 2⟩ :: js, ?_, ?_, ?_⟩
    · rw [disassembleAll, if_pos hlt]
      simp only [hidx, hl', hdis, bind, Except.bind, hoff]
      rw [show pre ++ p :: ps = (pre ++ [p]) ++ ps by simp, hjs]
      simp only [pure, Except.pure]
    · simp [hjn, noLoc, rawUnit, hname]
    · simp only [List.map_cons, hjl, List.length_cons, List.length_append, List.length_nil, List.range'_succ]

/-- Reading back assembled instructions, with their lines. -/
theorem read_back_old (hP : P.WF) (h11 : P.py311 = false) (is : List CInstr) (hr : ∀ i ∈ is, Readable P i)
    (lineAt : Nat → Option LinenoArg) (first : LinenoArg) (L : Nat → Option Int)
    (hL : ∀ k, k < unitsOf is → match lineAt (2 * k) with
      | some x => x = .val (L k)
      | none => 0 < k ∧ L k = L (k - 1))
    (hpos : ∀ k, k < unitsOf is → ∀ l, L k = some l → 1 ≤ l) :
    ∃ us js : List CInstr,
      disassembleAll P lineAt first (is.flatMap (CInstr.assemble P)) (is.flatMap (CInstr.assemble P)).length 0 = .ok us ∧
      removeExtendedArgs P 0 none (us.map .instr) = .ok (js.map .instr) ∧ js.map noLoc = is.map (reread id) ∧
      ∀ (a r : List CInstr) (j : CInstr), js = a ++ j :: r → j.loc = some (Loc.line ((L (unitsOf a + j.size / 2 - 1)).map Int.toNat)) := by
  have hv : ∀ i ∈ is, ValidCInstr P i := fun i hi => (hr i hi).valid
  have h0 : ∀ i ∈ is, i.opcode ≠ 0 := fun i hi => old_opcode hP h11 (hv i hi)
  have hgrp : is.map (fun i => 1 + nPrefix i) = is.map (fun i => i.size / 2) := by
    apply List.map_congr_left
    intro i hi
    have := size_of_units (hr i hi)
    omega
  have hlens : (is.flatMap (unitPairs P)).length = unitsOf is := by
    have h1 := congrArg List.length (flatPairs_flatMap P is hv)
    rw [flatPairs_length] at h1
    have : (is.flatMap (CInstr.assemble P)).length = 2 * unitsOf is := by
      clear hL hpos h1 hgrp
      induction is with
      | nil => rfl
      | cons i is ih =>
        have hi := hr i (by simp)
        have := size_of_units hi
        simp only [List.flatMap_cons, List.length_append]
        rw [ih (fun x hx => hr x (by simp [hx])) (fun x hx => hv x (by simp [hx])) (fun x hx => h0 x (by simp [hx])), hi.size]
        simp only [unitsOf, List.map_cons, List.sum_cons]
        omega
    omega
  rw [flatPairs_flatMap P is hv]
  obtain ⟨us, h1, h2, hul⟩ := disassembleAll_lines hP lineAt L (unitsOf is) hL hpos (is.flatMap (unitPairs P)) (by
    intro p hp
    obtain ⟨i, hi, hp⟩ := List.mem_flatMap.1 hp
    exact unitPairs_lt P hP i (hv i hi) p hp) [] first (flatPairs (is.flatMap (unitPairs P))).length (by simp)
    (by rw [flatPairs_length]; omega) (by simp [hlens])
  have h3 : us.map noLoc = is.flatMap (unitInstrs P id) := by
    rw [h2, List.map_flatMap]
    apply flatMap_congr'
    intro i hi
    exact unitPairs_raw P hP i (hv i hi) (h0 i hi)
  obtain ⟨js, h4, h5, h6⟩ := removeExtendedArgs_list P hP id is hr (fun i hi h => absurd h (h0 i hi)) us h3
  refine ⟨us, js, by simpa using h1, h4, h5, ?_⟩
  intro a r j e
  have hk : a.length < is.length := by
    have : js.length = is.length := by have := congrArg List.length h5; simpa using this
    rw [← this, e]; simp
  have hsame : js.map (fun i => i.size / 2) = is.map (fun i => i.size / 2) := by
    have := congrArg (List.map (fun i : CInstr => i.size / 2)) h5
    rw [List.map_map, List.map_map] at this
    exact this
  have hlast : lastOf (is.map (fun i => i.size / 2)) a.length = unitsOf a + j.size / 2 - 1 := by
    rw [← hsame, e]
    unfold lastOf unitsOf
    rw [List.map_append, List.take_append, List.take_of_length_le (by simp)]
    simp [Nat.add_sub_cancel_left]
  have hj2 : 1 ≤ j.size / 2 := by
    have hm : j.size / 2 ∈ is.map (fun i => i.size / 2) := by rw [← hsame, e]; simp
    obtain ⟨i, hi, e'⟩ := List.mem_map.1 hm
    have := size_of_units (hr i hi)
    omega
  have hlt : unitsOf a + j.size / 2 ≤ unitsOf is := by
    have : unitsOf is = unitsOf js := by unfold unitsOf; rw [hsame]
    rw [this, e]
    simp [unitsOf]
  have hg := groupLast_get (is.map (fun i => i.size / 2)) (us.map (·.loc)) (by
    intro n hn
    obtain ⟨i, hi, rfl⟩ := List.mem_map.1 hn
    have := size_of_units (hr i hi)
    omega) a.length (by simpa using hk) (by
      rw [hul]; simp only [List.length_map, List.length_range', hlens]; exact Nat.le_refl _)
  rw [← hgrp, ← h6, hgrp, hlast, List.getElem?_map] at hg
  have : js[a.length]? = some j := by rw [e]; simp
  rw [this, hul, List.getElem?_map, List.getElem?_range' (by rw [hlens]; omega)] at hg
  simpa using hg

variable {co : Code}

/-- The instructions of a code string, before 3.11. -/
theorem wellCoded_old (hP : P.WF) (h11 : P.py311 = false) {bs : Bytes} (h : WellCoded P bs) :
    ∃ is : List CInstr, bs = is.flatMap (CInstr.assemble P) ∧ ∀ i ∈ is, Readable P i := by
  induction h with
  | nil => exact ⟨[], rfl, by simp⟩
  | instr exts name op a rest he hn h0 hx hb h256 ha hw hna _ ih =>
    obtain ⟨is, e, hr⟩ := ih
    obtain ⟨h1, h2⟩ := groupInstr_readable P hP exts name op a he hn h0 hx hb h256 ha hw hna
    refine ⟨groupInstr P exts name op a :: is, ?_, ?_⟩
    · rw [List.flatMap_cons, ← e, h2, hP.old_cache h11]
      simp
    · intro i hi
      rcases List.mem_cons.1 hi with rfl | hi
      · exact h1
      · exact hr i hi

theorem old_name (hP : P.WF) (h11 : P.py311 = false) {i : CInstr} (hv : ValidCInstr P i) : i.name ≠ "CACHE" := by
  intro e
  have := hv.name_op
  rw [e, hP.old_name h11] at this
  cases this

/-- What is read before 3.11, the instructions apart. -/
def readOld (co : Code) (js : List CInstr) : Concrete where
  attrs := { argcount := co.argcount, posonlyargcount := co.posonlyargcount, kwonlyargcount := co.kwonlyargcount
             firstLineno := co.firstlineno, name := co.name, qualname := Attrs.default.qualname, filename := co.filename
             docstring := setDocstring none co.consts, cellvars := co.cellvars, freevars := co.freevars, flags := co.flags }
  consts := co.consts
  names := co.names
  varnames := co.varnames
  excTable := []
  elems := js.map .instr

theorem handlerAt_empty {c : Concrete} (h : c.excTable = []) (p : Nat) : handlerAt P c p = none := by
  unfold handlerAt; rw [h]; rfl

theorem reread_readable_old {i j : CInstr} (hr : Readable P i) (h : noLoc j = reread id i) (hv : ValidCInstr P j) : Readable P j := by
  have e1 := congrArg CInstr.name h
  have e4 := congrArg CInstr.arg h
  have e5 := congrArg CInstr.ext h
  simp only [noLoc, reread, id, ite_self] at e1 e4 e5
  have hsz := size_of_units hr
  refine ⟨hv, (C07_size_eq_length_iff P j hv).2 ?_, by rw [e1]; exact hr.noext⟩
  intro n hn
  rw [e5] at hn
  split at hn
  · cases hn
  · rename_i hpre
    cases hn
    rw [e4]
    have hs := hr.size
    constructor
    · intro ha
      have : (i.assemble P).length = 2 := by simp [CInstr.assemble, ha]
      omega
    · intro a ha
      unfold nPrefix
      rw [ha]
      simp
      omega

theorem disassemble_valid {lineno : LinenoArg} {code : Bytes} {off : Nat} {i : CInstr} (h : CInstr.disassemble P lineno code off = .ok i) : ValidCInstr P i := by
  unfold CInstr.disassemble at h
  simp only at h
  generalize (if P.py310 = true then 2 * off else off) = idx at h
  split at h
  · cases h
  · split at h
    · split at h <;> simp at h
    · split at h
      · split at h
        · cases h
        · exact (C09_constructed_valid P _ _ _ _ (fun l' e => by cases e) _ _ h).1
      · exact (C09_constructed_valid P _ _ _ _ (fun l' e => by cases e) _ _ h).1

theorem disassembleAll_valid {lineAt : Nat → Option LinenoArg} {code : Bytes} (fuel : Nat) : ∀ (lineno : LinenoArg) (off : Nat) (us : List CInstr),
    disassembleAll P lineAt lineno code fuel off = .ok us → ∀ u ∈ us, ValidCInstr P u := by
  induction fuel with
  | zero =>
    intro lineno off us h u hu
    rw [disassembleAll] at h
    generalize code.length / (if P.py310 = true then 2 else 1) = m at h
    split at h
    · simp at h
    · simp at h; subst h; cases hu
  | succ fuel ih =>
    intro lineno off us h u hu
    rw [disassembleAll] at h
    generalize code.length / (if P.py310 = true then 2 else 1) = m at h
    by_cases hm : off < m
    · rw [if_pos hm] at h
      simp only at h
      obtain ⟨i, hi, h⟩ := except_bind_ok h
      obtain ⟨r, hr, h⟩ := except_bind_ok h
      simp only [pure, Except.pure, Except.ok.injEq] at h
      subst h
      rcases List.mem_cons.1 hu with rfl | hu
      · exact disassemble_valid hi
      · exact ih _ _ _ hr u hu
    · rw [if_neg hm] at h
      simp at h; subst h; cases hu

/-- Reading a code object of 3.8 to 3.10: the ConcreteBytecode denotes its program. -/
theorem fromCodeOld_program {κ : Type} (hP : P.WF) (h11 : P.py311 = false) (key : Arg → κ) (hb : WellCoded P co.code) (hl : OldLinesOK P co) :
    ∃ js : List CInstr, Concrete.fromCodeOld P co = .ok (readOld co js) ∧ programC P key (readOld co js) = programOld P key co ∧
      (∀ j ∈ js, Readable P j ∧ ∃ l, j.loc = some l ∧ ∃ k, 2 * k < co.code.length ∧ l = Loc.line ((lineOfByte P co (2 * k)).map Int.toNat)) ∧
      fetched P co = fetchedOf 0 js ∧ co.code.length = 2 * unitsOf js := by
  obtain ⟨is, e, hr⟩ := wellCoded_old hP h11 hb
  obtain ⟨hf, hlen⟩ := fetch_old hP h11 hr e
  obtain ⟨us, js, h1, h2, h3, h4⟩ := read_back_old hP h11 is hr (lineStarts P co) (.val (some co.firstlineno)) (fun k => lineOfByte P co (2 * k)) (by
    intro k hk
    have := lineStarts_spec hl.covered (q := 2 * k) (by omega)
    cases hx : lineStarts P co (2 * k) with
    | some x => rw [hx] at this; exact this
    | none =>
      rw [hx] at this
      refine ⟨by omega, ?_⟩
      have ha := hl.aligned (k - 1) (by omega)
      rw [this.2, ha]
      congr 1
      omega) (fun k hk => hl.positive k (by omega))
  have hsame := forall₂_of_map h3
  have hvjs : ∀ j ∈ js, ValidCInstr P j := by
    intro j hj
    refine removeExtendedArgs_valid P (us.map .instr) ?_ 0 none (js.map .instr) h2 j (List.mem_map.2 ⟨j, hj, rfl⟩)
    intro ci hci
    obtain ⟨u, hu, e⟩ := List.mem_map.1 hci
    cases e
    exact disassembleAll_valid _ _ _ _ h1 _ hu
  have hrjs : ∀ j ∈ js, Readable P j := by
    intro j hj
    obtain ⟨k, hk⟩ := List.mem_iff_getElem?.1 hj
    have := congrArg (fun l => l[k]?) h3
    simp only [List.getElem?_map, hk, Option.map_some] at this
    cases hi : is[k]? with
    | none => rw [hi] at this; simp at this
    | some i =>
      rw [hi] at this
      exact reread_readable_old (hr i (List.mem_of_getElem? hi)) (by simpa using this) (hvjs j hj)
  have hf' : fetch P 0 0 0 0 co.code = fetchedOf 0 js := by rw [hf, fetchedOf_same hsame]
  have hlen' : co.code.length = 2 * unitsOf js := by rw [hlen, unitsOf_same hsame]
  refine ⟨js, ?_, ?_, ?_, hf', hlen'⟩
  · unfold Concrete.fromCodeOld
    rw [← e] at h1
    rw [h1]
    simp only [bind, Except.bind, Bool.false_eq_true, if_false, h2]
    rfl
  · have := code_program_old hP h11 key (readOld co js) co js id id rfl hrjs (fun j hj => old_name hP h11 (hvjs j hj)) hf' hlen' rfl rfl rfl rfl rfl (by
      intro a j r line x y p ej
      rw [h4 a r j ej, handlerAt_empty rfl]
      rfl)
    simpa using this.symm
  · intro j hj
    refine ⟨hrjs j hj, ?_⟩
    obtain ⟨a, r, ej⟩ := List.append_of_mem hj
    refine ⟨_, h4 a r j ej, unitsOf a + j.size / 2 - 1, ?_, rfl⟩
    have := size_of_units (hrjs j hj)
    rw [hlen', ej]
    simp [unitsOf]; omega

end Verif
