import Verif.Spec.UnreadableOld
import Verif.Proofs.Unreadable
import Verif.Proofs.OldRead
import Verif.Props.DecodeErrors
import Verif.Props.OldCodeEx
import Verif.Props.RealEx
/-
C81 on 3.8 to 3.10: an exception of from_code names the mistake.
-/
namespace Verif
open Spec
variable {P : Platform} {co : Code}

theorem initLocation_low {l : Int} (h11 : P.py311 = false) (h : l < 1) : initLocation P.py311 (.val (some l)) none = .error .valueError := by
  have : ¬ ValidArgs P.py311 (some l) none none none := by
    intro hv
    have := hv.1 l rfl
    rw [h11] at this
    simp at this
    omega
  unfold initLocation
  simp only
  rw [(C11_location_accepts_exactly_coherent P.py311 _ _ _ _).2 this]
  rfl

/-- An instruction on a line that is not accepted. -/
theorem make_low (hP : P.WF) (h11 : P.py311 = false) {n : String} {op : Nat} (hn : P.opmap n = some op) (hb : op < P.minInstrumented)
    (a : Option Nat) (h1 : P.hasArg op = true → a.isSome) (h2 : P.hasArg op = false → op ≠ 0 → a = none)
    (h3 : ∀ v, a = some v → v ≤ 2147483647) {l : Int} (hl : l < 1) :
    CInstr.make P (some n) (.ofOpt a) (.val (some l)) = .error .valueError := by
  have := make_ok P hP n op hn hb a h1 h2 h3 none none
  have hi : initLocation P.py311 .unset none = .ok none := rfl
  unfold CInstr.make at this ⊢
  rw [hi] at this
  rw [initLocation_low h11 hl]
  simp only at this ⊢
  cases hr : (CInstr.set_ P ⟨"", 0, none, none, none, 0⟩ (some n) (CArg.ofOpt a)) with
  | mk s r =>
    rw [hr] at this
    simp only [bind, Except.bind] at this ⊢
    cases r with
    | ok u => rfl
    | error e => cases this

theorem make_high {n : String} {op : Nat} (hon : P.opmap n = some op) (hi : P.minInstrumented ≤ op) (a : CArg) (l : LinenoArg) :
    CInstr.make P (some n) a l = .error .valueError := by
  unfold CInstr.make
  simp [CInstr.set_, lookupName, hon, bind, Except.bind, hi]

theorem disassembleAll_says (hP : P.WF) (h11 : P.py311 = false) (lineAt : Nat → Option LinenoArg) (L : Nat → Option Int) (N : Nat)
    (hL : ∀ k, k < N → match lineAt (2 * k) with
      | some x => x = .val (L k)
      | none => 0 < k ∧ L k = L (k - 1))
    (ps : List (Nat × Nat)) (hps : ∀ p ∈ ps, p.1 < 256 ∧ p.2 < 256) :
    ∀ (pre : List (Nat × Nat)) (lineno : LinenoArg) (fuel : Nat), (0 < pre.length → lineno = .val (L (pre.length - 1))) → ps.length ≤ fuel → (pre ++ ps).length ≤ N →
    (∃ js : List CInstr, disassembleAll P lineAt lineno (flatPairs (pre ++ ps)) fuel (if P.py310 then pre.length else 2 * pre.length) = .ok js ∧
        ListedAll P 0 (flatPairs ps) js ∧ (∀ p ∈ ps, (∃ n, P.opname p.1 = some n) ∧ p.1 < P.minInstrumented) ∧
        (∀ k < ps.length, ∀ l, L (pre.length + k) = some l → 1 ≤ l)) ∨
    disassembleAll P lineAt lineno (flatPairs (pre ++ ps)) fuel (if P.py310 then pre.length else 2 * pre.length) = .error .valueError ∧
      ((∃ p ∈ ps, P.opname p.1 = none ∨ P.minInstrumented ≤ p.1) ∨ ∃ k < ps.length, ∃ l, L (pre.length + k) = some l ∧ l < 1) := by
  induction ps with
  | nil =>
    intro pre lineno fuel _ _ _
    left
    refine ⟨[], ?_, .nil, by simp, by simp⟩
    have hnot : ¬ (if P.py310 then pre.length else 2 * pre.length) <
        (flatPairs (pre ++ [])).length / (if P.py310 then 2 else 1) := by
      rw [flatPairs_length]; split <;> simp
    cases fuel with
    | zero => rw [disassembleAll, if_neg hnot]
    | succ f => rw [disassembleAll, if_neg hnot]
  | cons p ps ih =>
    intro pre lineno fuel hl hf hN
    obtain ⟨f, rfl⟩ : ∃ f, fuel = f + 1 := ⟨fuel - 1, by simp at hf; omega⟩
    obtain ⟨hop, hb⟩ := hps p (by simp)
    have hk : pre.length < N := by simp at hN; omega
    have hlt : (if P.py310 then pre.length else 2 * pre.length) <
        (flatPairs (pre ++ p :: ps)).length / (if P.py310 then 2 else 1) := by
      rw [flatPairs_length]; split <;> simp
    have hidx : (if P.py310 then 2 * (if P.py310 then pre.length else 2 * pre.length) else
        (if P.py310 then pre.length else 2 * pre.length)) = 2 * pre.length := by split <;> rfl
    have hl' : (lineAt (2 * pre.length)).getD lineno = .val (L pre.length) := by
      have := hL pre.length hk
      cases hx : lineAt (2 * pre.length) with
      | some x => rw [hx] at this; exact this
      | none => rw [hx] at this; rw [Option.getD_none, this.2]; exact hl this.1
    have hc0 : (flatPairs (pre ++ p :: ps))[2 * pre.length]? = some p.1 := by
      have : flatPairs (pre ++ p :: ps) = flatPairs pre ++ (p.1 :: p.2 :: flatPairs ps) := by simp [flatPairs]
      rw [this, List.getElem?_append_right (by rw [flatPairs_length]; omega), flatPairs_length]; simp
    have hc1 : (flatPairs (pre ++ p :: ps))[2 * pre.length + 1]? = some p.2 := by
      have : flatPairs (pre ++ p :: ps) = flatPairs pre ++ (p.1 :: p.2 :: flatPairs ps) := by simp [flatPairs]
      rw [this, List.getElem?_append_right (by rw [flatPairs_length]; omega), flatPairs_length]
      rw [show 2 * pre.length + 1 - 2 * pre.length = 1 by omega]; rfl
    rw [disassembleAll, if_pos hlt]
    simp only [hidx, hl']
    have hbad : CInstr.disassemble P (.val (L pre.length)) (flatPairs (pre ++ p :: ps)) (if P.py310 then pre.length else 2 * pre.length) = .error .valueError →
        ((P.opname p.1 = none ∨ P.minInstrumented ≤ p.1) ∨ ∃ l, L pre.length = some l ∧ l < 1) →
        ((CInstr.disassemble P (.val (L pre.length)) (flatPairs (pre ++ p :: ps)) (if P.py310 then pre.length else 2 * pre.length)) >>= fun i =>
          (disassembleAll P lineAt (.val (L pre.length)) (flatPairs (pre ++ p :: ps)) f
            ((if P.py310 then pre.length else 2 * pre.length) + (if P.py310 then i.size / 2 else i.size))) >>= fun r => pure (i :: r)) = .error .valueError ∧
        ((∃ q ∈ p :: ps, P.opname q.1 = none ∨ P.minInstrumented ≤ q.1) ∨ ∃ k < (p :: ps).length, ∃ l, L (pre.length + k) = some l ∧ l < 1) := by
      intro h1 h2
      rw [h1]
      refine ⟨rfl, ?_⟩
      rcases h2 with h2 | ⟨l, h2⟩
      · exact .inl ⟨p, by simp, h2⟩
      · exact .inr ⟨0, by simp, l, h2⟩
    cases hname : P.opname p.1 with
    | none =>
      right
      refine hbad ?_ (.inl (.inl hname))
      unfold CInstr.disassemble
      simp [hidx, hc0, hname, hc1]
    | some n =>
      have hn := hP.op_name _ _ hop hname
      by_cases hbase : p.1 < P.minInstrumented
      · by_cases hlow : ∃ l, L pre.length = some l ∧ l < 1
        · right
          refine hbad ?_ (.inr hlow)
          obtain ⟨l, e, hlow⟩ := hlow
          have hmk := make_low hP h11 hn hbase (if P.hasArg p.1 then some p.2 else none) (by intro h; simp [h])
            (by intro h; simp [h]) (by intro v hv; split at hv <;> simp at hv; omega) hlow
          unfold CInstr.disassemble
          simp only [hidx, hc0, hname, e]
          cases hA : P.hasArg p.1 with
          | true => simp only [if_true, hc1]; simp only [hA, if_true, CArg.ofOpt] at hmk; exact hmk
          | false => simp only [hA, CArg.ofOpt] at hmk; simpa using hmk
        · have hpos : ∀ l, L pre.length = some l → 1 ≤ l := by
            intro l e
            apply Int.not_lt.1
            intro h
            exact hlow ⟨l, e, h⟩
          have hmk := make_line hP hn hbase (if P.hasArg p.1 then some p.2 else none) (by intro h; simp [h])
            (by intro h; simp [h]) (by intro v hv; split at hv <;> simp at hv; omega) hpos
          rw [sizeFor_small _ (by intro v hv; split at hv <;> simp at hv; omega)] at hmk
          have hdis : CInstr.disassemble P (.val (L pre.length)) (flatPairs (pre ++ p :: ps)) (if P.py310 then pre.length else 2 * pre.length) =
              .ok ⟨n, p.1, if P.hasArg p.1 then some p.2 else none, some (Loc.line ((L pre.length).map Int.toNat)), none, 2⟩ := by
            unfold CInstr.disassemble
            simp only [hidx, hc0, hname]
            cases hA : P.hasArg p.1 with
            | true => simp only [if_true, hc1]; simp only [hA, if_true, CArg.ofOpt] at hmk; exact hmk
            | false => simp only [hA, CArg.ofOpt] at hmk; simpa using hmk
          have hoff : (if P.py310 then pre.length else 2 * pre.length) + (if P.py310 then 2 / 2 else 2) =
              (if P.py310 then (pre ++ [p]).length else 2 * (pre ++ [p]).length) := by split <;> simp; omega
          have hih := ih (fun q hq => hps q (by simp [hq])) (pre ++ [p]) (.val (L pre.length)) f (by simp) (by simp at hf; omega) (by simpa using hN)
          rw [show (pre ++ [p]) ++ ps = pre ++ p :: ps by simp] at hih
          have hsh : ∀ k, (pre ++ [p]).length + k = pre.length + (k + 1) := by intro k; simp; omega
          simp only [hdis, bind, Except.bind, hoff]
          rcases hih with ⟨js, hjs, h2, h3, h4⟩ | ⟨hjs, h2⟩
          · left
            rw [hjs]
            refine ⟨_, rfl, ?_, ?_, ?_⟩
            · have e : flatPairs (p :: ps) = p.1 :: p.2 :: flatPairs ps := by simp [flatPairs]
              rw [e]
              have hlist : Listed P p.1 p.2 ⟨n, p.1, if P.hasArg p.1 then some p.2 else none, some (Loc.line ((L pre.length).map Int.toNat)), none, 2⟩ [] :=
                ⟨hname, rfl, by simp, fun _ => rfl⟩
              have := ListedAll.instr hlist (r := flatPairs ps) (us := js) (by rw [hP.old_cache h11]; exact h2)
              simpa using this
            · intro q hq
              rcases List.mem_cons.1 hq with rfl | hq
              · exact ⟨⟨n, hname⟩, hbase⟩
              · exact h3 q hq
            · intro k hk l e
              cases k with
              | zero => exact hpos l e
              | succ k => exact h4 k (by simpa using hk) l (by rw [hsh]; exact e)
          · right
            rw [hjs]
            refine ⟨rfl, ?_⟩
            rcases h2 with ⟨q, hq, h2⟩ | ⟨k, hk, l, h2⟩
            · exact .inl ⟨q, by simp [hq], h2⟩
            · exact .inr ⟨k + 1, by simpa using hk, l, by rw [← hsh]; exact h2⟩
      · right
        refine hbad ?_ (.inl (.inr (Nat.le_of_not_lt hbase)))
        unfold CInstr.disassemble
        simp only [hidx, hc0, hname, hc1]
        split <;> exact make_high hn (Nat.le_of_not_lt hbase) _ _

theorem exists_pairs {bs : Bytes} (n : Nat) (h : bs.length = 2 * n) : ∃ ps, bs = flatPairs ps ∧ ps.length = n := by
  induction n generalizing bs with
  | zero => exact ⟨[], by simpa [flatPairs] using h, rfl⟩
  | succ n ih =>
    match bs, h with
    | [], h => simp at h
    | [_], h => simp at h; omega
    | a :: b :: r, h =>
      obtain ⟨ps, e, hl⟩ := ih (bs := r) (by simp at h; omega)
      exact ⟨(a, b) :: ps, by simp [flatPairs, e], by simp [hl]⟩

theorem flatPairs_even {ps : List (Nat × Nat)} {k op : Nat} : (flatPairs ps)[2 * k]? = some op ↔ ∃ p, ps[k]? = some p ∧ p.1 = op := by
  induction ps generalizing k with
  | nil => simp [flatPairs]
  | cons p ps ih =>
    have e : flatPairs (p :: ps) = p.1 :: p.2 :: flatPairs ps := by simp [flatPairs]
    cases k with
    | zero => simp [e]
    | succ k =>
      rw [e, show 2 * (k + 1) = 2 * k + 1 + 1 by omega]
      simp [ih]

theorem listing_says_old (hP : P.WF) (h11 : P.py311 = false) (hb : ∀ b ∈ co.code, b < 256) (hev : co.code.length % 2 = 0) (hl : LinesFollow P co) :
    (∃ us, disassembleAll P (lineStarts P co) (.val (some co.firstlineno)) co.code co.code.length 0 = .ok us ∧ ¬ UnlistableOld P co ∧
      (∀ u ∈ us, ValidCInstr P u) ∧ ∀ e, BadPrefix us e ↔ BadExtended P co e) ∨
    disassembleAll P (lineStarts P co) (.val (some co.firstlineno)) co.code co.code.length 0 = .error .valueError ∧ UnlistableOld P co := by
  obtain ⟨ps, e, hlen⟩ := exists_pairs (bs := co.code) (co.code.length / 2) (by omega)
  have hps : ∀ p ∈ ps, p.1 < 256 ∧ p.2 < 256 := by
    intro p hp
    constructor
    · exact hb _ (by rw [e]; exact List.mem_flatMap.2 ⟨p, hp, by simp⟩)
    · exact hb _ (by rw [e]; exact List.mem_flatMap.2 ⟨p, hp, by simp⟩)
  have hL : ∀ k, k < ps.length → match lineStarts P co (2 * k) with
      | some x => x = .val (lineOfByte P co (2 * k))
      | none => 0 < k ∧ lineOfByte P co (2 * k) = lineOfByte P co (2 * (k - 1)) := by
    intro k hk
    have := lineStarts_spec hl.covered (q := 2 * k) (by omega)
    cases hx : lineStarts P co (2 * k) with
    | some x => rw [hx] at this; exact this
    | none =>
      rw [hx] at this
      refine ⟨by omega, ?_⟩
      have ha := hl.aligned (k - 1) (by omega)
      rw [this.2, ha]
      congr 1
      omega
  have := disassembleAll_says hP h11 (lineStarts P co) (fun k => lineOfByte P co (2 * k)) ps.length hL ps hps [] (.val (some co.firstlineno)) co.code.length
    (by simp) (by omega) (by simp)
  simp only [List.nil_append, List.length_nil, Nat.mul_zero, ite_self, Nat.zero_add] at this
  rw [← e] at this
  rcases this with ⟨us, h1, h2, h3, h4⟩ | ⟨h1, h2⟩
  · left
    refine ⟨us, h1, ?_, fun u hu => disassembleAll_valid _ _ _ _ h1 _ hu, ?_⟩
    · intro hx
      cases hx with
      | opcode hk hx =>
        rw [e, flatPairs_even] at hk
        obtain ⟨p, hp, rfl⟩ := hk
        obtain ⟨⟨n, g1⟩, g2⟩ := h3 p (List.mem_of_getElem? hp)
        rcases hx with hx | hx
        · rw [g1] at hx; cases hx
        · omega
      | line hk hx hlow =>
        have := h4 _ (by omega) _ hx
        omega
    · intro er
      have := listed_prefix hP h2 hb (e := er) [] [] 0 0 rfl (fun _ => rfl) (fun _ => rfl)
      simp only [List.nil_append] at this
      rw [this]
      constructor
      · rintro (⟨rfl, h⟩ | ⟨f, hf, rfl, h4, h5, h6⟩ | ⟨f, hf, rfl, h4, h5⟩)
        · exact .dangling h
        · exact .noArg hf h4 h5 h6
        · exact .large hf h4 h5
      · intro h
        cases h with
        | dangling h => exact .inl ⟨rfl, h⟩
        | noArg hf h4 h5 h6 => exact .inr (.inl ⟨_, hf, rfl, h4, h5, h6⟩)
        | large hf h4 h5 => exact .inr (.inr ⟨_, hf, rfl, h4, h5⟩)
  · right
    refine ⟨h1, ?_⟩
    rcases h2 with ⟨p, hp, h2⟩ | ⟨k, hk, l, h2, h3⟩
    · obtain ⟨k, hk⟩ := List.mem_iff_getElem?.1 hp
      exact .opcode (k := k) (op := p.1) (by rw [e, flatPairs_even]; exact ⟨p, hk, rfl⟩) h2
    · exact .line (k := k) (by omega) h2 h3

theorem reading_says_old (hP : P.WF) (h11 : P.py311 = false) (hb : ∀ b ∈ co.code, b < 256) (hev : co.code.length % 2 = 0) (hl : LinesFollow P co) :
    (∃ c, Concrete.fromCodeOld P co = .ok c ∧ (∀ e, ¬ UnreadableOld P co e) ∧ ∀ ci, .instr ci ∈ c.elems → ValidCInstr P ci ∧ ci.name ≠ "EXTENDED_ARG") ∨
    ∃ e, Concrete.fromCodeOld P co = .error e ∧ UnreadableOld P co e := by
  unfold Concrete.fromCodeOld
  rcases listing_says_old hP h11 hb hev hl with ⟨us, h1, h2, h3, h4⟩ | ⟨h1, h2⟩
  · rw [h1]
    simp only [bind, Except.bind, Bool.false_eq_true, if_false]
    have hv : ∀ ci, CElem.instr ci ∈ us.map .instr → ValidCInstr P ci := by
      intro ci hci
      simp only [List.mem_map, CElem.instr.injEq, exists_eq_right] at hci
      exact h3 ci hci
    have hi : instrsOf (us.map .instr) = us := by
      clear h1 h3 h4 hv
      induction us with
      | nil => rfl
      | cons u us ih => simpa [instrsOf] using ih
    rcases removeExtendedArgs_says hP (us.map .instr) hv [] [] rfl 0 with ⟨es, h5, h6, h7⟩ | ⟨e, h5, h6⟩
    · left
      have h5 : removeExtendedArgs P 0 none (us.map .instr) = .ok es := h5
      rw [h5]
      refine ⟨_, rfl, ?_, ?_⟩
      · intro e hx
        cases hx with
        | listing hx => exact h2 hx
        | extended hx =>
          apply h6 e
          rw [hi]
          exact (h4 e).2 hx
      · intro ci hci
        exact ⟨removeExtendedArgs_valid P _ hv _ _ _ h5 ci hci, h7 ci hci⟩
    · right
      have h5 : removeExtendedArgs P 0 none (us.map .instr) = .error e := h5
      rw [h5]
      rw [hi] at h6
      exact ⟨e, rfl, .extended ((h4 e).1 h6)⟩
  · right
    rw [h1]
    exact ⟨.valueError, rfl, .listing h2⟩

/-- **C81 (3.8 to 3.10).** An exception of `ConcreteBytecode.from_code` names the mistake, and it succeeds exactly when there is
none. -/
theorem C81_old (hP : P.WF) (h11 : P.py311 = false) (hb : ∀ b ∈ co.code, b < 256) (hev : co.code.length % 2 = 0) (hl : LinesFollow P co) :
    (∀ e, Concrete.fromCodeOld P co = .error e → UnreadableOld P co e) ∧
    ((∃ c, Concrete.fromCodeOld P co = .ok c) ↔ ∀ e, ¬ UnreadableOld P co e) := by
  rcases reading_says_old hP h11 hb hev hl with ⟨c, h1, h2, _⟩ | ⟨e, h1, h2⟩
  · exact ⟨fun e h => (by rw [h] at h1; cases h1), ⟨fun _ => h2, fun _ => ⟨c, h1⟩⟩⟩
  · exact ⟨fun e' h => (by rw [h] at h1; cases h1; exact h2), ⟨fun ⟨c, h⟩ => (by rw [h] at h1; cases h1), fun h => absurd h2 (h e)⟩⟩

/-- **C81 (3.8 to 3.10).** The same for `Bytecode.from_code`, with the mistakes of C79. -/
theorem C81_old_bytecode (hP : P.WF) (h11 : P.py311 = false) (hb : ∀ b ∈ co.code, b < 256) (hev : co.code.length % 2 = 0) (hl : LinesFollow P co)
    (prune conserve : Bool) :
    (∀ e, Bytecode.fromCodeOld P co prune conserve = .error e →
      UnreadableOld P co e ∨ ∃ c, Concrete.fromCodeOld P co = .ok c ∧ Undecodable P c prune c.elems e) ∧
    ((∃ b, Bytecode.fromCodeOld P co prune conserve = .ok b) ↔
      (∀ e, ¬ UnreadableOld P co e) ∧ ∀ c, Concrete.fromCodeOld P co = .ok c → ∀ e, ¬ Undecodable P c prune c.elems e) := by
  unfold Bytecode.fromCodeOld
  rcases reading_says_old hP h11 hb hev hl with ⟨c, h1, h2, h3⟩ | ⟨e, h1, h2⟩
  · rw [h1]
    simp only [bind, Except.bind]
    obtain ⟨h4, h5⟩ := C79_plain (prune := prune) (conserve := conserve) hP (fun ci hci => (h3 ci hci).1) (fun ci hci => (h3 ci hci).2)
    refine ⟨fun e h => .inr ⟨c, rfl, h5 e h⟩, ?_⟩
    rw [h4]
    constructor
    · intro h
      refine ⟨h2, ?_⟩
      intro c' hc
      cases hc
      exact h
    · rintro ⟨_, h⟩
      exact h c rfl
  · rw [h1]
    refine ⟨fun e' h => ?_, ⟨fun ⟨b, h⟩ => (by cases h), fun ⟨h, _⟩ => absurd h2 (h e)⟩⟩
    cases h
    exact .inl h2

/-- **C81 (3.8 to 3.10).** With `extended_arg=True`, only an opcode or a line can be wrong: ValueError. -/
theorem C81_old_extended_arg (hP : P.WF) (h11 : P.py311 = false) (hb : ∀ b ∈ co.code, b < 256) (hev : co.code.length % 2 = 0) (hl : LinesFollow P co) :
    ((∃ c, Concrete.fromCodeOld P co true = .ok c) ↔ ¬ UnlistableOld P co) ∧
    (∀ e, Concrete.fromCodeOld P co true = .error e → e = .valueError ∧ UnlistableOld P co) := by
  unfold Concrete.fromCodeOld
  rcases listing_says_old hP h11 hb hev hl with ⟨us, h1, h2, h3, h4⟩ | ⟨h1, h2⟩
  · rw [h1]
    simp only [bind, Except.bind, if_true]
    exact ⟨⟨fun _ => h2, fun _ => ⟨_, rfl⟩⟩, fun e h => by cases h⟩
  · rw [h1]
    refine ⟨⟨fun ⟨c, h⟩ => (by cases h), fun h => absurd h2 h⟩, fun e h => ?_⟩
    cases h
    exact ⟨rfl, h2⟩

/-! ### Cases -/

def readErrOld (P : Platform) (code : Bytes) (linetable : Bytes := []) (ext : Bool := false) : Option PyErr :=
  match Concrete.fromCodeOld P { realCode with code := code, firstlineno := 5, linetable := linetable } ext with
  | .ok _ => none
  | .error e => some e

/-- Each mistake occurs, on 3.10 and 3.9: an opcode without a name, EXTENDED_ARG at the end, before RETURN_VALUE, 0x80000000 as an argument, and a line below
1. Nothing is wrong with EXTENDED_ARG before NOP and with 0x7fffffff. -/
example :
    readErrOld Py310.platform [255, 0] [2, 0] = some .valueError ∧ readErrOld Py310.platform [144, 1] [2, 0] = some .valueError ∧
    readErrOld Py310.platform [144, 1, 83, 0] [4, 0] = some .typeError ∧
    readErrOld Py310.platform [144, 128, 144, 0, 144, 0, 100, 0] [8, 0] = some .valueError ∧
    readErrOld Py310.platform [144, 127, 144, 255, 144, 255, 100, 255] [8, 0] = none ∧
    readErrOld Py310.platform [83, 0] [2, 251] = some .valueError ∧ readErrOld Py310.platform [83, 0] [2, 252] = none ∧
    readErrOld Py310.platform [83, 0] [2, 128] = none ∧ readErrOld Py310.platform [144, 1] [2, 0] true = none ∧
    readErrOld Py39.platform [255, 0] = some .valueError ∧ readErrOld Py39.platform [144, 1] = some .valueError ∧
    readErrOld Py39.platform [83, 0, 83, 0] [2, 251] = some .valueError ∧ readErrOld Py39.platform [83, 0, 83, 0] [2, 252] = none := by
  decide +kernel

/-- The theorem used: EXTENDED_ARG before RETURN_VALUE on 3.10, found from the exception. -/
example : UnreadableOld Py310.platform { realCode with code := [144, 1, 83, 0], firstlineno := 5, linetable := [4, 0] } .typeError := by
  refine (C81_old Py310.wf (by decide) (by decide) (by decide) ⟨?_, fun _ => by decide +kernel⟩).1 _ (by decide +kernel)
  intro k hk
  match k, hk with
  | 0, _ => decide +kernel
  | 1, _ => decide +kernel
  | k + 2, hk => simp at hk; omega

end Verif
