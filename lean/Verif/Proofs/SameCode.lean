import Verif.Proofs.UsesProg
import Verif.Props.SmallTables
import Verif.Props.RoundTripSize
/-
Two conversions with the same operations and the same tables give the same instructions, locations apart.
-/
namespace Verif
open Spec
section
variable {κ : Type} {P : Platform} {key : Arg → κ}

theorem same_ops {c d : Concrete} {l : List CInstr} (hl : CacheLayout P l) : ∀ {N : List CInstr}, CacheLayout P N →
    (∀ i ∈ l, Readable P i) → (∀ i ∈ N, Readable P i) →
    (∀ i ∈ l, i.name = "CACHE" ↔ i.opcode = 0) → (∀ i ∈ N, i.name = "CACHE" ↔ i.opcode = 0) →
    (∀ i ∈ l, P.dualSingles i.opcode = none) → (∀ i ∈ N, P.dualSingles i.opcode = none) →
    ∀ (line cur cur' : Nat), (opsC P key c line cur (l.map .instr)).map Op.bare = (opsC P key d line cur' (N.map .instr)).map Op.bare →
    N.length = l.length ∧ ∀ (k : Nat) (i i' : CInstr), l[k]? = some i → N[k]? = some i' → i'.name = i.name ∧ i'.opcode = i.opcode ∧
      (i.opcode ≠ 0 → operandC P key d ((i'.getJumpTarget P ((cur' + pos P N k : Nat) : Int)).bind (fun t => opAt P t 0 0 d.elems)) i' =
        operandC P key c ((i.getJumpTarget P ((cur + pos P l k : Nat) : Int)).bind (fun t => opAt P t 0 0 c.elems)) i) := by
  induction hl with
  | nil =>
    intro N hN _ h2 _ h4 _ h6 line cur cur' h
    cases hN with
    | nil => exact ⟨rfl, fun k i i' hi => by simp at hi⟩
    | group i' cs' rest' g1 _ _ _ =>
      rw [List.map_cons, ops_head d i' _ (fun hx => g1 ((h4 i' (by simp)).1 hx)) (h6 i' (by simp))] at h
      cases h
  | group i cs rest e1 e2 e3 _ ih =>
    intro N hN h1 h2 h3 h4 h5 h6 line cur cur' h
    cases hN with
    | nil =>
      rw [List.map_cons, ops_head c i _ (fun hx => e1 ((h3 i (by simp)).1 hx)) (h5 i (by simp))] at h
      cases h
    | group i' cs' rest' g1 g2 g3 g4 =>
      rw [List.map_cons, List.map_cons, ops_head c i _ (fun hx => e1 ((h3 i (by simp)).1 hx)) (h5 i (by simp)),
        ops_head d i' _ (fun hx => g1 ((h4 i' (by simp)).1 hx)) (h6 i' (by simp))] at h
      simp only [List.cons.injEq, Prod.mk.injEq] at h
      obtain ⟨⟨hn, hop⟩, h⟩ := h
      have hopc : i'.opcode = i.opcode := by
        have a := (h1 i (by simp)).valid.name_op
        have b := (h2 i' (by simp)).valid.name_op
        rw [← hn, a] at b
        exact (Option.some.inj b).symm
      have hlen : cs'.length = cs.length := by rw [g2, e2, hopc]
      rw [List.map_append, ops_caches c cs (fun x hx => (h3 x (by simp [hx])).2 (e3 x hx).1), List.map_append,
        ops_caches d cs' (fun x hx => (h4 x (by simp [hx])).2 (g3 x hx).1)] at h
      obtain ⟨r1, r2⟩ := ih g4 (fun x hx => h1 x (by simp [hx])) (fun x hx => h2 x (by simp [hx])) (fun x hx => h3 x (by simp [hx]))
        (fun x hx => h4 x (by simp [hx])) (fun x hx => h5 x (by simp [hx])) (fun x hx => h6 x (by simp [hx])) _ _ _ h
      refine ⟨by simp [r1, hlen], ?_⟩
      intro k a a' ha ha'
      cases k with
      | zero =>
        simp only [List.getElem?_cons_zero, Option.some.injEq] at ha ha'
        subst ha ha'
        refine ⟨hn.symm, hopc, fun _ => ?_⟩
        simp only [pos, List.take_zero, List.map_nil, List.sum_nil, Nat.add_zero]
        exact hop.symm
      | succ k =>
        simp only [List.getElem?_cons_succ] at ha ha'
        by_cases hk : k < cs.length
        · rw [List.getElem?_append_left hk] at ha
          rw [List.getElem?_append_left (by omega)] at ha'
          have m := List.mem_of_getElem? ha
          have m' := List.mem_of_getElem? ha'
          refine ⟨?_, by rw [(e3 a m).1, (g3 a' m').1], fun hx => absurd (e3 a m).1 hx⟩
          rw [(h3 a (by simp [m])).2 (e3 a m).1, (h4 a' (by simp [m'])).2 (g3 a' m').1]
        · rw [List.getElem?_append_right (by omega)] at ha ha'
          rw [hlen] at ha'
          obtain ⟨t1, t2, t4⟩ := r2 _ a a' ha ha'
          refine ⟨t1, t2, fun hj => ?_⟩
          have hp : pos P (i :: (cs ++ rest)) (k + 1) = i.units P + (cs.map (CInstr.units P)).sum + pos P rest (k - cs.length) := by
            simp only [pos, List.take_succ_cons, List.map_cons, List.sum_cons, List.take_append, List.map_append, List.sum_append]
            rw [List.take_of_length_le (by omega)]
            omega
          have hp' : pos P (i' :: (cs' ++ rest')) (k + 1) = i'.units P + (cs'.map (CInstr.units P)).sum + pos P rest' (k - cs.length) := by
            simp only [pos, List.take_succ_cons, List.map_cons, List.sum_cons, List.take_append, List.map_append, List.sum_append, hlen]
            rw [List.take_of_length_le (by omega)]
            omega
          have := t4 hj
          rw [hp, hp']
          rw [show cur' + (i'.units P + (cs'.map (CInstr.units P)).sum + pos P rest' (k - cs.length)) = cur' + i'.units P + (cs'.map (CInstr.units P)).sum + pos P rest' (k - cs.length) by omega,
            show cur + (i.units P + (cs.map (CInstr.units P)).sum + pos P rest (k - cs.length)) = cur + i.units P + (cs.map (CInstr.units P)).sum + pos P rest (k - cs.length) by omega]
          exact this

/-- In tables without duplicates, an operand has one index. -/
theorem operandC_arg {c d : Concrete} (hconsts : d.consts = c.consts) (hnames : d.names = c.names) (hloc : localSlots P d = localSlots P c)
    (hder : derefSlots P d = derefSlots P c) (n1 : (c.consts.map key).Nodup) (n2 : c.names.Nodup) (n3 : (localSlots P c).Nodup) (n4 : (derefSlots P c).Nodup)
    {i i' : CInstr} {x y : Option Nat} (ho : i'.opcode = i.opcode) (hj : P.hasJump i.opcode = false)
    (hcmp : P.hascompare i.opcode = true → ∀ a a', i.arg = some a → i'.arg = some a' → compareOf P a = compareOf P a' → a = a')
    (hok : operandC P key c x i ≠ .invalid) (h : operandC P key d y i' = operandC P key c x i) : i'.arg = i.arg := by
  unfold operandC at h hok
  rw [ho] at h
  simp only [hj, Bool.false_eq_true, if_false, hconsts, hnames, hloc, hder] at h hok
  have hget : ∀ {α : Type} {l : List α} {a b : Nat} {v : α}, l.Nodup → l[a]? = some v → l[b]? = some v → a = b := by
    intro α l a b v hn ha hb
    exact (List.getElem?_inj (List.getElem?_eq_some_iff.1 ha).1 hn).1 (ha.trans hb.symm)
  have hslot : ∀ {l : List Slot} {a b : Nat}, l.Nodup → (slotAt l a : Operand κ) ≠ .invalid → (slotAt l b : Operand κ) = slotAt l a → b = a := by
    intro l a b hn h1 h2
    unfold slotAt at h1 h2
    cases ha : l[a]? with
    | none => rw [ha] at h1; exact absurd rfl h1
    | some v =>
      rw [ha] at h2
      cases hb : l[b]? with
      | none => rw [hb] at h2; cases h2
      | some w => rw [hb] at h2; cases h2; exact hget hn hb ha
  have hname : ∀ {l : List String} {a b : Nat} {f g : String → Operand κ}, l.Nodup → (∀ n m, f n = g m → n = m) → (∀ n, f n ≠ .invalid) →
      nameAt l a g ≠ .invalid → nameAt l b f = nameAt l a g → b = a ∧ ∃ n, f n = g n := by
    intro l a b f g hn hf hi h1 h2
    unfold nameAt at h1 h2
    cases ha : l[a]? with
    | none => rw [ha] at h1; exact absurd rfl h1
    | some v =>
      rw [ha] at h2
      cases hb : l[b]? with
      | none => rw [hb] at h2; simp only at h2; rw [ha] at h1; exact absurd h2.symm h1
      | some w =>
        rw [hb] at h2
        have := hf _ _ h2
        subst this
        exact ⟨hget hn hb ha, w, h2⟩
  cases ha : i.arg with
  | none =>
    rw [ha] at h
    cases ha' : i'.arg with
    | none => rfl
    | some a' =>
      rw [ha'] at h
      simp only at h
      exfalso
      unfold slotAt nameAt at h
      repeat' split at h
      all_goals first | cases h | simp at h
  | some a =>
    rw [ha] at h hok
    cases ha' : i'.arg with
    | none =>
      rw [ha'] at h
      simp only at h
      exfalso
      unfold slotAt nameAt at h
      repeat' split at h
      all_goals first | cases h | simp at h
    | some a' =>
      rw [ha'] at h
      simp only at h hok
      congr 1
      split at h
      · rename_i hc
        rw [if_pos hc] at hok
        cases h1 : c.consts[a]? with
        | none => rw [h1] at hok; exact absurd rfl hok
        | some v =>
          rw [h1] at h
          cases h2 : c.consts[a']? with
          | none => rw [h2] at h; cases h
          | some w =>
            rw [h2] at h
            simp only [Operand.const.injEq] at h
            refine hget (l := c.consts.map key) (v := key v) n1 ?_ ?_
            · rw [List.getElem?_map, h2]; simp [h]
            · rw [List.getElem?_map, h1]; rfl
      · rename_i h1
        rw [if_neg h1] at hok
        split at h
        · rename_i h2
          rw [if_pos h2] at hok
          exact hslot n3 hok h
        · rename_i h2
          rw [if_neg h2] at hok
          split at h
          · rename_i h3
            rw [if_pos h3] at hok
            exact hslot n4 hok h
          · rename_i h3
            rw [if_neg h3] at hok
            split at h
            · rename_i h4
              rw [if_pos h4] at hok
              split at h
              · rename_i h5
                rw [if_pos h5] at hok
                obtain ⟨e1, n, e2⟩ := hname n2 (by intro n m e; simp only [Operand.flagName.injEq] at e; exact e.2) (by intro n e; cases e) hok h
                simp only [Operand.flagName.injEq, and_true] at e2
                have : a' % 2 = 1 ↔ a % 2 = 1 := by
                  constructor <;> intro hh <;> simpa [hh] using e2
                omega
              · rename_i h5
                rw [if_neg h5] at hok
                split at h
                · rename_i h6
                  rw [if_pos h6] at hok
                  obtain ⟨e1, n, e2⟩ := hname n2 (by intro n m e; simp only [Operand.flag2Name.injEq] at e; exact e.2.2) (by intro n e; cases e) hok h
                  simp only [Operand.flag2Name.injEq, and_true] at e2
                  have q1 : a' % 2 = 1 ↔ a % 2 = 1 := by
                    constructor <;> intro hh <;> simpa [hh] using e2.1
                  have q2 : a' / 2 % 2 = 1 ↔ a / 2 % 2 = 1 := by
                    constructor <;> intro hh <;> simpa [hh] using e2.2
                  omega
                · rename_i h6
                  rw [if_neg h6] at hok
                  exact (hname n2 (by intro n m e; cases e; rfl) (by intro n e; cases e) hok h).1
            · rename_i h4
              split at h
              · rename_i h5
                simp only [Operand.compare.injEq] at h
                exact (hcmp h5 a a' ha ha' h.symm).symm
              · split at h
                · simp only [Operand.intrinsic.injEq] at h; omega
                · simp only [Operand.int.injEq] at h; omega
end

section
variable {κ : Type} [DecidableEq κ] {P : Platform} {key : Arg → κ} {b b' : Bytecode} {c c' : Concrete} {T T' : Tabs} {M M' : List Cell}

/-- The argument of a comparison is the one the comparison is encoded as. -/
theorem Final.compare_arg (hF : Final P key b c T M) (hok : ∀ i, .instr i ∈ b.elems → OperandOK P c.varnames i)
    (hd : ∀ i, .instr i ∈ b.elems → P.dual i.opcode = false) {ci : CInstr}
    (hci : ci ∈ code P M) (hn : ci.name ≠ "CACHE") (hc : P.hascompare ci.opcode = true) {a : Nat} (ha : ci.arg = some a) :
    encodeCompare P (compareOf P a) = .ok a := by
  unfold code at hci
  obtain ⟨d, hd', hci⟩ := List.mem_flatMap.1 hci
  have hin : d.e ∈ b.elems := by rw [← hF.lay.elems]; exact List.mem_map_of_mem hd'
  cases hi : d.e with
  | instr i =>
    rw [hi] at hin
    obtain ⟨hv, _, enc0, henc, _, hfin, _⟩ := hF.mem hd' hi
    rcases hF.shape hd' hi with ⟨a', ha', hcode⟩ | ⟨n1, i1, n2, i2, _, hs, hcode⟩
    · rw [hcode] at hci
      rcases List.mem_cons.1 hci with rfl | hci
      · rw [mkI_opcode hv.name_op] at hc
        have hk := (kinds_excl hF.wf i.opcode).compare hc
        obtain ⟨v, hx⟩ := hv.arg_ok.compare hc
        unfold encodeOperand at henc
        rw [hx] at henc
        simp only [hc, hk, if_true, Bool.false_eq_true, if_false] at henc
        obtain ⟨k, hk', henc⟩ := except_bind_ok henc
        simp only [pure, Except.pure, Except.ok.injEq, Prod.mk.injEq, true_and] at henc
        subst henc
        have hfin : d.enc = .plain (.int k) := hfin
        rw [ha'] at hfin
        cases hfin
        have hka : k = a := by simpa [mkI, CArg.toOpt] using ha
        subst hka
        have hm := (hok i hin).compare hc v hx
        obtain ⟨k2, g1, g2⟩ := C20_compare_encodes v hm
        rw [hk'] at g1; cases g1
        rw [g2]; exact hk'
      · rw [(List.mem_replicate.1 hci).2] at hn
        exact absurd rfl hn
    · have := hd i hin
      unfold Platform.dual at this
      rw [hs] at this; cases this
  | _ => simp [Cell.code, hi] at hci

/-- Each instruction of the code is made of its name and its argument. -/
theorem Final.made (hF : Final P key b c T M) {ci : CInstr} (hci : ci ∈ code P M) : ∃ n a loc, ci = mkI P n a loc ∧ (n = "CACHE" → a = some 0) := by
  unfold code at hci
  obtain ⟨d, hd', hci⟩ := List.mem_flatMap.1 hci
  cases hi : d.e with
  | instr i =>
    obtain ⟨_, hn, _⟩ := hF.mem hd' hi
    rcases hF.shape hd' hi with ⟨a', ha', hcode⟩ | ⟨n1, i1, n2, i2, _, hs, hcode⟩
    · rw [hcode] at hci
      rcases List.mem_cons.1 hci with rfl | hci
      · exact ⟨_, _, _, rfl, fun hx => absurd hx hn⟩
      · exact ⟨_, _, _, (List.mem_replicate.1 hci).2, fun _ => rfl⟩
    · rw [hcode] at hci
      obtain ⟨m1, m2⟩ := split_names hs
      rcases List.mem_cons.1 hci with rfl | hci
      · exact ⟨_, _, _, rfl, fun hx => absurd hx m1⟩
      · rcases List.mem_cons.1 hci with rfl | hci
        · exact ⟨_, _, _, rfl, fun hx => absurd hx m2⟩
        · exact ⟨_, _, _, (List.mem_replicate.1 hci).2, fun _ => rfl⟩
  | _ => simp [Cell.code, hi] at hci

/-- An instruction without its location. -/
def bareC (i : CInstr) : CInstr := { i with loc := none }

theorem Final.noDual (hF : Final P key b c T M) (h11 : P.py311 = true) (hd : ∀ i, .instr i ∈ b.elems → P.dual i.opcode = false) :
    ∀ ci ∈ code P M, P.dualSingles ci.opcode = none := by
  intro ci hci
  have : P.dual ci.opcode = false := by
    rcases hF.opcodes hd hci with hx | ⟨i, hi, hx⟩
    · rw [(cache_iff hF.wf h11 (hF.readable ci hci).valid).1 hx]; exact dual_zero hF.wf h11
    · rw [hx]; exact hd i hi
  unfold Platform.dual at this
  cases h : P.dualSingles ci.opcode with
  | none => rfl
  | some p => rw [h] at this; cases this

omit [DecidableEq κ] in
theorem ops_mem (c : Concrete) (l : List CInstr) : ∀ (line cur k : Nat) (i : CInstr), l[k]? = some i → i.name ≠ "CACHE" → P.dualSingles i.opcode = none →
    (i.name, operandC P key c ((i.getJumpTarget P ((cur + pos P l k : Nat) : Int)).bind (fun t => opAt P t 0 0 c.elems)) i) ∈
      (opsC P key c line cur (l.map .instr)).map Op.bare := by
  induction l with
  | nil => intro _ _ k i hi; simp at hi
  | cons j l ih =>
    intro line cur k i hi hn hd
    cases k with
    | zero =>
      simp only [List.getElem?_cons_zero, Option.some.injEq] at hi
      subst hi
      rw [List.map_cons, ops_head c j _ hn hd]
      simp [pos]
    | succ k =>
      simp only [List.getElem?_cons_succ] at hi
      simp only [List.map_cons, opsC, List.map_append, List.mem_append]
      right
      have := ih ((j.loc.bind (·.lineno)).getD line) (cur + width P j) k i hi hn hd
      rw [width_units, show cur + j.units P + pos P l k = cur + pos P (j :: l) (k + 1) by simp [pos]; omega] at this
      exact this

omit [DecidableEq κ] in
theorem opAt_same {t : Int} (l : List CInstr) : ∀ (N : List CInstr), N.length = l.length →
    (∀ (k : Nat) i i', l[k]? = some i → N[k]? = some i' → i'.name = i.name ∧ i'.opcode = i.opcode ∧ i'.size = i.size) →
    ∀ cur n, opAt P t cur n (N.map .instr) = opAt P t cur n (l.map .instr) := by
  induction l with
  | nil => intro N h _ cur n; cases N with
    | nil => rfl
    | cons _ _ => simp at h
  | cons i l ih =>
    intro N h hs cur n
    cases N with
    | nil => simp at h
    | cons i' N =>
      obtain ⟨e1, e2, e3⟩ := hs 0 i i' rfl rfl
      simp only [List.map_cons, opAt, width, e1, e2, e3]
      rw [ih N (by simpa using h) (fun k a a' ha ha' => hs (k + 1) a a' (by simpa using ha) (by simpa using ha'))]

omit [DecidableEq κ] in
theorem getJumpTarget_inj {i i' : CInstr} {own : Nat} {t : Int} {a a' : Nat} (e1 : i'.name = i.name) (e2 : i'.opcode = i.opcode) (e3 : i'.size = i.size)
    (ha : i.arg = some a) (ha' : i'.arg = some a') (h : i.getJumpTarget P own = some t) (h' : i'.getJumpTarget P own = some t) : i'.arg = i.arg := by
  have e4 : i'.useCacheOpcodes P = i.useCacheOpcodes P := by unfold CInstr.useCacheOpcodes; rw [e2]
  unfold CInstr.getJumpTarget at h h'
  rw [ha, ha']
  rw [ha] at h
  rw [ha', e1, e2, e3, e4] at h'
  simp only at h h'
  congr 1
  by_cases c1 : isForwardRelJump P i.name i.opcode = true
  · simp only [c1, if_true, Option.some.injEq] at h h'; omega
  · by_cases c2 : isBackwardRelJump P i.name i.opcode = true
    · simp only [c1, c2, if_true, Bool.false_eq_true, if_false, Option.some.injEq] at h h'; omega
    · by_cases c3 : isAbsJump P i.opcode = true
      · simp only [c1, c2, c3, if_true, Bool.false_eq_true, if_false, Option.some.injEq] at h h'; omega
      · simp only [c1, c2, c3, Bool.false_eq_true, if_false, reduceCtorEq] at h

/-- Conversions of the same operations with the same tables. -/
structure SameOps (P : Platform) (key : Arg → κ) (c c' : Concrete) : Prop where
  ops : (programC P key c').map Op.bare = (programC P key c).map Op.bare
  consts : c'.consts = c.consts
  names : c'.names = c.names
  locals : localSlots P c' = localSlots P c
  derefs : derefSlots P c' = derefSlots P c
  ndConsts : (c.consts.map key).Nodup
  ndNames : c.names.Nodup
  ndLocals : (localSlots P c).Nodup
  ndDerefs : (derefSlots P c).Nodup
  valid : ∀ o ∈ programC P key c, o.operand ≠ .invalid

theorem same_code (h11 : P.py311 = true) {passes passes' : Nat} (hc : toConcrete P key passes b = .ok c) (hc' : toConcrete P key passes' b' = .ok c')
    (hF : Final P key b c T M) (hF' : Final P key b' c' T' M')
    (hok : ∀ i, .instr i ∈ b.elems → OperandOK P c.varnames i) (hok' : ∀ i, .instr i ∈ b'.elems → OperandOK P c'.varnames i)
    (hd : ∀ i, .instr i ∈ b.elems → P.dual i.opcode = false) (hd' : ∀ i, .instr i ∈ b'.elems → P.dual i.opcode = false)
    (hS : SameOps P key c c') : (code P M').map bareC = (code P M).map bareC := by
  have hP := hF.wf
  have hprog := hS.ops.symm
  have hval : ∀ o ∈ (programC P key c).map Op.bare, o.2 ≠ .invalid := by
    intro o ho
    obtain ⟨x, hx, rfl⟩ := List.mem_map.1 ho
    exact hS.valid x hx
  unfold programC at hprog hval
  rw [ops_line c' _ _ c.attrs.firstLineno, hF.elems, hF'.elems] at hprog
  rw [hF.elems] at hval
  have hr := hF.readable
  have hr' := hF'.readable
  have hl := hF.layout h11
  have hl' := hF'.layout h11
  obtain ⟨h1, h2⟩ := same_ops (c := c) (d := c') (key := key) hl hl' hr hr' (fun i hi => cache_iff hP h11 (hr i hi).valid)
    (fun i hi => cache_iff hP h11 (hr' i hi).valid) (hF.noDual h11 hd) (hF'.noDual h11 hd') _ _ _ hprog
  simp only [Nat.zero_add] at h2
  have hv : ∀ (k : Nat) i, (code P M)[k]? = some i → i.opcode ≠ 0 →
      operandC P key c ((i.getJumpTarget P ((pos P (code P M) k : Nat) : Int)).bind (fun t => opAt P t 0 0 c.elems)) i ≠ .invalid := by
    intro k i hi h0
    have hm := List.mem_of_getElem? hi
    have := ops_mem (key := key) c (code P M) c.attrs.firstLineno 0 k i hi (fun hx => h0 ((cache_iff hP h11 (hr i hm).valid).1 hx)) (hF.noDual h11 hd i hm)
    rw [Nat.zero_add] at this
    exact hval _ this
  have harg : ∀ (k : Nat) i i', (code P M)[k]? = some i → (code P M')[k]? = some i' → P.hasJump i.opcode = false → i'.arg = i.arg := by
    intro k i i' hi hi' hj
    obtain ⟨e1, e2, e3⟩ := h2 k i i' hi hi'
    have hm := List.mem_of_getElem? hi
    have hm' := List.mem_of_getElem? hi'
    by_cases h0 : i.opcode = 0
    · have n1 := (cache_iff hP h11 (hr i hm).valid).2 h0
      obtain ⟨n, a, loc, rfl, ha⟩ := hF.made hm
      obtain ⟨n', a', loc', rfl, ha'⟩ := hF'.made hm'
      have n2 := e1.trans n1
      simp only [mkI] at n1 n2 ⊢
      rw [ha n1, ha' n2]
    · have n1 : i.name ≠ "CACHE" := fun hx => h0 ((cache_iff hP h11 (hr i hm).valid).1 hx)
      refine operandC_arg hS.consts hS.names hS.locals hS.derefs hS.ndConsts hS.ndNames hS.ndLocals hS.ndDerefs e2 hj ?_ (hv k i hi h0) (e3 h0)
      intro hcmp a a' ha ha' he
      have q1 := hF.compare_arg hok hd hm n1 hcmp ha
      have q2 := hF'.compare_arg hok' hd' hm' (by rw [e1]; exact n1) (by rw [e2]; exact hcmp) ha'
      rw [he, q2] at q1
      exact (Except.ok.inj q1).symm
  have hsize : ∀ {b : Bytecode} {c : Concrete} {T : Tabs} {M : List Cell}, Final P key b c T M → ∀ i ∈ code P M, i.size = sizeFor i.arg none := by
    intro b c T M hF i hi
    obtain ⟨n, a, loc, rfl, _⟩ := hF.made hi
    rfl
  have hjmp : ∀ i ∈ code P M, P.hasJump i.opcode = true → i.opcode ≠ 0 := by
    intro i hi hj h0
    have := hasJump_arg hP (hP.cache h11).1 (hP.cache h11).2 (h0 ▸ hj)
    rw [hP.zero] at this; cases this
  have hdest : ∀ (k : Nat) i i', (code P M)[k]? = some i → (code P M')[k]? = some i' → P.hasJump i.opcode = true →
      (i'.getJumpTarget P (pos P (code P M') k)).bind (fun t => opAt P t 0 0 ((code P M').map .instr)) =
      (i.getJumpTarget P (pos P (code P M) k)).bind (fun t => opAt P t 0 0 ((code P M).map .instr)) ∧
      ((i.getJumpTarget P (pos P (code P M) k)).bind (fun t => opAt P t 0 0 ((code P M).map .instr))).isSome = true := by
    intro k i i' hi hi' hj
    obtain ⟨e1, e2, e3⟩ := h2 k i i' hi hi'
    have h0 := hjmp i (List.mem_of_getElem? hi) hj
    have e3 := e3 h0
    have hv := hv k i hi h0
    rw [hF.elems, hF'.elems] at e3
    rw [hF.elems] at hv
    unfold operandC at e3 hv
    rw [e2] at e3
    simp only [hj, if_true] at e3 hv
    have hinj : ∀ x y : Option Nat, (jumpOr x : Operand κ) = jumpOr y → x = y := by
      intro x y hxy
      cases x <;> cases y <;> simp [jumpOr] at hxy ⊢
      exact hxy
    refine ⟨hinj _ _ e3, ?_⟩
    generalize (i.getJumpTarget P (pos P (code P M) k)).bind (fun t => opAt P t 0 0 ((code P M).map .instr)) = z at *
    cases z with
    | none => exact absurd rfl hv
    | some z => rfl
  have hroom : Room P (code P M) (code P M') := by
    refine ⟨h1, fun k i i' hi hi' => ⟨(h2 k i i' hi hi').1, (h2 k i i' hi hi').2.1⟩, fun i hi => valid_size (hr' i hi).valid, ?_, ?_, ?_⟩
    · intro k i i' hi hi' hj
      rw [hsize hF i (List.mem_of_getElem? hi), hsize hF' i' (List.mem_of_getElem? hi'), harg k i i' hi hi' hj]
      exact Nat.le_refl _
    · intro k i i' hi hi' hj
      have hm' := List.mem_of_getElem? hi'
      have hv' := (hr' i' hm').valid
      have hA := hasJump_arg hP hv'.name_op hv'.base (by rw [(h2 k i i' hi hi').2.1]; exact hj)
      obtain ⟨a, ha⟩ := Option.isSome_iff_exists.1 (hv'.arg_required hA)
      exact ⟨a, ha, hv'.arg_range a ha, by rw [hsize hF' i' hm', ha]; exact Nat.le_refl _⟩
    · intro k i i' hi hi' hj
      exact (hdest k i i' hi hi' hj).1
  have hroom' : Room P (code P M') (code P M) := by
    refine ⟨h1.symm, fun k i i' hi hi' => ⟨(h2 k i' i hi' hi).1.symm, (h2 k i' i hi' hi).2.1.symm⟩, fun i hi => valid_size (hr i hi).valid, ?_, ?_, ?_⟩
    · intro k i i' hi hi' hj
      rw [hsize hF' i (List.mem_of_getElem? hi), hsize hF i' (List.mem_of_getElem? hi'), harg k i' i hi' hi (by rw [← (h2 k i' i hi' hi).2.1]; exact hj)]
      exact Nat.le_refl _
    · intro k i i' hi hi' hj
      have hm' := List.mem_of_getElem? hi'
      have hv' := (hr i' hm').valid
      have hA := hasJump_arg hP hv'.name_op hv'.base (by rw [← (h2 k i' i hi' hi).2.1]; exact hj)
      obtain ⟨a, ha⟩ := Option.isSome_iff_exists.1 (hv'.arg_required hA)
      exact ⟨a, ha, hv'.arg_range a ha, by rw [hsize hF i' hm', ha]; exact Nat.le_refl _⟩
    · intro k i i' hi hi' hj
      exact (hdest k i' i hi' hi (by rw [← (h2 k i' i hi' hi).2.1]; exact hj)).1.symm
  have hle := toConcrete_room hP hF.noCache hF.valid hc _ _ hF.elems hroom
  have hle' := toConcrete_room hP hF'.noCache hF'.valid hc' _ _ hF'.elems hroom'
  have hsz : ∀ (k : Nat) i i', (code P M)[k]? = some i → (code P M')[k]? = some i' → i'.size = i.size := by
    intro k i i' hi hi'
    have := hle k i i' hi hi'
    have := hle' k i' i hi' hi
    omega
  have hpos : ∀ k, pos P (code P M') k = pos P (code P M) k := by
    intro k
    unfold pos
    congr 1
    apply List.ext_getElem?
    intro j
    rw [List.getElem?_map, List.getElem?_map, List.getElem?_take, List.getElem?_take]
    split
    · by_cases hj : j < (code P M).length
      · have g1 := List.getElem?_eq_getElem hj
        have g2 := List.getElem?_eq_getElem (h1 ▸ hj : j < (code P M').length)
        rw [g1, g2]
        simp only [Option.map_some, CInstr.units]
        rw [hsz j _ _ g1 g2]
      · rw [List.getElem?_eq_none (by omega), List.getElem?_eq_none (by omega)]
    · rfl
  have hopAt : ∀ t : Int, opAt P t 0 0 ((code P M').map .instr) = opAt P t 0 0 ((code P M).map .instr) :=
    fun t => opAt_same _ _ h1 (fun k i i' hi hi' => ⟨(h2 k i i' hi hi').1, (h2 k i i' hi hi').2.1, hsz k i i' hi hi'⟩) 0 0
  apply List.ext_getElem?
  intro k
  rw [List.getElem?_map, List.getElem?_map]
  by_cases hk : k < (code P M).length
  · have g1 := List.getElem?_eq_getElem hk
    have g2 := List.getElem?_eq_getElem (h1 ▸ hk : k < (code P M').length)
    generalize (code P M)[k] = i at g1
    generalize (code P M')[k] = i' at g2
    rw [g1, g2]
    simp only [Option.map_some]
    congr 1
    have hm := List.mem_of_getElem? g1
    have hm' := List.mem_of_getElem? g2
    obtain ⟨e1, e2, _⟩ := h2 k i i' g1 g2
    have ha : i'.arg = i.arg := by
      cases hj : P.hasJump i.opcode with
      | false => exact harg k i i' g1 g2 hj
      | true =>
        obtain ⟨d1, d2⟩ := hdest k i i' g1 g2 hj
        obtain ⟨a, ha, _⟩ := hroom'.jump k i' i g2 g1 (by rw [e2]; exact hj)
        obtain ⟨a', ha', _⟩ := hroom.jump k i i' g1 g2 hj
        rw [hpos k] at d1
        obtain ⟨K, hK⟩ := Option.isSome_iff_exists.1 d2
        rw [hK] at d1
        obtain ⟨t, t1, t2⟩ := Option.bind_eq_some_iff.1 hK
        obtain ⟨t', t1', t2'⟩ := Option.bind_eq_some_iff.1 d1
        rw [hopAt] at t2'
        have := opAt_inj t2 t2'
        subst this
        exact getJumpTarget_inj e1 e2 (hsz k i i' g1 g2) ha ha' t1 t1'
    obtain ⟨n, a, loc, rfl, _⟩ := hF.made hm
    obtain ⟨n', a', loc', rfl, _⟩ := hF'.made hm'
    simp only [mkI] at e1 ha
    subst e1; subst ha
    rfl
  · rw [List.getElem?_eq_none (by omega), List.getElem?_eq_none (by omega)]
end
end Verif
