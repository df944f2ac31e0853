import Verif.Proofs.DecodeTry
import Verif.Spec.Decodable
/-
When `to_bytecode` does not fail.
-/
namespace Verif
open Spec
section
variable {κ : Type} [DecidableEq κ] {P : Platform} {key : Arg → κ} {c : Concrete}

theorem argIdx_of {α : Type} {l : List α} {a : Nat} {x : α} (h : l[a]? = some x) : argIdx l a = .ok x := by
  unfold argIdx; rw [h]

theorem argIdx_some {α : Type} {l : List α} {a : Nat} (h : l[a]? ≠ none) : ∃ x, argIdx l a = .ok x := by
  cases hx : l[a]? with
  | none => exact absurd hx h
  | some x => exact ⟨x, argIdx_of hx⟩

theorem slotAt_valid {l : List Slot} {k : Nat} (h : (slotAt l k : Operand Arg) ≠ .invalid) : l[k]? ≠ none := by
  intro hn; apply h; simp [slotAt, hn]

theorem nameAt_valid {l : List String} {k : Nat} {f : String → Operand Arg} (h : nameAt l k f ≠ .invalid) : l[k]? ≠ none := by
  intro hn; apply h; simp [nameAt, hn]

theorem compareEnum_ok {v : Nat} (h : CompareMember P v) : compareEnum P v = .ok (.compare v) := by
  unfold compareEnum
  rw [if_pos]
  unfold CompareMember at h
  simp
  grind

theorem locals_get (hf : FreeApart P c) {k : Nat} (h : (localSlots P c)[k]? ≠ none) : ∃ x, (localsLookup P c)[k]? = some x := by
  rw [locals_slots hf, List.getElem?_map] at h
  cases hx : (localsLookup P c)[k]? with
  | none => rw [hx] at h; exact absurd rfl h
  | some x => exact ⟨x, rfl⟩

theorem locals_named (hf : FreeApart P c) {k : Nat} {n : String} (h : (localSlots P c)[k]? = some (.named n)) :
    (localsLookup P c)[k]? = some (.str n) ∨ (localsLookup P c)[k]? = some (.cell n) := by
  rw [locals_slots hf, List.getElem?_map] at h
  cases hx : (localsLookup P c)[k]? with
  | none => rw [hx] at h; cases h
  | some x =>
    rw [hx] at h
    simp only [Option.map_some, Option.some.injEq] at h
    rcases locals_atoms (List.mem_of_getElem? hx) with ⟨m, rfl⟩ | ⟨m, rfl⟩ | ⟨m, rfl⟩
    · cases h; exact .inl rfl
    · cases h; exact .inr rfl
    · cases h

theorem deref_get {k : Nat} (h : (derefSlots P c)[k]? ≠ none) : ∃ x, (cellsLookup P c)[k]? = some x ∨
    (¬ k < (cellsLookup P c).length ∧ ∃ n, c.attrs.freevars[k - (cellsLookup P c).length]? = some n) := by
  rw [deref_slots] at h
  by_cases hk : k < (cellsLookup P c).length
  · exact ⟨_, .inl (List.getElem?_eq_getElem hk)⟩
  · refine ⟨.str "", .inr ⟨hk, ?_⟩⟩
    rw [List.getElem?_append_right (by simpa using hk), List.length_map, List.getElem?_map] at h
    cases hx : c.attrs.freevars[k - (cellsLookup P c).length]? with
    | none => rw [hx] at h; exact absurd rfl h
    | some n => exact ⟨n, rfl⟩

/-- The operand of a decodable instruction. -/
theorem decode_total (hP : P.WF) (hf : FreeApart P c) {ci : CInstr} (hv : ValidCInstr P ci) (hc : ci.name ≠ "CACHE") (h0 : ci.opcode ≠ 0)
    (hne : ci.name ≠ "EXTENDED_ARG") (hd : Decodable P c ci) :
    ∃ arg, decodeOperand P c ci = .ok arg ∧ (P.hasJump ci.opcode = false → ArgOK P ci.opcode arg) := by
  have hK := kinds_excl hP ci.opcode
  simp only [← checkArg_iff P hP ci.name ci.opcode hne]
  have hop := hd.operand
  cases ha : ci.arg with
  | none =>
    have hA : P.hasArg ci.opcode = false := by
      cases h : P.hasArg ci.opcode with
      | false => rfl
      | true => have := hv.arg_required h; rw [ha] at this; cases this
    have hk : (P.hasconst ci.opcode || P.haslocal ci.opcode || P.hasname ci.opcode || P.hasfree ci.opcode || P.hascompare ci.opcode ||
        P.hasjrel ci.opcode || P.hasjabs ci.opcode) = false := by
      cases h : (P.hasconst ci.opcode || P.haslocal ci.opcode || P.hasname ci.opcode || P.hasfree ci.opcode || P.hascompare ci.opcode ||
        P.hasjrel ci.opcode || P.hasjabs ci.opcode) with
      | false => rfl
      | true => rw [hP.operand_arg _ _ hv.name_op hv.base h] at hA; cases hA
    have hi : (P.intrinsic1 ci.opcode || P.intrinsic2 ci.opcode) = false := by
      cases h : (P.intrinsic1 ci.opcode || P.intrinsic2 ci.opcode) with
      | false => rfl
      | true => rw [(hP.intr_plain _ h).1] at hA; cases hA
    simp only [Bool.or_eq_false_iff] at hk hi
    obtain ⟨⟨⟨⟨⟨⟨k1, k2⟩, k3⟩, k4⟩, k5⟩, k6⟩, k7⟩ := hk
    refine ⟨.unset, ?_, ?_⟩
    · unfold decodeOperand; rw [ha]; simp [*]
    · intro _
      unfold Instr.checkArg Platform.hasJump
      simp [*]
  | some a =>
    have hA : P.hasArg ci.opcode = true := by
      cases h : P.hasArg ci.opcode with
      | true => rfl
      | false => have := hv.arg_forbidden h h0; rw [ha] at this; cases this
    have hr := hv.arg_range a ha
    unfold decodeOperand
    simp only [ha]
    unfold decodeArg
    by_cases hj : P.hasJump ci.opcode = true
    · obtain ⟨k1, k2, k3, k4, k5⟩ := hK.jump hj
      obtain ⟨i1, i2⟩ := not_intr hP (op := ci.opcode) (by simp [hj])
      exact ⟨.int a, by simp [*], fun h => by rw [hj] at h; cases h⟩
    have hj : P.hasJump ci.opcode = false := by simpa using hj
    unfold expandC at hop
    rw [if_neg hc] at hop
    unfold Instr.checkArg
    simp only [hne, if_false, hA, Bool.true_and, hj, Bool.false_eq_true, Bool.not_true, Bool.false_and]
    by_cases k1 : P.hasconst ci.opcode = true
    · obtain ⟨_, k2, k3, k4, k5⟩ := hK.const k1
      rw [not_dual hP k3] at hop
      have := hop _ (List.mem_singleton.2 rfl)
      simp only [operandC, hj, ha, k1, if_true, Bool.false_eq_true, if_false] at this
      cases hx : c.consts[a]? with
      | none => rw [hx] at this; exact absurd rfl this
      | some v =>
        obtain ⟨u1, u2, u3⟩ := hd.const k1 a ha v hx
        refine ⟨v, by rw [if_pos k1, argIdx_of hx], fun _ => ?_⟩
        simp only [k2, k3, k4, k1, Bool.or_self, Bool.false_eq_true, if_false, if_true]
        have u1 : (v == Arg.unset) = false := by simpa using u1
        simp only [u1, Bool.false_eq_true, if_false]
    have k1 : P.hasconst ci.opcode = false := by simpa using k1
    by_cases k2 : P.haslocal ci.opcode = true
    · obtain ⟨_, k3, k4, _, k5⟩ := hK.local_ k2
      have hb : P.bitflag ci.opcode = false := by
        cases h : P.bitflag ci.opcode with
        | false => rfl
        | true => rw [(hP.bitflag_name _ h).1] at k4; cases k4
      have hb2 : P.bitflag2 ci.opcode = false := by
        cases h : P.bitflag2 ci.opcode with
        | false => rfl
        | true => rw [hP.bitflag2_name _ h] at k4; cases k4
      simp only [k1, k2, k3, k4, hb, hb2, Bool.true_or, if_true, Bool.false_eq_true, if_false]
      by_cases hdu : P.dual ci.opcode = true
      · obtain ⟨n1, e1⟩ := hd.dual hdu a ha (a / 16) (by simp)
        obtain ⟨n2, e2⟩ := hd.dual hdu a ha (a % 16) (by simp)
        rw [if_pos hdu, shr4, and15]
        rcases locals_named hf e1 with e1 | e1 <;> rcases locals_named hf e2 with e2 | e2 <;>
        · rw [argIdx_of e1, argIdx_of e2]
          refine ⟨_, rfl, fun _ => ?_⟩
          simp [hdu, Arg.isVarPair, Atom.isStrOrCell]
      · have hdu : P.dual ci.opcode = false := by simpa using hdu
        rw [dual_none hdu] at hop
        have := hop _ (List.mem_singleton.2 rfl)
        simp only [operandC, hj, ha, k1, k2, if_true, Bool.false_eq_true, if_false] at this
        obtain ⟨x, hx⟩ := locals_get hf (slotAt_valid this)
        rw [if_neg (by simp [hdu]), argIdx_of hx]
        refine ⟨x.toArg, rfl, fun _ => ?_⟩
        have hx' := List.mem_of_getElem? hx
        by_cases h13 : P.py313 = true
        · rcases locals_atoms hx' with ⟨n, rfl⟩ | ⟨n, rfl⟩ | ⟨n, rfl⟩ <;>
            simp [Atom.toArg, hdu, h13, Arg.isCellOrFree, Arg.isStr]
        · have h13 : P.py313 = false := by simpa using h13
          unfold localsLookup at hx'
          rw [if_neg (by simp [h13])] at hx'
          obtain ⟨n, _, rfl⟩ := List.mem_map.1 hx'
          simp [Atom.toArg, hdu, h13, Arg.isStr]
    have k2 : P.haslocal ci.opcode = false := by simpa using k2
    rw [not_dual hP k2] at hop
    have hop := hop _ (List.mem_singleton.2 rfl)
    have hdu : P.dual ci.opcode = false := by simp [Platform.dual, not_dual hP k2]
    by_cases k3 : P.hasname ci.opcode = true
    · obtain ⟨_, k4, _, _, k5⟩ := hK.name k3
      simp only [operandC, hj, ha, k1, k2, k4, k3, if_true, Bool.false_eq_true, if_false] at hop
      simp only [k1, k2, k3, k4, Bool.or_true, if_true, Bool.false_eq_true, if_false]
      by_cases hb : P.bitflag ci.opcode = true
      · rw [if_pos hb] at hop
        obtain ⟨x, hx⟩ := argIdx_some (nameAt_valid hop)
        rw [if_pos hb, shr1, hx]
        exact ⟨_, rfl, fun _ => by simp [hb, Arg.isFlagName]⟩
      · rw [if_neg hb] at hop
        rw [if_neg hb]
        have hb : P.bitflag ci.opcode = false := by simpa using hb
        by_cases hb2 : P.bitflag2 ci.opcode = true
        · rw [if_pos hb2] at hop
          obtain ⟨x, hx⟩ := argIdx_some (nameAt_valid hop)
          rw [if_pos hb2, shr2, hx]
          exact ⟨_, rfl, fun _ => by simp [hb, hb2, Arg.isFlag2Name]⟩
        · rw [if_neg hb2] at hop
          rw [if_neg hb2]
          have hb2 : P.bitflag2 ci.opcode = false := by simpa using hb2
          obtain ⟨x, hx⟩ := argIdx_some (nameAt_valid hop)
          rw [hx]
          exact ⟨_, rfl, fun _ => by simp [hb, hb2, hdu, Arg.isStr]⟩
    have k3 : P.hasname ci.opcode = false := by simpa using k3
    by_cases k4 : P.hasfree ci.opcode = true
    · simp only [operandC, hj, ha, k1, k2, k4, if_true, Bool.false_eq_true, if_false] at hop
      simp only [k1, k2, k3, k4, if_true, Bool.false_eq_true, if_false]
      obtain ⟨x, hx⟩ := deref_get (slotAt_valid hop)
      rcases hx with hx | ⟨hlt, n, hx⟩
      · rw [if_pos (List.getElem?_eq_some_iff.1 hx).1, argIdx_of hx]
        rcases cells_atoms (List.mem_of_getElem? hx) with ⟨n, rfl⟩ | ⟨n, rfl⟩
        · exact ⟨_, rfl, fun _ => by simp [Arg.isCellOrFree]⟩
        · exact ⟨_, rfl, fun _ => by simp [Arg.isCellOrFree]⟩
      · rw [if_neg hlt, argIdx_of hx]
        exact ⟨_, rfl, fun _ => by simp [Arg.isCellOrFree]⟩
    have k4 : P.hasfree ci.opcode = false := by simpa using k4
    by_cases k5 : P.hascompare ci.opcode = true
    · have hm := hd.compare k5 a ha
      simp only [k1, k2, k3, k4, k5, if_true, Bool.false_eq_true, if_false, Bool.or_self]
      have e : (if P.py313 = true then (a >>> 5) + (if (a &&& 16 != 0) = true then 1 <<< 4 else 0) else if P.py312 = true then a >>> 4 else a) = compareOf P a := by
        unfold compareOf
        split
        · rw [shr5, and16]
          have : (16 * (a / 16 % 2) != 0) = decide (a / 16 % 2 = 1) := by
            rcases Nat.mod_two_eq_zero_or_one (a / 16) with h | h <;> simp [h]
          rw [this]; simp
        · rw [shr4]
      rw [e, compareEnum_ok hm]
      exact ⟨_, rfl, fun _ => by simp⟩
    have k5 : P.hascompare ci.opcode = false := by simpa using k5
    simp only [k1, k2, k3, k4, k5, Bool.false_eq_true, if_false, Bool.or_self]
    by_cases i1 : P.intrinsic1 ci.opcode = true
    · rw [if_pos i1]
      have := hd.intr1 i1 a ha
      exact ⟨.intr1 a, by unfold intr1Enum; rw [if_pos this], fun _ => by simp [i1]⟩
    rw [if_neg i1]
    have i1 : P.intrinsic1 ci.opcode = false := by simpa using i1
    by_cases i2 : P.intrinsic2 ci.opcode = true
    · rw [if_pos i2]
      have := hd.intr2 i2 a ha
      exact ⟨.intr2 a, by unfold intr2Enum; rw [if_pos this], fun _ => by simp [i1, i2]⟩
    rw [if_neg i2]
    have i2 : P.intrinsic2 ci.opcode = false := by simpa using i2
    refine ⟨_, rfl, fun _ => ?_⟩
    simp [i1, i2, checkArgInt', Arg.asInt]
    omega

/-- Decoding a decodable instruction (or pruning a CACHE) does not fail. -/
theorem decodeInstr_total (hP : P.WF) (hf : FreeApart P c) {prune : Bool} {ci : CInstr} (hv : ValidCInstr P ci)
    (hne : ci.name ≠ "EXTENDED_ARG") (hd : ci.name ≠ "CACHE" → Decodable P c ci) (hp : ci.name = "CACHE" → prune = true)
    (hname : ci.name = "CACHE" ↔ ci.opcode = 0) (h11 : ci.loc = none → P.py311 = true) (off lineno : Nat) :
    ∃ main, decodeInstr P c prune off lineno ci = .ok main := by
  unfold decodeInstr
  by_cases hc : ci.name = "CACHE"
  · have ht : ci.getJumpTarget P off = none := by
      cases h : ci.getJumpTarget P off with
      | none => rfl
      | some t =>
        have hj := target_hasJump h
        have := hP.operand_arg _ _ hv.name_op hv.base (by unfold Platform.hasJump at hj; grind)
        rw [hname.1 hc, hP.zero] at this
        cases this
    rw [hp hc, ht]
    simp [hc, pyAssert, bind, Except.bind, pure, Except.pure]
  · obtain ⟨arg, h1, h2⟩ := decode_total hP hf hv hc (fun h => hc (hname.2 h)) hne (hd hc)
    have hl : ∃ l, instrLoc P lineno ci = .ok l := by
      unfold instrLoc
      cases hcl : ci.loc with
      | some l => exact ⟨l, rfl⟩
      | none =>
        have hv : ValidArgs P.py311 (some (lineno : Int)) none none none := by
          rw [h11 hcl]
          constructor <;> simp
        obtain ⟨l, hl, _⟩ := (C11_location_accepts_exactly_coherent P.py311 _ _ _ _).1 hv
        exact ⟨l, hl⟩
    obtain ⟨l, hl⟩ := hl
    have hmake : ∀ a, ArgOK P ci.opcode a → ∃ i, Instr.make P (some ci.name) a .unset (some l) = .ok i := by
      intro a ha
      unfold Instr.make Instr.set_ lookupName
      have := hv.base
      simp only [hv.name_op]
      rw [if_neg (by omega)]
      simp only [(checkArg_iff P hP _ _ hne a).2 ha]
      exact ⟨_, rfl⟩
    have ha : ArgOK P ci.opcode (match ci.getJumpTarget P off with | some t => .label t.toNat | none => arg) := by
      cases hj : P.hasJump ci.opcode with
      | false =>
        have : ci.getJumpTarget P off = none := by
          cases hx : ci.getJumpTarget P off with
          | none => rfl
          | some t => rw [target_hasJump hx] at hj; cases hj
        rw [this]; exact h2 hj
      | true =>
        obtain ⟨t, ht⟩ := hasJump_target hP hv off hj
        rw [ht, ← checkArg_iff P hP ci.name _ hne]
        unfold Instr.checkArg
        have hA := hP.operand_arg _ _ hv.name_op hv.base (by unfold Platform.hasJump at hj; grind)
        simp [hne, hA, hj]
    obtain ⟨i, hi⟩ := hmake _ ha
    have hcb : (ci.name == "CACHE") = false := by simpa using hc
    simp only [hcb, Bool.and_false, Bool.false_eq_true, if_false, h1, hl, bind, Except.bind]
    refine ⟨[.instr i], ?_⟩
    cases hx : ci.getJumpTarget P off with
    | none => rw [hx] at hi; simp only at hi; simp only [hi]; rfl
    | some t => rw [hx] at hi; simp only at hi; simp only [hi]; rfl

/-- The labels of the loop: the targets that are starts of instructions. -/
theorem loop_total (hP : P.WF) (hf : FreeApart P c) {prune conserve : Bool} {targets : List Int} (es : List CElem)
    (hv : ∀ ci, .instr ci ∈ es → ValidCInstr P ci ∧ ci.name ≠ "EXTENDED_ARG" ∧ (ci.name ≠ "CACHE" → Decodable P c ci) ∧ (ci.name = "CACHE" → prune = true) ∧
      (ci.name = "CACHE" ↔ ci.opcode = 0) ∧ (ci.loc = none → P.py311 = true))
    (line off : Nat) (tbs : List Nat) (htbs : ∀ k ∈ tbs, k < c.excTable.length) :
    ∃ d, decodeLoop P c prune conserve targets off tbs (normalizeLineno line es) = .ok d ∧
      (∀ t, t ∈ d.labels ↔ t ∈ starts P off es ∧ (t : Int) ∈ targets) ∧ (∀ t ∈ d.jumps, t ∈ jumpTargets P off es) ∧
      (∀ k ∈ d.tbs, k < c.excTable.length) := by
  induction es generalizing line off tbs with
  | nil => exact ⟨⟨[], [], [], tbs⟩, rfl, by simp [starts], by simp, htbs⟩
  | cons e es ih =>
    have ih := ih (fun ci hci => hv ci (by simp [hci]))
    cases e with
    | setLineno l => exact ih l off tbs htbs
    | instr ci =>
      obtain ⟨hvi, hne, hd, hp, hna, hlo⟩ := hv ci (by simp)
      rw [normalizeLineno]
      generalize hline : (locLine? ci.loc).getD line = line' at *
      obtain ⟨main, hm⟩ := decodeInstr_total hP hf (prune := prune) hvi hne hd hp hna hlo off line'
      have hopen : ∀ k ∈ (openEntry c conserve tbs off).2, k < c.excTable.length := by
        unfold openEntry
        cases hx : exStart c off with
        | none => exact htbs
        | some k =>
          simp only
          split
          · exact htbs
          · intro j hj
            rcases List.mem_cons.1 hj with rfl | hj
            · unfold exStart at hx
              exact (List.findIdx?_eq_some_iff_getElem.1 hx).1
            · exact htbs j hj
      have hclose : ∀ (l tbs : List Nat), (∀ k ∈ l, k < c.excTable.length) → (∀ k ∈ tbs, k < c.excTable.length) →
          ∀ k ∈ (closeEntries c conserve tbs l).2, k < c.excTable.length := by
        intro l
        induction l with
        | nil => intro tbs _ h; exact h
        | cons x l ihl =>
          intro tbs hl ht
          unfold closeEntries
          split
          · exact ihl _ (fun k hk => hl k (by simp [hk])) ht
          · refine ihl _ (fun k hk => hl k (by simp [hk])) ?_
            intro k hk
            rcases List.mem_cons.1 hk with rfl | hk
            · exact hl _ (by simp)
            · exact ht k hk
      have h2 := valid_size hvi
      have hu := units_pos P ci h2
      have e1 : off + (ci.units P - P.unit) = off + ci.units P - P.unit := by omega
      have e2 : off + ci.units P - P.unit + P.unit = off + ci.units P := by omega
      obtain ⟨d, hd', hlab, hjmp, htb⟩ := ih line' (off + ci.units P)
        (closeEntries c conserve (openEntry c conserve tbs off).2 (exEnd c (off + ci.units P - P.unit)).reverse).2
        (hclose _ _ (by
          intro k hk
          rw [List.mem_reverse, mem_exEnd] at hk
          obtain ⟨e, he, _⟩ := hk
          exact (List.getElem?_eq_some_iff.1 he).1) hopen)
      unfold decodeLoop
      simp only [hm, bind, Except.bind, e1, e2, hd']
      refine ⟨_, rfl, ?_, ?_, htb⟩
      · intro t
        simp only [List.mem_append, hlab, starts, List.mem_cons, width_units]
        by_cases ht : (off : Int) ∈ targets
        · simp only [ht, decide_true, if_true, List.mem_singleton]
          constructor
          · rintro (rfl | ⟨a, b⟩)
            · exact ⟨.inl rfl, ht⟩
            · exact ⟨.inr a, b⟩
          · rintro ⟨rfl | a, b⟩
            · exact .inl rfl
            · exact .inr ⟨a, b⟩
        · simp only [ht, decide_false, Bool.false_eq_true, if_false, List.not_mem_nil, false_or]
          constructor
          · rintro ⟨a, b⟩; exact ⟨.inr a, b⟩
          · rintro ⟨rfl | a, b⟩
            · exact absurd b ht
            · exact ⟨a, b⟩
      · intro t ht
        simp only [jumpTargets, List.mem_append]
        simp only [List.mem_append] at ht
        rcases ht with ht | ht
        · split at ht
          · simp at ht
          · exact .inl ht
        · exact .inr (hjmp t ht)

end
end Verif
