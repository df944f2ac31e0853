import Verif.Proofs.DecodeRules
import Verif.Props.FromCode
import Verif.Props.ToCodeTotal
import Verif.Spec.Rewritable
/-
What `from_code` reads follows the rules of `to_code`.
-/
namespace Verif
open Spec
section
variable {P : Platform} {c : Concrete} {prune conserve : Bool} {targets : List Int}

theorem normalize_snd (line : Nat) (js : List CInstr) : (normalizeLineno line (js.map .instr)).map (·.2) = js := by
  induction js generalizing line with
  | nil => rfl
  | cons j js ih => simp only [List.map_cons, normalizeLineno, ih]

/-! ### Regions are not empty -/

theorem loop_noEmpty (hP : P.WF) (h11 : P.py311 = true) (hn : (c.excTable.map (·.start)).Nodup) (hne : ∀ e ∈ c.excTable, e.start ≤ e.stop)
    (js : List CInstr) (hv : ∀ j ∈ js, ValidCInstr P j) (line off : Nat) (tbs : List Nat) (d : Dec)
    (h : decodeLoop P c prune conserve targets off tbs (normalizeLineno line (js.map .instr)) = .ok d)
    (hst : ∀ e ∈ c.excTable, e.start < (off : Int) ∨ (∃ f ∈ fetchedOf off js, e.start = (f.first : Int)))
    (hmade : ∀ k e, c.excTable[k]? = some e → e.start < (off : Int) → k ∈ tbs) : NoEmptyTry false d.elems := by
  induction js generalizing line off tbs d with
  | nil =>
    simp only [List.map_nil, normalizeLineno, decodeLoop, Except.ok.injEq] at h
    subst h; trivial
  | cons j js ih =>
    rw [List.map_cons, normalizeLineno] at h
    have hj := hv j (by simp)
    have hsz := valid_size hj
    obtain ⟨main, d', h1, h2, h3, _⟩ := loop_cons h hsz
    have hw : j.units P = j.size / 2 := by rw [← width_units]; exact width_311 h11 j
    have hun : P.unit = 1 := by
      have : P.py310 = true := by simp [Platform.py310, Platform.py311] at *; omega
      simp [Platform.unit, this]
    have hst2 : ∀ e ∈ c.excTable, e.start < (off : Int) ∨ (e.start = (off : Int) ∧ j.opcode ≠ 0) ∨
        ∃ f ∈ fetchedOf (off + j.units P) js, e.start = (f.first : Int) := by
      intro e he
      rcases hst e he with hx | ⟨f, hf, hx⟩
      · exact .inl hx
      · rw [hw]
        unfold fetchedOf at hf
        split at hf
        · exact .inr (.inr ⟨f, hf, hx⟩)
        · rename_i h0
          rcases List.mem_cons.1 hf with rfl | hf
          · exact .inr (.inl ⟨hx, h0⟩)
          · exact .inr (.inr ⟨f, hf, hx⟩)
    have hst3 : ∀ e ∈ c.excTable, e.start ≤ (off : Int) ∨ ((off + j.units P : Nat) : Int) ≤ e.start := by
      intro e he
      rcases hst2 e he with h | h | ⟨f, hf, h⟩
      · left; omega
      · left; omega
      · right; have := fetchedOf_first _ _ f hf; omega
    have hmade1 : ∀ k e, c.excTable[k]? = some e → e.start ≤ (off : Int) → k ∈ (openEntry c conserve tbs off).2 := by
      intro k e he hx
      by_cases hlt : e.start < (off : Int)
      · exact (open_entry (t := ⟨0, 0, false, none⟩)).1 k (hmade k e he hlt)
      · have hs : e.start = (off : Int) := by omega
        unfold openEntry
        cases hes : exStart c off with
        | none =>
          unfold exStart at hes
          rw [List.findIdx?_eq_none_iff] at hes
          have := hes e (List.mem_of_getElem? he)
          simp [hs] at this
        | some m =>
          unfold exStart at hes
          obtain ⟨hml, hm, _⟩ := List.findIdx?_eq_some_iff_getElem.1 hes
          have hms : c.excTable[m].start = (off : Int) := by simpa using hm
          have hkm : k = m := by
            obtain ⟨hkl, hk⟩ := List.getElem?_eq_some_iff.1 he
            have := List.getElem_inj (i := k) (j := m) (h₀ := by simpa using hkl) (h₁ := by simpa using hml) hn
            apply this.1
            simp only [List.getElem_map, hk, hs, hms]
          subst hkm
          simp only
          split
          · assumption
          · simp
    have hclose := close_all (c := c) (conserve := conserve) (exEnd c (off + j.units P - P.unit)).reverse (openEntry c conserve tbs off).2 (by
      intro k hk
      rw [List.mem_reverse, mem_exEnd] at hk
      obtain ⟨e, he, hes⟩ := hk
      have hm := List.mem_of_getElem? he
      have := hne e hm
      have := hst3 e hm
      exact hmade1 k e he (by omega))
    rw [hclose] at h2 h3
    have ih' : NoEmptyTry false d'.elems := by
      refine ih (fun i hi => hv i (by simp [hi])) _ _ _ d' h2 ?_ ?_
      · intro e he
        rcases hst2 e he with h | h | h
        · left; omega
        · left; omega
        · exact .inr h
      · intro k e he hx
        refine hmade1 k e he ?_
        have := hst3 e (List.mem_of_getElem? he); omega
    have hends : ∀ (l : List Nat) r, NoEmptyTry false r → NoEmptyTry false (l.map .tryEnd ++ r) := by
      intro l
      induction l with
      | nil => intro r hr; exact hr
      | cons k l ihl => intro r hr; exact ⟨rfl, ihl r hr⟩
    rw [h3]
    have hlab : ∀ r, NoEmptyTry false r → NoEmptyTry false ((if (off : Int) ∈ targets then [BElem.label off] else []) ++ r) := by
      intro r hr; split <;> exact hr
    apply hlab
    rcases decodeInstr_ok hP hj h1 with ⟨hnm, _, rfl⟩ | ⟨i, rfl, _⟩
    · have hno : (openEntry c conserve tbs off).1 = [] := by
        unfold openEntry
        cases hes : exStart c off with
        | none => rfl
        | some m =>
          exfalso
          unfold exStart at hes
          obtain ⟨hml, hm, _⟩ := List.findIdx?_eq_some_iff_getElem.1 hes
          have hms : c.excTable[m].start = (off : Int) := by simpa using hm
          rcases hst2 _ (List.getElem_mem hml) with h | h | ⟨f, hf, h⟩
          · omega
          · exact h.2 ((cache_iff hP h11 hj).1 hnm)
          · have := fetchedOf_first _ _ f hf
            have := units_pos P j hsz
            omega
      rw [hno]
      exact hends _ _ ih'
    · have hop : ∀ (A : List BElem) r, (∀ e ∈ A, ∃ t, e = .tryBegin t) → ∀ b, NoEmptyTry b (A ++ .instr i :: r) ↔ NoEmptyTry false r := by
        intro A
        induction A with
        | nil => intro r _ b; rfl
        | cons x A ihA =>
          intro r hA b
          obtain ⟨t, rfl⟩ := hA x (by simp)
          exact ihA r (fun e he => hA e (by simp [he])) true
      rw [List.singleton_append, hop]
      · exact hends _ _ ih'
      · intro e he
        unfold openEntry at he
        split at he
        · split at he
          · simp at he
          · unfold mkTry at he
            split at he
            · simp at he; exact ⟨_, he⟩
            · simp at he
        · simp at he

/-! ### Room -/

theorem loop_room (hP : P.WF) (h11 : P.py311 = true) (l : List (Nat × CInstr)) (hv : ∀ p ∈ l, ValidCInstr P p.2) (off : Nat) (tbs : List Nat) (d : Dec)
    (h : decodeLoop P c true conserve targets off tbs l = .ok d) :
    (d.elems.map (room P)).sum ≤ (l.map (fun p => if p.2.opcode = 0 then 0 else 2 + P.cacheEntries p.2.opcode)).sum := by
  have hmk : ∀ ms : List BElem, (∀ e ∈ ms, isMarker e = true) → (ms.map (room P)).sum = 0 := by
    intro ms
    induction ms with
    | nil => intro _; rfl
    | cons x ms ih =>
      intro hx
      have := hx x (by simp)
      rw [List.map_cons, List.sum_cons, ih (fun e he => hx e (by simp [he]))]
      cases x <;> simp_all [isMarker, room]
  induction l generalizing off tbs d with
  | nil =>
    simp only [decodeLoop, Except.ok.injEq] at h
    subst h; simp
  | cons p l ih =>
    have hp := hv p (by simp)
    obtain ⟨main, d', h1, h2, h3, _⟩ := loop_cons h (valid_size hp)
    have ih' := ih (fun q hq => hv q (by simp [hq])) _ _ d' h2
    rw [h3]
    simp only [List.map_append, List.sum_append, List.map_cons, List.sum_cons, hmk _ (open_marker _ _), hmk _ (close_marker _ _)]
    have hlab : (((if (off : Int) ∈ targets then [BElem.label off] else []) : List BElem).map (room P)).sum = 0 := by
      split <;> rfl
    rw [hlab]
    rcases decodeInstr_ok hP hp h1 with ⟨_, _, rfl⟩ | ⟨i, rfl, _, hn, ho, _⟩
    · simp only [List.map_nil, List.sum_nil]; omega
    · have h0 : p.2.opcode ≠ 0 := by
        intro h0
        have hc := (cache_iff hP h11 hp).2 h0
        unfold decodeInstr at h1
        simp only [hc, beq_self_eq_true, Bool.and_true, if_true] at h1
        obtain ⟨_, _, h1⟩ := except_bind_ok h1
        simp [pure, Except.pure] at h1
      simp only [List.map_cons, List.map_nil, List.sum_cons, List.sum_nil, room, ho, if_neg h0]
      omega

theorem layout_room {js : List CInstr} (h : CacheLayout P js) (hs : ∀ j ∈ js, 2 ≤ j.size) :
    (js.map (fun j => if j.opcode = 0 then 0 else 2 + P.cacheEntries j.opcode)).sum ≤ 2 * unitsOf js := by
  induction h with
  | nil => simp [unitsOf]
  | group i cs rest hi hc hz _ ih =>
    have ih' := ih (fun j hj => hs j (by simp [hj]))
    have := hs i (by simp)
    have e1 : ∀ cs : List CInstr, (∀ x ∈ cs, x.opcode = 0 ∧ x.size = 2) →
        (cs.map (fun j => if j.opcode = 0 then 0 else 2 + P.cacheEntries j.opcode)).sum = 0 ∧ unitsOf cs = cs.length := by
      intro cs
      induction cs with
      | nil => intro _; simp [unitsOf]
      | cons x cs ihc =>
        intro hx
        obtain ⟨a, b⟩ := ihc (fun e he => hx e (by simp [he]))
        obtain ⟨p, q⟩ := hx x (by simp)
        refine ⟨by simp [a, p], ?_⟩
        unfold unitsOf at b ⊢
        simp only [List.map_cons, List.sum_cons, b, q, List.length_cons]; omega
    obtain ⟨a, b⟩ := e1 cs hz
    have e2 : unitsOf (i :: (cs ++ rest)) = i.size / 2 + unitsOf cs + unitsOf rest := by
      simp [unitsOf]; omega
    rw [e2]
    simp only [List.map_cons, List.map_append, List.sum_cons, List.sum_append, if_neg hi]
    omega


/-! ### Depths do not matter for the other rules -/

theorem labelAt_of_mem {l : Nat} {es : List BElem} (h : BElem.label l ∈ es) : ∃ k, labelAt l es = some k :=
  Option.isSome_iff_exists.1 (labelAt_isSome h)

theorem noLost_of {b : Bytecode} (hl : LabelsOnly b) (hv : ∀ i, .instr i ∈ b.elems → ValidInstr P i) (ha : Assemblable P b) :
    ∀ m o loc, CodeItem.op m o .lost loc ∉ codeB b := by
  intro m o loc hm
  obtain ⟨e, he, hx⟩ := List.mem_filterMap.1 hm
  cases e with
  | instr i =>
    simp only [Option.some.injEq, CodeItem.op.injEq] at hx
    obtain ⟨_, _, h3, _⟩ := hx
    cases hia : i.arg with
    | label l =>
      obtain ⟨l', h1, h2⟩ := ha.jumps i he (label_hasJump (hv i he) hia)
      rw [hia] at h1; cases h1
      rw [hia] at h3
      obtain ⟨k, hk⟩ := labelAt_of_mem h2
      simp only [argRef, hk] at h3
      cases h3
    | block x => exact hl i he x hia
    | _ => rw [hia] at h3; cases h3
  | _ => cases hx

theorem zero_assemblable {b : Bytecode} (hl : LabelsOnly b) (hv : ∀ i, .instr i ∈ b.elems → ValidInstr P i) (hw : WellTried none [] false b.elems)
    (he : NoEmptyTry false b.elems) (ha : Assemblable P b) : Assemblable P (zeroDepths b) := by
  refine assemblable_same hl (zero_code b) rfl (noLost_of hl hv ha) (zero_wellTried hw) (zero_noEmpty he) (fun t h' => ⟨?_, ?_⟩) ha
  · rw [zero_depth h']; simp
  · rw [zero_label]
    obtain ⟨e, h1, h2⟩ := List.mem_map.1 h'
    cases e with
    | tryBegin u =>
      cases h2
      obtain ⟨x, y, hxy⟩ := List.append_of_mem h1
      exact (ha.begins x u y hxy).2.1
    | _ => cases h2

/-! ### Operands -/

theorem cells_cell {n : String} (h : Atom.cell n ∈ cellsLookup P c) : n ∈ c.attrs.cellvars := by
  unfold cellsLookup at h
  split at h
  · simp at h; exact h.1
  · simp at h; exact h

theorem locals_cell {n : String} (h : Atom.cell n ∈ localsLookup P c) : n ∈ c.attrs.cellvars := by
  unfold localsLookup at h
  split at h
  · simp only [List.mem_append] at h
    rcases h with h | h
    · exact cells_cell h
    · simp at h
  · simp at h

theorem locals_free {n : String} (h : Atom.free n ∈ localsLookup P c) : n ∈ c.attrs.freevars := by
  unfold localsLookup at h
  split at h
  · simp only [List.mem_append] at h
    rcases h with h | h
    · rcases cells_atoms h with ⟨m, e⟩ | ⟨m, e⟩ <;> cases e
    · simp at h; exact h.1
  · simp at h

theorem toArg_cell {x : Atom} {n : String} (h : x.toArg = .cell n) : x = .cell n := by cases x <;> simp_all [Atom.toArg]
theorem toArg_free {x : Atom} {n : String} (h : x.toArg = .free n) : x = .free n := by cases x <;> simp_all [Atom.toArg]
theorem toArg_intr {x : Atom} {v : Nat} : x.toArg ≠ .intr1 v ∧ x.toArg ≠ .intr2 v := by cases x <;> simp [Atom.toArg]

theorem compareEnum_ne {v : Nat} {x : Arg} (hx : ∀ v, x ≠ .compare v) : compareEnum P v ≠ .ok x := by
  intro h
  unfold compareEnum at h
  split at h
  · exact hx v (Except.ok.inj h).symm
  · cases h

theorem decodeArg_cell {op a : Nat} {n : String} (hc : P.hasconst op = false) (h : decodeArg P c op a = .ok (.cell n))
    (hf : P.hasfree op = true → ∀ m, (derefSlots P c)[a]? = some (.named m) → m ∈ c.attrs.cellvars) : n ∈ c.attrs.cellvars := by
  unfold decodeArg at h
  rw [if_neg (by simp [hc])] at h
  split at h
  · split at h
    · obtain ⟨x, _, h⟩ := except_bind_ok h
      obtain ⟨y, _, h⟩ := except_bind_ok h
      cases h
    · obtain ⟨x, hx, h⟩ := except_bind_ok h
      simp only [pure, Except.pure, Except.ok.injEq] at h
      have := toArg_cell h
      subst this
      exact locals_cell (List.mem_of_getElem? (argIdx_ok hx))
  · split at h
    · split at h
      · obtain ⟨x, _, h⟩ := except_bind_ok h; cases h
      · split at h
        · obtain ⟨x, _, h⟩ := except_bind_ok h; cases h
        · obtain ⟨x, _, h⟩ := except_bind_ok h; cases h
    · split at h
      · rename_i hfree
        split at h
        · obtain ⟨x, hx, h⟩ := except_bind_ok h
          have hx := argIdx_ok hx
          have hd : (derefSlots P c)[a]? = some (atomSlot x) := by
            rw [deref_slots, List.getElem?_append_left (by simpa), List.getElem?_map, hx]; rfl
          cases x <;> simp only [pure, Except.pure, Except.ok.injEq, Arg.cell.injEq] at h <;> first | cases h | skip
          · exact hf hfree _ hd
          · exact hf hfree _ hd
        · obtain ⟨x, _, h⟩ := except_bind_ok h; cases h
      · split at h
        · exact absurd h (compareEnum_ne (by simp))
        · split at h
          · unfold intr1Enum at h; split at h <;> cases h
          · split at h
            · unfold intr2Enum at h; split at h <;> cases h
            · cases h

theorem decodeArg_free {op a : Nat} {n : String} (hc : P.hasconst op = false) (h : decodeArg P c op a = .ok (.free n)) : n ∈ c.attrs.freevars := by
  unfold decodeArg at h
  rw [if_neg (by simp [hc])] at h
  split at h
  · split at h
    · obtain ⟨x, _, h⟩ := except_bind_ok h
      obtain ⟨y, _, h⟩ := except_bind_ok h
      cases h
    · obtain ⟨x, hx, h⟩ := except_bind_ok h
      simp only [pure, Except.pure, Except.ok.injEq] at h
      have := toArg_free h
      subst this
      exact locals_free (List.mem_of_getElem? (argIdx_ok hx))
  · split at h
    · split at h
      · obtain ⟨x, _, h⟩ := except_bind_ok h; cases h
      · split at h
        · obtain ⟨x, _, h⟩ := except_bind_ok h; cases h
        · obtain ⟨x, _, h⟩ := except_bind_ok h; cases h
    · split at h
      · split at h
        · obtain ⟨x, hx, h⟩ := except_bind_ok h
          cases x <;> cases h
        · obtain ⟨x, hx, h⟩ := except_bind_ok h
          cases h
          exact List.mem_of_getElem? (argIdx_ok hx)
      · split at h
        · exact absurd h (compareEnum_ne (by simp))
        · split at h
          · unfold intr1Enum at h; split at h <;> cases h
          · split at h
            · unfold intr2Enum at h; split at h <;> cases h
            · cases h

theorem decodeArg_intr (hP : P.WF) {op a v : Nat} (hi : (P.intrinsic1 op || P.intrinsic2 op) = true)
    (h : decodeArg P c op a = .ok (.intr1 v) ∨ decodeArg P c op a = .ok (.intr2 v)) : v ≤ 255 := by
  obtain ⟨_, hk⟩ := hP.intr_plain op hi
  unfold decodeArg at h
  simp only [Bool.or_eq_true] at hi
  have hk' : P.hasconst op = false ∧ P.haslocal op = false ∧ P.hasname op = false ∧ P.hasfree op = false ∧ P.hascompare op = false := by
    grind
  obtain ⟨k1, k2, k3, k4, k5⟩ := hk'
  simp only [k1, k2, k3, k4, k5, Bool.false_eq_true, if_false] at h
  by_cases h1 : P.intrinsic1 op = true
  · simp only [h1, if_true, intr1Enum] at h
    rcases h with h | h <;> (split at h <;> cases h)
    omega
  · have h2 : P.intrinsic2 op = true := by grind
    simp only [h1, h2, if_true, intr2Enum] at h
    rcases h with h | h <;> (simp at h; split at h <;> cases h)
    omega

theorem decodeArg_dual (hP : P.WF) {op a : Nat} {arg : Arg} (hd : P.dual op = true)
    (hk : a / 16 < c.varnames.length ∧ a % 16 < c.varnames.length) (h313 : P.py313 = true → P.py311 = true)
    (h : decodeArg P c op a = .ok arg) : ∃ x y, arg = .tuple [.str x, .str y] := by
  have hl : P.haslocal op = true := hP.dual_local op hd
  have hc : P.hasconst op = false := by
    have := (kinds_excl hP op).const
    cases hc : P.hasconst op with
    | false => rfl
    | true => have := this hc; grind
  have key : ∀ k, k < c.varnames.length → (localsLookup P c)[k]? = some (.str (c.varnames[k]?.getD "")) := by
    intro k hk
    have e : (c.varnames.map Atom.str)[k]? = some (.str (c.varnames[k]?.getD "")) := by
      rw [List.getElem?_map, List.getElem?_eq_getElem hk]; rfl
    unfold localsLookup
    split
    · rename_i h13
      unfold cellsLookup
      rw [if_pos (h313 h13), List.append_assoc, List.getElem?_append_left (by simpa using hk)]
      exact e
    · exact e
  unfold decodeArg at h
  rw [if_neg (by simp [hc]), if_pos hl, if_pos hd] at h
  obtain ⟨x, hx, h⟩ := except_bind_ok h
  obtain ⟨y, hy, h⟩ := except_bind_ok h
  have hx := argIdx_ok hx
  have hy := argIdx_ok hy
  have e1 : a >>> 4 = a / 16 := by simp [Nat.shiftRight_eq_div_pow]
  have e2 : a &&& 15 = a % 16 := by exact Nat.and_two_pow_sub_one_eq_mod a 4
  rw [e1, key _ hk.1] at hx
  rw [e2, key _ hk.2] at hy
  cases hx; cases hy
  cases h
  exact ⟨_, _, rfl⟩

end

section
variable {P : Platform} {co : Code} {js : List CInstr} {conserve : Bool} {b : Bytecode}

/-- Where the instructions of the result come from. -/
theorem ReadFrom.instr (hP : P.WF) (h11 : P.py311 = true) (hR : ReadFrom P co js) (h : toBytecode P true conserve (readOf co js) = .ok b)
    {i : Instr} (hi : .instr i ∈ b.elems) :
    ∃ f ∈ fetched P co, f.opcode = i.opcode ∧ ∃ j ∈ js, j.opcode = i.opcode ∧ f.arg = j.arg.getD 0 ∧ ∃ off arg, decodeOperand P (readOf co js) j = .ok arg ∧
      i.arg = match j.getJumpTarget P off with | some t => .label t.toNat | none => arg := by
  obtain ⟨es', d, h1, h2, h3, h4, h5⟩ := toBytecode_ok h
  rw [hR.remove] at h1; cases h1
  rw [h5] at hi
  have hmem : ∀ p ∈ normalizeLineno (readOf co js).attrs.firstLineno (readOf co js).elems, p.2 ∈ js := by
    intro p hp
    have := normalize_mem _ _ p hp
    obtain ⟨j, hj, e⟩ := List.mem_map.1 this
    cases e; exact hj
  obtain ⟨p, hp, off, main, hm, hin⟩ := loop_decoded _ (fun p hp => valid_size (hR.readable _ (hmem p hp)).valid) _ _ d h2 i hi
  have hv := (hR.readable _ (hmem p hp)).valid
  rcases decodeInstr_ok hP hv hm with ⟨_, _, rfl⟩ | ⟨i', rfl, hvi, hn, ho, hl, arg, ha, hia⟩
  · simp at hin
  · simp only [List.mem_singleton, BElem.instr.injEq] at hin
    subst hin
    have h0 : p.2.opcode ≠ 0 := by
      intro h0
      have hc := (cache_iff hP h11 hv).2 h0
      unfold decodeInstr at hm
      simp only [hc, beq_self_eq_true, Bool.and_true, if_true] at hm
      obtain ⟨_, _, hm⟩ := except_bind_ok hm
      simp [pure, Except.pure] at hm
    obtain ⟨f, hf, e1, e2⟩ := fetched_of js 0 p.2 (hmem p hp) h0
    rw [← hR.fetch_] at hf
    exact ⟨f, hf, e1.trans ho.symm, p.2, hmem p hp, ho.symm, e2, off, arg, ha, hia⟩

/-- The labels of jumps and handlers are in the result. -/
theorem ReadFrom.labels (hP : P.WF) (hR : ReadFrom P co js) (h : toBytecode P true conserve (readOf co js) = .ok b) :
    (∀ i, .instr i ∈ b.elems → P.hasJump i.opcode = true → ∃ l, i.arg = .label l ∧ .label l ∈ b.elems) ∧
    (∀ t, .tryBegin t ∈ b.elems → .label t.target ∈ b.elems) := by
  obtain ⟨es', d, h1, h2, h3, h4, h5⟩ := toBytecode_ok h
  rw [hR.remove] at h1; cases h1
  have hv : ∀ p ∈ normalizeLineno (readOf co js).attrs.firstLineno (readOf co js).elems, ValidCInstr P p.2 :=
    fun p hp => hR.valid _ (normalize_mem _ _ p hp)
  rw [h5]
  refine ⟨fun i hi hj => ?_, fun t ht => ?_⟩
  · obtain ⟨t, ht, hx⟩ := loop_jump hP i _ hv _ _ d h2 hi hj
    obtain ⟨n, hn, hx'⟩ := h3 t ht
    refine ⟨_, hx, (loop_label_mem hP _ _ hv _ _ d h2).1.2 ?_⟩
    rw [hx']; exact hn
  · obtain ⟨h6, e, he, hx⟩ := (loop_begin hP t _ hv _ _ d h2).2 ht
    obtain ⟨n, hn, hx'⟩ := h4 _ h6
    rw [he] at hx'
    refine (loop_label_mem hP _ _ hv _ _ d h2).1.2 ?_
    simp only [Option.map_some, Option.getD_some] at hx'
    rw [hx, hx']; exact hn

theorem units_length (k : List (Nat × CInstr)) (h : ∀ r ∈ k, ValidCInstr P r.2) : k.length ≤ unitsL P k := by
  induction k with
  | nil => simp [unitsL]
  | cons r k ih =>
    have := ih (fun x hx => h x (by simp [hx]))
    have hru := units_pos P r.2 (valid_size (h r (by simp)))
    have := unit_pos P
    unfold unitsL at *
    simp only [List.map_cons, List.sum_cons, List.length_cons]
    omega

/-- The direction of jumps. -/
theorem ReadFrom.directions (hP : P.WF) (h11 : P.py311 = true) (hR : ReadFrom P co js) (h : toBytecode P true conserve (readOf co js) = .ok b)
    {pre : List BElem} {i : Instr} {post : List BElem} {l : Nat} (he : b.elems = pre ++ .instr i :: post) (hi : i.arg = .label l) :
    (isForwardRelJump P i.name i.opcode = true → .label l ∈ post) ∧
    (isBackwardRelJump P i.name i.opcode = true → ∀ mid post', post = mid ++ .label l :: post' → ∀ j, .instr j ∉ mid) := by
  have h10 : P.py310 = true := by simp [Platform.py310, Platform.py311] at *; omega
  have hlab := (hR.labels hP h).1
  obtain ⟨es', d, h1, h2, h3, h4, h5⟩ := toBytecode_ok h
  rw [hR.remove] at h1; cases h1
  have hv : ∀ p ∈ normalizeLineno (readOf co js).attrs.firstLineno (readOf co js).elems, ValidCInstr P p.2 :=
    fun p hp => hR.valid _ (normalize_mem _ _ p hp)
  have hed : d.elems = pre ++ .instr i :: post := by rw [← he, h5]
  obtain ⟨l1, p, l2, tbs', d', ms, g1, g2, g3, g4, g5, g6⟩ := loop_split hP _ hv _ _ d h2 hed
  rw [Nat.zero_add] at g2 g3 g6
  have hvp := hv p (by rw [g1]; simp)
  rcases decodeInstr_ok hP hvp g2 with ⟨_, _, e⟩ | ⟨i', e, hvi, hn, ho, _, arg, ha, hia⟩
  · cases e
  cases e
  have hjmp : P.hasJump i.opcode = true := label_hasJump hvi hi
  have hlm : .label l ∈ b.elems := by
    obtain ⟨l', e1, e2⟩ := hlab i (by rw [he]; simp) hjmp
    rw [hi] at e1; cases e1; exact e2
  have hA := hasJump_hasArg hP hvp (by rw [← ho]; exact hjmp)
  obtain ⟨a, harg⟩ := Option.isSome_iff_exists.1 (hvp.arg_required hA)
  have hw : p.2.units P = p.2.size / 2 := by rw [← width_units]; exact width_311 h11 p.2
  have hsz := valid_size hvp
  have hvl2 : ∀ q ∈ l2, ValidCInstr P q.2 := fun q hq => hv q (by rw [g1]; simp [hq])
  refine ⟨fun hf => ?_, fun hb mid post' hp j hj => ?_⟩
  · have ht : p.2.getJumpTarget P (unitsL P l1 : Nat) = some (((unitsL P l1 + (p.2.size / 2 + P.cacheEntries p.2.opcode) + a : Nat)) : Int) := by
      unfold CInstr.getJumpTarget CInstr.useCacheOpcodes
      simp only [harg, ← hn, ← ho, hf, if_true, h10, h11]
      congr 1
    rw [ht, hi] at hia
    simp only [Int.toNat_natCast, Arg.label.injEq] at hia
    rw [he] at hlm
    rcases List.mem_append.1 hlm with hm | hm
    · have := g6 _ hm; omega
    · rcases List.mem_cons.1 hm with hm | hm
      · cases hm
      · exact hm
  · have hnf : isForwardRelJump P i.name i.opcode = false := by
      unfold isBackwardRelJump at hb; unfold isForwardRelJump
      simp only [Bool.and_eq_true] at hb
      simp [hb.2]
    have ht : p.2.getJumpTarget P (unitsL P l1 : Nat) = some ((unitsL P l1 : Int) + ((p.2.size / 2 + P.cacheEntries p.2.opcode : Nat) : Int) - a) := by
      unfold CInstr.getJumpTarget CInstr.useCacheOpcodes
      simp only [harg, ← hn, ← ho, hb, hnf, if_true, h10, h11, Bool.false_eq_true, if_false]
    rw [ht, hi] at hia
    simp only [Arg.label.injEq] at hia
    -- the instruction between comes from the rest
    obtain ⟨m1, m2, rfl⟩ := List.append_of_mem hj
    rw [g4] at hp
    have hcut : ∀ (X Y A : List BElem) (B : List BElem), (∀ e ∈ X, isMarker e = true) → X ++ Y = A ++ .instr j :: B → ∃ A', Y = A' ++ .instr j :: B := by
      intro X
      induction X with
      | nil => intro Y A B _ e; exact ⟨A, e⟩
      | cons x X ihX =>
        intro Y A B hx e
        cases A with
        | nil =>
          simp only [List.nil_append, List.cons_append, List.cons.injEq] at e
          have := hx x (by simp)
          rw [e.1] at this
          simp [isMarker] at this
        | cons y A =>
          simp only [List.cons_append, List.cons.injEq] at e
          exact ihX Y A B (fun e he => hx e (by simp [he])) e.2
    obtain ⟨A', hA'⟩ := hcut ms d'.elems m1 (m2 ++ .label l :: post') g5 (by rw [hp]; simp)
    obtain ⟨k1, q, k2, tbs'', d'', ms', q1, q2, q3, q4, q5, q6⟩ := loop_split hP _ hvl2 _ _ d' g3 hA'
    have hvq := hvl2 q (by rw [q1]; simp)
    have hge : unitsL P l1 + p.2.units P + unitsL P k1 + q.2.units P ≤ l := by
      have hm : BElem.label l ∈ ms' ++ d''.elems := by rw [← q4]; simp
      rcases List.mem_append.1 hm with hm | hm
      · have := q5 _ hm; simp [isMarker] at this
      · exact loop_label_ge hP (fun r hr => hvl2 r (by rw [q1]; simp [hr])) q3 hm
    have hqu := units_pos P q.2 (valid_size hvq)
    have hq0 : q.2.opcode ≠ 0 := by
      intro h0
      have hc := (cache_iff hP h11 hvq).2 h0
      unfold decodeInstr at q2
      simp only [hc, beq_self_eq_true, Bool.and_true, if_true] at q2
      obtain ⟨_, _, q2⟩ := except_bind_ok q2
      simp [pure, Except.pure] at q2
    have hp0 : p.2.opcode ≠ 0 := by
      intro h0
      rw [h0, hP.zero] at hA; cases hA
    have hjs : js = l1.map (·.2) ++ p.2 :: l2.map (·.2) := by
      have := normalize_snd (readOf co js).attrs.firstLineno js
      rw [show js.map CElem.instr = (readOf co js).elems from rfl, g1] at this
      simpa using this.symm
    obtain ⟨cs, rest, c1, c2, c3⟩ := layout_after hR.layout hjs hp0
    have hcs : P.cacheEntries p.2.opcode ≤ unitsL P k1 := by
      rw [← c2]
      have e : k1.map (·.2) ++ q.2 :: k2.map (·.2) = cs ++ rest := by rw [← c1, q1]; simp
      rcases List.append_eq_append_iff.1 e with ⟨as, e1, e2⟩ | ⟨bs, e1, e2⟩
      · cases as with
        | nil =>
          rw [List.append_nil] at e1
          rw [e1, List.length_map]
          exact units_length k1 (fun r hr => hvl2 r (by rw [q1]; simp [hr]))
        | cons z as =>
          simp only [List.cons_append, List.cons.injEq] at e2
          exact absurd (c3 q.2 (by rw [e1, e2.1]; simp)).1 hq0
      · have hlen : cs.length ≤ k1.length := by
          have := congrArg List.length e1
          simp at this; omega
        have := units_length k1 (fun r hr => hvl2 r (by rw [q1]; simp [hr]))
        omega
    have := unit_pos P
    rw [hw] at hge
    omega

/-! ### Locations -/

theorem opsB_loc {κ : Type} {key : Arg → κ} (tgt : Nat → Option Nat) {i : Instr} {l : Loc} (hl : i.loc = some l) (hc : i.name ≠ "CACHE") (es : List BElem) :
    ∀ loc tr, .instr i ∈ es → ∃ o ∈ opsB P key tgt loc tr es, o.loc = l := by
  induction es with
  | nil => intro _ _ hx; simp at hx
  | cons e es ih =>
    intro loc tr hx
    rcases List.mem_cons.1 hx with rfl | hm
    · have hne : ∃ p, p ∈ expandB P key tgt i := by
        unfold expandB
        rw [if_neg hc]
        split
        · split <;> exact ⟨_, List.mem_cons_self⟩
        · exact ⟨_, List.mem_cons_self⟩
      obtain ⟨p, hp⟩ := hne
      simp only [opsB]
      exact ⟨_, List.mem_append_left _ (List.mem_map.2 ⟨p, hp, rfl⟩), by simp [hl]⟩
    · cases e with
      | instr j =>
        obtain ⟨o, ho, hx⟩ := ih (j.loc.getD loc) tr hm
        exact ⟨o, List.mem_append_right _ ho, hx⟩
      | _ => exact ih _ _ hm

/-! ### The rules -/

/-- What `from_code` reads follows the rules. -/
theorem fromCode_rules (hP : P.WF) (h11 : P.py311 = true) (hok : CodeOK P co) (hre : Rewritable P co)
    (h : Bytecode.fromCode P co true true = .ok b) :
    WellMade P b ∧ NoEmptyTry false b.elems ∧ Assemblable P b ∧ ∀ i l, .instr i ∈ b.elems → i.loc = some l → ¬ Unencodable l := by
  obtain ⟨js, g1, _, hR, _⟩ := readFrom_of (key := (id : Arg → Arg)) hP h11 hok
  have ht : toBytecode P true true (readOf co js) = .ok b := by
    unfold Bytecode.fromCode at h; rw [g1] at h; exact h
  obtain ⟨hval, hlo, hwt⟩ := C51_usable hP h11 hok true h
  have hT := hR.tableOK hP h11 hok
  have hne : NoEmptyTry false b.elems := by
    obtain ⟨es', d, h1, h2, h3, h4, h5⟩ := toBytecode_ok ht
    rw [hR.remove] at h1; cases h1
    have hnd : ((readOf co js).excTable.map (·.start)).Nodup := by
      unfold List.Nodup
      rw [List.pairwise_map]
      refine List.Pairwise.imp_of_mem ?_ hT.disjoint
      intro e f he hf hef
      have := hT.nonempty e he
      have := hT.nonempty f hf
      omega
    rw [h5]
    refine loop_noEmpty hP h11 hnd hT.nonempty js (fun j hj => (hR.readable j hj).valid) _ 0 [] d h2 ?_ ?_
    · intro e he
      have he : e ∈ parseExcTable co.exctable := he
      rw [parseExcTable_regions] at he
      obtain ⟨r, hr, rfl⟩ := List.mem_map.1 he
      obtain ⟨f, hf, hx⟩ := (hok.region r hr).2.1
      rw [hR.fetch_] at hf
      exact .inr ⟨f, hf, by simp [entryOf, hx]⟩
    · intro k e he hx
      obtain ⟨x, _, hx'⟩ := hT.start_ e (List.mem_of_getElem? he)
      omega
  have hfarg : ∀ {f : Fetched} {j : CInstr} {a : Nat}, f.arg = j.arg.getD 0 → j.arg = some a → f.arg = a := by
    intro f j a h1 h2; rw [h1, h2]; rfl
  have hnoarg : ∀ {j : CInstr} {x : Arg}, decodeOperand P (readOf co js) j = .ok x → x ≠ .unset → ∃ a, j.arg = some a ∧ decodeArg P (readOf co js) j.opcode a = .ok x := by
    intro j x hx hu
    unfold decodeOperand at hx
    split at hx
    · rename_i a ha; exact ⟨a, ha, hx⟩
    · split at hx
      · cases hx
      · exact absurd (Except.ok.inj hx).symm hu
  have hnl : ∀ {j : CInstr} {off : Int} {arg x : Arg}, x = (match j.getJumpTarget P off with | some t => Arg.label t.toNat | none => arg) →
      (∀ l, x ≠ .label l) → arg = x := by
    intro j off arg x hx hl
    split at hx
    · exact absurd hx (hl _)
    · exact hx.symm
  refine ⟨⟨fun i hi => ⟨(hval i hi).1, (hval i hi).2.2⟩, fun i v hi hc ha => compare_back hP h11 hok true h i hi hc v ha, ?_, ?_, ?_⟩, hne, ?_, ?_⟩
  · intro i v hi hop ha
    obtain ⟨f, hf, e1, j, hj, e2, e3, off, arg, hd, hia⟩ := hR.instr hP h11 ht hi
    rcases ha with ha | ha
    · rw [ha] at hia
      have := hnl hia (by simp)
      subst this
      obtain ⟨a, _, hd⟩ := hnoarg hd (by simp)
      rw [e2] at hd
      exact decodeArg_intr hP hop (.inl hd)
    · rw [ha] at hia
      have := hnl hia (by simp)
      subst this
      obtain ⟨a, _, hd⟩ := hnoarg hd (by simp)
      rw [e2] at hd
      exact decodeArg_intr hP hop (.inr hd)
  · intro t t' hm hm' hid; exact wellTried_count hwt hm hm' hid
  · have hr : (b.elems.map (room P)).sum ≤ co.code.length := by
      obtain ⟨es', d, h1, h2, h3, h4, h5⟩ := toBytecode_ok ht
      rw [hR.remove] at h1; cases h1
      have hv : ∀ p ∈ normalizeLineno (readOf co js).attrs.firstLineno (readOf co js).elems, ValidCInstr P p.2 :=
        fun p hp => hR.valid _ (normalize_mem _ _ p hp)
      have a1 := loop_room hP h11 _ hv _ _ d h2
      have a2 := layout_room hR.layout (fun j hj => valid_size (hR.readable j hj).valid)
      have a3 : (normalizeLineno (readOf co js).attrs.firstLineno (readOf co js).elems).map
          (fun p => if p.2.opcode = 0 then 0 else 2 + P.cacheEntries p.2.opcode) =
          js.map (fun j => if j.opcode = 0 then 0 else 2 + P.cacheEntries j.opcode) := by
        rw [← normalize_snd (readOf co js).attrs.firstLineno js, List.map_map]; 
        rw [normalize_snd]; rfl
      rw [a3] at a1
      have a4 := hR.units_
      rw [h5]
      show (d.elems.map (room P)).sum ≤ _
      omega
    obtain ⟨q1, q2, _, _⟩ := C22_attributes ht
    have q3 : b.attrs.cellvars = co.cellvars := congrArg Attrs.cellvars q1
    have q4 : b.attrs.freevars = co.freevars := congrArg Attrs.freevars q1
    have q5 : b.argnames.length ≤ co.varnames.length := by
      rw [q2, List.length_take]; exact Nat.min_le_right _ _
    have := hre.size
    rw [q3, q4]
    omega
  · obtain ⟨l1, l2⟩ := hR.labels hP ht
    obtain ⟨q1, q2, _, _⟩ := C22_attributes ht
    have q3 : b.attrs.cellvars = co.cellvars := congrArg Attrs.cellvars q1
    have q4 : b.attrs.freevars = co.freevars := congrArg Attrs.freevars q1
    refine ⟨.inl h11, ?_, ?_, ?_, l1, ?_, ?_, ?_, ?_, ?_⟩
    · intro pre t mid t' post e
      rw [e] at hwt
      exact wellTried_nested hwt
    · intro pre t post e
      have hm : BElem.tryBegin t ∈ b.elems := by rw [e]; simp
      refine ⟨fun hd => ?_, l2 t hm, ?_⟩
      · have := toBytecode_depths hR.valid ht t hm
        rw [hd] at this; cases this
      · rw [e] at hwt hne
        exact noEmpty_after hwt hne
    · intro pre id post e
      rw [e] at hwt
      rcases wellTried_ends hwt with e | h
      · cases e
      · exact h
    · intro pre i post l e ha hf
      exact (hR.directions hP h11 ht e ha).1 hf
    · intro pre i mid l post e ha hf
      exact (hR.directions hP h11 ht (pre := pre) (i := i) (post := mid ++ .label l :: post) (by rw [e]; simp) ha).2 hf mid post rfl
    · intro i n hi hc ha
      obtain ⟨f, hf, e1, j, hj, e2, e3, off, arg, hd, hia⟩ := hR.instr hP h11 ht hi
      rw [ha] at hia
      have := hnl hia (by simp)
      subst this
      obtain ⟨a, hja, hd⟩ := hnoarg hd (by simp)
      rw [e2] at hd
      rw [q3]
      refine decodeArg_cell (c := readOf co js) hc hd ?_
      intro hfr m hm
      refine hre.cells f hf (by rw [e1]; exact hfr) m ?_
      rw [hfarg e3 hja]; exact hm
    · intro i n hi hc ha
      obtain ⟨f, hf, e1, j, hj, e2, e3, off, arg, hd, hia⟩ := hR.instr hP h11 ht hi
      rw [ha] at hia
      have := hnl hia (by simp)
      subst this
      obtain ⟨a, hja, hd⟩ := hnoarg hd (by simp)
      rw [e2] at hd
      rw [q4]
      exact decodeArg_free (c := readOf co js) hc hd
    · intro i hi hdu
      obtain ⟨f, hf, e1, j, hj, e2, e3, off, arg, hd, hia⟩ := hR.instr hP h11 ht hi
      have hnj : P.hasJump i.opcode = false := by
        cases hx : P.hasJump i.opcode with
        | false => rfl
        | true => have := ((kinds_excl hP i.opcode).jump hx).2.1; rw [hP.dual_local _ hdu] at this; cases this
      have hgt : j.getJumpTarget P off = none := by
        cases hx : j.getJumpTarget P off with
        | none => rfl
        | some t => have := target_hasJump hx; rw [e2, hnj] at this; cases this
      rw [hgt] at hia
      simp only at hia
      have hu : arg ≠ .unset := by
        intro hu
        obtain ⟨x, y, hxy, _⟩ := (hval i hi).1.arg_ok.dual hdu
        rw [hia, hu] at hxy; cases hxy
      obtain ⟨a, hja, hd⟩ := hnoarg hd hu
      rw [e2] at hd
      have hk := hre.duals f hf (by rw [e1]; exact hdu)
      rw [hfarg e3 hja] at hk
      rw [hia]
      exact decodeArg_dual hP hdu hk (fun _ => h11) hd
  · intro i l hi hl
    obtain ⟨o, ho, hx⟩ := opsB_loc (P := P) (key := (id : Arg → Arg)) (fun l => labelPos P l 0 b.elems) hl (hval i hi).2.2 b.elems (Loc.line (some b.attrs.firstLineno)) none hi
    obtain ⟨b', k1, k2⟩ := C51_conserve hP h11 (id : Arg → Arg) hok
    rw [h] at k1; cases k1
    have ho : o ∈ programB P (id : Arg → Arg) b := ho
    rw [k2] at ho
    obtain ⟨u, hu⟩ := programCode_loc o ho
    rw [hx] at hu
    rw [hu]
    unfold locOfUnit Unencodable
    cases hp : ((readLocs co.firstlineno co.linetable).getD [])[u]? with
    | none => simp
    | some p =>
      have hm := List.mem_of_getElem? hp
      simp only
      rintro ⟨c1, e, c2, c3⟩
      have := hre.columns p hm (by simpa using c1)
      rw [this] at c2
      exact c3 c2

end
end Verif
