import Verif.Props.Uses
import Verif.Props.DefaultTrip
/-
C71: with small tables the round trip needs no EXTENDED_ARG that was not there, and the default number of passes is enough.
-/
namespace Verif
open Spec

/-- The tables of a code object are small: indexes in them, with the flags some opcodes put under an index, fit in a byte. -/
structure Spec.SmallTables (P : Platform) (co : Code) : Prop where
  consts : co.consts.length ≤ 256
  names : ∀ f ∈ fetched P co, P.hasname f.opcode = true → (if P.bitflag f.opcode then 2 else if P.bitflag2 f.opcode then 4 else 1) * co.names.length ≤ 256
  slots : co.varnames.length + co.cellvars.length + co.freevars.length ≤ 256
  nodup : co.varnames.Nodup

section
variable {κ : Type} [DecidableEq κ] {P : Platform} {key : Arg → κ} {eff : Instr → Bool → Py (Int × Int)} {b : Bytecode} {c : Concrete} {co co' : Code}
  {passes : Nat} {stacksize : Option Int} {depths : Bool}

/-- The instruction fetched, for `operandC`. -/
def asC (P : Platform) (f : Fetched) : CInstr := ⟨nameOf P f.opcode, f.opcode, if P.hasArg f.opcode then some f.arg else none, none, none, 2⟩

omit [DecidableEq κ] in
/-- Without two-variable opcodes, an operation per instruction. -/
theorem program_bare (hc : ∀ f ∈ fetched P co, nameOf P f.opcode ≠ "CACHE") (hd : ∀ f ∈ fetched P co, P.dual f.opcode = false) :
    ∃ dest : Fetched → Option Nat, (programCode P key co).map Op.bare = (fetched P co).map (fun f => (nameOf P f.opcode, operandC P key (tablesOf co) (dest f) (asC P f))) := by
  refine ⟨fun f => (jumpUnit P f).bind (fun t => opAtUnit P t (co.code.length / 2) 0 (fetched P co)), ?_⟩
  unfold programCode
  show ((fetched P co).flatMap _).map _ = _
  rw [List.map_flatMap]
  have : ∀ fs : List Fetched, (∀ f ∈ fs, nameOf P f.opcode ≠ "CACHE") → (∀ f ∈ fs, P.dual f.opcode = false) → ∀ (h : Fetched → Option Nat) (l : Fetched → Loc) (x : Fetched → Option Handler),
      fs.flatMap (fun f => ((expandC P key (tablesOf co) (h f) (asC P f)).map (fun p => (⟨p.1, p.2, l f, x f⟩ : Op κ))).map Op.bare) =
      fs.map (fun f => (nameOf P f.opcode, operandC P key (tablesOf co) (h f) (asC P f))) := by
    intro fs
    induction fs with
    | nil => intros; rfl
    | cons f fs ih =>
      intro h1 h2 h l x
      rw [List.flatMap_cons, List.map_cons, ih (fun g hg => h1 g (by simp [hg])) (fun g hg => h2 g (by simp [hg]))]
      have e1 := h1 f (by simp)
      have e2 : P.dualSingles f.opcode = none := by
        have := h2 f (by simp)
        unfold Platform.dual at this
        cases hs : P.dualSingles f.opcode with
        | none => rfl
        | some p => rw [hs] at this; cases this
      have : expandC P key (tablesOf co) (h f) (asC P f) = [(nameOf P f.opcode, operandC P key (tablesOf co) (h f) (asC P f))] := by
        unfold expandC
        rw [if_neg (by exact e1)]
        have : P.dualSingles (asC P f).opcode = none := e2
        rw [this]; rfl
      rw [this]
      rfl
  exact this _ hc hd _ _ _

theorem frameSlots_length (vs cs fs : List String) : (frameSlots vs cs fs).length ≤ vs.length + cs.length + fs.length := by
  have := List.length_filter_le (fun n => !(vs.contains n)) cs
  simp only [frameSlots, List.length_append, List.length_map]
  omega

theorem encodeCompare_small {v a : Nat} (hm : CompareMember P v) (h : encodeCompare P v = .ok a) : a < 256 := by
  have h12 : P.py313 = true → P.py312 = true := by simp [Platform.py313, Platform.py312]; omega
  have h9 : P.py312 = true → P.py39 = true := by simp [Platform.py39, Platform.py312]; omega
  have hv : v ≤ 21 := by rcases hm with h | h | h <;> omega
  have hv12 : P.py313 = false → P.py312 = true → v ≤ 5 := by
    intro a b
    rcases hm with h | h | h
    · exact h
    · rw [h9 b] at h; cases h.1
    · rw [a] at h; cases h.1
  have hmask : ∀ m, compareMask v = some m → m ≤ 12 := by
    intro m hm'
    unfold compareMask at hm'
    repeat' split at hm'
    all_goals first | cases hm'; decide | cases hm'
  unfold encodeCompare at h
  split at h
  · split at h
    · rename_i m hm'
      have := hmask m hm'
      cases h
      have hk : ∀ v ≤ 21, (∃ m, compareMask v = some m) → ((v &&& 15) <<< 5) + (v &&& 16) ≤ 200 := by
        intro v hv
        have : ∀ v : Fin 22, (compareMask v.1).isSome = true → ((v.1 &&& 15) <<< 5) + (v.1 &&& 16) ≤ 200 := by decide
        rintro ⟨m, hm⟩
        exact this ⟨v, by omega⟩ (by rw [hm]; rfl)
      have := hk v hv ⟨m, hm'⟩
      omega
    · cases h
  · rename_i h13
    split at h
    · rename_i h12'
      split at h
      · rename_i m hm'
        have := hmask m hm'
        have := hv12 (by simpa using h13) h12'
        cases h
        rw [Nat.shiftLeft_eq]
        omega
      · cases h
    · cases h; omega

omit [DecidableEq κ] in
theorem operandC_invalid (dest : Option Nat) (ci : CInstr) (h : operandC P key c dest ci = .invalid) : operandC P (id : Arg → Arg) c dest ci = .invalid := by
  unfold operandC at h ⊢
  have hj : ∀ d : Option Nat, (jumpOr d : Operand κ) = .invalid → (jumpOr d : Operand Arg) = .invalid := by
    intro d; cases d <;> simp [jumpOr]
  have hs : ∀ (l : List Slot) k, (slotAt l k : Operand κ) = .invalid → (slotAt l k : Operand Arg) = .invalid := by
    intro l k; unfold slotAt; cases l[k]? <;> simp
  have hn : ∀ (l : List String) k (g : String → Operand κ) (g' : String → Operand Arg), (∀ n, g n ≠ .invalid) → nameAt l k g = .invalid → nameAt l k g' = .invalid := by
    intro l k g g' hg; unfold nameAt
    cases l[k]? with
    | none => simp
    | some n => intro h; exact absurd h (hg n)
  split at h
  · rename_i h0; rw [if_pos h0]; exact hj _ h
  · rename_i h0
    rw [if_neg h0]
    cases ha : ci.arg with
    | none => rw [ha] at h; cases h
    | some a =>
      rw [ha] at h
      simp only at h ⊢
      split at h
      · rename_i h1
        rw [if_pos h1]
        cases hx : c.consts[a]? with
        | none => rfl
        | some v => rw [hx] at h; cases h
      · rename_i h1
        rw [if_neg h1]
        split at h
        · rename_i h2; rw [if_pos h2]; exact hs _ _ h
        · rename_i h2
          rw [if_neg h2]
          split at h
          · rename_i h3; rw [if_pos h3]; exact hs _ _ h
          · rename_i h3
            rw [if_neg h3]
            split at h
            · rename_i h4
              rw [if_pos h4]
              split at h
              · rename_i h5; rw [if_pos h5]; exact hn _ _ _ _ (by simp) h
              · rename_i h5
                rw [if_neg h5]
                split at h
                · rename_i h6; rw [if_pos h6]; exact hn _ _ _ _ (by simp) h
                · rename_i h6; rw [if_neg h6]; exact hn _ _ _ _ (by simp) h
            · rename_i h4
              rw [if_neg h4]
              split at h
              · cases h
              · split at h <;> cases h

theorem fetchedOf_units (is : List CInstr) (hr : ∀ i ∈ is, Readable P i) : ∀ u, ∀ f ∈ fetchedOf u is,
    ∃ i ∈ is, i.opcode = f.opcode ∧ i.opcode ≠ 0 ∧ f.arg = i.arg.getD 0 ∧ f.unit - f.first = nPrefix i := by
  induction is with
  | nil => intro u f hf; simp [fetchedOf] at hf
  | cons i is ih =>
    intro u f hf
    have ih' := ih (fun x hx => hr x (by simp [hx]))
    unfold fetchedOf at hf
    split at hf
    · obtain ⟨j, hj, h⟩ := ih' _ f hf
      exact ⟨j, by simp [hj], h⟩
    · rename_i h0
      rcases List.mem_cons.1 hf with rfl | hf
      · have := size_of_units (hr i (by simp))
        exact ⟨i, by simp, rfl, h0, rfl, by simp only; omega⟩
      · obtain ⟨j, hj, h⟩ := ih' _ f hf
        exact ⟨j, by simp [hj], h⟩

theorem extNeeded_small {a : Nat} (h : a < 256) : extNeeded a = 0 := by
  unfold extNeeded; rw [if_pos h]

theorem nPrefix_none {i : CInstr} (h : i.ext = none) : nPrefix i = extNeeded (i.arg.getD 0) := by
  unfold nPrefix
  cases i.arg with
  | none => simp [extNeeded_small]
  | some a => simp [h]

theorem nPrefix_le {i : CInstr} : extNeeded (i.arg.getD 0) ≤ nPrefix i := by
  unfold nPrefix
  cases i.arg with
  | none => simp [extNeeded_small]
  | some a => simp; omega

/-- The argument of a comparison. -/
theorem Final.compare_small {T : Tabs} {M : List Cell} (hF : Final P key b c T M) (hok : ∀ i, .instr i ∈ b.elems → OperandOK P c.varnames i)
    (hd : ∀ i, .instr i ∈ b.elems → P.dual i.opcode = false) {ci : CInstr}
    (hci : ci ∈ code P M) (hn : ci.name ≠ "CACHE") (hc : P.hascompare ci.opcode = true) : ci.arg.getD 0 < 256 := by
  unfold code at hci
  obtain ⟨d, hd', hci⟩ := List.mem_flatMap.1 hci
  have hin : d.e ∈ b.elems := by rw [← hF.lay.elems]; exact List.mem_map_of_mem hd'
  cases hi : d.e with
  | instr i =>
    rw [hi] at hin
    obtain ⟨hv, _, enc0, henc, _, hfin, _⟩ := hF.mem hd' hi
    rcases hF.shape hd' hi with ⟨a, ha, hcode⟩ | ⟨n1, i1, n2, i2, _, hs, hcode⟩
    · rw [hcode] at hci
      rcases List.mem_cons.1 hci with rfl | hci
      · rw [mkI_opcode hv.name_op] at hc
        have hk := (kinds_excl hF.wf i.opcode).compare hc
        obtain ⟨v, hx⟩ := hv.arg_ok.compare hc
        unfold encodeOperand at henc
        rw [hx] at henc
        simp only [hc, hk, if_true, Bool.false_eq_true, if_false] at henc
        obtain ⟨k, hk', henc⟩ := except_bind_ok henc
        simp only [pure, Except.pure, Except.ok.injEq, Prod.mk.injEq, true_and] at henc
        subst henc
        have hfin : d.enc = .plain (.int k) := hfin
        rw [ha] at hfin
        cases hfin
        have := encodeCompare_small ((hok i hin).compare hc v hx) hk'
        simpa [mkI, CArg.toOpt] using this
      · rw [(List.mem_replicate.1 hci).2] at hn
        exact absurd rfl hn
    · have := hd i hin
      unfold Platform.dual at this
      rw [hs] at this; cases this
  | _ => simp [Cell.code, hi] at hci

theorem fetched_named (hP : P.WF) (h11 : P.py311 = true) {is : List CInstr} (hr : ∀ i ∈ is, Readable P i) {u : Nat} {f : Fetched} (hf : f ∈ fetchedOf u is) :
    nameOf P f.opcode ≠ "CACHE" ∧ P.opmap (nameOf P f.opcode) = some f.opcode := by
  obtain ⟨i, hi, h1, h2, _⟩ := fetchedOf_units is hr u f hf
  have hv := (hr i hi).valid
  have hn : nameOf P f.opcode = i.name := by
    unfold nameOf
    rw [← h1, (hP.name_op _ _ hv.name_op hv.base).2]; rfl
  refine ⟨?_, ?_⟩
  · rw [hn]; exact fun hx => h2 ((cache_iff hP h11 hv).1 hx)
  · rw [hn, hv.name_op, h1]

/-- **C71 (small tables).** When the tables of the code object are small, no instruction that is not a jump takes more EXTENDED_ARG after the round
trip. -/
theorem C71_small (hP : P.WF) (h11 : P.py311 = true) (hok : CodeOK P co) (hd : ∀ f ∈ fetched P co, P.dual f.opcode = false) (hsm : SmallTables P co)
    {conserve : Bool} (hb : Bytecode.fromCode P co true conserve = .ok b) (h : b.toCode P key eff passes stacksize depths = .ok co') :
    ∀ (k : Nat) f f', (fetched P co)[k]? = some f → (fetched P co')[k]? = some f' → P.hasJump f.opcode = false → f'.unit - f'.first ≤ f.unit - f.first := by
  obtain ⟨hval, hlo, hwt⟩ := C51_usable hP h11 hok conserve hb
  have hnd := noDual_of hP h11 hok hd hb
  have hcache : ∀ e ∈ b.elems, e.isCache = false := by
    intro e he
    cases e with
    | instr i => simpa [BElem.isCache] using (hval i he).2.2
    | _ => rfl
  have hv : ∀ i, .instr i ∈ b.elems → ValidInstr P i := fun i hi => (hval i hi).1
  obtain ⟨b', c, n, hc, he, e1, e2, e2', e3, e4, e5⟩ := toCode_source hcache hv hlo hwt h
  obtain ⟨T, M, hF⟩ := toConcrete_Final hP e3 e4 hc
  obtain ⟨js, g1, g2, hR, _⟩ := readFrom_of (key := key) hP h11 hok
  have hloc : ∀ i ∈ code P M, i.loc = some (i.loc.getD (Loc.line none)) := by
    intro i hi
    obtain ⟨l, hl⟩ := (hF.plain i hi).2.1
    rw [hl]; rfl
  have hE := emitted P hP h11 c (code P M) (fun i => i.loc.getD (Loc.line none)) hF.elems (hF.layout h11) hF.readable hloc n co' he
  have hsame := C52_round_trip (key := key) hP h11 hok hb h (fun i hi hx => by rw [hnd i hi] at hx; cases hx)
  have hbare : (programCode P key co').map Op.bare = (programCode P key co).map Op.bare := by
    rw [← bare_noDepth (programCode P key co'), hsame, bare_mapLoc, bare_noDepth]
  have hnd' : ∀ i, .instr i ∈ b'.elems → P.dual i.opcode = false := by
    intro i hi
    obtain ⟨j, hj, hjo, _⟩ := e5 i hi
    rw [← hjo]; exact hnd j hj
  have hd' : ∀ f ∈ fetched P co', P.dual f.opcode = false := by
    intro f hf
    rw [hE.fetch_] at hf
    obtain ⟨ci, hci, ho⟩ := fetchedOf_opcode hf
    rcases hF.opcodes hnd' hci with hx | ⟨i, hi, hx⟩
    · rw [← ho, (cache_iff hP h11 (hF.readable ci hci).valid).1 hx]; exact dual_zero hP h11
    · rw [← ho, hx]; exact hnd' i hi
  have hop' : ∀ i, .instr i ∈ b'.elems → OperandOK P c.varnames i := by
    intro i hi
    obtain ⟨j, hj, hjo, hja⟩ := e5 i hi
    refine ⟨fun hcm v hx => ?_, fun hx => by rw [hnd' i hi] at hx; cases hx⟩
    rcases hja with hja | ⟨l, hl⟩
    · exact compare_back hP h11 hok conserve hb j hj (by rw [hjo]; exact hcm) v (by rw [hja]; exact hx)
    · rw [hl] at hx; cases hx
  obtain ⟨t1, t2, t3, t4, t5, t6⟩ := C71_tables hP h11 hok hd hb h
  obtain ⟨_, _, _, _, _, cv, fv⟩ := fromCode_uses hP h11 hok hd hb
  have hslots : (frameSlots co'.varnames co'.cellvars co'.freevars).length ≤ 256 := by
    rw [hE.slots_, hF.attrs, e2, cv, fv, ← hE.varnames_]
    have := frameSlots_length co'.varnames co.cellvars co.freevars
    have := t6 hsm.nodup
    have := hsm.slots
    omega
  have hvars : co'.varnames.length ≤ 256 := by
    have := t6 hsm.nodup
    have := hsm.slots
    omega
  intro k f f' hk hk' hj
  have hf := List.mem_of_getElem? hk
  have hf' := List.mem_of_getElem? hk'
  have nf : ∀ f ∈ fetched P co, nameOf P f.opcode ≠ "CACHE" ∧ P.opmap (nameOf P f.opcode) = some f.opcode := by
    intro f hf; rw [hR.fetch_] at hf; exact fetched_named hP h11 hR.readable hf
  have nf' : ∀ f ∈ fetched P co', nameOf P f.opcode ≠ "CACHE" ∧ P.opmap (nameOf P f.opcode) = some f.opcode := by
    intro f hf; rw [hE.fetch_] at hf; exact fetched_named hP h11 hF.readable hf
  obtain ⟨dest, p1⟩ := program_bare (key := key) (fun f hf => (nf f hf).1) hd
  obtain ⟨dest0, p0⟩ := program_bare (key := (id : Arg → Arg)) (fun f hf => (nf f hf).1) hd
  obtain ⟨dest', p2⟩ := program_bare (key := key) (fun f hf => (nf' f hf).1) hd'
  have hkk : ((fetched P co').map (fun f => (nameOf P f.opcode, operandC P key (tablesOf co') (dest' f) (asC P f))))[k]? =
      ((fetched P co).map (fun f => (nameOf P f.opcode, operandC P key (tablesOf co) (dest f) (asC P f))))[k]? := by
    rw [← p1, ← p2, hbare]
  simp only [List.getElem?_map, hk, hk', Option.map_some, Option.some.injEq, Prod.mk.injEq] at hkk
  obtain ⟨hname, hoper⟩ := hkk
  have hopc : f'.opcode = f.opcode := by
    have a1 := (nf f hf).2
    have a2 := (nf' f' hf').2
    rw [hname, a1] at a2
    exact (Option.some.inj a2).symm
  have hinv : operandC P key (tablesOf co) (dest f) (asC P f) ≠ .invalid := by
    intro hx
    have hx := operandC_invalid _ _ hx
    have hx0 : operandC P (id : Arg → Arg) (tablesOf co) (dest0 f) (asC P f) = .invalid := by
      have hj' : P.hasJump (asC P f).opcode = false := hj
      unfold operandC at hx ⊢
      simp only [hj', Bool.false_eq_true, if_false] at hx ⊢
      exact hx
    have : (nameOf P f.opcode, operandC P (id : Arg → Arg) (tablesOf co) (dest0 f) (asC P f)) ∈ (programCode P (id : Arg → Arg) co).map Op.bare := by
      rw [p0]; exact List.mem_map_of_mem hf
    obtain ⟨o, ho, hx1⟩ := List.mem_map.1 this
    refine hok.operands o ho ?_
    have hx2 : o.operand = operandC P (id : Arg → Arg) (tablesOf co) (dest0 f) (asC P f) := congrArg Prod.snd hx1
    rw [hx2, hx0]
  have hj' : P.hasJump f'.opcode = false := by rw [hopc]; exact hj
  -- the sizes
  obtain ⟨i, hi, i1, i2, i3, i4⟩ := fetchedOf_units js hR.readable 0 f (by rw [← hR.fetch_]; exact hf)
  obtain ⟨ci, hci, c1, c2, c3, c4⟩ := fetchedOf_units (code P M) hF.readable 0 f' (by rw [← hE.fetch_]; exact hf')
  rw [c4, i4, nPrefix_none (hF.plain ci hci).1]
  refine Nat.le_trans ?_ nPrefix_le
  rw [← c3, ← i3]
  suffices hsuff : f'.arg < 256 ∨ f'.arg = f.arg by
    rcases hsuff with hx | hx
    · rw [extNeeded_small hx]; omega
    · rw [hx]; exact Nat.le_refl _
  cases hA : P.hasArg f.opcode with
  | false =>
    left
    have := (hF.readable ci hci).valid.arg_forbidden (by rw [c1, hopc]; exact hA) c2
    rw [c3, this]; decide
  | true =>
    have ea : (asC P f).arg = some f.arg := by simp [asC, hA]
    have ea' : (asC P f').arg = some f'.arg := by simp [asC, hopc, hA]
    have eo : (asC P f).opcode = f.opcode := rfl
    have eo' : (asC P f').opcode = f.opcode := hopc
    rw [← hoper] at hinv
    by_cases k1 : P.hasconst f.opcode = true
    · left
      unfold operandC at hinv
      simp only [eo', hj, Bool.false_eq_true, if_false, ea', k1, if_true] at hinv
      cases hx : (tablesOf co').consts[f'.arg]? with
      | none => rw [hx] at hinv; exact absurd rfl hinv
      | some v =>
        have := (List.getElem?_eq_some_iff.1 hx).1
        have := hsm.consts
        have hcc : (tablesOf co').consts.length = co'.consts.length := rfl
        omega
    by_cases k2 : P.haslocal f.opcode = true
    · left
      unfold operandC at hinv
      simp only [eo', hj, Bool.false_eq_true, if_false, ea', k1, k2, if_true] at hinv
      have hl : (localSlots P (tablesOf co')).length ≤ 256 := by
        unfold localSlots
        split
        · exact hslots
        · rw [List.length_map]; exact hvars
      unfold slotAt at hinv
      cases hx : (localSlots P (tablesOf co'))[f'.arg]? with
      | none => rw [hx] at hinv; exact absurd rfl hinv
      | some v =>
        have := (List.getElem?_eq_some_iff.1 hx).1
        omega
    by_cases k3 : P.hasfree f.opcode = true
    · left
      unfold operandC at hinv
      simp only [eo', hj, Bool.false_eq_true, if_false, ea', k1, k2, k3, if_true] at hinv
      have hl : (derefSlots P (tablesOf co')).length ≤ 256 := by
        unfold derefSlots
        rw [if_pos h11]
        exact hslots
      unfold slotAt at hinv
      cases hx : (derefSlots P (tablesOf co'))[f'.arg]? with
      | none => rw [hx] at hinv; exact absurd rfl hinv
      | some v =>
        have := (List.getElem?_eq_some_iff.1 hx).1
        omega
    by_cases k4 : P.hasname f.opcode = true
    · left
      have hnm := hsm.names f hf k4
      have hnl : (tablesOf co').names.length = co'.names.length := rfl
      unfold operandC at hinv
      simp only [eo', hj, Bool.false_eq_true, if_false, ea', k1, k2, k3, k4, if_true] at hinv
      have hat : ∀ (k : Nat) (g : String → Operand κ), nameAt (tablesOf co').names k g ≠ .invalid → k < co'.names.length := by
        intro k g hx
        unfold nameAt at hx
        cases hy : (tablesOf co').names[k]? with
        | none => rw [hy] at hx; exact absurd rfl hx
        | some v => exact (List.getElem?_eq_some_iff.1 hy).1
      split at hinv
      · rename_i hbf
        rw [if_pos hbf] at hnm
        have := hat _ _ hinv
        omega
      · rename_i hbf
        rw [if_neg hbf] at hnm
        split at hinv
        · rename_i hbf2
          rw [if_pos hbf2] at hnm
          have := hat _ _ hinv
          omega
        · rename_i hbf2
          rw [if_neg hbf2] at hnm
          have := hat _ _ hinv
          omega
    by_cases k5 : P.hascompare f.opcode = true
    · left
      rw [c3]
      refine hF.compare_small hop' hnd' hci ?_ (by rw [c1, hopc]; exact k5)
      exact fun hx => c2 ((cache_iff hP h11 (hF.readable ci hci).valid).1 hx)
    · right
      unfold operandC at hoper
      simp only [eo, eo', hj, Bool.false_eq_true, if_false, ea, ea', k1, k2, k3, k4, k5] at hoper
      split at hoper
      · simp only [Operand.intrinsic.injEq] at hoper
        exact hoper
      · simp only [Operand.int.injEq] at hoper
        omega

/-- **C71 (passes).** When the tables of a code object are small, everything `to_code` does with it after `from_code` needs no more passes than
one more than the EXTENDED_ARG before jumps it has: if some number of passes is enough, this one is. -/
theorem C71_passes (hP : P.WF) (h11 : P.py311 = true) (hok : CodeOK P co) (hd : ∀ f ∈ fetched P co, P.dual f.opcode = false) (hsm : SmallTables P co)
    {conserve : Bool} (hb : Bytecode.fromCode P co true conserve = .ok b) (h : b.toCode P key eff passes stacksize depths = .ok co')
    (m : Nat) (hm : jumpExtArgs P co < m) : b.toCode P key eff m stacksize depths = .ok co' ∧ co'.code.length ≤ co.code.length := by
  obtain ⟨hval, hlo, hwt⟩ := C51_usable hP h11 hok conserve hb
  have hcache : ∀ e ∈ b.elems, e.isCache = false := by
    intro e he
    cases e with
    | instr i => simpa [BElem.isCache] using (hval i he).2.2
    | _ => rfl
  obtain ⟨_, hlen, hle⟩ := C71_not_longer hP h11 hok hd hb h (C71_small hP h11 hok hd hsm hb h)
  exact ⟨C70_passes hP hcache (fun i hi => (hval i hi).1) hlo hwt h m (by omega), hlen⟩

/-- **C62 (number of passes).** With small tables the identity of the round trip holds with the default number of passes as soon as the code
object has fewer than 10 EXTENDED_ARG before jumps; and the new code is not longer. -/
theorem C62_passes_identity (hP : P.WF) (h11 : P.py311 = true) (key : Arg → κ) (eff : Instr → Bool → Py (Int × Int)) (hok : CodeOK P co)
    (hre : Rewritable P co) (hd : ∀ f ∈ fetched P co, P.dual f.opcode = false) (hsm : SmallTables P co) {passes : Nat} (hp : jumpExtArgs P co < passes) :
    ∃ b co', Bytecode.fromCode P co true true = .ok b ∧ b.toCode P key eff passes (some co.stacksize) false = .ok co' ∧
      programCode P key co' = programCode P key co ∧ co'.stacksize = co.stacksize ∧ co'.code.length ≤ co.code.length := by
  obtain ⟨b, co', h1, h2, h3, h4⟩ := C62_round_trip_identity (passes := 3 * jumpsOfCode P co + 1) hP h11 key eff hok hre hd (by omega)
  obtain ⟨h5, h6⟩ := C71_passes hP h11 hok hd hsm h1 h2 passes hp
  exact ⟨b, co', h1, h5, h3, h4, h6⟩

/-- **C62 (number of passes, default options).** With the default options the round trip succeeds iff the stack analysis does, with any number of
passes larger than the number of EXTENDED_ARG before jumps. -/
theorem C62_passes_default (hP : P.WF) (h11 : P.py311 = true) (key : Arg → κ) (eff : Instr → Bool → Py (Int × Int)) (hok : CodeOK P co)
    (hre : Rewritable P co) (hd : ∀ f ∈ fetched P co, P.dual f.opcode = false) (hsm : SmallTables P co) {passes : Nat} (hp : jumpExtArgs P co < passes)
    (stacksize : Option Int) :
    ∃ b, Bytecode.fromCode P co = .ok b ∧
      ((∃ co', b.toCode P key eff passes stacksize true = .ok co') ↔ ∃ g r, fromBytecode P b = .ok g ∧ g.computeStacksize P eff true = .ok r) ∧
      ∀ co', b.toCode P key eff passes stacksize true = .ok co' →
        (programCode P key co').map Op.noDepth = (programCode P key co).map Op.noDepth ∧ co'.code.length ≤ co.code.length := by
  obtain ⟨b, h1, h2, h3⟩ := C62_default_iff_analysis (passes := 3 * jumpsOfCode P co + 1 + passes) hP h11 key eff hok hre (by omega) stacksize
  refine ⟨b, h1, ⟨?_, ?_⟩, ?_⟩
  · rintro ⟨co', hco⟩
    obtain ⟨h4, _⟩ := C71_passes hP h11 hok hd hsm h1 hco (3 * jumpsOfCode P co + 1 + passes) (by omega)
    exact h2.1 ⟨co', h4⟩
  · intro hx
    obtain ⟨co', hco⟩ := h2.2 hx
    exact ⟨co', (C71_passes hP h11 hok hd hsm h1 hco passes hp).1⟩
  · intro co' hco
    obtain ⟨h4, h5⟩ := C71_passes hP h11 hok hd hsm h1 hco (3 * jumpsOfCode P co + 1 + passes) (by omega)
    exact ⟨h3 co' h4 hd, h5⟩

/-- **C69 (number of passes).** The default round trip of code with a stack map, with any number of passes larger than the number of EXTENDED_ARG
before jumps: 10, the default, when there are at most 9. -/
theorem C69_passes (hP : P.WF) (h11 : P.py311 = true) (key : Arg → κ) (heff : ∀ i j, eff i j ≠ .error .outOfFuel) (hf : TargetFree eff)
    {co : Code} (hok : CodeOK P co) (hre : Rewritable P co) (hd : ∀ f ∈ fetched P co, P.dual f.opcode = false) (hsm : SmallTables P co)
    {b : Bytecode} (hb : Bytecode.fromCode P co = .ok b) (hdef : ∀ i, .instr i ∈ b.elems → ∀ j, ∃ e, eff i j = .ok e)
    {g : CFG} (hg : fromBytecode P b = .ok g) (M : StackMap) (hM : M.Valid P eff g (initialSize P b.attrs.flags)) (hS : M.Safe P eff g)
    (hE : M.Ends P eff g) (hlive : M.Live P eff g)
    (hbase : ∀ h, some h ∈ (programCode P key co).map (·.handler) → ∀ t, blockAt g.heap t g.blocks = some h.target → M.base t = h.depth)
    {passes : Nat} (hp : jumpExtArgs P co < passes) :
    ∃ co', b.toCode P key eff passes = .ok co' ∧ programCode P key co' = programCode P key co ∧ co'.code.length ≤ co.code.length ∧
      ∀ x, LTOnPath P eff b ((programCode P key co).map (·.handler)) (initialSize P b.attrs.flags) x → x.depth ≤ max co'.stacksize (initialSize P b.attrs.flags) := by
  obtain ⟨co', h1, h2, h3⟩ := C69_default_identity (passes := 3 * jumpsOfCode P co + 1) hP h11 key heff hf hok hre hd hb hdef hg M hM hS hE hlive hbase (by omega)
  obtain ⟨h4, h5⟩ := C71_passes hP h11 hok hd hsm hb h1 passes hp
  exact ⟨co', h4, h2, h5, h3⟩

end

/-! ### Examples -/

/-- A test of `SmallTables`. -/
def smallTablesB (P : Platform) (co : Code) : Bool :=
  decide (co.consts.length ≤ 256) &&
  (fetched P co).all (fun f => !P.hasname f.opcode || decide ((if P.bitflag f.opcode then 2 else if P.bitflag2 f.opcode then 4 else 1) * co.names.length ≤ 256)) &&
  decide (co.varnames.length + co.cellvars.length + co.freevars.length ≤ 256) && decide co.varnames.Nodup

theorem smallTables_of {P : Platform} {co : Code} (h : smallTablesB P co = true) : SmallTables P co := by
  simp only [smallTablesB, Bool.and_eq_true, List.all_eq_true, decide_eq_true_iff, Bool.or_eq_true, Bool.not_eq_true'] at h
  obtain ⟨⟨⟨h1, h2⟩, h3⟩, h4⟩ := h
  refine ⟨h1, fun f hf hx => ?_, h3, h4⟩
  rcases h2 f hf with h | h
  · rw [hx] at h; cases h
  · exact h

/-- A code object with an EXTENDED_ARG before a jump and small tables. -/
def longJump : Code where
  argcount := 1
  posonlyargcount := 0
  kwonlyargcount := 0
  nlocals := 1
  stacksize := 5
  flags := 0
  code := [151, 0, 124, 0, 144, 1, 114, 0] ++ (List.replicate 256 [9, 0]).flatten ++ [100, 0, 83, 0]
  consts := [.other 0, .int 3]
  names := []
  varnames := ["a"]
  filename := "f.py"
  name := "f"
  qualname := "f"
  firstlineno := 1
  linetable := [128, 0]
  exctable := []
  freevars := []
  cellvars := []

theorem longJump_ok : CodeOK Py311.platform longJump := codeOK_of (by decide +kernel)

/-- Two passes are enough for it: one EXTENDED_ARG is before a jump. -/
example : jumpExtArgs Py311.platform longJump = 1 ∧
    ∃ b co', Bytecode.fromCode Py311.platform longJump true true = .ok b ∧
    b.toCode Py311.platform (id : Arg → Arg) eff311 2 (some longJump.stacksize) false = .ok co' ∧
    programCode Py311.platform (id : Arg → Arg) co' = programCode Py311.platform (id : Arg → Arg) longJump ∧ co'.stacksize = longJump.stacksize ∧
    co'.code.length ≤ longJump.code.length :=
  ⟨by decide +kernel, C62_passes_identity Py311.wf (by decide) _ _ longJump_ok (rewritable_of (by decide +kernel)) (by decide +kernel) (smallTables_of (by decide +kernel)) (by decide +kernel)⟩

end Verif
