import Verif.Props.Convert
import Verif.Props.Code
import Verif.Props.ControlFlow
import Verif.Props.Location
import Verif.Props.Disassemble
/-
Where the defects of the findings begin and end: exact versions of claims that are false in general.
-/
namespace Verif
open Spec

/-! ### C49 -/

/-- **C49 (exact).** `argnames` are the parameters and, positional-only ones being counted twice, as many of the next local variables: they are
the parameters exactly when there is no positional-only parameter or no local variable but the parameters. -/
theorem C49_argnames_exact (P : Platform) (prune conserve : Bool) (c : Concrete) (b : Bytecode) (h : toBytecode P prune conserve c = .ok b) :
    b.argnames = c.varnames.take (paramCount c.attrs + c.attrs.posonlyargcount) ∧
    (b.argnames = c.varnames.take (paramCount c.attrs) ↔ c.attrs.posonlyargcount = 0 ∨ c.varnames.length ≤ paramCount c.attrs) := by
  have h0 : b.argnames = c.varnames.take (paramCount c.attrs + c.attrs.posonlyargcount) := by
    unfold toBytecode at h
    obtain ⟨es, _, h⟩ := except_bind_ok h
    obtain ⟨_, _, h⟩ := except_bind_ok h
    obtain ⟨d, _, h⟩ := except_bind_ok h
    have hn : nargs c.attrs = paramCount c.attrs + c.attrs.posonlyargcount := by unfold nargs paramCount; omega
    rw [← hn]
    simp only at h
    split at h
    · simp [throw, throwThe, MonadExceptOf.throw, bind, Except.bind] at h
    · split at h
      · simp [throw, throwThe, MonadExceptOf.throw, bind, Except.bind, pure, Except.pure] at h
      · simp only [bind, Except.bind, pure, Except.pure, Except.ok.injEq] at h
        rw [← h]
  refine ⟨h0, ?_⟩
  rw [h0]
  constructor
  · intro e
    have := congrArg List.length e
    simp only [List.length_take] at this
    omega
  · rintro (e | e)
    · rw [e]; rfl
    · rw [List.take_of_length_le (by omega), List.take_of_length_le e]

/-! ### C67 -/

/-- **C67 (exact).** `is_cond_jump()` is true exactly of the instructions that either jump or go on, FOR_ITER and SEND excepted. -/
theorem C67_cond_exact {P : Platform} (hP : P ∈ platforms) {n : String} {op : Nat} (h : P.opmap n = some op) (hb : op < P.minInstrumented) :
    isCondJump n = true ↔ flow n = .branch ∧ n ≠ "FOR_ITER" ∧ n ≠ "SEND" := by
  obtain ⟨h1, h2⟩ := C67_cond_partial hP h hb
  refine ⟨fun hc => ⟨h1 hc, ?_, ?_⟩, fun ⟨h3, h4, h5⟩ => h2 h3 h4 h5⟩
  · rintro rfl; revert hc; decide +kernel
  · rintro rfl; revert hc; decide +kernel

/-! ### C04 -/

/-- The location is on the first or second line after the reference, within it, with columns up to 255. -/
def OneLineForm (ref : Int) (loc : Loc) : Prop :=
  ∃ l c ec, loc = ⟨some l, some l, some c, some ec⟩ ∧ ((l : Int) = ref + 1 ∨ (l : Int) = ref + 2) ∧ c < 256 ∧ ec < 256

/-- **C04 (exact).** A byte other than the first has bit 0x80 set exactly for the locations on one of the next two lines with columns up to 255,
one of which is at least 128. -/
theorem C04_exact (size ref : Int) (hs : 1 ≤ size) {loc : Loc} (hc : Coherent loc) {h : Nat} {t : Bytes} (hp : packLocation size ref (some loc) = .ok (h :: t)) :
    (∃ x ∈ t, 128 ≤ x) ↔ OneLineForm ref loc ∧ ∃ c, (loc.col = some c ∨ loc.endCol = some c) ∧ 128 ≤ c := by
  obtain ⟨ln, eln, col, ecol⟩ := loc
  obtain ⟨h1, h2, h3, h4⟩ := hc
  simp only at h1 h2 h3 h4
  cases ln with
  | none =>
    simp only [packLocation, Option.map_none] at hp
    rw [show toBytes [packLocationHeader 15 size] = .ok [hdr 15 size] from toBytes_hdr 15 (by decide) size hs] at hp
    simp only [Except.ok.injEq, List.cons.injEq] at hp
    obtain ⟨_, rfl⟩ := hp
    simp [OneLineForm]
  | some l =>
    cases col with
    | none =>
      have hx : ∀ x ∈ t, x < 128 := by
        simp only [packLocation, Option.map_some] at hp
        rw [encodeLocSvarint_ok] at hp
        rw [show toBytes [packLocationHeader 13 size] = .ok [hdr 13 size] from toBytes_hdr 13 (by decide) size hs] at hp
        have : t = svarBytes (Int.ofNat l - ref) := by
          cases eln with
          | none =>
            simp only [pure, Except.pure, bind, Except.bind, Except.ok.injEq, List.cons_append, List.nil_append, List.cons.injEq] at hp
            exact hp.2.symm
          | some e =>
            simp only at hp
            split at hp
            · simp [throw, throwThe, MonadExceptOf.throw, bind, Except.bind] at hp
            · simp only [pure, Except.pure, bind, Except.bind, Except.ok.injEq, List.cons_append, List.nil_append, List.cons.injEq] at hp
              exact hp.2.symm
        rw [this]
        exact svarBytes_lt _
      constructor
      · rintro ⟨x, hx1, hx2⟩; have := hx x hx1; omega
      · rintro ⟨⟨_, _, _, e, _⟩, _⟩; simp at e
    | some c =>
      obtain ⟨ec, rfl⟩ : ∃ ec, ecol = some ec := by cases ecol <;> simp_all
      obtain ⟨el, rfl⟩ : ∃ el, eln = some el := by cases eln <;> simp_all
      obtain ⟨hel1, b, hb, hle⟩ := h1 el rfl
      simp only [Option.some.injEq] at hb; subst hb
      simp only [packLocation, Option.map_some, show Int.ofNat l = (l : Int) from rfl] at hp
      by_cases hshort : (el : Int) = l ∧ (l : Int) - ref = 0 ∧ c < 72 ∧ (ec : Int) - c ≤ 15
      · rw [if_pos hshort] at hp
        obtain ⟨e1, e2, e3, e4⟩ := hshort
        have hce : c ≤ ec := h4 (by simp; omega) c ec rfl rfl
        rw [packLocationHeader_eq _ _ hs, toBytes_ok _ (by
          have := hdr_facts (c/8) (by omega) size hs
          simp; omega)] at hp
        simp only [List.map_cons, List.map_nil, Except.ok.injEq, List.cons.injEq] at hp
        obtain ⟨_, rfl⟩ := hp
        constructor
        · rintro ⟨x, hx, hx2⟩
          simp only [List.mem_singleton] at hx
          omega
        · rintro ⟨⟨l', c', ec', e, h5, _⟩, _⟩
          simp only [Loc.mk.injEq, Option.some.injEq] at e
          omega
      · rw [if_neg hshort] at hp
        by_cases hone : (el : Int) = l ∧ ((l : Int) - ref = 1 ∨ (l : Int) - ref = 2) ∧ c < 256 ∧ ec < 256
        · rw [if_pos hone] at hp
          obtain ⟨e1, e2, e3, e4⟩ := hone
          obtain ⟨k, hk, hk2⟩ : ∃ k : Nat, 10 + (l : Int) - ref = k ∧ (k = 11 ∨ k = 12) :=
            ⟨(10 + (l : Int) - ref).toNat, by omega, by omega⟩
          rw [hk, packLocationHeader_eq _ _ hs, toBytes_ok _ (by
            have := hdr_facts k (by omega) size hs
            simp; omega)] at hp
          simp only [List.map_cons, List.map_nil, Except.ok.injEq, List.cons.injEq] at hp
          obtain ⟨_, rfl⟩ := hp
          have : el = l := by omega
          subst this
          constructor
          · rintro ⟨x, hx, hx2⟩
            refine ⟨⟨el, c, ec, rfl, by omega, e3, e4⟩, x, ?_, hx2⟩
            simp only [List.mem_cons, List.not_mem_nil, or_false] at hx
            rcases hx with rfl | rfl
            · left; simp
            · right; simp
          · rintro ⟨_, x, hx, hx2⟩
            refine ⟨x, ?_, hx2⟩
            simp only [Option.some.injEq] at hx
            rcases hx with rfl | rfl <;> simp
        · rw [if_neg hone] at hp
          rw [show toBytes [packLocationHeader 14 size] = .ok [hdr 14 size] from toBytes_hdr 14 (by decide) size hs, encodeLocSvarint_ok] at hp
          unfold encodeLocVarint at hp
          rw [if_neg (by omega), if_neg (by omega), if_neg (by omega)] at hp
          simp only [pure, Except.pure, bind, Except.bind, Except.ok.injEq, List.cons_append, List.nil_append, List.append_assoc, List.cons.injEq] at hp
          obtain ⟨_, rfl⟩ := hp
          constructor
          · rintro ⟨x, hx, hx2⟩
            simp only [List.mem_append] at hx
            rcases hx with h | h | h | h
            · have := svarBytes_lt _ x h; omega
            all_goals have := encodeLocVarintNat_lt _ x h; omega
          · rintro ⟨⟨l', c', ec', e, h5, h6, h7⟩, _⟩
            simp only [Loc.mk.injEq, Option.some.injEq] at e
            obtain ⟨rfl, rfl, rfl, rfl⟩ := e
            exact absurd ⟨rfl, by omega, h6, h7⟩ hone

/-- One line below, column 200. -/
example : OneLineForm 1 ⟨some 2, some 2, some 200, some 210⟩ ∧ packLocation 1 1 (some ⟨some 2, some 2, some 200, some 210⟩) = .ok [216, 200, 210] :=
  ⟨⟨2, 200, 210, rfl, by decide, by decide, by decide⟩, by decide +kernel⟩

/-! ### C44 -/

/-- The number of EXTENDED_ARG that NOPs have lost. -/
def lostPrefixes (es : List CElem) : Nat :=
  (es.map (fun | .instr i => if i.name = "NOP" then i.ext.getD 0 else 0 | .setLineno _ => 0)).sum

theorem mem_le_sum' {l : List Nat} {x : Nat} (h : x ∈ l) : x ≤ l.sum := by
  induction l with
  | nil => cases h
  | cons y l ih =>
    simp only [List.mem_cons, List.sum_cons] at h ⊢
    rcases h with rfl | h
    · omega
    · have := ih h; omega

theorem folded_length (P : Platform) (hP : P.WF) (us : List CInstr) (hus : ∀ u ∈ us, RawInstr P u) :
    ∀ (bs : List Nat), (∀ b ∈ bs, b < 256) → ∀ es, removeExtendedArgs P bs.length (extState bs) (us.map .instr) = .ok es →
    (es.flatMap (elemBytes P)).length + 2 * lostPrefixes es = 2 * bs.length + (us.flatMap (CInstr.assemble P)).length := by
  induction us with
  | nil =>
    intro bs _ es h
    simp only [List.map_nil, removeExtendedArgs] at h
    unfold extState at h
    by_cases hb : bs = []
    · subst hb; simp at h; subst h; rfl
    · simp [hb] at h
  | cons u us ih =>
    intro bs hbs es h
    have hu := hus u (by simp)
    have hrest : ∀ v ∈ us, RawInstr P v := fun v hv => hus v (by simp [hv])
    rw [List.map_cons] at h
    by_cases hn : u.name = "EXTENDED_ARG"
    · have hop : u.opcode = P.extendedArg := by
        have := hu.valid.name_op; rw [hn, hP.ext] at this; exact (Option.some.inj this).symm
      obtain ⟨a, ha⟩ : ∃ a, u.arg = some a := Option.isSome_iff_exists.1 (hu.valid.arg_required (by rw [hop]; exact hP.ext_arg))
      rw [removeExtendedArgs_ext P bs u hn a ha] at h
      rw [ih hrest (bs ++ [a]) (by
        intro b hb; simp only [List.mem_append, List.mem_singleton] at hb
        rcases hb with hb | rfl
        · exact hbs b hb
        · exact hu.byte _ ha) es h]
      rw [List.flatMap_cons, raw_assemble P u hu]
      simp only [List.length_append, List.length_cons, List.length_nil]
      omega
    · -- one instruction, then the rest
      have hsplit : ∃ i' r, es = .instr i' :: r ∧ removeExtendedArgs P bs.length (extState bs) [.instr u] = .ok [.instr i'] ∧
          removeExtendedArgs P 0 none (us.map .instr) = .ok r := by
        have h1 := h
        rw [removeExtendedArgs.eq_def] at h1
        rw [removeExtendedArgs.eq_def]
        simp only [hn, if_false] at h1 ⊢
        unfold extState at h1 ⊢
        by_cases hb : bs = []
        · subst hb
          simp only [if_true, List.length_nil] at h1 ⊢
          obtain ⟨r, hr, h1⟩ := except_bind_ok h1
          simp only [pure, Except.pure, Except.ok.injEq] at h1
          exact ⟨u, r, h1.symm, by rw [removeExtendedArgs]; rfl, hr⟩
        · simp only [hb, if_false] at h1 ⊢
          obtain ⟨a, ha, h1⟩ := except_bind_ok h1
          obtain ⟨i', hi, h1⟩ := except_bind_ok h1
          obtain ⟨r, hr, h1⟩ := except_bind_ok h1
          simp only [pure, Except.pure, Except.ok.injEq] at h1
          refine ⟨i', r, h1.symm, ?_, hr⟩
          simp only [pure, Except.pure] at ha ⊢
          rw [ha]
          simp only [bind, Except.bind, hi, removeExtendedArgs]
      obtain ⟨i', r, rfl, h1, h2⟩ := hsplit
      have ihr := ih hrest [] (by simp) r (by simpa [extState] using h2)
      have hcur : (i'.assemble P).length + 2 * (if i'.name = "NOP" then i'.ext.getD 0 else 0) = 2 * bs.length + (u.assemble P).length := by
        by_cases hx : i'.name = "NOP" ∧ i'.ext ≠ none
        · obtain ⟨hx1, hx2⟩ := hx
          rw [if_pos hx1, raw_assemble P u hu]
          rw [removeExtendedArgs.eq_def] at h1
          simp only [hn, if_false] at h1
          unfold extState at h1
          by_cases hb : bs = []
          · subst hb
            simp only [if_true, List.length_nil, removeExtendedArgs, bind, Except.bind, pure, Except.pure, Except.ok.injEq, List.cons.injEq, CElem.instr.injEq, and_true] at h1
            exact absurd (by rw [← h1]; exact hu.ext) hx2
          · simp only [hb, if_false] at h1
            obtain ⟨a, ha, h1⟩ := except_bind_ok h1
            obtain ⟨i'', hi, h1⟩ := except_bind_ok h1
            simp only [removeExtendedArgs, bind, Except.bind, pure, Except.pure, Except.ok.injEq, List.cons.injEq, CElem.instr.injEq, and_true] at h1
            subst h1
            have hc := set_spec P ⟨"", 0, none, none, some bs.length, 0⟩ (some u.name) a
            unfold CInstr.make at hi
            rcases hc with ⟨g1, _, hext, hnm, hav, _⟩ | ⟨e, he⟩
            · simp only [g1, bind, Except.bind] at hi
              cases hl : initLocation P.py311 .unset u.loc with
              | error e => rw [hl] at hi; simp at hi
              | ok l =>
                rw [hl] at hi
                simp only [pure, Except.pure, Except.ok.injEq] at hi
                have hname : u.name = "NOP" := by
                  have := Option.some.inj hnm
                  rw [← this, ← hx1, ← hi]
                rw [if_pos hname] at ha
                simp only [pure, Except.pure, Except.ok.injEq] at ha
                subst ha
                have hext' : i''.ext = some bs.length := by rw [← hi]; exact hext
                have harg : i''.arg = none := by
                  have : i''.argVal = .unset := by rw [← hi]; exact hav
                  unfold CInstr.argVal at this
                  cases hq : i''.arg with
                  | none => rfl
                  | some q => rw [hq] at this; cases this
                rw [hext', CInstr.assemble, harg]
                simp; omega
            · simp [he, bind, Except.bind] at hi
        · have := removeExtendedArgs_bytes P hP [u] (by simpa using hu) bs hbs [.instr i'] (by simpa using h1) (by
            intro i hi hnm
            simp only [List.mem_singleton, CElem.instr.injEq] at hi
            subst hi
            by_contra hne
            exact hx ⟨hnm, hne⟩)
          have hz : (if i'.name = "NOP" then i'.ext.getD 0 else 0) = 0 := by
            split
            · rename_i hq
              by_cases he : i'.ext = none
              · rw [he]; rfl
              · exact absurd ⟨hq, he⟩ hx
            · rfl
          rw [hz]
          have := congrArg List.length this
          simp only [List.flatMap_cons, List.flatMap_nil, List.append_nil, elemBytes, List.length_append, unitsFlat, List.length_flatMap, List.length_cons, List.length_nil] at this
          simp at this
          omega
      simp only [List.flatMap_cons, List.length_append, elemBytes, lostPrefixes, List.map_cons, List.sum_cons, List.length_nil, Nat.mul_zero, Nat.zero_add] at ihr ⊢
      omega

theorem ext_pos (P : Platform) (us : List CElem) (hus : ∀ u, .instr u ∈ us → u.ext = none) : ∀ (nb : Nat) (ext : Option Nat) es,
    (ext ≠ none → 0 < nb) → removeExtendedArgs P nb ext us = .ok es → ∀ i, CElem.instr i ∈ es → i.ext ≠ some 0 := by
  induction us with
  | nil =>
    intro nb ext es _ h i hi
    cases ext with
    | none => simp [removeExtendedArgs] at h; subst h; cases hi
    | some e => simp [removeExtendedArgs] at h
  | cons u us ih =>
    have hrest : ∀ v, CElem.instr v ∈ us → v.ext = none := fun v hv => hus v (by simp [hv])
    intro nb ext es hnb h i hi
    cases u with
    | setLineno n =>
      rw [removeExtendedArgs] at h
      obtain ⟨r, hr, h⟩ := except_bind_ok h
      simp only [pure, Except.pure, Except.ok.injEq] at h
      subst h
      simp only [List.mem_cons, reduceCtorEq, false_or] at hi
      exact ih hrest nb ext r hnb hr i hi
    | instr u =>
      rw [removeExtendedArgs.eq_def] at h
      simp only at h
      split at h
      · split at h
        · cases h
        · split at h
          · exact ih hrest _ _ es (fun _ => by omega) h i hi
          · exact ih hrest _ _ es (fun _ => by omega) h i hi
      · split at h
        · obtain ⟨a, ha, h⟩ := except_bind_ok h
          obtain ⟨i', hi', h⟩ := except_bind_ok h
          obtain ⟨r, hr, h⟩ := except_bind_ok h
          simp only [pure, Except.pure, Except.ok.injEq] at h
          subst h
          simp only [List.mem_cons, CElem.instr.injEq] at hi
          rcases hi with rfl | hi
          · have hc := set_spec P ⟨"", 0, none, none, some nb, 0⟩ (some u.name) a
            unfold CInstr.make at hi'
            rcases hc with ⟨g1, _, hext, _⟩ | ⟨e, he⟩
            · simp only [g1, bind, Except.bind] at hi'
              cases hl : initLocation P.py311 .unset u.loc with
              | error e => rw [hl] at hi'; simp at hi'
              | ok l =>
                rw [hl] at hi'
                simp only [pure, Except.pure, Except.ok.injEq] at hi'
                have hext' : i.ext = some nb := by rw [← hi']; exact hext
                rw [hext']
                have := hnb (by simp)
                simp; omega
            · simp [he, bind, Except.bind] at hi'
          · exact ih hrest 0 none r (by simp) hr i hi
        · obtain ⟨r, hr, h⟩ := except_bind_ok h
          simp only [pure, Except.pure, Except.ok.injEq] at h
          subst h
          simp only [List.mem_cons, CElem.instr.injEq] at hi
          rcases hi with rfl | hi
          · rw [hus i (by simp)]; simp
          · exact ih hrest nb none r (by simp) hr i hi

/-- **C44 (exact).** The code assembles to the units that were read exactly when no NOP carries an EXTENDED_ARG, and is otherwise shorter by one unit for each
EXTENDED_ARG before a NOP. -/
theorem C44_exact (P : Platform) (hP : P.WF) (us : List CInstr) (hus : ∀ u ∈ us, RawInstr P u)
    (es : List CElem) (h : removeExtendedArgs P 0 none (us.map .instr) = .ok es) :
    (es.flatMap (elemBytes P)).length + 2 * lostPrefixes es = (us.flatMap (CInstr.assemble P)).length ∧
    (es.flatMap (elemBytes P) = us.flatMap (CInstr.assemble P) ↔ lostPrefixes es = 0) := by
  have hlen := folded_length P hP us hus [] (by simp) es (by simpa [extState] using h)
  simp only [List.length_nil, Nat.mul_zero, Nat.zero_add] at hlen
  refine ⟨hlen, fun e => ?_, fun e => ?_⟩
  · rw [e] at hlen; omega
  · have h0 : ∀ i, CElem.instr i ∈ es → i.name = "NOP" → i.ext = none ∨ i.ext = some 0 := by
      intro i hi hn
      unfold lostPrefixes at e
      have := mem_le_sum' (List.mem_map.2 ⟨_, hi, rfl⟩ : _ ∈ es.map (fun | .instr i => if i.name = "NOP" then i.ext.getD 0 else 0 | .setLineno _ => 0))
      simp only at this
      rw [e, if_pos hn] at this
      cases hx : i.ext with
      | none => exact .inl rfl
      | some k => rw [hx] at this; simp at this; exact .inr (by rw [this])
    refine C44_reassemble_partial P hP us hus es h (fun i hi hn => ?_)
    rcases h0 i hi hn with h1 | h1
    · exact h1
    · exact absurd h1 (ext_pos P _ (by intro u hu; obtain ⟨v, hv, e⟩ := List.mem_map.1 hu; cases e; exact (hus _ hv).ext) 0 none es (by simp) h i hi)

/-! ### C21 -/
section
variable {κ : Type} [DecidableEq κ]
variable {P : Platform} {key : Arg → κ} {b : Bytecode} {c : Concrete} {passes : Nat}

variable {T : Tabs} {M : List Cell}

/-- The code of a two-variable instruction on a variable of index 16. -/
theorem Final.dual16 (h : Final P key b c T M) {M1 M2 : List Cell} {d : Cell} {i : Instr} (hM : M = M1 ++ d :: M2)
    (hi : d.e = .instr i) {n1 n2 x y : String} (hdd : P.dualSingles i.opcode = some (n1, n2)) (hxy : i.arg = .tuple [.str x, .str y])
    (h16 : c.varnames.idxOf y = 16 ∧ c.varnames.idxOf x ≤ 16) :
    c.varnames[16]? = some y ∧ ((opsI P key c (pos P (code P M) (code P M1).length) (d.code P)).map (fun o => (o.name, o.operand)) =
      [(n1, slotAt (localSlots P c) (c.varnames.idxOf x + 1)), (n2, slotAt (localSlots P c) 0)]) := by
  have hd : d ∈ M := by rw [hM]; simp
  obtain ⟨hv, hn, enc0, henc, hplain, hfin, hb⟩ := h.mem hd hi
  have hdual : P.dual i.opcode = true := by simp [Platform.dual, hdd]
  have hl := h.wf.dual_local _ hdual
  have hK := kinds_excl h.wf i.opcode
  obtain ⟨k1, k2, k3, k4, k5⟩ := hK.local_ hl
  simp only [encodeOperand, hxy, k4, hl, hdd, Bool.false_eq_true, if_false, if_true] at henc
  have hTle : addTo T.varnames x = (T.varnames, T.varnames.idxOf x) ∧ addTo T.varnames y = (T.varnames, T.varnames.idxOf y) := by
    have hT : (addTo (addTo T.varnames x).1 y).1 = T.varnames := by
      split at henc <;> (simp only [Except.ok.injEq, Prod.mk.injEq] at henc; exact tabs_ext_v henc.1)
    have hp1 := addTo_prefix T.varnames x
    have hp2 := addTo_prefix (addTo T.varnames x).1 y
    have hlen := hp1.length_le
    have hlen2 := hp2.length_le
    rw [hT] at hlen2
    have e1 : (addTo T.varnames x).1 = T.varnames := (hp1.eq_of_length (by omega)).symm
    rw [e1] at hT
    have i1 := addTo_idx T.varnames x
    have i2 := addTo_idx T.varnames y
    rw [e1] at i1
    rw [hT] at i2
    exact ⟨Prod.ext e1 i1, Prod.ext hT i2⟩
  obtain ⟨t1, t2⟩ := hTle
  rw [t1] at henc
  simp only [t2] at henc
  have g2 := addTo_same t2 rfl
  rw [h.varnames] at h16 ⊢
  rw [h16.1] at g2
  refine ⟨g2, ?_⟩
  generalize T.varnames.idxOf x = i1 at *
  rw [h16.1] at henc
  rw [if_neg (by simp; omega)] at henc
  simp only [Except.ok.injEq, Prod.mk.injEq] at henc
  obtain ⟨_, rfl⟩ := henc
  have hfin : d.enc = _ := hfin
  have hcode : d.code P = mkI P i.name (some ((i1 <<< 4) + 16)) d.loc :: List.replicate (nCaches P i.name) (mkI P "CACHE" (some 0) d.loc) := by
    rw [Cell.code, hi]
    simp only [block, hfin, mains, lastName, toOpt_nat, List.singleton_append]
  rw [hcode, opsI_single, List.map_map]
  unfold expandC
  rw [if_neg (by simpa [mkI] using hn), mkI_opcode hv.name_op, hdd]
  simp only [mkI_arg, List.map_cons, List.map_nil, Function.comp, List.cons.injEq, and_true, Prod.mk.injEq, true_and]
  rw [Nat.shiftLeft_eq]
  have e1 : (i1 * 2 ^ 4 + 16) / 16 = i1 + 1 := by omega
  have e2 : (i1 * 2 ^ 4 + 16) % 16 = 0 := by omega
  rw [e1, e2]
  exact ⟨rfl, rfl⟩

/-- **C21 (exact).** The instruction addresses its second variable exactly when it has not index 16 while the first has index at most 16; and then
addresses the first too. In the case excluded it addresses instead the variable after the first one, and the variable number 0. -/
theorem C21_exact (hP : P.WF) (hcache : ∀ e ∈ b.elems, e.isCache = false) (hv : ∀ i, .instr i ∈ b.elems → ValidInstr P i)
    (h : toConcrete P key passes b = .ok c) (es1 es2 : List BElem) (i : Instr) (he : b.elems = es1 ++ .instr i :: es2)
    (n1 n2 x y : String) (hd : P.dualSingles i.opcode = some (n1, n2)) (ha : i.arg = .tuple [.str x, .str y]) :
    ∃ o1 o2, (programC P key c)[opNumber P es1]? = some o1 ∧ (programC P key c)[opNumber P es1 + 1]? = some o2 ∧
      o1.name = n1 ∧ o2.name = n2 ∧
      ((o1.operand = .slot (.named x) ∧ o2.operand = .slot (.named y)) ↔ ¬ (c.varnames.idxOf y = 16 ∧ c.varnames.idxOf x ≤ 16)) ∧
      (c.varnames.idxOf y = 16 ∧ c.varnames.idxOf x ≤ 16 → ∃ z, c.varnames[0]? = some z ∧ z ≠ y ∧ o2.operand = .slot (.named z) ∧
        ∀ w, c.varnames[c.varnames.idxOf x + 1]? = some w → o1.operand = .slot (.named w)) := by
  by_cases h16 : c.varnames.idxOf y = 16 ∧ c.varnames.idxOf x ≤ 16
  · obtain ⟨T, M, hF⟩ := toConcrete_Final hP hcache hv h
    have hdual : P.dual i.opcode = true := by simp [Platform.dual, hd]
    have hn : i.name ≠ "CACHE" := by
      have := hcache (.instr i) (by rw [he]; simp)
      simpa [BElem.isCache] using this
    have hel := hF.lay.elems
    rw [he] at hel
    obtain ⟨M1, M2', e1, e2, e3⟩ := List.map_eq_append_iff.1 hel
    obtain ⟨d, M2, e4, e5, e6⟩ := List.map_eq_cons_iff.1 e3
    subst e4
    obtain ⟨hy, hops⟩ := hF.dual16 e1 e5 hd ha h16
    have hdM : d ∈ M := by rw [e1]; simp
    have hlen1 : (opsI P key c 0 (code P M1)).length = opNumber P es1 := by
      rw [length_opsI, hF.opsIn_code (fun x hx => by rw [e1]; simp [hx]), opsE, ← e2]
      simp only [opNumber, List.map_map]; rfl
    have hprog : programC P key c = opsI P key c 0 (code P M1) ++ (opsI P key c (pos P (code P M) (code P M1).length) (d.code P) ++
        opsI P key c (pos P (code P M) (code P M1).length + pos P (d.code P) (d.code P).length) (code P M2)) := by
      unfold programC
      rw [hF.elems, opsC_opsI _ (code_loc M)]
      conv_lhs => rw [show code P M = code P M1 ++ (d.code P ++ code P M2) by rw [e1, code_append, code_cons]]
      have hpos : pos P (code P M1) (code P M1).length = pos P (code P M) (code P M1).length := by
        rw [e1, code_append, pos_append_left P _ _ (Nat.le_refl _)]
      rw [opsI_append, opsI_append, Nat.zero_add, hpos]
    obtain ⟨o1, r1, q1, q2, q3⟩ := List.map_eq_cons_iff.1 hops
    obtain ⟨o2, q4, q5⟩ := List.map_eq_singleton_iff.1 q3
    subst q4
    simp only [Prod.mk.injEq] at q2 q5
    rw [q1] at hprog
    have h0 : c.varnames.length > 16 := (List.getElem?_eq_some_iff.1 hy).1
    have hz : c.varnames[0]? = some (c.varnames[0]) := List.getElem?_eq_getElem (by omega)
    have hzy : c.varnames[0] ≠ y := by
      intro e
      have h1 := h16.1
      cases hcv : c.varnames with
      | nil => rw [hcv] at h0; simp at h0
      | cons a l =>
        have : a = y := by simpa [hcv] using e
        rw [hcv, this] at h1
        simp at h1
    have hs0 : o2.operand = .slot (.named c.varnames[0]) := by
      rw [q5.2]; exact hF.localSlot (by rw [← hF.varnames]; exact hz)
    refine ⟨o1, o2, ?_, ?_, q2.1, q5.1, ?_, ?_⟩
    · rw [hprog, ← hlen1, List.getElem?_append_right (by omega)]; simp
    · rw [hprog, ← hlen1, List.getElem?_append_right (by omega)]; simp
    · refine iff_of_false ?_ (fun e => e h16)
      rintro ⟨_, e⟩
      rw [hs0] at e
      exact hzy (by injection e with e; injection e with e)
    · intro _
      refine ⟨_, hz, hzy, hs0, fun w hw => ?_⟩
      rw [q2.2]; exact hF.localSlot (by rw [← hF.varnames]; exact hw)
  · obtain ⟨o1, o2, g1, g2, g3, g4, g5, g6⟩ := C21_two_variables_partial hP hcache hv h es1 es2 i he n1 n2 x y hd ha h16
    exact ⟨o1, o2, g1, g2, g3, g5, by simp [g4, g6, h16], fun h => absurd h h16⟩
end
end Verif
