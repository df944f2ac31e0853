import Verif.Props.OldFromCode
import Verif.Props.RoundTripTotal
/-
C65: the round trip of code objects of 3.8 to 3.10 always succeeds.
-/
namespace Verif
open Spec

section
variable {κ : Type} [DecidableEq κ] {P : Platform} {key : Arg → κ} {co : Code} {b : Bytecode} {js : List CInstr} {prune conserve : Bool}

theorem ReadFromOld.instr (hP : P.WF) (h11 : P.py311 = false) (hR : ReadFromOld P co js) (h : toBytecode P prune conserve (readOld co js) = .ok b)
    {i : Instr} (hi : .instr i ∈ b.elems) :
    ∃ f ∈ fetched P co, f.opcode = i.opcode ∧ ∃ j ∈ js, j.opcode = i.opcode ∧ f.arg = j.arg.getD 0 ∧ ∃ off arg, decodeOperand P (readOld co js) j = .ok arg ∧
      i.arg = match j.getJumpTarget P off with | some t => .label t.toNat | none => arg := by
  obtain ⟨es', d, h1, h2, h3, h4, h5⟩ := toBytecode_ok h
  rw [hR.remove] at h1; cases h1
  rw [h5] at hi
  have hmem : ∀ p ∈ normalizeLineno (readOld co js).attrs.firstLineno (readOld co js).elems, p.2 ∈ js := by
    intro p hp
    have := normalize_mem _ _ p hp
    obtain ⟨j, hj, e⟩ := List.mem_map.1 this
    cases e; exact hj
  obtain ⟨p, hp, off, main, hm, hin⟩ := loop_decoded _ (fun p hp => valid_size (hR.readable _ (hmem p hp)).valid) _ _ d h2 i hi
  have hv := (hR.readable _ (hmem p hp)).valid
  rcases decodeInstr_ok hP hv hm with ⟨_, _, rfl⟩ | ⟨i', rfl, hvi, hn, ho, hl, arg, ha, hia⟩
  · simp at hin
  · simp only [List.mem_singleton, BElem.instr.injEq] at hin
    subst hin
    obtain ⟨f, hf, e1, e2⟩ := fetched_of js 0 p.2 (hmem p hp) (old_opcode hP h11 hv)
    rw [← hR.fetch_] at hf
    exact ⟨f, hf, e1.trans ho.symm, p.2, hmem p hp, ho.symm, e2, off, arg, ha, hia⟩

theorem ReadFromOld.labels (hP : P.WF) (hR : ReadFromOld P co js) (h : toBytecode P prune conserve (readOld co js) = .ok b) :
    ∀ i, .instr i ∈ b.elems → P.hasJump i.opcode = true → ∃ l, i.arg = .label l ∧ .label l ∈ b.elems := by
  obtain ⟨es', d, h1, h2, h3, h4, h5⟩ := toBytecode_ok h
  rw [hR.remove] at h1; cases h1
  have hv : ∀ p ∈ normalizeLineno (readOld co js).attrs.firstLineno (readOld co js).elems, ValidCInstr P p.2 :=
    fun p hp => hR.valid _ (normalize_mem _ _ p hp)
  rw [h5]
  intro i hi hj
  obtain ⟨t, ht, hx⟩ := loop_jump hP i _ hv _ _ d h2 hi hj
  obtain ⟨n, hn, hx'⟩ := h3 t ht
  refine ⟨_, hx, (loop_label_mem hP _ _ hv _ _ d h2).1.2 ?_⟩
  rw [hx']; exact hn

theorem ReadFromOld.directions (hP : P.WF) (h11 : P.py311 = false) (hR : ReadFromOld P co js) (h : toBytecode P prune conserve (readOld co js) = .ok b)
    {pre : List BElem} {i : Instr} {post : List BElem} {l : Nat} (he : b.elems = pre ++ .instr i :: post) (hi : i.arg = .label l) :
    (isForwardRelJump P i.name i.opcode = true → .label l ∈ post) ∧
    (isBackwardRelJump P i.name i.opcode = true → ∀ mid post', post = mid ++ .label l :: post' → ∀ j, .instr j ∉ mid) := by
  have hlab := hR.labels hP h
  obtain ⟨es', d, h1, h2, h3, h4, h5⟩ := toBytecode_ok h
  rw [hR.remove] at h1; cases h1
  have hv : ∀ p ∈ normalizeLineno (readOld co js).attrs.firstLineno (readOld co js).elems, ValidCInstr P p.2 :=
    fun p hp => hR.valid _ (normalize_mem _ _ p hp)
  have hed : d.elems = pre ++ .instr i :: post := by rw [← he, h5]
  obtain ⟨l1, p, l2, tbs', d', ms, g1, g2, g3, g4, g5, g6⟩ := loop_split hP _ hv _ _ d h2 hed
  rw [Nat.zero_add] at g2 g3 g6
  have hvp := hv p (by rw [g1]; simp)
  rcases decodeInstr_ok hP hvp g2 with ⟨_, _, e⟩ | ⟨i', e, hvi, hn, ho, _, arg, ha, hia⟩
  · cases e
  cases e
  have hjmp : P.hasJump i.opcode = true := label_hasJump hvi hi
  have hlm : .label l ∈ b.elems := by
    obtain ⟨l', e1, e2⟩ := hlab i (by rw [he]; simp) hjmp
    rw [hi] at e1; cases e1; exact e2
  have hA := hasJump_hasArg hP hvp (by rw [← ho]; exact hjmp)
  obtain ⟨a, harg⟩ := Option.isSome_iff_exists.1 (hvp.arg_required hA)
  have hup := units_pos P p.2 (valid_size hvp)
  have hunit := unit_pos P
  have hvl2 : ∀ q ∈ l2, ValidCInstr P q.2 := fun q hq => hv q (by rw [g1]; simp [hq])
  refine ⟨fun hf => ?_, fun hb mid post' hp j hj => ?_⟩
  · have ht : p.2.getJumpTarget P (unitsL P l1 : Nat) = some (((unitsL P l1 + p.2.units P + a : Nat)) : Int) := by
      unfold CInstr.getJumpTarget CInstr.useCacheOpcodes CInstr.units
      simp only [harg, ← hn, ← ho, hf, if_true, h11, Bool.false_eq_true, if_false, Nat.add_zero]
      congr 1
    rw [ht, hi] at hia
    simp only [Int.toNat_natCast, Arg.label.injEq] at hia
    rw [he] at hlm
    rcases List.mem_append.1 hlm with hm | hm
    · have := g6 _ hm; omega
    · rcases List.mem_cons.1 hm with hm | hm
      · cases hm
      · exact hm
  · have hnf : isForwardRelJump P i.name i.opcode = false := by
      unfold isBackwardRelJump at hb; unfold isForwardRelJump
      simp only [Bool.and_eq_true] at hb
      simp [hb.2]
    have ht : p.2.getJumpTarget P (unitsL P l1 : Nat) = some ((unitsL P l1 : Int) + (p.2.units P : Int) - a) := by
      unfold CInstr.getJumpTarget CInstr.useCacheOpcodes CInstr.units
      simp only [harg, ← hn, ← ho, hb, hnf, if_true, h11, Bool.false_eq_true, if_false, Nat.add_zero]
    rw [ht, hi] at hia
    simp only [Arg.label.injEq] at hia
    obtain ⟨m1, m2, rfl⟩ := List.append_of_mem hj
    rw [g4] at hp
    have hcut : ∀ (X Y A : List BElem) (B : List BElem), (∀ e ∈ X, isMarker e = true) → X ++ Y = A ++ .instr j :: B → ∃ A', Y = A' ++ .instr j :: B := by
      intro X
      induction X with
      | nil => intro Y A B _ e; exact ⟨A, e⟩
      | cons x X ihX =>
        intro Y A B hx e
        cases A with
        | nil =>
          simp only [List.nil_append, List.cons_append, List.cons.injEq] at e
          have := hx x (by simp)
          rw [e.1] at this
          simp [isMarker] at this
        | cons y A =>
          simp only [List.cons_append, List.cons.injEq] at e
          exact ihX Y A B (fun e he => hx e (by simp [he])) e.2
    obtain ⟨A', hA'⟩ := hcut ms d'.elems m1 (m2 ++ .label l :: post') g5 (by rw [hp]; simp)
    obtain ⟨k1, q, k2, tbs'', d'', ms', q1, q2, q3, q4, q5, q6⟩ := loop_split hP _ hvl2 _ _ d' g3 hA'
    have hvq := hvl2 q (by rw [q1]; simp)
    have hge : unitsL P l1 + p.2.units P + unitsL P k1 + q.2.units P ≤ l := by
      have hm : BElem.label l ∈ ms' ++ d''.elems := by rw [← q4]; simp
      rcases List.mem_append.1 hm with hm | hm
      · have := q5 _ hm; simp [isMarker] at this
      · exact loop_label_ge hP (fun r hr => hvl2 r (by rw [q1]; simp [hr])) q3 hm
    have hqu := units_pos P q.2 (valid_size hvq)
    omega

/-! ### Room and number of jumps -/

theorem loop_counts_old {c : Concrete} {targets : List Int} (hP : P.WF) (h11 : P.py311 = false) (js : List CInstr)
    (hv : ∀ j ∈ js, ValidCInstr P j) (line off u : Nat) (tbs : List Nat)
    (d : Dec) (h : decodeLoop P c prune conserve targets off tbs (normalizeLineno line (js.map .instr)) = .ok d) :
    jumpCount d.elems ≤ (fetchedOf u js).countP (fun f => P.hasJump f.opcode) ∧ (d.elems.map (room P)).sum ≤ 2 * unitsOf js := by
  have hmk : ∀ ms : List BElem, (∀ e ∈ ms, isMarker e = true) → ms.countP BElem.jumps = 0 ∧ (ms.map (room P)).sum = 0 := by
    intro ms hm
    induction ms with
    | nil => exact ⟨rfl, rfl⟩
    | cons x ms ih =>
      obtain ⟨i1, i2⟩ := ih (fun e he => hm e (by simp [he]))
      have := hm x (by simp)
      cases x <;> first | (simp [isMarker] at this; done) | simp [i1, i2, room, BElem.jumps]
  induction js generalizing line off u tbs d with
  | nil =>
    simp only [List.map_nil, normalizeLineno, decodeLoop, Except.ok.injEq] at h
    subst h; simp [jumpCount]
  | cons j js ih =>
    rw [List.map_cons, normalizeLineno] at h
    have hj := hv j (by simp)
    obtain ⟨main, d', h1, h2, h3, _⟩ := loop_cons h (valid_size hj)
    obtain ⟨i1, i2⟩ := ih (fun q hq => hv q (by simp [hq])) _ _ (u + j.size / 2) _ d' h2
    rw [h3]
    unfold jumpCount at i1 ⊢
    have hlab : (((if (off : Int) ∈ targets then [BElem.label off] else []) : List BElem)).countP BElem.jumps = 0 ∧
        (((if (off : Int) ∈ targets then [BElem.label off] else []) : List BElem).map (room P)).sum = 0 := by
      split <;> exact ⟨rfl, rfl⟩
    simp only [List.countP_append, List.map_append, List.sum_append, (hmk _ (open_marker _ _)).1, (hmk _ (close_marker _ _)).1, hlab.1,
      (hmk _ (open_marker _ _)).2, (hmk _ (close_marker _ _)).2, hlab.2]
    unfold fetchedOf
    have h0 := old_opcode hP h11 hj
    have hs := valid_size hj
    have hu : unitsOf (j :: js) = j.size / 2 + unitsOf js := by simp [unitsOf]
    rcases decodeInstr_ok hP hj h1 with ⟨hn, _, rfl⟩ | ⟨i, rfl, hvi, hn, ho, _⟩
    · exact absurd hn (old_name hP h11 hj)
    · rw [if_neg h0]
      simp only [List.countP_cons, List.countP_nil, ← ho, List.map_cons, List.map_nil, List.sum_cons, List.sum_nil, room, hP.old_cache h11]
      refine ⟨?_, by omega⟩
      have : BElem.jumps (.instr i) = true → P.hasJump i.opcode = true := by
        intro hx
        simp only [BElem.jumps] at hx
        split at hx
        · rename_i l hl; exact label_hasJump hvi hl
        · cases hx
      cases hb : BElem.jumps (.instr i) with
      | false => simp only [Bool.false_eq_true, if_false]; omega
      | true => rw [this hb]; omega

/-! ### The rules -/

theorem noTry_begin {es : List BElem} (h : ∀ e ∈ es, e.isTry = false) {t : TryB} : .tryBegin t ∉ es := fun ht => by
  have := h _ ht; simp [BElem.isTry] at this

theorem noTry_end {es : List BElem} (h : ∀ e ∈ es, e.isTry = false) {k : Nat} : .tryEnd k ∉ es := fun ht => by
  have := h _ ht; simp [BElem.isTry] at this

theorem noTry_noEmpty {es : List BElem} (h : ∀ e ∈ es, e.isTry = false) : ∀ o, NoEmptyTry o es := by
  induction es with
  | nil => intro o; trivial
  | cons e es ih =>
    intro o
    have h0 := h e (by simp)
    have ih' := ih (fun x hx => h x (by simp [hx]))
    cases e <;> first | (simp [BElem.isTry] at h0; done) | exact ih' _

theorem noTry_zero {b : Bytecode} (h : ∀ e ∈ b.elems, e.isTry = false) : zeroDepths b = b := by
  have : b.elems.map zeroDepth = b.elems := by
    conv => rhs; rw [← List.map_id b.elems]
    apply List.map_congr_left
    intro e he
    have h0 := h e he
    cases e <;> first | (simp [BElem.isTry] at h0; done) | rfl
  unfold zeroDepths
  rw [this]

/-- **C65 (rules).** What `from_code` reads on 3.8 to 3.10 follows the rules of `to_code` (C58, C59); it has no more jumps than the code. -/
theorem C65_rules (hP : P.WF) (h11 : P.py311 = false) (hok : OldCodeOK P co) (hre : OldRewritable co)
    (h : Bytecode.fromCodeOld P co prune conserve = .ok b) : WellMade P b ∧ Assemblable P b ∧ jumpCount b.elems ≤ jumpsOfCode P co := by
  have h12 : P.py312 = false := by simp [Platform.py312, Platform.py311] at *; omega
  have h13 : P.py313 = false := by simp [Platform.py313, Platform.py311] at *; omega
  obtain ⟨js, g1, _, hR⟩ := readFromOld_of hP h11 (id : Arg → Arg) hok
  have ht : toBytecode P prune conserve (readOld co js) = .ok b := by
    unfold Bytecode.fromCodeOld at h; rw [g1] at h; exact h
  obtain ⟨hval, hlo, hwt, hno⟩ := C64_usable hP h11 hok h
  have hnoarg : ∀ {j : CInstr} {x : Arg}, decodeOperand P (readOld co js) j = .ok x → x ≠ .unset → ∃ a, j.arg = some a ∧ decodeArg P (readOld co js) j.opcode a = .ok x := by
    intro j x hx hu
    unfold decodeOperand at hx
    split at hx
    · rename_i a ha; exact ⟨a, ha, hx⟩
    · split at hx
      · cases hx
      · exact absurd (Except.ok.inj hx).symm hu
  have hnl : ∀ {j : CInstr} {off : Int} {arg x : Arg}, x = (match j.getJumpTarget P off with | some t => Arg.label t.toNat | none => arg) →
      (∀ l, x ≠ .label l) → arg = x := by
    intro j off arg x hx hl
    split at hx
    · exact absurd hx (hl _)
    · exact hx.symm
  have hcounts : jumpCount b.elems ≤ jumpsOfCode P co ∧ (b.elems.map (room P)).sum ≤ co.code.length := by
    obtain ⟨es', d, h1, h2, h3, h4, h5⟩ := toBytecode_ok ht
    rw [hR.remove] at h1; cases h1
    obtain ⟨c1, c2⟩ := loop_counts_old hP h11 js (fun j hj => (hR.readable j hj).valid) _ 0 0 [] d h2
    rw [h5]
    refine ⟨?_, ?_⟩
    · unfold jumpsOfCode; rw [hR.fetch_]; exact c1
    · rw [hR.units_]; exact c2
  obtain ⟨q1, q2, _, _⟩ := C22_attributes ht
  have q3 : b.attrs.cellvars = co.cellvars := congrArg Attrs.cellvars q1
  have q4 : b.attrs.freevars = co.freevars := congrArg Attrs.freevars q1
  have q6 : b.attrs.firstLineno = co.firstlineno := congrArg Attrs.firstLineno q1
  refine ⟨⟨fun i hi => ⟨(hval i hi).1, (hval i hi).2.2⟩, fun i v hi hc ha => compare_back_old hP h11 hok h i hi hc v ha, ?_, ?_, ?_⟩, ?_, hcounts.1⟩
  · intro i v hi hop
    simp [Platform.intrinsic1, Platform.intrinsic2, h12] at hop
  · intro t t' hm; exact absurd hm (noTry_begin hno)
  · have q5 : b.argnames.length ≤ co.varnames.length := by
      rw [q2, List.length_take]; exact Nat.min_le_right _ _
    have := hre.size
    rw [q3, q4]
    omega
  · refine ⟨.inr (by rw [q6]; exact hre.line), ?_, ?_, ?_, hR.labels hP ht, ?_, ?_, ?_, ?_, ?_⟩
    · intro pre t mid t' post e
      exact absurd (show BElem.tryBegin t ∈ b.elems by rw [e]; simp) (noTry_begin hno)
    · intro pre t post e
      exact absurd (show BElem.tryBegin t ∈ b.elems by rw [e]; simp) (noTry_begin hno)
    · intro pre id post e
      exact absurd (show BElem.tryEnd id ∈ b.elems by rw [e]; simp) (noTry_end hno)
    · intro pre i post l e ha hf
      exact (hR.directions hP h11 ht e ha).1 hf
    · intro pre i mid l post e ha hf
      exact (hR.directions hP h11 ht (pre := pre) (i := i) (post := mid ++ .label l :: post) (by rw [e]; simp) ha).2 hf mid post rfl
    · intro i n hi hc ha
      obtain ⟨f, hf, e1, j, hj, e2, e3, off, arg, hd, hia⟩ := hR.instr hP h11 ht hi
      rw [ha] at hia
      have := hnl hia (by simp)
      subst this
      obtain ⟨a, hja, hd⟩ := hnoarg hd (by simp)
      rw [e2] at hd
      rw [q3]
      refine decodeArg_cell (c := readOld co js) hc hd ?_
      intro hfr m hm
      unfold derefSlots at hm
      rw [h11] at hm
      have := List.mem_of_getElem? hm
      simp only [Bool.false_eq_true, if_false, List.mem_append, List.mem_map] at this
      rcases this with ⟨x, hx, e⟩ | ⟨x, _, e⟩
      · cases e; exact hx
      · cases e
    · intro i n hi hc ha
      obtain ⟨f, hf, e1, j, hj, e2, e3, off, arg, hd, hia⟩ := hR.instr hP h11 ht hi
      rw [ha] at hia
      have := hnl hia (by simp)
      subst this
      obtain ⟨a, hja, hd⟩ := hnoarg hd (by simp)
      rw [e2] at hd
      rw [q4]
      exact decodeArg_free (c := readOld co js) hc hd
    · intro i hi hdu
      simp [Platform.dual, Platform.dualSingles, h13] at hdu

/-- **C65 (identity).** On 3.8 to 3.10, with the stack size given, a code object as the compiler writes them is read and written again
without failing, and the code object written denotes exactly the program of the one read. -/
theorem C65_round_trip_identity (hP : P.WF) (h11 : P.py311 = false) (key : Arg → κ) (eff : Instr → Bool → Py (Int × Int)) (hok : OldCodeOK P co)
    (hre : OldRewritable co) (hl : LinesWritable P co.firstlineno ((programOld P key co).map (·.loc.lineno))) {passes : Nat} (hp : 3 * jumpsOfCode P co < passes) (depths : Bool) :
    ∃ b co', Bytecode.fromCodeOld P co = .ok b ∧ b.toCode P key eff passes (some co.stacksize) depths = .ok co' ∧
      programOld P key co' = programOld P key co ∧ co'.stacksize = co.stacksize := by
  obtain ⟨b, hb, _⟩ := C64_from_code hP h11 key hok true false
  obtain ⟨h1, h2, h3⟩ := C65_rules hP h11 hok hre hb
  obtain ⟨co', hco⟩ := (C59_written_iff_rules (key := key) hP eff h1 (fun h => by rw [h11] at h; cases h) (passes := passes) (by omega)
    (depths := depths) (.inl h11) co.stacksize).2 ⟨h2, fun h => by rw [h11] at h; cases h⟩
  obtain ⟨u1, u2, u3, _⟩ := C64_usable hP h11 hok hb
  refine ⟨b, co', hb, hco, C65_round_trip hP h11 hok hl hb hco, ?_⟩
  refine (C63_stacksize hP h11 ?_ (fun i hi => (u1 i hi).1) u2 u3 hco (operands_old hP h11 hok hb _)).1 _ rfl
  intro e he
  cases e with
  | instr i => simpa [BElem.isCache] using (u1 i he).2.2
  | _ => rfl

/-- **C65 (default options).** Where `to_code` computes the stack size, the round trip succeeds iff the stack analysis of the graph of
the code does, and then keeps the program. -/
theorem C65_default_iff_analysis (hP : P.WF) (h11 : P.py311 = false) (key : Arg → κ) (eff : Instr → Bool → Py (Int × Int)) (hok : OldCodeOK P co)
    (hre : OldRewritable co) (hl : LinesWritable P co.firstlineno ((programOld P key co).map (·.loc.lineno))) {passes : Nat} (hp : 3 * jumpsOfCode P co < passes) :
    ∃ b, Bytecode.fromCodeOld P co = .ok b ∧
      ((∃ co', b.toCode P key eff passes = .ok co') ↔ ∃ g r, fromBytecode P b = .ok g ∧ g.computeStacksize P eff true = .ok r) ∧
      ∀ co', b.toCode P key eff passes = .ok co' → programOld P key co' = programOld P key co := by
  obtain ⟨b, hb, _⟩ := C64_from_code hP h11 key hok true false
  obtain ⟨h1, h2, h3⟩ := C65_rules hP h11 hok hre hb
  obtain ⟨u1, u2, u3, u4⟩ := C64_usable hP h11 hok hb
  refine ⟨b, hb, ?_, fun co' hco => C65_round_trip hP h11 hok hl hb hco⟩
  rw [C60_default_before_311 hP h11 eff h1 u2 u3 (noTry_noEmpty u4 _) (by omega), noTry_zero u4]
  exact ⟨fun h => h.1, fun h => ⟨h, h2⟩⟩

end
end Verif
