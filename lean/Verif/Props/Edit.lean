import Verif.Proofs.Edit
import Verif.Props.RoundTripTotal
import Verif.Props.FromCodeEx
/-
C68: editing a run of instructions of a Bytecode changes that run of the program only; everything else is kept, its targets
following the instructions they point to. Also through code objects: read, edit, write.
-/
namespace Verif
open Spec
section
variable {κ : Type} [DecidableEq κ] {P : Platform} {key : Arg → κ} {pre mid mid' post : List BElem} {keep : Bool}

omit [DecidableEq κ] in
/-- **C68 (program).** Replacing the instructions `mid` between `pre` and `post` by the instructions `mid'`: the operations of
`pre` and `post` stay, with the same names, operands, locations and handlers, their targets moved with the operations they point
to; in between are the operations of `mid'`, under the handler in force there. -/
theorem C68_edit_program {b b' : Bytecode} (hb : b.elems = pre ++ mid ++ post) (hb' : b'.elems = pre ++ mid' ++ post)
    (hf : b'.attrs.firstLineno = b.attrs.firstLineno) (hm : Instrs mid) (hm' : Instrs mid') (hc : Clear P pre mid post keep)
    (hl : LocationsKept mid mid' post) :
    ∃ A B C X : List (Op κ), programB P key b = A ++ B ++ C ∧ A.length = opNumber P pre ∧ B.length = opNumber P mid ∧
      programB P key b' = A.map (Op.retarget (moved (opNumber P pre) (opNumber P mid) (opNumber P mid') keep)) ++ X ++
        C.map (Op.retarget (moved (opNumber P pre) (opNumber P mid) (opNumber P mid') keep)) ∧
      X.length = opNumber P mid' ∧
      X = opsB P key (fun l => labelPos P l 0 b'.elems) (locAfter (Loc.line (some b.attrs.firstLineno)) pre) (tryAfter none pre) mid' := by
  have e : (fun l => labelPos P l 0 b'.elems) =
      fun l => (labelPos P l 0 b.elems).map (moved (opNumber P pre) (opNumber P mid) (opNumber P mid') keep) := by
    funext l; rw [hb, hb']; exact labelPos_edit hm hm' hc l
  refine ⟨opsB P key (fun l => labelPos P l 0 b.elems) (Loc.line (some b.attrs.firstLineno)) none pre,
    opsB P key (fun l => labelPos P l 0 b.elems) (locAfter (Loc.line (some b.attrs.firstLineno)) pre) (tryAfter none pre) mid,
    opsB P key (fun l => labelPos P l 0 b.elems) (locAfter (locAfter (Loc.line (some b.attrs.firstLineno)) pre) mid) (tryAfter none pre) post,
    _, ?_, opsB_length _ pre _ _, opsB_length _ mid _ _, ?_, opsB_length _ mid' _ _, rfl⟩
  · unfold programB
    conv => lhs; arg 6; rw [hb]
    rw [opsB_append, opsB_append, tryAfter_append, tryAfter_instrs hm, locAfter_append]
  · unfold programB
    conv => lhs; arg 6; rw [hb']
    rw [opsB_append, opsB_append, tryAfter_append, tryAfter_instrs hm', locAfter_append, hf]
    simp only [e, opsB_retarget]
    congr 2
    rcases hl with hl | hl
    · rw [locAfter_none hm (fun i hi => hl i (by simp [hi])), locAfter_none hm' (fun i hi => hl i (by simp [hi]))]
    · exact opsB_any_loc _ _ hl _ _ _

theorem instrs_zero {es : List BElem} (h : Instrs es) : es.map zeroDepth = es := by
  conv => rhs; rw [← List.map_id es]
  apply List.map_congr_left
  intro e he
  obtain ⟨i, rfl⟩ := h e he
  rfl

theorem opNumber_zero (es : List BElem) : opNumber P (es.map zeroDepth) = opNumber P es := by
  induction es with
  | nil => rfl
  | cons e es ih => rw [List.map_cons, opNumber_cons, opNumber_cons, ih]; cases e <;> rfl

theorem labelPos_zeroed (l : Nat) (es : List BElem) : ∀ n, labelPos P l n (es.map zeroDepth) = labelPos P l n es := by
  induction es with
  | nil => intro n; rfl
  | cons e es ih => intro n; cases e <;> simp only [List.map_cons, zeroDepth, labelPos, ih]

theorem zero_split {es p q : List BElem} {e : BElem} (he : ∀ t, e ≠ .tryBegin t) (h : es.map zeroDepth = p ++ e :: q) :
    ∃ p' q', es = p' ++ e :: q' ∧ p = p'.map zeroDepth ∧ q = q'.map zeroDepth := by
  obtain ⟨p', r, h1, h2, h3⟩ := List.map_eq_append_iff.1 h
  obtain ⟨x, q', h4, h5, h6⟩ := List.map_eq_cons_iff.1 h3
  refine ⟨p', q', ?_, h2.symm, h6.symm⟩
  have : x = e := by
    cases x <;> simp only [zeroDepth] at h5 <;> first | exact h5 | exact absurd h5.symm (he _)
  rw [h1, h4, this]

theorem clear_zero (hc : Clear P pre mid post keep) : Clear P (pre.map zeroDepth) mid (post.map zeroDepth) keep := by
  unfold Clear at hc ⊢
  split
  · rename_i hk
    rw [if_pos hk] at hc
    refine hc.imp_right (fun h l p q hq => ?_)
    obtain ⟨p', q', h1, h2, _⟩ := zero_split (by simp) hq
    rw [h2, opNumber_zero]
    exact h l p' q' h1
  · rename_i hk
    rw [if_neg hk] at hc
    intro l p q hq
    obtain ⟨p', q', h1, _, h3⟩ := zero_split (by simp) hq
    rw [h3, opNumber_zero]
    exact hc l p' q' h1

theorem locations_zero (hl : LocationsKept mid mid' post) : LocationsKept mid mid' (post.map zeroDepth) := by
  refine hl.imp_right (fun h p i q hq hi => ?_)
  obtain ⟨p', q', h1, h2, _⟩ := zero_split (by simp) hq
  obtain ⟨e, he, hh⟩ := h p' i q' h1 hi
  refine ⟨e, ?_, hh⟩
  rw [h2, List.mem_map]
  refine ⟨e, he, ?_⟩
  rcases hh with ⟨n, rfl⟩ | ⟨j, rfl, _⟩ <;> rfl

/-- Try regions stay well delimited. -/
theorem wellTried_edit (hm : Instrs mid) (hm' : Instrs mid') (hne : mid' ≠ [] ∨ mid = [] ∨ ∃ i, .instr i ∈ pre) :
    ∀ o s a, WellTried o s a (pre ++ mid ++ post) → WellTried o s a (pre ++ mid' ++ post) := by
  have any : ∀ (es : List BElem) o s a, WellTried o s a es → WellTried o s true es := by
    intro es
    induction es with
    | nil => intro o s a h; exact h
    | cons e es ih =>
      intro o s a h
      cases e with
      | tryBegin t => exact ⟨h.1, h.2.1, ih _ _ _ h.2.2⟩
      | tryEnd t => exact ⟨h.1, rfl, ih _ _ _ h.2.2⟩
      | instr i => exact h
      | label l => exact ih _ _ _ h
      | setLineno l => exact ih _ _ _ h
  have skip : ∀ (m : List BElem), Instrs m → ∀ (es : List BElem) o s a, WellTried o s a (m ++ es) ↔ WellTried o s (a || !m.isEmpty) es := by
    intro m
    induction m with
    | nil => intro _ es o s a; simp
    | cons e m ih =>
      intro hm es o s a
      obtain ⟨i, rfl⟩ := hm e (by simp)
      show WellTried o s true (m ++ es) ↔ _
      rw [ih (fun e he => hm e (by simp [he])) es o s true]
      simp
  have main : ∀ (pr : List BElem) o s a, (mid' ≠ [] ∨ mid = [] ∨ (∃ i, .instr i ∈ pr) ∨ a = true) →
      WellTried o s a (pr ++ (mid ++ post)) → WellTried o s a (pr ++ (mid' ++ post)) := by
    intro pr
    induction pr with
    | nil =>
      intro o s a hh h
      rw [List.nil_append, skip mid hm] at h
      rw [List.nil_append, skip mid' hm']
      cases mid' with
      | cons e m => simpa using any _ _ _ _ h
      | nil =>
        rcases hh with hh | hh | hh | hh
        · exact absurd rfl hh
        · subst hh; exact h
        · obtain ⟨i, hi⟩ := hh; cases hi
        · subst hh; simpa using h
    | cons e pr ih =>
      intro o s a hh h
      cases e with
      | instr i => exact ih _ _ _ (by simp) h
      | tryBegin t => exact ⟨h.1, h.2.1, ih _ _ _ (by simpa using hh) h.2.2⟩
      | tryEnd t => exact ⟨h.1, h.2.1, ih _ _ _ (by simpa using hh) h.2.2⟩
      | label l => exact ih _ _ _ (by simpa using hh) h
      | setLineno l => exact ih _ _ _ (by simpa using hh) h
  intro o s a h
  rw [List.append_assoc] at h ⊢
  refine main pre o s a ?_ h
  rcases hne with h | h | h
  · exact .inl h
  · exact .inr (.inl h)
  · exact .inr (.inr (.inl h))

/-- **C68 (code objects).** On 3.11+: a code object as the compiler writes them is read, the instructions `mid` of the Bytecode are
replaced by the instructions `mid'`, and the result written. The code object written has the operations of the one read, with
the same names, operands, locations and handlers (depths apart), except for those of `mid`, which are replaced by those of
`mid'`; every target moved with the operation it points to. -/
theorem C68_patch (hP : P.WF) (h11 : P.py311 = true) {eff : Instr → Bool → Py (Int × Int)} {passes : Nat} {stacksize : Option Int}
    {conserve depths : Bool} {b b' : Bytecode} {co co' : Code} (hok : CodeOK P co)
    (hcol : ∀ p ∈ (readLocs co.firstlineno co.linetable).getD [], p.col = none → p.endLine = p.line)
    (h : Bytecode.fromCode P co true conserve = .ok b) (hb : b.elems = pre ++ mid ++ post) (hb' : b' = { b with elems := pre ++ mid' ++ post })
    (hm : Instrs mid) (hm' : Instrs mid') (hc : Clear P pre mid post keep) (hl : LocationsKept mid mid' post)
    (hne : mid' ≠ [] ∨ mid = [] ∨ ∃ i, .instr i ∈ pre)
    (hv : ∀ i, .instr i ∈ mid' → ValidInstr P i ∧ i.name ≠ "CACHE" ∧ (∀ x, i.arg ≠ .block x) ∧ ∀ v, i.arg = .compare v → CompareMember P v)
    (h' : b'.toCode P key eff passes stacksize depths = .ok co')
    (hdual : ∀ i, .instr i ∈ b'.elems → P.dual i.opcode = true → ∀ x y, i.arg = .tuple [.str x, .str y] →
      ¬ (co'.varnames.idxOf y = 16 ∧ co'.varnames.idxOf x ≤ 16)) :
    ∃ A B C X : List (Op κ), (programCode P key co).map Op.noDepth = A ++ B ++ C ∧ A.length = opNumber P pre ∧ B.length = opNumber P mid ∧
      (programCode P key co').map Op.noDepth = A.map (Op.retarget (moved (opNumber P pre) (opNumber P mid) (opNumber P mid') keep)) ++
        X ++ C.map (Op.retarget (moved (opNumber P pre) (opNumber P mid) (opNumber P mid') keep)) ∧
      X = (opsB P key (fun l => labelPos P l 0 b'.elems) (locAfter (Loc.line (some b.attrs.firstLineno)) pre)
        (tryAfter none (pre.map zeroDepth)) mid').map (Op.mapLoc keptLoc) := by
  subst hb'
  obtain ⟨h4, h5, h6⟩ := C51_usable hP h11 hok conserve h
  obtain ⟨b0, g1, g2, _⟩ := fromCode_parts hP h11 key hok conserve
  rw [h] at g1; cases g1
  have old : ∀ i, BElem.instr i ∈ pre ++ mid' ++ post → .instr i ∈ b.elems ∨ .instr i ∈ mid' := by
    intro i hi
    rw [hb]
    simp only [List.mem_append] at hi ⊢
    rcases hi with (hi | hi) | hi
    · exact .inl (.inl (.inl hi))
    · exact .inr hi
    · exact .inl (.inr hi)
  have hp' := C48_to_code_program (b := { b with elems := pre ++ mid' ++ post }) hP h11 (fun e he => ?_) (fun i hi => ?_) (fun i hi => ?_)
    (wellTried_edit hm hm' hne _ _ _ (hb ▸ h6)) h' (fun i hi => ⟨fun hcmp v hva => ?_, hdual i hi⟩)
  · obtain ⟨A, B, C, X, q1, q2, q3, q4, q5, q6⟩ := C68_edit_program (P := P) (key := key) (b := zeroDepths b) (b' := zeroDepths { b with elems := pre ++ mid' ++ post })
      (pre := pre.map zeroDepth) (mid := mid) (mid' := mid') (post := post.map zeroDepth) (keep := keep)
      (by simp only [zeroDepths, hb, List.map_append, instrs_zero hm]) (by simp only [zeroDepths, List.map_append, instrs_zero hm']) rfl hm hm' (clear_zero hc) (locations_zero hl)
    have hloc : ∀ es loc, locAfter loc (es.map zeroDepth) = locAfter loc es := by
      intro es
      induction es with
      | nil => intro loc; rfl
      | cons e es ih => intro loc; cases e <;> exact ih _
    have hkeep : ∀ o ∈ A ++ B ++ C, keptLoc o.loc = o.loc := by
      intro o ho
      rw [← q1, g2, List.mem_map] at ho
      obtain ⟨o', ho', rfl⟩ := ho
      exact kept_of_columns hok hcol o' ho'
    have hsame : ∀ (L : List (Op κ)) (ψ : Nat → Nat), (∀ o ∈ L, keptLoc o.loc = o.loc) → (L.map (Op.retarget ψ)).map (Op.mapLoc keptLoc) = L.map (Op.retarget ψ) := by
      intro L ψ hL
      rw [List.map_map]
      apply List.map_congr_left
      intro o ho
      simp only [Function.comp, Op.mapLoc, Op.retarget, hL o ho]
    refine ⟨A, B, C, X.map (Op.mapLoc keptLoc), by rw [← g2, q1], by rw [q2, opNumber_zero], q3, ?_, ?_⟩
    · rw [hp', q4]
      simp only [List.map_append, opNumber_zero]
      rw [hsame A _ (fun o ho => hkeep o (by simp [ho])), hsame C _ (fun o ho => hkeep o (by simp [ho]))]
    · rw [q6, hloc]
      congr 2
      funext l
      exact labelPos_zeroed l _ 0
  · cases e with
    | instr i =>
      rcases old i he with hi | hi
      · simpa [BElem.isCache] using (h4 i hi).2.2
      · simpa [BElem.isCache] using (hv i hi).2.1
    | _ => rfl
  · rcases old i hi with hi | hi
    · exact (h4 i hi).1
    · exact (hv i hi).1
  · rcases old i hi with hi | hi
    · exact h5 i hi
    · exact (hv i hi).2.2.1
  · rcases old i hi with hi | hi
    · exact compare_back hP h11 hok conserve h i hi hcmp v hva
    · exact (hv i hi).2.2.2 v hva

end

/-! ### A concrete case -/

/-- What is inserted. -/
def editNew : List BElem := [ins Py311.platform "LOAD_CONST" (.int 42), ins Py311.platform "POP_TOP"]

/-- The Bytecode read from the code object of `toCodeEx`, two instructions inserted at the start of the try region: after the
label, so that the loop runs them too. -/
def editEx : Bytecode := { readEx 2 17 19 none with elems := (readEx 2 17 19 none).elems.take 4 ++ editNew ++ (readEx 2 17 19 none).elems.drop 4 }

def editExSized : Bytecode := { readEx 1 3 4 (some 1) with elems := (readEx 1 3 4 (some 1)).elems.take 4 ++ editNew ++ (readEx 1 3 4 (some 1)).elems.drop 4 }

theorem editEx_sized : editEx.sized Py311.platform eff311 true = .ok (5, editExSized) := toOption_ok (by decide +kernel)

theorem editEx_emit : ((toConcrete Py311.platform (id : Arg → Arg) 10 editExSized).toOption.bind (fun c => (c.emit Py311.platform 5).toOption)).isSome = true := by
  decide +kernel

theorem editEx_code : ∃ co', editEx.toCode Py311.platform (id : Arg → Arg) eff311 = .ok co' := by
  unfold Bytecode.toCode
  rw [if_pos (by decide), editEx_sized]
  have h := editEx_emit
  show ∃ co', (toConcrete Py311.platform (id : Arg → Arg) 10 editExSized >>= fun c => c.emit Py311.platform 5) = _
  cases hc : toConcrete Py311.platform (id : Arg → Arg) 10 editExSized with
  | error e => rw [hc] at h; cases h
  | ok c =>
    rw [hc] at h
    obtain ⟨co', h⟩ := Option.isSome_iff_exists.1 h
    exact ⟨co', toOption_ok h⟩

theorem editNew_instrs : Instrs editNew := by
  intro e he
  simp only [editNew, List.mem_cons, List.not_mem_nil, or_false] at he
  rcases he with rfl | rfl
  · exact ⟨_, rfl⟩
  · exact ⟨_, rfl⟩

/-- The edited code object: two operations more, at numbers 2 and 3, under the handler; the loop jumps to the first of them and the
other targets are moved by two. -/
example : ∃ co', editEx.toCode Py311.platform (id : Arg → Arg) eff311 = .ok co' ∧ ∃ A C X : List (Op Arg),
    (programCode Py311.platform (id : Arg → Arg) toCodeExCode).map Op.noDepth = A ++ C ∧ A.length = 2 ∧
    (programCode Py311.platform (id : Arg → Arg) co').map Op.noDepth =
      A.map (Op.retarget (fun t => if t ≤ 2 then t else t + 2)) ++ X ++ C.map (Op.retarget (fun t => if t ≤ 2 then t else t + 2)) ∧
    X.map (fun o => (o.name, o.operand, o.loc.lineno, o.handler)) =
      [("LOAD_CONST", .const (.int 42), some 4, some ⟨14, true, 0⟩), ("POP_TOP", .none, some 4, some ⟨14, true, 0⟩)] := by
  obtain ⟨co', h⟩ := editEx_code
  have hvm := made_valid Py311.wf (es := editNew) (by decide +kernel)
  obtain ⟨A, B, C, X, h1, h2, h3, h4, h5⟩ := C68_patch (keep := true) (key := (id : Arg → Arg)) (pre := (readEx 2 17 19 none).elems.take 4) (mid := []) (mid' := editNew)
    (post := (readEx 2 17 19 none).elems.drop 4) (b' := editEx)
    Py311.wf (by decide) toCodeExCode_ok (by decide +kernel) toCodeEx_read (by simp) rfl (by intro e he; cases he) editNew_instrs
    (.inr (by
      intro l p q hq
      cases p with
      | nil => have he := congrArg List.head? hq; cases Option.some.inj he
      | cons e p =>
        have he := congrArg List.head? hq
        rw [opNumber_cons]
        have : ∃ i, e = .instr i ∧ i.name = "LOAD_FAST" ∧ Py311.platform.dual i.opcode = false := by
          refine ⟨_, (Option.some.inj he).symm, by decide +kernel, by decide +kernel⟩
        obtain ⟨i, rfl, hi, hi2⟩ := this
        simp [opCount, hi, hi2]; omega))
    (.inr (by
      intro p i q hq hi
      cases p with
      | nil => exfalso; have he := congrArg List.head? hq; have := Option.some.inj he; cases this; cases hi
      | cons e p =>
        have he := congrArg List.head? hq
        exact ⟨e, by simp, .inr ⟨_, (Option.some.inj he).symm, by decide +kernel⟩⟩))
    (.inr (.inl rfl))
    (by
      intro i hi
      refine ⟨hvm i hi, ?_⟩
      simp only [editNew, List.mem_cons, List.not_mem_nil, or_false] at hi
      rcases hi with hi | hi <;> cases hi <;> exact ⟨by decide +kernel, (by intro x hx; cases hx), (by intro x hx; cases hx)⟩)
    h (by
      intro i hi hd
      have h1 : editEx.elems.all (fun e => match e with
          | .instr i => !Py311.platform.dual i.opcode
          | _ => true) = true := by decide +kernel
      have := List.all_eq_true.1 h1 _ hi
      simp [hd] at this)
  have hB : B = [] := List.eq_nil_of_length_eq_zero h3
  subst hB
  have n1 : opNumber Py311.platform ((readEx 2 17 19 none).elems.take 4) = 2 := by decide +kernel
  have n2 : opNumber Py311.platform editNew = 2 := by decide +kernel
  have n3 : opNumber Py311.platform ([] : List BElem) = 0 := rfl
  have e : moved 2 0 2 true = fun t => if t ≤ 2 then t else t + 2 := by
    funext t; unfold moved; grind
  rw [n1, n2, n3, e] at h4
  refine ⟨co', h, A, C, X, by simpa using h1, by rw [h2, n1], h4, ?_⟩
  rw [h5]
  decide +kernel

end Verif
