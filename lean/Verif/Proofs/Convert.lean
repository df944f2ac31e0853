import Verif.Proofs.Handlers
/-
The converter's result means the same program.
-/
namespace Verif
open Spec
section
variable {κ : Type} [DecidableEq κ]
variable {P : Platform} {key : Arg → κ} {b : Bytecode} {c : Concrete} {T : Tabs} {M : List Cell}

theorem conv_depths (es : List BElem) (A : Attrs) (st st' : Conv) (h : es.foldlM (Conv.step P key A) st = .ok st') :
    ∀ t, .tryBegin t ∈ es → t.depth.isSome = true := by
  induction es generalizing st with
  | nil => simp
  | cons e es ih =>
    rw [List.foldlM_cons] at h
    obtain ⟨s, hs, h⟩ := except_bind_ok h
    intro t ht
    rcases List.mem_cons.1 ht with rfl | ht
    · unfold Conv.step at hs
      obtain ⟨s', hs', hs⟩ := except_bind_ok hs
      unfold Conv.elem at hs
      cases hd : t.depth with
      | none => simp [hd] at hs
      | some d => rfl
    · exact ih s h t ht

theorem push_tabs {st st' : Conv} {n : String} {a : CArg} {j : Option Nat} (h : st.push P n a j = .ok st') : st'.tabs = st.tabs := by
  unfold Conv.push at h
  obtain ⟨ci, _, h⟩ := except_bind_ok h
  simp only [pure, Except.pure, Except.ok.injEq] at h
  subst h; rfl

theorem cacheStep_tabs {st st' : Conv} {x : Bool} (h : st.cacheStep P x = .ok st') : st'.tabs = st.tabs := by
  unfold Conv.cacheStep at h
  split at h
  · split at h
    · simp at h
    · simp only [Except.ok.injEq] at h; subst h; rfl
  · split at h
    · simp only [Except.ok.injEq] at h; subst h; rfl
    · split at h
      · simp at h
      · obtain ⟨cs, _, h⟩ := except_bind_ok h
        simp only [pure, Except.pure, Except.ok.injEq] at h
        subst h; rfl

/-- A property of the tables kept by additions holds at the end. -/
theorem conv_inv (Q : Tabs → Prop)
    (hc : ∀ T v, Q T → Q { T with consts := (addConst key T.consts v).1 })
    (hn : ∀ T v, Q T → Q { T with names := (addTo T.names v).1 })
    (hv : ∀ T v, Q T → Q { T with varnames := (addTo T.varnames v).1 }) (es : List BElem) (A : Attrs) (st st' : Conv)
    (h : es.foldlM (Conv.step P key A) st = .ok st') (h0 : Q st.tabs) : Q st'.tabs := by
  induction es generalizing st with
  | nil => simp only [List.foldlM_nil, pure, Except.pure, Except.ok.injEq] at h; subst h; exact h0
  | cons e es ih =>
    rw [List.foldlM_cons] at h
    obtain ⟨s, hs, h⟩ := except_bind_ok h
    refine ih s h ?_
    unfold Conv.step at hs
    obtain ⟨s', hs', hs⟩ := except_bind_ok hs
    have h1 : Q s'.tabs := by rw [cacheStep_tabs hs']; exact h0
    cases e with
    | label l => simp only [Conv.elem, Except.ok.injEq] at hs; subst hs; exact h1
    | setLineno l => simp only [Conv.elem, Except.ok.injEq] at hs; subst hs; exact h1
    | tryBegin t =>
      simp only [Conv.elem] at hs
      split at hs
      · simp at hs
      · simp only [Except.ok.injEq] at hs; subst hs; exact h1
    | tryEnd id =>
      simp only [Conv.elem] at hs
      split at hs
      · simp only [Except.ok.injEq] at hs; subst hs; exact h1
      · simp at hs
    | instr i =>
      simp only [Conv.elem] at hs
      obtain ⟨⟨T1, enc⟩, henc, hs⟩ := except_bind_ok hs
      have h2 : Q T1 := encodeOperand_inv key henc Q hc hn hv h1
      cases enc with
      | plain a => simp only at hs; rw [push_tabs hs]; exact h2
      | jump a => simp only at hs; rw [push_tabs hs]; exact h2
      | cell a => simp only at hs; rw [push_tabs hs]; exact h2
      | free a => simp only at hs; rw [push_tabs hs]; exact h2
      | split n1 i1 n2 i2 =>
        simp only at hs
        obtain ⟨ci, _, hs⟩ := except_bind_ok hs
        rw [push_tabs hs]; exact h2

theorem prepass_nodup {vs vs' : List String} {es : List BElem} (h : prepass P vs es = .ok vs') (hn : vs.Nodup) : vs'.Nodup := by
  unfold prepass at h
  split at h
  · induction es generalizing vs with
    | nil => simp only [List.foldlM_nil, pure, Except.pure, Except.ok.injEq] at h; subst h; exact hn
    | cons e es ih =>
      rw [List.foldlM_cons] at h
      obtain ⟨x, hx, h2⟩ := except_bind_ok h
      refine ih ?_ h2
      clear h h2 ih
      unfold prepassElem at hx
      split at hx
      · split at hx
        · split at hx
          · rename_i l hl0
            clear hl0
            induction l generalizing vs with
            | nil => simp only [List.foldlM_nil, pure, Except.pure, Except.ok.injEq] at hx; subst hx; exact hn
            | cons y l ih2 =>
              rw [List.foldlM_cons] at hx
              obtain ⟨z, hz, hx⟩ := except_bind_ok hx
              split at hz
              · simp only [Except.ok.injEq] at hz; subst hz
                exact ih2 (addTo_nodup hn) hx
              · simp at hz
          · simp at hx
        · simp only [Except.ok.injEq] at hx; subst hx; exact hn
      · simp only [Except.ok.injEq] at hx; subst hx; exact hn
  · simp only [Except.ok.injEq] at h; subst h; exact hn

theorem toConcrete_conv {passes : Nat} (h : toConcrete P key passes b = .ok c) :
    ∃ vs loc st, prepass P b.argnames b.elems = .ok vs ∧ b.elems.foldlM (Conv.step P key b.attrs) (Conv.init b.attrs vs loc) = .ok st ∧
      c.consts = st.tabs.consts ∧ c.names = st.tabs.names ∧ c.varnames = st.tabs.varnames := by
  unfold toConcrete at h
  obtain ⟨st, hst, h⟩ := except_bind_ok h
  obtain ⟨out, hout, h⟩ := except_bind_ok h
  obtain ⟨tab, htab, h⟩ := except_bind_ok h
  simp only [pure, Except.pure, Except.ok.injEq] at h
  subst h
  unfold concreteInstructions at hst
  obtain ⟨loc, hloc, hst⟩ := except_bind_ok hst
  obtain ⟨u, hit, hst⟩ := except_bind_ok hst
  obtain ⟨vs, hvs, hst⟩ := except_bind_ok hst
  obtain ⟨s1, hs1, hst⟩ := except_bind_ok hst
  obtain ⟨s2, hs2, hst⟩ := except_bind_ok hst
  obtain ⟨o2, ho2, hst⟩ := except_bind_ok hst
  simp only [pure, Except.pure, Except.ok.injEq] at hst
  subst hst
  have := cacheStep_tabs hs2
  exact ⟨vs, loc, s1, hvs, hs1, by simp [this], by simp [this], by simp [this]⟩

theorem toConcrete_depths {passes : Nat} (h : toConcrete P key passes b = .ok c) : ∀ t, .tryBegin t ∈ b.elems → t.depth.isSome = true := by
  obtain ⟨vs, loc, st, _, h2, _⟩ := toConcrete_conv h
  exact conv_depths _ _ _ _ h2

theorem toConcrete_Final (hP : P.WF) {passes : Nat} (hcache : ∀ e ∈ b.elems, e.isCache = false)
    (hv : ∀ i, .instr i ∈ b.elems → ValidInstr P i) (h : toConcrete P key passes b = .ok c) : ∃ T M, Final P key b c T M := by
  obtain ⟨_, T, M, h1, h2, h3, h4, h5, h6, h7, h8, _, h10, h11⟩ := toConcrete_final hP hcache hv h
  exact ⟨T, M, ⟨hP, hcache, hv, h1, h2, h3, h4, h5, h6, h7, h8, h10, h11⟩⟩

theorem operandC_jump (ci : CInstr) (dest : Option Nat) (h : P.hasJump ci.opcode = false) : jumpOf (operandC P key c dest ci) = none := by
  unfold operandC
  rw [if_neg (by simp [h])]
  unfold slotAt nameAt
  repeat' split
  all_goals rfl

theorem operandB_jump (tgt : Nat → Option Nat) (op : Nat) (a : Arg) (h : P.hasJump op = false) : jumpOf (operandB P key tgt op a) = none := by
  unfold operandB
  rw [if_neg (by simp [h])]
  repeat' split
  all_goals rfl

theorem slotAt_jump (l : List Slot) (k : Nat) : jumpOf (slotAt l k : Operand κ) = none := by
  unfold slotAt; split <;> rfl
theorem slotOf_jump (a : Atom) : jumpOf (slotOf a : Operand κ) = none := by
  unfold slotOf; split <;> rfl

/-- Names and jump targets of the operations of one instruction. -/
theorem Final.jumps (h : Final P key b c T M) {M1 M2 : List Cell} {d : Cell} {i : Instr} (hM : M = M1 ++ d :: M2)
    (hi : d.e = .instr i) :
    (opsI P key c (pos P (code P M) (code P M1).length) (d.code P)).map (fun o => (o.name, jumpOf o.operand)) =
      (expandB P key (fun l => labelPos P l 0 b.elems) i).map (fun p => (p.1, jumpOf p.2)) := by
  have hd : d ∈ M := by rw [hM]; simp
  obtain ⟨hv, hn, enc0, henc, hplain, hfin, hb⟩ := h.mem hd hi
  have hK := kinds_excl h.wf i.opcode
  cases hj : P.hasJump i.opcode with
  | true =>
    have hok : OperandOK P c.varnames i := by
      rcases hv.arg_ok.jump hj with ⟨l, hl⟩ | ⟨l, hl⟩ <;> constructor <;> simp [hl]
    have := h.operands hM hi hok
    have h2 := congrArg (List.map (fun p : String × Operand κ => (p.1, jumpOf p.2))) this
    rw [List.map_map] at h2
    exact h2
  | false =>
    rcases h.shape hd hi with ⟨a, _, hc⟩ | ⟨n1, i1, n2, i2, _, hs, hc⟩
    · rw [hc, opsI_single, List.map_map]
      unfold expandC expandB
      rw [if_neg (by simpa [mkI] using hn), if_neg hn, mkI_opcode hv.name_op]
      cases hdd : P.dualSingles i.opcode with
      | none => simp [operandC_jump, operandB_jump, mkI_opcode hv.name_op, hj, mkI_name]
      | some p =>
        obtain ⟨n1, n2⟩ := p
        simp only
        repeat' split
        all_goals simp [slotAt_jump, slotOf_jump, show jumpOf (Operand.invalid : Operand κ) = none from rfl]
    · obtain ⟨o1, p1, l1, q1⟩ := h.wf.dual_single _ _ _ hs n1 (.inl rfl)
      obtain ⟨o2, p2, l2, q2⟩ := h.wf.dual_single _ _ _ hs n2 (.inr rfl)
      obtain ⟨r1, r2⟩ := split_names hs
      rw [hc, opsI, opsI_single, List.map_append, List.map_map, List.map_map]
      unfold expandC expandB
      rw [if_neg (by simpa [mkI] using r1), if_neg (by simpa [mkI] using r2), if_neg hn, mkI_opcode p1, mkI_opcode p2, dual_none q1, dual_none q2, hs]
      have j1 := (kinds_excl h.wf o1).local_ l1
      have j2 := (kinds_excl h.wf o2).local_ l2
      simp only
      split <;> simp [operandC_jump, mkI_opcode p1, mkI_opcode p2, j1.1, j2.1, mkI_name, slotOf_jump, show jumpOf (Operand.invalid : Operand κ) = none from rfl]

theorem opsI_loc (l : List CInstr) (loc : Loc) (hl : ∀ ci ∈ l, ci.loc = some loc) (cur : Nat) : ∀ o ∈ opsI P key c cur l, o.loc = loc := by
  induction l generalizing cur with
  | nil => simp [opsI]
  | cons ci l ih =>
    intro o ho
    rw [opsI, List.mem_append] at ho
    rcases ho with ho | ho
    · simp only [List.mem_map] at ho
      obtain ⟨p, _, rfl⟩ := ho
      simp [hl ci (by simp)]
    · exact ih (fun x hx => hl x (by simp [hx])) _ o ho

theorem cell_loc (d : Cell) : ∀ ci ∈ d.code P, ci.loc = some d.loc := by
  intro ci hci
  unfold Cell.code at hci
  split at hci
  · simp only [block, List.mem_append, List.mem_replicate] at hci
    rcases hci with hi | ⟨_, rfl⟩
    · cases hc : d.enc <;> simp only [hc, mains, List.mem_cons, List.not_mem_nil, or_false] at hi
      · subst hi; rfl
      · subst hi; rfl
      · subst hi; rfl
      · subst hi; rfl
      · rcases hi with rfl | rfl <;> rfl
    · rfl
  · simp at hci

theorem length_opsI (cur : Nat) (l : List CInstr) : (opsI P key c cur l).length = opsIn P l := by
  induction l generalizing cur with
  | nil => rfl
  | cons ci l ih => rw [opsI, List.length_append, List.length_map, expand_length_C, ih]; simp [opsIn]

theorem Final.locs (h : Final P key b c T M) {M1 M2 : List Cell} {d : Cell} {i : Instr} (hM : M = M1 ++ d :: M2)
    (hi : d.e = .instr i) (x : Option Handler) :
    (opsI P key c (pos P (code P M) (code P M1).length) (d.code P)).map (fun o => o.loc) =
      ((expandB P key (fun l => labelPos P l 0 b.elems) i).map (fun p => (⟨p.1, p.2, d.loc, x⟩ : Op κ))).map (fun o => o.loc) := by
  have hd : d ∈ M := by rw [hM]; simp
  have h1 : ∀ (l : List (Op κ)), (∀ o ∈ l, o.loc = d.loc) → l.map (fun o => o.loc) = List.replicate l.length d.loc := by
    intro l
    induction l with
    | nil => intro _; rfl
    | cons o l ih => intro hl; simp only [List.map_cons, List.length_cons, List.replicate_succ]; rw [hl o (by simp), ih (fun x hx => hl x (by simp [hx]))]
  rw [h1 _ (opsI_loc _ d.loc (cell_loc d) _), h1 _ (by intro o ho; obtain ⟨p, _, rfl⟩ := List.mem_map.1 ho; rfl), List.length_map, length_opsI, expand_length_B, h.opsIn_cell hd, hi]
  rfl

/-- Views of the whole program. -/
theorem Final.view_jump (h : Final P key b c T M) :
    (programC P key c).map (fun o => (o.name, jumpOf o.operand)) = (programB P key b).map (fun o => (o.name, jumpOf o.operand)) := by
  apply h.walk
  intro M1 d M2 i hM hi
  rw [h.jumps hM hi, List.map_map]; rfl

theorem Final.view_loc (h : Final P key b c T M) :
    (programC P key c).map (fun o => o.loc) = (programB P key b).map (fun o => o.loc) := by
  apply h.walk
  intro M1 d M2 i hM hi
  exact h.locs hM hi _

theorem Final.view_operand (h : Final P key b c T M) (hok : ∀ i, .instr i ∈ b.elems → OperandOK P c.varnames i) :
    (programC P key c).map (fun o => (o.name, o.operand)) = (programB P key b).map (fun o => (o.name, o.operand)) := by
  apply h.walk
  intro M1 d M2 i hM hi
  have hmem : .instr i ∈ b.elems := by rw [← h.lay.elems, hM]; simp [hi]
  rw [h.operands hM hi (hok i hmem), List.map_map]
  conv_lhs => rw [← List.map_id (expandB P key (fun l => labelPos P l 0 b.elems) i)]
  rfl

theorem Final.view_handler (h : Final P key b c T M) (hw : WellTried none [] false b.elems)
    (hdep : ∀ t, .tryBegin t ∈ b.elems → t.depth.isSome = true) :
    (programC P key c).map (fun o => o.handler) = (programB P key b).map (fun o => o.handler) := by
  apply h.walk
  intro M1 d M2 i hM hi
  exact h.handlers hw hdep hM hi

theorem ext_of_maps {α β γ δ : Type} (f : α → β) (g : α → γ) (k : α → δ) (hinj : ∀ x y, f x = f y → g x = g y → k x = k y → x = y) :
    ∀ (l m : List α), l.map f = m.map f → l.map g = m.map g → l.map k = m.map k → l = m := by
  intro l
  induction l with
  | nil => intro m h _ _; cases m <;> simp_all
  | cons x l ih =>
    intro m h1 h2 h3
    cases m with
    | nil => simp at h1
    | cons y m =>
      simp only [List.map_cons, List.cons.injEq] at h1 h2 h3
      rw [hinj x y h1.1 h2.1 h3.1, ih m h1.2 h2.2 h3.2]

/-- The whole program. -/
theorem Final.program (h : Final P key b c T M) (hok : ∀ i, .instr i ∈ b.elems → OperandOK P c.varnames i)
    (hw : WellTried none [] false b.elems) (hdep : ∀ t, .tryBegin t ∈ b.elems → t.depth.isSome = true) :
    programC P key c = programB P key b := by
  apply ext_of_maps (fun o : Op κ => (o.name, o.operand)) (fun o => o.loc) (fun o => o.handler) _ _ _ (h.view_operand hok) h.view_loc (h.view_handler hw hdep)
  rintro ⟨a, b, c, d⟩ ⟨a', b', c', d'⟩ h1 h2 h3
  simp_all

/-- The operations of one instruction, in place. -/
theorem Final.at (h : Final P key b c T M) {es1 es2 : List BElem} {i : Instr} (he : b.elems = es1 ++ .instr i :: es2)
    (hok : OperandOK P c.varnames i) :
    (((programC P key c).drop (es1.map (opCountE P)).sum).take (opCount P i.name i.opcode)).map (fun o => (o.name, o.operand)) =
      expandB P key (fun l => labelPos P l 0 b.elems) i := by
  have hel := h.lay.elems
  rw [he] at hel
  obtain ⟨M1, M2', e1, e2, e3⟩ := List.map_eq_append_iff.1 hel
  obtain ⟨d, M2, e4, e5, e6⟩ := List.map_eq_cons_iff.1 e3
  subst e4
  have hd : d ∈ M := by rw [e1]; simp
  have hops := h.operands e1 e5 hok
  have hlen1 : (opsI P key c 0 (code P M1)).length = (es1.map (opCountE P)).sum := by
    rw [length_opsI, h.opsIn_code (fun x hx => by rw [e1]; simp [hx]), opsE, ← e2, List.map_map]; rfl
  have hlen2 : (opsI P key c (pos P (code P M) (code P M1).length) (d.code P)).length = opCount P i.name i.opcode := by
    rw [length_opsI, h.opsIn_cell hd, e5]; rfl
  unfold programC
  rw [h.elems, opsC_opsI _ (code_loc M)]
  conv_lhs => rw [show code P M = code P M1 ++ (d.code P ++ code P M2) by rw [e1, code_append, code_cons]]
  rw [opsI_append, opsI_append, ← hlen1, List.drop_left, Nat.zero_add]
  have hpos : pos P (code P M1) (code P M1).length = pos P (code P M) (code P M1).length := by
    rw [e1, code_append, pos_append_left P _ _ (Nat.le_refl _)]
  rw [hpos, ← hlen2, List.take_left, hops]
end
end Verif
