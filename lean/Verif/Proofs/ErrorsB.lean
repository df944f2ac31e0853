import Verif.Proofs.Errors
/-
Why jump resolution and the exception table fail.
-/
namespace Verif
open Spec

theorem jinstr_set_err {P : Platform} (hP : P.WF) {ci : CInstr} {v : Int} (hb : JInstr P ci) (h : ¬ (0 ≤ v ∧ v ≤ 2147483647)) :
    ci.set_ P (some ci.name) (.int v) = (ci, .error .valueError) := by
  have hop := hb.built.name_op
  have hbase := hb.built.base
  unfold CInstr.set_ lookupName
  simp only [hop, if_neg (Nat.not_le.2 hbase)]
  have hc : CInstr.checkArg P ci.opcode (.int v) = .error .valueError := by
    unfold CInstr.checkArg checkArgInt
    rw [if_pos (hasJump_arg hP hop hbase hb.jump)]
    simp only [if_neg h, Except.map]
  rw [hc]

theorem lookup_err {labels : List (Nat × Nat)} {l : Nat} {e : PyErr} (h : lookupLabel labels l = .error e) : e = .keyError := by
  unfold lookupLabel at h
  split at h <;> cases h
  rfl

/-- Why a pass fails. -/
theorem pass_err {P : Platform} {labels jumps : List (Nat × Nat)} {l : List CInstr} (hP : P.WF) (hr : Ready P labels jumps l) {e : PyErr}
    (h : jumpPass P labels jumps l = .error e) :
    ∃ k lab, (k, lab) ∈ jumps ∧ ((e = .keyError ∧ lookupLabel labels lab = .error .keyError) ∨
      (e = .valueError ∧ ∃ t ci, lookupLabel labels lab = .ok t ∧ l[k]? = some ci ∧
        ¬ (0 ≤ jumpArg P ci (pos P l t) (pos P l k) ∧ jumpArg P ci (pos P l t) (pos P l k) ≤ 2147483647))) := by
  unfold jumpPass at h
  have hoff := labelOffsets_get P l hr.size 0
  generalize labelOffsets P 0 l = offs at hoff h
  have hnd := hr.nodup
  have : ∀ (js : List (Nat × Nat)) (s : List CInstr) (m : Bool), (js.map (·.1)).Nodup →
      (∀ k lab, (k, lab) ∈ js → (k, lab) ∈ jumps ∧ s[k]? = l[k]?) → js.foldlM (jumpStep P labels offs) (s, m) = .error e →
      ∃ k lab, (k, lab) ∈ jumps ∧ ((e = .keyError ∧ lookupLabel labels lab = .error .keyError) ∨
      (e = .valueError ∧ ∃ t ci, lookupLabel labels lab = .ok t ∧ l[k]? = some ci ∧
        ¬ (0 ≤ jumpArg P ci (pos P l t) (pos P l k) ∧ jumpArg P ci (pos P l t) (pos P l k) ≤ 2147483647))) := by
    intro js
    induction js with
    | nil => intro s m _ _ h; cases h
    | cons j js ih =>
      intro s m hn hs h
      obtain ⟨k, lab⟩ := j
      obtain ⟨hmem, hsk⟩ := hs k lab (by simp)
      obtain ⟨ci, g3, g4⟩ := hr.jump k lab hmem
      simp only [List.map_cons, List.nodup_cons] at hn
      have hkl : k < l.length := (List.getElem?_eq_some_iff.1 g3).1
      cases hlk : lookupLabel labels lab with
      | error e' =>
        have := lookup_err hlk
        subst this
        rw [List.foldlM_cons] at h
        unfold jumpStep at h
        simp only [hlk, bind, Except.bind] at h
        cases h
        exact ⟨k, lab, hmem, .inl ⟨rfl, hlk⟩⟩
      | ok t =>
        have g2 := hr.label lab t hlk
        by_cases hgood : 0 ≤ jumpArg P ci (pos P l t) (pos P l k) ∧ jumpArg P ci (pos P l t) (pos P l k) ≤ 2147483647
        · have hst : jumpStep P labels offs (s, m) (k, lab) = .ok (s.set k { ci with arg := some (jumpArg P ci (pos P l t) (pos P l k)).toNat, size := sizeFor (some (jumpArg P ci (pos P l t) (pos P l k)).toNat) none },
              m || (sizeFor (some (jumpArg P ci (pos P l t) (pos P l k)).toNat) none != ci.size)) := by
            unfold jumpStep
            simp only [hlk, bind, Except.bind, hoff, if_pos g2, if_pos (Nat.le_of_lt hkl), Nat.zero_add, hsk, g3]
            rw [jinstr_set_ok hP g4 hgood.1 hgood.2]
            rfl
          rw [List.foldlM_cons, hst] at h
          simp only [bind, Except.bind] at h
          refine ih _ _ hn.2 (fun k' lab' hk' => ?_) h
          obtain ⟨q1, q2⟩ := hs k' lab' (by simp [hk'])
          refine ⟨q1, ?_⟩
          have hne : k ≠ k' := by rintro rfl; exact hn.1 (List.mem_map.2 ⟨(k, lab'), hk', rfl⟩)
          rw [List.getElem?_set_ne hne, q2]
        · have hst : jumpStep P labels offs (s, m) (k, lab) = .error .valueError := by
            unfold jumpStep
            simp only [hlk, bind, Except.bind, hoff, if_pos g2, if_pos (Nat.le_of_lt hkl), Nat.zero_add, hsk, g3]
            rw [jinstr_set_err hP g4 hgood]
          rw [List.foldlM_cons, hst] at h
          cases h
          exact ⟨k, lab, hmem, .inr ⟨rfl, t, ci, hlk, g3, hgood⟩⟩
  exact this jumps l false hnd (fun k lab hk => ⟨hk, rfl⟩) h

/-- The layout before a pass, whatever the direction of the jumps. -/
structure JBase (P : Platform) (labels jumps : List (Nat × Nat)) (l : List CInstr) : Prop where
  ready : Ready P labels jumps l
  big : ∀ i ∈ l, i.size ≤ 8
  len : 8 * l.length ≤ 2147483647
  fits : ∀ k lab, (k, lab) ∈ jumps → ∀ ci, l[k]? = some ci → k + 1 + ci.useCacheOpcodes P ≤ l.length
  caches : ∀ k lab, (k, lab) ∈ jumps → ∀ ci, l[k]? = some ci → ∀ j, k < j → j ≤ k + ci.useCacheOpcodes P →
    (∃ c, l[j]? = some c ∧ c.units P = 1) ∧ j ∉ jumps.map (·.1)

/-- A jump that cannot be resolved. -/
def BadJump (P : Platform) (labels jumps : List (Nat × Nat)) (l : List CInstr) (e : PyErr) : Prop :=
  ∃ k lab, (k, lab) ∈ jumps ∧ ((e = .keyError ∧ lookupLabel labels lab = .error .keyError) ∨
    (e = .valueError ∧ ∃ t ci, lookupLabel labels lab = .ok t ∧ l[k]? = some ci ∧
      ((isForwardRelJump P ci.name ci.opcode = true ∧ t ≤ k) ∨
       (isBackwardRelJump P ci.name ci.opcode = true ∧ k + 1 + ci.useCacheOpcodes P < t))))

theorem JBase.err {P : Platform} {labels jumps : List (Nat × Nat)} {l : List CInstr} (hP : P.WF) (h : JBase P labels jumps l) {e : PyErr}
    (he : jumpPass P labels jumps l = .error e) : BadJump P labels jumps l e := by
  obtain ⟨k, lab, hk, hh⟩ := pass_err hP h.ready he
  refine ⟨k, lab, hk, ?_⟩
  rcases hh with hh | ⟨rfl, t, ci, ht, hci, hbad⟩
  · exact .inl hh
  refine .inr ⟨rfl, t, ci, ht, hci, ?_⟩
  refine Classical.byContradiction fun hno => hbad ?_
  have d1 := h.fits k lab hk ci hci
  have d2 : isForwardRelJump P ci.name ci.opcode = true → k < t := fun hf => by
    refine Classical.byContradiction fun hx => hno (.inl ⟨hf, by omega⟩)
  have d3 : isBackwardRelJump P ci.name ci.opcode = true → t ≤ k + 1 + ci.useCacheOpcodes P := fun hf => by
    refine Classical.byContradiction fun hx => hno (.inr ⟨hf, by omega⟩)
  have htl := h.ready.label lab t ht
  have hlen := h.len
  have hp := pos_succ P l hci
  have hb := pos_bound (P := P) h.big
  have hb1 := hb t
  have hb2 := pos_skip (P := P) h.ready.size d1 (Nat.le_refl _)
  have hb3 := hb l.length
  unfold jumpArg
  by_cases hf : isForwardRelJump P ci.name ci.opcode = true
  · simp only [hf, if_true]
    have hc := h.ready.cache k lab t ci hk ht hci (d2 hf)
    have := pos_skip (P := P) h.ready.size hc htl
    omega
  · simp only [hf, Bool.false_eq_true, if_false]
    by_cases hbk : isBackwardRelJump P ci.name ci.opcode = true
    · simp only [hbk, if_true]
      have := pos_le_pos P l (d3 hbk)
      have h1 := pos_units (P := P) (l := l) (k + 1) (ci.useCacheOpcodes P) (fun j a b => (h.caches k lab hk ci hci j (by omega) (by omega)).1)
      omega
    · simp only [hbk, Bool.false_eq_true, if_false]
      omega

theorem JBase.next {P : Platform} {labels jumps : List (Nat × Nat)} {l out : List CInstr} {m : Bool} (h : JBase P labels jumps l)
    (hp : jumpPass P labels jumps l = .ok (out, m)) : JBase P labels jumps out := by
  have hs := pass_same h.ready hp
  obtain ⟨p1, _⟩ := jumpPass_ok h.ready.nodup hp
  refine ⟨pass_ready h.ready hp, ?_, by rw [hs.1]; exact h.len, ?_, ?_⟩
  · intro i hi
    obtain ⟨k, hk⟩ := List.mem_iff_getElem?.1 hi
    by_cases hm : k ∈ jumps.map (·.1)
    · obtain ⟨⟨k', lab⟩, hk', rfl⟩ := List.mem_map.1 hm
      obtain ⟨t, ci, _, _, g, _, _, g1, g2, _⟩ := pass_jump h.ready hp hk'
      simp only at hk
      rw [g2] at hk; cases hk
      exact sizeFor_le_8 (by omega)
    · rw [p1.other k hm] at hk
      exact h.big i (List.mem_of_getElem? hk)
  · intro k lab hk ci' hci'
    obtain ⟨ci, hci, _⟩ := h.ready.jump k lab hk
    obtain ⟨_, e1, e2, _⟩ := hs.2 k ci ci' hci hci'
    have := h.fits k lab hk ci hci
    unfold CInstr.useCacheOpcodes at this ⊢
    rw [e2, hs.1]
    exact this
  · intro k lab hk ci' hci' j hj1 hj2
    obtain ⟨ci, hci, _⟩ := h.ready.jump k lab hk
    obtain ⟨_, e1, e2, _⟩ := hs.2 k ci ci' hci hci'
    unfold CInstr.useCacheOpcodes at hj2
    rw [e2] at hj2
    obtain ⟨g1, g2⟩ := h.caches k lab hk ci hci j hj1 hj2
    exact ⟨by rw [p1.other j g2]; exact g1, g2⟩

theorem BadJump.back {P : Platform} {labels jumps : List (Nat × Nat)} {l out : List CInstr} {m : Bool} {e : PyErr} (h : JBase P labels jumps l)
    (hp : jumpPass P labels jumps l = .ok (out, m)) (hb : BadJump P labels jumps out e) : BadJump P labels jumps l e := by
  have hs := pass_same h.ready hp
  obtain ⟨k, lab, hk, hh⟩ := hb
  refine ⟨k, lab, hk, ?_⟩
  rcases hh with hh | ⟨rfl, t, ci', ht, hci', hbad⟩
  · exact .inl hh
  obtain ⟨ci, hci, _⟩ := h.ready.jump k lab hk
  obtain ⟨_, e1, e2, _⟩ := hs.2 k ci ci' hci hci'
  unfold CInstr.useCacheOpcodes at hbad
  rw [e1, e2] at hbad
  exact .inr ⟨rfl, t, ci, ht, hci, hbad⟩

/-- Why the loop fails. -/
theorem loop_err {P : Platform} {labels jumps : List (Nat × Nat)} (hP : P.WF) (n : Nat) (l : List CInstr) (h : JBase P labels jumps l)
    (hp : PreFix P labels jumps l) {e : PyErr} (he : jumpLoop P labels jumps n l = .error e) :
    BadJump P labels jumps l e ∨ (e = .runtimeError ∧ n ≤ slack jumps l) := by
  induction n generalizing l with
  | zero => cases he; exact .inr ⟨rfl, Nat.zero_le _⟩
  | succ n ih =>
    simp only [jumpLoop] at he
    rcases except_bind_err he with he | ⟨⟨out, m⟩, hr, he⟩
    · exact .inl (h.err hP he)
    · cases m with
      | false => cases he
      | true =>
        simp only [if_true] at he
        have hsl := pass_slack h.ready hp hr
        rcases ih out (h.next hr) (pass_prefix h.ready hp hr) he with hb | ⟨rfl, hn⟩
        · exact .inl (hb.back h hr)
        · exact .inr ⟨rfl, by omega⟩

/-- The loop keeps the layout. -/
theorem loop_base {P : Platform} {labels jumps : List (Nat × Nat)} (n : Nat) (l out : List CInstr) (h : JBase P labels jumps l)
    (he : jumpLoop P labels jumps n l = .ok out) : JBase P labels jumps out ∧ out.length = l.length := by
  induction n generalizing l with
  | zero => cases he
  | succ n ih =>
    simp only [jumpLoop] at he
    obtain ⟨⟨o1, m⟩, hr, he⟩ := except_bind_ok he
    have hlen := (pass_same h.ready hr).1
    cases m with
    | false => cases he; exact ⟨h.next hr, hlen⟩
    | true =>
      simp only [if_true] at he
      obtain ⟨q1, q2⟩ := ih o1 (h.next hr) he
      exact ⟨q1, q2.trans hlen⟩

section
variable {κ : Type} [DecidableEq κ]

/-- The state before jump resolution. -/
theorem start_base {P : Platform} (hP : P.WF) {key : Arg → κ} {b : Bytecode} (hw : WellMade P b) {st : Conv}
    (h : concreteInstructions P key b = .ok st) :
    JBase P st.labels st.jumps st.instrs ∧ PreFix P st.labels st.jumps st.instrs ∧ st.jumps.length = jumpCount b.elems ∧
    ∃ M : List Cell, Start P b st M ∧ st.blocks = blocksOf P 0 [] M := by
  have hv : ∀ i, .instr i ∈ b.elems → ValidInstr P i := fun i hi => (hw.valid i hi).1
  obtain ⟨_, _, M, g2, g3, g4, g5, g6, g7⟩ := concreteInstructions_layout hP (isCache_of hw) h
  have hj := g2.jumpCells hv
  have hM : Start P b st M := ⟨g3, g5, g4, g2.elems, hj, (by rw [g3, g4, g5]; exact ready_of_cells hj), (by
    intro k lab ci hk hci
    rw [g5] at hk; rw [g3] at hci
    exact initial_size g7 hj hk hci)⟩
  refine ⟨⟨hM.ready, ?_, ?_, ?_, ?_⟩, hM.pre, hM.count, M, hM, g6⟩
  · rw [g3]
    exact code_big (fun c hc i hi => by
      obtain ⟨_, _, _, _, hb⟩ := (g2.mem hc).2 i hi
      exact hb)
  · rw [g3]
    have := code_room (fun c hc => cell_room hP g2 hv hc)
    rw [g2.elems] at this
    have := hw.size
    omega
  · intro k lab hk ci hci
    rw [g5] at hk
    obtain ⟨M1, c, M2, e1, e2, e3⟩ := mem_jumpsE hj hk
    have hcM : c ∈ M := by rw [e1]; simp
    obtain ⟨i, a, q1, q2, q3, q4, q5, q6, q7⟩ := (hj c hcM).code e3
    have hk' : k = (code P M1).length := by omega
    rw [g3, e1, code_append, code_cons, q7, hk', List.getElem?_append_right (Nat.le_refl _), Nat.sub_self] at hci
    simp only [List.cons_append, List.getElem?_cons_zero, Option.some.injEq] at hci
    subst hci
    have hcache : CInstr.useCacheOpcodes P (mkI P i.name (some a) c.loc) = nCaches P i.name := rfl
    rw [hcache, g3, e1, code_append, code_cons, List.length_append, List.length_append, q7]
    simp only [List.length_cons, List.length_replicate]
    omega
  · intro k lab hk ci hci j hj1 hj2
    rw [g5] at hk
    obtain ⟨M1, c, M2, e1, e2, e3⟩ := mem_jumpsE hj hk
    have hcM : c ∈ M := by rw [e1]; simp
    obtain ⟨i, a, q1, q2, q3, q4, q5, q6, q7⟩ := (hj c hcM).code e3
    have hk' : k = (code P M1).length := by omega
    have hget : ∀ m, m ≤ nCaches P i.name → (code P M)[k + m]? = (mkI P i.name (some a) c.loc :: List.replicate (nCaches P i.name) (mkI P "CACHE" (some 0) c.loc))[m]? := by
      intro m hm
      rw [e1, code_append, code_cons, q7, hk', List.getElem?_append_right (by omega), Nat.add_sub_cancel_left,
        List.getElem?_append_left (by simp only [List.length_cons, List.length_replicate]; omega)]
    have h0 := hget 0 (by omega)
    rw [g3, ← Nat.add_zero k, h0] at hci
    simp only [List.getElem?_cons_zero, Option.some.injEq] at hci
    subst hci
    have hcache : CInstr.useCacheOpcodes P (mkI P i.name (some a) c.loc) = nCaches P i.name := rfl
    rw [hcache] at hj2
    obtain ⟨m, rfl⟩ : ∃ m, j = k + (m + 1) := ⟨j - k - 1, by omega⟩
    have hm := hget (m + 1) (by omega)
    rw [List.getElem?_cons_succ, List.getElem?_replicate_of_lt (by omega)] at hm
    have h11 : P.py311 = true := by
      unfold nCaches at hj2
      by_cases h : P.py311 = true
      · exact h
      · rw [if_neg h] at hj2; omega
    have h10 : P.py310 = true := by simp [Platform.py311, Platform.py310] at h11 ⊢; omega
    refine ⟨⟨_, by rw [g3]; exact hm, by simp [CInstr.units, h10, mkI, sizeFor, extNeeded]⟩, ?_⟩
    intro hmem
    obtain ⟨⟨k', lab'⟩, hk2, hkk⟩ := List.mem_map.1 hmem
    simp only at hkk
    subst hkk
    rw [g5] at hk2
    obtain ⟨M1', c', M2', e1', e2', e3'⟩ := mem_jumpsE hj hk2
    have hcM' : c' ∈ M := by rw [e1']; simp
    obtain ⟨i', a', q1', _, _, _, _, _, q7'⟩ := (hj c' hcM').code e3'
    have hname : i'.name ≠ "CACHE" := (hw.valid i' (by rw [← g2.elems, e1']; simp [q1'])).2
    rw [e2', Nat.zero_add, e1', code_append, code_cons, q7', List.getElem?_append_right (Nat.le_refl _), Nat.sub_self] at hm
    simp only [List.cons_append, List.getElem?_cons_zero, Option.some.injEq] at hm
    exact hname (by simpa [mkI] using congrArg CInstr.name hm)

/-- A jump that cannot be resolved breaks a rule. -/
theorem BadJump.wrong {P : Platform} {b : Bytecode} {st : Conv} {M : List Cell} (hM : Start P b st M) {passes : Nat} {e : PyErr}
    (hb : BadJump P st.labels st.jumps st.instrs e) : Wrong P b passes e := by
  obtain ⟨k, lab, hk, hh⟩ := hb
  have hj := hM.cells
  rw [hM.jumps] at hk
  obtain ⟨M1, c, M2, e1, e2, e3⟩ := mem_jumpsE hj hk
  have hcM : c ∈ M := by rw [e1]; simp
  obtain ⟨i, a, q1, q2, q3, q4, q5, q6, q7⟩ := (hj c hcM).code e3
  have hel : b.elems = M1.map (·.e) ++ .instr i :: M2.map (·.e) := by
    rw [← hM.elems, e1]; simp [q1]
  have hlab : st.labels = labelsOf P ((code P M1).length + (c.code P).length) (labelsOf P 0 [] M1) M2 := by
    rw [hM.labels, e1, labelsOf_append]
    conv_lhs => rw [labelsOf, q1]
    simp only [Nat.zero_add]
  have hk' : k = (code P M1).length := by omega
  rcases hh with ⟨rfl, hl⟩ | ⟨rfl, t, ci, ht, hci, hbad⟩
  · refine .label (i := i) (l := lab) (by rw [hel]; simp) q2 ?_
    intro hm
    obtain ⟨t, ht, _⟩ := lookup_present (P := P) (M := M) (l := lab) (by rw [hM.elems]; exact hm) 0 []
    rw [hM.labels, ht] at hl; cases hl
  · rw [hM.instrs, e1, code_append, code_cons, q7, hk', List.getElem?_append_right (Nat.le_refl _), Nat.sub_self] at hci
    simp only [List.cons_append, List.getElem?_cons_zero, Option.some.injEq] at hci
    subst hci
    have hcache : CInstr.useCacheOpcodes P (mkI P i.name (some a) c.loc) = nCaches P i.name := rfl
    have hopc : (mkI P i.name (some a) c.loc).opcode = i.opcode := by simp [mkI, q5]
    have hmem : .label lab ∈ b.elems := by
      rw [← hM.elems]; exact lookup_label_mem (by rw [← hM.labels]; exact ht)
    rw [hcache, hopc, mkI_name] at hbad
    rcases hbad with ⟨hf, hle⟩ | ⟨hbk, hlt⟩
    · have hpost : .label lab ∉ M2.map (·.e) := by
        intro hpost
        obtain ⟨t', ht', hge⟩ := lookup_present (P := P) hpost ((code P M1).length + (c.code P).length) (labelsOf P 0 [] M1)
        rw [← hlab, ht] at ht'
        cases ht'
        rw [q7] at hge
        simp only [List.length_cons] at hge
        omega
      refine .forward hel q2 hf ?_ hpost
      rw [hel] at hmem
      rcases List.mem_append.1 hmem with h | h
      · exact h
      · rcases List.mem_cons.1 h with h | h
        · cases h
        · exact absurd h hpost
    · have hpost : .label lab ∈ M2.map (·.e) := by
        refine Classical.byContradiction fun hpost => ?_
        have := lookup_absent (P := P) hpost ((code P M1).length + (c.code P).length) (labelsOf P 0 [] M1)
        rw [← hlab, ht] at this
        obtain ⟨p, hp, rfl⟩ := lookup_mem this.symm
        rcases mem_labelsOf hp with h | h
        · simp at h
        · omega
      obtain ⟨A, B, hAB, hB⟩ := split_last hpost
      obtain ⟨MA, MB', rfl, hA', hB'⟩ := List.map_eq_append_iff.1 hAB
      obtain ⟨d, MB, rfl, hd, hMB⟩ := List.map_eq_cons_iff.1 hB'
      have hlk := lookup_last (P := P) (M1 := M1 ++ c :: MA) (M2 := MB) hd (by rw [hMB]; exact hB)
      rw [List.append_assoc, List.cons_append, ← e1, ← hM.labels, ht, code_append, code_cons, q7] at hlk
      simp only [List.length_append, List.length_cons, List.length_replicate, Except.ok.injEq] at hlk
      have hne : ∃ j, .instr j ∈ MA.map (·.e) := by
        refine Classical.byContradiction fun hno => ?_
        have hcode := code_none (P := P) (M := MA) (fun i hi => hno ⟨i, hi⟩)
        rw [hcode] at hlk
        simp only [List.length_nil] at hlk
        omega
      obtain ⟨j, hjm⟩ := hne
      refine .backward (pre := M1.map (·.e)) (mid := MA.map (·.e)) (post := MB.map (·.e)) (i := i) (l := lab) ?_ q2 hbk hjm
      rw [hel]; simp [hd]

theorem mapM_err {α β : Type} {f : α → Py β} {l : List α} {e : PyErr} (h : l.mapM f = .error e) : ∃ x ∈ l, f x = .error e := by
  induction l with
  | nil => cases h
  | cons a l ih =>
    rw [List.mapM_cons] at h
    rcases except_bind_err h with h | ⟨y, _, h⟩
    · exact ⟨a, by simp, h⟩
    · rcases except_bind_err h with h | ⟨ys, _, h⟩
      · obtain ⟨x, hx, hh⟩ := ih h
        exact ⟨x, by simp [hx], hh⟩
      · cases h

theorem pyGet_err {α : Type} {l : List α} {i : Int} {e : PyErr} (h : pyGet l i = .error e) : e = .indexError := by
  unfold pyGet at h
  simp only at h
  generalize (if i < 0 then i + (l.length : Int) else i) = k at h
  by_cases hk : k < 0
  · rw [if_pos hk] at h; cases h; rfl
  · rw [if_neg hk] at h
    cases hl : l[k.toNat]? with
    | none => rw [hl] at h; cases h; rfl
    | some x => rw [hl] at h; cases h

/-- What is wrong when `to_concrete_bytecode` raises. -/
theorem toConcrete_err {P : Platform} (hP : P.WF) (key : Arg → κ) {b : Bytecode} (hw : WellMade P b) {passes : Nat} {e : PyErr}
    (h : toConcrete P key passes b = .error e) : Wrong P b passes e := by
  unfold toConcrete at h
  rcases except_bind_err h with h | ⟨st, hst, h⟩
  · exact concrete_err hP key hw h
  obtain ⟨hbase, hpre, hcount, M, hM, hblocks⟩ := start_base hP hw hst
  rcases except_bind_err h with h | ⟨out, hout, h⟩
  · rcases loop_err hP passes st.instrs hbase hpre h with hb | ⟨rfl, hn⟩
    · exact hb.wrong hM
    · have := ready_slack hbase.ready
      exact .passes (by omega)
  obtain ⟨hob, hlen⟩ := loop_base passes st.instrs out hbase hout
  rcases except_bind_err h with h | ⟨_, _, h⟩
  swap
  · cases h
  obtain ⟨p, hp, h⟩ := mapM_err h
  by_cases hlast : ∀ pre t post, b.elems = pre ++ .tryBegin t :: post → ∃ i, .instr i ∈ post
  swap
  · have hlast' : ∃ pre t post, b.elems = pre ++ .tryBegin t :: post ∧ ∀ i, .instr i ∉ post := by
      refine Classical.byContradiction fun hno => hlast fun pre t post he => Classical.byContradiction fun hx => hno ⟨pre, t, post, he, fun i hi => hx ⟨i, hi⟩⟩
    obtain ⟨pre, t, post, he, hno⟩ := hlast'
    unfold resolveEntry at h
    rcases except_bind_err h with h | ⟨_, _, h⟩
    · cases pyGet_err h; exact .last he hno
    rcases except_bind_err h with h | ⟨_, _, h⟩
    · cases pyGet_err h; exact .last he hno
    rcases except_bind_err h with h | ⟨ti, hti, h⟩
    · cases lookup_err h
      rw [hblocks] at hp
      rcases (blocks_entry (P := P) (M := M) 0 []).1 p hp with ⟨q, hq, _⟩ | hm
      · simp at hq
      · refine .handler (t := p.1) (by rw [← hM.elems]; exact hm) (fun hl => ?_)
        obtain ⟨x, hx, _⟩ := lookup_present (P := P) (M := M) (by rw [hM.elems]; exact hl) 0 []
        rw [hM.labels, hx] at h; cases h
    · rw [labelOffsets_get P out hob.ready.size, if_pos (hob.ready.label _ ti hti)] at h
      cases h
  · have hN : out.length = (code P M).length := by rw [hlen, hM.instrs]
    obtain ⟨_, e1, e2, e3, e4⟩ : EntryFits (b.elems.filterMap (fun x => match x with | .tryBegin t => some (t.target, 0) | _ => none)) out.length p := by
      rw [hblocks] at hp
      refine blocks_ok M 0 [] (by omega) (by simp) ?_ p hp
      intro pre t post he
      rw [hM.elems] at he
      refine ⟨?_, hlast pre t post he⟩
      unfold lookupLabel
      split
      · exact ⟨_, rfl⟩
      · rename_i hnone
        rw [List.find?_eq_none] at hnone
        refine absurd ?_ (hnone (t.target, 0) (List.mem_filterMap.2 ⟨.tryBegin t, by rw [he]; simp, rfl⟩))
        simp
    obtain ⟨x, hx⟩ := pyGet_total (l := instrOffsets P 0 out) (i := p.2.start) (by omega) (by rw [instrOffsets_length]; exact e2) (by rw [instrOffsets_length]; omega)
    obtain ⟨y, hy⟩ := pyGet_total (l := instrOffsets P 0 out) (i := p.2.stop) e3 (by rw [instrOffsets_length]; exact e4) (by rw [instrOffsets_length]; omega)
    unfold resolveEntry at h
    rw [hx, hy] at h
    simp only [bind, Except.bind] at h
    rcases except_bind_err h with h | ⟨ti, hti, h⟩
    · cases lookup_err h
      rw [hblocks] at hp
      rcases (blocks_entry (P := P) (M := M) 0 []).1 p hp with ⟨q, hq, _⟩ | hm
      · simp at hq
      · refine .handler (t := p.1) (by rw [← hM.elems]; exact hm) (fun hl => ?_)
        obtain ⟨x, hx, _⟩ := lookup_present (P := P) (M := M) (by rw [hM.elems]; exact hl) 0 []
        rw [hM.labels, hx] at h; cases h
    · rw [labelOffsets_get P out hob.ready.size, if_pos (hob.ready.label _ ti hti)] at h
      cases h

end
end Verif
