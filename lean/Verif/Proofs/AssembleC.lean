import Verif.Proofs.AssembleB
/-
The jumps and the exception table of a well-formed `Bytecode` are resolved.
-/
namespace Verif
open Spec

theorem labelsOf_append {P : Platform} (M1 M2 : List Cell) (n : Nat) (ls : List (Nat × Nat)) :
    labelsOf P n ls (M1 ++ M2) = labelsOf P (n + (code P M1).length) (labelsOf P n ls M1) M2 := by
  induction M1 generalizing n ls with
  | nil => simp [labelsOf, code]
  | cons c M1 ih =>
    rw [List.cons_append, code_cons, List.length_append, ← Nat.add_assoc]
    cases he : c.e with
    | label l =>
      have hc : (c.code P).length = 0 := by simp [Cell.code, he]
      rw [labelsOf, he]
      simp only
      rw [ih]
      conv_rhs => rw [labelsOf, he]
      simp only [hc, Nat.add_zero]
    | _ =>
      rw [labelsOf, he]
      simp only
      rw [ih]
      conv_rhs => rw [labelsOf, he]

theorem lookup_absent {P : Platform} {M : List Cell} {l : Nat} (h : .label l ∉ M.map (·.e)) (n : Nat) (ls : List (Nat × Nat)) :
    lookupLabel (labelsOf P n ls M) l = lookupLabel ls l := by
  induction M generalizing n ls with
  | nil => rfl
  | cons c M ih =>
    simp only [List.map_cons, List.mem_cons, not_or] at h
    rw [labelsOf.eq_def]
    simp only
    split
    · rename_i l' hl
      rw [ih h.2]
      have hne : (l' == l) = false := by
        rw [beq_eq_false_iff_ne]; rintro rfl; exact h.1 hl.symm
      simp [lookupLabel, List.find?_cons, hne]
    · exact ih h.2 _ _

theorem lookup_present {P : Platform} {M : List Cell} {l : Nat} (h : .label l ∈ M.map (·.e)) (n : Nat) (ls : List (Nat × Nat)) :
    ∃ t, lookupLabel (labelsOf P n ls M) l = .ok t ∧ n ≤ t := by
  induction M generalizing n ls with
  | nil => simp at h
  | cons c M ih =>
    by_cases hm : .label l ∈ M.map (·.e)
    · rw [labelsOf.eq_def]
      simp only
      split
      · exact ih hm _ _
      · obtain ⟨t, h1, h2⟩ := ih hm (n + (c.code P).length) ls
        exact ⟨t, h1, by omega⟩
    · have he : c.e = .label l := by
        rcases List.mem_cons.1 h with h | h
        · exact h.symm
        · exact absurd h hm
      rw [labelsOf, he]
      simp only
      rw [lookup_absent hm]
      exact ⟨n, by simp [lookupLabel], Nat.le_refl _⟩

theorem split_last {α : Type} {x : α} {l : List α} (h : x ∈ l) : ∃ s t, l = s ++ x :: t ∧ x ∉ t := by
  induction l with
  | nil => simp at h
  | cons y l ih =>
    by_cases hx : x ∈ l
    · obtain ⟨s, t, h1, h2⟩ := ih hx
      exact ⟨y :: s, t, by rw [h1]; rfl, h2⟩
    · rcases List.mem_cons.1 h with rfl | h
      · exact ⟨[], l, rfl, hx⟩
      · exact absurd h hx

/-- The position of a label is that of its last occurrence. -/
theorem lookup_last {P : Platform} {M1 M2 : List Cell} {d : Cell} {l : Nat} (hd : d.e = .label l) (h : .label l ∉ M2.map (·.e)) :
    lookupLabel (labelsOf P 0 [] (M1 ++ d :: M2)) l = .ok (code P M1).length := by
  rw [labelsOf_append, labelsOf, hd]
  simp only
  rw [lookup_absent h]
  simp [lookupLabel]

theorem code_none {P : Platform} {M : List Cell} (h : ∀ i, .instr i ∉ M.map (·.e)) : code P M = [] := by
  simp only [code, List.flatMap_eq_nil_iff]
  intro c hc
  cases he : c.e with
  | instr i => exact absurd (List.mem_map.2 ⟨c, hc, he⟩) (h i)
  | _ => simp [Cell.code, he]

/-- Jumps that go the right way, with room. -/
structure JGood (P : Platform) (labels jumps : List (Nat × Nat)) (l : List CInstr) : Prop where
  ready : Ready P labels jumps l
  big : ∀ i ∈ l, i.size ≤ 8
  len : 8 * l.length ≤ 2147483647
  dir : ∀ k lab, (k, lab) ∈ jumps → ∃ t, lookupLabel labels lab = .ok t ∧ ∀ ci, l[k]? = some ci →
    k + 1 + ci.useCacheOpcodes P ≤ l.length ∧ (isForwardRelJump P ci.name ci.opcode = true → k < t) ∧
    (isBackwardRelJump P ci.name ci.opcode = true → t ≤ k + 1 + ci.useCacheOpcodes P)
  caches : ∀ k lab, (k, lab) ∈ jumps → ∀ ci, l[k]? = some ci → ∀ j, k < j → j ≤ k + ci.useCacheOpcodes P →
    (∃ c, l[j]? = some c ∧ c.units P = 1) ∧ j ∉ jumps.map (·.1)

theorem pos_units {P : Platform} {l : List CInstr} (k n : Nat) (h : ∀ j, k ≤ j → j < k + n → ∃ c, l[j]? = some c ∧ c.units P = 1) :
    pos P l (k + n) = pos P l k + n := by
  induction n with
  | zero => rfl
  | succ n ih =>
    obtain ⟨c, h1, h2⟩ := h (k + n) (by omega) (by omega)
    have := pos_succ P l h1
    rw [← Nat.add_assoc, this, ih (fun j a b => h j a (by omega)), h2]
    omega

theorem pos_bound {P : Platform} {l : List CInstr} (h : ∀ i ∈ l, i.size ≤ 8) (k : Nat) : pos P l k ≤ 8 * l.length := by
  induction l generalizing k with
  | nil => simp [pos]
  | cons i l ih =>
    cases k with
    | zero => simp [pos]
    | succ k =>
      rw [pos_cons]
      have h1 := ih (fun x hx => h x (by simp [hx])) k
      have h2 : i.units P ≤ 8 := by
        have := h i (by simp)
        unfold CInstr.units; split <;> omega
      simp only [List.length_cons]
      omega

theorem JGood.pass {P : Platform} {labels jumps : List (Nat × Nat)} {l : List CInstr} (hP : P.WF) (h : JGood P labels jumps l) :
    ∃ r, jumpPass P labels jumps l = .ok r := by
  refine pass_good hP h.ready (fun k lab hk => ?_)
  obtain ⟨t, ht, hd⟩ := h.dir k lab hk
  obtain ⟨ci, hci, hj⟩ := h.ready.jump k lab hk
  obtain ⟨d1, d2, d3⟩ := hd ci hci
  have htl := h.ready.label lab t ht
  have hlen := h.len
  have hp := pos_succ P l hci
  have hb := pos_bound (P := P) h.big
  have hb1 := hb t
  have hb2 := pos_skip (P := P) h.ready.size d1 (Nat.le_refl _)
  have hb3 := hb l.length
  refine ⟨t, ci, ht, htl, hci, hj, ?_⟩
  unfold jumpArg
  by_cases hf : isForwardRelJump P ci.name ci.opcode = true
  · simp only [hf, if_true]
    have hc := h.ready.cache k lab t ci hk ht hci (d2 hf)
    have := pos_skip (P := P) h.ready.size hc htl
    omega
  · simp only [hf, Bool.false_eq_true, if_false]
    by_cases hbk : isBackwardRelJump P ci.name ci.opcode = true
    · simp only [hbk, if_true]
      have := pos_le_pos P l (d3 hbk)
      have h1 := pos_units (P := P) (l := l) (k + 1) (ci.useCacheOpcodes P) (fun j a b => (h.caches k lab hk ci hci j (by omega) (by omega)).1)
      omega
    · simp only [hbk, Bool.false_eq_true, if_false]
      omega

theorem JGood.next {P : Platform} {labels jumps : List (Nat × Nat)} {l out : List CInstr} {m : Bool} (h : JGood P labels jumps l)
    (hp : jumpPass P labels jumps l = .ok (out, m)) : JGood P labels jumps out := by
  have hs := pass_same h.ready hp
  obtain ⟨p1, _⟩ := jumpPass_ok h.ready.nodup hp
  refine ⟨pass_ready h.ready hp, ?_, by rw [hs.1]; exact h.len, ?_, ?_⟩
  · intro i hi
    obtain ⟨k, hk⟩ := List.mem_iff_getElem?.1 hi
    by_cases hm : k ∈ jumps.map (·.1)
    · obtain ⟨⟨k', lab⟩, hk', rfl⟩ := List.mem_map.1 hm
      obtain ⟨t, ci, _, _, g, _, _, g1, g2, _⟩ := pass_jump h.ready hp hk'
      simp only at hk
      rw [g2] at hk; cases hk
      exact sizeFor_le_8 (by omega)
    · rw [p1.other k hm] at hk
      exact h.big i (List.mem_of_getElem? hk)
  · intro k lab hk
    obtain ⟨t, ht, hd⟩ := h.dir k lab hk
    refine ⟨t, ht, fun ci' hci' => ?_⟩
    obtain ⟨ci, hci, _⟩ := h.ready.jump k lab hk
    obtain ⟨_, e1, e2, _⟩ := hs.2 k ci ci' hci hci'
    have := hd ci hci
    unfold CInstr.useCacheOpcodes at this ⊢
    rw [e1, e2, hs.1]
    exact this
  · intro k lab hk ci' hci' j hj1 hj2
    obtain ⟨ci, hci, _⟩ := h.ready.jump k lab hk
    obtain ⟨_, e1, e2, _⟩ := hs.2 k ci ci' hci hci'
    unfold CInstr.useCacheOpcodes at hj2
    rw [e2] at hj2
    obtain ⟨g1, g2⟩ := h.caches k lab hk ci hci j hj1 hj2
    exact ⟨by rw [p1.other j g2]; exact g1, g2⟩

theorem passes_total {P : Platform} {labels jumps : List (Nat × Nat)} (hP : P.WF) (n : Nat) (l : List CInstr) (h : JGood P labels jumps l)
    (hp : PreFix P labels jumps l) (hn : slack jumps l < n) : ∃ out, jumpLoop P labels jumps n l = .ok out ∧ JGood P labels jumps out ∧ out.length = l.length := by
  induction n generalizing l with
  | zero => omega
  | succ n ih =>
    obtain ⟨⟨out, m⟩, hr⟩ := h.pass hP
    simp only [jumpLoop]
    rw [hr]
    simp only [bind, Except.bind]
    have hlen := (pass_same h.ready hr).1
    cases m with
    | false => exact ⟨out, rfl, h.next hr, hlen⟩
    | true =>
      have := pass_slack h.ready hp hr
      obtain ⟨o, h1, h2, h3⟩ := ih out (h.next hr) (pass_prefix h.ready hp hr) (by omega)
      exact ⟨o, h1, h2, by rw [h3, hlen]⟩

/-- With too few passes, the only error is the RuntimeError at the end. -/
theorem loop_runtime {P : Platform} {labels jumps : List (Nat × Nat)} (hP : P.WF) (n : Nat) (l : List CInstr) (h : JGood P labels jumps l) :
    (∃ out, jumpLoop P labels jumps n l = .ok out ∧ JGood P labels jumps out ∧ out.length = l.length) ∨
      jumpLoop P labels jumps n l = .error .runtimeError := by
  induction n generalizing l with
  | zero => exact .inr rfl
  | succ n ih =>
    obtain ⟨⟨out, m⟩, hr⟩ := h.pass hP
    simp only [jumpLoop]
    rw [hr]
    simp only [bind, Except.bind]
    have hlen := (pass_same h.ready hr).1
    cases m with
    | false => exact .inl ⟨out, rfl, h.next hr, hlen⟩
    | true =>
      rcases ih out (h.next hr) with ⟨o, h1, h2, h3⟩ | he
      · exact .inl ⟨o, h1, h2, by rw [h3, hlen]⟩
      · exact .inr he

section
variable {κ : Type} [DecidableEq κ]

theorem mains_le (P : Platform) (n : String) (loc : Loc) (enc : Enc) : 1 ≤ (mains P n loc enc).length ∧ (mains P n loc enc).length ≤ 2 := by
  cases enc <;> simp [mains]

theorem cell_room {P : Platform} (hP : P.WF) {key : Arg → κ} {A : Attrs} {T : Tabs} {loc : Loc} {es : List BElem} {M : List Cell}
    (h : FLay P key A T loc es M) (hv : ∀ i, .instr i ∈ es → ValidInstr P i) {c : Cell} (hc : c ∈ M) : (c.code P).length ≤ room P c.e := by
  obtain ⟨m1, m2⟩ := h.mem hc
  cases he : c.e with
  | instr i =>
    rw [he] at m1
    obtain ⟨enc0, e1, e2, e3, _⟩ := m2 i he
    have hop := (hv i m1).name_op
    simp only [Cell.code, he, block, List.length_append, List.length_replicate, room]
    have hml := (mains_le P i.name c.loc c.enc).2
    have : nCaches P (lastName i.name c.enc) ≤ P.cacheEntries i.opcode := by
      unfold nCaches
      split
      · cases henc : c.enc with
        | split n1 i1 n2 i2 =>
          have : enc0 = .split n1 i1 n2 i2 := by
            rw [henc] at e3
            cases henc0 : enc0 with
            | split _ _ _ _ => rw [henc0] at e3; exact e3.symm
            | jump l => rw [henc0] at e3; obtain ⟨a, ha⟩ := e3; cases ha
            | _ => rw [henc0] at e3; cases e3
          rw [this] at e1
          have hd := (encode_split e1).1
          obtain ⟨o, o1, _⟩ := hP.dual_single _ _ _ hd n2 (.inr rfl)
          simp only [lastName, o1, Option.getD_some]
          rw [hP.dual_cache _ _ _ hd n2 (.inr rfl) o o1]
          omega
        | _ => simp [lastName, hop]
      · omega
    omega
  | _ => simp [Cell.code, he]

theorem code_room {P : Platform} {M : List Cell} (h : ∀ c ∈ M, (c.code P).length ≤ room P c.e) :
    (code P M).length ≤ ((M.map (·.e)).map (room P)).sum := by
  induction M with
  | nil => simp [code]
  | cons c M ih =>
    rw [code_cons, List.length_append]
    simp only [List.map_cons, List.sum_cons]
    have := h c (by simp)
    have := ih (fun x hx => h x (by simp [hx]))
    omega

/-- The size of the instructions built. -/
theorem code_big {P : Platform} {M : List Cell} (h : ∀ c ∈ M, ∀ i, c.e = .instr i → ∀ ci ∈ mains P i.name c.loc c.enc, Built P ci) :
    ∀ i ∈ code P M, i.size ≤ 8 := by
  intro i hi
  simp only [code, List.mem_flatMap] at hi
  obtain ⟨c, hc, hi⟩ := hi
  unfold Cell.code at hi
  split at hi
  · rename_i j hj
    simp only [block, List.mem_append, List.mem_replicate] at hi
    rcases hi with hi | ⟨_, rfl⟩
    · have hb := h c hc j hj i hi
      rw [hb.size]
      cases ha : i.arg with
      | none => simp [sizeFor, extNeeded]
      | some a => exact sizeFor_le_8 (hb.range a ha)
    · simp [mkI, sizeFor, extNeeded]
  · simp at hi

/-- The state before jump resolution: jumps go the right way. -/
theorem start_good {P : Platform} (hP : P.WF) {key : Arg → κ} {b : Bytecode} (hw : WellMade P b) (ha : Assemblable P b) {st : Conv}
    (h : concreteInstructions P key b = .ok st) :
    JGood P st.labels st.jumps st.instrs ∧ PreFix P st.labels st.jumps st.instrs ∧ st.jumps.length = jumpCount b.elems ∧
    ∃ M : List Cell, st.labels = labelsOf P 0 [] M ∧ st.blocks = blocksOf P 0 [] M ∧ M.map (·.e) = b.elems ∧ st.instrs = code P M := by
  have hv : ∀ i, .instr i ∈ b.elems → ValidInstr P i := fun i hi => (hw.valid i hi).1
  obtain ⟨_, _, M, g2, g3, g4, g5, g6, g7⟩ := concreteInstructions_layout hP (isCache_of hw) h
  have hj := g2.jumpCells hv
  have hM : Start P b st M := ⟨g3, g5, g4, g2.elems, hj, (by rw [g3, g4, g5]; exact ready_of_cells hj), (by
    intro k lab ci hk hci
    rw [g5] at hk; rw [g3] at hci
    exact initial_size g7 hj hk hci)⟩
  refine ⟨⟨hM.ready, ?_, ?_, ?_, ?_⟩, hM.pre, hM.count, M, g4, g6, g2.elems, g3⟩
  · rw [g3]
    exact code_big (fun c hc i hi => by
      obtain ⟨_, _, _, _, hb⟩ := (g2.mem hc).2 i hi
      exact hb)
  · rw [g3]
    have := code_room (fun c hc => cell_room hP g2 hv hc)
    rw [g2.elems] at this
    have := hw.size
    omega
  · intro k lab hk
    rw [g5] at hk
    obtain ⟨M1, c, M2, e1, e2, e3⟩ := mem_jumpsE hj hk
    have hcM : c ∈ M := by rw [e1]; simp
    obtain ⟨i, a, q1, q2, q3, q4, q5, q6, q7⟩ := (hj c hcM).code e3
    have hel : b.elems = M1.map (·.e) ++ .instr i :: M2.map (·.e) := by
      rw [← g2.elems, e1]; simp [q1]
    obtain ⟨l, hl, hlm⟩ := ha.jumps i (by rw [hel]; simp) q6
    rw [q2] at hl; cases hl
    have hcl : c.e ≠ .label lab := by rw [q1]; simp
    have hlab : st.labels = labelsOf P ((code P M1).length + (c.code P).length) (labelsOf P 0 [] M1) M2 := by
      rw [g4, e1, labelsOf_append]
      conv_lhs => rw [labelsOf, q1]
      simp only [Nat.zero_add]
    have hk' : k = (code P M1).length := by omega
    obtain ⟨t, ht, _⟩ := lookup_present (P := P) (M := M) (l := lab) (by rw [g2.elems]; exact hlm) 0 []
    refine ⟨t, by rw [g4]; exact ht, ?_⟩
    intro ci hci
    rw [g3, e1, code_append, code_cons, q7, hk', List.getElem?_append_right (Nat.le_refl _), Nat.sub_self] at hci
    simp only [List.cons_append, List.getElem?_cons_zero, Option.some.injEq] at hci
    subst hci
    have hcache : CInstr.useCacheOpcodes P (mkI P i.name (some a) c.loc) = nCaches P i.name := rfl
    have hopc : (mkI P i.name (some a) c.loc).opcode = i.opcode := by simp [mkI, q5]
    rw [hcache, hopc, mkI_name]
    refine ⟨?_, ?_, ?_⟩
    · rw [g3, e1, code_append, code_cons, List.length_append, List.length_append, q7]
      simp only [List.length_cons, List.length_replicate]
      omega
    · intro hf
      have hpost := ha.forward _ i _ lab hel q2 hf
      obtain ⟨t', ht', hge⟩ := lookup_present (P := P) hpost ((code P M1).length + (c.code P).length) (labelsOf P 0 [] M1)
      rw [← hlab, g4, ht] at ht'
      cases ht'
      rw [q7] at hge
      simp only [List.length_cons] at hge
      omega
    · intro hbk
      by_cases hpost : .label lab ∈ M2.map (·.e)
      · obtain ⟨A, B, hAB, hB⟩ := split_last hpost
        obtain ⟨MA, MB', rfl, hA', hB'⟩ := List.map_eq_append_iff.1 hAB
        obtain ⟨d, MB, rfl, hd, hMB⟩ := List.map_eq_cons_iff.1 hB'
        have hno := ha.backward (M1.map (·.e)) i (MA.map (·.e)) lab (MB.map (·.e)) (by
          rw [hel]; simp [hd]) q2 hbk
        have hcode := code_none (P := P) hno
        have := lookup_last (P := P) (M1 := M1 ++ c :: MA) (M2 := MB) hd (by rw [hMB]; exact hB)
        rw [List.append_assoc, List.cons_append, ← e1, ht, code_append, code_cons, hcode, q7] at this
        simp only [List.append_nil, List.length_append, List.length_cons, List.length_replicate, Except.ok.injEq] at this
        omega
      · have := lookup_absent (P := P) hpost ((code P M1).length + (c.code P).length) (labelsOf P 0 [] M1)
        rw [← hlab, g4, ht] at this
        obtain ⟨p, hp, rfl⟩ := lookup_mem this.symm
        rcases mem_labelsOf hp with h | h
        · simp at h
        · omega
  · intro k lab hk ci hci j hj1 hj2
    rw [g5] at hk
    obtain ⟨M1, c, M2, e1, e2, e3⟩ := mem_jumpsE hj hk
    have hcM : c ∈ M := by rw [e1]; simp
    obtain ⟨i, a, q1, q2, q3, q4, q5, q6, q7⟩ := (hj c hcM).code e3
    have hk' : k = (code P M1).length := by omega
    have hget : ∀ m, m ≤ nCaches P i.name → (code P M)[k + m]? = (mkI P i.name (some a) c.loc :: List.replicate (nCaches P i.name) (mkI P "CACHE" (some 0) c.loc))[m]? := by
      intro m hm
      rw [e1, code_append, code_cons, q7, hk', List.getElem?_append_right (by omega), Nat.add_sub_cancel_left,
        List.getElem?_append_left (by simp only [List.length_cons, List.length_replicate]; omega)]
    have h0 := hget 0 (by omega)
    rw [g3, ← Nat.add_zero k, h0] at hci
    simp only [List.getElem?_cons_zero, Option.some.injEq] at hci
    subst hci
    have hcache : CInstr.useCacheOpcodes P (mkI P i.name (some a) c.loc) = nCaches P i.name := rfl
    rw [hcache] at hj2
    obtain ⟨m, rfl⟩ : ∃ m, j = k + (m + 1) := ⟨j - k - 1, by omega⟩
    have hm := hget (m + 1) (by omega)
    rw [List.getElem?_cons_succ, List.getElem?_replicate_of_lt (by omega)] at hm
    have h11 : P.py311 = true := by
      unfold nCaches at hj2
      by_cases h : P.py311 = true
      · exact h
      · rw [if_neg h] at hj2; omega
    have h10 : P.py310 = true := by simp [Platform.py311, Platform.py310] at h11 ⊢; omega
    refine ⟨⟨_, by rw [g3]; exact hm, by simp [CInstr.units, h10, mkI, sizeFor, extNeeded]⟩, ?_⟩
    intro hmem
    obtain ⟨⟨k', lab'⟩, hk2, hkk⟩ := List.mem_map.1 hmem
    simp only at hkk
    subst hkk
    rw [g5] at hk2
    obtain ⟨M1', c', M2', e1', e2', e3'⟩ := mem_jumpsE hj hk2
    have hcM' : c' ∈ M := by rw [e1']; simp
    obtain ⟨i', a', q1', _, _, _, _, _, q7'⟩ := (hj c' hcM').code e3'
    have hname : i'.name ≠ "CACHE" := (hw.valid i' (by rw [← g2.elems, e1']; simp [q1'])).2
    rw [e2', Nat.zero_add, e1', code_append, code_cons, q7', List.getElem?_append_right (Nat.le_refl _), Nat.sub_self] at hm
    simp only [List.cons_append, List.getElem?_cons_zero, Option.some.injEq] at hm
    exact hname (by simpa [mkI] using congrArg CInstr.name hm)

/-- What the resolution of an entry of the exception table needs. -/
def EntryFits (labels : List (Nat × Nat)) (N : Nat) (p : TryB × ExcEntry) : Prop :=
  (∃ t, lookupLabel labels p.1.target = .ok t) ∧ 0 ≤ p.2.start ∧ p.2.start < N ∧ -1 ≤ p.2.stop ∧ p.2.stop < N

theorem blocks_ok {P : Platform} {labels : List (Nat × Nat)} {N : Nat} (M : List Cell) (n : Nat) (bs : List (TryB × ExcEntry))
    (hN : n + (code P M).length = N) (hbs : ∀ p ∈ bs, EntryFits labels N p)
    (hb : ∀ pre t post, M.map (·.e) = pre ++ .tryBegin t :: post → (∃ x, lookupLabel labels t.target = .ok x) ∧ ∃ i, .instr i ∈ post) :
    ∀ p ∈ blocksOf P n bs M, EntryFits labels N p := by
  induction M generalizing n bs with
  | nil => exact hbs
  | cons c M ih =>
    rw [code_cons, List.length_append] at hN
    have hb' : ∀ pre t post, M.map (·.e) = pre ++ .tryBegin t :: post → (∃ x, lookupLabel labels t.target = .ok x) ∧ ∃ i, .instr i ∈ post := by
      intro pre t post he
      exact hb (c.e :: pre) t post (by rw [List.map_cons, he]; rfl)
    rw [blocksOf.eq_def]
    simp only
    split
    · rename_i t ht
      have hc0 : (c.code P).length = 0 := by simp [Cell.code, ht]
      refine ih n _ (by omega) ?_ hb'
      obtain ⟨hx, i, hi⟩ := hb [] t (M.map (·.e)) (by rw [List.map_cons, ht]; rfl)
      have hpos : 0 < (code P M).length := by
        obtain ⟨d, hd, hde⟩ := List.mem_map.1 hi
        have h1 : 0 < (d.code P).length := by
          simp only [Cell.code, hde, block, List.length_append]
          have := (mains_le P i.name d.loc d.enc).1
          omega
        obtain ⟨pre, post, rfl⟩ := List.append_of_mem hd
        rw [code_append, code_cons, List.length_append, List.length_append]
        omega
      have hnew : ∀ q : TryB × ExcEntry, (∃ x, lookupLabel labels q.1.target = .ok x) →
          EntryFits labels N (q.1, ⟨n, 0, 0, t.depth.getD 0, t.lasti⟩) := by
        intro q hq
        exact ⟨hq, by simp, by simp only; omega, by simp, by simp only; omega⟩
      intro p hp
      unfold setBlock at hp
      split at hp
      · obtain ⟨q, hq, rfl⟩ := List.mem_map.1 hp
        split
        · exact hnew q (hbs q hq).1
        · exact hbs q hq
      · rcases List.mem_append.1 hp with hp | hp
        · exact hbs p hp
        · rw [List.mem_singleton] at hp
          subst hp
          exact hnew (t, ⟨0, 0, 0, 0, false⟩) hx
    · rename_i id ht
      have hc0 : (c.code P).length = 0 := by simp [Cell.code, ht]
      refine ih n _ (by omega) ?_ hb'
      intro p hp
      obtain ⟨q, hq, rfl⟩ := List.mem_map.1 hp
      obtain ⟨e1, e2, e3, e4, e5⟩ := hbs q hq
      split
      · exact ⟨e1, e2, e3, by simp only; omega, by simp only; omega⟩
      · exact ⟨e1, e2, e3, e4, e5⟩
    · exact ih _ _ (by omega) hbs hb'

theorem pyGet_total {α : Type} {l : List α} {i : Int} (h1 : -1 ≤ i) (h2 : i < l.length) (h0 : 0 < l.length) : ∃ x, pyGet l i = .ok x := by
  unfold pyGet
  simp only
  have hk : 0 ≤ (if i < 0 then i + (l.length : Int) else i) ∧ (if i < 0 then i + (l.length : Int) else i) < l.length := by
    split <;> omega
  generalize (if i < 0 then i + (l.length : Int) else i) = k at hk
  rw [if_neg (by omega)]
  have : k.toNat < l.length := by omega
  rw [List.getElem?_eq_getElem this]
  exact ⟨_, rfl⟩

theorem mapM_total {α β : Type} {f : α → Py β} (l : List α) (h : ∀ x ∈ l, ∃ y, f x = .ok y) : ∃ ys, l.mapM f = .ok ys := by
  induction l with
  | nil => exact ⟨[], rfl⟩
  | cons a l ih =>
    obtain ⟨y, hy⟩ := h a (by simp)
    obtain ⟨ys, hys⟩ := ih (fun x hx => h x (by simp [hx]))
    rw [List.mapM_cons, hy]
    simp only [bind, Except.bind]
    rw [hys]
    exact ⟨_, rfl⟩

theorem bind_error {α β : Type} {x : Py α} {f : α → Py β} {a : α} {e : PyErr} (h : x = .ok a) (h' : f a = .error e) : (x >>= f) = .error e := by
  rw [h]; exact h'

/-- The conversion does not fail, but for the number of passes. -/
theorem toConcrete_total' {P : Platform} (hP : P.WF) (key : Arg → κ) {b : Bytecode} (hw : WellMade P b) (ha : Assemblable P b) (passes : Nat) :
    (∃ c, toConcrete P key passes b = .ok c) ∨ (toConcrete P key passes b = .error .runtimeError ∧ passes ≤ 3 * jumpCount b.elems) := by
  obtain ⟨st, hst⟩ := concrete_total hP key hw ha
  obtain ⟨hg, hpre, hcount, M, m1, m2, m3, m4⟩ := start_good hP hw ha hst
  rcases loop_runtime hP passes st.instrs hg with ⟨out, hout, hgo, hlen⟩ | herr
  swap
  · right
    refine ⟨bind_error hst (by rw [herr]; rfl), ?_⟩
    by_cases hp : 3 * jumpCount b.elems < passes
    · obtain ⟨out, hout, _⟩ := passes_total hP passes st.instrs hg hpre (by have := ready_slack hg.ready; omega)
      rw [herr] at hout; cases hout
    · omega
  left
  unfold toConcrete
  refine bind_total hst (bind_total hout ?_)
  have hN : out.length = (code P M).length := by rw [hlen, m4]
  have hents : ∀ p ∈ st.blocks, EntryFits st.labels out.length p := by
    rw [m2, hN]
    refine blocks_ok M 0 [] (by omega) (by simp) ?_
    intro pre t post he
    rw [m3] at he
    obtain ⟨_, b2, b3⟩ := ha.begins pre t post he
    obtain ⟨x, hx, _⟩ := lookup_present (P := P) (M := M) (by rw [m3]; exact b2) 0 []
    rw [m1]
    exact ⟨⟨x, hx⟩, b3⟩
  obtain ⟨tbl, htbl⟩ := mapM_total (f := resolveEntry P st.labels out) st.blocks (by
    intro p hp
    obtain ⟨⟨t, ht⟩, e1, e2, e3, e4⟩ := hents p hp
    obtain ⟨x, hx⟩ := pyGet_total (l := instrOffsets P 0 out) (i := p.2.start) (by omega) (by rw [instrOffsets_length]; exact e2) (by rw [instrOffsets_length]; omega)
    obtain ⟨y, hy⟩ := pyGet_total (l := instrOffsets P 0 out) (i := p.2.stop) e3 (by rw [instrOffsets_length]; exact e4) (by rw [instrOffsets_length]; omega)
    unfold resolveEntry
    refine bind_total hx (bind_total hy (bind_total ht ?_))
    rw [labelOffsets_get P out hgo.ready.size, if_pos (hgo.ready.label _ t ht)]
    exact ⟨_, rfl⟩)
  exact bind_total htbl ⟨_, rfl⟩

/-- The conversion does not fail. -/
theorem toConcrete_total {P : Platform} (hP : P.WF) (key : Arg → κ) {b : Bytecode} (hw : WellMade P b) (ha : Assemblable P b) {passes : Nat}
    (hp : 3 * jumpCount b.elems < passes) : ∃ c, toConcrete P key passes b = .ok c := by
  rcases toConcrete_total' hP key hw ha passes with h | ⟨_, h⟩
  · exact h
  · omega

end
end Verif
