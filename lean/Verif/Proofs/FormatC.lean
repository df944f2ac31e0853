import Verif.Proofs.FormatB
/-
The text of a ConcreteBytecode determines it, for C57.
-/
namespace Verif
open Spec

theorem intText_inj {a b : Int} (h : intText a = intText b) : a = b := by
  have hd : ∀ n m, decimal n ≠ '-' :: decimal m := fun n m hh => by
    have : '-' ∈ decimal n := by rw [hh]; simp
    exact decimal_ne (by decide) this
  cases a with
  | ofNat n =>
    cases b with
    | ofNat m => simp only [intText] at h; rw [decimal_inj h]
    | negSucc m => exact absurd h (hd _ _)
  | negSucc n =>
    cases b with
    | ofNat m => exact absurd h.symm (hd _ _)
    | negSucc m =>
      simp only [intText] at h
      have := decimal_inj (List.cons.inj h).2
      rw [show n = m from by omega]

theorem intText_no {a : Int} {c : Char} (hc : c.isDigit = false) (hm : c ≠ '-') : c ∉ intText a := by
  cases a with
  | ofNat n => exact decimal_ne hc
  | negSucc n =>
    simp only [intText, List.mem_cons, not_or]
    exact ⟨hm, decimal_ne hc⟩

theorem formatEntry_inj {x y : ExcEntry} {U V : Text} (h : formatEntry x ++ U = formatEntry y ++ V) : x = y ∧ U = V := by
  simp only [formatEntry, List.append_assoc, List.cons_append, List.nil_append] at h
  obtain ⟨h1, h2⟩ := sep_inj (c := ' ') (intText_no (by decide) (by decide)) (intText_no (by decide) (by decide)) h
  have h3 := (List.cons.inj (List.cons.inj (List.cons.inj h2).2).2).2
  obtain ⟨h4, h5⟩ := sep_inj (c := ' ') (intText_no (by decide) (by decide)) (intText_no (by decide) (by decide)) h3
  have h6 := (List.cons.inj (List.cons.inj (List.cons.inj h5).2).2).2
  obtain ⟨h7, h8⟩ := sep_inj (c := ' ') (intText_no (by decide) (by decide)) (intText_no (by decide) (by decide)) h6
  have h9 := (List.cons.inj h8).2
  obtain ⟨h10, h11⟩ := sep_inj (c := ']') (intText_no (by decide) (by decide)) (intText_no (by decide) (by decide)) h9
  obtain ⟨a1, a2, a3, a4, a5⟩ := x
  obtain ⟨b1, b2, b3, b4, b5⟩ := y
  simp only at h1 h4 h7 h10 h11
  rw [intText_inj h1, intText_inj h4, intText_inj h7, intText_inj h10]
  cases a5 <;> cases b5 <;> simp at h11 ⊢
  · exact h11
  · exact h11

theorem formatEntries_inj : ∀ {xs ys : List ExcEntry}, xs.flatMap formatEntry = ys.flatMap formatEntry → xs = ys
  | [], [], _ => rfl
  | [], y :: ys, h => by
    exfalso
    have := congrArg List.length h
    simp [formatEntry] at this
  | x :: xs, [], h => by
    exfalso
    have := congrArg List.length h
    simp [formatEntry] at this
  | x :: xs, y :: ys, h => by
    simp only [List.flatMap_cons] at h
    obtain ⟨h1, h2⟩ := formatEntry_inj h
    rw [h1, formatEntries_inj h2]

/-- The part of the text about the exception table. -/
def tableText (xs : List ExcEntry) : Text := if xs.isEmpty then [] else (txt "\nException table:\n") ++ xs.flatMap formatEntry

theorem tableText_inj {xs ys : List ExcEntry} (h : tableText xs = tableText ys) : xs = ys := by
  cases xs with
  | nil =>
    cases ys with
    | nil => rfl
    | cons y ys => simp [tableText] at h
  | cons x xs =>
    cases ys with
    | nil => simp [tableText] at h
    | cons y ys =>
      simp only [tableText, List.isEmpty_cons, Bool.false_eq_true, if_false] at h
      exact formatEntries_inj (List.append_cancel_left h)

theorem tableText_head (xs : List ExcEntry) : tableText xs = [] ∨ ∃ r, tableText xs = '\n' :: r := by
  cases xs with
  | nil => exact .inl rfl
  | cons x xs => exact .inr ⟨_, rfl⟩

theorem tableText_last (xs : List ExcEntry) : tableText xs = [] ∨ ∃ r, tableText xs = r ++ ['\n'] ∧ r ≠ [] := by
  cases xs with
  | nil => exact .inl rfl
  | cons x xs =>
    right
    have h : ∀ (zs : List ExcEntry) (z : ExcEntry), ∃ r, (z :: zs).flatMap formatEntry = r ++ ['\n'] := by
      intro zs
      induction zs with
      | nil => intro z; exact ⟨_, by simp only [List.flatMap_cons, List.flatMap_nil, List.append_nil, formatEntry]; rfl⟩
      | cons w ws ih =>
        intro z
        obtain ⟨r, hr⟩ := ih w
        exact ⟨formatEntry z ++ r, by rw [List.flatMap_cons, hr, List.append_assoc]⟩
    obtain ⟨r, hr⟩ := h xs x
    refine ⟨(txt "\nException table:\n") ++ r, ?_, by simp⟩
    simp only [tableText, List.isEmpty_cons, Bool.false_eq_true, if_false, hr, List.append_assoc]

theorem cText_inj {repr : Arg → Text} (hr : ∀ n : Nat, repr (.int n) = decimal n) {i j : CInstr} (hi : OpName i.name) (hj : OpName j.name)
    (h : formatInstr repr (fun _ => none) (fun _ => none) i.name (cargOf i.arg) =
      formatInstr repr (fun _ => none) (fun _ => none) j.name (cargOf j.arg)) : i.name = j.name ∧ i.arg = j.arg := by
  have hsp : ∀ {k : String}, OpName k → ' ' ∉ k.toList := fun hk => opName_no hk (by decide)
  cases ha : i.arg with
  | none =>
    cases hb : j.arg with
    | none =>
      rw [ha, hb] at h
      exact ⟨String.toList_inj.mp h, rfl⟩
    | some m =>
      rw [ha, hb] at h
      simp only [cargOf, formatInstr] at h
      exact absurd (by rw [h]; simp) (hsp hi)
  | some n =>
    cases hb : j.arg with
    | none =>
      rw [ha, hb] at h
      simp only [cargOf, formatInstr] at h
      exact absurd (by rw [← h]; simp) (hsp hj)
    | some m =>
      rw [ha, hb] at h
      simp only [cargOf, formatInstr, hr] at h
      obtain ⟨h1, h2⟩ := sep_inj (hsp hi) (hsp hj) h
      exact ⟨String.toList_inj.mp h1, by rw [decimal_inj h2]⟩

theorem cText_line {repr : Arg → Text} (hr : ∀ n : Nat, repr (.int n) = decimal n) {i : CInstr} (hi : OpName i.name) :
    '\n' ∉ formatInstr repr (fun _ => none) (fun _ => none) i.name (cargOf i.arg) ∧
    ∃ c r, formatInstr repr (fun _ => none) (fun _ => none) i.name (cargOf i.arg) = c :: r ∧ (c.isUpper ∨ c.isDigit ∨ c = '_') := by
  obtain ⟨c, r, h, hc⟩ := opName_head hi
  have h1 : '\n' ∉ i.name.toList := opName_no hi (by decide)
  cases i.arg with
  | none => exact ⟨h1, c, r, h, hc⟩
  | some n =>
    simp only [cargOf, formatInstr, hr]
    refine ⟨?_, c, r ++ ' ' :: decimal n, by rw [h]; rfl, hc⟩
    simp only [List.mem_append, List.mem_cons, not_or]
    exact ⟨h1, by decide, decimal_ne (by decide)⟩

/-- The line of a concrete instruction. -/
def cLine (ln : Bool) (repr : Arg → Text) (off : Nat) (s : FmtSt) (i : CInstr) : Text × FmtSt :=
  if ln then (s.at_ i.loc).line ln off (formatInstr repr (fun _ => none) (fun _ => none) i.name (cargOf i.arg))
  else (pad3 (decimal off) ++ (txt "    ") ++ formatInstr repr (fun _ => none) (fun _ => none) i.name (cargOf i.arg), s.at_ i.loc)

theorem cLine_inj {ln : Bool} {repr : Arg → Text} (hr : ∀ n : Nat, repr (.int n) = decimal n) {o p : Nat} {sa sb : FmtSt} (hs : sa.prev = sb.prev)
    {i j : CInstr} (hi : OpName i.name) (hj : OpName j.name) {U V : Text}
    (h : (cLine ln repr o sa i).1 ++ '\n' :: U = (cLine ln repr p sb j).1 ++ '\n' :: V) :
    i.name = j.name ∧ i.arg = j.arg ∧ o = p ∧ U = V ∧ (ln = true → lineAfter sa.cur i.loc = lineAfter sb.cur j.loc) ∧
    (cLine ln repr o sa i).2.prev = (cLine ln repr p sb j).2.prev := by
  obtain ⟨a1, ca, ra, a2, a3⟩ := cText_line hr hi
  obtain ⟨b1, cb, rb, b2, b3⟩ := cText_line hr hj
  cases ln with
  | false =>
    simp only [cLine, Bool.false_eq_true, if_false, List.append_assoc, List.cons_append, List.nil_append] at h ⊢
    obtain ⟨h1, h2⟩ := pad_inj (c := ' ') (n := 0) (m := 0) (by decide) (by simpa using h)
    have h3 := (List.cons.inj (List.cons.inj (List.cons.inj h2).2).2).2
    obtain ⟨h4, h5⟩ := sep_inj a1 b1 h3
    obtain ⟨h6, h7⟩ := cText_inj hr hi hj h4
    exact ⟨h6, h7, h1, h5, (fun h => by simp at h), by rw [(at_rest _ _).1, (at_rest _ _).1, hs]⟩
  | true =>
    simp only [cLine, if_true] at h ⊢
    obtain ⟨h1, h2, h3⟩ := line_inj (n := 0) (m := 0) (s := sa.at_ i.loc) (t := sb.at_ j.loc) (by rw [(at_rest _ _).1, (at_rest _ _).1, hs])
      ⟨ca, ra, a2, upper_ne a3 (by decide)⟩ ⟨cb, rb, b2, upper_ne b3 (by decide)⟩ a1 b1 (by simpa using h)
    obtain ⟨h6, h7⟩ := cText_inj hr hi hj h1
    have h8 := (h3 rfl).1
    refine ⟨h6, h7, (h3 rfl).2, h2, (fun _ => by rw [← at_cur, ← at_cur]; exact h8), ?_⟩
    rw [(line_rest _ _ _ _).2.2.2, (line_rest _ _ _ _).2.2.2]
    simp only [if_true]
    rw [h8]

theorem cLine_cur (ln : Bool) (repr : Arg → Text) (off : Nat) (s : FmtSt) (i : CInstr) : (cLine ln repr off s i).2.cur = lineAfter s.cur i.loc := by
  cases ln with
  | false => simp only [cLine, Bool.false_eq_true, if_false, at_cur]
  | true => simp only [cLine, if_true, (line_rest _ _ _ _).1, at_cur]

theorem cLine_head {ln : Bool} {repr : Arg → Text} (hr : ∀ n : Nat, repr (.int n) = decimal n) {o : Nat} {s : FmtSt} {i : CInstr} (hi : OpName i.name)
    (R : Text) : ∃ p c r, (cLine ln repr o s i).1 ++ R = List.replicate p ' ' ++ c :: r ∧ (c.isUpper ∨ c.isDigit ∨ c = '_') := by
  cases ln with
  | false =>
    simp only [cLine, Bool.false_eq_true, if_false]
    obtain ⟨p, ep⟩ := pad3_spaces o
    obtain ⟨c, r, hc, hd⟩ := decimal_cons o
    exact ⟨p, c, _, by rw [ep, hc]; simp only [List.append_assoc, List.cons_append]; rfl, .inr (.inl hd)⟩
  | true =>
    obtain ⟨p, c, r, h, hc⟩ := line_head true (s.at_ i.loc) 0 o (cText_line hr hi).2
    refine ⟨p, c, r ++ R, ?_, hc⟩
    simp only [cLine, if_true]
    simp only [List.replicate_zero, List.nil_append] at h
    rw [h]; simp

theorem formatConcrete_cons {ln : Bool} {repr : Arg → Text} {off : Nat} {s : FmtSt} {e : CElem} {r : List CElem} {t : Text}
    (h : formatConcreteElems ln repr off s (e :: r) = .ok t) :
    ∃ i u, e = .instr i ∧ formatConcreteElems ln repr (off + i.size) (cLine ln repr off s i).2 r = .ok u ∧
      t = (cLine ln repr off s i).1 ++ '\n' :: u := by
  cases e with
  | setLineno n => simp only [formatConcreteElems] at h; cases h
  | instr i =>
    refine ⟨i, ?_⟩
    simp only [formatConcreteElems] at h
    obtain ⟨u, h1, h2⟩ := except_bind_ok h
    have h3 := (Except.ok.inj h2).symm
    refine ⟨u, rfl, h1, ?_⟩
    rw [h3]
    simp only [cLine, List.append_assoc]
    rfl

/-- The instructions of a list. -/
def cinstrsOf (es : List CElem) : List CInstr := es.filterMap (fun | .instr i => some i | _ => none)

/-- The line shown at the end of a list of concrete instructions. -/
def shownLineC (first : Nat) (is : List CInstr) : Nat := is.foldl (fun c i => lineAfter c i.loc) first

theorem formatConcreteElems_inj {ln : Bool} {repr : Arg → Text} (hr : ∀ n : Nat, repr (.int n) = decimal n) {xa xb : List ExcEntry} {fa fb : Nat} :
    ∀ (ea eb : List CElem) (pa pb : List CInstr) (sa sb : FmtSt) (oa ob : Nat) (ta tb : Text),
    (∀ i, .instr i ∈ ea → OpName i.name) → (∀ i, .instr i ∈ eb → OpName i.name) → sa.prev = sb.prev →
    sa.cur = shownLineC fa pa → sb.cur = shownLineC fb pb → oa = (pa.map (·.size)).sum → ob = (pb.map (·.size)).sum →
    formatConcreteElems ln repr oa sa ea = .ok ta → formatConcreteElems ln repr ob sb eb = .ok tb → ta ++ tableText xa = tb ++ tableText xb →
    ∃ ia ib : List CInstr, ea = ia.map .instr ∧ eb = ib.map .instr ∧ ia.length = ib.length ∧ xa = xb ∧
      ∀ (n : Nat) (i j : CInstr), ia[n]? = some i → ib[n]? = some j → i.name = j.name ∧ i.arg = j.arg ∧
        ((pa ++ ia.take n).map (·.size)).sum = ((pb ++ ib.take n).map (·.size)).sum ∧
        (ln = true → shownLineC fa (pa ++ ia.take (n + 1)) = shownLineC fb (pb ++ ib.take (n + 1))) := by
  intro ea
  have hend : ∀ {o : Nat} {s : FmtSt} {i : CInstr} {u : Text} {xs : List ExcEntry}, OpName i.name →
      tableText xs = (cLine ln repr o s i).1 ++ u → False := by
    intro o s i u xs hi h
    obtain ⟨p, c, r, h1, hc⟩ := cLine_head (ln := ln) hr (o := o) (s := s) hi u
    rw [h1] at h
    rcases tableText_head xs with h2 | ⟨q, h2⟩
    · rw [h2] at h
      have := congrArg List.length h
      simp at this
    · rw [h2] at h
      exact line_ne (m := 0) (d := '\n') hc (by decide) (by decide) (h.symm.trans (by simp; rfl))
  induction ea with
  | nil =>
    intro eb pa pb sa sb oa ob ta tb hna hnb hp hca hcb hoa hob ha hb ht
    simp only [formatConcreteElems, Except.ok.injEq] at ha
    subst ha
    cases eb with
    | nil =>
      simp only [formatConcreteElems, Except.ok.injEq] at hb
      subst hb
      exact ⟨[], [], rfl, rfl, rfl, tableText_inj (by simpa using ht), by simp⟩
    | cons f r =>
      obtain ⟨i, u, rfl, _, h2⟩ := formatConcrete_cons hb
      rw [h2, List.nil_append, List.append_assoc] at ht
      exact (hend (hnb i (by simp)) ht).elim
  | cons e ra ih =>
    intro eb pa pb sa sb oa ob ta tb hna hnb hp hca hcb hoa hob ha hb ht
    obtain ⟨i, u, rfl, h1, h2⟩ := formatConcrete_cons ha
    cases eb with
    | nil =>
      simp only [formatConcreteElems, Except.ok.injEq] at hb
      subst hb
      rw [h2, List.nil_append, List.append_assoc] at ht
      exact (hend (hna i (by simp)) ht.symm).elim
    | cons f rb =>
      obtain ⟨j, v, rfl, g1, g2⟩ := formatConcrete_cons hb
      rw [h2, g2, List.append_assoc, List.append_assoc] at ht
      obtain ⟨k1, k2, k3, k4, k5, k6⟩ := cLine_inj hr hp (hna i (by simp)) (hnb j (by simp)) ht
      obtain ⟨ia, ib, m1, m2, m3, m4, m5⟩ := ih rb (pa ++ [i]) (pb ++ [j]) _ _ _ _ _ _
        (fun x hx => hna x (List.mem_cons_of_mem _ hx)) (fun x hx => hnb x (List.mem_cons_of_mem _ hx)) k6
        (by rw [cLine_cur, hca]; simp [shownLineC]) (by rw [cLine_cur, hcb]; simp [shownLineC]) (by simp [hoa]) (by simp [hob]) h1 g1 k4
      refine ⟨i :: ia, j :: ib, by simp [m1], by simp [m2], by simp [m3], m4, ?_⟩
      intro n i' j' hi' hj'
      cases n with
      | zero =>
        simp only [List.getElem?_cons_zero, Option.some.injEq] at hi' hj'
        subst hi'; subst hj'
        refine ⟨k1, k2, by simpa [← hoa, ← hob] using k3, ?_⟩
        intro hln
        have := k5 hln
        rw [hca, hcb] at this
        simpa [shownLineC] using this
      | succ n =>
        simp only [List.getElem?_cons_succ] at hi' hj'
        obtain ⟨n1, n2, n3, n4⟩ := m5 n i' j' hi' hj'
        exact ⟨n1, n2, by simpa using n3, by simpa using n4⟩

end Verif
