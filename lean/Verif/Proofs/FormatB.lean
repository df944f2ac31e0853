import Verif.Proofs.FormatLine
import Verif.Proofs.Encode
/-
The text of a Bytecode determines it, for C57.
-/
namespace Verif
open Spec

theorem at_cur (s : FmtSt) (l : Option Loc) : (s.at_ l).cur = lineAfter s.cur l := by
  cases l with
  | none => rfl
  | some l =>
    simp only [FmtSt.at_, lineAfter]
    cases l.lineno <;> rfl

theorem at_rest (s : FmtSt) (l : Option Loc) : (s.at_ l).prev = s.prev ∧ (s.at_ l).tries = s.tries ∧ (s.at_ l).indent = s.indent := by
  cases l with
  | none => exact ⟨rfl, rfl, rfl⟩
  | some l =>
    simp only [FmtSt.at_]
    cases l.lineno <;> exact ⟨rfl, rfl, rfl⟩

theorem line_rest (ln : Bool) (s : FmtSt) (k : Nat) (x : Text) :
    (s.line ln k x).2.cur = s.cur ∧ (s.line ln k x).2.tries = s.tries ∧ (s.line ln k x).2.indent = s.indent ∧
    (s.line ln k x).2.prev = if ln then some s.cur else s.prev := by
  unfold FmtSt.line
  cases ln with
  | false => simp
  | true =>
    simp only [if_true]
    split
    · simp
    · rename_i h; simp only [ne_eq, not_not] at h; simp [h]

/-- The state in which the line of an element is written, and the state after it. `dec` tells whether a TryEnd moves the
indentation. -/
def fmtPre (dec : Bool) (s : FmtSt) : BElem → FmtSt
  | .instr i => s.at_ i.loc
  | .tryEnd _ => if dec then { s with indent := s.indent - 2 } else s
  | _ => s

/-- The line of an element, and the state after it. -/
def fmtStep (ln dec : Bool) (repr : Arg → Text) (L B : Nat → Option Nat) (pfx : Text) (T : Nat → Option Nat) (k : Nat) (s : FmtSt) (e : BElem) :
    Text × FmtSt :=
  let s' := fmtPre dec s e
  let p := s'.line ln k (bodyText repr L B pfx T s.tries e)
  (List.replicate s'.indent ' ' ++ (p.1 ++ ['\n']),
    match e with
    | .tryBegin t => { p.2 with tries := s.tries ++ [t.id], indent := s.indent + 2 }
    | _ => p.2)

theorem formatCode_step (ln dec : Bool) (repr : Arg → Text) (L B : Nat → Option Nat) (pfx : Text) (T : Nat → Option Nat) (k : Nat) (s : FmtSt)
    (i : Instr) : formatCode ln repr (nameOf (txt "label_instr") L) (nameOf (txt "block") B) k s i =
      fmtStep ln dec repr L B pfx T k s (.instr i) := by
  simp [formatCode, fmtStep, fmtPre, bodyText, FmtSt.ind]

theorem formatBegin_step (ln dec : Bool) (repr : Arg → Text) (L B : Nat → Option Nat) (pfx : Text) (T : Nat → Option Nat) (k : Nat) (s : FmtSt)
    (t : TryB) : formatBegin ln (nameOf pfx T) k s t = fmtStep ln dec repr L B pfx T k s (.tryBegin t) := by
  simp only [formatBegin, fmtStep, fmtPre, bodyText, FmtSt.ind, formatTryBegin, beginText, FmtSt.line, List.append_assoc]
  cases ln with
  | false => simp
  | true =>
    simp only [if_true]
    split <;> simp

theorem formatEnd_step (ln dec : Bool) (repr : Arg → Text) (L B : Nat → Option Nat) (pfx : Text) (T : Nat → Option Nat) (k : Nat) (s : FmtSt)
    (t : Nat) : formatEnd ln k (if dec then { s with indent := s.indent - 2 } else s) t = fmtStep ln dec repr L B pfx T k s (.tryEnd t) := by
  simp only [formatEnd, fmtStep, fmtPre, bodyText, FmtSt.ind, formatTryEnd, endText]
  cases dec <;> simp

/-- Two states reached with texts that agree. -/
structure FmtInv (a b : FmtSt) : Prop where
  prev : a.prev = b.prev
  ids : a.tries.length = b.tries.length
  indent : a.indent = b.indent

theorem sameElem_kind {LA LB BA BB TA TB : Nat → Option Nat} {ia ib : List Nat} {e f : BElem} (h : SameElem LA LB BA BB TA TB ia ib e f) :
    (∃ i j, e = .instr i ∧ f = .instr j) ∨ (∃ s t, e = .tryBegin s ∧ f = .tryBegin t) ∨ (∃ s t, e = .tryEnd s ∧ f = .tryEnd t) ∨
    (∃ s t, e = .label s ∧ f = .label t) := by
  cases e <;> cases f <;> simp_all [SameElem]

/-- One line. -/
theorem fmtStep_inj {ln dec : Bool} {repr : Arg → Text} {LA LB BA BB TA TB : Nat → Option Nat} {pfx : Text} (hp : Prefix pfx) {k j : Nat}
    {sa sb : FmtSt} (hi : FmtInv sa sb) {as : List Arg} (hr : ReprOK repr as) {e f : BElem} (he : Printed as e) (hf : Printed as f)
    {U V : Text}
    (h : (fmtStep ln dec repr LA BA pfx TA k sa e).1 ++ U = (fmtStep ln dec repr LB BB pfx TB j sb f).1 ++ V) :
    SameElem LA LB BA BB TA TB sa.tries sb.tries e f ∧ U = V ∧
    (ln = true → (fmtStep ln dec repr LA BA pfx TA k sa e).2.cur = (fmtStep ln dec repr LB BB pfx TB j sb f).2.cur ∧ k = j) ∧
    FmtInv (fmtStep ln dec repr LA BA pfx TA k sa e).2 (fmtStep ln dec repr LB BB pfx TB j sb f).2 := by
  have hpre : ∀ (s : FmtSt) (e : BElem), (fmtPre dec s e).prev = s.prev ∧ (fmtPre dec s e).tries = s.tries := by
    intro s e
    cases e with
    | instr i => exact ⟨(at_rest s i.loc).1, (at_rest s i.loc).2.1⟩
    | tryEnd t => simp only [fmtPre]; split <;> exact ⟨rfl, rfl⟩
    | _ => exact ⟨rfl, rfl⟩
  simp only [fmtStep, List.append_assoc, List.cons_append, List.nil_append] at h
  obtain ⟨h1, h2, h3⟩ := line_inj (by rw [(hpre sa e).1, (hpre sb f).1, hi.prev]) (bodyText_head he) (bodyText_head hf)
    (bodyText_line hp hr he) (bodyText_line hp hr hf) h
  have hse := bodyText_inj hp hi.ids hr he hf h1
  have hcur : ∀ (L B T : Nat → Option Nat) (s : FmtSt) (k : Nat) (e : BElem), (fmtStep ln dec repr L B pfx T k s e).2.cur = (fmtPre dec s e).cur := by
    intro L B T s k e
    have hl := line_rest ln (fmtPre dec s e) k (bodyText repr L B pfx T s.tries e)
    cases e <;> exact hl.1
  have hprev : ∀ (L B T : Nat → Option Nat) (s : FmtSt) (k : Nat) (e : BElem),
      (fmtStep ln dec repr L B pfx T k s e).2.prev = if ln then some (fmtPre dec s e).cur else s.prev := by
    intro L B T s k e
    have hl := (line_rest ln (fmtPre dec s e) k (bodyText repr L B pfx T s.tries e)).2.2.2
    rw [(hpre s e).1] at hl
    cases e <;> exact hl
  refine ⟨hse, h2, fun hln => ⟨?_, (h3 hln).2⟩, ?_⟩
  · rw [hcur, hcur]; exact (h3 hln).1
  · refine ⟨?_, ?_, ?_⟩
    · rw [hprev, hprev]
      cases hl : ln with
      | true => simp only [if_true]; rw [(h3 hl).1]
      | false => simpa using hi.prev
    · rcases sameElem_kind hse with ⟨i, j, rfl, rfl⟩ | ⟨s, t, rfl, rfl⟩ | ⟨s, t, rfl, rfl⟩ | ⟨s, t, rfl, rfl⟩
      all_goals simp only [fmtStep, (line_rest ln _ _ _).2.1, (hpre _ _).2, List.length_append, hi.ids, List.length_cons, List.length_nil]
    · rcases sameElem_kind hse with ⟨i, j, rfl, rfl⟩ | ⟨s, t, rfl, rfl⟩ | ⟨s, t, rfl, rfl⟩ | ⟨s, t, rfl, rfl⟩
      · simp only [fmtStep, (line_rest ln _ _ _).2.2.1, fmtPre, (at_rest _ _).2.2, hi.indent]
      · simp only [fmtStep, hi.indent]
      · simp only [fmtStep, (line_rest ln _ _ _).2.2.1, fmtPre]
        split <;> simp [hi.indent]
      · simp only [fmtStep, (line_rest ln _ _ _).2.2.1, fmtPre, hi.indent]

theorem fmtStep_head {ln dec : Bool} {repr : Arg → Text} {L B T : Nat → Option Nat} {pfx : Text} {k : Nat} {s : FmtSt} {as : List Arg}
    {e : BElem} (he : Printed as e) (R : Text) : ∃ p c r, (fmtStep ln dec repr L B pfx T k s e).1 ++ R = List.replicate p ' ' ++ c :: r ∧
      (c.isUpper ∨ c.isDigit ∨ c = '_') := by
  obtain ⟨p, c, r, h, hc⟩ := line_head ln (fmtPre dec s e) (fmtPre dec s e).indent k
    (bodyText_cap (repr := repr) (L := L) (B := B) (T := T) (pfx := pfx) (ids := s.tries) he)
  refine ⟨p, c, r ++ '\n' :: R, ?_, hc⟩
  simp only [fmtStep, List.append_assoc]
  rw [← List.append_assoc, h]
  simp

/-- The elements of a Bytecode, one after the other. -/
theorem formatElems_cons {ln : Bool} {repr : Arg → Text} {R : Nat → Option Nat} {k : Nat} {s : FmtSt} {e : BElem} {r : List BElem} {t : Text}
    (h : formatElems ln repr (nameOf (txt "label_instr") R) k s (e :: r) = .ok t) :
    (∃ l j u, e = .label l ∧ formatElems ln repr (nameOf (txt "label_instr") R) (k + 1) s r = .ok u ∧
      t = (if k ≠ 0 then ['\n'] else []) ++ ((txt "label_instr") ++ decimal j) ++ (txt ":\n") ++ u) ∨
    ((∀ l, e ≠ .label l) ∧ (∀ l, e ≠ .setLineno l) ∧ ∃ u,
      formatElems ln repr (nameOf (txt "label_instr") R) (k + 1) (fmtStep ln true repr R (fun _ => none) (txt "label_instr") R k s e).2 r = .ok u ∧
      t = (fmtStep ln true repr R (fun _ => none) (txt "label_instr") R k s e).1 ++ u) := by
  cases e with
  | label l =>
    left
    simp only [formatElems] at h
    cases hn : nameOf (txt "label_instr") R l with
    | none => rw [hn] at h; cases h
    | some n =>
      rw [hn] at h
      obtain ⟨u, h1, h2⟩ := except_bind_ok h
      simp only [nameOf] at hn
      cases hR : R l with
      | none => rw [hR] at hn; cases hn
      | some j =>
        rw [hR, Option.map_some, Option.some.injEq] at hn
        refine ⟨l, j, u, rfl, h1, ?_⟩
        rw [hn]
        exact (Except.ok.inj h2).symm
  | setLineno n => simp only [formatElems] at h; cases h
  | instr i =>
    right
    refine ⟨by simp, by simp, ?_⟩
    simp only [formatElems] at h
    rw [nameOf_none (txt "block"), formatCode_step ln true repr R (fun _ => none) (txt "label_instr") R] at h
    obtain ⟨u, h1, h2⟩ := except_bind_ok h
    exact ⟨u, h1, (Except.ok.inj h2).symm⟩
  | tryBegin i =>
    right
    refine ⟨by simp, by simp, ?_⟩
    simp only [formatElems] at h
    rw [formatBegin_step ln true repr R (fun _ => none) (txt "label_instr") R] at h
    obtain ⟨u, h1, h2⟩ := except_bind_ok h
    exact ⟨u, h1, (Except.ok.inj h2).symm⟩
  | tryEnd i =>
    right
    refine ⟨by simp, by simp, ?_⟩
    simp only [formatElems] at h
    have h3 := formatEnd_step ln true repr R (fun _ => none) (txt "label_instr") R k s i
    simp only [if_true] at h3
    rw [h3] at h
    obtain ⟨u, h1, h2⟩ := except_bind_ok h
    exact ⟨u, h1, (Except.ok.inj h2).symm⟩

theorem fmtStep_tries {ln dec : Bool} {repr : Arg → Text} {L B T : Nat → Option Nat} {pfx : Text} {k : Nat} {s : FmtSt} {e : BElem} {p : List BElem}
    (h : s.tries = beginIds p) : (fmtStep ln dec repr L B pfx T k s e).2.tries = beginIds (p ++ [e]) := by
  simp only [beginIds, List.filterMap_append] at h ⊢
  cases e with
  | instr i => simp [fmtStep, (line_rest ln _ _ _).2.1, fmtPre, (at_rest s i.loc).2.1, h]
  | tryBegin t => simp [fmtStep, h]
  | tryEnd t =>
    simp only [fmtStep, (line_rest ln _ _ _).2.1, fmtPre]
    cases dec <;> simp [h]
  | label l => simp [fmtStep, (line_rest ln _ _ _).2.1, fmtPre, h]
  | setLineno l => simp [fmtStep, (line_rest ln _ _ _).2.1, fmtPre, h]

theorem fmtStep_cur {ln dec : Bool} {repr : Arg → Text} {L B T : Nat → Option Nat} {pfx : Text} {k : Nat} {s : FmtSt} {e : BElem} {p : List BElem} {f : Nat}
    (h : s.cur = shownLine f p) : (fmtStep ln dec repr L B pfx T k s e).2.cur = shownLine f (p ++ [e]) := by
  have h1 : (fmtStep ln dec repr L B pfx T k s e).2.cur = (fmtPre dec s e).cur := by
    have hl := line_rest ln (fmtPre dec s e) k (bodyText repr L B pfx T s.tries e)
    cases e <;> exact hl.1
  rw [h1]
  simp only [shownLine, List.foldl_append, List.foldl_cons, List.foldl_nil] at h ⊢
  cases e with
  | instr i => simp only [fmtPre, at_cur, h]
  | tryEnd t => cases dec <;> simp [fmtPre, h]
  | _ => simpa [fmtPre] using h

theorem printed_of {as : List Arg} {e : BElem} (h1 : ∀ l, e ≠ .label l) (h2 : ∀ l, e ≠ .setLineno l) (h3 : ∀ i, e = .instr i → OpName i.name ∧ i.arg ∈ as) :
    Printed as e := by
  cases e with
  | label l => exact absurd rfl (h1 l)
  | setLineno l => exact absurd rfl (h2 l)
  | instr i => exact h3 i rfl
  | tryBegin t => trivial
  | tryEnd t => trivial

theorem label_ne_step {ln dec : Bool} {repr : Arg → Text} {L B T : Nat → Option Nat} {pfx : Text} {k j j' : Nat} {s : FmtSt} {as : List Arg}
    {e : BElem} (he : Printed as e) {R S : Text}
    (h : (if j ≠ 0 then ['\n'] else []) ++ ((txt "label_instr") ++ decimal j') ++ (txt ":\n") ++ R = (fmtStep ln dec repr L B pfx T k s e).1 ++ S) : False := by
  obtain ⟨p, c, r, h1, hc⟩ := fmtStep_head (ln := ln) (dec := dec) (repr := repr) (L := L) (B := B) (T := T) (pfx := pfx) (k := k) (s := s) he S
  rw [h1] at h
  by_cases hj : j ≠ 0
  · rw [if_pos hj] at h
    exact line_ne (m := 0) (d := '\n') hc (by decide) (by decide) (h.symm.trans (by simp; rfl))
  · rw [if_neg hj] at h
    exact line_ne (m := 0) (d := 'l') hc (by decide) (by decide) (h.symm.trans (by simp; rfl))

theorem nil_ne_step {ln dec : Bool} {repr : Arg → Text} {L B T : Nat → Option Nat} {pfx : Text} {k : Nat} {s : FmtSt} {as : List Arg}
    {e : BElem} (he : Printed as e) {R S : Text} (h : '\n' :: R = (fmtStep ln dec repr L B pfx T k s e).1 ++ S) : False := by
  obtain ⟨p, c, r, h1, hc⟩ := fmtStep_head (ln := ln) (dec := dec) (repr := repr) (L := L) (B := B) (T := T) (pfx := pfx) (k := k) (s := s) he S
  rw [h1] at h
  exact line_ne (m := 0) (d := '\n') hc (by decide) (by decide) (h.symm.trans (by simp; rfl))

theorem take_at {α : Type} {C p r : List α} {x : α} {k : Nat} (hC : C = p ++ x :: r) (hp : p.length = k) :
    C.take k = p ∧ C.take (k + 1) = p ++ [x] := by
  subst hC; subst hp
  refine ⟨by simp, ?_⟩
  rw [List.take_append, List.take_of_length_le (by omega), show p.length + 1 - p.length = 1 from by omega]
  rfl

/-- The elements of a Bytecode: what the text shows of two lists `pa ++ ea` and `pb ++ eb`, from position `k` on. -/
theorem formatElems_inj {ln : Bool} {repr : Arg → Text} {A B : List BElem} {fa fb : Nat} {as : List Arg} (hr : ReprOK repr as) :
    ∀ (ea eb pa pb : List BElem) (k : Nat) (sa sb : FmtSt) (ta tb : Text), A = pa ++ ea → B = pb ++ eb → pa.length = k → pb.length = k →
    (∀ i, .instr i ∈ ea → OpName i.name ∧ i.arg ∈ as) → (∀ i, .instr i ∈ eb → OpName i.name ∧ i.arg ∈ as) →
    FmtInv sa sb → sa.tries = beginIds pa → sb.tries = beginIds pb → sa.cur = shownLine fa pa → sb.cur = shownLine fb pb →
    formatElems ln repr (nameOf (txt "label_instr") (fun l => lastAt l 0 A)) k sa ea = .ok ta →
    formatElems ln repr (nameOf (txt "label_instr") (fun l => lastAt l 0 B)) k sb eb = .ok tb → ta = tb →
    ea.length = eb.length ∧ ∀ n e f, ea[n]? = some e → eb[n]? = some f →
      SameElem (fun l => lastAt l 0 A) (fun l => lastAt l 0 B) (fun _ => none) (fun _ => none) (fun l => lastAt l 0 A) (fun l => lastAt l 0 B)
        (beginIds (A.take (k + n))) (beginIds (B.take (k + n))) e f ∧
      (ln = true → (∀ l, e ≠ .label l) → shownLine fa (A.take (k + n + 1)) = shownLine fb (B.take (k + n + 1))) := by
  intro ea
  induction ea with
  | nil =>
    intro eb pa pb k sa sb ta tb hA hB hka hkb hna hnb hi hta htb hca hcb ha hb ht
    simp only [formatElems, Except.ok.injEq] at ha
    cases eb with
    | nil => exact ⟨rfl, by simp⟩
    | cons f r =>
      exfalso
      rcases formatElems_cons hb with ⟨l, j, u, _, _, h2⟩ | ⟨h1, h2, u, _, h4⟩
      · rw [← ha, h2] at ht
        have := congrArg List.length ht
        simp at this
        omega
      · rw [← ha, h4] at ht
        exact nil_ne_step (printed_of h1 h2 (fun i hi => hnb i (by simp [hi]))) ht
  | cons e ra ih =>
    intro eb pa pb k sa sb ta tb hA hB hka hkb hna hnb hi hta htb hca hcb ha hb ht
    cases eb with
    | nil =>
      exfalso
      simp only [formatElems, Except.ok.injEq] at hb
      rcases formatElems_cons ha with ⟨l, j, u, _, _, h2⟩ | ⟨h1, h2, u, _, h4⟩
      · rw [← hb, h2] at ht
        have := congrArg List.length ht
        simp at this
        omega
      · rw [← hb, h4] at ht
        exact nil_ne_step (printed_of h1 h2 (fun i hi => hna i (by simp [hi]))) ht.symm
    | cons f rb =>
      have hA' : A = (pa ++ [e]) ++ ra := by rw [hA]; simp
      have hB' : B = (pb ++ [f]) ++ rb := by rw [hB]; simp
      have hfin : ∀ {sa' sb' : FmtSt} {u v : Text}, FmtInv sa' sb' → sa'.tries = beginIds (pa ++ [e]) → sb'.tries = beginIds (pb ++ [f]) →
          sa'.cur = shownLine fa (pa ++ [e]) → sb'.cur = shownLine fb (pb ++ [f]) →
          formatElems ln repr (nameOf (txt "label_instr") (fun l => lastAt l 0 A)) (k + 1) sa' ra = .ok u →
          formatElems ln repr (nameOf (txt "label_instr") (fun l => lastAt l 0 B)) (k + 1) sb' rb = .ok v → u = v →
          SameElem (fun l => lastAt l 0 A) (fun l => lastAt l 0 B) (fun _ => none) (fun _ => none) (fun l => lastAt l 0 A) (fun l => lastAt l 0 B)
            (beginIds pa) (beginIds pb) e f →
          (ln = true → (∀ l, e ≠ .label l) → shownLine fa (pa ++ [e]) = shownLine fb (pb ++ [f])) →
          (e :: ra).length = (f :: rb).length ∧ ∀ n e' f', (e :: ra)[n]? = some e' → (f :: rb)[n]? = some f' →
            SameElem (fun l => lastAt l 0 A) (fun l => lastAt l 0 B) (fun _ => none) (fun _ => none) (fun l => lastAt l 0 A) (fun l => lastAt l 0 B)
              (beginIds (A.take (k + n))) (beginIds (B.take (k + n))) e' f' ∧
            (ln = true → (∀ l, e' ≠ .label l) → shownLine fa (A.take (k + n + 1)) = shownLine fb (B.take (k + n + 1))) := by
        intro sa' sb' u v hi' h1 h2 h3 h4 h5 h6 huv hse hsl
        obtain ⟨hlen, hall⟩ := ih rb (pa ++ [e]) (pb ++ [f]) (k + 1) sa' sb' u v hA' hB' (by simp [hka]) (by simp [hkb])
          (fun i hi => hna i (List.mem_cons_of_mem _ hi)) (fun i hi => hnb i (List.mem_cons_of_mem _ hi)) hi' h1 h2 h3 h4 h5 h6 huv
        refine ⟨by simp [hlen], ?_⟩
        intro n e' f' he' hf'
        cases n with
        | zero =>
          simp only [List.getElem?_cons_zero, Option.some.injEq] at he' hf'
          subst he'; subst hf'
          obtain ⟨t1, t2⟩ := take_at hA hka
          obtain ⟨t3, t4⟩ := take_at hB hkb
          rw [Nat.add_zero, t1, t2, t3, t4]
          exact ⟨hse, hsl⟩
        | succ n =>
          simp only [List.getElem?_cons_succ] at he' hf'
          have h7 := hall n e' f' he' hf'
          rw [show k + 1 + n = k + (n + 1) from by omega] at h7
          exact h7
      rcases formatElems_cons ha with ⟨l, j, u, he, h1, h2⟩ | ⟨h1, h2, u, h3, h4⟩
      · rcases formatElems_cons hb with ⟨l', j', u', hf, h1', h2'⟩ | ⟨h1', h2', u', h3', h4'⟩
        · subst he; subst hf
          rw [h2, h2'] at ht
          have huv : u = u' := by
            simp only [List.append_assoc] at ht
            have h5 := List.append_cancel_left (List.append_cancel_left ht)
            exact (List.cons.inj (sep_inj (c := ':') (decimal_ne (by decide)) (decimal_ne (by decide)) h5).2).2
          refine hfin hi ?_ ?_ ?_ ?_ h1 h1' huv trivial (fun _ h => absurd rfl (h l))
          · rw [hta]; simp [beginIds]
          · rw [htb]; simp [beginIds]
          · rw [hca]; simp [shownLine]
          · rw [hcb]; simp [shownLine]
        · exfalso
          rw [h2, h4'] at ht
          exact label_ne_step (printed_of h1' h2' (fun i hi => hnb i (by simp [hi]))) ht
      · have hpe : Printed as e := printed_of h1 h2 (fun i hi => hna i (by simp [hi]))
        rcases formatElems_cons hb with ⟨l', j', u', hf, h1', h2'⟩ | ⟨h1', h2', u', h3', h4'⟩
        · exfalso
          rw [h4, h2'] at ht
          exact label_ne_step hpe ht.symm
        · have hpf : Printed as f := printed_of h1' h2' (fun i hi => hnb i (by simp [hi]))
          rw [h4, h4'] at ht
          obtain ⟨g1, g2, g3, g4⟩ := fmtStep_inj (.inl rfl) hi hr hpe hpf ht
          refine hfin g4 (fmtStep_tries hta) (fmtStep_tries htb) (fmtStep_cur hca) (fmtStep_cur hcb) h3 h3' g2 ?_ ?_
          · rw [← hta, ← htb]; exact g1
          · intro hln _
            have := (g3 hln).1
            rw [fmtStep_cur hca, fmtStep_cur hcb] at this
            exact this

end Verif
