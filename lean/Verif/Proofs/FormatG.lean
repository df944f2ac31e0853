import Verif.Proofs.FormatC
/-
The text of a ControlFlowGraph determines it, for C57.
-/
namespace Verif
open Spec

theorem dropLast_inj {a b : Text} (ha : a = [] ∨ ∃ r, a = r ++ ['\n'] ∧ r ≠ []) (hb : b = [] ∨ ∃ r, b = r ++ ['\n'] ∧ r ≠ [])
    (h : a.dropLast = b.dropLast) : a = b := by
  rcases ha with rfl | ⟨r, rfl, hr⟩ <;> rcases hb with rfl | ⟨q, rfl, hq⟩
  · rfl
  · rw [List.dropLast_concat, List.dropLast_nil] at h; exact absurd h.symm hq
  · rw [List.dropLast_concat, List.dropLast_nil] at h; exact absurd h hr
  · rw [List.dropLast_concat, List.dropLast_concat] at h; rw [h]

/-- What follows the elements of a block. -/
def Tail (u : Text) : Prop := ∃ p d r, u = List.replicate p ' ' ++ d :: r ∧ (d = '\n' ∨ d = '-')

theorem tail_ne_step {ln dec : Bool} {repr : Arg → Text} {L B T : Nat → Option Nat} {pfx : Text} {k : Nat} {s : FmtSt} {as : List Arg}
    {e : BElem} (he : Printed as e) {R S : Text} (hR : Tail R) (h : R = (fmtStep ln dec repr L B pfx T k s e).1 ++ S) : False := by
  obtain ⟨p, c, r, h1, hc⟩ := fmtStep_head (ln := ln) (dec := dec) (repr := repr) (L := L) (B := B) (T := T) (pfx := pfx) (k := k) (s := s) he S
  rw [h1] at h
  obtain ⟨q, d, t, rfl, hd⟩ := hR
  rcases hd with rfl | rfl
  · exact line_ne hc (by decide) (by decide) h.symm
  · exact line_ne hc (by decide) (by decide) h.symm

theorem formatBlk_cons {ln : Bool} {P : Platform} {repr : Arg → Text} {R : Nat → Option Nat} {k : Nat} {seen : Bool} {s : FmtSt} {e : BElem}
    {r : List BElem} {t : Text × FmtSt} (h : formatBlk ln P repr (nameOf (txt "block") R) k seen s (e :: r) = .ok t) :
    (∀ l, e ≠ .label l) ∧ (∀ l, e ≠ .setLineno l) ∧ ∃ u,
      formatBlk ln P repr (nameOf (txt "block") R) (k + 1) (seen || e.isInstr) (fmtStep ln seen repr (fun _ => none) R (txt "block") R k s e).2 r = .ok u ∧
      t = ((fmtStep ln seen repr (fun _ => none) R (txt "block") R k s e).1 ++ u.1, u.2) := by
  simp only [formatBlk] at h
  obtain ⟨_, _, h⟩ := except_bind_ok h
  cases e with
  | label l => cases h
  | setLineno n => cases h
  | instr i =>
    refine ⟨by simp, by simp, ?_⟩
    simp only at h
    rw [nameOf_none (txt "label_instr"), formatCode_step ln seen repr (fun _ => none) R (txt "block") R] at h
    obtain ⟨u, h1, h2⟩ := except_bind_ok h
    exact ⟨u, by simpa [BElem.isInstr] using h1, (Except.ok.inj h2).symm⟩
  | tryBegin i =>
    refine ⟨by simp, by simp, ?_⟩
    simp only at h
    rw [formatBegin_step ln seen repr (fun _ => none) R (txt "block") R] at h
    obtain ⟨u, h1, h2⟩ := except_bind_ok h
    exact ⟨u, by simpa [BElem.isInstr] using h1, (Except.ok.inj h2).symm⟩
  | tryEnd i =>
    refine ⟨by simp, by simp, ?_⟩
    simp only at h
    rw [formatEnd_step ln seen repr (fun _ => none) R (txt "block") R k s i] at h
    obtain ⟨u, h1, h2⟩ := except_bind_ok h
    exact ⟨u, by simpa [BElem.isInstr] using h1, (Except.ok.inj h2).symm⟩

/-- The elements of a block: `qa`, `qb` are the elements of the graphs before. -/
theorem formatBlk_inj {ln : Bool} {P : Platform} {repr : Arg → Text} {RA RB : Nat → Option Nat} {fa fb : Nat} {as : List Arg} (hr : ReprOK repr as) :
    ∀ (ea eb qa qb : List BElem) (k : Nat) (seen : Bool) (sa sb : FmtSt) (ta tb : Text × FmtSt) (Ua Ub : Text), Tail Ua → Tail Ub →
    (∀ i, .instr i ∈ ea → OpName i.name ∧ i.arg ∈ as) → (∀ i, .instr i ∈ eb → OpName i.name ∧ i.arg ∈ as) →
    FmtInv sa sb → sa.tries = beginIds qa → sb.tries = beginIds qb → sa.cur = shownLine fa qa → sb.cur = shownLine fb qb →
    formatBlk ln P repr (nameOf (txt "block") RA) k seen sa ea = .ok ta → formatBlk ln P repr (nameOf (txt "block") RB) k seen sb eb = .ok tb →
    ta.1 ++ Ua = tb.1 ++ Ub →
    (ea.length = eb.length ∧ ∀ n e f, ea[n]? = some e → eb[n]? = some f →
      SameElem (fun _ => none) (fun _ => none) RA RB RA RB (beginIds (qa ++ ea.take n)) (beginIds (qb ++ eb.take n)) e f ∧
      (ln = true → shownLine fa (qa ++ ea.take (n + 1)) = shownLine fb (qb ++ eb.take (n + 1)))) ∧
    Ua = Ub ∧ FmtInv ta.2 tb.2 ∧ ta.2.tries = beginIds (qa ++ ea) ∧ tb.2.tries = beginIds (qb ++ eb) ∧
    ta.2.cur = shownLine fa (qa ++ ea) ∧ tb.2.cur = shownLine fb (qb ++ eb) := by
  intro ea
  induction ea with
  | nil =>
    intro eb qa qb k seen sa sb ta tb Ua Ub hUa hUb hna hnb hi hta htb hca hcb ha hb ht
    simp only [formatBlk, Except.ok.injEq] at ha
    subst ha
    cases eb with
    | nil =>
      simp only [formatBlk, Except.ok.injEq] at hb
      subst hb
      exact ⟨⟨rfl, by simp⟩, by simpa using ht, hi, by simpa using hta, by simpa using htb, by simpa using hca, by simpa using hcb⟩
    | cons f r =>
      exfalso
      obtain ⟨h1, h2, u, _, h4⟩ := formatBlk_cons hb
      rw [h4, List.append_assoc] at ht
      exact tail_ne_step (printed_of h1 h2 (fun i hi => hnb i (by simp [hi]))) hUa (by simpa using ht)
  | cons e ra ih =>
    intro eb qa qb k seen sa sb ta tb Ua Ub hUa hUb hna hnb hi hta htb hca hcb ha hb ht
    obtain ⟨h1, h2, u, h3, h4⟩ := formatBlk_cons ha
    have hpe : Printed as e := printed_of h1 h2 (fun i hi => hna i (by simp [hi]))
    cases eb with
    | nil =>
      exfalso
      simp only [formatBlk, Except.ok.injEq] at hb
      subst hb
      rw [h4, List.append_assoc] at ht
      exact tail_ne_step hpe hUb (by simpa using ht.symm)
    | cons f rb =>
      obtain ⟨h1', h2', v, h3', h4'⟩ := formatBlk_cons hb
      have hpf : Printed as f := printed_of h1' h2' (fun i hi => hnb i (by simp [hi]))
      rw [h4, h4', List.append_assoc, List.append_assoc] at ht
      obtain ⟨g1, g2, g3, g4⟩ := fmtStep_inj (.inr rfl) hi hr hpe hpf ht
      have hse : (seen || e.isInstr) = (seen || f.isInstr) := by
        rcases sameElem_kind g1 with ⟨i, j, rfl, rfl⟩ | ⟨s, t, rfl, rfl⟩ | ⟨s, t, rfl, rfl⟩ | ⟨s, t, rfl, rfl⟩ <;> rfl
      rw [← hse] at h3'
      obtain ⟨⟨m1, m2⟩, m3, m4, m5, m6, m7, m8⟩ := ih rb (qa ++ [e]) (qb ++ [f]) (k + 1) _ _ _ u v Ua Ub hUa hUb
        (fun i hi => hna i (List.mem_cons_of_mem _ hi)) (fun i hi => hnb i (List.mem_cons_of_mem _ hi)) g4
        (fmtStep_tries hta) (fmtStep_tries htb) (fmtStep_cur hca) (fmtStep_cur hcb) h3 h3' g2
      subst h4; subst h4'
      refine ⟨⟨by simp [m1], ?_⟩, m3, m4, by simpa using m5, by simpa using m6, by simpa using m7, by simpa using m8⟩
      intro n e' f' he' hf'
      cases n with
      | zero =>
        simp only [List.getElem?_cons_zero, Option.some.injEq] at he' hf'
        subst he'; subst hf'
        refine ⟨by simpa [← hta, ← htb] using g1, fun hln => ?_⟩
        have := (g3 hln).1
        rw [fmtStep_cur hca, fmtStep_cur hcb] at this
        simpa using this
      | succ n =>
        simp only [List.getElem?_cons_succ] at he' hf'
        have := m2 n e' f' he' hf'
        simpa using this

/-- All the elements of the blocks of a list. -/
def elemsOf (heap : Nat → Blk) (bs : List Nat) : List BElem := bs.flatMap (fun b => (heap b).elems)

theorem formatBlks_cons {ln : Bool} {P : Platform} {repr : Arg → Text} {R : Nat → Option Nat} {heap : Nat → Blk} {s : FmtSt} {b : Nat} {r : List Nat}
    {t : Text} (h : formatBlks ln P repr (nameOf (txt "block") R) heap s (b :: r) = .ok t) :
    ∃ j p nx u, formatBlk ln P repr (nameOf (txt "block") R) 0 false s (heap b).elems = .ok p ∧
      formatBlks ln P repr (nameOf (txt "block") R) heap p.2 r = .ok u ∧
      t = ((txt "block") ++ decimal j) ++ ':' :: '\n' :: (p.1 ++ (nx ++ '\n' :: u)) ∧
      (((heap b).next = none ∧ nx = []) ∨ ∃ x m, (heap b).next = some x ∧ R x = some m ∧
        nx = List.replicate p.2.indent ' ' ++ '-' :: '>' :: ' ' :: ((txt "block") ++ (decimal m ++ ['\n']))) := by
  simp only [formatBlks] at h
  cases hb : nameOf (txt "block") R b with
  | none => rw [hb] at h; cases h
  | some n =>
    rw [hb] at h
    obtain ⟨p, h1, h⟩ := except_bind_ok h
    obtain ⟨nx, h2, h⟩ := except_bind_ok h
    obtain ⟨u, h3, h⟩ := except_bind_ok h
    simp only [nameOf] at hb
    cases hR : R b with
    | none => rw [hR] at hb; cases hb
    | some j =>
      rw [hR, Option.map_some, Option.some.injEq] at hb
      refine ⟨j, p, nx, u, h1, h3, ?_, ?_⟩
      · rw [hb, ← Except.ok.inj h]
        simp
      · cases hn : (heap b).next with
        | none => rw [hn] at h2; exact .inl ⟨rfl, (Except.ok.inj h2).symm⟩
        | some x =>
          right
          rw [hn] at h2
          simp only [nameOf] at h2
          cases hx : R x with
          | none => rw [hx] at h2; cases h2
          | some m =>
            rw [hx] at h2
            refine ⟨x, m, rfl, hx, ?_⟩
            rw [← Except.ok.inj h2]
            simp [FmtSt.ind]

theorem formatBlks_inj {ln : Bool} {P : Platform} {repr : Arg → Text} {RA RB : Nat → Option Nat} {ha hb : Nat → Blk} {fa fb : Nat} {as : List Arg}
    (hr : ReprOK repr as) : ∀ (ba bb : List Nat) (qa qb : List BElem) (sa sb : FmtSt) (ta tb : Text),
    (∀ i, .instr i ∈ elemsOf ha ba → OpName i.name ∧ i.arg ∈ as) → (∀ i, .instr i ∈ elemsOf hb bb → OpName i.name ∧ i.arg ∈ as) →
    FmtInv sa sb → sa.tries = beginIds qa → sb.tries = beginIds qb → sa.cur = shownLine fa qa → sb.cur = shownLine fb qb →
    formatBlks ln P repr (nameOf (txt "block") RA) ha sa ba = .ok ta → formatBlks ln P repr (nameOf (txt "block") RB) hb sb bb = .ok tb →
    ta = tb →
    ba.length = bb.length ∧ ∀ (k x y : Nat), ba[k]? = some x → bb[k]? = some y →
      (ha x).elems.length = (hb y).elems.length ∧ (ha x).next.map RA = (hb y).next.map RB ∧
      ∀ n e f, (ha x).elems[n]? = some e → (hb y).elems[n]? = some f →
        SameElem (fun _ => none) (fun _ => none) RA RB RA RB (beginIds (qa ++ elemsOf ha (ba.take k) ++ (ha x).elems.take n))
          (beginIds (qb ++ elemsOf hb (bb.take k) ++ (hb y).elems.take n)) e f ∧
        (ln = true → shownLine fa (qa ++ elemsOf ha (ba.take k) ++ (ha x).elems.take (n + 1)) =
          shownLine fb (qb ++ elemsOf hb (bb.take k) ++ (hb y).elems.take (n + 1))) := by
  intro ba
  induction ba with
  | nil =>
    intro bb qa qb sa sb ta tb hna hnb hi hta htb hca hcb h1 h2 ht
    simp only [formatBlks, Except.ok.injEq] at h1
    cases bb with
    | nil => exact ⟨rfl, by simp⟩
    | cons y rb =>
      exfalso
      obtain ⟨j, p, nx, u, _, _, h5, _⟩ := formatBlks_cons h2
      rw [← h1, h5] at ht
      have := congrArg List.length ht
      simp at this
  | cons x ra ih =>
    intro bb qa qb sa sb ta tb hna hnb hi hta htb hca hcb h1 h2 ht
    obtain ⟨j, p, nx, u, a1, a2, a3, a4⟩ := formatBlks_cons h1
    cases bb with
    | nil =>
      exfalso
      simp only [formatBlks, Except.ok.injEq] at h2
      rw [← h2, a3] at ht
      have := congrArg List.length ht
      simp at this
    | cons y rb =>
      obtain ⟨j', p', nx', u', b1, b2, b3, b4⟩ := formatBlks_cons h2
      rw [a3, b3, List.append_assoc, List.append_assoc] at ht
      have ht := List.append_cancel_left ht
      obtain ⟨_, ht⟩ := sep_inj (decimal_ne (by decide)) (decimal_ne (by decide)) ht
      have ht := (List.cons.inj ht).2
      have tail : ∀ {R : Nat → Option Nat} {h : Nat → Blk} {z : Nat} {q : Text × FmtSt} {m w : Text},
          (((h z).next = none ∧ m = []) ∨ ∃ x' m', (h z).next = some x' ∧ R x' = some m' ∧
            m = List.replicate q.2.indent ' ' ++ '-' :: '>' :: ' ' :: ((txt "block") ++ (decimal m' ++ ['\n']))) → Tail (m ++ '\n' :: w) := by
        intro R h z q m w hh
        rcases hh with ⟨_, rfl⟩ | ⟨x', m', _, _, rfl⟩
        · exact ⟨0, '\n', w, by simp, .inl rfl⟩
        · exact ⟨q.2.indent, '-', _, by rw [List.append_assoc, List.cons_append], .inr rfl⟩
      obtain ⟨c1, c2, c3, c4, c5, c6, c7⟩ := formatBlk_inj (fa := fa) (fb := fb) hr _ _ qa qb 0 false sa sb p p' _ _ (tail (R := RA) a4) (tail (R := RB) b4)
        (fun i hi => hna i (by simp only [elemsOf, List.flatMap_cons, List.mem_append]; exact .inl hi))
        (fun i hi => hnb i (by simp only [elemsOf, List.flatMap_cons, List.mem_append]; exact .inl hi)) hi hta htb hca hcb a1 b1 ht
      have hnext : (ha x).next.map RA = (hb y).next.map RB ∧ u = u' := by
        rcases a4 with ⟨e1, rfl⟩ | ⟨x', m', e1, e2, rfl⟩
        · rcases b4 with ⟨e3, rfl⟩ | ⟨y', n', e3, e4, rfl⟩
          · exact ⟨by rw [e1, e3]; rfl, (List.cons.inj c2).2⟩
          · exfalso
            rw [List.append_assoc, List.nil_append] at c2
            have := spaces_inj (n := 0) (m := p'.2.indent) ⟨'\n', u, rfl, by decide⟩ ⟨'-', _, rfl, by decide⟩ (by simpa using c2)
            exact absurd (List.cons.inj this.2).1 (by decide)
        · rcases b4 with ⟨e3, rfl⟩ | ⟨y', n', e3, e4, rfl⟩
          · exfalso
            rw [List.append_assoc, List.nil_append] at c2
            have := spaces_inj (n := 0) (m := p.2.indent) ⟨'\n', u', rfl, by decide⟩ ⟨'-', _, rfl, by decide⟩ (by simpa using c2.symm)
            exact absurd (List.cons.inj this.2).1 (by decide)
          · rw [c3.indent, List.append_assoc, List.append_assoc] at c2
            have c2 := List.append_cancel_left c2
            simp only [List.cons_append, List.cons.injEq, true_and, List.append_assoc, List.nil_append] at c2
            obtain ⟨d1, d2⟩ := sep_inj (c := '\n') (decimal_ne (by decide)) (decimal_ne (by decide)) c2
            refine ⟨by rw [e1, e3, Option.map_some, Option.map_some, e2, e4, decimal_inj d1], ?_⟩
            exact (List.cons.inj d2).2
      obtain ⟨d1, d2⟩ := ih rb (qa ++ (ha x).elems) (qb ++ (hb y).elems) p.2 p'.2 u u'
        (fun i hi => hna i (by simp only [elemsOf, List.flatMap_cons, List.mem_append]; exact .inr hi))
        (fun i hi => hnb i (by simp only [elemsOf, List.flatMap_cons, List.mem_append]; exact .inr hi)) c3 c4 c5 c6 c7 a2 b2 hnext.2
      refine ⟨by simp [d1], ?_⟩
      intro k x' y' hx' hy'
      cases k with
      | zero =>
        simp only [List.getElem?_cons_zero, Option.some.injEq] at hx' hy'
        subst hx'; subst hy'
        refine ⟨c1.1, hnext.1, ?_⟩
        intro n e f he hf
        simpa [elemsOf] using c1.2 n e f he hf
      | succ k =>
        simp only [List.getElem?_cons_succ] at hx' hy'
        obtain ⟨g1, g2, g3⟩ := d2 k x' y' hx' hy'
        refine ⟨g1, g2, ?_⟩
        intro n e f he hf
        simpa [elemsOf] using g3 n e f he hf

theorem formatBlks_last {ln : Bool} {P : Platform} {repr : Arg → Text} {R : Nat → Option Nat} {heap : Nat → Blk} : ∀ {bs : List Nat} {s : FmtSt} {t : Text},
    formatBlks ln P repr (nameOf (txt "block") R) heap s bs = .ok t → t = [] ∨ ∃ r, t = r ++ ['\n'] ∧ r ≠ []
  | [], s, t, h => .inl (Except.ok.inj h).symm
  | b :: bs, s, t, h => by
    right
    obtain ⟨j, p, nx, u, _, h2, h3, _⟩ := formatBlks_cons h
    rcases formatBlks_last h2 with rfl | ⟨r, rfl, _⟩
    · exact ⟨_, by rw [h3]; simp only [← List.append_assoc, ← List.cons_append]; rfl, by simp⟩
    · refine ⟨((txt "block") ++ decimal j) ++ ':' :: '\n' :: (p.1 ++ (nx ++ '\n' :: r)), by rw [h3]; simp, by simp⟩

end Verif
