import Verif.Proofs.NoEmpty
import Verif.Proofs.HandlerDepths
/-
After `compute_stacksize`, every TryBegin has a depth.
-/
namespace Verif
open Spec

/-! ### The blocks of `from_bytecode` -/

/-- An instruction that ends a block. -/
def Special (P : Platform) (i : Instr) : Prop := P.hasJump i.opcode = true ∨ isFinal i.name = true

/-- No TryBegin after a jump or a final instruction. -/
def NoTryAfter (P : Platform) (es : List BElem) : Prop :=
  ∀ a i b, es = a ++ BElem.instr i :: b → Special P i → ∀ t, BElem.tryBegin t ∉ b

theorem nta_push {P : Platform} {es : List BElem} {e : BElem} (h : NoTryAfter P es)
    (he : (∀ t, e ≠ .tryBegin t) ∨ ∀ i, .instr i ∈ es → ¬ Special P i) : NoTryAfter P (es ++ [e]) := by
  intro a i b hab hs t ht
  rw [List.append_eq_append_iff] at hab
  rcases hab with ⟨c, hc1, hc2⟩ | ⟨c, hc1, hc2⟩
  · cases c with
    | nil =>
      simp only [List.nil_append, List.cons.injEq] at hc2
      rw [← hc2.2] at ht; cases ht
    | cons x r => simp at hc2
  · cases c with
    | nil =>
      simp only [List.nil_append, List.cons.injEq] at hc2
      rw [hc2.2] at ht; cases ht
    | cons x r =>
      simp only [List.cons_append, List.cons.injEq] at hc2
      obtain ⟨rfl, hb⟩ := hc2
      rw [hb] at ht
      rcases List.mem_append.1 ht with ht | ht
      · exact h a i r hc1 hs t ht
      · rw [List.mem_singleton] at ht
        rcases he with he | he
        · exact he t ht.symm
        · exact he i (by rw [hc1]; simp) hs

theorem nta_cons {P : Platform} {es : List BElem} {id : Nat} (h : NoTryAfter P es) : NoTryAfter P (.tryEnd id :: es) := by
  intro a i b hab hs t ht
  cases a with
  | nil => cases hab
  | cons x a =>
    simp only [List.cons_append, List.cons.injEq] at hab
    exact h a i b hab.2 hs t ht

theorem nta_nil (P : Platform) : NoTryAfter P [] := by
  intro a i b hab
  simp at hab

theorem noSpecial_cur {P : Platform} {es : List BElem} {starts : List Nat} {s : FromSt} {pre : List BElem} {n : Nat}
    (h : FInv P es starts s pre n) (hp : Plain P s) : ∀ i, .instr i ∈ s.cur.elems → ¬ Special P i := by
  intro i hi hs
  obtain ⟨a, b, e⟩ := List.append_of_mem hi
  have h0 := h.cur a i b e hs
  refine hp i ?_ hs
  rw [e]; exact lastInstr_append_instr a i b h0

def BInv (P : Platform) (s : FromSt) : Prop := ∀ b ∈ s.blks, NoTryAfter P b.elems

theorem bpush {P : Platform} {s : FromSt} {e : BElem} (h : BInv P s)
    (he : (∀ t, e ≠ .tryBegin t) ∨ ∀ i, .instr i ∈ s.cur.elems → ¬ Special P i) : BInv P (s.push e) := by
  intro b hb
  rcases List.mem_append.1 hb with hb | hb
  · exact h b (List.mem_append.2 (.inl hb))
  · rw [List.mem_singleton] at hb
    subst hb
    exact nta_push (h s.cur (List.mem_append.2 (.inr (by simp)))) he

theorem bopen {P : Platform} {s : FromSt} {c : Bool} (h : BInv P s) : BInv P (s.open_ c) := by
  intro b hb
  rcases List.mem_append.1 hb with hb | hb
  · rcases List.mem_append.1 hb with hb | hb
    · exact h b (List.mem_append.2 (.inl hb))
    · rw [List.mem_singleton] at hb
      subst hb
      exact h s.cur (List.mem_append.2 (.inr (by simp)))
  · rw [List.mem_singleton] at hb
    subst hb; exact nta_nil P

theorem bpushOld {P : Platform} {s : FromSt} {id : Nat} (h : BInv P s) : BInv P (s.pushOld (.tryEnd id)) := by
  intro b hb
  rcases List.mem_append.1 hb with hb | hb
  · unfold FromSt.pushOld at hb
    simp only at hb
    cases hl : s.done.getLast? with
    | none => rw [hl] at hb; exact h b (List.mem_append.2 (.inl hb))
    | some b0 =>
      rw [hl] at hb
      obtain ⟨ys, hys⟩ := List.getLast?_eq_some_iff.1 hl
      rcases List.mem_append.1 hb with hb | hb
      · exact h b (List.mem_append.2 (.inl (List.dropLast_subset _ hb)))
      · rw [List.mem_singleton] at hb
        subst hb
        exact nta_push (h b0 (List.mem_append.2 (.inl (by rw [hys]; simp)))) (.inl (fun t e => by cases e))
  · rw [List.mem_singleton] at hb
    subst hb
    exact h s.cur (List.mem_append.2 (.inr (by simp)))

theorem benter {P : Platform} {s s' : FromSt} {n : Nat} {st : Bool} {e : BElem} {o : Bool} (hb : BInv P s) (h : s.enter P n st e = .ok (s', o)) :
    BInv P s' ∧ (o = true → s'.cur.elems = []) := by
  unfold FromSt.enter at h
  split at h
  · dsimp only at h
    cases hd : decide (n ≠ 0) <;> cases hl : lastInstr s.cur.elems <;> rw [hd, hl] at h <;> dsimp only at h <;> cases e <;>
      simp only [Except.ok.injEq, Prod.mk.injEq] at h <;> obtain ⟨rfl, rfl⟩ := h <;>
      first | exact ⟨bopen hb, fun _ => rfl⟩ | exact ⟨hb, fun h => by cases h⟩
  · repeat' split at h
    all_goals first
      | (cases h; done)
      | (simp only [Except.ok.injEq, Prod.mk.injEq] at h; obtain ⟨rfl, rfl⟩ := h; first | exact ⟨bopen hb, fun _ => rfl⟩ | exact ⟨hb, fun h => by cases h⟩)

theorem bbridge {P : Platform} {es : List BElem} {s s' : FromSt} {temp : Bool} {i : Instr} {e : BElem} {d : Bool}
    (hb : BInv P s) (hc : s.cur.elems = []) (h : s.bridge P es temp i e = .ok (s', d)) : BInv P s' := by
  unfold FromSt.bridge at h
  split at h
  · cases h
  · split at h
    · simp only [Except.ok.injEq, Prod.mk.injEq] at h
      obtain ⟨rfl, rfl⟩ := h
      exact bpushOld hb
    · cases h
  · split at h
    · cases h
    · rename_i nid ht
      obtain ⟨s1, h1, h⟩ := except_bind_ok h
      have e1 : s1.done = s.done ∧ s1.cur = s.cur := by
        unfold FromSt.leave at h1
        repeat' split at h1
        all_goals first | (cases h1; done) | (simp only [Except.ok.injEq] at h1; subst h1; first | exact ⟨rfl, rfl⟩ | (split <;> exact ⟨rfl, rfl⟩))
      have b1 : BInv P s1 := by
        unfold BInv FromSt.blks
        rw [e1.1, e1.2]; exact hb
      split at h
      · simp only [pure, Except.pure, Except.ok.injEq, Prod.mk.injEq] at h
        obtain ⟨rfl, rfl⟩ := h
        refine bpush (e := .tryBegin ⟨s1.ids, _, _, none⟩) (bpushOld b1) (.inr ?_)
        intro i hi
        have : s1.cur.elems = [] := by rw [e1.2]; exact hc
        have hi : BElem.instr i ∈ s1.cur.elems := hi
        rw [this] at hi; cases hi
      · simp only [pure, Except.pure, Except.ok.injEq, Prod.mk.injEq] at h
        obtain ⟨rfl, rfl⟩ := h
        exact b1
  · simp only [Except.ok.injEq, Prod.mk.injEq] at h
    obtain ⟨rfl, rfl⟩ := h
    exact hb

theorem bcopy {P : Platform} {s s' : FromSt} {e : BElem} (hb : BInv P s) (hp : ∀ i, .instr i ∈ s.cur.elems → ¬ Special P i)
    (h : s.copyElem e = .ok s') : BInv P s' := by
  cases e with
  | label l => simp only [FromSt.copyElem, Except.ok.injEq] at h; subst h; exact hb
  | setLineno l => simp only [FromSt.copyElem, Except.ok.injEq] at h; subst h; exact bpush (e := .setLineno l) hb (.inr hp)
  | instr l => simp only [FromSt.copyElem, Except.ok.injEq] at h; subst h; exact bpush (e := .instr l) hb (.inr hp)
  | tryBegin t =>
    simp only [FromSt.copyElem] at h
    split at h
    · cases h
    · simp only [Except.ok.injEq] at h; subst h; exact bpush (e := .tryBegin { t with id := s.ids }) hb (.inr hp)
  | tryEnd id =>
    simp only [FromSt.copyElem] at h
    split at h
    · cases h
    · rename_i nid _
      simp only [Except.ok.injEq] at h; subst h; exact bpush (e := .tryEnd nid) hb (.inr hp)

theorem bstep {P : Platform} {es : List BElem} {starts : List Nat} {s s' : FromSt} {pre : List BElem} {e : BElem}
    (h : FInv P es starts s pre pre.length) (hb : BInv P s) (hp : pre = es.take pre.length) (he : es[pre.length]? = some e)
    (hst : ∀ p ∈ starts, ∃ l, es[p]? = some (.label l)) (hr : s.step P es starts pre.length e = .ok s') : BInv P s' := by
  unfold FromSt.step at hr
  obtain ⟨⟨s1, o⟩, h1, hr⟩ := except_bind_ok hr
  obtain ⟨i1, i2, i3, i4⟩ := enter_ok h hp he hst h1
  obtain ⟨b1, b2⟩ := benter hb h1
  simp only at hr
  split at hr
  · rename_i ho
    have hsame : SameCode s1 { s1 with inserted := false } := ⟨rfl, rfl, rfl, rfl⟩
    have b1 : BInv P { s1 with inserted := false } := b1
    split at hr
    · obtain ⟨⟨s2, d⟩, h2, hr⟩ := except_bind_ok hr
      obtain ⟨j1, j2⟩ := bridge_same h2
      have j3 := hsame.trans j1
      have b3 := bbridge b1 (b2 ho) h2
      simp only at hr
      split at hr
      · simp only [pure, Except.pure, Except.ok.injEq] at hr
        subst hr; exact b3
      · exact bcopy b3 (noSpecial_cur (i1.same j3) (i2.same j3)) hr
    · exact bcopy b1 (noSpecial_cur (i1.same hsame) (i2.same hsame)) hr
  · exact bcopy b1 (noSpecial_cur i1 i2) hr

theorem bloop {P : Platform} {es : List BElem} {starts : List Nat} (hst : ∀ p ∈ starts, ∃ l, es[p]? = some (.label l)) (r : List BElem) :
    ∀ (pre : List BElem) (s s' : FromSt), FInv P es starts s pre pre.length → BInv P s → es = pre ++ r →
      fromLoop P es starts pre.length s r = .ok s' → BInv P s' := by
  induction r with
  | nil =>
    intro pre s s' _ h _ hr
    simp only [fromLoop, Except.ok.injEq] at hr
    subst hr; exact h
  | cons e r ih =>
    intro pre s s' h hb hes hr
    unfold fromLoop at hr
    obtain ⟨s1, h1, hr⟩ := except_bind_ok hr
    have hp : pre = es.take pre.length := by rw [hes]; simp
    have he : es[pre.length]? = some e := by rw [hes]; simp
    have k := step_ok h hp he hst h1
    have k2 := bstep h hb hp he hst h1
    have hlen : (pre ++ [e]).length = pre.length + 1 := by simp
    rw [← hlen] at k hr
    exact ih (pre ++ [e]) s1 s' k k2 (by rw [hes]; simp) hr

theorem nta_insertEnds {P : Platform} (ids : List Nat) : ∀ {ex : List Nat} {es : List BElem}, NoTryAfter P es → NoTryAfter P (insertEnds ex es ids) := by
  induction ids with
  | nil => intro ex es h; exact h
  | cons i r ih =>
    intro ex es h
    unfold insertEnds
    split
    · exact ih h
    · exact ih (nta_cons h)

theorem nta_applyEnds {P : Platform} {labels : Nat → Option Nat} (ends : List (Nat × List Nat)) : ∀ {bs bs' : List Blk},
    (∀ b ∈ bs, NoTryAfter P b.elems) → applyEnds labels bs ends = .ok bs' → ∀ b ∈ bs', NoTryAfter P b.elems := by
  induction ends with
  | nil =>
    intro bs bs' h hr
    simp only [applyEnds, Except.ok.injEq] at hr
    subst hr; exact h
  | cons x r ih =>
    intro bs bs' h hr
    obtain ⟨l, ids⟩ := x
    unfold applyEnds at hr
    split at hr
    · cases hr
    · rename_i k hk
      split at hr
      · rename_i b hb
        refine ih ?_ hr
        intro b' hb'
        rcases List.mem_or_eq_of_mem_set hb' with hb' | rfl
        · exact h b' hb'
        · exact nta_insertEnds ids (h b (List.mem_of_getElem? hb))
      · exact ih h hr

theorem renames_try {φ : Nat → Nat} {es es' : List BElem} (h : List.Forall₂ (Renames φ) es es') {t : TryB} (ht : BElem.tryBegin t ∈ es') :
    ∃ u, BElem.tryBegin u ∈ es := by
  induction h with
  | nil => cases ht
  | @cons p q l1 l2 hr _ ih =>
    rcases List.mem_cons.1 ht with rfl | ht
    · cases p with
      | tryBegin u => exact ⟨u, by simp⟩
      | _ => exact hr.elim
    · obtain ⟨u, hu⟩ := ih ht
      exact ⟨u, by simp [hu]⟩

theorem nta_renames {P : Platform} {labels : Nat → Option Nat} {es es' : List BElem} (h : es.mapM (toBlockElem labels) = .ok es')
    (hn : NoTryAfter P es) : NoTryAfter P es' := by
  intro a i b hab hs t ht
  subst hab
  obtain ⟨x, y, rfl, hx, hy⟩ : ∃ x y, es = x ++ y ∧ x.mapM (toBlockElem labels) = .ok a ∧ y.mapM (toBlockElem labels) = .ok (BElem.instr i :: b) := by
    clear hn hs ht
    induction a generalizing es with
    | nil => exact ⟨[], es, rfl, rfl, h⟩
    | cons z a ih =>
      cases es with
      | nil => simp [pure, Except.pure] at h
      | cons w es =>
        rw [List.mapM_cons] at h
        obtain ⟨y, hy, h⟩ := except_bind_ok h
        obtain ⟨ys, hys, h⟩ := except_bind_ok h
        simp only [pure, Except.pure, Except.ok.injEq, List.cons_append, List.cons.injEq] at h
        obtain ⟨rfl, rfl⟩ := h
        obtain ⟨x, u, rfl, hx, hu⟩ := ih hys
        refine ⟨w :: x, u, rfl, ?_, hu⟩
        rw [List.mapM_cons, hy, hx]; rfl
  cases y with
  | nil => simp [pure, Except.pure] at hy
  | cons w y =>
    rw [List.mapM_cons] at hy
    obtain ⟨z, hz, hy⟩ := except_bind_ok hy
    obtain ⟨ys, hys, hy⟩ := except_bind_ok hy
    simp only [pure, Except.pure, Except.ok.injEq, List.cons.injEq] at hy
    obtain ⟨rfl, rfl⟩ := hy
    have hw : ∃ j, w = .instr j ∧ Special P j := by
      unfold toBlockElem at hz
      repeat' split at hz
      all_goals first | (cases hz; done) | (simp only [Except.ok.injEq] at hz)
      all_goals first
        | (cases hz; done)
        | (simp only [BElem.instr.injEq] at hz; subst hz; exact ⟨_, rfl, hs⟩)
        | (exact ⟨i, hz, hs⟩)
    obtain ⟨j, rfl, hj⟩ := hw
    have hmem := toBlock_renames hys
    have := renames_try hmem ht
    obtain ⟨u, hu⟩ := this
    exact hn x j y rfl hj u hu

theorem from_noTryAfter {P : Platform} {bc : Bytecode} {c : CFG} (h : fromBytecode P bc = .ok c) : ∀ b, NoTryAfter P (c.heap b).elems := by
  unfold fromBytecode at h
  obtain ⟨_, _, h⟩ := except_bind_ok h
  obtain ⟨starts, hst, h⟩ := except_bind_ok h
  obtain ⟨s, hs, h⟩ := except_bind_ok h
  obtain ⟨bs1, h1, h⟩ := except_bind_ok h
  obtain ⟨bs, h2, h⟩ := except_bind_ok h
  simp only [pure, Except.pure, Except.ok.injEq] at h
  obtain ⟨st1, st2⟩ := blockStarts_ok hst
  have hst' : ∀ p ∈ starts, ∃ l, bc.elems[p]? = some (.label l) := fun p hp => by
    obtain ⟨l, hl⟩ := st1 p hp
    exact ⟨l, (labelIndex_some hl).1⟩
  have hb := bloop hst' bc.elems [] _ s (fInv_init P bc.elems starts) (fun b hb => by
    have : b = ⟨[], none⟩ := by simpa [FromSt.blks] using hb
    subst this; exact nta_nil P) rfl hs
  have h3 := nta_applyEnds s.ends hb h1
  subst h
  intro b
  show NoTryAfter P ((bs[b]?).getD ⟨[], none⟩).elems
  cases hbs : bs[b]? with
  | none => exact nta_nil P
  | some x =>
    have hx := List.mem_of_getElem? hbs
    have : ∀ {l l' : List Blk}, (l.mapM (fun b => do
        let es ← b.elems.mapM (toBlockElem s.labels)
        return (⟨es, b.next⟩ : Blk)) : Py (List Blk)) = .ok l' → (∀ b ∈ l, NoTryAfter P b.elems) → ∀ b ∈ l', NoTryAfter P b.elems := by
      intro l
      induction l with
      | nil =>
        intro l' h _ b hb
        simp only [List.mapM_nil, pure, Except.pure, Except.ok.injEq] at h
        subst h; cases hb
      | cons y r ih =>
        intro l' h hl b hb
        rw [List.mapM_cons] at h
        obtain ⟨z, hz, h⟩ := except_bind_ok h
        obtain ⟨zs, hzs, h⟩ := except_bind_ok h
        simp only [pure, Except.pure, Except.ok.injEq] at h
        subst h
        obtain ⟨es, hes, hz⟩ := except_bind_ok hz
        simp only [pure, Except.pure, Except.ok.injEq] at hz
        subst hz
        rcases List.mem_cons.1 hb with rfl | hb
        · exact nta_renames hes (hl y (by simp))
        · exact ih hzs (fun b hb => hl b (by simp [hb])) b hb
    exact this h2 h3 x hx

/-! ### The analysis meets the TryBegin of the blocks it visits -/

/-- The TryBegin of the blocks visited (those being visited apart) are known. -/
def Met (env : SizeEnv) (st : SizeSt) : Prop :=
  ∀ x, x ∉ st.seen → st.starts x ≠ [] → ∀ t, BElem.tryBegin t ∈ (env.c.heap x).elems → t ∈ st.tries

structure DPost (env : SizeEnv) (st st' : SizeSt) : Prop where
  seen : st'.seen = st.seen
  tries : ∀ t ∈ st.tries, t ∈ st'.tries
  met : Met env st → Met env st'

theorem DPost.refl (env : SizeEnv) (st : SizeSt) : DPost env st st := ⟨rfl, fun _ h => h, id⟩

theorem DPost.trans {env : SizeEnv} {a b c : SizeSt} (h : DPost env a b) (k : DPost env b c) : DPost env a c :=
  ⟨k.seen.trans h.seen, fun t ht => k.tries t (h.tries t ht), fun hm => k.met (h.met hm)⟩

def RecMet (env : SizeEnv) (rec : Visit) : Prop := ∀ b size mx mn h pend st m st', rec b size mx mn h pend st = .ok (m, st') → DPost env st st'

theorem handlerUsage_met {env : SizeEnv} {rec : Visit} (hrec : RecMet env rec) {s : SizeLoc} {target : Nat} {lasti : Bool} {st st' : SizeSt}
    (h : handlerUsage env rec s target lasti st = .ok st') : DPost env st st' := by
  unfold handlerUsage at h
  split at h
  · split at h
    · obtain ⟨⟨m, st1⟩, h1, h⟩ := except_bind_ok h
      simp only [pure, Except.pure, Except.ok.injEq] at h
      subst h
      have := hrec _ _ _ _ _ _ _ _ _ h1
      exact ⟨this.seen, this.tries, this.met⟩
    · simp only [Except.ok.injEq] at h
      subst h; exact .refl _ _
  · cases h

/-- What holds after the block `b` is left: every TryBegin is known. -/
theorem leave_met {env : SizeEnv} {b : Nat} {s : SizeLoc} {st0 st st' : SizeSt} {m : Int} {seen0 : List Nat}
    (hs : st.seen = b :: seen0) (hp : DPost env st0 st) (hall : ∀ t, BElem.tryBegin t ∈ (env.c.heap b).elems → t ∈ st.tries)
    (h : leaveBlock b s st = .ok (m, st')) : st'.seen = seen0 ∧ (∀ t ∈ st0.tries, t ∈ st'.tries) ∧ (Met env st0 → Met env st') := by
  unfold leaveBlock at h
  simp only [Except.ok.injEq, Prod.mk.injEq] at h
  obtain ⟨_, rfl⟩ := h
  refine ⟨?_, hp.tries, ?_⟩
  · show st.seen.erase b = seen0
    rw [hs]; simp
  · intro hm x hx hst t ht
    have hx : x ∉ seen0 := by
      have : (st.seen.erase b) = seen0 := by rw [hs]; simp
      rw [← this]; exact hx
    by_cases hxb : x = b
    · subst hxb; exact hall t ht
    · exact hp.met hm x (by rw [hs]; simp [hxb, hx]) hst t ht

theorem runElems_met {env : SizeEnv} {rec : Visit} (hrec : RecMet env rec) {b : Nat} {seen0 : List Nat} (es : List BElem) :
    ∀ {pre : List BElem} {s : SizeLoc} {st st' : SizeSt} {m : Int}, (env.c.heap b).elems = pre ++ es → NoTryAfter env.P (env.c.heap b).elems →
      st.seen = b :: seen0 → (∀ t, BElem.tryBegin t ∈ pre → t ∈ st.tries) → runElems env rec b es s st = .ok (m, st') →
      st'.seen = seen0 ∧ (∀ t ∈ st.tries, t ∈ st'.tries) ∧ (Met env st → Met env st') := by
  induction es with
  | nil =>
    intro pre s st st' m he _ hs hpre h
    rw [List.append_nil] at he
    have hall : ∀ t, BElem.tryBegin t ∈ (env.c.heap b).elems → t ∈ st.tries := by rw [he]; exact hpre
    simp only [runElems, runEnd] at h
    split at h
    · exact leave_met hs (.refl _ _) hall h
    · split at h
      · exact leave_met hs (.refl _ _) hall h
      · obtain ⟨⟨m1, st1⟩, h1, h⟩ := except_bind_ok h
        have p1 := hrec _ _ _ _ _ _ _ _ _ h1
        exact leave_met (by rw [p1.seen]; exact hs) p1 (fun t ht => p1.tries t (hall t ht)) h
  | cons e r ih =>
    intro pre s st st' m he hnta hs hpre h
    have he' : (env.c.heap b).elems = (pre ++ [e]) ++ r := by rw [he]; simp
    have hsp : ∀ i, e = .instr i → Special env.P i → ∀ (st1 : SizeSt), (∀ t ∈ st.tries, t ∈ st1.tries) →
        ∀ t, BElem.tryBegin t ∈ (env.c.heap b).elems → t ∈ st1.tries := by
      intro i hi hspec st1 hst1 t ht
      subst hi
      have hno := hnta pre i r he hspec t
      rw [he] at ht
      rcases List.mem_append.1 ht with ht | ht
      · exact hst1 t (hpre t ht)
      · rcases List.mem_cons.1 ht with ht | ht
        · cases ht
        · exact absurd ht hno
    have go : ∀ {s : SizeLoc} {st1 : SizeSt}, DPost env st st1 → (∀ t, e = .tryBegin t → t ∈ st1.tries) → runElems env rec b r s st1 = .ok (m, st') →
        st'.seen = seen0 ∧ (∀ t ∈ st.tries, t ∈ st'.tries) ∧ (Met env st → Met env st') := by
      intro s st1 hp hb h
      obtain ⟨g1, g2, g3⟩ := ih he' hnta (by rw [hp.seen]; exact hs) (by
        intro t ht
        rcases List.mem_append.1 ht with ht | ht
        · exact hp.tries t (hpre t ht)
        · rw [List.mem_singleton] at ht
          exact hb t ht.symm) h
      exact ⟨g1, fun t ht => g2 t (hp.tries t ht), fun hm => g3 (hp.met hm)⟩
    rw [runElems.eq_def] at h
    simp only at h
    obtain ⟨_, _, h⟩ := except_bind_ok h
    cases e with
    | label l => cases h
    | setLineno l => exact go (.refl _ _) (fun t e => by cases e) h
    | tryBegin t =>
      obtain ⟨_, _, h⟩ := except_bind_ok h
      refine go (st1 := { st with tries := st.tries ++ [t] }) ⟨rfl, (fun u hu => List.mem_append.2 (.inl hu)), ?_⟩ ?_ h
      · intro hm x hx hst u hu
        exact List.mem_append.2 (.inl (hm x hx hst u hu))
      · intro u hu
        simp only [BElem.tryBegin.injEq] at hu
        subst hu; simp
    | tryEnd id =>
      simp only at h
      split at h
      · exact go (.refl _ _) (fun t e => by cases e) h
      · split at h
        · obtain ⟨st1, h1, h⟩ := except_bind_ok h
          exact go (handlerUsage_met hrec h1) (fun t e => by cases e) h
        · exact go (.refl _ _) (fun t e => by cases e) h
    | instr i =>
      have hfin : ∀ {s : SizeLoc} {st1 st2 : SizeSt}, DPost env st st1 → finalTryEnd env rec s r st1 = .ok st2 → DPost env st st2 := by
        intro s st1 st2 hp h
        unfold finalTryEnd at h
        split at h
        · simp only [Except.ok.injEq] at h; subst h; exact hp
        · split at h
          · exact hp.trans (handlerUsage_met hrec h)
          · cases h
      have hunc : ∀ {s : SizeLoc} {st1 st2 : SizeSt}, DPost env st st1 → uncondTryEnd env rec s r st1 = .ok st2 → DPost env st st2 := by
        intro s st1 st2 hp h
        unfold uncondTryEnd at h
        split at h
        · split at h
          · exact hp.trans (handlerUsage_met hrec h)
          · simp only [Except.ok.injEq] at h; subst h; exact hp
        · simp only [Except.ok.injEq] at h; subst h; exact hp
      simp only at h
      split at h
      · rename_i hj
        obtain ⟨⟨s1, st1⟩, h1, h⟩ := except_bind_ok h
        have p1 : DPost env st st1 := by
          unfold jumpTaken at h1
          obtain ⟨_, _, h1⟩ := except_bind_ok h1
          obtain ⟨_, _, h1⟩ := except_bind_ok h1
          split at h1
          · cases h1
          · obtain ⟨⟨m2, st2⟩, h2, h1⟩ := except_bind_ok h1
            simp only [pure, Except.pure, Except.ok.injEq, Prod.mk.injEq] at h1
            rw [← h1.2]
            exact hrec _ _ _ _ _ _ _ _ _ h2
        simp only at h
        split at h
        · obtain ⟨st2, h2, h⟩ := except_bind_ok h
          have p2 := hunc p1 h2
          exact leave_met (by rw [p2.seen]; exact hs) p2 (hsp i rfl (.inl hj) st2 p2.tries) h
        · obtain ⟨_, _, h⟩ := except_bind_ok h
          obtain ⟨_, _, h⟩ := except_bind_ok h
          split at h
          · obtain ⟨st2, h2, h⟩ := except_bind_ok h
            have p2 := hfin p1 h2
            exact leave_met (by rw [p2.seen]; exact hs) p2 (hsp i rfl (.inl hj) st2 p2.tries) h
          · exact go p1 (fun t e => by cases e) h
      · obtain ⟨_, _, h⟩ := except_bind_ok h
        obtain ⟨_, _, h⟩ := except_bind_ok h
        split at h
        · rename_i hf
          obtain ⟨st2, h2, h⟩ := except_bind_ok h
          have p2 := hfin (.refl _ _) h2
          exact leave_met (by rw [p2.seen]; exact hs) p2 (hsp i rfl (.inr hf) st2 p2.tries) h
        · exact go (.refl _ _) (fun t e => by cases e) h

theorem visit_met {env : SizeEnv} (hn : ∀ b, NoTryAfter env.P (env.c.heap b).elems) : ∀ fuel, RecMet env (visit env fuel) := by
  intro fuel
  induction fuel with
  | zero => intro b size mx mn h pend st m st' hr; cases hr
  | succ fuel ih =>
    intro b size mx mn h pend st m st' hr
    simp only [visit] at hr
    split at hr
    · simp only [Except.ok.injEq, Prod.mk.injEq] at hr
      rw [← hr.2]; exact .refl _ _
    · rename_i hb
      split at hr
      · cases hr
      · split at hr
        · simp only [Except.ok.injEq, Prod.mk.injEq] at hr
          rw [← hr.2]; exact .refl _ _
        · obtain ⟨s, _, hr⟩ := except_bind_ok hr
          obtain ⟨g1, g2, g3⟩ := runElems_met ih (seen0 := st.seen) (env.c.heap b).elems (pre := []) rfl (hn b) rfl (fun t ht => by cases ht) hr
          refine ⟨g1, g2, ?_⟩
          intro hm
          apply g3
          intro x hx hst t ht
          have hxb : x ≠ b := fun e => hx (by rw [e]; simp)
          have hxs : x ∉ st.seen := fun e => hx (by simp [e])
          refine hm x hxs ?_ t ht
          simpa [upd, hxb] using hst

/-! ### Every TryBegin has a depth -/

/-- All occurrences of the TryBegin `id` have a depth. -/
def SomeD (c : CFG) (id : Nat) : Prop := ∀ b u, BElem.tryBegin u ∈ (c.heap b).elems → u.id = id → u.depth ≠ none

/-- Depths were set at most. -/
def KeepD (c c' : CFG) : Prop := ∀ b u, BElem.tryBegin u ∈ (c'.heap b).elems →
  u.depth ≠ none ∨ BElem.tryBegin u ∈ (c.heap b).elems

theorem KeepD.refl (c : CFG) : KeepD c c := fun _ _ h => .inr h

theorem KeepD.trans {a b c : CFG} (h : KeepD a b) (k : KeepD b c) : KeepD a c := by
  intro x u hu
  rcases k x u hu with hu | hu
  · exact .inl hu
  · exact h x u hu

theorem mem_setDepth {c : CFG} {id d b : Nat} {u : TryB} (h : BElem.tryBegin u ∈ ((c.setDepth id d).heap b).elems) :
    (u.depth = some d ∧ u.id = id) ∨ (BElem.tryBegin u ∈ (c.heap b).elems ∧ u.id ≠ id) := by
  simp only [CFG.setDepth] at h
  obtain ⟨e, he, hx⟩ := List.mem_map.1 h
  cases e with
  | tryBegin v =>
    simp only at hx
    split at hx
    · rename_i hv
      simp only [BElem.tryBegin.injEq] at hx
      subst hx; exact .inl ⟨rfl, hv⟩
    · rename_i hv
      simp only [BElem.tryBegin.injEq] at hx
      subst hx; exact .inr ⟨he, hv⟩
  | _ => cases hx

theorem setDepth_keep (c : CFG) (id d : Nat) : KeepD c (c.setDepth id d) ∧ SomeD (c.setDepth id d) id := by
  refine ⟨?_, ?_⟩
  · intro b u hu
    rcases mem_setDepth hu with ⟨h, _⟩ | ⟨h, _⟩
    · exact .inl (by rw [h]; simp)
    · exact .inr h
  · intro b u hu hid
    rcases mem_setDepth hu with ⟨h, _⟩ | ⟨_, h⟩
    · rw [h]; simp
    · exact absurd hid h

theorem SomeD.keep {c c' : CFG} {id : Nat} (h : SomeD c id) (k : KeepD c c') : SomeD c' id := by
  intro b u hu hid
  rcases k b u hu with hu | hu
  · exact hu
  · exact h b u hu hid

theorem foldDepth_set (ids : List Nat) (d : Nat) : ∀ c : CFG, KeepD c (ids.foldl (fun c id => c.setDepth id d) c) ∧
    ∀ id ∈ ids, SomeD (ids.foldl (fun c id => c.setDepth id d) c) id := by
  induction ids with
  | nil => intro c; exact ⟨.refl c, fun _ h => by cases h⟩
  | cons i ids ih =>
    intro c
    obtain ⟨k1, k2⟩ := setDepth_keep c i d
    obtain ⟨i1, i2⟩ := ih (c.setDepth i d)
    refine ⟨k1.trans i1, ?_⟩
    intro id hid
    rcases List.mem_cons.1 hid with rfl | hid
    · exact k2.keep i1
    · exact i2 id hid

theorem assignDepths_set (env : SizeEnv) (st : SizeSt) (ts : List TryB) : ∀ (c c' : CFG), assignDepths env st c ts = .ok c' →
    KeepD c c' ∧ ∀ t ∈ ts, SomeD c' t.id := by
  induction ts with
  | nil =>
    intro c c' h
    simp only [assignDepths, Except.ok.injEq] at h
    subst h; exact ⟨.refl c, fun _ h => by cases h⟩
  | cons t ts ih =>
    intro c c' h
    unfold assignDepths at h
    split at h
    · obtain ⟨_, _, h⟩ := except_bind_ok h
      obtain ⟨k1, k2⟩ := setDepth_keep c t.id (st.excStart t.target).toNat
      obtain ⟨i1, i2⟩ := ih _ _ h
      refine ⟨k1.trans i1, ?_⟩
      intro u hu
      rcases List.mem_cons.1 hu with rfl | hu
      · exact k2.keep i1
      · exact i2 u hu
    · cases h

theorem deadTries_mem {env : SizeEnv} {st : SizeSt} (bs : List Nat) : ∀ {ids : List Nat}, deadTries env st bs = .ok ids → ∀ b ∈ bs, st.starts b = [] →
    ∀ t, BElem.tryBegin t ∈ (env.c.heap b).elems → t.depth = none → t.id ∈ ids := by
  induction bs with
  | nil => intro ids _ b hb; cases hb
  | cons x bs ih =>
    intro ids h b hb hs t ht hd
    unfold deadTries at h
    split at h
    · obtain ⟨_, _, h⟩ := except_bind_ok h
      obtain ⟨r, hr, h⟩ := except_bind_ok h
      simp only [pure, Except.pure, Except.ok.injEq] at h
      subst h
      rw [List.mem_append]
      rcases List.mem_cons.1 hb with rfl | hb
      · left
        exact List.mem_filterMap.2 ⟨_, ht, by simp [hd]⟩
      · exact .inr (ih hr b hb hs t ht hd)
    · rename_i hne
      rcases List.mem_cons.1 hb with rfl | hb
      · rw [hs] at hne; exact absurd rfl hne
      · exact ih h b hb hs t ht hd

theorem computeStacksize_depths {P : Platform} {eff : Instr → Bool → Py (Int × Int)} {c c' : CFG} {n : Int}
    (hn : ∀ b, NoTryAfter P (c.heap b).elems) (h : c.computeStacksize P eff true = .ok (n, c')) :
    ∀ t, BElem.tryBegin t ∈ allCode c' → t.depth ≠ none := by
  have hd := computeStacksize_only h
  unfold CFG.computeStacksize at h
  split at h
  · rename_i hb
    intro t ht
    unfold allCode at ht
    rw [hd.blocks, hb] at ht
    cases ht
  · rename_i b0 bs hb
    obtain ⟨⟨m, st⟩, hv, h⟩ := except_bind_ok h
    obtain ⟨ids, hids, h⟩ := except_bind_ok h
    simp only [if_true] at h
    obtain ⟨c2, h2, h⟩ := except_bind_ok h
    simp only [pure, Except.pure, Except.ok.injEq, Prod.mk.injEq] at h
    rw [← h.2]
    have hmp := visit_met (env := ⟨P, eff, c⟩) hn _ _ _ _ _ _ _ _ _ _ hv
    have hmet : Met ⟨P, eff, c⟩ st := hmp.met (fun x _ hs => absurd rfl hs)
    have hseen : st.seen = [] := hmp.seen
    obtain ⟨k1, k2⟩ := foldDepth_set ids 32768 c
    obtain ⟨k3, k4⟩ := assignDepths_set _ _ _ _ _ h2
    intro t ht hdt
    unfold allCode at ht
    obtain ⟨b, hbm, ht⟩ := List.mem_flatMap.1 ht
    have hbm : b ∈ c.blocks := by rw [← h.2] at hd; rw [← hd.blocks]; exact hbm
    rcases (k1.trans k3) b t ht with hx | hx
    · exact hx hdt
    · by_cases hs : st.starts b = []
      · have := deadTries_mem c.blocks hids b hbm hs t hx hdt
        exact (k2 _ this).keep k3 b t ht rfl hdt
      · have := hmet b (by rw [hseen]; simp) hs t hx
        exact k4 t this b t ht rfl hdt

/-! ### `to_bytecode` keeps them -/

structure ZInv (s : ToSt) : Prop where
  out : ∀ u, BElem.tryBegin u ∈ s.out → u.depth ≠ none
  tries : ∀ id t bid, s.tries id = some (t, bid) → t.depth ≠ none
  te : ∀ t bid p, s.lastTE = some (t, bid, p) → t.depth ≠ none

theorem minDepth_some {a b : Option Nat} (ha : a ≠ none) (hb : b ≠ none) : minDepth a b ≠ none := by
  cases a <;> cases b <;> simp_all [minDepth]

theorem tryDepth_some {bid : Nat} {es : List BElem} (h : ∀ u, BElem.tryBegin u ∈ es → u.depth ≠ none) {u : TryB} (hu : BElem.tryBegin u ∈ es)
    (hid : u.id = bid) : tryDepth bid es ≠ none := by
  unfold tryDepth
  cases hf : es.findSome? (fun | .tryBegin t => if t.id = bid then some t.depth else none | _ => none) with
  | none =>
    rw [List.findSome?_eq_none_iff] at hf
    have := hf _ hu
    simp [hid] at this
  | some d =>
    obtain ⟨x, hx, hxd⟩ := List.exists_of_findSome?_eq_some hf
    cases x with
    | tryBegin v =>
      simp only at hxd
      split at hxd
      · simp only [Option.some.injEq] at hxd
        subst hxd
        exact h v hx
      · cases hxd
    | _ => cases hxd

theorem znested {s s' : ToSt} {t : TryB} (h : ZInv s) (ht : t.depth ≠ none) (hr : s.nested t = .ok s') : ZInv s' := by
  unfold ToSt.nested at hr
  split at hr
  · simp only [Except.ok.injEq] at hr
    subst hr; exact h
  · obtain ⟨_, _, hr⟩ := except_bind_ok hr
    obtain ⟨_, _, hr⟩ := except_bind_ok hr
    simp only [pure, Except.pure, Except.ok.injEq] at hr
    subst hr
    refine ⟨?_, h.tries, h.te⟩
    intro u hu
    obtain ⟨v, hv, hvi, _, _, hvd⟩ := mem_setTryDepth hu
    rw [hvd]
    split
    · rename_i hid
      exact minDepth_some (tryDepth_some h.out hv hid) ht
    · exact h.out v hv

theorem zstep {s s' : ToSt} {e : BElem} (h : ZInv s) (he : ∀ t, e = .tryBegin t → t.depth ≠ none) (hr : s.step e = .ok s') : ZInv s' := by
  have snoc : ∀ x, (∀ t, x ≠ .tryBegin t) → ∀ u, BElem.tryBegin u ∈ s.out ++ [x] → u.depth ≠ none := by
    intro x hx u hu
    rcases List.mem_append.1 hu with hu | hu
    · exact h.out u hu
    · rw [List.mem_singleton] at hu; exact absurd hu.symm (hx u)
  cases e with
  | label l =>
    simp only [ToSt.step, Except.ok.injEq] at hr
    subst hr
    exact ⟨snoc _ (fun t e => by cases e), h.tries, h.te⟩
  | setLineno l =>
    simp only [ToSt.step, Except.ok.injEq] at hr
    subst hr
    exact ⟨snoc _ (fun t e => by cases e), h.tries, h.te⟩
  | instr l =>
    simp only [ToSt.step, Except.ok.injEq] at hr
    subst hr
    exact ⟨snoc _ (fun t e => by cases e), h.tries, fun t b p e => by cases e⟩
  | tryEnd id =>
    simp only [ToSt.step] at hr
    split at hr
    · simp only [Except.ok.injEq] at hr
      subst hr; exact h
    · split at hr
      · cases hr
      · rename_i t bid htr
        simp only [Except.ok.injEq] at hr
        subst hr
        refine ⟨snoc _ (fun t e => by cases e), h.tries, ?_⟩
        intro t' b' p' e
        simp only [Option.some.injEq, Prod.mk.injEq] at e
        rw [← e.1]
        exact h.tries _ _ _ htr
  | tryBegin t =>
    have ht := he t rfl
    simp only [ToSt.step] at hr
    obtain ⟨s1, h1, hr⟩ := except_bind_ok hr
    have z := znested h ht h1
    have htries : ∀ bid id t' bid', upd s1.tries t.id (some (t, bid)) id = some (t', bid') → t'.depth ≠ none := by
      intro bid id t' bid' e
      simp only [upd] at e
      split at e
      · simp only [Option.some.injEq, Prod.mk.injEq] at e
        rw [← e.1]; exact ht
      · exact z.tries _ _ _ e
    have hfresh : ZInv (s1.freshTry t) := by
      refine ⟨?_, fun id t' bid e => htries _ id t' bid e, fun t b p e => by cases e⟩
      intro u hu
      rcases List.mem_append.1 hu with hu | hu
      · exact z.out u hu
      · simp only [List.mem_singleton, BElem.tryBegin.injEq] at hu
        subst hu; exact ht
    split at hr
    · rename_i entry bid pos hl
      split at hr
      · unfold ToSt.fuse at hr
        obtain ⟨d, hd, hr⟩ := except_bind_ok hr
        have hent := z.te _ _ _ hl
        have hds : d ≠ none := by
          unfold fusedDepth at hd
          split at hd
          · rename_i e1 _; exact absurd e1 hent
          · cases hd
          · simp only [Except.ok.injEq] at hd
            subst hd
            exact minDepth_some (by simp) ht
        split at hr
        · cases hr
        · simp only [Except.ok.injEq] at hr
          subst hr
          refine ⟨?_, fun id t' bid e => htries _ id t' bid e, ?_⟩
          · intro u hu
            obtain ⟨v, hv, hvi, _, _, hvd⟩ := mem_setTryDepth (List.mem_of_mem_eraseIdx hu)
            rw [hvd]
            split
            · exact hds
            · exact z.out v hv
          · intro t' b' p' e
            simp only [Option.some.injEq, Prod.mk.injEq] at e
            rw [← e.1]; exact hent
      · simp only [pure, Except.pure, Except.ok.injEq] at hr
        subst hr; exact hfresh
    · simp only [pure, Except.pure, Except.ok.injEq] at hr
      subst hr; exact hfresh

theorem zrun (es : List BElem) : ∀ {s s' : ToSt}, ZInv s → (∀ t, BElem.tryBegin t ∈ es → t.depth ≠ none) → s.run es = .ok s' → ZInv s' := by
  induction es with
  | nil =>
    intro s s' h _ hr
    simp only [ToSt.run, Except.ok.injEq] at hr
    subst hr; exact h
  | cons e r ih =>
    intro s s' h he hr
    unfold ToSt.run at hr
    obtain ⟨s1, h1, hr⟩ := except_bind_ok hr
    exact ih (zstep h (fun t e => he t (by simp [e])) h1) (fun t ht => he t (by simp [ht])) hr

theorem zloop {heap : Nat → Blk} {used : List Nat} (bs : List Nat) : ∀ {s s' : ToSt}, ZInv s →
    (∀ t, BElem.tryBegin t ∈ bs.flatMap (fun b => (heap b).elems) → t.depth ≠ none) → toLoop heap used s bs = .ok s' → ZInv s' := by
  induction bs with
  | nil =>
    intro s s' h _ hr
    simp only [toLoop, Except.ok.injEq] at hr
    subst hr; exact h
  | cons b r ih =>
    intro s s' h he hr
    unfold toLoop at hr
    obtain ⟨s1, h1, hr⟩ := except_bind_ok hr
    rw [List.flatMap_cons] at he
    have h0 : ZInv (if b ∈ used then { s with out := s.out ++ [.label b] } else s) := by
      split
      · refine ⟨?_, h.tries, h.te⟩
        intro u hu
        rcases List.mem_append.1 hu with hu | hu
        · exact h.out u hu
        · simp at hu
      · exact h
    exact ih (zrun _ h0 (fun t ht => he t (List.mem_append.2 (.inl ht))) h1) (fun t ht => he t (List.mem_append.2 (.inr ht))) hr

/-- Every TryBegin of the result has a depth, and its handler is in the result. -/
theorem to_begins {P : Platform} {c : CFG} {bc : Bytecode} (hnd : c.blocks.Nodup) (hd : ∀ t, BElem.tryBegin t ∈ allCode c → t.depth ≠ none)
    (h : c.toBytecode P = .ok bc) : ∀ t, BElem.tryBegin t ∈ bc.elems → t.depth ≠ none ∧ (labelAt t.target bc.elems).isSome = true := by
  unfold CFG.toBytecode at h
  obtain ⟨used, hu, h⟩ := except_bind_ok h
  obtain ⟨s, hs, h⟩ := except_bind_ok h
  obtain ⟨es, hes, h⟩ := except_bind_ok h
  simp only [pure, Except.pure, Except.ok.injEq] at h
  subst h
  have hi : ZInv ⟨[], fun _ => none, [], none, none⟩ := ⟨(fun u h => by cases h), (fun _ _ _ h => by cases h), fun _ _ _ h => by cases h⟩
  have z := zloop c.blocks hi hd hs
  have inv := toLoop_ok c.blocks (⟨rfl, fun t b p hp => by cases hp⟩ : TInv ⟨[], fun _ => none, [], none, none⟩ []) hs
  rw [List.nil_append] at inv
  have hno : ∀ k ∈ c.blocks, ∀ l, BElem.label l ∉ (c.heap k).elems := fun k hk => blkIter_noLabel (usedBlocks_iter hu k hk)
  intro t ht
  have ht := toLabel_try hes ht
  refine ⟨z.out t ht, ?_⟩
  have hl := (toLabel_walk hes).2 t ht
  rw [List.mem_filter] at hl
  show (labelAt t.target es).isSome = true
  rw [labelAt_toLabel hes, ← labelAt_skel, inv.skel, labelAt_skelOf (of_decide_eq_true hl.2) hnd hno]
  have : ∀ l : List Nat, t.target ∈ l → (blockAt c.heap t.target l).isSome = true := by
    intro l
    induction l with
    | nil => intro h; cases h
    | cons x l ih =>
      intro h
      unfold blockAt
      split
      · rfl
      · rename_i hx
        rcases List.mem_cons.1 h with h | h
        · exact absurd h.symm hx
        · rw [Option.isSome_map]; exact ih h
  exact this _ hl.1

end Verif
