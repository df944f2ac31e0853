import Verif.Proofs.Linear
/- The graph of a Bytecode without exception handlers has none. -/
namespace Verif
open Spec

def NoBeg (es : List BElem) : Prop := ∀ t, BElem.tryBegin t ∉ es

structure NoBegSt (s : FromSt) : Prop where
  done : ∀ b ∈ s.done, NoBeg b.elems
  cur : NoBeg s.cur.elems
  active : s.active = none

theorem noBeg_append {a b : List BElem} (ha : NoBeg a) (hb : NoBeg b) : NoBeg (a ++ b) := by
  intro l h
  rcases List.mem_append.1 h with h | h
  · exact ha l h
  · exact hb l h

theorem NoBegSt.push {s : FromSt} {e : BElem} (h : NoBegSt s) (he : NoBeg [e]) : NoBegSt (s.push e) :=
  ⟨h.done, noBeg_append h.cur he, h.active⟩

theorem NoBegSt.open_ {s : FromSt} (c : Bool) (h : NoBegSt s) : NoBegSt (s.open_ c) := by
  refine ⟨?_, (fun l hl => by cases hl), h.active⟩
  intro b hb
  simp only [FromSt.open_, List.mem_append, List.mem_singleton] at hb
  rcases hb with hb | rfl
  · exact h.done b hb
  · exact h.cur

theorem NoBegSt.of {s s' : FromSt} (h : NoBegSt s) (h1 : s'.done = s.done) (h2 : s'.cur = s.cur) (h3 : s'.active = s.active) : NoBegSt s' :=
  ⟨by rw [h1]; exact h.done, by rw [h2]; exact h.cur, by rw [h3]; exact h.active⟩

theorem noBeg_end (id : Nat) : NoBeg [.tryEnd id] := by intro l h; simp at h
theorem noBeg_line (t : Nat) : NoBeg [.setLineno t] := by intro l h; simp at h
theorem noBeg_instr (t : Instr) : NoBeg [.instr t] := by intro l h; simp at h

theorem NoBegSt.copyElem {s s' : FromSt} {e : BElem} (h : NoBegSt s) (he : NoBeg [e]) (hr : s.copyElem e = .ok s') : NoBegSt s' := by
  cases e with
  | label l =>
    simp only [FromSt.copyElem, Except.ok.injEq] at hr
    subst hr; exact h.of rfl rfl rfl
  | setLineno l =>
    simp only [FromSt.copyElem, Except.ok.injEq] at hr
    subst hr; exact (h.push (noBeg_line l)).of rfl rfl rfl
  | instr l =>
    simp only [FromSt.copyElem, Except.ok.injEq] at hr
    subst hr; exact (h.push (noBeg_instr l)).of rfl rfl rfl
  | tryBegin l => exact absurd (List.mem_singleton.2 rfl) (he l)
  | tryEnd id =>
    simp only [FromSt.copyElem] at hr
    split at hr
    · cases hr
    · rename_i nid _
      simp only [Except.ok.injEq] at hr
      subst hr
      have := h.push (noBeg_end nid)
      exact ⟨this.done, this.cur, rfl⟩

theorem NoBegSt.bridge {P : Platform} {es : List BElem} {s s' : FromSt} {temp : Bool} {i : Instr} {e : BElem} {d : Bool} (hn : NoBegSt s)
    (h : s.bridge P es temp i e = .ok (s', d)) : NoBegSt s' := by
  unfold FromSt.bridge at h
  rw [hn.active] at h
  split at h
  · cases h
  · contradiction
  · contradiction
  · simp only [Except.ok.injEq, Prod.mk.injEq] at h
    obtain ⟨rfl, rfl⟩ := h
    exact hn

theorem NoBegSt.enter {P : Platform} {s s' : FromSt} {k : Nat} {st : Bool} {e : BElem} {o : Bool} (h : NoBegSt s)
    (hr : s.enter P k st e = .ok (s', o)) : NoBegSt s' := by
  unfold FromSt.enter at hr
  split at hr
  · dsimp only at hr
    repeat' split at hr
    all_goals
      simp only [Except.ok.injEq, Prod.mk.injEq] at hr
      obtain ⟨rfl, rfl⟩ := hr
      first
        | exact h
        | exact h.of rfl rfl rfl
        | exact h.open_ _
        | exact (h.open_ _).of rfl rfl rfl
  · repeat' split at hr
    all_goals first
      | (cases hr; done)
      | (simp only [Except.ok.injEq, Prod.mk.injEq] at hr; obtain ⟨rfl, rfl⟩ := hr; exact h.open_ _)
      | (simp only [Except.ok.injEq, Prod.mk.injEq] at hr; obtain ⟨rfl, rfl⟩ := hr; exact h)

theorem NoBegSt.step {P : Platform} {es : List BElem} {starts : List Nat} {s s' : FromSt} {k : Nat} {e : BElem} (h : NoBegSt s)
    (he : NoBeg [e]) (hr : s.step P es starts k e = .ok s') : NoBegSt s' := by
  unfold FromSt.step at hr
  obtain ⟨⟨s1, o⟩, h1, hr⟩ := except_bind_ok hr
  have h := h.enter h1
  simp only at hr
  split at hr
  · have h : NoBegSt { s1 with inserted := false } := h.of rfl rfl rfl
    split at hr
    · obtain ⟨⟨s2, d⟩, h2, hr⟩ := except_bind_ok hr
      have h := h.bridge h2
      simp only at hr
      split at hr
      · simp only [pure, Except.pure, Except.ok.injEq] at hr
        subst hr; exact h
      · exact h.copyElem he hr
    · exact h.copyElem he hr
  · exact h.copyElem he hr

theorem NoBegSt.loop {P : Platform} {es : List BElem} {starts : List Nat} (r : List BElem) : ∀ {s s' : FromSt} {k : Nat}, NoBegSt s → NoBeg r →
    fromLoop P es starts k s r = .ok s' → NoBegSt s' := by
  induction r with
  | nil =>
    intro s s' k h _ hr
    simp only [fromLoop, Except.ok.injEq] at hr
    subst hr; exact h
  | cons e r ih =>
    intro s s' k h hb hr
    unfold fromLoop at hr
    obtain ⟨s1, h1, hr⟩ := except_bind_ok hr
    exact ih (h.step (fun t ht => hb t (by rw [List.mem_singleton] at ht; simp [ht])) h1) (fun t ht => hb t (by simp [ht])) hr

theorem insertEnds_noBeg (ids : List Nat) : ∀ (ex : List Nat) {es : List BElem}, NoBeg es → NoBeg (insertEnds ex es ids) := by
  induction ids with
  | nil => intro ex es h; exact h
  | cons i r ih =>
    intro ex es h
    unfold insertEnds
    split
    · exact ih _ h
    · exact ih _ (noBeg_append (a := [.tryEnd i]) (noBeg_end i) h)

theorem applyEnds_noBeg {labels : Nat → Option Nat} (ends : List (Nat × List Nat)) : ∀ {bs bs' : List Blk},
    applyEnds labels bs ends = .ok bs' → (∀ b ∈ bs, NoBeg b.elems) → ∀ b ∈ bs', NoBeg b.elems := by
  induction ends with
  | nil => intro bs bs' h hb; simp only [applyEnds, Except.ok.injEq] at h; subst h; exact hb
  | cons x r ih =>
    intro bs bs' h hb
    obtain ⟨l, ids⟩ := x
    unfold applyEnds at h
    split at h
    · cases h
    · refine ih h ?_
      split
      · rename_i b0 hb0
        intro b hm
        rcases List.mem_or_eq_of_mem_set hm with hm | rfl
        · exact hb b hm
        · exact insertEnds_noBeg _ _ (hb b0 (List.mem_of_getElem? hb0))
      · exact hb

/-- No handler appears, and there is nothing outside the blocks. -/
theorem from_noTry {P : Platform} {bc : Bytecode} {c : CFG} (hno : ∀ t, BElem.tryBegin t ∉ bc.elems) (h : fromBytecode P bc = .ok c) : NoTry c := by
  unfold fromBytecode at h
  obtain ⟨_, _, h⟩ := except_bind_ok h
  obtain ⟨starts, hst, h⟩ := except_bind_ok h
  obtain ⟨s, hs, h⟩ := except_bind_ok h
  obtain ⟨bs1, h1, h⟩ := except_bind_ok h
  obtain ⟨bs, h2, h⟩ := except_bind_ok h
  simp only [pure, Except.pure, Except.ok.injEq] at h
  have i0 : NoBegSt ⟨[], ⟨[], none⟩, fun _ => none, fun _ => none, [], none, false, none, 0⟩ :=
    ⟨(fun b hb => by cases hb), (fun l hl => by cases hl), rfl⟩
  have i1 := i0.loop _ hno hs
  have i2 := applyEnds_noBeg _ h1 (by
    intro b hb
    rcases List.mem_append.1 hb with hb | hb
    · exact i1.done b hb
    · rw [List.mem_singleton] at hb; subst hb; exact i1.cur)
  subst h
  intro b l hl
  have hl' : BElem.tryBegin l ∈ ((bs[b]?).getD ⟨[], none⟩).elems := hl
  cases hb : bs[b]? with
  | none => rw [hb] at hl'; cases hl'
  | some x =>
    rw [hb] at hl'
    obtain ⟨b1, hb1, hf⟩ := (mapM_ok_mem h2).1 _ (List.mem_of_getElem? hb)
    obtain ⟨es, hes, hf⟩ := except_bind_ok hf
    simp only [pure, Except.pure, Except.ok.injEq] at hf
    simp only [Option.getD_some, ← hf] at hl'
    obtain ⟨e, he, hf⟩ := (mapM_ok_mem hes).1 _ hl'
    unfold toBlockElem at hf
    repeat' split at hf
    all_goals first
      | (cases hf; done)
      | (exact absurd he (i2 b1 hb1 _))
      | (simp only [Except.ok.injEq] at hf; subst hf; exact absurd he (i2 b1 hb1 _))

/-- Nothing follows a block that is not in the graph. -/
theorem from_outside {P : Platform} {bc : Bytecode} {c : CFG} (h : fromBytecode P bc = .ok c) : ∀ k, k ∉ c.blocks → c.heap k = ⟨[], none⟩ := by
  unfold fromBytecode at h
  obtain ⟨_, _, h⟩ := except_bind_ok h
  obtain ⟨starts, hst, h⟩ := except_bind_ok h
  obtain ⟨s, hs, h⟩ := except_bind_ok h
  obtain ⟨bs1, h1, h⟩ := except_bind_ok h
  obtain ⟨bs, h2, h⟩ := except_bind_ok h
  simp only [pure, Except.pure, Except.ok.injEq] at h
  subst h
  intro k hk
  simp only [CFG.ofBlocks, List.mem_range, Nat.not_lt] at hk
  show (bs[k]?).getD _ = _
  rw [List.getElem?_eq_none hk]; rfl

/-- Only the last block can be empty. -/
theorem from_nextNe {P : Platform} {b : Bytecode} {c : CFG} {n : Nat} (B : Bridge P b c n) (h : fromBytecode P b = .ok c) :
    ∀ k m, (c.heap k).next = some m → (c.heap m).elems ≠ [] ∨ (c.heap m).next = none := by
  intro k m hk
  by_cases hkn : k < n
  · rw [B.next k hkn] at hk
    split at hk
    · rename_i h1
      cases hk
      by_cases h2 : k + 1 + 1 < n
      · left
        obtain ⟨i, hi⟩ := B.last _ h2
        intro h0
        rw [h0] at hi; cases hi
      · right
        rw [B.next _ h1.1, if_neg]
        intro h3; exact h2 h3.1
    · cases hk
  · rw [from_outside h k (by rw [B.blocks]; simpa using hkn)] at hk
    cases hk

end Verif
