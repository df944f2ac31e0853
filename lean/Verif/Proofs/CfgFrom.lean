import Verif.Model.CfgConv
import Verif.Spec.CfgCode
import Verif.Proofs.Resolve
/-
`from_bytecode`: the code and the shape of the blocks.
-/
namespace Verif
open Spec

theorem codeOf_append (a b : List BElem) : codeOf (a ++ b) = codeOf a ++ codeOf b := List.filter_append ..

theorem codeOf_idem (a : List BElem) : codeOf (codeOf a) = codeOf a := by
  unfold codeOf
  rw [List.filter_filter]
  simp

theorem instrCount_append (a b : List BElem) : instrCount (a ++ b) = instrCount a + instrCount b := List.countP_append

theorem instrCount_codeOf (a : List BElem) : instrCount (codeOf a) = instrCount a := by
  unfold instrCount codeOf
  rw [List.countP_filter]
  congr 1
  funext x
  cases x <;> rfl

theorem lastInstr_codeOf (a : List BElem) : lastInstr (codeOf a) = lastInstr a := by
  unfold lastInstr codeOf
  rw [← List.filter_reverse]
  induction a.reverse with
  | nil => rfl
  | cons x r ih =>
    cases x with
    | instr i => rfl
    | setLineno n => exact ih
    | label l => exact ih
    | tryBegin t => exact ih
    | tryEnd t => exact ih

/-- A block without its markers. -/
def codeBlk (b : Blk) : Blk := ⟨codeOf b.elems, b.next⟩

theorem codeBlk_idem (b : Blk) : codeBlk (codeBlk b) = codeBlk b := by
  unfold codeBlk
  simp only [codeOf_idem]

theorem codeBlk_push (b : Blk) (e : BElem) (h : e.isCode = false) : codeBlk ⟨b.elems ++ [e], b.next⟩ = codeBlk b := by
  unfold codeBlk
  simp [codeOf_append, codeOf, h]

/-! ### Same code -/

/-- The parts of the state the markers do not touch. -/
structure SameCode (s s' : FromSt) : Prop where
  done : s'.done.map codeBlk = s.done.map codeBlk
  cur : codeBlk s'.cur = codeBlk s.cur
  labels : s'.labels = s.labels
  last : s'.last = s.last

theorem SameCode.refl (s : FromSt) : SameCode s s := ⟨rfl, rfl, rfl, rfl⟩

theorem SameCode.trans {a b c : FromSt} (h : SameCode a b) (h' : SameCode b c) : SameCode a c :=
  ⟨h'.done.trans h.done, h'.cur.trans h.cur, h'.labels.trans h.labels, h'.last.trans h.last⟩

theorem push_same (s : FromSt) (e : BElem) (h : e.isCode = false) : SameCode s (s.push e) :=
  ⟨rfl, codeBlk_push _ _ h, rfl, rfl⟩

theorem pushOld_same (s : FromSt) (e : BElem) (h : e.isCode = false) : SameCode s (s.pushOld e) := by
  refine ⟨?_, rfl, rfl, rfl⟩
  unfold FromSt.pushOld
  simp only
  split
  · rename_i b hb
    obtain ⟨ys, hys⟩ := List.getLast?_eq_some_iff.1 hb
    rw [hys]
    simp only [List.dropLast_concat, List.map_append, List.map_cons, List.map_nil]
    rw [codeBlk_push _ _ h]
  · rfl

theorem leave_same {P : Platform} {es : List BElem} {s s' : FromSt} {i : Instr} {t : TryB} {nid : Nat}
    (h : s.leave P es i t nid = .ok s') : SameCode s s' := by
  unfold FromSt.leave at h
  repeat' split at h
  all_goals first
    | (cases h; done)
    | (simp only [Except.ok.injEq] at h; subst h; exact .refl _)
    | (simp only [Except.ok.injEq] at h; subst h; exact ⟨rfl, rfl, rfl, rfl⟩)

theorem bridge_same {P : Platform} {es : List BElem} {s s' : FromSt} {temp : Bool} {i : Instr} {e : BElem} {d : Bool}
    (h : s.bridge P es temp i e = .ok (s', d)) : SameCode s s' ∧ (d = true → ∃ id, e = .tryEnd id) := by
  unfold FromSt.bridge at h
  split at h
  · cases h
  · split at h
    · simp only [Except.ok.injEq, Prod.mk.injEq] at h
      obtain ⟨rfl, rfl⟩ := h
      refine ⟨?_, fun _ => ⟨_, rfl⟩⟩
      have := pushOld_same s (.tryEnd ‹Nat›) rfl
      exact ⟨this.done, this.cur, this.labels, this.last⟩
    · cases h
  · split at h
    · cases h
    · obtain ⟨s1, h1, h⟩ := except_bind_ok h
      split at h
      · simp only [pure, Except.pure, Except.ok.injEq, Prod.mk.injEq] at h
        obtain ⟨rfl, rfl⟩ := h
        refine ⟨?_, fun h => by cases h⟩
        have a := (leave_same h1).trans (pushOld_same s1 (.tryEnd ‹Nat›) rfl)
        have b := a.trans (push_same _ (.tryBegin ⟨s1.ids, (‹TryB› : TryB).target, (‹TryB› : TryB).lasti, none⟩) rfl)
        exact ⟨b.done, b.cur, b.labels, b.last⟩
      · simp only [pure, Except.pure, Except.ok.injEq, Prod.mk.injEq] at h
        obtain ⟨rfl, rfl⟩ := h
        exact ⟨leave_same h1, fun h => by cases h⟩
  · simp only [Except.ok.injEq, Prod.mk.injEq] at h
    obtain ⟨rfl, rfl⟩ := h
    exact ⟨.refl _, fun h => by cases h⟩

/-! ### Only the last instruction jumps -/

theorem lastInstr_append_instr (a : List BElem) (i : Instr) (b : List BElem) (h : instrCount b = 0) :
    lastInstr (a ++ .instr i :: b) = some i := by
  unfold lastInstr
  rw [List.reverse_append, List.reverse_cons, List.append_assoc]
  have hb : ∀ x ∈ b.reverse, x.isInstr = false := by
    intro x hx
    unfold instrCount at h
    have := List.countP_eq_zero.1 h x (List.mem_reverse.1 hx)
    simpa using this
  generalize b.reverse = c at hb
  induction c with
  | nil => rfl
  | cons x r ih =>
    have hx := hb x (by simp)
    have := ih (fun y hy => hb y (by simp [hy]))
    cases x with
    | instr j => cases hx
    | label l => exact this
    | setLineno n => exact this
    | tryBegin t => exact this
    | tryEnd t => exact this

theorem lastInstr_none {es : List BElem} (h : lastInstr es = none) : instrCount es = 0 := by
  unfold lastInstr at h
  rw [List.findSome?_eq_none_iff] at h
  unfold instrCount
  rw [List.countP_eq_zero]
  intro x hx
  have := h x (List.mem_reverse.2 hx)
  cases x <;> simp_all [BElem.isInstr]

theorem instrCount_zero_last {es : List BElem} (h : instrCount es = 0) : lastInstr es = none := by
  unfold lastInstr
  rw [List.findSome?_eq_none_iff]
  intro x hx
  have := List.countP_eq_zero.1 h x (List.mem_reverse.1 hx)
  cases x <;> simp_all [BElem.isInstr]

theorem lastInstr_some {es : List BElem} {i : Instr} (h : lastInstr es = some i) :
    ∃ a b, es = a ++ .instr i :: b ∧ instrCount b = 0 := by
  induction es with
  | nil => cases h
  | cons x r ih =>
    cases hr : lastInstr r with
    | some j =>
      have h2 : lastInstr (x :: r) = some j := by
        unfold lastInstr at hr ⊢
        rw [List.reverse_cons, List.findSome?_append, hr]
        rfl
      rw [h2] at h
      cases h
      obtain ⟨a, b, hab, hb⟩ := ih hr
      exact ⟨x :: a, b, by rw [hab]; rfl, hb⟩
    | none =>
      have h2 : lastInstr (x :: r) = (match x with | .instr j => some j | _ => none) := by
        unfold lastInstr at hr ⊢
        rw [List.reverse_cons, List.findSome?_append, hr]
        cases x <;> rfl
      rw [h2] at h
      cases x with
      | instr j =>
        cases h
        exact ⟨[], r, rfl, lastInstr_none hr⟩
      | label l => cases h
      | setLineno l => cases h
      | tryBegin l => cases h
      | tryEnd l => cases h

/-- Splitting at an instruction survives the removal of the markers, both ways. -/
theorem onlyLast_codeOf {P : Platform} {es : List BElem} : OnlyLastJumps P (codeOf es) ↔ OnlyLastJumps P es := by
  constructor
  · intro h a i b hab hs
    have := h (codeOf a) i (codeOf b) (by rw [hab, codeOf_append]; rfl) hs
    rwa [instrCount_codeOf] at this
  · intro h a i b hab hs
    obtain ⟨l1, l2, rfl, h1, h2⟩ := List.filter_eq_append_iff.1 hab
    obtain ⟨l3, l4, rfl, h3, h4, h5⟩ := List.filter_eq_cons_iff.1 h2
    have := h (l1 ++ l3) i l4 (by simp) hs
    rw [← h5]
    show instrCount (codeOf l4) = 0
    rw [instrCount_codeOf]
    exact this

theorem onlyLast_push {P : Platform} {es : List BElem} {i : Instr} (h : OnlyLastJumps P es)
    (hl : ∀ j, lastInstr es = some j → ¬ (P.hasJump j.opcode = true ∨ isFinal j.name = true)) :
    OnlyLastJumps P (es ++ [.instr i]) := by
  intro a k b hab hs
  rw [List.append_eq_append_iff] at hab
  rcases hab with ⟨c, hc1, hc2⟩ | ⟨c, hc1, hc2⟩
  · cases c with
    | nil =>
      simp only [List.nil_append, List.cons.injEq] at hc2
      rw [← hc2.2]; rfl
    | cons x r => simp at hc2
  · cases c with
    | nil =>
      simp only [List.nil_append, List.cons.injEq] at hc2
      rw [hc2.2]; rfl
    | cons x r =>
      simp only [List.cons_append, List.cons.injEq] at hc2
      obtain ⟨rfl, hb⟩ := hc2
      have := h a k r hc1 hs
      exact absurd hs (hl k (by rw [hc1]; exact lastInstr_append_instr a k r this))

theorem lastInstr_push_instr (es : List BElem) (i : Instr) : lastInstr (es ++ [.instr i]) = some i :=
  lastInstr_append_instr es i [] rfl

theorem lastInstr_push_other (es : List BElem) (e : BElem) (h : e.isInstr = false) : lastInstr (es ++ [e]) = lastInstr es := by
  unfold lastInstr
  rw [List.reverse_append]
  cases e with
  | instr i => cases h
  | label _ => rfl
  | setLineno _ => rfl
  | tryBegin _ => rfl
  | tryEnd _ => rfl

theorem onlyLast_push_line {P : Platform} {es : List BElem} {n : Nat} (h : OnlyLastJumps P es) : OnlyLastJumps P (es ++ [.setLineno n]) := by
  intro a k b hab hs
  rw [List.append_eq_append_iff] at hab
  rcases hab with ⟨c, hc1, hc2⟩ | ⟨c, hc1, hc2⟩
  · cases c with
    | nil => simp at hc2
    | cons x r => simp at hc2
  · cases c with
    | nil => simp at hc2
    | cons x r =>
      simp only [List.cons_append, List.cons.injEq] at hc2
      obtain ⟨rfl, hb⟩ := hc2
      have := h a k r hc1 hs
      rw [hb, instrCount_append, this]
      rfl

/-! ### The invariant -/

/-- A finished block: it has an instruction, only its last one jumps, and it is connected to the next block unless its
last instruction is final. -/
def GoodAt (P : Platform) (k : Nat) (b : Blk) : Prop :=
  OnlyLastJumps P b.elems ∧ ∃ i, lastInstr b.elems = some i ∧ b.next = (if isFinal i.name then none else some (k + 1))

theorem goodAt_codeBlk {P : Platform} {k : Nat} {b : Blk} : GoodAt P k (codeBlk b) ↔ GoodAt P k b := by
  unfold GoodAt codeBlk
  simp only [onlyLast_codeOf, lastInstr_codeOf]

/-- The code of some blocks. -/
def flatCode (bs : List Blk) : List BElem := bs.flatMap (fun b => (codeBlk b).elems)

theorem flatCode_append (a b : List Blk) : flatCode (a ++ b) = flatCode a ++ flatCode b := List.flatMap_append

theorem flatCode_map (bs bs' : List Blk) (h : bs'.map codeBlk = bs.map codeBlk) : flatCode bs' = flatCode bs := by
  unfold flatCode
  have : ∀ l : List Blk, l.flatMap (fun b => (codeBlk b).elems) = (l.map codeBlk).flatMap (fun b => b.elems) := by
    intro l; rw [List.flatMap_map]
  rw [this, this, h]

structure FInv (P : Platform) (es : List BElem) (starts : List Nat) (s : FromSt) (pre : List BElem) (n : Nat) : Prop where
  code : flatCode s.done ++ codeOf s.cur.elems = codeOf pre
  shape : ∀ k b, s.done[k]? = some b → GoodAt P k b
  cur : OnlyLastJumps P s.cur.elems
  next : s.cur.next = none
  spec : ∀ i, lastInstr s.cur.elems = some i → (P.hasJump i.opcode = true ∨ isFinal i.name = true) → s.last = some i
  last : ∀ i, s.last = some i → lastInstr s.cur.elems = some i ∨ lastInstr s.cur.elems = none
  lab : ∀ l k, s.labels l = some k → ∃ p, p ∈ starts ∧ es[p]? = some (.label l) ∧ k ≤ s.done.length ∧
    instrCount (flatCode (s.done.take k)) = instrCount (es.take p)
  labAll : ∀ p l, p ∈ starts → p < n → es[p]? = some (.label l) → ∃ k, s.labels l = some k

theorem FInv.same {P : Platform} {es : List BElem} {starts : List Nat} {s s' : FromSt} {pre : List BElem} {n : Nat}
    (h : FInv P es starts s pre n) (hs : SameCode s s') : FInv P es starts s' pre n := by
  have hlen : s'.done.length = s.done.length := by
    have := congrArg List.length hs.done
    simpa using this
  have hce : codeOf s'.cur.elems = codeOf s.cur.elems := congrArg Blk.elems hs.cur
  have hcn : s'.cur.next = s.cur.next := by
    have := congrArg Blk.next hs.cur
    exact this
  have hl : lastInstr s'.cur.elems = lastInstr s.cur.elems := by
    rw [← lastInstr_codeOf, hce, lastInstr_codeOf]
  constructor
  · rw [flatCode_map _ _ hs.done, hce]; exact h.code
  · intro k b hb
    have h1 : (s'.done.map codeBlk)[k]? = some (codeBlk b) := by rw [List.getElem?_map, hb]; rfl
    rw [hs.done, List.getElem?_map] at h1
    cases hk : s.done[k]? with
    | none => rw [hk] at h1; cases h1
    | some b0 =>
      rw [hk] at h1
      simp only [Option.map_some, Option.some.injEq] at h1
      rw [← goodAt_codeBlk, ← h1, goodAt_codeBlk]
      exact h.shape k b0 hk
  · rw [← onlyLast_codeOf, hce, onlyLast_codeOf]; exact h.cur
  · rw [hcn]; exact h.next
  · intro i hi hsp; rw [hs.last]; rw [hl] at hi; exact h.spec i hi hsp
  · intro i hi; rw [hs.last] at hi; rw [hl]; exact h.last i hi
  · intro l k hk
    rw [hs.labels] at hk
    obtain ⟨p, h1, h2, h3, h4⟩ := h.lab l k hk
    refine ⟨p, h1, h2, by rw [hlen]; exact h3, ?_⟩
    rw [flatCode_map (s.done.take k) (s'.done.take k) (by rw [List.map_take, hs.done, List.map_take])]
    exact h4
  · intro p l; rw [hs.labels]; exact h.labAll p l

/-- A new block. -/
theorem FInv.open_ {P : Platform} {es : List BElem} {starts : List Nat} {s : FromSt} {pre : List BElem} {n : Nat} {i : Instr} {c : Bool}
    (h : FInv P es starts s pre n) (hi : lastInstr s.cur.elems = some i) (hc : c = !isFinal i.name) :
    FInv P es starts (s.open_ c) pre n := by
  constructor
  · show flatCode (s.done ++ [_]) ++ codeOf [] = codeOf pre
    rw [flatCode_append, ← h.code]
    simp [flatCode, codeBlk, codeOf]
  · intro k b hb
    simp only [FromSt.open_] at hb
    rw [List.getElem?_append] at hb
    split at hb
    · exact h.shape k b hb
    · rename_i hk
      rw [List.getElem?_singleton] at hb
      split at hb
      · rename_i hk2
        simp only [Option.some.injEq] at hb
        subst hb
        have hk3 : k = s.done.length := by omega
        refine ⟨h.cur, i, hi, ?_⟩
        subst hc
        simp only [hk3, h.next]
        cases isFinal i.name <;> rfl
      · cases hb
  · intro a j b hab; simp [FromSt.open_] at hab
  · rfl
  · intro j hj; cases hj
  · intro j hj; exact .inr rfl
  · intro l k hk
    obtain ⟨p, h1, h2, h3, h4⟩ := h.lab l k hk
    refine ⟨p, h1, h2, ?_, ?_⟩
    · simp only [FromSt.open_, List.length_append, List.length_singleton]; omega
    · simp only [FromSt.open_]
      rw [List.take_append_of_le_length h3]
      exact h4
  · exact h.labAll

/-- No instruction of the current block is a jump or final: one may be added. -/
def Plain (P : Platform) (s : FromSt) : Prop :=
  ∀ j, lastInstr s.cur.elems = some j → ¬ (P.hasJump j.opcode = true ∨ isFinal j.name = true)

theorem FInv.setLabel {P : Platform} {es : List BElem} {starts : List Nat} {s : FromSt} {pre : List BElem} {l : Nat}
    (h : FInv P es starts s pre pre.length) (h0 : lastInstr s.cur.elems = none) (hp : pre = es.take pre.length)
    (hst : pre.length ∈ starts) (he : es[pre.length]? = some (.label l)) :
    FInv P es starts { s with labels := upd s.labels l (some s.done.length) } pre (pre.length + 1) := by
  refine ⟨h.code, h.shape, h.cur, h.next, h.spec, h.last, ?_, ?_⟩
  · intro l' k hk
    simp only [upd] at hk
    split at hk
    · rename_i hl
      simp only [Option.some.injEq] at hk
      subst hl; subst hk
      refine ⟨pre.length, hst, he, Nat.le_refl _, ?_⟩
      simp only [List.take_length]
      rw [← hp]
      have := congrArg instrCount h.code
      rw [instrCount_append, instrCount_codeOf, instrCount_codeOf, lastInstr_none h0] at this
      simpa using this
    · exact h.lab l' k hk
  · intro p l' hp' hlt hl'
    simp only [upd]
    split
    · exact ⟨_, rfl⟩
    · rename_i hne
      by_cases hlen : p = pre.length
      · subst hlen
        rw [he] at hl'
        simp only [Option.some.injEq, BElem.label.injEq] at hl'
        exact absurd hl'.symm hne
      · exact h.labAll p l' hp' (by omega) hl'

theorem FInv.weaken {P : Platform} {es : List BElem} {starts : List Nat} {s : FromSt} {pre : List BElem}
    (h : FInv P es starts s pre pre.length) (hst : pre.length ∉ starts) :
    FInv P es starts s pre (pre.length + 1) := by
  refine ⟨h.code, h.shape, h.cur, h.next, h.spec, h.last, h.lab, ?_⟩
  intro p l hp hlt hl
  refine h.labAll p l hp ?_ hl
  have : p ≠ pre.length := by intro h; subst h; exact hst hp
  omega

theorem enter_ok {P : Platform} {es : List BElem} {starts : List Nat} {s s' : FromSt} {pre : List BElem} {e : BElem} {o : Bool}
    (h : FInv P es starts s pre pre.length) (hp : pre = es.take pre.length) (he : es[pre.length]? = some e)
    (hst : ∀ p ∈ starts, ∃ l, es[p]? = some (.label l))
    (hr : s.enter P pre.length (decide (pre.length ∈ starts)) e = .ok (s', o)) :
    FInv P es starts s' pre (pre.length + 1) ∧ Plain P s' ∧ s'.last = s.last ∧
      (o = true → lastInstr s'.cur.elems = none) := by
  unfold FromSt.enter at hr
  by_cases hs : pre.length ∈ starts
  · obtain ⟨l, hl⟩ := hst _ hs
    rw [he] at hl
    simp only [Option.some.injEq] at hl
    subst hl
    simp only [hs, decide_true, if_true] at hr
    split at hr
    · rename_i li hidx hli
      simp only [Except.ok.injEq, Prod.mk.injEq] at hr
      obtain ⟨rfl, rfl⟩ := hr
      have h1 := h.open_ hli rfl
      refine ⟨h1.setLabel rfl hp hs he, ?_, rfl, fun _ => rfl⟩
      intro j hj; cases hj
    · rename_i hn
      simp only [Except.ok.injEq, Prod.mk.injEq] at hr
      obtain ⟨rfl, rfl⟩ := hr
      have h0 : lastInstr s.cur.elems = none := by
        cases hli : lastInstr s.cur.elems with
        | none => rfl
        | some li =>
          have hz : pre.length = 0 := by
            apply Classical.byContradiction
            intro hne
            exact hn li (by simpa using hne) hli
          have hpre : pre = [] := List.length_eq_zero_iff.1 hz
          have := congrArg instrCount h.code
          rw [hpre, instrCount_append, instrCount_codeOf] at this
          have h3 : instrCount s.cur.elems = 0 := by
            have : instrCount (codeOf []) = 0 := rfl
            omega
          rw [instrCount_zero_last h3] at hli
          cases hli
      refine ⟨h.setLabel h0 hp hs he, ?_, rfl, fun h => by cases h⟩
      intro j hj
      rw [h0] at hj; cases hj
  · simp only [hs, decide_false, Bool.false_eq_true, if_false] at hr
    split at hr
    · rename_i li i hli hla
      have hii : lastInstr s.cur.elems = some i := by
        rcases h.last i hla with h1 | h1
        · exact h1
        · rw [hli] at h1; cases h1
      split at hr
      · rename_i hf
        simp only [Except.ok.injEq, Prod.mk.injEq] at hr
        obtain ⟨rfl, rfl⟩ := hr
        refine ⟨(h.weaken hs).open_ hii (by rw [hf]; rfl), ?_, rfl, fun _ => rfl⟩
        intro j hj; cases hj
      · rename_i hf
        split at hr
        · split at hr
          · simp only [Except.ok.injEq, Prod.mk.injEq] at hr
            obtain ⟨rfl, rfl⟩ := hr
            refine ⟨(h.weaken hs).open_ hii (by simpa using hf), ?_, rfl, fun _ => rfl⟩
            intro j hj; cases hj
          · cases hr
        · rename_i hj
          simp only [Except.ok.injEq, Prod.mk.injEq] at hr
          obtain ⟨rfl, rfl⟩ := hr
          refine ⟨h.weaken hs, ?_, rfl, fun h => by cases h⟩
          intro j hj'
          rw [hii] at hj'
          simp only [Option.some.injEq] at hj'
          subst hj'
          grind
    · rename_i hn
      simp only [Except.ok.injEq, Prod.mk.injEq] at hr
      obtain ⟨rfl, rfl⟩ := hr
      refine ⟨h.weaken hs, ?_, rfl, fun h => by cases h⟩
      intro j hj hsp
      exact hn j j hj (h.spec j hj hsp)

/-- Copying an element. -/
theorem copyElem_ok {P : Platform} {es : List BElem} {starts : List Nat} {s s' : FromSt} {pre : List BElem} {e : BElem} {n : Nat}
    (h : FInv P es starts s pre n) (hp : Plain P s) (hr : s.copyElem e = .ok s') : FInv P es starts s' (pre ++ [e]) n := by
  have other : ∀ x : BElem, e.isCode = false → x.isCode = false → SameCode { s with last := none } s' → FInv P es starts s' (pre ++ [e]) n := by
    intro x he hx hsame
    refine FInv.same ?_ hsame
    refine ⟨?_, h.shape, h.cur, h.next, ?_, (fun i hi => by cases hi), h.lab, h.labAll⟩
    · rw [codeOf_append, h.code]
      simp [codeOf, he]
    · intro i hi hs; exact absurd hs (hp i hi)
  cases e with
  | label l =>
    simp only [FromSt.copyElem, Except.ok.injEq] at hr
    subst hr
    exact other (.label 0) rfl rfl (.refl _)
  | setLineno m =>
    simp only [FromSt.copyElem, Except.ok.injEq] at hr
    subst hr
    refine ⟨?_, h.shape, onlyLast_push_line h.cur, h.next, ?_, (fun i hi => by cases hi), h.lab, h.labAll⟩
    · show flatCode s.done ++ codeOf (s.cur.elems ++ [.setLineno m]) = _
      rw [codeOf_append, codeOf_append, ← List.append_assoc, h.code]
    · intro i hi hs
      have : lastInstr (s.cur.elems ++ [.setLineno m]) = some i := hi
      rw [lastInstr_push_other _ _ rfl] at this
      exact absurd hs (hp i this)
  | instr i =>
    simp only [FromSt.copyElem, Except.ok.injEq] at hr
    subst hr
    refine ⟨?_, h.shape, onlyLast_push h.cur hp, h.next, ?_, ?_, h.lab, h.labAll⟩
    · show flatCode s.done ++ codeOf (s.cur.elems ++ [.instr i]) = _
      rw [codeOf_append, codeOf_append, ← List.append_assoc, h.code]
    · intro j hj hs
      have : lastInstr (s.cur.elems ++ [.instr i]) = some j := hj
      rw [lastInstr_push_instr] at this
      exact this
    · intro j hj
      left
      have : some i = some j := hj
      rw [← this]
      exact lastInstr_push_instr _ _
  | tryBegin t =>
    simp only [FromSt.copyElem] at hr
    split at hr
    · cases hr
    · simp only [Except.ok.injEq] at hr
      subst hr
      have := push_same s (.tryBegin { t with id := s.ids }) rfl
      exact other (.label 0) rfl rfl ⟨this.done, this.cur, this.labels, rfl⟩
  | tryEnd id =>
    simp only [FromSt.copyElem] at hr
    split at hr
    · cases hr
    · rename_i nid _
      simp only [Except.ok.injEq] at hr
      subst hr
      have := push_same s (.tryEnd nid) rfl
      exact other (.label 0) rfl rfl ⟨this.done, this.cur, this.labels, rfl⟩

theorem Plain.same {P : Platform} {s s' : FromSt} (h : Plain P s) (hs : SameCode s s') : Plain P s' := by
  intro j hj
  refine h j ?_
  have hc : codeOf s'.cur.elems = codeOf s.cur.elems := congrArg Blk.elems hs.cur
  rw [← lastInstr_codeOf, ← hc, lastInstr_codeOf]
  exact hj

theorem step_ok {P : Platform} {es : List BElem} {starts : List Nat} {s s' : FromSt} {pre : List BElem} {e : BElem}
    (h : FInv P es starts s pre pre.length) (hp : pre = es.take pre.length) (he : es[pre.length]? = some e)
    (hst : ∀ p ∈ starts, ∃ l, es[p]? = some (.label l)) (hr : s.step P es starts pre.length e = .ok s') :
    FInv P es starts s' (pre ++ [e]) (pre.length + 1) := by
  unfold FromSt.step at hr
  obtain ⟨⟨s1, o⟩, h1, hr⟩ := except_bind_ok hr
  obtain ⟨i1, i2, i3, i4⟩ := enter_ok h hp he hst h1
  simp only at hr
  split at hr
  · have hsame : SameCode s1 { s1 with inserted := false } := ⟨rfl, rfl, rfl, rfl⟩
    split at hr
    · obtain ⟨⟨s2, d⟩, h2, hr⟩ := except_bind_ok hr
      obtain ⟨j1, j2⟩ := bridge_same h2
      have j3 := hsame.trans j1
      simp only at hr
      split at hr
      · rename_i ho _ i hla hd
        simp only [pure, Except.pure, Except.ok.injEq] at hr
        subst hr
        obtain ⟨id, rfl⟩ := j2 hd
        have k := i1.same j3
        refine ⟨?_, k.shape, k.cur, k.next, k.spec, k.last, k.lab, k.labAll⟩
        rw [codeOf_append, k.code]
        simp [codeOf, BElem.isCode]
      · exact copyElem_ok (i1.same j3) (i2.same j3) hr
    · exact copyElem_ok (i1.same hsame) (i2.same hsame) hr
  · exact copyElem_ok i1 i2 hr

theorem fromLoop_ok {P : Platform} {es : List BElem} {starts : List Nat} (hst : ∀ p ∈ starts, ∃ l, es[p]? = some (.label l)) (r : List BElem) :
    ∀ (pre : List BElem) (s s' : FromSt), FInv P es starts s pre pre.length → es = pre ++ r →
      fromLoop P es starts pre.length s r = .ok s' → FInv P es starts s' es es.length := by
  induction r with
  | nil =>
    intro pre s s' h hes hr
    simp only [fromLoop, Except.ok.injEq] at hr
    subst hr
    rw [List.append_nil] at hes
    rw [hes]
    rw [hes] at h
    exact h
  | cons e r ih =>
    intro pre s s' h hes hr
    unfold fromLoop at hr
    obtain ⟨s1, h1, hr⟩ := except_bind_ok hr
    have k := step_ok h (by rw [hes]; simp) (by rw [hes]; simp) hst h1
    have hlen : (pre ++ [e]).length = pre.length + 1 := by simp
    rw [← hlen] at k hr
    exact ih (pre ++ [e]) s1 s' k (by rw [hes]; simp) hr

theorem fInv_init (P : Platform) (es : List BElem) (starts : List Nat) :
    FInv P es starts ⟨[], ⟨[], none⟩, fun _ => none, fun _ => none, [], none, false, none, 0⟩ [] 0 := by
  refine ⟨rfl, ?_, ?_, rfl, ?_, ?_, ?_, ?_⟩
  · intro k b hb; simp at hb
  · intro a i b hab; simp at hab
  · intro i hi; cases hi
  · intro i hi; cases hi
  · intro l k hk; cases hk
  · intro p l _ hp; omega

end Verif
