import Verif.Proofs.CfgTry
/-
`from_bytecode`: the try regions, loop invariant.
-/
namespace Verif
open Spec

/-! ### Well-formed regions -/

/-- In a well-formed list a TryEnd closes the region that is open. -/
theorem wellTried_end {es : List BElem} {o : Option Nat} {seen : List Nat} {any : Bool} (h : WellTried o seen any es)
    {c : Option TryB} (hc : c.map (·.id) = o) {a b : List BElem} {n : Nat} (hab : es = a ++ .tryEnd n :: b) :
    (stW nextS c a).map (·.id) = some n := by
  induction a generalizing es o seen any c with
  | nil =>
    subst hab
    obtain ⟨h1, _⟩ := h
    show c.map (·.id) = some n
    rw [hc, h1]
  | cons e r ih =>
    subst hab
    have step : stW nextS c (e :: r) = stW nextS (nextS c e) r := rfl
    rw [step]
    cases e with
    | tryBegin t => obtain ⟨h1, h2, h3⟩ := h; exact ih h3 rfl rfl
    | tryEnd id => obtain ⟨h1, h2, h3⟩ := h; exact ih h3 rfl rfl
    | instr i => exact ih (es := r ++ .tryEnd n :: b) h hc rfl
    | label i => exact ih (es := r ++ .tryEnd n :: b) h hc rfl
    | setLineno i => exact ih (es := r ++ .tryEnd n :: b) h hc rfl

/-- A region never opens twice. -/
theorem wellTried_seen {es : List BElem} {o : Option Nat} {seen : List Nat} {any : Bool} (h : WellTried o seen any es)
    {c : Option TryB} {n : Nat} (hn : n ∈ seen) (hc : c.map (·.id) ≠ some n) (b b' : List BElem) (hb : es = b ++ b') :
    (stW nextS c b).map (·.id) ≠ some n := by
  induction b generalizing es o seen any c with
  | nil => exact hc
  | cons e r ih =>
    subst hb
    have step : stW nextS c (e :: r) = stW nextS (nextS c e) r := rfl
    rw [step]
    cases e with
    | tryBegin t =>
      obtain ⟨h1, h2, h3⟩ := h
      refine ih h3 (by simp [hn]) ?_ rfl
      simp only [nextS, Option.map_some, ne_eq, Option.some.injEq]
      rintro rfl; exact h2 hn
    | tryEnd id =>
      obtain ⟨h1, h2, h3⟩ := h
      exact ih h3 hn (by simp [nextS]) rfl
    | instr i => exact ih (es := r ++ b') h hn hc rfl
    | label i => exact ih (es := r ++ b') h hn hc rfl
    | setLineno i => exact ih (es := r ++ b') h hn hc rfl

/-- After a TryEnd its region is not open. -/
theorem wellTried_after {es : List BElem} {o : Option Nat} {seen : List Nat} {any : Bool} (h : WellTried o seen any es)
    {c : Option TryB} (hc : c.map (·.id) = o) (ho : ∀ n, o = some n → n ∈ seen) {a b b' : List BElem} {n : Nat}
    (hab : es = (a ++ .tryEnd n :: b) ++ b') : (stW nextS c (a ++ .tryEnd n :: b)).map (·.id) ≠ some n := by
  induction a generalizing es o seen any c with
  | nil =>
    subst hab
    obtain ⟨h1, h2, h3⟩ := h
    show (stW nextS none b).map (·.id) ≠ some n
    exact wellTried_seen h3 (ho n h1) (by simp) b b' rfl
  | cons e r ih =>
    subst hab
    have step : stW nextS c (e :: r ++ .tryEnd n :: b) = stW nextS (nextS c e) (r ++ .tryEnd n :: b) := rfl
    rw [step]
    cases e with
    | tryBegin t =>
      obtain ⟨h1, h2, h3⟩ := h
      refine ih h3 rfl ?_ rfl
      intro m hm
      simp only [Option.some.injEq] at hm
      simp [hm]
    | tryEnd id => obtain ⟨h1, h2, h3⟩ := h; exact ih h3 rfl (by simp) rfl
    | instr i => exact ih (es := (r ++ .tryEnd n :: b) ++ b') h hc ho rfl
    | label i => exact ih (es := (r ++ .tryEnd n :: b) ++ b') h hc ho rfl
    | setLineno i => exact ih (es := (r ++ .tryEnd n :: b) ++ b') h hc ho rfl

theorem tryEndIndex_some {id p : Nat} {es : List BElem} (h : tryEndIndex id es = some p) : es[p]? = some (.tryEnd id) := by
  obtain ⟨h1, h2, h3⟩ := lastRange_some h
  exact of_decide_eq_true h2

/-- The end of the region that is open is not behind. -/
theorem open_end {es : List BElem} {n te : Nat} {t : TryB} (hw : WellTried none [] false es)
    (ho : stW nextS none (es.take n) = some t) (hte : tryEndIndex t.id es = some te) : n ≤ te := by
  apply Classical.byContradiction
  intro hlt
  have hlt : te < n := by omega
  have h1 := tryEndIndex_some hte
  have hlen : te < es.length := (List.getElem?_eq_some_iff.1 h1).1
  have hg : es[te] = .tryEnd t.id := by
    rw [List.getElem?_eq_getElem hlen] at h1
    simpa using h1
  have hsplit : es.take n = (es.take n).take te ++ .tryEnd t.id :: (es.take n).drop (te + 1) := by
    have hl : te < (es.take n).length := by rw [List.length_take]; omega
    have := List.take_append_drop te (es.take n)
    rw [List.drop_eq_getElem_cons hl] at this
    rw [List.getElem_take, hg] at this
    exact this.symm
  have := wellTried_after hw (c := none) rfl (by simp) (a := (es.take n).take te) (b := (es.take n).drop (te + 1))
    (b' := es.drop n) (n := t.id) (by rw [← hsplit, List.take_append_drop])
  rw [← hsplit, ho] at this
  exact this rfl

/-! ### The blocks so far -/

def FromSt.blks (s : FromSt) : List Blk := s.done ++ [s.cur]
def FromSt.flat (s : FromSt) : List BElem := s.blks.flatMap (·.elems)

theorem flat_eq (s : FromSt) : s.flat = s.done.flatMap (·.elems) ++ s.cur.elems := by
  unfold FromSt.flat FromSt.blks
  rw [List.flatMap_append]
  simp

theorem flat_push (s : FromSt) (e : BElem) : (s.push e).flat = s.flat ++ [e] := by
  rw [flat_eq, flat_eq, List.append_assoc]
  rfl

theorem flat_open (s : FromSt) (c : Bool) : (s.open_ c).flat = s.flat := by
  rw [flat_eq, flat_eq]
  show (s.done ++ [_]).flatMap _ ++ [] = _
  rw [List.flatMap_append]
  simp

theorem flat_pushOld (s : FromSt) (e : BElem) (hd : s.done ≠ []) (hc : s.cur.elems = []) : (s.pushOld e).flat = s.flat ++ [e] := by
  rw [flat_eq, flat_eq, hc]
  unfold FromSt.pushOld
  simp only [hc]
  cases hl : s.done.getLast? with
  | none => rw [List.getLast?_eq_none_iff] at hl; exact absurd hl hd
  | some b =>
    obtain ⟨ys, hys⟩ := List.getLast?_eq_some_iff.1 hl
    simp only [hys, List.dropLast_concat, List.flatMap_append, List.flatMap_cons, List.flatMap_nil, List.append_nil, List.append_assoc]

/-- Every block only grows at its end. -/
def Ext (bs bs' : List Blk) : Prop := ∀ (k : Nat) (b : Blk), bs[k]? = some b → ∃ (b' : Blk) (x : List BElem), bs'[k]? = some b' ∧ b'.elems = b.elems ++ x

theorem Ext.refl (bs : List Blk) : Ext bs bs := fun k b h => ⟨b, [], h, by simp⟩

theorem Ext.trans {a b c : List Blk} (h : Ext a b) (h' : Ext b c) : Ext a c := by
  intro k x hx
  obtain ⟨y, s, hy, e⟩ := h k x hx
  obtain ⟨z, s', hz, e'⟩ := h' k y hy
  exact ⟨z, s ++ s', hz, by rw [e', e, List.append_assoc]⟩

theorem ext_push (s : FromSt) (e : BElem) : Ext s.blks (s.push e).blks := by
  intro k b hb
  unfold FromSt.blks at hb ⊢
  by_cases hk : k < s.done.length
  · rw [List.getElem?_append_left hk] at hb
    refine ⟨b, [], ?_, by simp⟩
    show (s.done ++ [_])[k]? = some b
    rw [List.getElem?_append_left hk]; exact hb
  · rw [List.getElem?_append_right (by omega), List.getElem?_singleton] at hb
    split at hb
    · simp only [Option.some.injEq] at hb
      subst hb
      rename_i h0
      refine ⟨(s.push e).cur, [e], ?_, rfl⟩
      show (s.done ++ [_])[k]? = _
      rw [List.getElem?_append_right (by omega), h0]; rfl
    · cases hb

theorem ext_open (s : FromSt) (c : Bool) : Ext s.blks (s.open_ c).blks := by
  intro k b hb
  unfold FromSt.blks at hb ⊢
  show ∃ (b' : Blk) (x : List BElem), ((s.done ++ [_]) ++ [_])[k]? = some b' ∧ _
  rw [List.append_assoc, List.getElem?_append]
  rw [List.getElem?_append] at hb
  split at hb
  · rename_i hk
    exact ⟨b, [], by rw [if_pos hk]; exact hb, by simp⟩
  · rename_i hk
    rw [List.getElem?_singleton] at hb
    split at hb
    · rename_i h0
      simp only [Option.some.injEq] at hb
      subst hb
      exact ⟨_, [], by rw [if_neg hk, h0]; rfl, by simp⟩
    · cases hb

theorem ext_pushOld (s : FromSt) (e : BElem) : Ext s.blks (s.pushOld e).blks := by
  unfold FromSt.blks FromSt.pushOld
  simp only
  cases hl : s.done.getLast? with
  | none => exact .refl _
  | some b0 =>
    obtain ⟨ys, hys⟩ := List.getLast?_eq_some_iff.1 hl
    simp only [hys, List.dropLast_concat, List.append_assoc]
    intro k b hb
    by_cases hk : k < ys.length
    · rw [List.getElem?_append_left hk] at hb
      exact ⟨b, [], by rw [List.getElem?_append_left hk]; exact hb, by simp⟩
    · rw [List.getElem?_append_right (by omega)] at hb ⊢
      cases h0 : k - ys.length with
      | zero =>
        rw [h0] at hb
        simp only [List.cons_append, List.getElem?_cons_zero, Option.some.injEq] at hb
        subst hb
        exact ⟨⟨b0.elems ++ [e], b0.next⟩, [e], rfl, rfl⟩
      | succ m =>
        rw [h0] at hb
        exact ⟨b, [], hb, by simp⟩

/-- The region is opened before block `k`, and ended before the first instruction of block `k`. -/
def Early (bs : List Blk) (k nid : Nat) : Prop :=
  (∃ j < k, ∃ b, bs[j]? = some b ∧ nid ∈ begins b.elems) ∧
  ((∃ j < k, ∃ b, bs[j]? = some b ∧ BElem.tryEnd nid ∈ b.elems) ∨
   ∃ b, bs[k]? = some b ∧ ∃ x y, b.elems = x ++ .tryEnd nid :: y ∧ instrCount x = 0)

theorem Early.ext {bs bs' : List Blk} {k nid : Nat} (h : Early bs k nid) (he : Ext bs bs') : Early bs' k nid := by
  obtain ⟨⟨j, hj, b, hb, hm⟩, h2⟩ := h
  refine ⟨?_, ?_⟩
  · obtain ⟨b', x, hb', e⟩ := he j b hb
    exact ⟨j, hj, b', hb', by rw [e, begins_append, List.mem_append]; exact .inl hm⟩
  · rcases h2 with ⟨j, hj, b, hb, hm⟩ | ⟨b, hb, x, y, e, h0⟩
    · obtain ⟨b', x, hb', e⟩ := he j b hb
      exact .inl ⟨j, hj, b', hb', by rw [e, List.mem_append]; exact .inl hm⟩
    · obtain ⟨b', z, hb', e'⟩ := he k b hb
      exact .inr ⟨b', hb', x, y ++ z, by rw [e', e]; simp, h0⟩

def HasEnd (ends : List (Nat × List Nat)) (l nid : Nat) : Prop := ∃ ids, (l, ids) ∈ ends ∧ nid ∈ ids

theorem hasEnd_add {l id l' nid : Nat} {ends : List (Nat × List Nat)} (h : HasEnd (addEnd l id ends) l' nid) :
    (l' = l ∧ nid = id) ∨ HasEnd ends l' nid := by
  induction ends with
  | nil =>
    obtain ⟨ids, h1, h2⟩ := h
    simp only [addEnd, List.mem_singleton, Prod.mk.injEq] at h1
    obtain ⟨rfl, rfl⟩ := h1
    exact .inl ⟨rfl, by simpa using h2⟩
  | cons x r ih =>
    obtain ⟨m, js⟩ := x
    obtain ⟨ids, h1, h2⟩ := h
    unfold addEnd at h1
    split at h1
    · rename_i hm
      rcases List.mem_cons.1 h1 with h1 | h1
      · simp only [Prod.mk.injEq] at h1
        obtain ⟨rfl, rfl⟩ := h1
        rcases List.mem_append.1 h2 with h2 | h2
        · exact .inr ⟨js, by simp, h2⟩
        · exact .inl ⟨hm, by simpa using h2⟩
      · exact .inr ⟨ids, by simp [h1], h2⟩
    · rcases List.mem_cons.1 h1 with h1 | h1
      · exact .inr ⟨ids, by simp [h1], h2⟩
      · rcases ih ⟨ids, h1, h2⟩ with h | ⟨ids', h3, h4⟩
        · exact .inl h
        · exact .inr ⟨ids', by simp [h3], h4⟩

/-- The invariant: regions of the blocks and regions of the elements read so far. -/
structure HInv (es : List BElem) (s : FromSt) (pre : List BElem) (n : Nat) : Prop where
  out : outW nextId none s.flat = outW nextS none pre
  act : stW nextS none pre = s.active
  stn : s.active = none → stW nextId none s.flat = none
  sts : ∀ t, s.active = some t → ∃ u, stW nextId none s.flat = some u ∧ s.tries t.id = some u.id ∧ u.target = t.target ∧ u.lasti = t.lasti
  ord : Ordered s.flat
  lt : ∀ x ∈ begins s.flat, x < s.ids
  ends : ∀ l nid, HasEnd s.ends l nid → (∃ j < s.done.length, ∃ b, s.blks[j]? = some b ∧ nid ∈ begins b.elems) ∧
    ∃ p te tid, labelIndex l es = some p ∧ tryEndIndex tid es = some te ∧ te < p ∧
      (BElem.tryEnd nid ∈ s.flat ∨ ∃ t, s.active = some t ∧ t.id = tid ∧ s.tries t.id = some nid)
  labPos : ∀ l k, s.labels l = some k → ∃ p, p < n ∧ labelIndex l es = some p
  labs : ∀ l k nid, s.labels l = some k → HasEnd s.ends l nid → Early s.blks k nid

theorem hInv_init (es : List BElem) : HInv es ⟨[], ⟨[], none⟩, fun _ => none, fun _ => none, [], none, false, none, 0⟩ [] 0 := by
  refine ⟨rfl, rfl, fun _ => rfl, ?_, ⟨trivial, List.nodup_nil, ?_⟩, ?_, ?_, ?_, ?_⟩
  · intro t ht; cases ht
  · intro a n b h
    have h' : ([] : List BElem) = a ++ .tryEnd n :: b := h
    simp at h'
  · intro x hx; cases hx
  · rintro l nid ⟨ids, h, _⟩; cases h
  · intro l k h; cases h
  · intro l k nid h; cases h

/-- Only fields the invariant does not look at change. -/
theorem HInv.of {es : List BElem} {s s' : FromSt} {pre : List BElem} {n : Nat} (h : HInv es s pre n) (h1 : s'.done = s.done)
    (h2 : s'.cur = s.cur) (h3 : s'.labels = s.labels) (h4 : s'.tries = s.tries) (h5 : s'.ends = s.ends) (h6 : s'.active = s.active)
    (h7 : s'.ids = s.ids) : HInv es s' pre n := by
  have hb : s'.blks = s.blks := by unfold FromSt.blks; rw [h1, h2]
  have hf : s'.flat = s.flat := by unfold FromSt.flat; rw [hb]
  refine ⟨?_, ?_, ?_, ?_, ?_, ?_, ?_, ?_, ?_⟩
  · rw [hf]; exact h.out
  · rw [h6]; exact h.act
  · rw [h6, hf]; exact h.stn
  · rw [h6, hf, h4]; exact h.sts
  · rw [hf]; exact h.ord
  · rw [hf, h7]; exact h.lt
  · rw [h5, h1, hb, hf, h6, h4]; exact h.ends
  · rw [h3]; exact h.labPos
  · rw [h3, h5, hb]; exact h.labs

/-- A new block. -/
theorem HInv.open_ {es : List BElem} {s : FromSt} {pre : List BElem} {n : Nat} (c : Bool) (h : HInv es s pre n) : HInv es (s.open_ c) pre n := by
  have hf := flat_open s c
  refine ⟨?_, h.act, ?_, ?_, ?_, ?_, ?_, h.labPos, ?_⟩
  · rw [hf]; exact h.out
  · rw [hf]; exact h.stn
  · rw [hf]; exact h.sts
  · rw [hf]; exact h.ord
  · rw [hf]; exact h.lt
  · intro l nid hl
    obtain ⟨⟨j, hj, b, hb, hm⟩, h2⟩ := h.ends l nid hl
    refine ⟨?_, by rw [hf]; exact h2⟩
    obtain ⟨b', x, hb', e⟩ := ext_open s c j b hb
    refine ⟨j, ?_, b', hb', by rw [e, begins_append, List.mem_append]; exact .inl hm⟩
    simp only [FromSt.open_, List.length_append, List.length_singleton]
    omega
  · intro l k nid hl he
    exact (h.labs l k nid hl he).ext (ext_open s c)

/-- A label is met. -/
theorem HInv.setLabel {es : List BElem} {s : FromSt} {pre : List BElem} {l : Nat} (h : HInv es s pre pre.length)
    (hw : WellTried none [] false es) (hp : pre = es.take pre.length) (hli : labelIndex l es = some pre.length)
    (h0 : lastInstr s.cur.elems = none) :
    HInv es { s with labels := upd s.labels l (some s.done.length) } pre (pre.length + 1) := by
  refine ⟨h.out, h.act, h.stn, h.sts, h.ord, h.lt, h.ends, ?_, ?_⟩
  · intro l' k hk
    simp only [upd] at hk
    split at hk
    · rename_i hl
      subst hl
      exact ⟨pre.length, by omega, hli⟩
    · obtain ⟨p, h1, h2⟩ := h.labPos l' k hk
      exact ⟨p, by omega, h2⟩
  · intro l' k nid hk he
    simp only [upd] at hk
    split at hk
    · rename_i hl
      subst hl
      simp only [Option.some.injEq] at hk
      subst hk
      obtain ⟨h1, p, te, tid, hp1, hte, hlt, hor⟩ := h.ends l' nid he
      rw [hli] at hp1
      simp only [Option.some.injEq] at hp1
      subst hp1
      have hm : BElem.tryEnd nid ∈ s.flat := by
        rcases hor with h2 | ⟨t, ht, rfl, _⟩
        · exact h2
        · exfalso
          have := open_end (n := pre.length) hw (by rw [← hp, h.act, ht]) hte
          omega
      refine ⟨h1, ?_⟩
      rw [flat_eq, List.mem_append] at hm
      rcases hm with hm | hm
      · left
        obtain ⟨b, hb, hbm⟩ := List.mem_flatMap.1 hm
        obtain ⟨j, hj, hjb⟩ := List.getElem_of_mem hb
        refine ⟨j, hj, b, ?_, hbm⟩
        show (s.done ++ [s.cur])[j]? = some b
        rw [List.getElem?_append_left hj, List.getElem?_eq_getElem hj, hjb]
      · right
        obtain ⟨x, y, e⟩ := List.append_of_mem hm
        refine ⟨s.cur, ?_, x, y, e, ?_⟩
        · show (s.done ++ [s.cur])[s.done.length]? = some s.cur
          simp
        · have := lastInstr_none h0
          rw [e, instrCount_append] at this
          omega
    · exact h.labs l' k nid hk he

theorem HInv.weaken {es : List BElem} {s : FromSt} {pre : List BElem} {n m : Nat} (h : HInv es s pre n) (hm : n ≤ m) : HInv es s pre m := by
  refine ⟨h.out, h.act, h.stn, h.sts, h.ord, h.lt, h.ends, ?_, h.labs⟩
  intro l k hk
  obtain ⟨p, h1, h2⟩ := h.labPos l k hk
  exact ⟨p, by omega, h2⟩

/-! ### Adding markers and code at the end -/

theorem ordered_push {F : List BElem} {e : BElem} (h : Ordered F) (hb : ∀ t, e = .tryBegin t → stW nextId none F = none ∧ t.id ∉ begins F)
    (he : ∀ n, e = .tryEnd n → n ∈ begins F ∧ 0 < instrCount F) : Ordered (F ++ [e]) := by
  refine ⟨?_, ?_, bef_push h.bef he⟩
  · rw [tidy_append]
    exact ⟨h.tidy, (fun t ht => (hb t ht).1), trivial⟩
  · rw [begins_append]
    cases e with
    | tryBegin t =>
      rw [List.nodup_append]
      refine ⟨h.nodup, by simp [begins], ?_⟩
      intro a ha b hb' hab
      simp only [begins, List.filterMap_cons, List.filterMap_nil, List.mem_singleton] at hb'
      subst hb'; subst hab
      exact (hb t rfl).2 ha
    | _ => simpa [begins] using h.nodup

theorem stW_snoc (nx : Option TryB → BElem → Option TryB) (c : Option TryB) (F : List BElem) (e : BElem) :
    stW nx c (F ++ [e]) = nx (stW nx c F) e := by rw [stW_append]; rfl

theorem outW_snoc (nx : Option TryB → BElem → Option TryB) (c : Option TryB) (F : List BElem) (e : BElem) :
    outW nx c (F ++ [e]) = outW nx c F ++ (if e.isInstr then [gd (stW nx c F)] else []) := by
  rw [outW_append]; simp [outW]

/-- The element is copied: line markers and instructions. -/
theorem HInv.code {es : List BElem} {s s' : FromSt} {pre : List BElem} {n : Nat} {e : BElem} (h : HInv es s pre n) (he : e.isCode = true)
    (h1 : s'.done = s.done) (h2 : s'.cur = ⟨s.cur.elems ++ [e], s.cur.next⟩) (h3 : s'.labels = s.labels) (h4 : s'.tries = s.tries)
    (h5 : s'.ends = s.ends) (h6 : s'.active = s.active) (h7 : s'.ids = s.ids) : HInv es s' (pre ++ [e]) n := by
  have hb : s'.blks = (s.push e).blks := by unfold FromSt.blks; rw [h1, h2]; rfl
  have hf : s'.flat = s.flat ++ [e] := by unfold FromSt.flat; rw [hb]; exact flat_push s e
  have hx : Ext s.blks s'.blks := by rw [hb]; exact ext_push s e
  have hid : ∀ c, nextId c e = c := by intro c; cases e <;> first | rfl | cases he
  have hs : ∀ c, nextS c e = c := by intro c; cases e <;> first | rfl | cases he
  have hbeg : begins (s.flat ++ [e]) = begins s.flat := by
    rw [begins_append]
    cases e <;> first | (simp [begins]; done) | cases he
  refine ⟨?_, ?_, ?_, ?_, ?_, ?_, ?_, ?_, ?_⟩
  · rw [hf, outW_snoc, outW_snoc, h.out]
    have : gd (stW nextId none s.flat) = gd (stW nextS none pre) := by
      rw [h.act]
      cases ha : s.active with
      | none => rw [h.stn ha]
      | some t =>
        obtain ⟨u, hu, _, h3, h4⟩ := h.sts t ha
        rw [hu]
        simp [gd, h3, h4]
    rw [this]
  · rw [stW_snoc, hs, h6]; exact h.act
  · rw [h6, hf, stW_snoc, hid]; exact h.stn
  · rw [h6, hf, stW_snoc, hid, h4]; exact h.sts
  · rw [hf]
    refine ordered_push h.ord ?_ ?_
    · rintro t rfl; cases he
    · rintro t rfl; cases he
  · rw [hf, hbeg, h7]; exact h.lt
  · intro l nid hl
    rw [h5] at hl
    obtain ⟨⟨j, hj, b, hb', hm⟩, p, te, tid, g1, g2, g3, g4⟩ := h.ends l nid hl
    obtain ⟨b', x, hb2, e'⟩ := hx j b hb'
    refine ⟨⟨j, by rw [h1]; exact hj, b', hb2, by rw [e', begins_append, List.mem_append]; exact .inl hm⟩, p, te, tid, g1, g2, g3, ?_⟩
    rw [hf, h6, h4, List.mem_append]
    rcases g4 with g4 | g4
    · exact .inl (.inl g4)
    · exact .inr g4
  · rw [h3]; exact h.labPos
  · intro l k nid hl he'
    rw [h3] at hl; rw [h5] at he'
    exact (h.labs l k nid hl he').ext hx

/-- A TryBegin is copied. -/
theorem HInv.begin_ {es : List BElem} {s : FromSt} {pre : List BElem} {n : Nat} {t u : TryB} (h : HInv es s pre n) (ha : s.active = none)
    (hu1 : u.id = s.ids) (hu2 : u.target = t.target) (hu3 : u.lasti = t.lasti)
    {s' : FromSt} (h1 : s'.done = s.done) (h2 : s'.cur = ⟨s.cur.elems ++ [.tryBegin u], s.cur.next⟩) (h3 : s'.labels = s.labels)
    (h4 : s'.tries = upd s.tries t.id (some s.ids)) (h5 : s'.ends = s.ends) (h6 : s'.active = some t) (h7 : s'.ids = s.ids + 1) :
    HInv es s' (pre ++ [.tryBegin t]) n := by
  have hb : s'.blks = (s.push (.tryBegin u)).blks := by unfold FromSt.blks; rw [h1, h2]; rfl
  have hf : s'.flat = s.flat ++ [.tryBegin u] := by unfold FromSt.flat; rw [hb]; exact flat_push s _
  have hx : Ext s.blks s'.blks := by rw [hb]; exact ext_push s _
  refine ⟨?_, ?_, ?_, ?_, ?_, ?_, ?_, ?_, ?_⟩
  · rw [hf, outW_snoc, outW_snoc, h.out]; rfl
  · rw [stW_snoc, h6]; rfl
  · rw [h6]; intro h; cases h
  · intro t' ht'
    rw [h6] at ht'
    simp only [Option.some.injEq] at ht'
    subst ht'
    rw [hf, stW_snoc, h4]
    exact ⟨u, rfl, by simp [upd, hu1], hu2, hu3⟩
  · rw [hf]
    refine ordered_push h.ord ?_ ?_
    · intro t' ht'
      simp only [BElem.tryBegin.injEq] at ht'
      subst ht'
      refine ⟨h.stn ha, ?_⟩
      intro hm
      have := h.lt _ hm
      omega
    · intro m hm; cases hm
  · rw [hf, h7, begins_append]
    intro x hx'
    rcases List.mem_append.1 hx' with hx' | hx'
    · have := h.lt x hx'; omega
    · simp only [begins, List.filterMap_cons, List.filterMap_nil, List.mem_singleton] at hx'
      omega
  · intro l nid hl
    rw [h5] at hl
    obtain ⟨⟨j, hj, b, hb', hm⟩, p, te, tid, g1, g2, g3, g4⟩ := h.ends l nid hl
    obtain ⟨b', x, hb2, e'⟩ := hx j b hb'
    refine ⟨⟨j, by rw [h1]; exact hj, b', hb2, by rw [e', begins_append, List.mem_append]; exact .inl hm⟩, p, te, tid, g1, g2, g3, ?_⟩
    rcases g4 with g4 | ⟨t', ht', _⟩
    · rw [hf, List.mem_append]; exact .inl (.inl g4)
    · rw [ha] at ht'; cases ht'
  · rw [h3]; exact h.labPos
  · intro l k nid hl he'
    rw [h3] at hl; rw [h5] at he'
    exact (h.labs l k nid hl he').ext hx

/-- The open region is ended, in the current block or the one before; `e'` is what it corresponds to in the bytecode. -/
theorem HInv.end_ {es : List BElem} {s s' : FromSt} {pre : List BElem} {n nid : Nat} {t : TryB} {x : Nat} (h : HInv es s pre n)
    (ha : s.active = some t) (ht : s.tries t.id = some nid) (hd : s'.done.length = s.done.length)
    (hf : s'.flat = s.flat ++ [.tryEnd nid]) (hx : Ext s.blks s'.blks) (h3 : s'.labels = s.labels)
    (h5 : s'.ends = s.ends) (h6 : s'.active = none) (h7 : s'.ids = s.ids) (h8 : 0 < instrCount s.flat) : HInv es s' (pre ++ [.tryEnd x]) n := by
  obtain ⟨u, hu, hut, hu1, hu2⟩ := h.sts t ha
  rw [ht] at hut
  simp only [Option.some.injEq] at hut
  have hum : nid ∈ begins s.flat := by
    rcases stW_begins hu with h' | h'
    · cases h'
    · rw [hut]; exact h'
  refine ⟨?_, ?_, ?_, ?_, ?_, ?_, ?_, ?_, ?_⟩
  · rw [hf, outW_snoc, outW_snoc, h.out]; rfl
  · rw [stW_snoc, h6]; rfl
  · intro _
    rw [hf, stW_snoc, hu]
    simp [nextId, hut]
  · rw [h6]; intro t ht; cases ht
  · rw [hf]
    refine ordered_push h.ord (fun t ht => by cases ht) ?_
    intro m hm
    simp only [BElem.tryEnd.injEq] at hm
    rw [← hm]; exact ⟨hum, h8⟩
  · rw [hf, h7, begins_append]
    intro y hy
    rcases List.mem_append.1 hy with hy | hy
    · exact h.lt y hy
    · cases hy
  · intro l m hl
    rw [h5] at hl
    obtain ⟨⟨j, hj, b, hb', hm⟩, p, te, tid, g1, g2, g3, g4⟩ := h.ends l m hl
    obtain ⟨b', z, hb2, e'⟩ := hx j b hb'
    refine ⟨⟨j, by rw [hd]; exact hj, b', hb2, by rw [e', begins_append, List.mem_append]; exact .inl hm⟩, p, te, tid, g1, g2, g3, ?_⟩
    left
    rw [hf, List.mem_append]
    rcases g4 with g4 | ⟨t', ht', _, ht3⟩
    · exact .inl g4
    · rw [ha] at ht'
      simp only [Option.some.injEq] at ht'
      subst ht'
      rw [ht] at ht3
      simp only [Option.some.injEq] at ht3
      simp [ht3]
  · rw [h3]; exact h.labPos
  · intro l k m hl he'
    rw [h3] at hl; rw [h5] at he'
    exact (h.labs l k m hl he').ext hx

/-! ### One turn of the loop -/

theorem lastInstr_pos {es : List BElem} {i : Instr} (h : lastInstr es = some i) : 0 < instrCount es := by
  apply Classical.byContradiction
  intro h0
  rw [instrCount_zero_last (by omega)] at h
  cases h

theorem henter {P : Platform} {es : List BElem} {starts : List Nat} {s s' : FromSt} {pre : List BElem} {e : BElem} {o : Bool}
    (hw : WellTried none [] false es) (hf : FInv P es starts s pre pre.length) (h : HInv es s pre pre.length)
    (hp : pre = es.take pre.length) (he : es[pre.length]? = some e) (hst : ∀ p ∈ starts, ∃ l, labelIndex l es = some p)
    (hr : s.enter P pre.length (decide (pre.length ∈ starts)) e = .ok (s', o)) :
    HInv es s' pre (pre.length + 1) ∧ (o = true → s'.cur.elems = [] ∧ s'.done ≠ [] ∧ 0 < instrCount s'.flat) := by
  have hcnt : ∀ li c, lastInstr s.cur.elems = some li → 0 < instrCount (s.open_ c).flat := by
    intro li c hli
    rw [flat_open, flat_eq, instrCount_append]
    have := lastInstr_pos hli
    omega
  unfold FromSt.enter at hr
  by_cases hs : pre.length ∈ starts
  · obtain ⟨l, hl⟩ := hst _ hs
    have hl' := (labelIndex_some hl).1
    rw [he] at hl'
    simp only [Option.some.injEq] at hl'
    subst hl'
    simp only [hs, decide_true, if_true] at hr
    split at hr
    · rename_i li hidx hli
      simp only [Except.ok.injEq, Prod.mk.injEq] at hr
      obtain ⟨rfl, rfl⟩ := hr
      refine ⟨(h.open_ _).setLabel hw hp hl rfl, fun _ => ⟨rfl, ?_, hcnt _ _ hli⟩⟩
      simp [FromSt.open_]
    · rename_i hn
      simp only [Except.ok.injEq, Prod.mk.injEq] at hr
      obtain ⟨rfl, rfl⟩ := hr
      refine ⟨h.setLabel hw hp hl ?_, fun h => by cases h⟩
      cases hli : lastInstr s.cur.elems with
      | none => rfl
      | some li =>
        have hz : pre.length = 0 := by
          apply Classical.byContradiction
          intro hne
          exact hn li (by simpa using hne) hli
        have hpre : pre = [] := List.length_eq_zero_iff.1 hz
        have := congrArg instrCount hf.code
        rw [hpre, instrCount_append, instrCount_codeOf] at this
        have h3 : instrCount s.cur.elems = 0 := by
          have : instrCount (codeOf []) = 0 := rfl
          omega
        rw [instrCount_zero_last h3] at hli
        cases hli
  · simp only [hs, decide_false, Bool.false_eq_true, if_false] at hr
    have hopen : ∀ c li, lastInstr s.cur.elems = some li → HInv es (s.open_ c) pre (pre.length + 1) ∧ (true = true → (s.open_ c).cur.elems = [] ∧ (s.open_ c).done ≠ [] ∧ 0 < instrCount (s.open_ c).flat) := by
      intro c li hli
      exact ⟨(h.open_ c).weaken (by omega), fun _ => ⟨rfl, by simp [FromSt.open_], hcnt _ _ hli⟩⟩
    repeat' split at hr
    all_goals first
      | (cases hr; done)
      | (simp only [Except.ok.injEq, Prod.mk.injEq] at hr; obtain ⟨rfl, rfl⟩ := hr; exact hopen _ _ (by assumption))
      | (simp only [Except.ok.injEq, Prod.mk.injEq] at hr; obtain ⟨rfl, rfl⟩ := hr; exact ⟨h.weaken (by omega), fun h => by cases h⟩)

theorem hleave {P : Platform} {es : List BElem} {s s' : FromSt} {pre : List BElem} {i : Instr} {t : TryB} {nid : Nat}
    (hw : WellTried none [] false es) (h : HInv es s pre (pre.length + 1)) (hp : pre = es.take pre.length) (hc : s.cur.elems = [])
    (ha : s.active = some t) (ht : s.tries t.id = some nid) (hr : s.leave P es i t nid = .ok s') :
    HInv es s' pre (pre.length + 1) ∧ s'.cur = s.cur ∧ s'.done = s.done ∧ s'.active = s.active ∧ s'.tries = s.tries := by
  unfold FromSt.leave at hr
  split at hr
  · rename_i te _ hte
    split at hr
    · rename_i l _
      split at hr
      · rename_i k hk
        simp only [Except.ok.injEq] at hr
        subst hr
        split
        · rename_i hge
          refine ⟨?_, rfl, rfl, rfl, rfl⟩
          have hk' := (labelIndex_some hk).1
          have hte' := tryEndIndex_some hte
          have hne : k ≠ te := by
            rintro rfl
            rw [hk'] at hte'
            cases hte'
          have hop := open_end (n := pre.length) hw (by rw [← hp, h.act, ha]) hte
          obtain ⟨u, hu, hut, _, _⟩ := h.sts t ha
          rw [ht] at hut
          simp only [Option.some.injEq] at hut
          have hum : nid ∈ begins s.flat := by
            rcases stW_begins hu with h' | h'
            · cases h'
            · rw [hut]; exact h'
          have hex : ∃ j < s.done.length, ∃ b, s.blks[j]? = some b ∧ nid ∈ begins b.elems := by
            rw [flat_eq, hc, List.append_nil] at hum
            obtain ⟨e, he, hem⟩ := List.mem_filterMap.1 hum
            obtain ⟨b, hb, hbe⟩ := List.mem_flatMap.1 he
            obtain ⟨j, hj, hjb⟩ := List.getElem_of_mem hb
            refine ⟨j, hj, b, ?_, List.mem_filterMap.2 ⟨e, hbe, hem⟩⟩
            show (s.done ++ [s.cur])[j]? = some b
            rw [List.getElem?_append_left hj, List.getElem?_eq_getElem hj, hjb]
          refine ⟨h.out, h.act, h.stn, h.sts, h.ord, h.lt, ?_, h.labPos, ?_⟩
          · intro l' m hl
            rcases hasEnd_add hl with ⟨rfl, rfl⟩ | hl
            · exact ⟨hex, k, te, t.id, hk, hte, by omega, .inr ⟨t, ha, rfl, ht⟩⟩
            · exact h.ends l' m hl
          · intro l' k' m hl' hl
            rcases hasEnd_add hl with ⟨rfl, rfl⟩ | hl
            · exfalso
              obtain ⟨p, hp1, hp2⟩ := h.labPos l' k' hl'
              rw [hk] at hp2
              simp only [Option.some.injEq] at hp2
              omega
            · exact h.labs l' k' m hl' hl
        · exact ⟨h, rfl, rfl, rfl, rfl⟩
      · cases hr
    · cases hr
  · simp only [Except.ok.injEq] at hr
    subst hr
    exact ⟨h, rfl, rfl, rfl, rfl⟩

theorem pushOld_done (s : FromSt) (e : BElem) : (s.pushOld e).done.length = s.done.length := by
  unfold FromSt.pushOld
  simp only
  cases hl : s.done.getLast? with
  | none => rfl
  | some b =>
    obtain ⟨ys, hys⟩ := List.getLast?_eq_some_iff.1 hl
    simp [hys]

theorem hbridge {P : Platform} {es : List BElem} {s s' : FromSt} {pre : List BElem} {temp : Bool} {i : Instr} {e : BElem} {d : Bool}
    (hw : WellTried none [] false es) (h : HInv es s pre (pre.length + 1)) (hp : pre = es.take pre.length) (hc : s.cur.elems = []) (hd : s.done ≠ []) (hi : 0 < instrCount s.flat)
    (hr : s.bridge P es temp i e = .ok (s', d)) :
    (d = false → HInv es s' pre (pre.length + 1)) ∧ (d = true → HInv es s' (pre ++ [e]) (pre.length + 1)) := by
  unfold FromSt.bridge at hr
  split at hr
  · cases hr
  · rename_i id t _ ha
    split at hr
    · rename_i nid ht
      simp only [Except.ok.injEq, Prod.mk.injEq] at hr
      obtain ⟨rfl, rfl⟩ := hr
      refine ⟨(fun h => by cases h), fun _ => ?_⟩
      exact h.end_ ha ht (pushOld_done s _) (flat_pushOld s _ hd hc) (ext_pushOld s _) rfl rfl rfl rfl hi
    · cases hr
  · rename_i t ha _
    split at hr
    · cases hr
    · rename_i nid ht
      obtain ⟨s1, h1, hr⟩ := except_bind_ok hr
      obtain ⟨k1, k2, k3, k4, k5⟩ := hleave hw h hp hc ha ht h1
      split at hr
      · simp only [pure, Except.pure, Except.ok.injEq, Prod.mk.injEq] at hr
        obtain ⟨rfl, rfl⟩ := hr
        refine ⟨fun _ => ?_, fun h => by cases h⟩
        have g1 : HInv es { s1.pushOld (.tryEnd nid) with active := none } (pre ++ [.tryEnd 0]) (pre.length + 1) :=
          k1.end_ (by rw [k4]; exact ha) (by rw [k5]; exact ht) (pushOld_done s1 _)
            (flat_pushOld s1 _ (by rw [k3]; exact hd) (by rw [k2]; exact hc)) (ext_pushOld s1 _) rfl rfl rfl rfl (by rw [flat_eq, k2, k3, ← flat_eq]; exact hi)
        have g2 := g1.begin_ (t := t) (u := ⟨s1.ids, t.target, t.lasti, none⟩) rfl rfl rfl rfl
          (s' := { (s1.pushOld (.tryEnd nid)).push (.tryBegin ⟨s1.ids, t.target, t.lasti, none⟩) with tries := upd s1.tries t.id (some s1.ids), ids := s1.ids + 1, inserted := true })
          rfl rfl rfl rfl rfl (by show s1.active = some t; rw [k4]; exact ha) rfl
        refine ⟨?_, ?_, g2.stn, g2.sts, g2.ord, g2.lt, g2.ends, g2.labPos, g2.labs⟩
        · refine g2.out.trans ?_
          rw [outW_snoc, outW_snoc]; simp [BElem.isInstr]
        · rw [h.act, ha]
          show some t = s1.active
          rw [k4, ha]
      · simp only [pure, Except.pure, Except.ok.injEq, Prod.mk.injEq] at hr
        obtain ⟨rfl, rfl⟩ := hr
        exact ⟨fun _ => k1, fun h => by cases h⟩
  · simp only [Except.ok.injEq, Prod.mk.injEq] at hr
    obtain ⟨rfl, rfl⟩ := hr
    exact ⟨fun _ => h, fun h => by cases h⟩

theorem outW_length (nx : Option TryB → BElem → Option TryB) (c : Option TryB) (es : List BElem) : (outW nx c es).length = instrCount es := by
  induction es generalizing c with
  | nil => rfl
  | cons e r ih =>
    simp only [outW, List.length_append, ih, instrCount, List.countP_cons]
    split <;> simp [Nat.add_comm]

theorem HInv.count {es : List BElem} {s : FromSt} {pre : List BElem} {n : Nat} (h : HInv es s pre n) : instrCount s.flat = instrCount pre := by
  rw [← outW_length nextId none, h.out, outW_length]

theorem wellTried_any {es : List BElem} {o : Option Nat} {seen : List Nat} (h : WellTried o seen false es)
    {a b : List BElem} {n : Nat} (hab : es = a ++ .tryEnd n :: b) : 0 < instrCount a := by
  induction a generalizing es o seen with
  | nil =>
    subst hab
    obtain ⟨_, h2, _⟩ := h
    cases h2
  | cons e r ih =>
    subst hab
    have mono : instrCount r ≤ instrCount (e :: r) := by simp [instrCount, List.countP_cons]
    cases e with
    | tryBegin t => obtain ⟨h1, h2, h3⟩ := h; exact Nat.lt_of_lt_of_le (ih h3 rfl) mono
    | tryEnd id => obtain ⟨h1, h2, h3⟩ := h; exact Nat.lt_of_lt_of_le (ih h3 rfl) mono
    | instr i => simp [instrCount, List.countP_cons, BElem.isInstr]
    | label i => exact Nat.lt_of_lt_of_le (ih (es := r ++ .tryEnd n :: b) h rfl) mono
    | setLineno i => exact Nat.lt_of_lt_of_le (ih (es := r ++ .tryEnd n :: b) h rfl) mono

theorem hcopy {es : List BElem} {s s' : FromSt} {pre : List BElem} {e : BElem} {n : Nat}
    (hw : WellTried none [] false es) (h : HInv es s pre n) (hp : pre = es.take pre.length) (he : es[pre.length]? = some e)
    (hr : s.copyElem e = .ok s') : HInv es s' (pre ++ [e]) n := by
  cases e with
  | label l =>
    simp only [FromSt.copyElem, Except.ok.injEq] at hr
    subst hr
    have k := h.of (s' := { s with last := none }) rfl rfl rfl rfl rfl rfl rfl
    refine ⟨?_, ?_, k.stn, k.sts, k.ord, k.lt, k.ends, k.labPos, k.labs⟩
    · rw [k.out, outW_snoc]; simp [BElem.isInstr]
    · rw [stW_snoc, ← k.act]; rfl
  | setLineno l =>
    simp only [FromSt.copyElem, Except.ok.injEq] at hr
    subst hr
    exact h.code rfl rfl rfl rfl rfl rfl rfl rfl
  | instr l =>
    simp only [FromSt.copyElem, Except.ok.injEq] at hr
    subst hr
    exact h.code rfl rfl rfl rfl rfl rfl rfl rfl
  | tryBegin t =>
    simp only [FromSt.copyElem] at hr
    split at hr
    · cases hr
    · rename_i hn
      simp only [Except.ok.injEq] at hr
      subst hr
      have ha : s.active = none := by
        cases ha : s.active with
        | none => rfl
        | some t => rw [ha] at hn; exact absurd rfl hn
      exact h.begin_ (t := t) (u := { t with id := s.ids }) (s' := { s.push (.tryBegin { t with id := s.ids }) with active := some t, inserted := true, tries := upd s.tries t.id (some s.ids), ids := s.ids + 1, last := none }) ha rfl rfl rfl rfl rfl rfl rfl rfl rfl rfl
  | tryEnd id =>
    simp only [FromSt.copyElem] at hr
    split at hr
    · cases hr
    · rename_i nid ht
      simp only [Except.ok.injEq] at hr
      subst hr
      have hlen : pre.length < es.length := (List.getElem?_eq_some_iff.1 he).1
      have hsp : es = pre ++ .tryEnd id :: es.drop (pre.length + 1) := by
        have h1 := List.take_append_drop pre.length es
        rw [List.drop_eq_getElem_cons hlen, ← hp] at h1
        have h2 : es[pre.length] = .tryEnd id := by
          rw [List.getElem?_eq_getElem hlen] at he
          simpa using he
        rw [h2] at h1
        exact h1.symm
      have ho := wellTried_end hw (c := none) rfl hsp
      rw [h.act] at ho
      cases ha : s.active with
      | none => rw [ha] at ho; cases ho
      | some t =>
        rw [ha] at ho
        simp only [Option.map_some, Option.some.injEq] at ho
        exact h.end_ (s' := { s.push (.tryEnd nid) with active := none, inserted := false, last := none }) ha (by rw [ho]; exact ht)
          rfl (flat_push s _) (ext_push s _) rfl rfl rfl rfl (by rw [h.count]; exact wellTried_any hw hsp)

theorem hstep {P : Platform} {es : List BElem} {starts : List Nat} {s s' : FromSt} {pre : List BElem} {e : BElem}
    (hw : WellTried none [] false es) (hf : FInv P es starts s pre pre.length) (h : HInv es s pre pre.length)
    (hp : pre = es.take pre.length) (he : es[pre.length]? = some e) (hst : ∀ p ∈ starts, ∃ l, labelIndex l es = some p)
    (hr : s.step P es starts pre.length e = .ok s') : HInv es s' (pre ++ [e]) (pre.length + 1) := by
  unfold FromSt.step at hr
  obtain ⟨⟨s1, o⟩, h1, hr⟩ := except_bind_ok hr
  obtain ⟨i1, i2⟩ := henter hw hf h hp he hst h1
  simp only at hr
  split at hr
  · rename_i ho
    obtain ⟨c1, c2, c3⟩ := i2 ho
    have i1 : HInv es { s1 with inserted := false } pre (pre.length + 1) := i1.of rfl rfl rfl rfl rfl rfl rfl
    split at hr
    · obtain ⟨⟨s2, d⟩, h2, hr⟩ := except_bind_ok hr
      obtain ⟨j1, j2⟩ := hbridge hw i1 hp c1 c2 c3 h2
      simp only at hr
      split at hr
      · rename_i hd
        simp only [pure, Except.pure, Except.ok.injEq] at hr
        subst hr
        exact j2 hd
      · rename_i hd
        exact hcopy hw (j1 (by simpa using hd)) hp he hr
    · exact hcopy hw i1 hp he hr
  · exact hcopy hw i1 hp he hr

theorem hloop {P : Platform} {es : List BElem} {starts : List Nat} (hw : WellTried none [] false es)
    (hst : ∀ p ∈ starts, ∃ l, labelIndex l es = some p) (r : List BElem) :
    ∀ (pre : List BElem) (s s' : FromSt), FInv P es starts s pre pre.length → HInv es s pre pre.length → es = pre ++ r →
      fromLoop P es starts pre.length s r = .ok s' → HInv es s' es es.length := by
  have hst' : ∀ p ∈ starts, ∃ l, es[p]? = some (.label l) := fun p hp => by
    obtain ⟨l, hl⟩ := hst p hp
    exact ⟨l, (labelIndex_some hl).1⟩
  induction r with
  | nil =>
    intro pre s s' _ h hes hr
    simp only [fromLoop, Except.ok.injEq] at hr
    subst hr
    rw [List.append_nil] at hes
    rw [hes]
    rw [hes] at h
    exact h
  | cons e r ih =>
    intro pre s s' hf h hes hr
    unfold fromLoop at hr
    obtain ⟨s1, h1, hr⟩ := except_bind_ok hr
    have hp : pre = es.take pre.length := by rw [hes]; simp
    have he : es[pre.length]? = some e := by rw [hes]; simp
    have k1 := step_ok hf hp he hst' h1
    have k2 := hstep hw hf h hp he hst h1
    have hlen : (pre ++ [e]).length = pre.length + 1 := by simp
    rw [← hlen] at k1 k2 hr
    exact ih (pre ++ [e]) s1 s' k1 k2 (by rw [hes]; simp) hr

theorem wellTried_final {es : List BElem} {o : Option Nat} {seen : List Nat} {any : Bool} (h : WellTried o seen any es)
    {c : Option TryB} (hc : c.map (·.id) = o) : stW nextS c es = none := by
  induction es generalizing o seen any c with
  | nil =>
    have : o = none := h
    rw [this] at hc
    cases c with
    | none => rfl
    | some t => cases hc
  | cons e r ih =>
    have step : stW nextS c (e :: r) = stW nextS (nextS c e) r := rfl
    rw [step]
    cases e with
    | tryBegin t => exact ih h.2.2 rfl
    | tryEnd id => exact ih h.2.2 rfl
    | instr i => exact ih (o := o) (seen := seen) (any := true) h hc
    | label i => exact ih (o := o) (seen := seen) (any := any) h hc
    | setLineno i => exact ih (o := o) (seen := seen) (any := any) h hc

/-! ### The TryEnds added at the end -/

theorem set_flat {bs : List Blk} {k : Nat} {b b' : Blk} (h : bs[k]? = some b) :
    bs.flatMap (·.elems) = (bs.take k).flatMap (·.elems) ++ (b.elems ++ (bs.drop (k + 1)).flatMap (·.elems)) ∧
    (bs.set k b').flatMap (·.elems) = (bs.take k).flatMap (·.elems) ++ (b'.elems ++ (bs.drop (k + 1)).flatMap (·.elems)) := by
  have hk : k < bs.length := (List.getElem?_eq_some_iff.1 h).1
  have hg : bs[k] = b := by rw [List.getElem?_eq_getElem hk] at h; simpa using h
  constructor
  · conv_lhs => rw [← List.take_append_drop k bs, List.drop_eq_getElem_cons hk, hg]
    rw [List.flatMap_append, List.flatMap_cons]
  · rw [List.set_eq_take_append_cons_drop, if_pos hk, List.flatMap_append, List.flatMap_cons]

structure GInv (bs : List Blk) (R : List (Option (Nat × Bool))) : Prop where
  ord : Ordered (bs.flatMap (·.elems))
  out : outW nextId none (bs.flatMap (·.elems)) = R
  st : stW nextId none (bs.flatMap (·.elems)) = none
  full : ∀ (k : Nat) (b : Blk), bs[k]? = some b → k + 1 < bs.length → 0 < instrCount b.elems

/-- TryEnds were added at the beginning of blocks. -/
def Pref (bs bs' : List Blk) : Prop := ∀ (k : Nat) (b : Blk), bs[k]? = some b → ∃ (b' : Blk) (x : List BElem), bs'[k]? = some b' ∧ b'.elems = x ++ b.elems ∧ instrCount x = 0

theorem Early.pref {bs bs' : List Blk} {k nid : Nat} (h : Early bs k nid) (he : Pref bs bs') : Early bs' k nid := by
  obtain ⟨⟨j, hj, b, hb, hm⟩, h2⟩ := h
  refine ⟨?_, ?_⟩
  · obtain ⟨b', x, hb', e, _⟩ := he j b hb
    exact ⟨j, hj, b', hb', by rw [e, begins_append, List.mem_append]; exact .inr hm⟩
  · rcases h2 with ⟨j, hj, b, hb, hm⟩ | ⟨b, hb, x, y, e, h0⟩
    · obtain ⟨b', x, hb', e, _⟩ := he j b hb
      exact .inl ⟨j, hj, b', hb', by rw [e, List.mem_append]; exact .inr hm⟩
    · obtain ⟨b', z, hb', e', hz⟩ := he k b hb
      exact .inr ⟨b', hb', z ++ x, y, by rw [e', e]; simp, by rw [instrCount_append, hz, h0]⟩

theorem pref_set {bs : List Blk} {k n : Nat} {b : Blk} (h : bs[k]? = some b) : Pref bs (bs.set k ⟨.tryEnd n :: b.elems, b.next⟩) := by
  intro j b1 hb1
  rw [List.getElem?_set]
  split
  · rename_i hj
    subst hj
    rw [h] at hb1
    simp only [Option.some.injEq] at hb1
    subst hb1
    have hk : k < bs.length := (List.getElem?_eq_some_iff.1 h).1
    exact ⟨_, [.tryEnd n], by rw [if_pos hk], rfl, rfl⟩
  · exact ⟨b1, [], hb1, rfl, rfl⟩

theorem mem_take_flat {bs : List Blk} {k j : Nat} {b : Blk} {e : BElem} (hj : j < k) (hb : bs[j]? = some b) (he : e ∈ b.elems) :
    e ∈ (bs.take k).flatMap (·.elems) := by
  refine List.mem_flatMap.2 ⟨b, ?_, he⟩
  refine List.mem_of_getElem? (i := j) ?_
  rw [List.getElem?_take, if_pos hj]
  exact hb

/-- One TryEnd added. -/
theorem GInv.insert {bs : List Blk} {R : List (Option (Nat × Bool))} {k n : Nat} {b : Blk} (h : GInv bs R) (hk : bs[k]? = some b)
    (he : Early bs k n) : GInv (bs.set k ⟨.tryEnd n :: b.elems, b.next⟩) R := by
  obtain ⟨f1, f2⟩ := set_flat (b' := ⟨.tryEnd n :: b.elems, b.next⟩) hk
  obtain ⟨⟨j, hj, b1, hb1, hm⟩, h2⟩ := he
  have hn : n ∈ begins ((bs.take k).flatMap (·.elems)) := by
    obtain ⟨e, he, hem⟩ := List.mem_filterMap.1 hm
    exact List.mem_filterMap.2 ⟨e, mem_take_flat hj hb1 he, hem⟩
  have hpos : 0 < instrCount ((bs.take k).flatMap (·.elems)) := by
    have hkl := (List.getElem?_eq_some_iff.1 hk).1
    have hl := h.full j b1 hb1 (by omega)
    obtain ⟨x, hx, hi⟩ := List.countP_pos_iff.1 hl
    exact List.countP_pos_iff.2 ⟨x, mem_take_flat hj hb1 hx, hi⟩
  have := insert_ok (X := (bs.take k).flatMap (·.elems)) (Y := b.elems ++ (bs.drop (k + 1)).flatMap (·.elems)) (n := n)
    (by rw [← f1]; exact h.ord) ⟨hn, hpos⟩ (by
      rcases h2 with ⟨j, hj, b1, hb1, hm⟩ | ⟨b1, hb1, x, y, e, h0⟩
      · exact .inl (mem_take_flat hj hb1 hm)
      · rw [hk] at hb1
        simp only [Option.some.injEq] at hb1
        subst hb1
        exact .inr ⟨x, y ++ (bs.drop (k + 1)).flatMap (·.elems), by rw [e]; simp, h0⟩)
  have e : (bs.set k ⟨.tryEnd n :: b.elems, b.next⟩).flatMap (·.elems) =
      (bs.take k).flatMap (·.elems) ++ .tryEnd n :: (b.elems ++ (bs.drop (k + 1)).flatMap (·.elems)) := f2
  refine ⟨by rw [e]; exact this.1, by rw [e, this.2.1, ← f1]; exact h.out, by rw [e, this.2.2, ← f1]; exact h.st, ?_⟩
  intro j' b' hb' hj'
  rw [List.length_set] at hj'
  rw [List.getElem?_set] at hb'
  split at hb'
  · rename_i hjk
    subst hjk
    rw [if_pos (List.getElem?_eq_some_iff.1 hk).1] at hb'
    simp only [Option.some.injEq] at hb'
    subst hb'
    have := h.full k b hk hj'
    simp only [instrCount, List.countP_cons] at this ⊢
    omega
  · exact h.full j' b' hb' hj'

theorem GInv.insertEnds {R : List (Option (Nat × Bool))} {k : Nat} (ids : List Nat) : ∀ {bs : List Blk} {b : Blk} (ex : List Nat), GInv bs R →
    bs[k]? = some b → (∀ n ∈ ids, Early bs k n) →
    GInv (bs.set k ⟨Verif.insertEnds ex b.elems ids, b.next⟩) R ∧ Pref bs (bs.set k ⟨Verif.insertEnds ex b.elems ids, b.next⟩) := by
  induction ids with
  | nil =>
    intro bs b ex h hk _
    have : bs.set k ⟨Verif.insertEnds ex b.elems [], b.next⟩ = bs := by
      show bs.set k b = bs
      apply List.ext_getElem?
      intro i
      rw [List.getElem?_set]
      split
      · rename_i hi; subst hi
        rw [hk, if_pos (List.getElem?_eq_some_iff.1 hk).1]
      · rfl
    rw [this]
    exact ⟨h, fun j b1 hb => ⟨b1, [], hb, rfl, rfl⟩⟩
  | cons i r ih =>
    intro bs b ex h hk he
    unfold Verif.insertEnds
    split
    · exact ih ex h hk (fun n hn => he n (by simp [hn]))
    · have h1 := h.insert hk (he i (by simp))
      have hp := pref_set (n := i) hk
      have hk1 : (bs.set k ⟨.tryEnd i :: b.elems, b.next⟩)[k]? = some ⟨.tryEnd i :: b.elems, b.next⟩ := by
        rw [List.getElem?_set, if_pos rfl, if_pos (List.getElem?_eq_some_iff.1 hk).1]
      obtain ⟨g1, g2⟩ := ih (i :: ex) h1 hk1 (fun n hn => (he n (by simp [hn])).pref hp)
      rw [List.set_set] at g1 g2
      refine ⟨g1, ?_⟩
      intro j b1 hb1
      obtain ⟨b2, x, hb2, e2, z2⟩ := hp j b1 hb1
      obtain ⟨b3, y, hb3, e3, z3⟩ := g2 j b2 hb2
      exact ⟨b3, y ++ x, hb3, by rw [e3, e2, List.append_assoc], by rw [instrCount_append, z2, z3]⟩

theorem GInv.applyEnds {R : List (Option (Nat × Bool))} {labels : Nat → Option Nat} (ends : List (Nat × List Nat)) : ∀ {bs bs' : List Blk}, GInv bs R →
    (∀ l k nid, labels l = some k → HasEnd ends l nid → Early bs k nid) → Verif.applyEnds labels bs ends = .ok bs' → GInv bs' R := by
  induction ends with
  | nil =>
    intro bs bs' h _ hr
    simp only [Verif.applyEnds, Except.ok.injEq] at hr
    subst hr; exact h
  | cons x r ih =>
    intro bs bs' h he hr
    obtain ⟨l, ids⟩ := x
    unfold Verif.applyEnds at hr
    split at hr
    · cases hr
    · rename_i k hk
      have hr' : ∀ l' k' nid, labels l' = some k' → HasEnd r l' nid → Early bs k' nid := by
        rintro l' k' nid hl ⟨ids', h1, h2⟩
        exact he l' k' nid hl ⟨ids', by simp [h1], h2⟩
      split at hr
      · rename_i b hb
        obtain ⟨g1, g2⟩ := GInv.insertEnds ids (leadingEnds b.elems) h hb (fun n hn => he l k n hk ⟨ids, by simp, hn⟩)
        exact ih g1 (fun l' k' nid hl hh => (hr' l' k' nid hl hh).pref g2) hr
      · exact ih h hr' hr

end Verif
