import Verif.Proofs.FromCodeTotal
import Verif.Spec.Assemblable
import Verif.Spec.Tries
/-
The loop of `to_bytecode`: labels of the jumps and handlers, direction of jumps, room taken.
-/
namespace Verif
open Spec
section
variable {P : Platform} {c : Concrete} {prune conserve : Bool} {targets : List Int}

/-! ### Labels -/

theorem noLabel_open {tbs : List Nat} {off t : Nat} : BElem.label t ∉ (openEntry c conserve tbs off).1 := by
  intro h; have := open_marker _ _ _ h; simp [isMarker] at this

theorem noLabel_close {l tbs : List Nat} {t : Nat} : BElem.label t ∉ (closeEntries c conserve tbs l).1 := by
  intro h; have := close_marker _ _ _ h; simp [isMarker] at this

theorem noLabel_decode (hP : P.WF) {off lineno t : Nat} {ci : CInstr} {main : List BElem} (hv : ValidCInstr P ci)
    (h : decodeInstr P c prune off lineno ci = .ok main) : BElem.label t ∉ main := by
  rcases decodeInstr_ok hP hv h with ⟨_, _, rfl⟩ | ⟨i, rfl, _⟩ <;> simp

theorem loop_label_mem (hP : P.WF) (t : Nat) (l : List (Nat × CInstr)) (hv : ∀ p ∈ l, ValidCInstr P p.2) (off : Nat) (tbs : List Nat) (d : Dec)
    (h : decodeLoop P c prune conserve targets off tbs l = .ok d) : (BElem.label t ∈ d.elems ↔ t ∈ d.labels) ∧ (t ∈ d.labels → off ≤ t) := by
  induction l generalizing off tbs d with
  | nil =>
    simp only [decodeLoop, Except.ok.injEq] at h
    subst h; simp
  | cons p l ih =>
    have hp := hv p (by simp)
    obtain ⟨main, d', h1, h2, h3, h4, _⟩ := loop_cons h (valid_size hp)
    have ih' := ih (fun q hq => hv q (by simp [hq])) _ _ d' h2
    have hu := units_pos P p.2 (valid_size hp)
    rw [h3, h4]
    simp only [List.mem_append, noLabel_open, noLabel_close, noLabel_decode hP hp h1, false_or, ih'.1]
    constructor
    · split <;> simp
    · rintro (hx | hx)
      · split at hx <;> simp at hx
        omega
      · have := ih'.2 hx; omega

/-- The jumps of the result are recorded. -/
theorem loop_jump (hP : P.WF) (i : Instr) (l : List (Nat × CInstr)) (hv : ∀ p ∈ l, ValidCInstr P p.2) (off : Nat) (tbs : List Nat) (d : Dec)
    (h : decodeLoop P c prune conserve targets off tbs l = .ok d) (hi : .instr i ∈ d.elems) (hj : P.hasJump i.opcode = true) :
    ∃ t ∈ d.jumps, i.arg = .label t.toNat := by
  induction l generalizing off tbs d with
  | nil =>
    simp only [decodeLoop, Except.ok.injEq] at h
    subst h; simp at hi
  | cons p l ih =>
    have hp := hv p (by simp)
    obtain ⟨main, d', h1, h2, h3, _, h5, _⟩ := loop_cons h (valid_size hp)
    rw [h3] at hi
    rw [h5]
    simp only [List.mem_append] at hi ⊢
    rcases hi with hi | hi | hi | hi | hi
    · split at hi <;> simp at hi
    · have := open_marker _ _ _ hi; simp [isMarker] at this
    · rcases decodeInstr_ok hP hp h1 with ⟨_, _, rfl⟩ | ⟨i', rfl, _, _, ho, _, arg, _, hia⟩
      · simp at hi
      · simp only [List.mem_singleton, BElem.instr.injEq] at hi
        subst hi
        rw [ho] at hj
        obtain ⟨t, ht⟩ := hasJump_target hP hp off hj
        rw [ht] at hia
        exact ⟨t, .inl (by simp [ht]), hia⟩
    · have := close_marker _ _ _ hi; simp [isMarker] at this
    · obtain ⟨t, ht, hx⟩ := ih (fun q hq => hv q (by simp [hq])) _ _ d' h2 hi
      exact ⟨t, .inr ht, hx⟩

theorem mkTry_entry {k : Nat} {t : TryB} (h : .tryBegin t ∈ mkTry c conserve k) :
    t.id = k ∧ ∃ e, c.excTable[k]? = some e ∧ t.target = e.target.toNat := by
  unfold mkTry at h
  split at h
  · rename_i e he
    simp at h; subst h; exact ⟨rfl, e, he, rfl⟩
  · simp at h

theorem close_entry {t : TryB} (l : List Nat) : ∀ tbs, (∀ k ∈ tbs, k ∈ (closeEntries c conserve tbs l).2) ∧
    (.tryBegin t ∈ (closeEntries c conserve tbs l).1 → t.id ∈ (closeEntries c conserve tbs l).2 ∧
      ∃ e, c.excTable[t.id]? = some e ∧ t.target = e.target.toNat) := by
  induction l with
  | nil => intro tbs; simp [closeEntries]
  | cons k l ih =>
    intro tbs
    unfold closeEntries
    split
    · simp only [List.mem_cons, reduceCtorEq, false_or]; exact ih _
    · simp only [List.mem_append, List.mem_cons, reduceCtorEq, false_or]
      refine ⟨fun j hj => (ih _).1 j (by simp [hj]), ?_⟩
      rintro (h | h)
      · obtain ⟨h1, h2⟩ := mkTry_entry h
        rw [h1]
        exact ⟨(ih _).1 k (by simp), h2⟩
      · exact (ih _).2 h

theorem open_entry {t : TryB} {tbs : List Nat} {off : Nat} : (∀ k ∈ tbs, k ∈ (openEntry c conserve tbs off).2) ∧
    (.tryBegin t ∈ (openEntry c conserve tbs off).1 → t.id ∈ (openEntry c conserve tbs off).2 ∧
      ∃ e, c.excTable[t.id]? = some e ∧ t.target = e.target.toNat) := by
  unfold openEntry
  split
  · split
    · simp
    · refine ⟨fun k hk => by simp [hk], fun h => ?_⟩
      obtain ⟨h1, h2⟩ := mkTry_entry h
      rw [h1]
      exact ⟨by simp, h2⟩
  · simp

/-- The TryBegin of the result are recorded, and come from the table. -/
theorem loop_begin (hP : P.WF) (t : TryB) (l : List (Nat × CInstr)) (hv : ∀ p ∈ l, ValidCInstr P p.2) (off : Nat) (tbs : List Nat) (d : Dec)
    (h : decodeLoop P c prune conserve targets off tbs l = .ok d) :
    (∀ k ∈ tbs, k ∈ d.tbs) ∧ (.tryBegin t ∈ d.elems → t.id ∈ d.tbs ∧ ∃ e, c.excTable[t.id]? = some e ∧ t.target = e.target.toNat) := by
  induction l generalizing off tbs d with
  | nil =>
    simp only [decodeLoop, Except.ok.injEq] at h
    subst h; simp
  | cons p l ih =>
    have hp := hv p (by simp)
    obtain ⟨main, d', h1, h2, h3, _, _, h6⟩ := loop_cons h (valid_size hp)
    have ih' := ih (fun q hq => hv q (by simp [hq])) _ _ d' h2
    rw [h3, h6]
    refine ⟨fun k hk => ih'.1 k ((close_entry (t := t) _ _).1 k ((open_entry (t := t)).1 k hk)), fun hi => ?_⟩
    simp only [List.mem_append] at hi
    rcases hi with hi | hi | hi | hi | hi
    · split at hi <;> simp at hi
    · obtain ⟨a, b⟩ := open_entry.2 hi
      exact ⟨ih'.1 _ ((close_entry (t := t) _ _).1 _ a), b⟩
    · rcases decodeInstr_ok hP hp h1 with ⟨_, _, rfl⟩ | ⟨i', rfl, _⟩ <;> simp at hi
    · obtain ⟨a, b⟩ := (close_entry _ _).2 hi
      exact ⟨ih'.1 _ a, b⟩
    · exact ih'.2 hi

/-! ### Where instructions are -/

/-- Units of the instructions of the loop. -/
def unitsL (P : Platform) (l : List (Nat × CInstr)) : Nat := (l.map (fun p => p.2.units P)).sum

/-- An instruction of the result: where it comes from, what is before and after. -/
theorem loop_split (hP : P.WF) (l : List (Nat × CInstr)) (hv : ∀ p ∈ l, ValidCInstr P p.2) (off : Nat) (tbs : List Nat) (d : Dec)
    (h : decodeLoop P c prune conserve targets off tbs l = .ok d) {pre : List BElem} {i : Instr} {post : List BElem}
    (he : d.elems = pre ++ .instr i :: post) :
    ∃ l1 p l2 tbs' d' ms, l = l1 ++ p :: l2 ∧ decodeInstr P c prune (off + unitsL P l1) p.1 p.2 = .ok [.instr i] ∧
      decodeLoop P c prune conserve targets (off + unitsL P l1 + p.2.units P) tbs' l2 = .ok d' ∧ post = ms ++ d'.elems ∧
      (∀ e ∈ ms, isMarker e = true) ∧ ∀ t, BElem.label t ∈ pre → t ≤ off + unitsL P l1 := by
  induction l generalizing off tbs d pre with
  | nil =>
    simp only [decodeLoop, Except.ok.injEq] at h
    subst h; simp at he
  | cons p l ih =>
    have hp := hv p (by simp)
    obtain ⟨main, d', h1, h2, h3, _⟩ := loop_cons h (valid_size hp)
    have hopen : ∀ e ∈ (openEntry c conserve tbs off).1, isMarker e = true := open_marker _ _
    have hclose : ∀ e ∈ (closeEntries c conserve (openEntry c conserve tbs off).2 (exEnd c (off + p.2.units P - P.unit)).reverse).1, isMarker e = true := close_marker _ _
    generalize (openEntry c conserve tbs off).1 = A at *
    generalize (closeEntries c conserve (openEntry c conserve tbs off).2 (exEnd c (off + p.2.units P - P.unit)).reverse).1 = B at *
    -- the elements before the instruction
    obtain ⟨L, hL, hLe⟩ : ∃ L : List BElem, L = (if (off : Int) ∈ targets then [.label off] else []) ++ A ∧
        (∀ e ∈ L, e = .label off ∨ isMarker e = true) := by
      refine ⟨_, rfl, fun e he => ?_⟩
      rcases List.mem_append.1 he with he | he
      · split at he <;> simp at he
        exact .inl he
      · exact .inr (hopen e he)
    rw [h3, ← List.append_assoc, ← hL] at he
    -- an element that is an instruction is not in a list of labels and markers
    have cut : ∀ (X Y pre : List BElem), (∀ e ∈ X, e = .label off ∨ isMarker e = true) → X ++ Y = pre ++ .instr i :: post →
        ∃ pre', pre = X ++ pre' ∧ Y = pre' ++ .instr i :: post := by
      intro X
      induction X with
      | nil => intro Y pre _ e; exact ⟨pre, rfl, e⟩
      | cons x X ihX =>
        intro Y pre hx e
        cases pre with
        | nil =>
          simp only [List.nil_append, List.cons_append, List.cons.injEq] at e
          have := hx x (by simp)
          rw [e.1] at this
          simp [isMarker] at this
        | cons y pre =>
          simp only [List.cons_append, List.cons.injEq] at e
          obtain ⟨pre', e1, e2⟩ := ihX Y pre (fun e he => hx e (by simp [he])) e.2
          exact ⟨pre', by rw [e.1, e1]; rfl, e2⟩
    obtain ⟨pre1, e1, e2⟩ := cut L _ pre hLe he
    have hlab : ∀ t, BElem.label t ∈ L → t = off := by
      intro t ht
      rcases hLe _ ht with h | h
      · cases h; rfl
      · simp [isMarker] at h
    have rest : ∀ pre2, B ++ d'.elems = pre2 ++ .instr i :: post → (∀ t, BElem.label t ∈ pre1 → BElem.label t ∈ pre2) →
        ∃ l1 q l2 tbs' d' ms, p :: l = l1 ++ q :: l2 ∧ decodeInstr P c prune (off + unitsL P l1) q.1 q.2 = .ok [.instr i] ∧
          decodeLoop P c prune conserve targets (off + unitsL P l1 + q.2.units P) tbs' l2 = .ok d' ∧ post = ms ++ d'.elems ∧
          (∀ e ∈ ms, isMarker e = true) ∧ ∀ t, BElem.label t ∈ pre → t ≤ off + unitsL P l1 := by
      intro pre2 e3 hlabs
      obtain ⟨pre3, e4, e5⟩ := cut B _ pre2 (fun e he => .inr (hclose e he)) e3
      obtain ⟨l1, q, l2, tbs', d'', ms, g1, g2, g3, g4, g5, g6⟩ := ih (fun q hq => hv q (by simp [hq])) _ _ d' h2 e5
      have hu : off + unitsL P (p :: l1) = off + p.2.units P + unitsL P l1 := by
        simp only [unitsL, List.map_cons, List.sum_cons]; omega
      refine ⟨p :: l1, q, l2, tbs', d'', ms, by rw [g1]; rfl, by rw [hu]; exact g2, by rw [hu]; exact g3, g4, g5, ?_⟩
      intro t ht
      rw [hu]
      rw [e1] at ht
      rcases List.mem_append.1 ht with ht | ht
      · have := hlab t ht; omega
      · have ht := hlabs t ht
        rw [e4] at ht
        rcases List.mem_append.1 ht with ht | ht
        · have := hclose _ ht; simp [isMarker] at this
        · exact g6 t ht
    rcases decodeInstr_ok hP hp h1 with ⟨_, _, hm⟩ | ⟨i', hm, _⟩
    · subst hm
      exact rest pre1 e2 (fun t h => h)
    · subst hm
      cases pre1 with
      | nil =>
        simp only [List.nil_append, List.cons_append, List.cons.injEq, BElem.instr.injEq] at e2
        obtain ⟨e3, e4⟩ := e2
        subst e3
        refine ⟨[], p, l, _, d', B, rfl, by simpa [unitsL] using h1, by simpa [unitsL] using h2, e4.symm, hclose, ?_⟩
        intro t ht
        rw [e1, List.append_nil] at ht
        have := hlab t ht
        simp [unitsL, this]
      | cons x pre2 =>
        simp only [List.nil_append, List.cons_append, List.cons.injEq] at e2
        refine rest pre2 e2.2 ?_
        intro t ht
        rcases List.mem_cons.1 ht with ht | ht
        · rw [← e2.1] at ht; cases ht
        · exact ht

theorem loop_label_ge (hP : P.WF) {t : Nat} {l : List (Nat × CInstr)} (hv : ∀ p ∈ l, ValidCInstr P p.2) {off : Nat} {tbs : List Nat} {d : Dec}
    (h : decodeLoop P c prune conserve targets off tbs l = .ok d) (ht : BElem.label t ∈ d.elems) : off ≤ t :=
  (loop_label_mem hP t l hv off tbs d h).2 ((loop_label_mem hP t l hv off tbs d h).1.1 ht)

/-! ### Caches -/

theorem layout_after {js : List CInstr} (h : CacheLayout P js) : ∀ {l1 : List CInstr} {p : CInstr} {l2 : List CInstr}, js = l1 ++ p :: l2 → p.opcode ≠ 0 →
    ∃ cs rest, l2 = cs ++ rest ∧ cs.length = P.cacheEntries p.opcode ∧ ∀ x ∈ cs, x.opcode = 0 ∧ x.size = 2 := by
  induction h with
  | nil => intro l1 p l2 e; simp at e
  | group i cs rest hi hc hz hrest ih =>
    intro l1 p l2 e hp
    cases l1 with
    | nil =>
      simp only [List.nil_append, List.cons.injEq] at e
      obtain ⟨e1, e2⟩ := e
      subst e1
      exact ⟨cs, rest, e2.symm, hc, hz⟩
    | cons y l1 =>
      simp only [List.cons_append, List.cons.injEq] at e
      rcases List.append_eq_append_iff.1 e.2 with ⟨as, e1, e2⟩ | ⟨bs, e1, e2⟩
      · exact ih e2 hp
      · cases bs with
        | nil => exact ih (l1 := []) e2.symm hp
        | cons z bs =>
          simp only [List.cons_append, List.cons.injEq] at e2
          exact absurd (hz p (by rw [e1, e2.1]; simp)).1 hp

end
end Verif
