import Verif.Proofs.CfgTryMain
import Verif.Proofs.AssembleF
/-
`from_bytecode` fails only for the labels and the regions.
-/
namespace Verif
open Spec

/-! ### Where the elements of the blocks come from -/

/-- An element made from those of `es`. -/
def Src (es : List BElem) : BElem → Prop
  | .instr i => .instr i ∈ es
  | .tryBegin t => ∃ t', .tryBegin t' ∈ es ∧ t'.target = t.target ∧ (t.depth = none ∨ t.depth = t'.depth)
  | .label _ => False
  | _ => True

structure SrcSt (es : List BElem) (s : FromSt) : Prop where
  done : ∀ b ∈ s.done, ∀ x ∈ b.elems, Src es x
  cur : ∀ x ∈ s.cur.elems, Src es x
  active : ∀ t, s.active = some t → .tryBegin t ∈ es
  last : ∀ i, s.last = some i → .instr i ∈ es
  ends : ∀ x ∈ s.ends, ∃ e ∈ es, refLabel e = some x.1

section
variable {es : List BElem} {s s' : FromSt}

theorem src_snoc {l : List BElem} {e : BElem} (h : ∀ x ∈ l, Src es x) (he : Src es e) : ∀ x ∈ l ++ [e], Src es x := by
  intro x hx
  rcases List.mem_append.1 hx with hx | hx
  · exact h x hx
  · rw [List.mem_singleton] at hx; subst hx; exact he

theorem SrcSt.push {e : BElem} (h : SrcSt es s) (he : Src es e) : SrcSt es (s.push e) :=
  ⟨h.done, src_snoc h.cur he, h.active, h.last, h.ends⟩

theorem SrcSt.pushOld {e : BElem} (h : SrcSt es s) (he : Src es e) : SrcSt es (s.pushOld e) := by
  refine ⟨?_, h.cur, h.active, h.last, h.ends⟩
  intro b hb
  unfold FromSt.pushOld at hb
  simp only at hb
  split at hb
  · rename_i b0 hb0
    obtain ⟨ys, hys⟩ := List.getLast?_eq_some_iff.1 hb0
    rw [hys] at hb
    simp only [List.dropLast_concat, List.mem_append, List.mem_singleton] at hb
    rcases hb with hb | rfl
    · exact h.done b (by rw [hys]; simp [hb])
    · exact src_snoc (h.done b0 (by rw [hys]; simp)) he
  · exact h.done b hb

theorem SrcSt.open_ (c : Bool) (h : SrcSt es s) : SrcSt es (s.open_ c) := by
  refine ⟨?_, (fun l hl => by cases hl), h.active, h.last, h.ends⟩
  intro b hb
  simp only [FromSt.open_, List.mem_append, List.mem_singleton] at hb
  rcases hb with hb | rfl
  · exact h.done b hb
  · exact h.cur

theorem SrcSt.of (h : SrcSt es s) (h1 : s'.done = s.done) (h2 : s'.cur = s.cur) (h3 : s'.active = none ∨ s'.active = s.active)
    (h4 : s'.last = none ∨ s'.last = s.last) (h5 : s'.ends = s.ends) : SrcSt es s' := by
  refine ⟨by rw [h1]; exact h.done, by rw [h2]; exact h.cur, ?_, ?_, by rw [h5]; exact h.ends⟩
  · intro t ht
    rcases h3 with h3 | h3
    · rw [h3] at ht; cases ht
    · exact h.active t (by rw [← h3]; exact ht)
  · intro t ht
    rcases h4 with h3 | h3
    · rw [h3] at ht; cases ht
    · exact h.last t (by rw [← h3]; exact ht)

theorem SrcSt.copyElem {e : BElem} (he : e ∈ es) (h : SrcSt es s) (hr : s.copyElem e = .ok s') : SrcSt es s' := by
  cases e with
  | label l =>
    simp only [FromSt.copyElem, Except.ok.injEq] at hr
    subst hr; exact h.of rfl rfl (.inr rfl) (.inl rfl) rfl
  | setLineno l =>
    simp only [FromSt.copyElem, Except.ok.injEq] at hr
    subst hr; exact (h.push (e := .setLineno l) trivial).of rfl rfl (.inr rfl) (.inl rfl) rfl
  | instr l =>
    simp only [FromSt.copyElem, Except.ok.injEq] at hr
    subst hr
    have k := h.push (e := .instr l) he
    exact ⟨k.done, k.cur, k.active, (fun i hi => by cases hi; exact he), k.ends⟩
  | tryBegin l =>
    simp only [FromSt.copyElem] at hr
    split at hr
    · cases hr
    · simp only [Except.ok.injEq] at hr
      subst hr
      have k := h.push (e := .tryBegin { l with id := s.ids }) ⟨l, he, rfl, .inr rfl⟩
      exact ⟨k.done, k.cur, (fun t ht => by cases ht; exact he), (fun i hi => by cases hi), k.ends⟩
  | tryEnd id =>
    simp only [FromSt.copyElem] at hr
    split at hr
    · cases hr
    · rename_i nid _
      simp only [Except.ok.injEq] at hr
      subst hr; exact (h.push (e := .tryEnd nid) trivial).of rfl rfl (.inl rfl) (.inl rfl) rfl

theorem addEnd_mem {l id : Nat} {ends : List (Nat × List Nat)} {x : Nat × List Nat} (h : x ∈ addEnd l id ends) :
    x.1 = l ∨ ∃ y ∈ ends, y.1 = x.1 := by
  induction ends with
  | nil => simp only [addEnd, List.mem_singleton] at h; exact .inl (by rw [h])
  | cons a r ih =>
    obtain ⟨m, js⟩ := a
    unfold addEnd at h
    split at h
    · rcases List.mem_cons.1 h with h | h
      · exact .inr ⟨(m, js), by simp, by rw [h]⟩
      · exact .inr ⟨x, by simp [h], rfl⟩
    · rcases List.mem_cons.1 h with h | h
      · exact .inr ⟨(m, js), by simp, by rw [h]⟩
      · rcases ih h with h | ⟨y, hy, h⟩
        · exact .inl h
        · exact .inr ⟨y, by simp [hy], h⟩

theorem SrcSt.leave {P : Platform} {i : Instr} {t : TryB} {nid : Nat} (hi : .instr i ∈ es) (h : SrcSt es s)
    (hr : s.leave P es i t nid = .ok s') : SrcSt es s' := by
  unfold FromSt.leave at hr
  split at hr
  · split at hr
    · rename_i l hl
      split at hr
      · split at hr
        · simp only [Except.ok.injEq] at hr
          subst hr
          refine ⟨h.done, h.cur, h.active, h.last, fun x hx => ?_⟩
          rcases addEnd_mem hx with e | ⟨y, hy, e⟩
          · exact ⟨_, hi, by simp [refLabel, hl, e]⟩
          · rw [← e]; exact h.ends y hy
        · simp only [Except.ok.injEq] at hr
          subst hr; exact h
      · cases hr
    · cases hr
  · simp only [Except.ok.injEq] at hr
    subst hr; exact h

theorem SrcSt.bridge {P : Platform} {temp : Bool} {i : Instr} {e : BElem} {d : Bool} (hi : .instr i ∈ es) (hn : SrcSt es s)
    (h : s.bridge P es temp i e = .ok (s', d)) : SrcSt es s' := by
  unfold FromSt.bridge at h
  split at h
  · cases h
  · split at h
    · rename_i nid _
      simp only [Except.ok.injEq, Prod.mk.injEq] at h
      obtain ⟨rfl, rfl⟩ := h
      exact (hn.pushOld (e := .tryEnd nid) trivial).of rfl rfl (.inl rfl) (.inr rfl) rfl
    · cases h
  · rename_i t ht _
    split at h
    · cases h
    · rename_i nid _
      obtain ⟨s1, h1, h⟩ := except_bind_ok h
      have hl := hn.leave hi h1
      split at h
      · simp only [pure, Except.pure, Except.ok.injEq, Prod.mk.injEq] at h
        obtain ⟨rfl, rfl⟩ := h
        exact ((hl.pushOld (e := .tryEnd nid) trivial).push (e := .tryBegin ⟨s1.ids, t.target, t.lasti, none⟩) ⟨t, hn.active t ht, rfl, .inl rfl⟩).of rfl rfl (.inr rfl) (.inr rfl) rfl
      · simp only [pure, Except.pure, Except.ok.injEq, Prod.mk.injEq] at h
        obtain ⟨rfl, rfl⟩ := h
        exact hl
  · simp only [Except.ok.injEq, Prod.mk.injEq] at h
    obtain ⟨rfl, rfl⟩ := h
    exact hn

theorem SrcSt.enter {P : Platform} {k : Nat} {st : Bool} {e : BElem} {o : Bool} (h : SrcSt es s)
    (hr : s.enter P k st e = .ok (s', o)) : SrcSt es s' := by
  unfold FromSt.enter at hr
  split at hr
  · dsimp only at hr
    repeat' split at hr
    all_goals
      simp only [Except.ok.injEq, Prod.mk.injEq] at hr
      obtain ⟨rfl, rfl⟩ := hr
      first
        | exact h
        | exact h.of rfl rfl (.inr rfl) (.inr rfl) rfl
        | exact h.open_ _
        | exact (h.open_ _).of rfl rfl (.inr rfl) (.inr rfl) rfl
  · repeat' split at hr
    all_goals first
      | (cases hr; done)
      | (simp only [Except.ok.injEq, Prod.mk.injEq] at hr; obtain ⟨rfl, rfl⟩ := hr; exact h.open_ _)
      | (simp only [Except.ok.injEq, Prod.mk.injEq] at hr; obtain ⟨rfl, rfl⟩ := hr; exact h)

theorem SrcSt.step {P : Platform} {starts : List Nat} {k : Nat} {e : BElem} (he : e ∈ es) (h : SrcSt es s)
    (hr : s.step P es starts k e = .ok s') : SrcSt es s' := by
  unfold FromSt.step at hr
  obtain ⟨⟨s1, o⟩, h1, hr⟩ := except_bind_ok hr
  have h := h.enter h1
  simp only at hr
  split at hr
  · have h : SrcSt es { s1 with inserted := false } := h.of rfl rfl (.inr rfl) (.inr rfl) rfl
    split at hr
    · rename_i i hi
      obtain ⟨⟨s2, d⟩, h2, hr⟩ := except_bind_ok hr
      have h := h.bridge (h.last i hi) h2
      simp only at hr
      split at hr
      · simp only [pure, Except.pure, Except.ok.injEq] at hr
        subst hr; exact h
      · exact h.copyElem he hr
    · exact h.copyElem he hr
  · exact h.copyElem he hr

theorem SrcSt.loop {P : Platform} {starts : List Nat} (r : List BElem) : ∀ {s s' : FromSt} {k : Nat}, (∀ e ∈ r, e ∈ es) → SrcSt es s →
    fromLoop P es starts k s r = .ok s' → SrcSt es s' := by
  induction r with
  | nil =>
    intro s s' k _ h hr
    simp only [fromLoop, Except.ok.injEq] at hr
    subst hr; exact h
  | cons e r ih =>
    intro s s' k he h hr
    unfold fromLoop at hr
    obtain ⟨s1, h1, hr⟩ := except_bind_ok hr
    exact ih (fun x hx => he x (by simp [hx])) (h.step (he e (by simp)) h1) hr

theorem insertEnds_src (ids : List Nat) : ∀ (ex : List Nat) {l : List BElem}, (∀ x ∈ l, Src es x) → ∀ x ∈ insertEnds ex l ids, Src es x := by
  induction ids with
  | nil => intro ex l h; exact h
  | cons i r ih =>
    intro ex l h
    unfold insertEnds
    split
    · exact ih _ h
    · refine ih _ (fun x hx => ?_)
      rcases List.mem_cons.1 hx with hx | hx
      · subst hx; trivial
      · exact h x hx

theorem applyEnds_src {labels : Nat → Option Nat} (ends : List (Nat × List Nat)) : ∀ {bs bs' : List Blk},
    applyEnds labels bs ends = .ok bs' → (∀ b ∈ bs, ∀ x ∈ b.elems, Src es x) → ∀ b ∈ bs', ∀ x ∈ b.elems, Src es x := by
  induction ends with
  | nil => intro bs bs' h hb; simp only [applyEnds, Except.ok.injEq] at h; subst h; exact hb
  | cons x r ih =>
    intro bs bs' h hb
    obtain ⟨l, ids⟩ := x
    unfold applyEnds at h
    split at h
    · cases h
    · refine ih h ?_
      split
      · rename_i b0 hb0
        intro b hm
        rcases List.mem_or_eq_of_mem_set hm with hm | rfl
        · exact hb b hm
        · exact insertEnds_src _ _ (hb b0 (List.mem_of_getElem? hb0))
      · exact hb

theorem srcInit : SrcSt es ⟨[], ⟨[], none⟩, fun _ => none, fun _ => none, [], none, false, none, 0⟩ :=
  ⟨(fun b hb => by cases hb), (fun l hl => by cases hl), (fun t h => by cases h), (fun t h => by cases h), (fun t h => by cases h)⟩

/-! ### Totality -/

/-- In a well-formed list a TryBegin comes outside of any region. -/
theorem wellTried_begin {es : List BElem} {o : Option Nat} {seen : List Nat} {any : Bool} (h : WellTried o seen any es)
    {c : Option TryB} (hc : c.map (·.id) = o) {a b : List BElem} {t : TryB} (hab : es = a ++ .tryBegin t :: b) :
    stW nextS c a = none := by
  induction a generalizing es o seen any c with
  | nil =>
    subst hab
    obtain ⟨h1, _⟩ := h
    show c = none
    rw [h1] at hc
    cases c with
    | none => rfl
    | some u => cases hc
  | cons e r ih =>
    subst hab
    have step : stW nextS c (e :: r) = stW nextS (nextS c e) r := rfl
    rw [step]
    cases e with
    | tryBegin t => obtain ⟨h1, h2, h3⟩ := h; exact ih h3 rfl rfl
    | tryEnd id => obtain ⟨h1, h2, h3⟩ := h; exact ih h3 rfl rfl
    | instr i => exact ih (es := r ++ .tryBegin t :: b) h hc rfl
    | label i => exact ih (es := r ++ .tryBegin t :: b) h hc rfl
    | setLineno i => exact ih (es := r ++ .tryBegin t :: b) h hc rfl

theorem labelIndex_total {l : Nat} (h : .label l ∈ es) : ∃ p, labelIndex l es = some p := by
  unfold labelIndex
  obtain ⟨p, hp, e⟩ := List.getElem_of_mem h
  cases hh : ((List.range es.length).filter (fun k => decide (es[k]? = some (.label l)))).getLast? with
  | some p => exact ⟨p, rfl⟩
  | none =>
    rw [List.getLast?_eq_none_iff, List.filter_eq_nil_iff] at hh
    exact absurd (by simp [hp, e]) (hh p (List.mem_range.2 hp))

theorem split_at {e : BElem} {k : Nat} (he : es[k]? = some e) : es = es.take k ++ e :: es.drop (k + 1) := by
  have hlen : k < es.length := (List.getElem?_eq_some_iff.1 he).1
  have h1 := List.take_append_drop k es
  rw [List.drop_eq_getElem_cons hlen] at h1
  have h2 : es[k] = e := by
    rw [List.getElem?_eq_getElem hlen] at he
    simpa using he
  rw [h2] at h1
  exact h1.symm

/-- The labels referred to are in the code, and jumps refer to labels. -/
structure Refs (P : Platform) (es : List BElem) : Prop where
  labels : ∀ e ∈ es, ∀ l, refLabel e = some l → .label l ∈ es
  jumps : ∀ i, .instr i ∈ es → P.hasJump i.opcode = true → ∃ l, i.arg = .label l

theorem enter_total {P : Platform} {k : Nat} {st : Bool} {e : BElem} (hR : Refs P es) (h : SrcSt es s) : ∃ r, s.enter P k st e = .ok r := by
  unfold FromSt.enter
  split
  · dsimp only
    split <;> exact ⟨_, rfl⟩
  · split
    · rename_i i _ hi
      split
      · exact ⟨_, rfl⟩
      · split
        · rename_i hj
          obtain ⟨l, hl⟩ := hR.jumps i (h.last i hi) hj
          rw [hl]; exact ⟨_, rfl⟩
        · exact ⟨_, rfl⟩
    · exact ⟨_, rfl⟩

theorem leave_total {P : Platform} {i : Instr} {t : TryB} {nid : Nat} (hR : Refs P es) (hi : .instr i ∈ es) :
    ∃ r, s.leave P es i t nid = .ok r := by
  unfold FromSt.leave
  split
  · rename_i te hj _
    obtain ⟨l, hl⟩ := hR.jumps i hi hj
    rw [hl]
    dsimp only
    obtain ⟨p, hp⟩ := labelIndex_total (hR.labels _ hi l (by simp [refLabel, hl]))
    rw [hp]; exact ⟨_, rfl⟩
  · exact ⟨_, rfl⟩

theorem bridge_total {P : Platform} {temp : Bool} {i : Instr} {e : BElem} {pre : List BElem} {n : Nat} (hw : WellTried none [] false es) (hR : Refs P es) (hi : .instr i ∈ es)
    (h : HInv es s pre n) (hp : pre = es.take pre.length) (he : es[pre.length]? = some e) : ∃ r, s.bridge P es temp i e = .ok r := by
  have hsp := split_at he
  rw [← hp] at hsp
  unfold FromSt.bridge
  split
  · rename_i id ha
    have ho := wellTried_end hw (c := none) rfl hsp
    rw [h.act, ha] at ho; cases ho
  · rename_i t _ ha
    obtain ⟨u, _, hu, _⟩ := h.sts t ha
    rw [hu]; exact ⟨_, rfl⟩
  · rename_i t ha _
    obtain ⟨u, _, hu, _⟩ := h.sts t ha
    rw [hu]
    obtain ⟨s1, h1⟩ := leave_total (s := s) (t := t) (nid := u.id) hR hi
    refine bind_total h1 ?_
    split <;> exact ⟨_, rfl⟩
  · exact ⟨_, rfl⟩

theorem copy_total {e : BElem} {pre : List BElem} {n : Nat} (hw : WellTried none [] false es)
    (h : HInv es s pre n) (hp : pre = es.take pre.length) (he : es[pre.length]? = some e) : ∃ r, s.copyElem e = .ok r := by
  have hsp := split_at he
  rw [← hp] at hsp
  cases e with
  | tryBegin t =>
    have ho := wellTried_begin hw (c := none) rfl hsp
    rw [h.act] at ho
    simp only [FromSt.copyElem, ho]
    exact ⟨_, rfl⟩
  | tryEnd id =>
    have ho := wellTried_end hw (c := none) rfl hsp
    rw [h.act] at ho
    cases ha : s.active with
    | none => rw [ha] at ho; cases ho
    | some t =>
      rw [ha] at ho
      simp only [Option.map_some, Option.some.injEq] at ho
      obtain ⟨u, _, hu, _⟩ := h.sts t ha
      rw [ho] at hu
      simp only [FromSt.copyElem, hu]
      exact ⟨_, rfl⟩
  | _ => exact ⟨_, rfl⟩

theorem step_total {P : Platform} {starts : List Nat} {pre : List BElem} {e : BElem} (hw : WellTried none [] false es) (hR : Refs P es)
    (hs : SrcSt es s) (hf : FInv P es starts s pre pre.length) (h : HInv es s pre pre.length)
    (hp : pre = es.take pre.length) (he : es[pre.length]? = some e) (hst : ∀ p ∈ starts, ∃ l, labelIndex l es = some p) :
    ∃ s', s.step P es starts pre.length e = .ok s' := by
  unfold FromSt.step
  obtain ⟨⟨s1, o⟩, h1⟩ := enter_total (s := s) (k := pre.length) (st := decide (pre.length ∈ starts)) (e := e) hR hs
  refine bind_total h1 ?_
  obtain ⟨i1, i2⟩ := henter hw hf h hp he hst h1
  have hs1 := hs.enter h1
  simp only
  split
  · rename_i ho
    obtain ⟨c1, c2, c3⟩ := i2 ho
    have i1 : HInv es { s1 with inserted := false } pre (pre.length + 1) := i1.of rfl rfl rfl rfl rfl rfl rfl
    split
    · rename_i i hi
      obtain ⟨⟨s2, d⟩, h2⟩ := bridge_total (temp := s1.inserted) hw hR (hs1.last i hi) i1 hp he
      refine bind_total h2 ?_
      obtain ⟨j1, j2⟩ := hbridge hw i1 hp c1 c2 c3 h2
      simp only
      split
      · exact ⟨_, rfl⟩
      · rename_i hd
        exact copy_total hw (j1 (by simpa using hd)) hp he
    · exact copy_total hw i1 hp he
  · exact copy_total hw i1 hp he

theorem floop_total {P : Platform} {starts : List Nat} (hw : WellTried none [] false es) (hR : Refs P es)
    (hst : ∀ p ∈ starts, ∃ l, labelIndex l es = some p) (r : List BElem) :
    ∀ (pre : List BElem) (s : FromSt), SrcSt es s → FInv P es starts s pre pre.length → HInv es s pre pre.length → es = pre ++ r →
      ∃ s', fromLoop P es starts pre.length s r = .ok s' := by
  have hst' : ∀ p ∈ starts, ∃ l, es[p]? = some (.label l) := fun p hp => by
    obtain ⟨l, hl⟩ := hst p hp
    exact ⟨l, (labelIndex_some hl).1⟩
  induction r with
  | nil => intro pre s _ _ _ _; exact ⟨_, rfl⟩
  | cons e r ih =>
    intro pre s hs hf h hes
    have hp : pre = es.take pre.length := by rw [hes]; simp
    have he : es[pre.length]? = some e := by rw [hes]; simp
    obtain ⟨s1, h1⟩ := step_total hw hR hs hf h hp he hst
    unfold fromLoop
    refine bind_total h1 ?_
    have k1 := step_ok hf hp he hst' h1
    have k2 := hstep hw hf h hp he hst h1
    have hlen : (pre ++ [e]).length = pre.length + 1 := by simp
    rw [← hlen] at k1 k2 ⊢
    exact ih (pre ++ [e]) s1 (hs.step (by rw [hes]; simp) h1) k1 k2 (by rw [hes]; simp)

theorem applyEnds_total {labels : Nat → Option Nat} (ends : List (Nat × List Nat)) : ∀ (bs : List Blk), (∀ x ∈ ends, ∃ k, labels x.1 = some k) →
    ∃ bs', applyEnds labels bs ends = .ok bs' := by
  induction ends with
  | nil => intro bs _; exact ⟨_, rfl⟩
  | cons x r ih =>
    intro bs h
    obtain ⟨l, ids⟩ := x
    obtain ⟨k, hk⟩ := h (l, ids) (by simp)
    unfold applyEnds
    simp only at hk
    rw [hk]
    exact ih _ (fun x hx => h x (by simp [hx]))

end

/-- `from_bytecode` succeeds when jumps are to labels of the code, and regions are delimited. -/
theorem from_total {P : Platform} {bc : Bytecode} (hw : WellTried none [] false bc.elems) (hR : Refs P bc.elems) : ∃ c, fromBytecode P bc = .ok c := by
  unfold fromBytecode
  have h1 : (iterElems false bc.elems).2 = .ok () :=
    iter_total bc.elems false (fun pre t mid t' post e => wellTried_nested (by rw [← e]; exact hw)) (fun h => by cases h)
  refine bind_total h1 ?_
  obtain ⟨starts, h2⟩ : ∃ st, blockStarts bc.elems = .ok st := by
    refine mapM_total _ (fun l hl => ?_)
    obtain ⟨e, he, hl⟩ := List.mem_filterMap.1 hl
    obtain ⟨p, hp⟩ := labelIndex_total (hR.labels e he l hl)
    rw [hp]; exact ⟨_, rfl⟩
  refine bind_total h2 ?_
  obtain ⟨st1, st2⟩ := blockStarts_ok h2
  have hst' : ∀ p ∈ starts, ∃ l, bc.elems[p]? = some (.label l) := fun p hp => by
    obtain ⟨l, hl⟩ := st1 p hp
    exact ⟨l, (labelIndex_some hl).1⟩
  obtain ⟨s, h3⟩ := floop_total hw hR st1 bc.elems [] _ srcInit (fInv_init P bc.elems starts) (hInv_init bc.elems) rfl
  refine bind_total h3 ?_
  have inv := fromLoop_ok hst' bc.elems [] _ s (fInv_init P bc.elems starts) rfl h3
  have src := srcInit.loop bc.elems (fun e he => he) h3
  have lab : ∀ e ∈ bc.elems, ∀ l, refLabel e = some l → ∃ k, s.labels l = some k := by
    intro e he l hl
    obtain ⟨p, hp, hpl⟩ := st2 e he l hl
    have := (labelIndex_some hpl).1
    exact inv.labAll p l hp (List.getElem?_eq_some_iff.1 this).1 this
  obtain ⟨bs1, h4⟩ := applyEnds_total (labels := s.labels) s.ends (s.done ++ [s.cur]) (fun x hx => by
    obtain ⟨e, he, hl⟩ := src.ends x hx
    exact lab e he _ hl)
  refine bind_total h4 ?_
  have src1 := applyEnds_src (es := bc.elems) _ h4 (by
    intro b hb
    rcases List.mem_append.1 hb with hb | hb
    · exact src.done b hb
    · rw [List.mem_singleton] at hb; subst hb; exact src.cur)
  obtain ⟨bs, h5⟩ := mapM_total (f := fun b : Blk => (do
      let es ← b.elems.mapM (toBlockElem s.labels)
      return (⟨es, b.next⟩ : Blk) : Py Blk)) bs1 (by
    intro b hb
    obtain ⟨es, hes⟩ := mapM_total (f := toBlockElem s.labels) b.elems (by
      intro x hx
      have := src1 b hb x hx
      cases x with
      | instr i =>
        simp only [toBlockElem]
        cases ha : i.arg with
        | label l =>
          obtain ⟨k, hk⟩ := lab _ this l (by simp [refLabel, ha])
          simp only [hk]
          exact ⟨_, rfl⟩
        | _ => exact ⟨_, rfl⟩
      | tryBegin t =>
        obtain ⟨t', ht', e, _⟩ := this
        obtain ⟨k, hk⟩ := lab _ ht' t'.target rfl
        rw [e] at hk
        simp only [toBlockElem, hk]
        exact ⟨_, rfl⟩
      | _ => exact ⟨_, rfl⟩)
    exact bind_total hes ⟨_, rfl⟩)
  exact bind_total h5 ⟨_, rfl⟩

/-- The converse. -/
theorem from_refs {P : Platform} {bc : Bytecode} {c : CFG} (h : fromBytecode P bc = .ok c) : ∀ e ∈ bc.elems, ∀ l, refLabel e = some l → .label l ∈ bc.elems := by
  unfold fromBytecode at h
  obtain ⟨_, _, h⟩ := except_bind_ok h
  obtain ⟨starts, hst, h⟩ := except_bind_ok h
  intro e he l hl
  obtain ⟨p, _, hp⟩ := (blockStarts_ok hst).2 e he l hl
  exact List.mem_of_getElem? (labelIndex_some hp).1

end Verif
