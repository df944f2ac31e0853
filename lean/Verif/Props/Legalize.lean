import Verif.Proofs.Legalize
import Verif.Instances.Py311
/-
C13: `legalize`.
-/
namespace Verif
open Spec

theorem lgKeep_kept (es : List BElem) : es.filter lgKeep = kept es := by
  unfold kept
  congr 1
  funext e
  cases e <;> rfl

theorem lgKeep_keptC (es : List CElem) : es.filter lgKeep = keptC es := by
  unfold keptC
  congr 1
  funext e
  cases e <;> rfl

theorem lg_setLines (blk : Bool) (cur : Nat) (es : List BElem) :
    (lgAfter blk (none, cur) es).1 = (setLines es).getLast? := by
  rw [lgAfter_fst, Option.or_none]
  unfold setLines
  congr 2
  funext e
  cases e <;> rfl

theorem lg_ownLines (blk : Bool) (cur : Nat) (es : List BElem) (h : (setLines es).getLast? = none) :
    (lgAfter blk (none, cur) es).2 = (ownLines es).getLast?.getD cur := by
  rw [lgAfter_snd blk es cur (by rw [lg_setLines, h])]
  unfold ownLines
  congr 3
  funext e
  cases e <;> rfl

theorem lg_setLinesC (blk : Bool) (cur : Nat) (es : List CElem) :
    (lgAfter blk (none, cur) es).1 = (setLinesC es).getLast? := by
  rw [lgAfter_fst, Option.or_none]
  unfold setLinesC
  congr 2
  funext e
  cases e <;> rfl

theorem lg_ownLinesC (blk : Bool) (cur : Nat) (es : List CElem) (h : (setLinesC es).getLast? = none) :
    (lgAfter blk (none, cur) es).2 = (ownLinesC es).getLast?.getD cur := by
  rw [lgAfter_snd blk es cur (by rw [lg_setLinesC, h])]
  unfold ownLinesC
  congr 3
  funext e
  cases e <;> rfl

/-- **C13 (Bytecode).** What `Bytecode.legalize` leaves: the elements other than SetLineno, in order, each instruction
with the line of the last SetLineno before it if any, else its own location, else the last line seen before it (or the
first line); attributes unchanged. -/
theorem C13_bytecode (P : Platform) (b b' : Bytecode) (h : b.legalize P = .ok b') :
    b'.attrs = b.attrs ∧ b'.argnames = b.argnames ∧ Legalized b.attrs.firstLineno b.elems b'.elems := by
  unfold Bytecode.legalize at h
  obtain ⟨⟨es, c⟩, hl, ho⟩ := except_bind_ok h
  simp only [pure, Except.pure, Except.ok.injEq] at ho
  subst ho
  obtain ⟨h1, _, h3⟩ := legalizeLoop_ok hl
  refine ⟨rfl, rfl, by rw [h1, lgKeep_kept], ?_⟩
  intro pre e post he hn
  have hk : lgKeep e = true := by
    cases e with
    | setLineno n => exact absurd rfl (hn n)
    | _ => rfl
  have := h3 pre e post he hk
  rw [lgKeep_kept] at this
  refine this.trans ?_
  congr 1
  cases e with
  | instr i =>
    show BElem.instr { i with loc := some (lgLoc (lgAfter false (none, b.attrs.firstLineno) pre) i.loc) } = _
    unfold lgLoc legalElem legalLoc
    rw [lg_setLines]
    cases hs : (setLines pre).getLast? with
    | some n => rfl
    | none => simp only [lg_ownLines false _ pre hs]
  | setLineno n => exact absurd rfl (hn n)
  | _ => rfl

/-- **C13 (ConcreteBytecode).** -/
theorem C13_concrete (P : Platform) (b b' : Concrete) (h : b.legalize P = .ok b') :
    b'.attrs = b.attrs ∧ b'.consts = b.consts ∧ b'.names = b.names ∧ b'.varnames = b.varnames ∧
    b'.excTable = b.excTable ∧ LegalizedC b.attrs.firstLineno b.elems b'.elems := by
  unfold Concrete.legalize at h
  obtain ⟨⟨es, c⟩, hl, ho⟩ := except_bind_ok h
  simp only [pure, Except.pure, Except.ok.injEq] at ho
  subst ho
  obtain ⟨h1, _, h3⟩ := legalizeLoop_ok hl
  refine ⟨rfl, rfl, rfl, rfl, rfl, by rw [h1, lgKeep_keptC], ?_⟩
  intro pre e post he hn
  have hk : lgKeep e = true := by
    cases e with
    | setLineno n => exact absurd rfl (hn n)
    | _ => rfl
  have := h3 pre e post he hk
  rw [lgKeep_keptC] at this
  refine this.trans ?_
  congr 1
  cases e with
  | instr i =>
    show CElem.instr { i with loc := some (lgLoc (lgAfter false (none, b.attrs.firstLineno) pre) i.loc) } = _
    unfold lgLoc legalElemC
    rw [lg_setLinesC]
    cases hs : (setLinesC pre).getLast? with
    | some n => rfl
    | none => simp only [lg_ownLinesC false _ pre hs]
  | setLineno n => exact absurd rfl (hn n)

/-- **C13 (no line left unset).** After `legalize` there is no SetLineno and every instruction has a location. -/
theorem C13_all_set (P : Platform) (b b' : Bytecode) (h : b.legalize P = .ok b') :
    (∀ n, BElem.setLineno n ∉ b'.elems) ∧ ∀ i, BElem.instr i ∈ b'.elems → i.loc.isSome = true := by
  unfold Bytecode.legalize at h
  obtain ⟨⟨es, c⟩, hl, ho⟩ := except_bind_ok h
  simp only [pure, Except.pure, Except.ok.injEq] at ho
  subst ho
  have := legalizeLoop_stable hl
  exact ⟨fun n hn => this _ hn, fun i hi => this _ hi⟩

/-- **C13 (idempotence).** Applying `legalize` again succeeds and changes nothing. -/
theorem C13_idempotent (P : Platform) (b b' : Bytecode) (h : b.legalize P = .ok b') : b'.legalize P = .ok b' := by
  unfold Bytecode.legalize at h
  obtain ⟨⟨es, c⟩, hl, ho⟩ := except_bind_ok h
  simp only [pure, Except.pure, Except.ok.injEq] at ho
  subst ho
  obtain ⟨c, hc⟩ := legalizeLoop_id P.py311 false (legalizeLoop_stable hl) b.attrs.firstLineno
  unfold Bytecode.legalize
  simp only [hc]
  rfl

theorem C13_concrete_idempotent (P : Platform) (b b' : Concrete) (h : b.legalize P = .ok b') :
    b'.legalize P = .ok b' := by
  unfold Concrete.legalize at h
  obtain ⟨⟨es, c⟩, hl, ho⟩ := except_bind_ok h
  simp only [pure, Except.pure, Except.ok.injEq] at ho
  subst ho
  obtain ⟨c, hc⟩ := legalizeLoop_id P.py311 false (legalizeLoop_stable hl) b.attrs.firstLineno
  unfold Concrete.legalize
  simp only [hc]
  rfl

/-- **C13 (when it raises).** With lines the constructors accept, `legalize` raises RuntimeError exactly when an
instruction with a detailed location comes after a SetLineno; otherwise it succeeds. -/
theorem C13_succeeds_iff (P : Platform) (b : Bytecode)
    (hf : P.py311 = true ∨ 1 ≤ b.attrs.firstLineno)
    (hs : ∀ n, BElem.setLineno n ∈ b.elems → P.py311 = true ∨ 1 ≤ n)
    (hi : ∀ i n, BElem.instr i ∈ b.elems → i.loc.bind (·.lineno) = some n → P.py311 = true ∨ 1 ≤ n) :
    ((∃ b', b.legalize P = .ok b') ↔
      ∀ pre i post, b.elems = pre ++ .instr i :: post → (∃ n, BElem.setLineno n ∈ pre) →
        ∀ l, i.loc = some l → l.endLineno = none ∧ l.col = none ∧ l.endCol = none) ∧
    ((∃ e, b.legalize P = .error e) → b.legalize P = .error .runtimeError) := by
  have key := legalizeLoop_total P.py311 false (es := b.elems) (by
    intro e he
    cases e with
    | setLineno n => exact hs n he
    | instr i => intro n hn; exact hi i n he hn
    | _ => trivial) none b.attrs.firstLineno (by intro n hn; cases hn) hf
  have hdet : ∀ (i : Instr), lgDetailed (BElem.instr i) = true ↔
      ∃ l, i.loc = some l ∧ ¬ (l.endLineno = none ∧ l.col = none ∧ l.endCol = none) := by
    intro i
    show detailedLoc i.loc = true ↔ _
    unfold detailedLoc
    cases i.loc with
    | none => simp
    | some l =>
      obtain ⟨a, b, c, d⟩ := l
      cases b <;> cases c <;> cases d <;> simp
  rcases key with ⟨⟨o, ho⟩, h2⟩ | ⟨h1, pre, e, post, he, hd, hx⟩
  · have hok : b.legalize P = .ok { b with elems := o.1 } := by
      unfold Bytecode.legalize
      simp only [ho]
      rfl
    refine ⟨⟨fun _ => ?_, fun _ => ⟨_, hok⟩⟩, ?_⟩
    · intro pre i post he ⟨n, hn⟩ l hl
      apply Classical.byContradiction
      intro hbad
      have := (h2 pre _ post he ((hdet i).2 ⟨l, hl, hbad⟩)).2 _ hn
      cases this
    · rintro ⟨e, he⟩
      rw [hok] at he
      cases he
  · have herr : b.legalize P = .error .runtimeError := by
      unfold Bytecode.legalize
      simp only [h1]
      rfl
    refine ⟨⟨?_, ?_⟩, fun _ => herr⟩
    · rintro ⟨b', hb'⟩
      rw [herr] at hb'
      cases hb'
    · intro h
      exfalso
      rcases hx with hx | ⟨x, hx, hx'⟩
      · cases hx
      · cases e with
        | instr i =>
          obtain ⟨l, hl, hbad⟩ := (hdet i).1 hd
          cases x with
          | setLineno n => exact hbad (h pre i post he ⟨n, hx⟩ l hl)
          | _ => cases hx'
        | _ => cases hd

/-! ### CFG -/

theorem lg_seen (es : List BElem) : ∀ (s : Option Nat) (cur : Nat),
    (lgAfter true (s, cur) es).2 = (linesSeen s.isSome es).getLast?.getD cur := by
  induction es with
  | nil => intro s cur; rfl
  | cons a r ih =>
    intro s cur
    have h0 : lgAfter true (s, cur) (a :: r) = lgAfter true (lgStep true (s, cur) a) r := rfl
    rw [h0]
    cases a with
    | setLineno n =>
      show (lgAfter true (some n, n) r).2 = _
      rw [ih]
      simp only [linesSeen, List.getLast?_cons, Option.isSome_some]
      rfl
    | instr i =>
      show (lgAfter true (s, lgCur s cur i.loc) r).2 = _
      rw [ih]
      simp only [linesSeen]
      cases s with
      | some n => simp [lgCur]
      | none =>
        simp only [lgCur, Option.isSome_none, Bool.false_eq_true, if_false]
        cases hl : i.loc.bind (·.lineno) with
        | none => simp
        | some n => simp [List.getLast?_cons]
    | label l => exact ih s cur
    | tryBegin t => exact ih s cur
    | tryEnd t => exact ih s cur

theorem getLast?_getD_append (a b : List Nat) (d : Nat) :
    (a ++ b).getLast?.getD d = b.getLast?.getD (a.getLast?.getD d) := by
  rw [List.getLast?_append]
  cases b.getLast? <;> rfl

theorem legalizeBlocks_ok {py311 : Bool} {bs : List (List BElem)} : ∀ {first : Nat} {pb : List (List BElem)}
    {out : List (List BElem)},
    legalizeBlocks py311 ((pb.flatMap (linesSeen false)).getLast?.getD first) bs = .ok out →
    out.length = bs.length ∧
    ∀ before b after, bs = before ++ b :: after →
      (out[before.length]?.map List.length) = some (kept b).length ∧
      ∀ pre e post, b = pre ++ e :: post → (∀ n, e ≠ .setLineno n) →
        (out[before.length]?.bind (·[(kept pre).length]?)) = some (legalElemBlock first (pb ++ before) pre e) := by
  induction bs with
  | nil =>
    intro first pb out h
    simp only [legalizeBlocks, Except.ok.injEq] at h
    subst h
    refine ⟨rfl, ?_⟩
    intro before b after hb
    simp at hb
  | cons a r ih =>
    intro first pb out h
    unfold legalizeBlocks at h
    obtain ⟨⟨a', cur⟩, ha, h⟩ := except_bind_ok h
    obtain ⟨r', hr, ho⟩ := except_bind_ok h
    simp only [pure, Except.pure, Except.ok.injEq] at ho
    subst ho
    obtain ⟨h1, h2, h3⟩ := legalizeLoop_ok ha
    have hcur : cur = ((pb ++ [a]).flatMap (linesSeen false)).getLast?.getD first := by
      rw [h2, lg_seen]
      simp only [List.flatMap_append, List.flatMap_cons, List.flatMap_nil, List.append_nil, getLast?_getD_append]
      rfl
    simp only [hcur] at hr
    obtain ⟨i1, i2⟩ := ih hr
    refine ⟨by simp [i1], ?_⟩
    intro before b after hb
    cases before with
    | nil =>
      simp only [List.nil_append, List.cons.injEq] at hb
      obtain ⟨rfl, rfl⟩ := hb
      simp only [List.length_nil, List.getElem?_cons_zero, Option.map_some, Option.bind_some, List.append_nil]
      refine ⟨by rw [h1, lgKeep_kept], ?_⟩
      intro pre e post he hn
      have hk : lgKeep e = true := by
        cases e with
        | setLineno n => exact absurd rfl (hn n)
        | _ => rfl
      have := h3 pre e post he hk
      rw [lgKeep_kept] at this
      refine this.trans ?_
      congr 1
      cases e with
      | instr i =>
        show BElem.instr { i with loc := some (lgLoc (lgAfter true (none, _) pre) i.loc) } = _
        unfold lgLoc legalElemBlock legalLocBlock
        rw [lg_setLines]
        cases hs : (setLines pre).getLast? with
        | some n => rfl
        | none =>
          simp only [lg_seen, List.flatMap_append, List.flatMap_cons, List.flatMap_nil, List.append_nil,
            getLast?_getD_append]
          rfl
      | setLineno n => exact absurd rfl (hn n)
      | _ => rfl
    | cons x before =>
      simp only [List.cons_append, List.cons.injEq] at hb
      obtain ⟨rfl, hb⟩ := hb
      have := i2 before b after hb
      simpa [List.append_assoc] using this

/-- **C13 (CFG).** `ControlFlowGraph.legalize`: the same, a SetLineno overriding the lines of its own block only and
giving the current line to the following ones. -/
theorem C13_cfg (py311 : Bool) (first : Nat) (bs out : List (List BElem)) (h : legalizeBlocks py311 first bs = .ok out) :
    LegalizedBlocks first bs out := by
  have := legalizeBlocks_ok (first := first) (pb := []) (by simpa using h)
  simpa [LegalizedBlocks] using this

theorem legalizeBlocks_id {py311 : Bool} {bs : List (List BElem)} : ∀ {cur : Nat} {out : List (List BElem)},
    legalizeBlocks py311 cur bs = .ok out → ∀ cur', legalizeBlocks py311 cur' out = .ok out := by
  induction bs with
  | nil =>
    intro cur out h
    simp only [legalizeBlocks, Except.ok.injEq] at h
    subst h
    intro _; rfl
  | cons a r ih =>
    intro cur out h cur'
    unfold legalizeBlocks at h
    obtain ⟨⟨a', c⟩, ha, h⟩ := except_bind_ok h
    obtain ⟨r', hr, ho⟩ := except_bind_ok h
    simp only [pure, Except.pure, Except.ok.injEq] at ho
    subst ho
    obtain ⟨c', hc'⟩ := legalizeLoop_id py311 true (legalizeLoop_stable ha) cur'
    unfold legalizeBlocks
    simp only [hc', bind, Except.bind, ih hr c']
    rfl

/-- **C13 (CFG, idempotence).** -/
theorem C13_cfg_idempotent (py311 : Bool) (first : Nat) (bs out : List (List BElem))
    (h : legalizeBlocks py311 first bs = .ok out) : legalizeBlocks py311 first out = .ok out :=
  legalizeBlocks_id h first

/-! ### Examples -/

/-- A NOP at a location. -/
def nopLine (l : Option Loc) : BElem := .instr ⟨"NOP", 9, .unset, l⟩

/-- Own lines, a line None, an unset line, a SetLineno that overrides, a label. -/
def exLegal : Bytecode where
  attrs := { Attrs.default with firstLineno := 7 }
  argnames := []
  elems := [nopLine none, nopLine (some (Loc.line (some 3))), nopLine (some (Loc.line none)), nopLine none, .label 0,
    .setLineno 12, nopLine (some (Loc.line (some 4))), .setLineno 15, nopLine none]

example : (exLegal.legalize Py311.platform).map (·.elems) = .ok [nopLine (some (Loc.line (some 7))),
    nopLine (some (Loc.line (some 3))), nopLine (some (Loc.line none)), nopLine (some (Loc.line (some 3))), .label 0,
    nopLine (some (Loc.line (some 12))), nopLine (some (Loc.line (some 15)))] := by decide +kernel

/-- The hypotheses of `C13_succeeds_iff` hold of a bytecode for which `legalize` raises. -/
example : (({ exLegal with elems := [.setLineno 2, nopLine (some ⟨some 1, some 1, some 0, some 4⟩)] } : Bytecode).legalize
    Py311.platform) = .error .runtimeError := by decide +kernel

/-- `Bytecode.legalize` and `ControlFlowGraph.legalize` differ on the same code cut in two blocks. -/
theorem C13_cfg_differs :
    (legalizeBlocks true 1 [[.setLineno 5, nopLine none], [nopLine (some (Loc.line (some 2)))]]).map List.flatten ≠
    (legalizeLoop (α := BElem) true false none 1 [.setLineno 5, nopLine none, nopLine (some (Loc.line (some 2)))]).map Prod.fst := by
  decide +kernel

end Verif
