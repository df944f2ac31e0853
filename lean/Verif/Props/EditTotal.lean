import Verif.Props.Edit
/-
C68: an edit keeps a Bytecode writable.
-/
namespace Verif
open Spec
section
variable {κ : Type} [DecidableEq κ] {P : Platform} {key : Arg → κ} {pre mid mid' post : List BElem} {keep : Bool} {b b' : Bytecode}

theorem split_two {α : Type} {a c p q : List α} {x : α} (h : a ++ c = p ++ x :: q) :
    (∃ q1, a = p ++ x :: q1 ∧ q = q1 ++ c) ∨ ∃ p1, c = p1 ++ x :: q ∧ p = a ++ p1 := by
  rcases List.append_eq_append_iff.1 h with ⟨r, h1, h2⟩ | ⟨r, h1, h2⟩
  · exact .inr ⟨r, h2, h1⟩
  · cases r with
    | nil => exact .inr ⟨[], by simpa using h2.symm, by simpa using h1.symm⟩
    | cons y r =>
      rw [List.cons_append] at h2
      injection h2 with h3 h4
      subst h3
      exact .inl ⟨r, h1, h4⟩

/-- Where an element of an edited list is. -/
theorem split_three {α : Type} {a m c p q : List α} {x : α} (h : a ++ m ++ c = p ++ x :: q) :
    (∃ q1, a = p ++ x :: q1 ∧ q = q1 ++ m ++ c) ∨ (∃ p1 q1, m = p1 ++ x :: q1 ∧ p = a ++ p1 ∧ q = q1 ++ c) ∨
      ∃ p1, c = p1 ++ x :: q ∧ p = a ++ m ++ p1 := by
  rcases split_two h with ⟨q1, h1, h2⟩ | ⟨p1, h1, h2⟩
  · rcases split_two h1 with ⟨q2, h3, h4⟩ | ⟨p2, h3, h4⟩
    · exact .inl ⟨q2, h3, by rw [h2, h4]⟩
    · exact .inr (.inl ⟨p2, q1, h3, h4, h2⟩)
  · exact .inr (.inr ⟨p1, h1, h2⟩)

theorem instrs_not {m p q : List BElem} {x : BElem} (hm : Instrs m) (h : m = p ++ x :: q) (hx : ∀ i, x ≠ .instr i) : False := by
  obtain ⟨i, hi⟩ := hm x (by rw [h]; simp)
  exact hx i hi

/-- **C68 (rules).** The rules of `to_code` (C58) are still followed, as long as every TryBegin has an instruction after it. -/
theorem C68_edit_rules (hb : b.elems = pre ++ mid ++ post) (hb' : b' = { b with elems := pre ++ mid' ++ post })
    (hm : Instrs mid) (hm' : Instrs mid') (hne : ∀ p t q, b'.elems = p ++ .tryBegin t :: q → ∃ i, .instr i ∈ q)
    (hnew : ∀ i, .instr i ∈ mid' → Insertable P b pre post i)
    (hback : ∀ i l, .instr i ∈ pre → i.arg = .label l → isBackwardRelJump P i.name i.opcode = true → .label l ∉ post)
    (ha : Assemblable P b) : Assemblable P b' := by
  subst hb'
  have noin : ∀ {x : BElem}, (∀ i, x ≠ .instr i) → x ∉ mid := fun {x} hx h => by obtain ⟨i, hi⟩ := hm x h; exact hx i hi
  have lab : ∀ l, .label l ∈ b.elems → .label l ∈ pre ++ mid' ++ post := by
    intro l hl
    rw [hb] at hl
    simp only [List.mem_append] at hl ⊢
    rcases hl with (hl | hl) | hl
    · exact .inl (.inl hl)
    · exact absurd hl (noin (by simp))
    · exact .inr hl
  have old : ∀ i, BElem.instr i ∈ pre ++ mid' ++ post → .instr i ∈ b.elems ∨ .instr i ∈ mid' := by
    intro i hi
    rw [hb]
    simp only [List.mem_append] at hi ⊢
    rcases hi with (hi | hi) | hi
    · exact .inl (.inl (.inl hi))
    · exact .inr hi
    · exact .inl (.inr hi)
  refine ⟨ha.line, ?_, ?_, ?_, ?_, ?_, ?_, ?_, ?_, ?_⟩
  · intro p t md t' q h
    rcases split_three h with ⟨q1, h1, h2⟩ | ⟨p1, q1, h1, _⟩ | ⟨p1, h1, h2⟩
    · exact ha.nested p t md t' (q1 ++ mid ++ post) (by rw [hb, h1]; simp)
    · exact (instrs_not hm' h1 (by simp)).elim
    · rcases split_three h2.symm with ⟨q1, h3, h4⟩ | ⟨p2, q1, h3, _⟩ | ⟨p2, h3, h4⟩
      · obtain ⟨id, hid⟩ := ha.nested p t (q1 ++ mid ++ p1) t' q (by rw [hb, h1, h3]; simp)
        refine ⟨id, ?_⟩
        rw [h4]
        simp only [List.mem_append] at hid ⊢
        rcases hid with (hid | hid) | hid
        · exact .inl (.inl hid)
        · exact absurd hid (noin (by simp))
        · exact .inr hid
      · exact (instrs_not hm' h3 (by simp)).elim
      · exact ha.nested (pre ++ mid ++ p2) t md t' q (by rw [hb, h1, h3]; simp)
  · intro p t q h
    rcases split_three h with ⟨q1, h1, h2⟩ | ⟨p1, q1, h1, _⟩ | ⟨p1, h1, h2⟩
    · obtain ⟨g1, g2, _⟩ := ha.begins p t (q1 ++ mid ++ post) (by rw [hb, h1]; simp)
      exact ⟨g1, lab _ g2, hne p t q h⟩
    · exact (instrs_not hm' h1 (by simp)).elim
    · obtain ⟨g1, g2, g3⟩ := ha.begins (pre ++ mid ++ p1) t q (by rw [hb, h1]; simp)
      exact ⟨g1, lab _ g2, g3⟩
  · intro p id q h
    rcases split_three h with ⟨q1, h1, h2⟩ | ⟨p1, q1, h1, _⟩ | ⟨p1, h1, h2⟩
    · exact ha.ends p id (q1 ++ mid ++ post) (by rw [hb, h1]; simp)
    · exact (instrs_not hm' h1 (by simp)).elim
    · obtain ⟨t, ht, hid⟩ := ha.ends (pre ++ mid ++ p1) id q (by rw [hb, h1]; simp)
      refine ⟨t, ?_, hid⟩
      rw [h2]
      simp only [List.mem_append] at ht ⊢
      rcases ht with (ht | ht) | ht
      · exact .inl (.inl ht)
      · exact absurd ht (noin (by simp))
      · exact .inr ht
  · intro i hi hj
    rcases old i hi with hi | hi
    · obtain ⟨l, h1, h2⟩ := ha.jumps i hi hj; exact ⟨l, h1, lab l h2⟩
    · obtain ⟨l, h1, h2⟩ := (hnew i hi).jump hj; exact ⟨l, h1, lab l h2⟩
  · intro p i q l h hl hf
    rcases split_three h with ⟨q1, h1, h2⟩ | ⟨p1, q1, h1, _, h2⟩ | ⟨p1, h1, h2⟩
    · have := ha.forward p i (q1 ++ mid ++ post) l (by rw [hb, h1]; simp) hl hf
      rw [h2]
      simp only [List.mem_append] at this ⊢
      rcases this with (this | this) | this
      · exact .inl (.inl this)
      · exact absurd this (noin (by simp))
      · exact .inr this
    · rw [h2, List.mem_append]
      exact .inr ((hnew i (by rw [h1]; simp)).forward l hl hf)
    · exact ha.forward (pre ++ mid ++ p1) i q l (by rw [hb, h1]; simp) hl hf
  · intro p i md l q h hl hf
    rcases split_three h with ⟨q1, h1, h2⟩ | ⟨p1, q1, h1, _⟩ | ⟨p1, h1, h2⟩
    · exact ha.backward p i md l (q1 ++ mid ++ post) (by rw [hb, h1]; simp) hl hf
    · exact (instrs_not hm' h1 (by simp)).elim
    · rcases split_three h2.symm with ⟨q1, h3, h4⟩ | ⟨p2, q1, h3, _⟩ | ⟨p2, h3, h4⟩
      · exact absurd (by rw [h1]; simp) (hback i l (by rw [h3]; simp) hl hf)
      · exact absurd (by rw [h1]; simp) ((hnew i (by rw [h3]; simp)).backward l hl hf)
      · exact ha.backward (pre ++ mid ++ p2) i md l q (by rw [hb, h1, h3]; simp) hl hf
  · intro i n hi hc hx
    rcases old i hi with hi | hi
    · exact ha.cells i n hi hc hx
    · exact (hnew i hi).cells n hc hx
  · intro i n hi hc hx
    rcases old i hi with hi | hi
    · exact ha.frees i n hi hc hx
    · exact (hnew i hi).frees n hc hx
  · intro i hi hd
    rcases old i hi with hi | hi
    · exact ha.duals i hi hd
    · exact (hnew i hi).duals hd

/-- No region is left empty unless instructions are deleted. -/
theorem noEmpty_edit (hm : Instrs mid) (hm' : Instrs mid') (hne : mid' ≠ [] ∨ mid = []) :
    ∀ e, NoEmptyTry e (pre ++ mid ++ post) → NoEmptyTry e (pre ++ mid' ++ post) := by
  rcases hne with hne | hne
  · have mono : ∀ (es : List BElem) e, NoEmptyTry e es → NoEmptyTry false es := by
      intro es
      induction es with
      | nil => intro e h; trivial
      | cons x es ih =>
        intro e h
        cases x with
        | tryBegin t => exact h
        | tryEnd t => exact ⟨rfl, h.2⟩
        | instr i => exact h
        | label l => exact ih _ h
        | setLineno l => exact ih _ h
    have skip : ∀ (m : List BElem), Instrs m → ∀ e, NoEmptyTry e (m ++ post) → NoEmptyTry false post := by
      intro m
      induction m with
      | nil => intro _ e h; exact mono _ _ h
      | cons x m ih =>
        intro hm e h
        obtain ⟨i, rfl⟩ := hm x (by simp)
        exact ih (fun e he => hm e (by simp [he])) _ h
    have put : ∀ (m : List BElem), Instrs m → NoEmptyTry false post → NoEmptyTry false (m ++ post) := by
      intro m
      induction m with
      | nil => intro _ h; exact h
      | cons x m ih =>
        intro hm h
        obtain ⟨i, rfl⟩ := hm x (by simp)
        exact ih (fun e he => hm e (by simp [he])) h
    have main : ∀ (p : List BElem) e, NoEmptyTry e (p ++ (mid ++ post)) → NoEmptyTry e (p ++ (mid' ++ post)) := by
      intro p
      induction p with
      | nil =>
        intro e h
        have := skip mid hm e h
        cases mid' with
        | nil => exact absurd rfl hne
        | cons x m =>
          obtain ⟨i, rfl⟩ := hm' x (by simp)
          exact put m (fun e he => hm' e (by simp [he])) this
      | cons x p ih =>
        intro e h
        cases x with
        | tryBegin t => exact ih _ h
        | tryEnd t => exact ⟨h.1, ih _ h.2⟩
        | instr i => exact ih _ h
        | label l => exact ih _ h
        | setLineno l => exact ih _ h
    intro e h
    rw [List.append_assoc] at h ⊢
    exact main pre e h
  · subst hne
    intro e h
    have put : ∀ (m : List BElem), Instrs m → ∀ e, NoEmptyTry e post → NoEmptyTry e (m ++ post) := by
      intro m
      induction m with
      | nil => intro _ e h; exact h
      | cons x m ih =>
        intro hm e h
        obtain ⟨i, rfl⟩ := hm x (by simp)
        refine ih (fun e he => hm e (by simp [he])) _ ?_
        cases e with
        | false => exact h
        | true =>
          have mono : ∀ (es : List BElem) e, NoEmptyTry e es → NoEmptyTry false es := by
            intro es
            induction es with
            | nil => intro e h; trivial
            | cons x es ih =>
              intro e h
              cases x with
              | tryBegin t => exact h
              | tryEnd t => exact ⟨rfl, h.2⟩
              | instr i => exact h
              | label l => exact ih _ h
              | setLineno l => exact ih _ h
          exact mono _ _ h
    have main : ∀ (p : List BElem) e, NoEmptyTry e (p ++ post) → NoEmptyTry e (p ++ (mid' ++ post)) := by
      intro p
      induction p with
      | nil => intro e h; exact put mid' hm' e h
      | cons x p ih =>
        intro e h
        cases x with
        | tryBegin t => exact ih _ h
        | tryEnd t => exact ⟨h.1, ih _ h.2⟩
        | instr i => exact ih _ h
        | label l => exact ih _ h
        | setLineno l => exact ih _ h
    rw [List.append_nil] at h
    rw [List.append_assoc]
    exact main pre e h

/-- Try regions stay well delimited, also when instructions are deleted, if no region is left empty. -/
theorem wellTried_edit' (hm : Instrs mid) (hm' : Instrs mid') (he : NoEmptyTry false (pre ++ mid' ++ post))
    (h : WellTried none [] false (pre ++ mid ++ post)) : WellTried none [] false (pre ++ mid' ++ post) := by
  have any : ∀ (es : List BElem) o s a, WellTried o s a es → WellTried o s true es := by
    intro es
    induction es with
    | nil => intro o s a h; exact h
    | cons e es ih =>
      intro o s a h
      cases e with
      | tryBegin t => exact ⟨h.1, h.2.1, ih _ _ _ h.2.2⟩
      | tryEnd t => exact ⟨h.1, rfl, ih _ _ _ h.2.2⟩
      | instr i => exact h
      | label l => exact ih _ _ _ h
      | setLineno l => exact ih _ _ _ h
  have skip : ∀ (m : List BElem), Instrs m → ∀ (es : List BElem) o s, WellTried o s true (m ++ es) ↔ WellTried o s true es := by
    intro m
    induction m with
    | nil => intro _ es o s; rfl
    | cons e m ih =>
      intro hm es o s
      obtain ⟨i, rfl⟩ := hm e (by simp)
      exact ih (fun e he => hm e (by simp [he])) es o s
  have main : ∀ (pr : List BElem) o s, WellTried o s true (pr ++ (mid ++ post)) → WellTried o s true (pr ++ (mid' ++ post)) := by
    intro pr
    induction pr with
    | nil => intro o s h; exact (skip mid' hm' post o s).2 ((skip mid hm post o s).1 h)
    | cons e pr ih =>
      intro o s h
      cases e with
      | instr i => exact ih _ _ h
      | tryBegin t => exact ⟨h.1, h.2.1, ih _ _ h.2.2⟩
      | tryEnd t => exact ⟨h.1, h.2.1, ih _ _ h.2.2⟩
      | label l => exact ih _ _ h
      | setLineno l => exact ih _ _ h
  have back : ∀ (es : List BElem) o s a e, WellTried o s true es → NoEmptyTry e es → (o ≠ none → e = true ∨ a = true) → WellTried o s a es := by
    intro es
    induction es with
    | nil => intro o s a e h _ _; exact h
    | cons x es ih =>
      intro o s a e h hn hi
      cases x with
      | tryBegin t => exact ⟨h.1, h.2.1, ih _ _ _ true h.2.2 hn (fun _ => .inl rfl)⟩
      | tryEnd t =>
        refine ⟨h.1, ?_, ih _ _ _ false h.2.2 hn.2 (fun hx => absurd rfl hx)⟩
        rcases hi (by rw [h.1]; simp) with h1 | h1
        · rw [hn.1] at h1; cases h1
        · exact h1
      | instr i => exact h
      | label l => exact ih _ _ _ _ h hn hi
      | setLineno l => exact ih _ _ _ _ h hn hi
  rw [List.append_assoc] at he ⊢
  refine back _ _ _ _ false (main pre _ _ ?_) he (fun hx => absurd rfl hx)
  rw [← List.append_assoc]
  exact any _ _ _ _ h

/-- In a delimited list without empty region, instructions follow each TryBegin. -/
theorem begin_instr {es : List BElem} (h : WellTried none [] false es) (he : NoEmptyTry false es) :
    ∀ p t q, es = p ++ .tryBegin t :: q → ∃ i, .instr i ∈ q := by
  have inside : ∀ (q : List BElem) o s a, o ≠ none → WellTried o s a q → NoEmptyTry true q → ∃ i, .instr i ∈ q := by
    intro q
    induction q with
    | nil => intro o s a ho h _; exact absurd h ho
    | cons x q ih =>
      intro o s a ho h hn
      cases x with
      | tryBegin t => exact absurd h.1 ho
      | tryEnd t => cases hn.1
      | instr i => exact ⟨i, by simp⟩
      | label l => obtain ⟨i, hi⟩ := ih _ _ _ ho h hn; exact ⟨i, by simp [hi]⟩
      | setLineno l => obtain ⟨i, hi⟩ := ih _ _ _ ho h hn; exact ⟨i, by simp [hi]⟩
  have main : ∀ (p : List BElem) t q o s a e, WellTried o s a (p ++ .tryBegin t :: q) → NoEmptyTry e (p ++ .tryBegin t :: q) → ∃ i, .instr i ∈ q := by
    intro p
    induction p with
    | nil => intro t q o s a e h hn; exact inside q _ _ _ (by simp) h.2.2 hn
    | cons x p ih =>
      intro t q o s a e h hn
      cases x with
      | tryBegin t => exact ih _ _ _ _ _ _ h.2.2 hn
      | tryEnd t => exact ih _ _ _ _ _ _ h.2.2 hn.2
      | instr i => exact ih _ _ _ _ _ _ h hn
      | label l => exact ih _ _ _ _ _ _ h hn
      | setLineno l => exact ih _ _ _ _ _ _ h hn
  intro p t q e
  rw [e] at h he
  exact main p t q _ _ _ _ h he

theorem wellMade_edit (hb : b.elems = pre ++ mid ++ post) (hb' : b' = { b with elems := pre ++ mid' ++ post }) (hm' : Instrs mid')
    (hnew : ∀ i, .instr i ∈ mid' → Insertable P b pre post i)
    (hsize : 8 * (b'.elems.map (room P)).sum + b.argnames.length + b.attrs.cellvars.length + b.attrs.freevars.length ≤ 2147483647)
    (hw : WellMade P b) : WellMade P b' := by
  subst hb'
  have old : ∀ i, BElem.instr i ∈ pre ++ mid' ++ post → .instr i ∈ b.elems ∨ .instr i ∈ mid' := by
    intro i hi
    rw [hb]
    simp only [List.mem_append] at hi ⊢
    rcases hi with (hi | hi) | hi
    · exact .inl (.inl (.inl hi))
    · exact .inr hi
    · exact .inl (.inr hi)
  have oldt : ∀ t, BElem.tryBegin t ∈ pre ++ mid' ++ post → .tryBegin t ∈ b.elems := by
    intro t ht
    rw [hb]
    simp only [List.mem_append] at ht ⊢
    rcases ht with (ht | ht) | ht
    · exact .inl (.inl ht)
    · obtain ⟨i, hi⟩ := hm' _ ht; cases hi
    · exact .inr ht
  refine ⟨fun i hi => ?_, fun i v hi hc ha => ?_, fun i v hi hc ha => ?_, fun t t' h h' => hw.tries t t' (oldt t h) (oldt t' h'), hsize⟩
  · rcases old i hi with hi | hi
    · exact hw.valid i hi
    · exact (hnew i hi).valid
  · rcases old i hi with hi | hi
    · exact hw.compare i v hi hc ha
    · exact (hnew i hi).compare v ha
  · rcases old i hi with hi | hi
    · exact hw.intrinsic i v hi hc ha
    · exact (hnew i hi).intrinsic v ha

/-- **C68 (nothing fails).** On 3.11+: a code object as the compiler writes them is read keeping the depths, some of its instructions
are replaced by insertable ones (none, to delete them) without leaving a try region empty, and the result is written with a stack
size given: writing never fails (given enough passes and within the size limit). -/
theorem C68_written (hP : P.WF) (h11 : P.py311 = true) (key : Arg → κ) (eff : Instr → Bool → Py (Int × Int)) {co : Code} (hok : CodeOK P co) (hre : Rewritable P co)
    (h : Bytecode.fromCode P co true true = .ok b) (hb : b.elems = pre ++ mid ++ post) (hb' : b' = { b with elems := pre ++ mid' ++ post })
    (hm : Instrs mid) (hm' : Instrs mid') (hne : NoEmptyTry false b'.elems) (hnew : ∀ i, .instr i ∈ mid' → Insertable P b pre post i)
    (hback : ∀ i l, .instr i ∈ pre → i.arg = .label l → isBackwardRelJump P i.name i.opcode = true → .label l ∉ post)
    (hsize : 8 * (b'.elems.map (room P)).sum + b.argnames.length + b.attrs.cellvars.length + b.attrs.freevars.length ≤ 2147483647)
    {passes : Nat} (hp : 3 * jumpCount b'.elems < passes) (n : Int) : ∃ co', b'.toCode P key eff passes (some n) false = .ok co' := by
  obtain ⟨b0, hb0, h1, h2, h3, _, h5, h6⟩ := C62_rules hP h11 hok hre true
  rw [h] at hb0; cases hb0
  have e : b'.elems = pre ++ mid' ++ post := by rw [hb']
  have hwt' : WellTried none [] false b'.elems := by
    rw [e] at hne ⊢
    exact wellTried_edit' hm hm' hne (hb ▸ h2)
  have hrules := C68_edit_rules hb hb' hm hm' (begin_instr hwt' hne) hnew hback (h5 rfl)
  have hwm := wellMade_edit hb hb' hm' hnew hsize h1
  refine (C59_written_iff_rules (key := key) hP eff hwm (fun _ => ⟨hwt', hne⟩) hp (depths := false) (.inr rfl) n).2 ⟨hrules, fun _ i l hi hl => ?_⟩
  rw [e] at hi
  simp only [List.mem_append] at hi
  rcases hi with (hi | hi) | hi
  · exact h6 i l (by rw [hb]; simp [hi]) hl
  · exact (hnew i hi).loc l hl
  · exact h6 i l (by rw [hb]; simp [hi]) hl

/-- **C68 (default options).** The same with the default options: the edited code is written iff its stack can be analysed. -/
theorem C68_default_iff_analysis (hP : P.WF) (h11 : P.py311 = true) (key : Arg → κ) (eff : Instr → Bool → Py (Int × Int)) {co : Code} (hok : CodeOK P co) (hre : Rewritable P co)
    (h : Bytecode.fromCode P co = .ok b) (hb : b.elems = pre ++ mid ++ post) (hb' : b' = { b with elems := pre ++ mid' ++ post })
    (hm : Instrs mid) (hm' : Instrs mid') (hne : NoEmptyTry false b'.elems) (hnew : ∀ i, .instr i ∈ mid' → Insertable P b pre post i)
    (hback : ∀ i l, .instr i ∈ pre → i.arg = .label l → isBackwardRelJump P i.name i.opcode = true → .label l ∉ post)
    (hsize : 8 * (b'.elems.map (room P)).sum + b.argnames.length + b.attrs.cellvars.length + b.attrs.freevars.length ≤ 2147483647)
    {passes : Nat} (hp : 3 * jumpCount b'.elems < passes) (stacksize : Option Int) :
    (∃ co', b'.toCode P key eff passes stacksize true = .ok co') ↔ ∃ g r, fromBytecode P b' = .ok g ∧ g.computeStacksize P eff true = .ok r := by
  obtain ⟨b0, hb0, h1, h2, h3, h4, _, h6⟩ := C62_rules hP h11 hok hre false
  rw [h] at hb0; cases hb0
  have hz : (zeroDepths b).elems = pre.map zeroDepth ++ mid ++ post.map zeroDepth := by
    show b.elems.map zeroDepth = _
    rw [hb]; simp [instrs_zero hm]
  have e : b'.elems = pre ++ mid' ++ post := by rw [hb']
  have hz' : zeroDepths b' = { zeroDepths b with elems := pre.map zeroDepth ++ mid' ++ post.map zeroDepth } := by
    subst hb'; simp [zeroDepths, instrs_zero hm']
  have hl0 : ∀ {es : List BElem} {l : Nat}, .label l ∈ es.map zeroDepth ↔ .label l ∈ es := by
    intro es l
    rw [List.mem_map]
    constructor
    · rintro ⟨x, hx, hh⟩; cases x <;> simp only [zeroDepth] at hh <;> cases hh; exact hx
    · intro hx; exact ⟨_, hx, rfl⟩
  have hi0 : ∀ {es : List BElem} {i : Instr}, .instr i ∈ es.map zeroDepth ↔ .instr i ∈ es := by
    intro es i
    rw [List.mem_map]
    constructor
    · rintro ⟨x, hx, hh⟩; cases x <;> simp only [zeroDepth] at hh <;> cases hh; exact hx
    · intro hx; exact ⟨_, hx, rfl⟩
  have hnew0 : ∀ i, .instr i ∈ mid' → Insertable P (zeroDepths b) (pre.map zeroDepth) (post.map zeroDepth) i := by
    intro i hi
    have := hnew i hi
    refine ⟨this.valid, this.block, this.compare, this.intrinsic, fun hj => ?_, fun l hl hf => hl0.2 (this.forward l hl hf),
      fun l hl hf hx => this.backward l hl hf (hl0.1 hx), this.cells, this.frees, this.duals, this.loc⟩
    obtain ⟨l, g1, g2⟩ := this.jump hj
    exact ⟨l, g1, hl0.2 g2⟩
  have hwt' : WellTried none [] false b'.elems := by
    rw [e] at hne ⊢
    exact wellTried_edit' hm hm' hne (hb ▸ h2)
  have hbeg := begin_instr hwt' hne
  have hbeg0 : ∀ p t q, (zeroDepths b').elems = p ++ .tryBegin t :: q → ∃ i, .instr i ∈ q := by
    intro p t q hq
    obtain ⟨p', r, g1, g2, g3⟩ := List.map_eq_append_iff.1 hq
    obtain ⟨x, q', g4, g5, g6⟩ := List.map_eq_cons_iff.1 g3
    cases x <;> simp only [zeroDepth] at g5 <;> cases g5
    rename_i t'
    obtain ⟨i, hi⟩ := hbeg p' t' q' (by rw [g1, g4])
    exact ⟨i, by rw [← g6]; exact hi0.2 hi⟩
  have hrules := C68_edit_rules hz hz' hm hm' hbeg0 hnew0 (fun i l hi hl hf hx => hback i l (hi0.1 hi) hl hf (hl0.1 hx)) h4
  have hwm := wellMade_edit hb hb' hm' hnew hsize h1
  have old : ∀ i, BElem.instr i ∈ b'.elems → .instr i ∈ b.elems ∨ .instr i ∈ mid' := by
    intro i hi
    rw [e] at hi
    rw [hb]
    simp only [List.mem_append] at hi ⊢
    rcases hi with (hi | hi) | hi
    · exact .inl (.inl (.inl hi))
    · exact .inr hi
    · exact .inl (.inr hi)
  have hlo : LabelsOnly b' := by
    intro i hi
    rcases old i hi with hi | hi
    · exact (C51_usable hP h11 hok false h).2.1 i hi
    · exact (hnew i hi).block
  rw [C60_default_iff_analysis hP h11 eff hwm hlo hwt' hne hp stacksize]
  refine ⟨fun h => h.1, fun h => ⟨h, hrules, fun i l hi hl => ?_⟩⟩
  rcases old i hi with hi | hi
  · exact h6 i l hi hl
  · exact (hnew i hi).loc l hl

end

/-! ### A concrete case -/

theorem editNew_insertable (i : Instr) (hi : .instr i ∈ editNew) (pre post : List BElem) :
    Insertable Py311.platform (readEx 2 17 19 (some 1)) pre post i := by
  have hvm := made_valid Py311.wf (es := editNew) (by decide +kernel) i hi
  simp only [editNew, List.mem_cons, List.not_mem_nil, or_false] at hi
  rcases hi with hi | hi <;> cases hi <;>
    exact ⟨⟨hvm, by decide +kernel⟩, (by intro x hx; cases hx), (by intro x hx; cases hx), (by rintro x (hx | hx) <;> cases hx),
      (by intro hj; exact absurd hj (by decide +kernel)), (by intro x hx; cases hx), (by intro x hx; cases hx), (by intro x _ hx; cases hx),
      (by intro x _ hx; cases hx), (by intro hd; exact absurd hd (by decide +kernel)), (by intro x hx; cases hx)⟩

theorem readEx_conserve : Bytecode.fromCode Py311.platform toCodeExCode true true = .ok (readEx 2 17 19 (some 1)) := toOption_ok (by decide +kernel)

/-- The Bytecode read with its depths, edited. -/
def editKept : Bytecode := { readEx 2 17 19 (some 1) with elems := (readEx 2 17 19 (some 1)).elems.take 4 ++ editNew ++ (readEx 2 17 19 (some 1)).elems.drop 4 }

/-- `toCodeEx` read, edited and written. -/
example (key : Arg → Arg) : ∃ co', editKept.toCode Py311.platform key eff311 10 (some 5) false = .ok co' := by
  refine C68_written (pre := (readEx 2 17 19 (some 1)).elems.take 4) (mid := []) (mid' := editNew) (post := (readEx 2 17 19 (some 1)).elems.drop 4)
    Py311.wf (by decide) key eff311 toCodeExCode_ok (rewritable_of (by decide +kernel)) readEx_conserve (by simp) rfl (by intro e he; cases he) editNew_instrs
    (by decide +kernel) (fun i hi => editNew_insertable i hi _ _) ?_ (by decide +kernel) (by decide +kernel) 5
  intro i l hi hl
  have h1 : ((readEx 2 17 19 (some 1)).elems.take 4).all (fun e => match e with
      | .instr i => (match i.arg with | .label _ => false | _ => true)
      | _ => true) = true := by decide +kernel
  have := List.all_eq_true.1 h1 _ hi
  simp [hl] at this

end Verif
