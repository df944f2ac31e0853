import Verif.Proofs.AssembleC
/-
What can be assembled follows the rules.
-/
namespace Verif
open Spec

section
variable {κ : Type} [DecidableEq κ]

theorem pyIndexOf_mem {l : List String} {n : String} {k : Nat} (h : pyIndexOf l n = .ok k) : n ∈ l := by
  unfold pyIndexOf at h
  split at h
  · assumption
  · simp at h

theorem encode_cell {P : Platform} {key : Arg → κ} {A : Attrs} {T : Tabs} {i : Instr} {r : Tabs × Enc}
    (h : encodeOperand P key A T i = .ok r) (hc : P.hasconst i.opcode = false) {n : String} (ha : i.arg = .cell n) : n ∈ A.cellvars := by
  unfold encodeOperand at h
  rw [ha] at h
  simp only [hc, Bool.false_eq_true, if_false] at h
  have hidx : ∀ {r : Tabs × Enc}, (do let k ← pyIndexOf A.cellvars n; return (T, Enc.cell k) : Py (Tabs × Enc)) = .ok r → n ∈ A.cellvars := by
    intro r h
    obtain ⟨k, hk, _⟩ := except_bind_ok h
    exact pyIndexOf_mem hk
  repeat' split at h
  all_goals first
    | exact hidx h
    | (simp [encodeInt, Arg.asInt, bind, Except.bind] at h)

theorem encode_free {P : Platform} {key : Arg → κ} {A : Attrs} {T : Tabs} {i : Instr} {r : Tabs × Enc}
    (h : encodeOperand P key A T i = .ok r) (hc : P.hasconst i.opcode = false) {n : String} (ha : i.arg = .free n) : n ∈ A.freevars := by
  unfold encodeOperand at h
  rw [ha] at h
  simp only [hc, Bool.false_eq_true, if_false] at h
  have hidx : ∀ {r : Tabs × Enc}, (do let k ← pyIndexOf A.freevars n; return (T, Enc.free k) : Py (Tabs × Enc)) = .ok r → n ∈ A.freevars := by
    intro r h
    obtain ⟨k, hk, _⟩ := except_bind_ok h
    exact pyIndexOf_mem hk
  repeat' split at h
  all_goals first
    | exact hidx h
    | (simp [encodeInt, Arg.asInt, bind, Except.bind] at h)

theorem encode_block {P : Platform} {key : Arg → κ} {A : Attrs} {T : Tabs} {i : Instr} {r : Tabs × Enc}
    (h : encodeOperand P key A T i = .ok r) (hc : P.hasconst i.opcode = false) {n : Nat} (ha : i.arg = .block n) : False := by
  unfold encodeOperand at h
  rw [ha] at h
  simp only [hc, Bool.false_eq_true, if_false] at h
  repeat' split at h
  all_goals (simp [encodeInt, Arg.asInt, bind, Except.bind] at h)

theorem encode_dual {P : Platform} (hP : P.WF) {key : Arg → κ} {A : Attrs} {T : Tabs} {i : Instr} {r : Tabs × Enc}
    (hv : ValidInstr P i) (h : encodeOperand P key A T i = .ok r) (hd : P.dual i.opcode = true) : ∃ x y, i.arg = .tuple [.str x, .str y] := by
  have hl := hP.dual_local _ hd
  have hk := ((kinds_excl hP i.opcode).local_ hl).2.2.2.1
  obtain ⟨x, y, hxy, _⟩ := hv.arg_ok.dual hd
  obtain ⟨⟨n1, n2⟩, hs⟩ : ∃ p, P.dualSingles i.opcode = some p := Option.isSome_iff_exists.1 hd
  unfold encodeOperand at h
  rw [hxy] at h
  simp only [hl, hk, hs, Bool.false_eq_true, if_false, if_true] at h
  split at h
  · rename_i a b he
    exact ⟨a, b, by rw [hxy, he]⟩
  · simp at h

/-- The iteration check. -/
theorem iter_nested {es : List BElem} {seen : Bool} (h : (iterElems seen es).2 = .ok ()) :
    (seen = true → ∀ pre t post, es = pre ++ .tryBegin t :: post → ∃ id, .tryEnd id ∈ pre) ∧
    ∀ pre t mid t' post, es = pre ++ .tryBegin t :: mid ++ .tryBegin t' :: post → ∃ id, .tryEnd id ∈ mid := by
  induction es generalizing seen with
  | nil => exact ⟨fun _ pre t post he => by simp at he, fun pre t mid t' post he => by simp at he⟩
  | cons e es ih =>
    have hother : (∀ t, e ≠ .tryBegin t) → ∀ s, (iterElems s es).2 = .ok () → (seen = true → s = true ∨ ∃ id, e = .tryEnd id) →
        (seen = true → ∀ pre t post, e :: es = pre ++ .tryBegin t :: post → ∃ id, .tryEnd id ∈ pre) ∧
        ∀ pre t mid t' post, e :: es = pre ++ .tryBegin t :: mid ++ .tryBegin t' :: post → ∃ id, .tryEnd id ∈ mid := by
      intro h1 s hs hss
      obtain ⟨i1, i2⟩ := ih hs
      refine ⟨fun hse pre t post he => ?_, fun pre t mid t' post he => ?_⟩
      · cases pre with
        | nil => simp only [List.nil_append, List.cons.injEq] at he; exact absurd he.1 (h1 t)
        | cons p pre =>
          simp only [List.cons_append, List.cons.injEq] at he
          rcases hss hse with rfl | ⟨id, hid⟩
          · obtain ⟨id, hid⟩ := i1 rfl pre t post he.2
            exact ⟨id, by simp [hid]⟩
          · exact ⟨id, by rw [← he.1, hid]; simp⟩
      · cases pre with
        | nil => simp only [List.nil_append, List.cons_append, List.cons.injEq] at he; exact absurd he.1 (h1 t)
        | cons p pre =>
          simp only [List.cons_append, List.cons.injEq] at he
          exact i2 pre t mid t' post he.2
    cases e with
    | tryBegin t =>
      cases seen with
      | true => simp [iterElems] at h
      | false =>
        simp only [iterElems, Bool.false_eq_true, if_false] at h
        obtain ⟨i1, i2⟩ := ih h
        refine ⟨fun hf => by simp at hf, fun pre t1 mid t' post he => ?_⟩
        cases pre with
        | nil =>
          simp only [List.nil_append, List.cons_append, List.cons.injEq] at he
          exact i1 rfl mid t' post he.2
        | cons p pre =>
          simp only [List.cons_append, List.cons.injEq] at he
          exact i2 pre t1 mid t' post he.2
    | tryEnd id =>
      simp only [iterElems] at h
      exact hother (by simp) false h (fun _ => .inr ⟨id, rfl⟩)
    | instr i => exact hother (by simp) seen (by simpa [iterElems] using h) (fun hs => .inl hs)
    | label l => exact hother (by simp) seen (by simpa [iterElems] using h) (fun hs => .inl hs)
    | setLineno n => exact hother (by simp) seen (by simpa [iterElems] using h) (fun hs => .inl hs)

theorem locMake_line {x : Bool} {n : Nat} {l : Loc} (h : Loc.make x (some (n : Int)) none none none = .ok l) : x = true ∨ 1 ≤ n := by
  unfold Loc.make at h
  obtain ⟨_, hc, _⟩ := except_bind_ok h
  unfold checkLocation at hc
  cases x with
  | true => exact .inl rfl
  | false =>
    right
    simp only [Bool.false_eq_true, if_false] at hc
    split at hc
    · simp at hc
    · omega

theorem cacheStep_blocks {P : Platform} {st st' : Conv} {c : Bool} (h : st.cacheStep P c = .ok st') : st'.blocks = st.blocks := by
  unfold Conv.cacheStep at h
  repeat' split at h
  all_goals first
    | (simp only [Except.ok.injEq] at h; subst h; rfl)
    | (simp at h; done)
    | (obtain ⟨cs, _, h⟩ := except_bind_ok h
       simp only [pure, Except.pure, Except.ok.injEq] at h
       subst h; rfl)

theorem push_blocks {P : Platform} {st st' : Conv} {n : String} {c : CArg} {j : Option Nat} (h : st.push P n c j = .ok st') : st'.blocks = st.blocks := by
  unfold Conv.push at h
  obtain ⟨ci, _, h⟩ := except_bind_ok h
  simp only [pure, Except.pure, Except.ok.injEq] at h
  subst h; rfl

/-- The blocks known so far come from the TryBegin met. -/
def BlocksFrom (done : List BElem) (st : Conv) : Prop := ∀ p ∈ st.blocks, ∃ t, .tryBegin t ∈ done ∧ t.id = p.1.id

theorem setBlock_from {bs : List (TryB × ExcEntry)} {t : TryB} {e : ExcEntry} {p : TryB × ExcEntry} (h : p ∈ setBlock bs t e) :
    (∃ q ∈ bs, q.1 = p.1) ∨ p.1 = t := by
  unfold setBlock at h
  split at h
  · obtain ⟨q, hq, rfl⟩ := List.mem_map.1 h
    left
    exact ⟨q, hq, by split <;> rfl⟩
  · rcases List.mem_append.1 h with h | h
    · exact .inl ⟨p, h, rfl⟩
    · rw [List.mem_singleton] at h; subst h; exact .inr rfl

theorem elem_rules {P : Platform} {key : Arg → κ} {A : Attrs} {done : List BElem} {st st' : Conv} {e : BElem}
    (hb : BlocksFrom done st) (h : st.elem P key A e = .ok st') :
    BlocksFrom (done ++ [e]) st' ∧ (∀ t, e = .tryBegin t → t.depth ≠ none) ∧ (∀ id, e = .tryEnd id → ∃ t, .tryBegin t ∈ done ∧ t.id = id) := by
  have same : ∀ s : Conv, s.blocks = st.blocks → BlocksFrom (done ++ [e]) s := by
    intro s hs p hp
    rw [hs] at hp
    obtain ⟨t, h1, h2⟩ := hb p hp
    exact ⟨t, by simp [h1], h2⟩
  cases e with
  | label l =>
    simp only [Conv.elem, Except.ok.injEq] at h
    subst h
    exact ⟨same _ rfl, by simp, by simp⟩
  | setLineno n =>
    simp only [Conv.elem, Except.ok.injEq] at h
    subst h
    exact ⟨same _ rfl, by simp, by simp⟩
  | tryBegin t =>
    simp only [Conv.elem] at h
    split at h
    · simp at h
    · rename_i d hd
      simp only [Except.ok.injEq] at h
      subst h
      refine ⟨?_, by rintro t' ht; cases ht; simp [hd], by simp⟩
      intro p hp
      rcases setBlock_from hp with ⟨q, hq, he⟩ | he
      · obtain ⟨t', h1, h2⟩ := hb q hq
        exact ⟨t', by simp [h1], by rw [h2, he]⟩
      · exact ⟨t, by simp, by rw [he]⟩
  | tryEnd id =>
    simp only [Conv.elem] at h
    split at h
    · rename_i hany
      simp only [Except.ok.injEq] at h
      subst h
      refine ⟨?_, by simp, ?_⟩
      · intro p hp
        obtain ⟨q, hq, rfl⟩ := List.mem_map.1 hp
        obtain ⟨t', h1, h2⟩ := hb q hq
        exact ⟨t', by simp [h1], by rw [h2]; split <;> rfl⟩
      · rintro id' hid; cases hid
        simp only [List.any_eq_true, beq_iff_eq] at hany
        obtain ⟨p, hp, he⟩ := hany
        obtain ⟨t, h1, h2⟩ := hb p hp
        exact ⟨t, h1, by rw [h2, he]⟩
    · simp at h
  | instr i =>
    refine ⟨same _ ?_, by simp, by simp⟩
    simp only [Conv.elem] at h
    obtain ⟨⟨T, enc⟩, henc, h⟩ := except_bind_ok h
    simp only at h
    cases enc with
    | plain c => simp only at h; exact (push_blocks h).trans rfl
    | jump l => simp only at h; exact (push_blocks h).trans rfl
    | cell k => simp only at h; exact (push_blocks h).trans rfl
    | free k => simp only at h; exact (push_blocks h).trans rfl
    | split n1 i1 n2 i2 =>
      simp only at h
      obtain ⟨ci, _, h⟩ := except_bind_ok h
      exact (push_blocks h).trans rfl

theorem fold_rules {P : Platform} {key : Arg → κ} {A : Attrs} (es done : List BElem) (st s1 : Conv) (hb : BlocksFrom done st)
    (h : es.foldlM (Conv.step P key A) st = .ok s1) :
    ∀ pre e post, es = pre ++ e :: post → (∀ t, e = .tryBegin t → t.depth ≠ none) ∧
      (∀ id, e = .tryEnd id → ∃ t, .tryBegin t ∈ done ++ pre ∧ t.id = id) := by
  induction es generalizing done st with
  | nil => intro pre e post he; simp at he
  | cons x es ih =>
    rw [List.foldlM_cons] at h
    obtain ⟨s, hs, h⟩ := except_bind_ok h
    unfold Conv.step at hs
    obtain ⟨s0, hs0, hs⟩ := except_bind_ok hs
    have hb0 : BlocksFrom done s0 := by unfold BlocksFrom; rw [cacheStep_blocks hs0]; exact hb
    obtain ⟨r1, r2, r3⟩ := elem_rules hb0 hs
    intro pre e post he
    cases pre with
    | nil =>
      simp only [List.nil_append, List.cons.injEq] at he
      obtain ⟨rfl, rfl⟩ := he
      exact ⟨r2, by simpa using r3⟩
    | cons p pre =>
      simp only [List.cons_append, List.cons.injEq] at he
      obtain ⟨rfl, he⟩ := he
      have := ih (done ++ [x]) s r1 h pre e post he
      simpa using this

theorem mem_jumpsE_of {P : Platform} {M1 M2 : List Cell} {c : Cell} {l : Nat} (n : Nat) (h : c.jump? = some l) :
    (n + (code P M1).length, l) ∈ jumpsE P n (M1 ++ c :: M2) := by
  induction M1 generalizing n with
  | nil => simp [jumpsE, h, code]
  | cons d M1 ih =>
    rw [List.cons_append, jumpsE, List.mem_append, code_cons, List.length_append, ← Nat.add_assoc]
    exact .inr (ih _)

/-- Entries with this identity start at `n`. -/
theorem blocks_start {P : Platform} {M : List Cell} (h : ∀ i, .instr i ∉ M.map (·.e)) (id n : Nat) (bs : List (TryB × ExcEntry))
    (hb : ∀ p ∈ bs, p.1.id = id → p.2.start = n) : ∀ p ∈ blocksOf P n bs M, p.1.id = id → p.2.start = n := by
  induction M generalizing bs with
  | nil => exact hb
  | cons c M ih =>
    have hc0 : (c.code P).length = 0 := by
      cases he : c.e with
      | instr i => exact absurd (List.mem_map.2 ⟨c, by simp, he⟩) (h i)
      | _ => simp [Cell.code, he]
    have h' : ∀ i, .instr i ∉ M.map (·.e) := fun i hi => h i (by simp only [List.map_cons, List.mem_cons]; exact .inr hi)
    rw [blocksOf.eq_def]
    simp only
    split
    · rename_i t ht
      refine ih h' _ ?_
      intro p hp hid
      unfold setBlock at hp
      split at hp
      · obtain ⟨q, hq, rfl⟩ := List.mem_map.1 hp
        by_cases hqt : q.1.id == t.id
        · simp [hqt]
        · simp only [hqt] at hid ⊢
          exact hb q hq hid
      · rcases List.mem_append.1 hp with hp | hp
        · exact hb p hp hid
        · rw [List.mem_singleton] at hp; subst hp; rfl
    · rename_i x ht
      refine ih h' _ ?_
      intro p hp hid
      obtain ⟨q, hq, rfl⟩ := List.mem_map.1 hp
      by_cases hqt : q.1.id == x
      · simp only [hqt, if_true] at hid ⊢
        exact hb q hq hid
      · simp only [hqt] at hid ⊢
        exact hb q hq hid
    · rw [hc0, Nat.add_zero]
      exact ih h' bs hb

theorem blocksOf_append {P : Platform} (M1 M2 : List Cell) (n : Nat) (bs : List (TryB × ExcEntry)) :
    blocksOf P n bs (M1 ++ M2) = blocksOf P (n + (code P M1).length) (blocksOf P n bs M1) M2 := by
  induction M1 generalizing n bs with
  | nil => simp [blocksOf, code]
  | cons c M1 ih =>
    rw [List.cons_append, code_cons, List.length_append, ← Nat.add_assoc, blocksOf.eq_def, blocksOf.eq_def P n bs (c :: M1)]
    simp only
    split
    · rename_i t ht
      have hc : (c.code P).length = 0 := by simp [Cell.code, ht]
      rw [ih, hc, Nat.add_zero]
    · rename_i t ht
      have hc : (c.code P).length = 0 := by simp [Cell.code, ht]
      rw [ih, hc, Nat.add_zero]
    · rw [ih]

/-- Each TryBegin has an entry, and entries come from the TryBegin. -/
theorem blocks_entry {P : Platform} {M : List Cell} (n : Nat) (bs : List (TryB × ExcEntry)) :
    (∀ p ∈ blocksOf P n bs M, (∃ q ∈ bs, q.1 = p.1) ∨ .tryBegin p.1 ∈ M.map (·.e)) ∧
    (∀ id, bs.any (·.1.id == id) = true ∨ (∃ t, .tryBegin t ∈ M.map (·.e) ∧ t.id = id) → (blocksOf P n bs M).any (·.1.id == id) = true) := by
  induction M generalizing n bs with
  | nil => exact ⟨fun p hp => .inl ⟨p, hp, rfl⟩, fun id h => by rcases h with h | ⟨_, h, _⟩; exact h; simp at h⟩
  | cons c M ih =>
    rw [blocksOf.eq_def]
    simp only
    split
    · rename_i t ht
      obtain ⟨i1, i2⟩ := ih n (setBlock bs t ⟨n, 0, 0, t.depth.getD 0, t.lasti⟩)
      refine ⟨fun p hp => ?_, fun id h => ?_⟩
      · rcases i1 p hp with ⟨q, hq, he⟩ | hm
        · rcases setBlock_from hq with ⟨q', hq', he'⟩ | he'
          · exact .inl ⟨q', hq', he'.trans he⟩
          · right; rw [← he, he', List.map_cons, ht]; simp
        · right; rw [List.map_cons]; exact List.mem_cons_of_mem _ hm
      · refine i2 id ?_
        rcases h with h | ⟨t', h1, h2⟩
        · exact .inl (setBlock_any.2 id h)
        · rw [List.map_cons, ht] at h1
          rcases List.mem_cons.1 h1 with h1 | h1
          · cases h1; subst h2; exact .inl setBlock_any.1
          · exact .inr ⟨t', h1, h2⟩
    · rename_i x ht
      obtain ⟨i1, i2⟩ := ih n (bs.map (fun p => if p.1.id == x then (p.1, { p.2 with stop := (n : Int) - 1 }) else p))
      have hany : ∀ id, (bs.map (fun p => if p.1.id == x then (p.1, { p.2 with stop := (n : Int) - 1 }) else p)).any (·.1.id == id) = bs.any (·.1.id == id) := by
        intro id
        rw [List.any_map]
        congr 1
        funext p
        simp only [Function.comp_apply]
        split <;> rfl
      refine ⟨fun p hp => ?_, fun id h => ?_⟩
      · rcases i1 p hp with ⟨q, hq, he⟩ | hm
        · obtain ⟨q', hq', rfl⟩ := List.mem_map.1 hq
          exact .inl ⟨q', hq', by rw [← he]; split <;> rfl⟩
        · right; rw [List.map_cons]; exact List.mem_cons_of_mem _ hm
      · refine i2 id ?_
        rw [hany]
        rcases h with h | ⟨t', h1, h2⟩
        · exact .inl h
        · rw [List.map_cons, ht] at h1
          rcases List.mem_cons.1 h1 with h1 | h1
          · cases h1
          · exact .inr ⟨t', h1, h2⟩
    · rename_i h1 h2
      obtain ⟨i1, i2⟩ := ih (n + (c.code P).length) bs
      refine ⟨fun p hp => ?_, fun id h => ?_⟩
      · rcases i1 p hp with hq | hm
        · exact .inl hq
        · right; rw [List.map_cons]; exact List.mem_cons_of_mem _ hm
      · refine i2 id ?_
        rcases h with h | ⟨t', h3, h4⟩
        · exact .inl h
        · rw [List.map_cons] at h3
          rcases List.mem_cons.1 h3 with h3 | h3
          · exact absurd h3.symm (h1 t')
          · exact .inr ⟨t', h3, h4⟩

theorem lookup_label_mem {P : Platform} {M : List Cell} {l t : Nat} (h : lookupLabel (labelsOf P 0 [] M) l = .ok t) : .label l ∈ M.map (·.e) := by
  by_cases hm : .label l ∈ M.map (·.e)
  · exact hm
  · rw [lookup_absent hm] at h
    simp [lookupLabel] at h

theorem mapM_ok_each {α β : Type} {f : α → Py β} {l : List α} {ys : List β} (h : l.mapM f = .ok ys) {x : α} (hx : x ∈ l) : ∃ y, f x = .ok y := by
  induction l generalizing ys with
  | nil => simp at hx
  | cons a l ih =>
    rw [List.mapM_cons] at h
    obtain ⟨y, hy, h⟩ := except_bind_ok h
    obtain ⟨r, hr, _⟩ := except_bind_ok h
    rcases List.mem_cons.1 hx with rfl | hx
    · exact ⟨y, hy⟩
    · exact ih hr hx

/-- What is assembled follows the rules. -/
theorem toConcrete_rules {P : Platform} (hP : P.WF) {key : Arg → κ} {b : Bytecode} (hw : WellMade P b) {passes : Nat} {c : Concrete}
    (h : toConcrete P key passes b = .ok c) : Assemblable P b := by
  have hv : ∀ i, .instr i ∈ b.elems → ValidInstr P i := fun i hi => (hw.valid i hi).1
  obtain ⟨hit, T, M, _, hL, hj, _, _, _, _, _, hready, hcons, htab⟩ := toConcrete_final hP (isCache_of hw) hv h
  obtain ⟨st, hst, _⟩ := except_bind_ok h
  unfold concreteInstructions at hst
  obtain ⟨loc, hloc, hst⟩ := except_bind_ok hst
  obtain ⟨_, _, hst⟩ := except_bind_ok hst
  obtain ⟨vs, hvs, hst⟩ := except_bind_ok hst
  obtain ⟨s1, hs1, hst⟩ := except_bind_ok hst
  have hrules := fold_rules b.elems [] _ s1 (by intro p hp; simp [Conv.init] at hp) hs1
  have henc : ∀ i, .instr i ∈ b.elems → ∃ r, encodeOperand P key b.attrs T i = .ok r := by
    intro i hi
    rw [← hL.elems] at hi
    obtain ⟨d, hd, he⟩ := List.mem_map.1 hi
    obtain ⟨enc, h1, _⟩ := (hL.mem hd).2 i he
    exact ⟨_, h1⟩
  -- a jump, its position and its target
  have hjump : ∀ pre i post l, b.elems = pre ++ .instr i :: post → i.arg = .label l → ∃ M1 d M2 t, M = M1 ++ d :: M2 ∧
      M1.map (·.e) = pre ∧ d.e = .instr i ∧ M2.map (·.e) = post ∧ (d.code P).length = 1 + nCaches P i.name ∧
      lookupLabel (labelsOf P 0 [] M) l = .ok t ∧ t ≤ (code P M).length ∧
      (isForwardRelJump P i.name i.opcode = true → pos P (code P M) ((code P M1).length + 1) + nCaches P i.name ≤ pos P (code P M) t) ∧
      (isBackwardRelJump P i.name i.opcode = true → pos P (code P M) t ≤ pos P (code P M) ((code P M1).length + 1) + nCaches P i.name) := by
    intro pre i post l he hl
    rw [← hL.elems] at he
    obtain ⟨M1, M2', hM, h1, h2⟩ := List.map_eq_append_iff.1 he
    obtain ⟨d, M2, rfl, h3, h4⟩ := List.map_eq_cons_iff.1 h2
    have hdj : d.jump? = some l := by simp [Cell.jump?, h3, hl]
    have hdM : d ∈ M := by rw [hM]; simp
    obtain ⟨i', a, q1, q2, q3, q4, q5, q6, q7⟩ := (hj d hdM).code hdj
    rw [h3] at q1; cases q1
    have hk : ((code P M1).length, l) ∈ jumpsE P 0 M := by
      have := mem_jumpsE_of (P := P) (M1 := M1) (M2 := M2) 0 hdj
      rw [← hM] at this
      simpa using this
    obtain ⟨ci, t, a', g1, g2, g3, g4, g5, g6, g7⟩ := hcons _ _ hk
    have hci : ci = mkI P i.name (some a) d.loc := by
      rw [hM, code_append, code_cons, q7, List.getElem?_append_right (Nat.le_refl _), Nat.sub_self] at g1
      simpa using g1.symm
    have hps := pos_succ P _ g1
    refine ⟨M1, d, M2, t, hM, h1, h3, h4, ?_, g2, g3, ?_, ?_⟩
    · rw [q7]; simp; omega
    · intro hf
      unfold CInstr.getJumpTarget at g7
      rw [g4] at g7
      have hf' : isForwardRelJump P ci.name ci.opcode = true := by rw [hci]; simpa [mkI, q5] using hf
      simp only [hf', if_true, Option.some.injEq] at g7
      have hc' : ci.useCacheOpcodes P = nCaches P i.name := by rw [hci]; rfl
      rw [hc'] at g7
      unfold CInstr.units at hps
      omega
    · intro hf
      unfold CInstr.getJumpTarget at g7
      rw [g4] at g7
      have hf' : isBackwardRelJump P ci.name ci.opcode = true := by rw [hci]; simpa [mkI, q5] using hf
      have hn' : isForwardRelJump P ci.name ci.opcode = false := by
        unfold isForwardRelJump isBackwardRelJump at *
        simp only [Bool.and_eq_true] at hf'
        simp [hf'.2]
      simp only [hf', hn', if_true, Bool.false_eq_true, if_false, Option.some.injEq] at g7
      have hc' : ci.useCacheOpcodes P = nCaches P i.name := by rw [hci]; rfl
      rw [hc'] at g7
      unfold CInstr.units at hps
      omega
  refine ⟨locMake_line hloc, (iter_nested hit).2, ?_, ?_, ?_, ?_, ?_, ?_, ?_, ?_⟩
  · intro pre t post he
    have hent := (blocks_entry (P := P) (M := M) 0 []).2 t.id (.inr ⟨t, by rw [hL.elems, he]; simp, rfl⟩)
    simp only [List.any_eq_true, beq_iff_eq] at hent
    obtain ⟨p, hp, hpid⟩ := hent
    have hpt : p.1 = t := by
      rcases (blocks_entry (P := P) (M := M) 0 []).1 p hp with ⟨q, hq, _⟩ | hm
      · simp at hq
      · rw [hL.elems] at hm
        exact hw.tries _ _ hm (by rw [he]; simp) hpid
    obtain ⟨y, hy⟩ := mapM_ok_each htab hp
    unfold resolveEntry at hy
    obtain ⟨s, hs, hy⟩ := except_bind_ok hy
    obtain ⟨_, _, hy⟩ := except_bind_ok hy
    obtain ⟨ti, hti, _⟩ := except_bind_ok hy
    refine ⟨(hrules pre (.tryBegin t) post he).1 t rfl, ?_, ?_⟩
    · rw [hpt] at hti
      rw [← hL.elems]
      exact lookup_label_mem hti
    · refine Classical.byContradiction fun hno => ?_
      have hno' : ∀ i, .instr i ∉ post := fun i hi => hno ⟨i, hi⟩
      rw [← hL.elems] at he
      obtain ⟨M1, M2', hM, h1, h2⟩ := List.map_eq_append_iff.1 he
      obtain ⟨d, M2, rfl, h3, h4⟩ := List.map_eq_cons_iff.1 h2
      have hcode := code_none (P := P) (M := M2) (by rw [h4]; exact hno')
      have hd0 : d.code P = [] := by simp [Cell.code, h3]
      rw [hM, blocksOf_append, blocksOf.eq_def] at hp
      simp only [h3] at hp
      have := blocks_start (P := P) (M := M2) (by rw [h4]; exact hno') t.id _ _ (by
        intro p hp hid
        unfold setBlock at hp
        split at hp
        · obtain ⟨q, hq, rfl⟩ := List.mem_map.1 hp
          by_cases hqt : q.1.id == t.id
          · simp [hqt]
          · rw [if_neg hqt] at hid
            exact absurd (beq_iff_eq.2 hid) hqt
        · rename_i hany
          rcases List.mem_append.1 hp with hp | hp
          · exact (hany (List.any_eq_true.2 ⟨p, hp, beq_iff_eq.2 hid⟩)).elim
          · rw [List.mem_singleton] at hp; subst hp; rfl) p hp hpid
      rw [this] at hs
      unfold pyGet at hs
      have hlen : (instrOffsets P 0 (code P M)).length = (code P M1).length := by
        rw [instrOffsets_length, hM, code_append, code_cons, hcode, hd0]; simp
      rw [if_neg (by omega), if_neg (by omega), List.getElem?_eq_none (by omega)] at hs
      simp at hs
  · intro pre id post he
    simpa using (hrules pre (.tryEnd id) post he).2 id rfl
  · intro i hi hjmp
    obtain ⟨r, hr⟩ := henc i hi
    rcases (hv i hi).arg_ok.jump hjmp with ⟨l, hl⟩ | ⟨n, hn⟩
    · obtain ⟨pre, post, he⟩ := List.append_of_mem hi
      obtain ⟨M1, d, M2, t, _, _, _, _, _, ht, _⟩ := hjump pre i post l he hl
      exact ⟨l, hl, by rw [← hL.elems]; exact lookup_label_mem ht⟩
    · exact absurd (encode_block hr ((kinds_excl hP i.opcode).jump hjmp).2.2.2.1 hn) id
  · intro pre i post l he hl hf
    obtain ⟨M1, d, M2, t, hM, hpre, hd, hpost, hlen, ht, htl, hfw, _⟩ := hjump pre i post l he hl
    refine Classical.byContradiction fun hno => ?_
    have hfw := hfw hf
    have hab := lookup_absent (P := P) (M := M2) (l := l) (by rw [hpost]; exact hno) ((code P M1).length + (d.code P).length) (labelsOf P 0 [] M1)
    have hlab : labelsOf P 0 [] M = labelsOf P ((code P M1).length + (d.code P).length) (labelsOf P 0 [] M1) M2 := by
      rw [hM, labelsOf_append]
      conv_lhs => rw [labelsOf, hd]
      simp only [Nat.zero_add]
    rw [← hlab, ht] at hab
    obtain ⟨p, hp, rfl⟩ := lookup_mem hab.symm
    have htk : p.2 ≤ (code P M1).length := by
      rcases mem_labelsOf hp with h | h
      · simp at h
      · omega
    have hk : (code P M1).length + 1 ≤ (code P M).length := by
      rw [hM, code_append, code_cons, List.length_append, List.length_append, hlen]; omega
    have := pos_skip (P := P) hready.size (k := p.2) (m := (code P M1).length + 1) (n := 1) (by omega) hk
    omega
  · intro pre i mid l post he hl hf j hjm
    have he' : b.elems = pre ++ .instr i :: (mid ++ .label l :: post) := by rw [he]; simp
    obtain ⟨M1, d, M2, t, hM, hpre, hd, hpost, hlen, ht, htl, _, hbw⟩ := hjump pre i _ l he' hl
    have hbw := hbw hf
    obtain ⟨MA, MB', rfl, hA, hB⟩ := List.map_eq_append_iff.1 hpost
    obtain ⟨t', ht', hge⟩ := lookup_present (P := P) (M := MB') (l := l) (by rw [hB]; simp) (code P (M1 ++ d :: MA)).length (labelsOf P 0 [] (M1 ++ d :: MA))
    have hlab : labelsOf P 0 [] M = labelsOf P (code P (M1 ++ d :: MA)).length (labelsOf P 0 [] (M1 ++ d :: MA)) MB' := by
      rw [hM, show M1 ++ d :: (MA ++ MB') = (M1 ++ d :: MA) ++ MB' by simp, labelsOf_append, Nat.zero_add]
    rw [← hlab, ht] at ht'
    cases ht'
    have hAlen : 1 ≤ (code P MA).length := by
      rw [← hA] at hjm
      obtain ⟨x, hx, hxe⟩ := List.mem_map.1 hjm
      obtain ⟨s, r, rfl⟩ := List.append_of_mem hx
      rw [code_append, code_cons, List.length_append, List.length_append]
      have h1 : 1 ≤ (x.code P).length := by
        simp only [Cell.code, hxe, block, List.length_append]
        have := (mains_le P j.name x.loc x.enc).1
        omega
      omega
    rw [code_append, code_cons, List.length_append, List.length_append, hlen] at hge
    have := pos_skip (P := P) hready.size (k := (code P M1).length + 1) (m := t) (n := nCaches P i.name + 1) (by omega) htl
    omega
  · intro i n hi hc hn
    obtain ⟨r, hr⟩ := henc i hi
    exact encode_cell hr hc hn
  · intro i n hi hc hn
    obtain ⟨r, hr⟩ := henc i hi
    exact encode_free hr hc hn
  · intro i hi hd
    obtain ⟨r, hr⟩ := henc i hi
    exact encode_dual hP (hv i hi) hr hd

end
end Verif
