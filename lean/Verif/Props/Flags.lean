import Verif.Proofs.Flags
import Verif.Instances.Py310
import Verif.Instances.Py311
import Verif.Instances.Py312
import Verif.Instances.Py313
import Verif.Spec.Instr
/-
C34, C35, C36: flag inference.
-/
namespace Verif
open Spec

/-! ### The bits of the result -/

theorem testBit_pow (k n : Nat) : (2 ^ k).testBit n = decide (k = n) := Nat.testBit_two_pow

theorem and_pow_ne (f k : Nat) : f &&& 2 ^ k ≠ 0 ↔ f.testBit k = true := by
  constructor
  · intro h
    apply Classical.byContradiction
    intro hk
    apply h
    apply Nat.eq_of_testBit_eq
    intro n
    rw [Nat.testBit_and, testBit_pow, Nat.zero_testBit]
    by_cases hn : k = n
    · subst hn; simpa using hk
    · simp [hn]
  · intro h h0
    have : (f &&& 2 ^ k).testBit k = true := by rw [Nat.testBit_and, testBit_pow, h]; simp
    rw [h0, Nat.zero_testBit] at this
    cases this

/-- The kinds `infer_flags` can choose. -/
theorem inferKind_mem {flags : Nat} {a : Option Bool} {s : Scan} {k : Nat} (h : inferKind flags a s = .ok k) :
    k = 0 ∨ k = GENERATOR ∨ k = COROUTINE ∨ k = ITERABLE_COROUTINE ∨ k = ASYNC_GENERATOR := by
  unfold inferKind at h
  grind

theorem inferFlags_bits {P : Platform} {conc hf : Bool} {flags : Nat} {vs : List FView} {a : Option Bool} {f : Nat}
    (h : inferFlags P conc hf flags vs a = .ok f) :
    ∃ s k, scanLoop P conc false ⟨true, hf, false, false, false⟩ vs = .ok s ∧ inferKind flags a s = .ok k ∧
      ∀ n, f.testBit n = (s.optimized && decide (0 = n) || !s.hasFree && decide (6 = n) ||
        flags.testBit n && decide (1 ≤ n ∧ n ≤ 4) || k.testBit n || flags.testBit n && decide (23 = n)) := by
  unfold inferFlags at h
  obtain ⟨s, hs, h⟩ := except_bind_ok h
  obtain ⟨k, hk, h⟩ := except_bind_ok h
  simp only [pure, Except.pure, Except.ok.injEq] at h
  refine ⟨s, k, hs, hk, ?_⟩
  intro n
  have e0 : OPTIMIZED = 2 ^ 0 := rfl
  have e1 : NEWLOCALS = 2 ^ 1 := rfl
  have e2 : VARARGS = 2 ^ 2 := rfl
  have e3 : VARKEYWORDS = 2 ^ 3 := rfl
  have e4 : NESTED = 2 ^ 4 := rfl
  have e6 : NOFREE = 2 ^ 6 := rfl
  have e23 : FUTURE_GENERATOR_STOP = 2 ^ 23 := rfl
  have hm : decide (1 ≤ n ∧ n ≤ 4) = (((decide (1 = n) || decide (2 = n)) || decide (3 = n)) || decide (4 = n)) := by
    rw [← Bool.decide_or, ← Bool.decide_or, ← Bool.decide_or]
    congr 1
    apply propext
    omega
  rw [← h, e0, e1, e2, e3, e4, e6, e23, hm]
  simp only [Nat.testBit_or, Nat.testBit_and, testBit_pow]
  cases s.optimized <;> cases s.hasFree <;>
    simp only [if_true, Bool.false_eq_true, if_false, testBit_pow, Nat.zero_testBit, Bool.true_and, Bool.false_and,
      Bool.not_true, Bool.not_false]

theorem kind_bits {k : Nat}
    (h : k = 0 ∨ k = GENERATOR ∨ k = COROUTINE ∨ k = ITERABLE_COROUTINE ∨ k = ASYNC_GENERATOR) :
    k.testBit 5 = decide (k = GENERATOR) ∧ k.testBit 7 = decide (k = COROUTINE) ∧
    k.testBit 8 = decide (k = ITERABLE_COROUTINE) ∧ k.testBit 9 = decide (k = ASYNC_GENERATOR) ∧
    k.testBit 0 = false ∧ k.testBit 1 = false ∧ k.testBit 2 = false ∧ k.testBit 3 = false ∧ k.testBit 4 = false ∧
    k.testBit 6 = false ∧ k.testBit 23 = false ∧ k.testBit 24 = false := by
  rcases h with rfl | rfl | rfl | rfl | rfl <;> decide

/-! ### C34 -/

/-- **C34 (one kind).** At most one code kind is set, for every container, initial flags and `is_async`. -/
theorem C34_one_kind (P : Platform) (conc hf : Bool) (flags : Nat) (vs : List FView) (a : Option Bool) (f : Nat)
    (h : inferFlags P conc hf flags vs a = .ok f) : OneKind f := by
  obtain ⟨s, k, _, hk, hb⟩ := inferFlags_bits h
  have hm := inferKind_mem hk
  obtain ⟨k5, k7, k8, k9, _⟩ := kind_bits hm
  unfold OneKind bGENERATOR bCOROUTINE bITERABLE bASYNCGEN
  rw [hb, hb, hb, hb, k5, k7, k8, k9]
  rcases hm with rfl | rfl | rfl | rfl | rfl <;> simp [GENERATOR, COROUTINE, ITERABLE_COROUTINE, ASYNC_GENERATOR] <;>
    decide

/-- **C34 (kept flags).** NEWLOCALS, VARARGS, VARKEYWORDS, NESTED and FUTURE_GENERATOR_STOP are those of the input. -/
theorem C34_kept (P : Platform) (conc hf : Bool) (flags : Nat) (vs : List FView) (a : Option Bool) (f : Nat)
    (h : inferFlags P conc hf flags vs a = .ok f) (n : Nat)
    (hn : n ∈ [bNEWLOCALS, bVARARGS, bVARKEYWORDS, bNESTED, bGENSTOP]) : f.testBit n = flags.testBit n := by
  obtain ⟨s, k, _, hk, hb⟩ := inferFlags_bits h
  obtain ⟨_, _, _, _, _, k1, k2, k3, k4, _, k23, _⟩ := kind_bits (inferKind_mem hk)
  simp only [bNEWLOCALS, bVARARGS, bVARKEYWORDS, bNESTED, bGENSTOP, List.mem_cons, List.not_mem_nil, or_false] at hn
  rcases hn with rfl | rfl | rfl | rfl | rfl <;> rw [hb] <;> simp [k1, k2, k3, k4, k23]

/-- FUTURE_ANNOTATIONS is always lost. -/
theorem C34_annotations_lost (P : Platform) (conc hf : Bool) (flags : Nat) (vs : List FView) (a : Option Bool) (f : Nat)
    (h : inferFlags P conc hf flags vs a = .ok f) : f.testBit bANNOTATIONS = false := by
  obtain ⟨s, k, _, hk, hb⟩ := inferFlags_bits h
  obtain ⟨_, _, _, _, _, _, _, _, _, _, _, k24⟩ := kind_bits (inferKind_mem hk)
  unfold bANNOTATIONS
  rw [hb]
  simp [k24]

theorem inferFlags_idem {P : Platform} {conc hf : Bool} {flags : Nat} {vs : List FView} {a : Option Bool} {f : Nat}
    (h : inferFlags P conc hf flags vs a = .ok f) : inferFlags P conc hf f vs a = .ok f := by
  have h0 := h
  obtain ⟨s, k, hs, hk, hb⟩ := inferFlags_bits h
  have hm := inferKind_mem hk
  obtain ⟨k5, k7, k8, k9, k0, k1, k2, k3, k4, k6, k23, k24⟩ := kind_bits hm
  have hk' : inferKind f a s = .ok k := by
    have f7 : f.testBit 7 = decide (k = COROUTINE) := by rw [hb, k7]; simp
    have f8 : f.testBit 8 = decide (k = ITERABLE_COROUTINE) := by rw [hb, k8]; simp
    have f9 : f.testBit 9 = decide (k = ASYNC_GENERATOR) := by rw [hb, k9]; simp
    have g7 : f &&& COROUTINE ≠ 0 ↔ k = COROUTINE := by rw [show COROUTINE = 2 ^ 7 from rfl, and_pow_ne, f7]; simp; rfl
    have g8 : f &&& ITERABLE_COROUTINE ≠ 0 ↔ k = ITERABLE_COROUTINE := by
      rw [show ITERABLE_COROUTINE = 2 ^ 8 from rfl, and_pow_ne, f8]; simp; rfl
    have g9 : f &&& ASYNC_GENERATOR ≠ 0 ↔ k = ASYNC_GENERATOR := by
      rw [show ASYNC_GENERATOR = 2 ^ 9 from rfl, and_pow_ne, f9]; simp; rfl
    unfold inferKind at hk ⊢
    simp only [g7, g8, g9]
    unfold GENERATOR COROUTINE ITERABLE_COROUTINE ASYNC_GENERATOR at *
    grind
  unfold inferFlags at h ⊢
  simp only [hs, hk, bind, Except.bind, pure, Except.pure, Except.ok.injEq] at h
  simp only [hs, hk', bind, Except.bind, pure, Except.pure, Except.ok.injEq]
  have hc : ∀ m n, f.testBit n = flags.testBit n ∨ Nat.testBit m n = false →
      (f &&& m).testBit n = (flags &&& m).testBit n := by
    intro m n hor
    rw [Nat.testBit_and, Nat.testBit_and]
    rcases hor with h | h
    · rw [h]
    · rw [h]; simp
  have e1 : f &&& (NEWLOCALS ||| VARARGS ||| VARKEYWORDS ||| NESTED) =
      flags &&& (NEWLOCALS ||| VARARGS ||| VARKEYWORDS ||| NESTED) := by
    apply Nat.eq_of_testBit_eq
    intro n
    apply hc
    by_cases hn : 1 ≤ n ∧ n ≤ 4
    · left
      apply C34_kept P conc hf flags vs a f h0
      simp [bNEWLOCALS, bVARARGS, bVARKEYWORDS, bNESTED, bGENSTOP]; omega
    · right
      rw [show NEWLOCALS = 2 ^ 1 from rfl, show VARARGS = 2 ^ 2 from rfl, show VARKEYWORDS = 2 ^ 3 from rfl,
        show NESTED = 2 ^ 4 from rfl]
      simp only [Nat.testBit_or, testBit_pow]
      simp; omega
  have e2 : f &&& FUTURE_GENERATOR_STOP = flags &&& FUTURE_GENERATOR_STOP := by
    apply Nat.eq_of_testBit_eq
    intro n
    apply hc
    by_cases hn : n = 23
    · left
      apply C34_kept P conc hf flags vs a f h0
      simp [bNEWLOCALS, bVARARGS, bVARKEYWORDS, bNESTED, bGENSTOP]; omega
    · right
      rw [show FUTURE_GENERATOR_STOP = 2 ^ 23 from rfl, testBit_pow]
      simp; omega
  rw [e1, e2]
  exact h

/-- **C34 (idempotence).** `update_flags` applied again with the same argument changes nothing. -/
theorem C34_idempotent (P : Platform) (b b' : Bytecode) (a : Option Bool) (h : b.updateFlags P a = .ok b') :
    b'.updateFlags P a = .ok b' := by
  unfold Bytecode.updateFlags at h
  obtain ⟨f, hf, h⟩ := except_bind_ok h
  simp only [pure, Except.pure, Except.ok.injEq] at h
  subst h
  unfold Bytecode.inferFlags at hf
  obtain ⟨u, hu, hf⟩ := except_bind_ok hf
  have := inferFlags_idem hf
  unfold Bytecode.updateFlags Bytecode.inferFlags
  simp only [hu, this, bind, Except.bind]
  rfl

theorem C34_concrete_idempotent (P : Platform) (c c' : Concrete) (a : Option Bool) (h : c.updateFlags P a = .ok c') :
    c'.updateFlags P a = .ok c' := by
  unfold Concrete.updateFlags at h
  obtain ⟨f, hf, h⟩ := except_bind_ok h
  simp only [pure, Except.pure, Except.ok.injEq] at h
  subst h
  unfold Concrete.inferFlags at hf
  have := inferFlags_idem hf
  unfold Concrete.updateFlags Concrete.inferFlags
  simp only [this, bind, Except.bind]
  rfl

/-! ### From containers to the specification -/

theorem fiB_eq (P : Platform) (es : List BElem) : (es.map BElem.fview).filterMap (FView.fi P false) = fiB P es := by
  unfold fiB
  rw [List.filterMap_map]
  congr 1
  funext e
  cases e <;> simp [BElem.fview, FView.fi]

theorem fiC_eq (P : Platform) (es : List CElem) : (es.map CElem.fview).filterMap (FView.fi P true) = fiC P es := by
  unfold fiC
  rw [List.filterMap_map]
  congr 1
  funext e
  cases e with
  | setLineno n => rfl
  | instr i => cases h : i.arg <;> simp [CElem.fview, FView.fi, h, Arg.asInt]

theorem viewsB_ok {P : Platform} {es : List BElem} (h : ∀ i, BElem.instr i ∈ es → ValidInstr P i) :
    ∀ v ∈ es.map BElem.fview, v.OK P false := by
  intro v hv
  obtain ⟨e, he, rfl⟩ := List.mem_map.1 hv
  cases e with
  | instr i =>
    have := h i he
    exact ⟨this.name_op, this.base, by simp, fun _ => this.arg_ok⟩
  | _ => trivial

theorem viewsC_ok {P : Platform} {es : List CElem} (h : ∀ i, CElem.instr i ∈ es → ValidCInstr P i) :
    ∀ v ∈ es.map CElem.fview, v.OK P true := by
  intro v hv
  obtain ⟨e, he, rfl⟩ := List.mem_map.1 hv
  cases e with
  | instr i =>
    have := h i he
    refine ⟨this.name_op, this.base, ?_, by simp⟩
    intro _
    cases i.arg <;> rfl
  | setLineno n => trivial

/-- The six outcomes of the kind selection. -/
theorem kind_cases {flags : Nat} {a : Option Bool} {s : Scan} {k : Nat} (h : inferKind flags a s = .ok k) :
    (a ≠ some false ∧ (flags.testBit 7 = true ∨ flags.testBit 9 = true) ∧
      k = if s.knownGenerator then ASYNC_GENERATOR else COROUTINE) ∨
    (a ≠ some false ∧ flags.testBit 7 = false ∧ flags.testBit 9 = false ∧ flags.testBit 8 = true ∧
      s.knownAsync = false ∧ k = ITERABLE_COROUTINE) ∨
    (a ≠ some false ∧ flags.testBit 7 = false ∧ flags.testBit 9 = false ∧ (s.knownAsync = true ∨ a = some true) ∧
      k = if s.knownGenerator then ASYNC_GENERATOR else COROUTINE) ∨
    (a = none ∧ flags.testBit 7 = false ∧ flags.testBit 9 = false ∧ s.knownAsync = false ∧
      (s.knownGenerator = true ∨ s.possibleGenerator = true) ∧ k = GENERATOR) ∨
    (a = none ∧ flags.testBit 7 = false ∧ flags.testBit 9 = false ∧ s.knownAsync = false ∧
      s.knownGenerator = false ∧ s.possibleGenerator = false ∧ k = 0) ∨
    (a = some false ∧ s.knownAsync = false ∧
      k = if s.knownGenerator || s.possibleGenerator then GENERATOR else 0) := by
  have g7 : flags &&& COROUTINE ≠ 0 ↔ flags.testBit 7 = true := and_pow_ne flags 7
  have g8 : flags &&& ITERABLE_COROUTINE ≠ 0 ↔ flags.testBit 8 = true := and_pow_ne flags 8
  have g9 : flags &&& ASYNC_GENERATOR ≠ 0 ↔ flags.testBit 9 = true := and_pow_ne flags 9
  unfold inferKind at h
  simp only [g7, g8, g9] at h
  generalize GENERATOR = x1 at *
  generalize COROUTINE = x2 at *
  generalize ITERABLE_COROUTINE = x3 at *
  generalize ASYNC_GENERATOR = x4 at *
  clear g7 g8 g9
  generalize flags.testBit 7 = b7 at *
  generalize flags.testBit 8 = b8 at *
  generalize flags.testBit 9 = b9 at *
  obtain ⟨o, fr, A, G, L⟩ := s
  rcases a with _ | _ | _ <;> cases b7 <;> cases b8 <;> cases b9 <;> cases A <;> cases G <;> cases L <;>
    simp at h ⊢ <;> simp [h]

theorem flagsRight {P : Platform} (hP : P.WF) (hF : FlagOps P) {conc hf : Bool} {flags : Nat} {vs : List FView}
    {a : Option Bool} {f : Nat} (hv : ∀ v ∈ vs, v.OK P conc) (h : inferFlags P conc hf flags vs a = .ok f) :
    FlagsRight P (vs.filterMap (FView.fi P conc)) flags a f ∧
    (f.testBit bNOFREE = true ↔ hf = false ∧ ∀ i ∈ vs.filterMap (FView.fi P conc), i.deref = false) := by
  obtain ⟨s, k, hs, hk, hb⟩ := inferFlags_bits h
  have S := scanLoop_ok hP hF hv hs
  have hm := inferKind_mem hk
  obtain ⟨k5, k7, k8, k9, k0, k1, k2, k3, k4, k6, k23, k24⟩ := kind_bits hm
  have f0 : f.testBit 0 = s.optimized := by rw [hb, k0]; simp
  have f5 : f.testBit 5 = decide (k = GENERATOR) := by rw [hb, k5]; simp
  have f6 : f.testBit 6 = !s.hasFree := by rw [hb, k6]; simp
  have f7 : f.testBit 7 = decide (k = COROUTINE) := by rw [hb, k7]; simp
  have f8 : f.testBit 8 = decide (k = ITERABLE_COROUTINE) := by rw [hb, k8]; simp
  have f9 : f.testBit 9 = decide (k = ASYNC_GENERATOR) := by rw [hb, k9]; simp
  have hA : s.knownAsync = true ↔ UsesAsync P (vs.filterMap (FView.fi P conc)) := by rw [S.async]; simp
  have hG : s.knownGenerator = true ↔ Yields P (vs.filterMap (FView.fi P conc)) := by rw [S.gen]; simp
  have hL : s.possibleGenerator = true ↔ GeneratorLike P (vs.filterMap (FView.fi P conc)) := by rw [S.poss]; simp
  have hc := kind_cases hk
  have n1 : GENERATOR = 32 := rfl
  have n2 : COROUTINE = 128 := rfl
  have n3 : ITERABLE_COROUTINE = 256 := rfl
  have n4 : ASYNC_GENERATOR = 512 := rfl
  rw [n1] at f5
  rw [n2] at f7
  rw [n3] at f8
  rw [n4] at f9
  rw [n1, n2, n3, n4] at hc
  clear hk hm hb k5 k7 k8 k9 k0 k1 k2 k3 k4 k6 k23 k24 h hs
  constructor
  · constructor <;>
      simp only [bOPTIMIZED, bGENERATOR, bCOROUTINE, bITERABLE, bASYNCGEN, f0, f5, f7, f8, f9, ← hA, ← hG,
        ← hL, decide_eq_true_eq, decide_eq_false_iff_not] <;>
      clear hA hG hL f0 f5 f6 f7 f8 f9
    · grind
    · grind
    · grind
    · grind
    · grind
    · grind
    · grind
    · have := S.optimized
      simpa using this
  · unfold bNOFREE
    rw [f6]
    have := S.hasFree
    simp only at this
    cases hh : s.hasFree with
    | true =>
      rw [hh] at this
      simp only [true_iff] at this
      simp only [Bool.not_true, Bool.false_eq_true, false_iff, not_and]
      intro h1 h2
      rcases this with h3 | ⟨i, hi, hd⟩
      · rw [h1] at h3; cases h3
      · rw [h2 i hi] at hd; cases hd
    | false =>
      rw [hh] at this
      simp only [Bool.false_eq_true, false_iff, not_or, not_exists, not_and] at this
      simp only [Bool.not_false, true_iff]
      exact ⟨by simpa using this.1, fun i hi => by simpa using this.2 i hi⟩

/-- **C35, C36 (Bytecode).** -/
theorem C35_bytecode (P : Platform) (hP : P.WF) (hF : FlagOps P) (b : Bytecode) (a : Option Bool) (f : Nat)
    (hv : ∀ i, BElem.instr i ∈ b.elems → ValidInstr P i) (h : b.inferFlags P a = .ok f) :
    FlagsRight P (fiB P b.elems) b.attrs.flags a f := by
  unfold Bytecode.inferFlags at h
  obtain ⟨u, hu, hf⟩ := except_bind_ok h
  have := (flagsRight hP hF (viewsB_ok hv) hf).1
  rwa [fiB_eq] at this

/-- **C35, C36 (ConcreteBytecode).** -/
theorem C35_concrete (P : Platform) (hP : P.WF) (hF : FlagOps P) (c : Concrete) (a : Option Bool) (f : Nat)
    (hv : ∀ i, CElem.instr i ∈ c.elems → ValidCInstr P i) (h : c.inferFlags P a = .ok f) :
    FlagsRight P (fiC P c.elems) c.attrs.flags a f := by
  have := (flagsRight hP hF (viewsC_ok hv) h).1
  rwa [fiC_eq] at this

/-- **C36 (Bytecode).** NOFREE is set exactly when no instruction uses a cell or free variable. -/
theorem C36_nofree_bytecode (P : Platform) (hP : P.WF) (hF : FlagOps P) (b : Bytecode) (a : Option Bool) (f : Nat)
    (hv : ∀ i, BElem.instr i ∈ b.elems → ValidInstr P i) (h : b.inferFlags P a = .ok f) :
    f.testBit bNOFREE = true ↔ ∀ i ∈ fiB P b.elems, i.deref = false := by
  unfold Bytecode.inferFlags at h
  obtain ⟨u, hu, hf⟩ := except_bind_ok h
  have := (flagsRight hP hF (viewsB_ok hv) hf).2
  rw [fiB_eq] at this
  simpa using this

/-- **C36 (ConcreteBytecode).** What NOFREE really means there: no deref instruction, and the cell and free
variables are not both non-empty. Missing: NOFREE should be cleared when either list is non-empty, see
`C36_statement_false`. -/
theorem C36_nofree_concrete (P : Platform) (hP : P.WF) (hF : FlagOps P) (c : Concrete) (a : Option Bool)
    (f : Nat) (hv : ∀ i, CElem.instr i ∈ c.elems → ValidCInstr P i) (h : c.inferFlags P a = .ok f) :
    f.testBit bNOFREE = true ↔
      (c.attrs.cellvars = [] ∨ c.attrs.freevars = []) ∧ ∀ i ∈ fiC P c.elems, i.deref = false := by
  have := (flagsRight hP hF (viewsC_ok hv) h).2
  rw [fiC_eq] at this
  rw [this]
  cases c.attrs.cellvars <;> cases c.attrs.freevars <;> simp

/-! ### When it raises -/

theorem scanLoop_total {P : Platform} (hP : P.WF) {conc : Bool} {vs : List FView} :
    (∀ v ∈ vs, v.OK P conc) → (∀ v ∈ vs, v ≠ .tuple) → ∀ {pend : Bool} {s : Scan},
    ResumeOK P (vs.filterMap (FView.fi P conc)) →
    (pend = true → ∃ j, (vs.filterMap (FView.fi P conc))[0]? = some j ∧ j.name = "RESUME" ∧ j.arg.isSome = true) →
    ∃ s', scanLoop P conc pend s vs = .ok s' := by
  induction vs with
  | nil =>
    intro _ _ pend s _ hp
    cases pend with
    | true => obtain ⟨j, hj, _⟩ := hp rfl; simp at hj
    | false => exact ⟨s, rfl⟩
  | cons v r ih =>
    intro hok hnt pend s hr hp
    have ihr := fun {pend s} => @ih (fun x hx => hok x (by simp [hx])) (fun x hx => hnt x (by simp [hx])) pend s
    cases v with
    | skip => exact ihr hr hp
    | tuple => exact absurd rfl (hnt _ (by simp))
    | instr name op arg =>
      obtain ⟨ho, hb, _⟩ := hok _ (List.mem_cons_self)
      have hfi : (FView.instr name op arg :: r).filterMap (FView.fi P conc) =
          ⟨name, arg.asInt, P.hasfree op || !conc && P.haslocal op && mentionsCell arg⟩ ::
            r.filterMap (FView.fi P conc) := rfl
      rw [hfi] at hr hp
      have hr' : ResumeOK P (r.filterMap (FView.fi P conc)) := by
        intro h11 k i hi hn
        have := hr h11 (k + 1) i (by simpa using hi) hn
        simpa using this
      unfold scanLoop
      cases pend with
      | true =>
        obtain ⟨j, hj, hjn, hja⟩ := hp rfl
        simp only [List.getElem?_cons_zero, Option.some.injEq] at hj
        subst hj
        simp only at hjn hja
        obtain ⟨v, hv⟩ := Option.isSome_iff_exists.1 hja
        have hres : ∃ s1, scanResume s name arg = .ok s1 := by
          unfold scanResume
          subst hjn
          have : resumeArg arg = .ok v := by
            cases arg <;> simp_all [resumeArg, Arg.asInt]
          exact ⟨_, by simp only [pyAssert, this, bind, Except.bind, beq_self_eq_true, if_true, pure, Except.pure]; rfl⟩
        obtain ⟨s1, hs1⟩ := hres
        obtain ⟨s', hs'⟩ := ihr (s := s1) (pend := false) hr' (by intro h; cases h)
        exact ⟨s', by simp only [if_true, hs1, bind, Except.bind, hs']⟩
      | false =>
        simp only [Bool.false_eq_true, if_false]
        apply ihr hr'
        intro hpend
        have hy : name = "YIELD_VALUE" ∧ P.py311 = true := by
          unfold scanInstr at hpend
          split at hpend
          · cases hpend
          · split at hpend
            · cases hpend
            · split at hpend
              · rename_i c3
                refine ⟨(isOp_iff hP ho hb _).1 c3, ?_⟩
                split at hpend
                · assumption
                · cases hpend
              · exfalso
                revert hpend
                split <;> (try split) <;> (try split) <;> (try split) <;> simp
        have := hr hy.2 0 _ rfl hy.1
        simpa using this

/-- **C35 (raising).** With `is_async=False` and well-formed yields, ValueError is raised exactly when there is an
async-only instruction; nothing else is raised. -/
theorem C35_raises_iff (P : Platform) (hP : P.WF) (hF : FlagOps P) (b : Bytecode)
    (hv : ∀ i, BElem.instr i ∈ b.elems → ValidInstr P i) (hi : (iterElems false b.elems).2 = .ok ())
    (hr : ResumeOK P (fiB P b.elems)) :
    (b.inferFlags P (some false) = .error .valueError ↔ UsesAsync P (fiB P b.elems)) ∧
    (¬ UsesAsync P (fiB P b.elems) → ∃ f, b.inferFlags P (some false) = .ok f) := by
  obtain ⟨s, hs⟩ := scanLoop_total hP (viewsB_ok hv) (s := ⟨true, false, false, false, false⟩) (pend := false)
    (by
      intro v hv
      obtain ⟨e, _, rfl⟩ := List.mem_map.1 hv
      cases e <;> simp [BElem.fview]) (by rw [fiB_eq]; exact hr) (by intro h; cases h)
  have S := scanLoop_ok hP hF (viewsB_ok hv) hs
  rw [fiB_eq] at S
  have hA : s.knownAsync = true ↔ UsesAsync P (fiB P b.elems) := by rw [S.async]; simp
  unfold Bytecode.inferFlags inferFlags
  simp only [hi, hs, bind, Except.bind]
  rw [← hA]
  cases hk : s.knownAsync with
  | true => simp [inferKind, hk]
  | false => simp [inferKind, hk, pure, Except.pure]

/-! ### The platforms satisfy the hypothesis, examples -/

theorem flagOps_of_all {P : Platform}
    (h : flagNames.all (fun n => match P.opmap n with
      | none => true
      | some op => !P.hasfree op && !P.haslocal op) = true) : FlagOps P := by
  intro n hn op ho
  have := List.all_eq_true.1 h n hn
  rw [ho] at this
  simpa using this

theorem flagOps_310 : FlagOps Py310.platform := flagOps_of_all (by decide +kernel)
theorem flagOps_311 : FlagOps Py311.platform := flagOps_of_all (by decide +kernel)
theorem flagOps_312 : FlagOps Py312.platform := flagOps_of_all (by decide +kernel)
theorem flagOps_313 : FlagOps Py313.platform := flagOps_of_all (by decide +kernel)

/-- An async generator's body on 3.11: an await, then a yield. -/
def exAsync : List BElem :=
  let i (n : String) (a : Arg) : BElem := .instr ⟨n, (Py311.platform.opmap n).getD 0, a, none⟩
  [i "RETURN_GENERATOR" .unset, i "RESUME" (.int 0), i "GET_AWAITABLE" (.int 0), .label 3, i "YIELD_VALUE" .unset,
   .setLineno 5, i "RESUME" (.int 3), i "ASYNC_GEN_WRAP" .unset, i "YIELD_VALUE" .unset, i "RESUME" (.int 1),
   i "LOAD_DEREF" (.free "x"), i "RETURN_VALUE" .unset]

example : (⟨{ Attrs.default with flags := 0x1000013 }, [], exAsync⟩ : Bytecode).inferFlags Py311.platform none =
    .ok 0x213 := by decide +kernel
example : (⟨Attrs.default, [], exAsync⟩ : Bytecode).inferFlags Py311.platform (some false) = .error .valueError := by
  decide +kernel
/-- The hypotheses of `C35_bytecode` and `C35_raises_iff` hold of it. -/
example : (exAsync.all (fun | .instr i => Instr.checkArg Py311.platform i.name i.opcode i.arg = .ok () | _ => true)) ∧
    (iterElems false exAsync).2 = .ok () := by decide +kernel

/-- **C36 is false of the code for concrete bytecode**: cell variables but no deref instruction, and NOFREE is set. -/
theorem C36_statement_false : ∃ c : Concrete, c.attrs.cellvars ≠ [] ∧
    (∀ i, CElem.instr i ∈ c.elems → ValidCInstr Py310.platform i) ∧
    ∃ f, c.inferFlags Py310.platform none = .ok f ∧ f.testBit bNOFREE = true := by
  refine ⟨⟨{ Attrs.default with cellvars := ["x"] }, [], [], [], [], [.instr ⟨"NOP", 9, none, none, none, 2⟩]⟩, by decide, ?_,
    0x41, by decide +kernel, by decide⟩
  intro i hi
  simp only [List.mem_singleton, CElem.instr.injEq] at hi
  subst hi
  exact { name_op := by decide +kernel
          base := by decide
          arg_required := by decide +kernel
          arg_forbidden := by intros; rfl
          arg_range := by intro a h; cases h
          size_eq := by simp [sizeFor, extNeeded]
          loc_ok := by intro l h; cases h }

end Verif
