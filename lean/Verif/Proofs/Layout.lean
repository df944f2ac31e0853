import Verif.Proofs.Encode
/-
What the loop of `concrete_instructions` builds, as a function of the final tables.
-/
namespace Verif
open Spec

/-- A concrete instruction as the converter builds it. -/
def mkI (P : Platform) (n : String) (a : Option Nat) (loc : Loc) : CInstr :=
  ⟨n, (P.opmap n).getD 0, a, some loc, none, sizeFor a none⟩

def CArg.toOpt : CArg → Option Nat
  | .int v => some v.toNat
  | _ => none

/-- Facts about a constructed instruction that do not involve its location. -/
structure Built (P : Platform) (ci : CInstr) : Prop where
  name_op : P.opmap ci.name = some ci.opcode
  base : ci.opcode < P.minInstrumented
  has : P.hasArg ci.opcode = true → ci.arg.isSome
  hasnt : P.hasArg ci.opcode = false → ci.opcode ≠ 0 → ci.arg = none
  range : ∀ a, ci.arg = some a → a ≤ 2147483647
  ext : ci.ext = none
  size : ci.size = sizeFor ci.arg none

theorem make_built {P : Platform} {n : String} {c : CArg} {loc : Loc} {ci : CInstr}
    (h : CInstr.make P (some n) c .unset (some loc) = .ok ci) : ci = mkI P n c.toOpt loc ∧ Built P ci ∧ c = .ofOpt c.toOpt := by
  unfold CInstr.make CInstr.set_ at h
  cases hl : lookupName P (some n) with
  | error e => rw [hl] at h; simp [bind, Except.bind] at h
  | ok p =>
    obtain ⟨n', op⟩ := p
    obtain ⟨h1, h2, h3⟩ := lookupName_ok hl
    simp only [Option.some.injEq] at h1; subst h1
    rw [hl] at h
    simp only at h
    cases hc : CInstr.checkArg P op c with
    | error e => rw [hc] at h; simp [bind, Except.bind] at h
    | ok a =>
      rw [hc] at h
      simp only [bind, Except.bind, initLocation, pure, Except.pure, Except.ok.injEq] at h
      obtain ⟨g1, g2, g3⟩ := checkArg_ok hc
      have hca : c = .ofOpt a := by
        unfold CInstr.checkArg at hc
        have hmap : ∀ {b : CArg}, (checkArgInt b).map some = .ok a → b = .ofOpt a := by
          intro b hb
          cases hc' : checkArgInt b with
          | error e => rw [hc'] at hb; simp [Except.map] at hb
          | ok v =>
            rw [hc'] at hb
            simp only [Except.map, Except.ok.injEq] at hb
            subst hb
            exact (checkArgInt_ok hc').2
        repeat' split at hc
        all_goals first | exact hmap hc | (simp only [Except.ok.injEq] at hc; subst hc; rfl) | simp at hc
      have hto : c.toOpt = a := by
        subst hca; cases a <;> simp [CArg.ofOpt, CArg.toOpt]
      subst h
      rw [hto]
      refine ⟨?_, ⟨h2, h3, g1, g2, g3, rfl, by simp [computeSize_eq]⟩, hca⟩
      simp [mkI, h2, computeSize_eq]

/-- The main instructions for an encoded operand. -/
def mains (P : Platform) (n : String) (loc : Loc) : Enc → List CInstr
  | .plain c => [mkI P n c.toOpt loc]
  | .jump _ => [mkI P n (some 0) loc]
  | .cell k => [mkI P n (some k) loc]
  | .free k => [mkI P n (some k) loc]
  | .split n1 i1 n2 i2 => [mkI P n1 (some i1) loc, mkI P n2 (some i2) loc]

def lastName (n : String) : Enc → String
  | .split _ _ n2 _ => n2
  | _ => n

def nCaches (P : Platform) (n : String) : Nat := if P.py311 then P.cacheEntries ((P.opmap n).getD 0) else 0

/-- The instructions emitted for an abstract instruction. -/
def block (P : Platform) (n : String) (loc : Loc) (enc : Enc) : List CInstr :=
  mains P n loc enc ++ List.replicate (nCaches P (lastName n enc)) (mkI P "CACHE" (some 0) loc)

/-- An element of the source with its location and encoded operand. -/
structure Cell where
  e : BElem
  loc : Loc
  enc : Enc

def Cell.code (P : Platform) (c : Cell) : List CInstr :=
  match c.e with
  | .instr i => block P i.name c.loc c.enc
  | _ => []

def code (P : Platform) (L : List Cell) : List CInstr := L.flatMap (Cell.code P)

theorem code_cons (P : Platform) (c : Cell) (L : List Cell) : code P (c :: L) = c.code P ++ code P L := by
  simp [code]

/-- The current location after an element. -/
def nextLoc (loc : Loc) : BElem → Loc
  | .instr i => i.loc.getD loc
  | .setLineno n => Loc.line (some n)
  | _ => loc

section
variable {κ : Type} [DecidableEq κ]

/-- The layout of a list of elements under the final tables. -/
def Lay (P : Platform) (key : Arg → κ) (A : Attrs) (T : Tabs) : Loc → List BElem → List Cell → Prop
  | _, [], [] => True
  | loc, e :: es, c :: L =>
    c.e = e ∧ c.loc = nextLoc loc e ∧
    (∀ i, e = .instr i → encodeOperand P key A T i = .ok (T, c.enc) ∧ (∀ ci ∈ mains P i.name c.loc c.enc, Built P ci) ∧
      (∀ a, c.enc = .plain a → a = .ofOpt a.toOpt)) ∧
    Lay P key A T (nextLoc loc e) es L
  | _, _, _ => False

/-- Indexes of jumps, cell and free instructions; label table; try blocks, from position `n` on. -/
def jumpsOf (P : Platform) (n : Nat) : List Cell → List (Nat × Nat)
  | [] => []
  | c :: L =>
    (match c.e, c.enc with
      | .instr _, .jump l => [(n, l)]
      | _, _ => []) ++ jumpsOf P (n + (c.code P).length) L

def cellsOf (P : Platform) (n : Nat) : List Cell → List Nat
  | [] => []
  | c :: L =>
    (match c.e, c.enc with
      | .instr _, .cell _ => [n]
      | _, _ => []) ++ cellsOf P (n + (c.code P).length) L

def freesOf (P : Platform) (n : Nat) : List Cell → List Nat
  | [] => []
  | c :: L =>
    (match c.e, c.enc with
      | .instr _, .free _ => [n]
      | _, _ => []) ++ freesOf P (n + (c.code P).length) L

def labelsOf (P : Platform) (n : Nat) (ls : List (Nat × Nat)) : List Cell → List (Nat × Nat)
  | [] => ls
  | c :: L =>
    match c.e with
    | .label l => labelsOf P n ((l, n) :: ls) L
    | _ => labelsOf P (n + (c.code P).length) ls L

def blocksOf (P : Platform) (n : Nat) (bs : List (TryB × ExcEntry)) : List Cell → List (TryB × ExcEntry)
  | [] => bs
  | c :: L =>
    match c.e with
    | .tryBegin t => blocksOf P n (setBlock bs t ⟨n, 0, 0, t.depth.getD 0, t.lasti⟩) L
    | .tryEnd id => blocksOf P n (bs.map (fun p => if p.1.id == id then (p.1, { p.2 with stop := (n : Int) - 1 }) else p)) L
    | _ => blocksOf P (n + (c.code P).length) bs L

theorem mkCaches_ok {P : Platform} (hP : P.WF) (h11 : P.py311 = true) (n : Nat) (loc : Loc) :
    mkCaches P n (some loc) = .ok (List.replicate n (mkI P "CACHE" (some 0) loc)) := by
  unfold mkCaches
  obtain ⟨h1, h2⟩ := hP.cache h11
  have h := make_ok P hP "CACHE" 0 h1 h2 (some 0) (by simp) (by simp) (by simp) (some loc) none
  rw [mapM_const _ (mkI P "CACHE" (some 0) loc) (by intro _; rw [show CArg.int 0 = CArg.ofOpt (some 0) from rfl, h]; simp [mkI, h1])]
  simp

/-- One element followed by the cache step, without manual CACHE. -/
theorem elem_flush {P : Platform} (hP : P.WF) {key : Arg → κ} {A : Attrs} {st st1 st2 : Conv} {e : BElem}
    (hr : st.required = 0) (h1 : st.elem P key A e = .ok st1) (h2 : st1.cacheStep P false = .ok st2) :
    st.tabs.Le st2.tabs ∧ st2.required = 0 ∧ st2.loc = nextLoc st.loc e ∧
    ∀ T, st2.tabs.Le T → ∃ c : Cell, c.e = e ∧ c.loc = nextLoc st.loc e ∧
      (∀ i, e = .instr i → encodeOperand P key A T i = .ok (T, c.enc) ∧ (∀ ci ∈ mains P i.name c.loc c.enc, Built P ci) ∧
        (∀ a, c.enc = .plain a → a = .ofOpt a.toOpt)) ∧
      st2.instrs = st.instrs ++ c.code P ∧
      st2.jumps = st.jumps ++ jumpsOf P st.instrs.length [c] ∧
      st2.cellInstrs = st.cellInstrs ++ cellsOf P st.instrs.length [c] ∧
      st2.freeInstrs = st.freeInstrs ++ freesOf P st.instrs.length [c] ∧
      st2.labels = labelsOf P st.instrs.length st.labels [c] ∧
      st2.blocks = blocksOf P st.instrs.length st.blocks [c] := by
  cases e with
  | label l =>
    simp only [Conv.elem, Except.ok.injEq] at h1; subst h1
    simp only [Conv.cacheStep, Bool.false_eq_true, if_false, hr, if_true, Except.ok.injEq] at h2
    subst h2
    refine ⟨Tabs.Le.refl _, rfl, rfl, fun T _ => ⟨⟨.label l, st.loc, .jump 0⟩, rfl, rfl, by simp, ?_⟩⟩
    simp [Cell.code, jumpsOf, cellsOf, freesOf, labelsOf, blocksOf]
  | setLineno n =>
    simp only [Conv.elem, Except.ok.injEq] at h1; subst h1
    simp only [Conv.cacheStep, Bool.false_eq_true, if_false, hr, if_true, Except.ok.injEq] at h2
    subst h2
    refine ⟨Tabs.Le.refl _, rfl, rfl, fun T _ => ⟨⟨.setLineno n, Loc.line (some n), .jump 0⟩, rfl, rfl, by simp, ?_⟩⟩
    simp [Cell.code, jumpsOf, cellsOf, freesOf, labelsOf, blocksOf]
  | tryBegin t =>
    simp only [Conv.elem] at h1
    cases hd : t.depth with
    | none => rw [hd] at h1; simp at h1
    | some d =>
      rw [hd] at h1
      simp only [Except.ok.injEq] at h1; subst h1
      simp only [Conv.cacheStep, Bool.false_eq_true, if_false, hr, if_true, Except.ok.injEq] at h2
      subst h2
      refine ⟨Tabs.Le.refl _, rfl, rfl, fun T _ => ⟨⟨.tryBegin t, st.loc, .jump 0⟩, rfl, rfl, by simp, ?_⟩⟩
      simp [Cell.code, jumpsOf, cellsOf, freesOf, labelsOf, blocksOf, hd]
  | tryEnd id =>
    simp only [Conv.elem] at h1
    split at h1
    · simp only [Except.ok.injEq] at h1; subst h1
      simp only [Conv.cacheStep, Bool.false_eq_true, if_false, hr, if_true, Except.ok.injEq] at h2
      subst h2
      refine ⟨Tabs.Le.refl _, rfl, rfl, fun T _ => ⟨⟨.tryEnd id, st.loc, .jump 0⟩, rfl, rfl, by simp, ?_⟩⟩
      simp [Cell.code, jumpsOf, cellsOf, freesOf, labelsOf, blocksOf]
    · simp at h1
  | instr i =>
    simp only [Conv.elem] at h1
    obtain ⟨⟨T1, enc⟩, henc, h1⟩ := except_bind_ok h1
    simp only at h1 henc
    obtain ⟨hle, hst⟩ := encodeOperand_stable key henc
    -- pushing one instruction and flushing
    have hpush : ∀ (s s1 s2 : Conv) (n : String) (c : CArg) (j : Option Nat), s.required = 0 → s.push P n c j = .ok s1 →
        s1.cacheStep P false = .ok s2 →
        s2.tabs = s.tabs ∧ s2.loc = s.loc ∧ s2.required = 0 ∧ Built P (mkI P n c.toOpt s.loc) ∧ c = .ofOpt c.toOpt ∧
        s2.instrs = s.instrs ++ (mkI P n c.toOpt s.loc :: List.replicate (nCaches P n) (mkI P "CACHE" (some 0) s.loc)) ∧
        s2.jumps = s.jumps ++ (j.toList.map (fun l => (s.instrs.length, l))) ∧ s2.labels = s.labels ∧ s2.blocks = s.blocks ∧
        s2.cellInstrs = s.cellInstrs ∧ s2.freeInstrs = s.freeInstrs := by
      intro s s1 s2 n c j hs0 hp hf
      obtain ⟨ci, hci, hp⟩ := except_bind_ok hp
      obtain ⟨rfl, hb, hc⟩ := make_built hci
      simp only [pure, Except.pure, Except.ok.injEq] at hp
      subst hp
      simp only [Conv.cacheStep, Bool.false_eq_true, if_false] at hf
      by_cases h11 : P.py311 = true
      · simp only [h11, if_true, CInstr.useCacheOpcodes, Bool.false_eq_true, if_false] at hf
        by_cases h0 : P.cacheEntries ((mkI P n c.toOpt s.loc).opcode) = 0
        · rw [if_pos h0] at hf
          simp only [Except.ok.injEq] at hf
          subst hf
          have : nCaches P n = 0 := by rw [nCaches, if_pos h11]; exact h0
          refine ⟨rfl, rfl, h0, hb, hc, by simp [this], ?_, rfl, rfl, rfl, rfl⟩
          cases j <;> simp
        · rw [if_neg h0] at hf
          obtain ⟨cs, hcs, hf⟩ := except_bind_ok hf
          simp only [List.getLast?_append, List.getLast?_singleton, Option.some_or, Option.bind_some] at hcs
          rw [show (mkI P n c.toOpt s.loc).loc = some s.loc from rfl, mkCaches_ok hP h11] at hcs
          simp only [Except.ok.injEq] at hcs
          subst hcs
          simp only [pure, Except.pure, Except.ok.injEq] at hf
          subst hf
          have : nCaches P n = P.cacheEntries ((mkI P n c.toOpt s.loc).opcode) := by rw [nCaches, if_pos h11]; rfl
          refine ⟨rfl, rfl, rfl, hb, hc, by simp [this], ?_, rfl, rfl, rfl, rfl⟩
          cases j <;> simp
      · rw [if_neg h11] at hf
        simp only [hs0, if_true, Except.ok.injEq] at hf
        subst hf
        have : nCaches P n = 0 := by rw [nCaches, if_neg h11]
        refine ⟨rfl, rfl, ?_, hb, hc, by simp [this], ?_, rfl, rfl, rfl, rfl⟩
        · simp [h11, hs0]
        · cases j <;> simp
    cases enc with
    | plain c =>
      simp only at h1
      have := hpush _ _ _ _ _ _ (by simpa using hr) h1 h2
      simp only at this
      obtain ⟨e1, e2, e3, e4, e5, e6, e7, e8, e9, e10, e11⟩ := this
      refine ⟨by rw [e1]; exact hle, e3, e2, fun T hT => ⟨⟨.instr i, i.loc.getD st.loc, .plain c⟩, rfl, rfl, ?_, ?_⟩⟩
      · rintro _ ⟨rfl⟩
        exact ⟨hst T (by rw [e1] at hT; exact hT), by simpa [mains] using e4, by rintro a ⟨rfl⟩; exact e5⟩
      · simp [Cell.code, block, mains, lastName, jumpsOf, cellsOf, freesOf, labelsOf, blocksOf, e6, e7, e8, e9, e10, e11]
    | jump l =>
      simp only at h1
      have := hpush _ _ _ _ _ _ (by simpa using hr) h1 h2
      simp only at this
      obtain ⟨e1, e2, e3, e4, e5, e6, e7, e8, e9, e10, e11⟩ := this
      refine ⟨by rw [e1]; exact hle, e3, e2, fun T hT => ⟨⟨.instr i, i.loc.getD st.loc, .jump l⟩, rfl, rfl, ?_, ?_⟩⟩
      · rintro _ ⟨rfl⟩
        exact ⟨hst T (by rw [e1] at hT; exact hT), by simpa [mains, CArg.toOpt] using e4, by simp⟩
      · simp [Cell.code, block, mains, lastName, jumpsOf, cellsOf, freesOf, labelsOf, blocksOf, e6, e7, e8, e9, e10, e11, CArg.toOpt]
    | cell k =>
      simp only at h1
      have := hpush _ _ _ _ _ _ (by simpa using hr) h1 h2
      simp only at this
      obtain ⟨e1, e2, e3, e4, e5, e6, e7, e8, e9, e10, e11⟩ := this
      refine ⟨by rw [e1]; exact hle, e3, e2, fun T hT => ⟨⟨.instr i, i.loc.getD st.loc, .cell k⟩, rfl, rfl, ?_, ?_⟩⟩
      · rintro _ ⟨rfl⟩
        exact ⟨hst T (by rw [e1] at hT; exact hT), by simpa [mains, CArg.toOpt] using e4, by simp⟩
      · simp [Cell.code, block, mains, lastName, jumpsOf, cellsOf, freesOf, labelsOf, blocksOf, e6, e7, e8, e9, e10, e11, CArg.toOpt]
    | free k =>
      simp only at h1
      have := hpush _ _ _ _ _ _ (by simpa using hr) h1 h2
      simp only at this
      obtain ⟨e1, e2, e3, e4, e5, e6, e7, e8, e9, e10, e11⟩ := this
      refine ⟨by rw [e1]; exact hle, e3, e2, fun T hT => ⟨⟨.instr i, i.loc.getD st.loc, .free k⟩, rfl, rfl, ?_, ?_⟩⟩
      · rintro _ ⟨rfl⟩
        exact ⟨hst T (by rw [e1] at hT; exact hT), by simpa [mains, CArg.toOpt] using e4, by simp⟩
      · simp [Cell.code, block, mains, lastName, jumpsOf, cellsOf, freesOf, labelsOf, blocksOf, e6, e7, e8, e9, e10, e11, CArg.toOpt]
    | split n1 i1 n2 i2 =>
      simp only at h1
      obtain ⟨ci, hci, h1⟩ := except_bind_ok h1
      obtain ⟨rfl, hb, hc⟩ := make_built hci
      have := hpush _ _ _ _ _ _ (by simpa using hr) h1 h2
      simp only at this
      obtain ⟨e1, e2, e3, e4, e5, e6, e7, e8, e9, e10, e11⟩ := this
      refine ⟨by rw [e1]; exact hle, e3, e2, fun T hT => ⟨⟨.instr i, i.loc.getD st.loc, .split n1 i1 n2 i2⟩, rfl, rfl, ?_, ?_⟩⟩
      · rintro _ ⟨rfl⟩
        refine ⟨hst T (by rw [e1] at hT; exact hT), ?_, by simp⟩
        simp only [mains, List.mem_cons, List.not_mem_nil, or_false]
        rintro ci (rfl | rfl)
        · simpa [CArg.toOpt] using hb
        · simpa [CArg.toOpt] using e4
      · simp [Cell.code, block, mains, lastName, jumpsOf, cellsOf, freesOf, labelsOf, blocksOf, e6, e7, e8, e9, e10, e11, CArg.toOpt]

theorem cacheStep_zero {P : Platform} {st st' : Conv} (h : st.cacheStep P false = .ok st') : st'.required = 0 := by
  unfold Conv.cacheStep at h
  simp only [Bool.false_eq_true, if_false] at h
  split at h
  · simp only [Except.ok.injEq] at h; subst h; assumption
  · split at h
    · simp at h
    · obtain ⟨cs, _, h⟩ := except_bind_ok h
      simp only [pure, Except.pure, Except.ok.injEq] at h
      subst h; rfl

/-- A run of the loop over elements without CACHE. `st0` is the starting state with pending caches emitted. -/
theorem run_lay {P : Platform} (hP : P.WF) {key : Arg → κ} {A : Attrs} (es : List BElem) (hes : ∀ e ∈ es, e.isCache = false)
    (st s1 s2 : Conv) (h1 : es.foldlM (Conv.step P key A) st = .ok s1) (h2 : s1.cacheStep P false = .ok s2) :
    ∃ st0, st.cacheStep P false = .ok st0 ∧ st0.tabs.Le s2.tabs ∧ s2.required = 0 ∧
    ∀ T, s2.tabs.Le T → ∃ L, Lay P key A T st0.loc es L ∧ s2.instrs = st0.instrs ++ code P L ∧
      s2.jumps = st0.jumps ++ jumpsOf P st0.instrs.length L ∧
      s2.cellInstrs = st0.cellInstrs ++ cellsOf P st0.instrs.length L ∧
      s2.freeInstrs = st0.freeInstrs ++ freesOf P st0.instrs.length L ∧
      s2.labels = labelsOf P st0.instrs.length st0.labels L ∧
      s2.blocks = blocksOf P st0.instrs.length st0.blocks L := by
  induction es generalizing st with
  | nil =>
    simp only [List.foldlM_nil, pure, Except.pure, Except.ok.injEq] at h1
    subst h1
    refine ⟨s2, h2, Tabs.Le.refl _, cacheStep_zero h2, fun T _ => ⟨[], ?_⟩⟩
    simp [Lay, code, jumpsOf, cellsOf, freesOf, labelsOf, blocksOf]
  | cons e es ih =>
    rw [List.foldlM_cons] at h1
    obtain ⟨sA, hA, h1⟩ := except_bind_ok h1
    unfold Conv.step at hA
    rw [hes e (by simp)] at hA
    obtain ⟨st0, h0, hA⟩ := except_bind_ok hA
    obtain ⟨st1, hf, hle1, hreq, hrest⟩ := ih (fun x hx => hes x (by simp [hx])) sA h1
    obtain ⟨g1, g2, g3, g4⟩ := elem_flush hP (cacheStep_zero h0) hA hf
    refine ⟨st0, h0, g1.trans hle1, hreq, fun T hT => ?_⟩
    obtain ⟨L, l1, l2, l3, l4, l5, l6, l7⟩ := hrest T hT
    obtain ⟨c, c1, c2, c3, c4, c5, c6, c7, c8, c9⟩ := g4 T (hle1.trans hT)
    refine ⟨c :: L, ⟨c1, c2, c3, by rw [← g3]; exact l1⟩, ?_, ?_, ?_, ?_, ?_, ?_⟩
    · rw [l2, c4, code_cons, List.append_assoc]
    · rw [l3, c5, c4]; simp [jumpsOf]
    · rw [l4, c6, c4]; simp [cellsOf]
    · rw [l5, c7, c4]; simp [freesOf]
    · rw [l6, c8, c4]
      conv_rhs => unfold labelsOf
      simp only [labelsOf]
      cases hce : c.e <;> simp [Cell.code, hce]
    · rw [l7, c9, c4]
      conv_rhs => unfold blocksOf
      simp only [blocksOf]
      cases hce : c.e <;> simp [Cell.code, hce]

/-- The whole loop. -/
theorem conv_lay {P : Platform} (hP : P.WF) {key : Arg → κ} {A : Attrs} (es : List BElem) (hes : ∀ e ∈ es, e.isCache = false)
    (vs : List String) (loc : Loc) (s1 s2 : Conv) (h1 : es.foldlM (Conv.step P key A) (Conv.init A vs loc) = .ok s1)
    (h2 : s1.cacheStep P false = .ok s2) :
    (Conv.init A vs loc).tabs.Le s2.tabs ∧ ∃ L, Lay P key A s2.tabs loc es L ∧ s2.instrs = code P L ∧
      s2.jumps = jumpsOf P 0 L ∧ s2.cellInstrs = cellsOf P 0 L ∧ s2.freeInstrs = freesOf P 0 L ∧
      s2.labels = labelsOf P 0 [] L ∧ s2.blocks = blocksOf P 0 [] L := by
  obtain ⟨st0, h0, hle, _, h⟩ := run_lay hP es hes _ s1 s2 h1 h2
  simp only [Conv.cacheStep, Conv.init, Bool.false_eq_true, if_false, if_true, Except.ok.injEq] at h0
  subst h0
  obtain ⟨L, hL⟩ := h s2.tabs (Tabs.Le.refl _)
  exact ⟨hle, L, by simpa using hL⟩

end

end Verif
