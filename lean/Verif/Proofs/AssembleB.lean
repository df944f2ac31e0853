import Verif.Proofs.AssembleA
import Verif.Proofs.Passes
/-
The first pass of the conversion does not fail.
-/
namespace Verif
open Spec

section
variable {κ : Type} [DecidableEq κ]

/-- Building an instruction from a good encoding. -/
theorem make_mkI {P : Platform} (hP : P.WF) {n : String} {op : Nat} (hn : P.opmap n = some op) (hb : op < P.minInstrumented)
    {a : Option Nat} (h1 : P.hasArg op = true → a.isSome) (h2 : P.hasArg op = false → op ≠ 0 → a = none)
    (h3 : ∀ v, a = some v → v ≤ 2147483647) (loc : Loc) :
    CInstr.make P (some n) (.ofOpt a) .unset (some loc) = .ok (mkI P n a loc) := by
  rw [make_ok P hP n op hn hb a h1 h2 h3]
  simp [mkI, hn]

theorem push_total {P : Platform} {st : Conv} {n : String} {c : CArg} {j : Option Nat} {ci : CInstr}
    (h : CInstr.make P (some n) c .unset (some st.loc) = .ok ci) (hl : ci.loc = some st.loc)
    (hm : st.seenManual = false) (hr : st.required = 0) :
    ∃ st', st.push P n c j = .ok st' ∧ st'.seenManual = false ∧
      (st'.required ≠ 0 → P.py311 = true ∧ ∃ ci loc, st'.instrs.getLast? = some ci ∧ ci.loc = some loc) ∧
      st'.tabs = st.tabs ∧ st'.blocks = st.blocks := by
  unfold Conv.push
  rw [h]
  refine ⟨_, rfl, ?_, ?_, rfl, rfl⟩
  · simp only [hm]; split <;> rfl
  · intro hne
    by_cases h11 : P.py311 = true
    · exact ⟨h11, ci, st.loc, by simp, hl⟩
    · simp [h11, hr] at hne

/-- Invariant of the first pass; `w`: room taken so far. -/
structure AInv (P : Platform) (V w : Nat) (done : List BElem) (st : Conv) : Prop where
  manual : st.seenManual = false
  req : st.required ≠ 0 → P.py311 = true ∧ ∃ ci loc, st.instrs.getLast? = some ci ∧ ci.loc = some loc
  consts : st.tabs.consts.length ≤ 1 + w
  names : st.tabs.names.length ≤ w
  vars : st.tabs.varnames.length ≤ V + w
  blocks : ∀ t, .tryBegin t ∈ done → st.blocks.any (·.1.id == t.id) = true

theorem cacheStep_total {P : Platform} (hP : P.WF) {V w : Nat} {done : List BElem} {st : Conv} (h : AInv P V w done st) :
    ∃ st', st.cacheStep P false = .ok st' ∧ AInv P V w done st' ∧ st'.required = 0 := by
  unfold Conv.cacheStep
  simp only [Bool.false_eq_true, if_false]
  by_cases hr : st.required = 0
  · rw [if_pos hr]
    exact ⟨st, rfl, h, hr⟩
  · rw [if_neg hr, h.manual]
    obtain ⟨h11, ci, loc, hci, hl⟩ := h.req hr
    simp only [Bool.false_eq_true, if_false]
    rw [hci, Option.bind_some, hl, mkCaches_ok hP h11]
    exact ⟨_, rfl, ⟨rfl, by simp, h.consts, h.names, h.vars, h.blocks⟩, rfl⟩

theorem setBlock_any {bs : List (TryB × ExcEntry)} {t : TryB} {e : ExcEntry} :
    (setBlock bs t e).any (·.1.id == t.id) = true ∧
    ∀ id, bs.any (·.1.id == id) = true → (setBlock bs t e).any (·.1.id == id) = true := by
  unfold setBlock
  split
  · rename_i h
    have key : ∀ id, (bs.map (fun p => if p.1.id == t.id then (p.1, e) else p)).any (·.1.id == id) = bs.any (·.1.id == id) := by
      intro id
      rw [List.any_map]
      congr 1
      funext p
      simp only [Function.comp_apply]
      split <;> rfl
    exact ⟨by rw [key]; exact h, fun id hid => by rw [key]; exact hid⟩
  · exact ⟨by simp, fun id hid => by rw [List.any_append, hid]; rfl⟩

/-- What an element has to satisfy. -/
structure ElemOK (P : Platform) (A : Attrs) (done : List BElem) (e : BElem) : Prop where
  instr : ∀ i, e = .instr i → Encodable P A i
  begin_ : ∀ t, e = .tryBegin t → t.depth ≠ none
  end_ : ∀ id, e = .tryEnd id → ∃ t, .tryBegin t ∈ done ∧ t.id = id

theorem elem_total {P : Platform} (hP : P.WF) (key : Arg → κ) {A : Attrs} {V w : Nat} {done : List BElem} {e : BElem} {st : Conv}
    (h : AInv P V w done st) (hr : st.required = 0) (he : ElemOK P A done e) (hw : 4 * (w + room P e) + V ≤ 2147483647)
    (hC : A.cellvars.length ≤ 2147483647) (hF : A.freevars.length ≤ 2147483647) :
    ∃ st', st.elem P key A e = .ok st' ∧ AInv P V (w + room P e) (done ++ [e]) st' := by
  have hblocks : ∀ (x : BElem), (∀ t, x ≠ .tryBegin t) → ∀ t, .tryBegin t ∈ done ++ [x] → st.blocks.any (·.1.id == t.id) = true := by
    intro x hx t ht
    rcases List.mem_append.1 ht with ht | ht
    · exact h.blocks t ht
    · rw [List.mem_singleton] at ht; exact absurd ht.symm (hx t)
  cases e with
  | label l =>
    exact ⟨_, rfl, h.manual, h.req, by simpa [room] using h.consts, by simpa [room] using h.names, by simpa [room] using h.vars,
      hblocks _ (by simp)⟩
  | setLineno n =>
    exact ⟨_, rfl, h.manual, h.req, by simpa [room] using h.consts, by simpa [room] using h.names, by simpa [room] using h.vars,
      hblocks _ (by simp)⟩
  | tryBegin t =>
    obtain ⟨d, hd⟩ := Option.ne_none_iff_exists'.1 (he.begin_ t rfl)
    simp only [Conv.elem, hd]
    refine ⟨_, rfl, h.manual, h.req, by simpa [room] using h.consts, by simpa [room] using h.names, by simpa [room] using h.vars, ?_⟩
    intro t' ht
    rcases List.mem_append.1 ht with ht | ht
    · exact setBlock_any.2 _ (h.blocks t' ht)
    · simp only [List.mem_singleton, BElem.tryBegin.injEq] at ht
      subst ht
      exact setBlock_any.1
  | tryEnd id =>
    obtain ⟨t, ht, hid⟩ := he.end_ id rfl
    have := h.blocks t ht
    rw [hid] at this
    simp only [Conv.elem, this, if_true]
    refine ⟨_, rfl, h.manual, h.req, by simpa [room] using h.consts, by simpa [room] using h.names, by simpa [room] using h.vars, ?_⟩
    intro t' ht'
    have h' := hblocks (.tryEnd id) (by simp) t' ht'
    rw [List.any_map]
    rw [← h']
    congr 1
    funext p
    simp only [Function.comp_apply]
    split <;> rfl
  | instr i =>
    have hv := (he.instr i rfl).valid
    simp only [room] at hw
    have hc := h.consts
    have hn := h.names
    have hva := h.vars
    obtain ⟨T', enc, henc, hok, t1, t2, t3⟩ := encode_total hP key st.tabs (he.instr i rfl) (by omega) (by omega) (by omega)
    simp only [Conv.elem]
    rw [henc]
    simp only [bind, Except.bind]
    have fin : ∀ st', st'.seenManual = false →
        (st'.required ≠ 0 → P.py311 = true ∧ ∃ ci loc, st'.instrs.getLast? = some ci ∧ ci.loc = some loc) →
        st'.tabs = T' → st'.blocks = st.blocks → AInv P V (w + room P (.instr i)) (done ++ [.instr i]) st' := by
      intro st' a1 a2 a3 a4
      simp only [room]
      refine ⟨a1, a2, ?_, ?_, ?_, ?_⟩
      · rw [a3]; omega
      · rw [a3]; omega
      · rw [a3]; omega
      · rw [a4]; exact hblocks _ (by simp)
    have hmake : ∀ (k : Nat) (loc : Loc), P.hasArg i.opcode = true → k ≤ 2147483647 →
        CInstr.make P (some i.name) (.int (k : Nat)) .unset (some loc) = .ok (mkI P i.name (some k) loc) := by
      intro k loc ha hk
      exact make_mkI hP hv.name_op hv.base (a := some k) (by simp) (by simp [ha]) (by simp [hk]) loc
    cases enc with
    | plain c =>
      obtain ⟨a, rfl, b1, b2, b3⟩ := hok
      obtain ⟨st', p1, p2, p3, p4, p5⟩ := push_total (j := none) (st := { st with loc := i.loc.getD st.loc, tabs := T' })
        (make_mkI hP hv.name_op hv.base b1 (fun x _ => b2 x) b3 _) rfl h.manual hr
      exact ⟨st', p1, fin st' p2 p3 p4 p5⟩
    | jump l =>
      obtain ⟨st', p1, p2, p3, p4, p5⟩ := push_total (j := some l) (st := { st with loc := i.loc.getD st.loc, tabs := T' })
        (hmake 0 _ (hasJump_arg hP hv.name_op hv.base hok) (by omega)) rfl h.manual hr
      exact ⟨st', p1, fin st' p2 p3 p4 p5⟩
    | cell k =>
      obtain ⟨b1, b2⟩ := hok
      obtain ⟨st', p1, p2, p3, p4, p5⟩ := push_total (j := none) (st := { st with loc := i.loc.getD st.loc, tabs := T', cellInstrs := st.cellInstrs ++ [st.instrs.length] })
        (hmake k _ b2 (by omega)) rfl h.manual hr
      exact ⟨st', p1, fin st' p2 p3 p4 p5⟩
    | free k =>
      obtain ⟨b1, b2⟩ := hok
      obtain ⟨st', p1, p2, p3, p4, p5⟩ := push_total (j := none) (st := { st with loc := i.loc.getD st.loc, tabs := T', freeInstrs := st.freeInstrs ++ [st.instrs.length] })
        (hmake k _ b2 (by omega)) rfl h.manual hr
      exact ⟨st', p1, fin st' p2 p3 p4 p5⟩
    | split n1 i1 n2 i2 =>
      obtain ⟨b1, b2, b3⟩ := hok
      have hone : ∀ n, n = n1 ∨ n = n2 → ∀ (k : Nat) (loc : Loc), k ≤ 2147483647 →
          CInstr.make P (some n) (.int (k : Nat)) .unset (some loc) = .ok (mkI P n (some k) loc) := by
        intro n hn k loc hk
        obtain ⟨o, o1, o2, o3⟩ := hP.dual_single _ _ _ b1 n hn
        have hb := hP.dual_base _ _ _ b1 n hn o o1
        have ha := hP.operand_arg n o o1 hb (by simp [o2])
        exact make_mkI hP o1 hb (a := some k) (by simp) (by simp [ha]) (by simp [hk]) loc
      simp only
      rw [hone n1 (.inl rfl) i1 _ (by omega)]
      simp only
      obtain ⟨st', p1, p2, p3, p4, p5⟩ := push_total (j := none) (st := { st with loc := i.loc.getD st.loc, tabs := T', instrs := st.instrs ++ [mkI P n1 (some i1) (i.loc.getD st.loc)] })
        (hone n2 (.inr rfl) i2 _ (by omega)) rfl h.manual hr
      exact ⟨st', p1, fin st' p2 p3 p4 p5⟩

theorem fold_total {P : Platform} (hP : P.WF) (key : Arg → κ) {A : Attrs} {V : Nat} (es : List BElem) (done : List BElem) (w : Nat) (st : Conv)
    (h : AInv P V w done st) (he : ∀ pre e post, es = pre ++ e :: post → e.isCache = false ∧ ElemOK P A (done ++ pre) e)
    (hw : 4 * (w + (es.map (room P)).sum) + V ≤ 2147483647)
    (hC : A.cellvars.length ≤ 2147483647) (hF : A.freevars.length ≤ 2147483647) :
    ∃ s1, es.foldlM (Conv.step P key A) st = .ok s1 ∧ AInv P V (w + (es.map (room P)).sum) (done ++ es) s1 := by
  induction es generalizing done w st with
  | nil => exact ⟨st, rfl, by simpa using h⟩
  | cons e es ih =>
    obtain ⟨hc, hok⟩ := he [] e es rfl
    simp only [List.map_cons, List.sum_cons] at hw
    obtain ⟨s0, g1, g2, g3⟩ := cacheStep_total hP h
    obtain ⟨s1, k1, k2⟩ := elem_total hP key g2 g3 (by simpa using hok) (by omega) hC hF
    obtain ⟨s2, m1, m2⟩ := ih (done ++ [e]) (w + room P e) s1 k2 (fun pre x post hx => by
      have := he (e :: pre) x post (by rw [hx]; rfl)
      simpa using this) (by omega)
    refine ⟨s2, ?_, ?_⟩
    · rw [List.foldlM_cons]
      simp only [Conv.step, hc]
      rw [g1]
      simp only [bind, Except.bind]
      rw [k1]
      exact m1
    · simpa [Nat.add_assoc] using m2

theorem prepass_total {P : Platform} {A : Attrs} (vs : List String) (es : List BElem) (he : ∀ i, .instr i ∈ es → Encodable P A i) :
    ∃ vs', prepass P vs es = .ok vs' ∧ vs'.length ≤ vs.length + (es.map (room P)).sum := by
  unfold prepass
  split
  · induction es generalizing vs with
    | nil => exact ⟨vs, rfl, by simp⟩
    | cons e es ih =>
      rw [List.foldlM_cons]
      have : ∃ v1, prepassElem P vs e = .ok v1 ∧ v1.length ≤ vs.length + room P e := by
        cases e with
        | instr i =>
          simp only [prepassElem, room]
          split
          · rename_i hd
            obtain ⟨x, y, hxy⟩ := (he i (by simp)).dual hd
            rw [hxy]
            simp only [List.foldlM_cons, List.foldlM_nil, bind, Except.bind, pure, Except.pure]
            have a1 := addTo_len vs x
            have a2 := addTo_len (addTo vs x).1 y
            exact ⟨_, rfl, by omega⟩
          · exact ⟨vs, rfl, by omega⟩
        | _ => exact ⟨vs, rfl, by simp [room]⟩
      obtain ⟨v1, h1, h2⟩ := this
      obtain ⟨v2, h3, h4⟩ := ih v1 (fun i hi => he i (by simp [hi]))
      rw [h1]
      refine ⟨v2, h3, ?_⟩
      simp only [List.map_cons, List.sum_cons]
      omega
  · exact ⟨vs, rfl, by omega⟩

theorem setArgAt_head {P : Platform} {n : String} {a : Option Nat} {loc : Loc} {v : Nat} (hb : Built P (mkI P n a loc)) (ha : a.isSome)
    (hv : v ≤ 2147483647) (pre r : List CInstr) :
    setArgAt P (pre ++ mkI P n a loc :: r) pre.length (.int (v : Nat)) = .ok (pre ++ mkI P n (some v) loc :: r) := by
  unfold setArgAt
  rw [get_head]
  simp only [mkI_name, mkI_set_ok hb ha hv, bind, Except.bind, pure, Except.pure, set_head]

/-- The post-pass over the cell instructions does not fail. -/
theorem fix_cells_total {P : Platform} (shared : List Nat) (hsh : ∀ k ∈ shared, k ≤ 2147483647) (L : List Cell) (hb : ∀ c ∈ L, CellBuilt P c)
    (hk : ∀ c ∈ L, ∀ i k, c.e = .instr i → c.enc = .cell k → k < shared.length) (pre : List CInstr) :
    ∃ out, (cellsOf P pre.length L).foldlM (fun instrs index => do
        match instrs[index]? with
        | none => throw .indexError
        | some ci =>
          match shared[ci.arg.getD 0]? with
          | none => throw .keyError
          | some (k : Nat) => setArgAt P instrs index (.int (k : Int))) (pre ++ code P L) = (.ok out : Py (List CInstr)) := by
  induction L generalizing pre with
  | nil => exact ⟨_, rfl⟩
  | cons c L ih =>
    have ih' := fun pre => ih (fun x hx => hb x (by simp [hx])) (fun x hx => hk x (by simp [hx])) pre
    by_cases hcell : ∃ i k, c.e = .instr i ∧ c.enc = .cell k
    · obtain ⟨i, k, he, hk'⟩ := hcell
      rw [show cellsOf P pre.length (c :: L) = pre.length :: cellsOf P (pre.length + (c.code P).length) L by
        simp [cellsOf, he, hk'], List.foldlM_cons]
      have hbi := hb c (by simp) i he
      rw [hk'] at hbi
      simp only [mains, List.mem_singleton, forall_eq] at hbi
      have hcode : c.code P = mkI P i.name (some k) c.loc :: List.replicate (nCaches P i.name) (mkI P "CACHE" (some 0) c.loc) := by
        simp [Cell.code, he, block, mains, hk', lastName]
      have hlt := hk c (by simp) i k he hk'
      have hs : shared[k]? = some shared[k] := List.getElem?_eq_getElem hlt
      have hset := setArgAt_head hbi (by simp) (hsh shared[k] (List.getElem_mem hlt)) pre
        (List.replicate (nCaches P i.name) (mkI P "CACHE" (some 0) c.loc) ++ code P L)
      have hlen : (c.code P).length = 1 + nCaches P i.name := by rw [hcode]; simp; omega
      rw [code_cons, hlen, hcode, List.cons_append, get_head]
      simp only [mkI_arg, Option.getD_some, hs]
      rw [hset]
      simp only [bind, Except.bind]
      have := ih' (pre ++ mkI P i.name (some shared[k]) c.loc :: List.replicate (nCaches P i.name) (mkI P "CACHE" (some 0) c.loc))
      rw [show (pre ++ mkI P i.name (some shared[k]) c.loc :: List.replicate (nCaches P i.name) (mkI P "CACHE" (some 0) c.loc)).length
        = pre.length + (1 + nCaches P i.name) by simp; omega] at this
      simpa using this
    · rw [show cellsOf P pre.length (c :: L) = cellsOf P (pre.length + (c.code P).length) L by
        obtain ⟨e, l, enc⟩ := c
        cases e with
        | instr i =>
          cases enc with
          | cell k => exact absurd ⟨i, k, rfl, rfl⟩ hcell
          | _ => simp [cellsOf]
        | _ => simp [cellsOf], code_cons]
      have := ih' (pre ++ c.code P)
      simpa using this

/-- The post-pass over the free variable instructions does not fail. -/
theorem fix_frees_total {P : Platform} (off : Nat) (L : List Cell) (hb : ∀ c ∈ L, CellBuilt P c)
    (hk : ∀ c ∈ L, ∀ i k, c.e = .instr i → c.enc = .free k → k + off ≤ 2147483647) (pre : List CInstr) :
    ∃ out, (freesOf P pre.length L).foldlM (fun instrs index => do
        match instrs[index]? with
        | none => throw .indexError
        | some ci => setArgAt P instrs index (.int (ci.arg.getD 0 + off : Nat))) (pre ++ code P L) = (.ok out : Py (List CInstr)) := by
  induction L generalizing pre with
  | nil => exact ⟨_, rfl⟩
  | cons c L ih =>
    have ih' := fun pre => ih (fun x hx => hb x (by simp [hx])) (fun x hx => hk x (by simp [hx])) pre
    by_cases hcell : ∃ i k, c.e = .instr i ∧ c.enc = .free k
    · obtain ⟨i, k, he, hk'⟩ := hcell
      rw [show freesOf P pre.length (c :: L) = pre.length :: freesOf P (pre.length + (c.code P).length) L by
        simp [freesOf, he, hk'], List.foldlM_cons]
      have hbi := hb c (by simp) i he
      rw [hk'] at hbi
      simp only [mains, List.mem_singleton, forall_eq] at hbi
      have hcode : c.code P = mkI P i.name (some k) c.loc :: List.replicate (nCaches P i.name) (mkI P "CACHE" (some 0) c.loc) := by
        simp [Cell.code, he, block, mains, hk', lastName]
      have hset := setArgAt_head hbi (by simp) (hk c (by simp) i k he hk') pre
        (List.replicate (nCaches P i.name) (mkI P "CACHE" (some 0) c.loc) ++ code P L)
      have hlen : (c.code P).length = 1 + nCaches P i.name := by rw [hcode]; simp; omega
      rw [code_cons, hlen, hcode, List.cons_append, get_head]
      simp only [mkI_arg, Option.getD_some]
      rw [hset]
      simp only [bind, Except.bind]
      have := ih' (pre ++ mkI P i.name (some (k + off)) c.loc :: List.replicate (nCaches P i.name) (mkI P "CACHE" (some 0) c.loc))
      rw [show (pre ++ mkI P i.name (some (k + off)) c.loc :: List.replicate (nCaches P i.name) (mkI P "CACHE" (some 0) c.loc)).length
        = pre.length + (1 + nCaches P i.name) by simp; omega] at this
      simpa using this
    · rw [show freesOf P pre.length (c :: L) = freesOf P (pre.length + (c.code P).length) L by
        obtain ⟨e, l, enc⟩ := c
        cases e with
        | instr i =>
          cases enc with
          | free k => exact absurd ⟨i, k, rfl, rfl⟩ hcell
          | _ => simp [freesOf]
        | _ => simp [freesOf], code_cons]
      have := ih' (pre ++ c.code P)
      simpa using this

theorem Lay.mem {P : Platform} {key : Arg → κ} {A : Attrs} {T : Tabs} {loc : Loc} {es : List BElem} {L : List Cell}
    (h : Lay P key A T loc es L) {c : Cell} (hc : c ∈ L) {i : Instr} (hi : c.e = .instr i) :
    .instr i ∈ es ∧ encodeOperand P key A T i = .ok (T, c.enc) ∧ ∀ ci ∈ mains P i.name c.loc c.enc, Built P ci := by
  induction es generalizing loc L with
  | nil => cases L with
    | nil => simp at hc
    | cons c L => exact absurd h (by simp [Lay])
  | cons e es ih =>
    cases L with
    | nil => simp at hc
    | cons d L =>
      obtain ⟨a1, a2, a3, a4⟩ := h
      rcases List.mem_cons.1 hc with rfl | hc
      · rw [a1] at hi
        have := a3 i hi
        exact ⟨by simp [hi], this.1, this.2.1⟩
      · have := ih a4 hc
        exact ⟨by simp [this.1], this.2⟩

theorem bind_total {α β : Type} {x : Py α} {f : α → Py β} {a : α} (h : x = .ok a) (h' : ∃ y, f a = .ok y) : ∃ y, (x >>= f) = .ok y := by
  rw [h]; exact h'

theorem sharedIndexes_le (V C : List String) (u : Nat) : ∀ k ∈ sharedIndexes V u C, k ≤ V.length + u + C.length := by
  induction C generalizing u with
  | nil => simp [sharedIndexes]
  | cons n C ih =>
    unfold sharedIndexes
    split
    · rename_i hn
      intro k hk
      rcases List.mem_cons.1 hk with rfl | hk
      · have := List.idxOf_lt_length_of_mem hn; omega
      · have := ih u k hk; simp only [List.length_cons]; omega
    · intro k hk
      rcases List.mem_cons.1 hk with rfl | hk
      · simp only [List.length_cons]; omega
      · have := ih (u + 1) k hk; simp only [List.length_cons]; omega

theorem sharedIndexes_length (V C : List String) (u : Nat) : (sharedIndexes V u C).length = C.length := by
  induction C generalizing u with
  | nil => rfl
  | cons n C ih => unfold sharedIndexes; split <;> simp [ih]

theorem fixCells_total {P : Platform} {key : Arg → κ} {A : Attrs} {loc : Loc} {es : List BElem} {L : List Cell} {st : Conv}
    (h : Lay P key A st.tabs loc es L) (h1 : st.instrs = code P L) (h2 : st.cellInstrs = cellsOf P 0 L) (h3 : st.freeInstrs = freesOf P 0 L)
    (hok : ∀ c ∈ L, ∀ i, c.e = .instr i → EncOK P A st.tabs i.opcode c.enc)
    (hb : st.tabs.varnames.length + A.cellvars.length + A.freevars.length ≤ 2147483647) : ∃ out, fixCells P A st = .ok out := by
  have hbL : ∀ c ∈ L, CellBuilt P c := fun c hc i hi => (h.mem hc hi).2.2
  have hfo : freeOffset P A st.tabs.varnames ≤ st.tabs.varnames.length + A.cellvars.length := by
    unfold freeOffset; split <;> omega
  have hfree : ∀ (g : Enc → Enc), (∀ c : Cell, ((c.mapEnc g).code P).length = (c.code P).length) →
      (∀ enc : Enc, (∃ k, g enc = .free k) ↔ ∃ k, enc = .free k) → (∀ k, g (.free k) = .free k) →
      (∀ c ∈ L, CellBuilt P (c.mapEnc g)) →
      ∃ out, List.foldlM (fun instrs index => do
        match instrs[index]? with
        | none => throw .indexError
        | some ci => setArgAt P instrs index (.int (ci.arg.getD 0 + freeOffset P A st.tabs.varnames : Nat))) (code P (L.map (Cell.mapEnc g))) (freesOf P 0 L) = (.ok out : Py (List CInstr)) := by
    intro g hlen hg hg2 hbg
    have := fix_frees_total (P := P) (freeOffset P A st.tabs.varnames) (L.map (Cell.mapEnc g)) (by
        intro c hc
        obtain ⟨d, hd, rfl⟩ := List.mem_map.1 hc
        exact hbg d hd) (by
        intro c hc i k hi hk
        obtain ⟨d, hd, rfl⟩ := List.mem_map.1 hc
        obtain ⟨k', hk'⟩ := (hg d.enc).1 ⟨k, hk⟩
        have hkk : k' = k := by
          simp only [Cell.mapEnc, hk', hg2, Enc.free.injEq] at hk
          exact hk
        subst hkk
        have := hok d hd i hi
        rw [hk'] at this
        have := this.1
        omega) []
    rw [List.length_nil, freesOf_map (f := Cell.mapEnc g) L (fun c _ => ⟨rfl, hlen c, hg c.enc⟩)] at this
    exact this
  unfold fixCells
  rw [h1, h2, h3]
  by_cases h11 : P.py311 = true
  · simp only [h11, if_true]
    have hcell : ∀ c ∈ L, ∀ i k, c.e = .instr i → c.enc = .cell k → k < (sharedIndexes st.tabs.varnames 0 A.cellvars).length := by
      intro c hc i k hi hk
      have := hok c hc i hi
      rw [hk] at this
      rw [sharedIndexes_length]
      exact this.1
    obtain ⟨o1, ho1⟩ := fix_cells_total (P := P) (sharedIndexes st.tabs.varnames 0 A.cellvars) (fun k hk => by
      have := sharedIndexes_le _ _ _ k hk; omega) L hbL hcell []
    have hfc := fix_cells (P := P) _ L hbL [] o1 ho1
    simp only [List.length_nil, List.nil_append] at ho1 hfc
    refine bind_total ho1 ?_
    rw [hfc.1]
    refine hfree (Enc.fixC (fun k => (sharedIndexes st.tabs.varnames 0 A.cellvars).getD k 0)) ?_ ?_ (fun _ => rfl) hfc.2.1
    · intro c
      obtain ⟨e, l, enc⟩ := c
      refine code_length_enc (fun i _ => ?_)
      cases enc <;> simp [Enc.fixC, mains, lastName]
    · intro enc; cases enc <;> simp [Enc.fixC]
  · simp only [h11, Bool.false_eq_true, if_false]
    simp only [bind, Except.bind, pure, Except.pure]
    have := hfree id (fun _ => rfl) (fun _ => Iff.rfl) (fun _ => rfl) hbL
    rwa [show L.map (Cell.mapEnc id) = L from (List.map_congr_left (fun _ _ => rfl)).trans (List.map_id L)] at this

theorem iter_total (es : List BElem) (seen : Bool)
    (h : ∀ pre t mid t' post, es = pre ++ .tryBegin t :: mid ++ .tryBegin t' :: post → ∃ id, .tryEnd id ∈ mid)
    (hs : seen = true → ∀ pre t post, es = pre ++ .tryBegin t :: post → ∃ id, .tryEnd id ∈ pre) : (iterElems seen es).2 = .ok () := by
  induction es generalizing seen with
  | nil => rfl
  | cons e es ih =>
    have h' : ∀ pre t mid t' post, es = pre ++ .tryBegin t :: mid ++ .tryBegin t' :: post → ∃ id, .tryEnd id ∈ mid := by
      intro pre t mid t' post he
      exact h (e :: pre) t mid t' post (by rw [he]; rfl)
    have hother : (∀ t, e ≠ .tryBegin t) → (∀ id, e ≠ .tryEnd id) → (iterElems seen es).2 = .ok () := by
      intro h1 h2
      refine ih seen h' (fun hse pre t post he => ?_)
      obtain ⟨id, hid⟩ := hs hse (e :: pre) t post (by rw [he]; rfl)
      rcases List.mem_cons.1 hid with hid | hid
      · exact absurd hid.symm (h2 id)
      · exact ⟨id, hid⟩
    cases e with
    | tryBegin t =>
      cases seen with
      | true => obtain ⟨id, hid⟩ := hs rfl [] t es rfl; simp at hid
      | false =>
        simp only [iterElems, Bool.false_eq_true, if_false]
        exact ih true h' (fun _ pre t' post he => h [] t pre t' post (by rw [he]; rfl))
    | tryEnd id =>
      simp only [iterElems]
      exact ih false h' (fun hf => by simp at hf)
    | instr i => exact hother (by simp) (by simp)
    | label l => exact hother (by simp) (by simp)
    | setLineno n => exact hother (by simp) (by simp)

theorem locMake_total {x : Bool} {n : Nat} (h : x = true ∨ 1 ≤ n) : ∃ l, Loc.make x (some (n : Int)) none none none = .ok l := by
  have : checkLocation (some (n : Int)) (if x then 0 else 1) = .ok () := by
    unfold checkLocation
    rcases h with rfl | h
    · simp
    · cases x <;> simp <;> omega
  unfold Loc.make
  rw [this]
  exact ⟨_, rfl⟩

theorem encodable_of {P : Platform} {b : Bytecode} (hw : WellMade P b) (ha : Assemblable P b) {i : Instr} (hi : .instr i ∈ b.elems) :
    Encodable P b.attrs i where
  valid := (hw.valid i hi).1
  compare := fun v => hw.compare i v hi
  intrinsic := fun v => hw.intrinsic i v hi
  jump := fun h => by obtain ⟨l, hl, _⟩ := ha.jumps i hi h; exact ⟨l, hl⟩
  cell := fun n => ha.cells i n hi
  free := fun n => ha.frees i n hi
  dual := ha.duals i hi

theorem isCache_of {P : Platform} {b : Bytecode} (hw : WellMade P b) : ∀ e ∈ b.elems, e.isCache = false := by
  intro e he
  cases e with
  | instr i => simpa [BElem.isCache] using (hw.valid i he).2
  | _ => rfl

theorem concrete_total {P : Platform} (hP : P.WF) (key : Arg → κ) {b : Bytecode} (hw : WellMade P b) (ha : Assemblable P b) :
    ∃ st, concreteInstructions P key b = .ok st := by
  have hsz := hw.size
  obtain ⟨loc, hloc⟩ := locMake_total ha.line
  have hiter := iter_total b.elems false ha.nested (fun h => by simp at h)
  obtain ⟨vs, hvs, hvl⟩ := prepass_total b.argnames b.elems (fun i hi => encodable_of hw ha hi)
  obtain ⟨s1, hs1, hinv⟩ := fold_total hP key (A := b.attrs) (V := vs.length) b.elems [] 0 (Conv.init b.attrs vs loc)
    ⟨rfl, by simp [Conv.init], (by simp only [Conv.init]; cases b.attrs.docstring <;> simp), by simp [Conv.init], by simp [Conv.init], by simp⟩
    (fun pre e post he => by
      have hmem : e ∈ b.elems := by rw [he]; simp
      refine ⟨isCache_of hw e hmem, ?_, ?_, ?_⟩
      · rintro i rfl; exact encodable_of hw ha hmem
      · rintro t rfl; exact (ha.begins pre t post he).1
      · rintro id rfl; simpa using ha.ends pre id post he) (by omega) (by omega) (by omega)
  obtain ⟨s2, hs2, hinv2, _⟩ := cacheStep_total hP hinv
  obtain ⟨_, L, l1, l2, _, l4, l5, _⟩ := conv_lay hP b.elems (isCache_of hw) vs loc s1 s2 hs1 hs2
  have hc := hinv2.consts
  have hn := hinv2.names
  have hv := hinv2.vars
  obtain ⟨out, hout⟩ := fixCells_total l1 l2 l4 l5 (by
    intro c hcm i hi
    obtain ⟨m1, m2, _⟩ := l1.mem hcm hi
    have hroom : 2 ≤ (b.elems.map (room P)).sum := by
      obtain ⟨pre, post, he⟩ := List.append_of_mem m1
      rw [he]
      simp only [List.map_append, List.map_cons, List.sum_append, List.sum_cons, room]
      omega
    obtain ⟨T', enc, e1, e2, _⟩ := encode_total hP key s2.tabs (encodable_of hw ha m1) (by omega) (by omega) (by omega)
    rw [m2] at e1
    cases e1
    exact e2) (by omega)
  refine ⟨{ s2 with instrs := out }, ?_⟩
  unfold concreteInstructions
  rw [hloc, hiter]
  simp only [bind, Except.bind]
  rw [hvs]
  simp only
  rw [hs1]
  simp only
  rw [hs2]
  simp only
  rw [hout]
  rfl

end
end Verif
