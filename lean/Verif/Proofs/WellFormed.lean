import Verif.Props.FromCode
/-
The code object `to_code` writes is well formed.
-/
namespace Verif
open Spec

/-! ### The bytes -/

/-- Concrete instructions laid out with zeroed caches assemble to a code string. -/
theorem wellCoded_layout (P : Platform) (hP : P.WF) {is : List CInstr} (hl : CacheLayout P is) (hr : ∀ i ∈ is, Readable P i)
    (hc : ∀ i ∈ is, i.opcode = 0 → i.arg = some 0) : WellCoded P (is.flatMap (CInstr.assemble P)) := by
  induction hl with
  | nil => exact .nil
  | group i cs rest h0 hlen hcs _ ih =>
    have hri := hr i (by simp)
    have hv := hri.valid
    have ih := ih (fun x hx => hr x (by simp [hx])) (fun x hx => hc x (by simp [hx]))
    obtain ⟨n1, n2⟩ := hP.name_op _ _ hv.name_op hv.base
    have hcaches : cs.flatMap (CInstr.assemble P) = List.replicate (2 * P.cacheEntries i.opcode) 0 := by
      rw [← hlen]
      have hz : ∀ x ∈ cs, x.assemble P = [0, 0] := by
        intro x hx
        have hrx := hr x (by simp [hx])
        obtain ⟨hx1, hx2⟩ := hcs x hx
        have ha := hc x (by simp [hx]) hx1
        have hnp : nPrefix x = 0 := by have := size_of_units hrx; omega
        rw [assemble_prefix P x hrx.valid.size_eq 0 ha, hnp, hx1]; rfl
      clear hlen ih hcs
      induction cs with
      | nil => rfl
      | cons x cs ih2 =>
        rw [List.flatMap_cons, hz x (by simp), ih2 (fun y hy => hr y (by simp only [List.mem_cons, List.mem_append] at hy ⊢; grind))
          (fun y hy => hc y (by simp only [List.mem_cons, List.mem_append] at hy ⊢; grind)) (fun y hy => hz y (by simp [hy])), List.length_cons, Nat.mul_succ]
        rfl
    rw [List.flatMap_cons, List.flatMap_append, hcaches]
    cases ha : i.arg with
    | none =>
      have hA : P.hasArg i.opcode = false := by
        by_contra hx
        have := hv.arg_required (by simpa using hx)
        rw [ha] at this; cases this
      have e : i.assemble P = [i.opcode, 0] := by simp [CInstr.assemble, ha]
      rw [e]
      exact WellCoded.instr [] i.name i.opcode 0 _ (by simp) n2 h0 (hri.opcode_ne hP) hv.base n1 (by omega) (by decide) (fun _ => ⟨rfl, rfl⟩) ih
    | some a =>
      have hx : extNeeded a ≤ nPrefix i := by unfold nPrefix; rw [ha]; simp; omega
      have hA : P.hasArg i.opcode = true := by
        by_contra hx
        have := hv.arg_forbidden (by simpa using hx) h0
        rw [ha] at this; cases this
      rw [assemble_prefix P i hv.size_eq a ha]
      have hw : wideArg (prefixBytes (nPrefix i) a) (a % 256) = a := by
        have := foldBytes_prefix _ _ hx
        unfold foldBytes at this
        unfold wideArg
        rw [this]; omega
      have := WellCoded.instr (prefixBytes (nPrefix i) a) i.name i.opcode (a % 256) _ (prefixBytes_lt _ _) n2 h0 (hri.opcode_ne hP) hv.base n1
        (Nat.mod_lt _ (by omega)) (by rw [hw]; exact hv.arg_range a ha) (fun h => by rw [hA] at h; cases h) ih
      simp only [List.append_assoc, List.cons_append, List.nil_append] at this ⊢
      exact this

/-! ### What is emitted -/

/-- The parts of the code object a ConcreteBytecode is written as (3.11+). -/
structure Emitted (P : Platform) (c : Concrete) (is : List CInstr) (g : CInstr → Loc) (co : Code) : Prop where
  code_ : co.code = is.flatMap (CInstr.assemble P)
  fetch_ : fetched P co = fetchedOf 0 is
  units_ : co.code.length / 2 = unitsOf is
  consts_ : co.consts = c.consts
  names_ : co.names = c.names
  varnames_ : co.varnames = c.varnames
  freevars_ : co.freevars = c.attrs.freevars
  cellvars_ : co.cellvars = codeCellvars P c.varnames c.attrs.cellvars
  slots_ : frameSlots co.varnames co.cellvars co.freevars = frameSlots c.varnames c.attrs.cellvars c.attrs.freevars
  locs_ : (readLocs co.firstlineno co.linetable).getD [] = is.flatMap (fun i => List.replicate (i.size / 2) (posOf (g i)))
  entries_ : ∀ e ∈ c.excTable, 0 ≤ e.start ∧ e.start - 1 ≤ e.stop ∧ 0 ≤ e.target ∧ 0 ≤ e.depth
  regions_ : regions co = c.excTable.map regionOf

theorem emitted (P : Platform) (hP : P.WF) (h11 : P.py311 = true) (c : Concrete) (is : List CInstr) (g : CInstr → Loc)
    (he : c.elems = is.map .instr) (hl : CacheLayout P is) (hr : ∀ i ∈ is, Readable P i) (hg : ∀ i ∈ is, i.loc = some (g i)) (n : Int)
    (co : Code) (h : c.emit P n = .ok co) : Emitted P c is g co := by
  unfold Concrete.emit at h
  simp only [h11, if_true] at h
  obtain ⟨table, htab, h⟩ := except_bind_ok h
  obtain ⟨exc, hexc, h⟩ := except_bind_ok h
  simp only [pure, Except.pure, Except.ok.injEq] at h
  have hcode : co.code = is.flatMap (CInstr.assemble P) := by
    rw [← h]
    show (assembleCodeLoop P 0 (normalizeLineno c.attrs.firstLineno c.elems)).1 = _
    rw [assembleCodeLoop_bytes, he, instrsOf_instrs]
  have hlt : co.linetable = table := by rw [← h]
  have hfl : co.firstlineno = c.attrs.firstLineno := by rw [← h]
  have hex : co.exctable = exc := by rw [← h]
  have hsz : ∀ i ∈ is, i.size % 2 = 0 ∧ 2 ≤ i.size := by
    intro i hi
    have := size_of_units (hr i hi)
    omega
  obtain ⟨hszs, hlocs⟩ := assembleCodeLoop_sizes P c.elems c.attrs.firstLineno 0
  rw [he, instrsOf_instrs] at hszs hlocs
  have hinf : ∀ x ∈ (assembleCode P c.attrs.firstLineno c.elems).2, (x.size % 2 = 0 ∧ 2 ≤ x.size) ∧ ∀ l, x.loc = some l → Coherent l := by
    intro x hx
    rw [he] at hx
    constructor
    · have : x.size ∈ is.map (·.size) := by rw [← hszs]; exact List.mem_map_of_mem hx
      obtain ⟨i, hi, e⟩ := List.mem_map.1 this
      rw [← e]; exact hsz i hi
    · intro l hl
      have : x.loc ∈ is.map (·.loc) := by rw [← hlocs]; exact List.mem_map_of_mem hx
      obtain ⟨i, hi, e⟩ := List.mem_map.1 this
      rw [hl] at e
      exact (hr i hi).valid.loc_ok l e
  have hun2 : ∀ x ∈ (assembleCode P c.attrs.firstLineno c.elems).2, ∀ l, x.loc = some l → Coherent l ∧ ¬ Unencodable l := by
    intro x hx l hl
    refine ⟨(hinf x hx).2 l hl, fun hu => ?_⟩
    have := (C04_locations_raise_iff c.attrs.firstLineno _ (fun x hx => (hinf x hx).1) (fun x hx => (hinf x hx).2)).2 ⟨x, hx, l, hl, hu⟩
    rw [htab] at this
    simp at this
  obtain ⟨table', htab', hread⟩ := C03_positions_are_locations c.attrs.firstLineno _ (fun x hx => (hinf x hx).1) hun2
  rw [htab] at htab'
  cases htab'
  have heff : effectiveLocs (assembleCode P c.attrs.firstLineno c.elems).2 = is.map g := by
    have := effectiveLocs_code P c.elems c.attrs.firstLineno 0
    unfold assembleCode
    rw [this]
    unfold locsOf
    rw [he, instrsOf_instrs]
    exact inherit_all _ is g hg
  rw [heff] at hread
  have hszs' : (assembleCode P c.attrs.firstLineno c.elems).2.map (·.size) = is.map (·.size) := by
    unfold assembleCode; rw [he]; exact hszs
  rw [hszs', List.map_map, perUnit_flatMap] at hread
  have hval : ∀ e ∈ c.excTable, 0 ≤ e.start ∧ e.start - 1 ≤ e.stop ∧ 0 ≤ e.target ∧ 0 ≤ e.depth := by
    intro e hm
    by_cases hx : 0 ≤ e.start ∧ e.start - 1 ≤ e.stop ∧ 0 ≤ e.target ∧ 0 ≤ e.depth
    · exact hx
    · have := (C01_exception_table_error c.excTable).1 ⟨e, hm, hx⟩
      rw [hexc] at this
      simp at this
  obtain ⟨chunks, hch1, hch2, hch3, _⟩ := C02_exception_table_format c.excTable hval
  rw [hexc] at hch1
  cases hch1
  refine ⟨hcode, ?_, ?_, by rw [← h], by rw [← h], by rw [← h], by rw [← h], by rw [← h], ?_, ?_, hval, ?_⟩
  · unfold fetched; rw [hcode]; exact fetch_layout P hP is hl hr 0
  · rw [hcode, assemble_units P is hr]
  · rw [← h]; exact frameSlots_code P h11 _ _ _
  · rw [hfl, hlt, hread]; rfl
  · unfold regions
    rw [hex]
    exact readRegions_chunks c.excTable chunks _ hch2 (Nat.le_refl _) hch3

/-! ### Positions -/

/-- A position `co_positions()` gives for a coherent location is valid, unless it is on the line 0 without columns. -/
theorem posOf_valid {l : Loc} (hc : Coherent l) (h0 : l.col = none → l.lineno ≠ some 0) :
    ValidArgs true (posOf l).line (posOf l).endLine (posOf l).col (posOf l).endCol := by
  cases hl : l.lineno with
  | none =>
    simp only [posOf, hl]
    exact ⟨by simp, by simp, by simp, by simp, by simp, rfl, by simp, by simp⟩
  | some n =>
    cases hcol : l.col with
    | none =>
      have := h0 hcol
      simp only [posOf, hl, hcol]
      refine ⟨?_, ?_, by simp, by simp, ?_, rfl, by simp, by simp⟩
      · intro x hx; cases hx; simp
      · intro x hx; cases hx
        have : n ≠ 0 := fun e => this (by rw [hl, e])
        omega
      · intro e he; cases he; exact ⟨_, rfl, Int.le_refl _⟩
    | some c =>
      have h1 := hc.colPair
      have h2 := hc.colLine (by rw [hcol]; rfl)
      rw [hcol] at h1
      obtain ⟨ec, hec⟩ := Option.isSome_iff_exists.1 h1.symm
      obtain ⟨el, hel⟩ := Option.isSome_iff_exists.1 h2
      obtain ⟨h3, b, h4, h5⟩ := hc.endLine el hel
      rw [hl] at h4; cases h4
      simp only [posOf, hl, hcol, hel, hec, Option.map_some]
      refine ⟨?_, ?_, ?_, ?_, ?_, rfl, by simp, ?_⟩
      · intro x hx; cases hx; simp
      · intro x hx; cases hx; exact Int.ofNat_le.2 h3
      · intro x hx; cases hx; omega
      · intro x hx; cases hx; exact Int.natCast_nonneg _
      · intro e he; cases he; exact ⟨_, rfl, Int.ofNat_le.2 h5⟩
      · intro hx a b ha hb
        cases ha; cases hb
        have : n = el := Int.ofNat.inj (Option.some.inj hx)
        exact Int.ofNat_le.2 (hc.colOrder (by rw [hl, hel, this]) c ec hcol hec)

/-! ### Constants -/

section
variable {κ : Type} [DecidableEq κ]
variable {P : Platform} {key : Arg → κ} {b : Bytecode} {c : Concrete} {T : Tabs} {M : List Cell}

theorem encodeOperand_consts {A : Attrs} {T T1 : Tabs} {i : Instr} {enc : Enc} (h : encodeOperand P key A T i = .ok (T1, enc)) :
    ∀ v ∈ T1.consts, v ∈ T.consts ∨ (P.hasconst i.opcode = true ∧ v = i.arg) := by
  intro v hv
  have hadd : ∀ {l : List Arg} {w : Arg} {m : List Arg} {k : Nat}, addConst key l w = (m, k) → v ∈ m → v ∈ l ∨ v = w := by
    intro l w m k e hm
    unfold addConst at e
    split at e <;> cases e
    · exact .inl hm
    · simpa using hm
  unfold encodeOperand at h
  repeat' split at h
  all_goals first
    | (simp only [Except.ok.injEq, Prod.mk.injEq] at h
       obtain ⟨rfl, rfl⟩ := h
       first
         | exact .inl hv
         | (rename_i e
            rcases hadd e hv with h | h
            · exact .inl h
            · exact .inr ⟨by assumption, h⟩))
    | (simp at h; done)
    | (obtain ⟨x, hx, h⟩ := except_bind_ok h
       simp only [pure, Except.pure, Except.ok.injEq, Prod.mk.injEq] at h
       obtain ⟨rfl, rfl⟩ := h
       exact .inl hv)

/-- The constants are the docstring and the operands of the instructions about constants. -/
theorem conv_consts (es : List BElem) (A : Attrs) (st st' : Conv) (h : es.foldlM (Conv.step P key A) st = .ok st') :
    ∀ v ∈ st'.tabs.consts, v ∈ st.tabs.consts ∨ ∃ i, .instr i ∈ es ∧ P.hasconst i.opcode = true ∧ v = i.arg := by
  induction es generalizing st with
  | nil => simp only [List.foldlM_nil, pure, Except.pure, Except.ok.injEq] at h; subst h; intro v hv; exact .inl hv
  | cons e es ih =>
    rw [List.foldlM_cons] at h
    obtain ⟨s, hs, h⟩ := except_bind_ok h
    have hstep : ∀ v ∈ s.tabs.consts, v ∈ st.tabs.consts ∨ ∃ i, e = .instr i ∧ P.hasconst i.opcode = true ∧ v = i.arg := by
      unfold Conv.step at hs
      obtain ⟨s', hs', hs⟩ := except_bind_ok hs
      rw [← cacheStep_tabs hs']
      intro v hv
      cases e with
      | label l => simp only [Conv.elem, Except.ok.injEq] at hs; subst hs; exact .inl hv
      | setLineno l => simp only [Conv.elem, Except.ok.injEq] at hs; subst hs; exact .inl hv
      | tryBegin t =>
        simp only [Conv.elem] at hs
        split at hs
        · simp at hs
        · simp only [Except.ok.injEq] at hs; subst hs; exact .inl hv
      | tryEnd id =>
        simp only [Conv.elem] at hs
        split at hs
        · simp only [Except.ok.injEq] at hs; subst hs; exact .inl hv
        · simp at hs
      | instr i =>
        simp only [Conv.elem] at hs
        obtain ⟨⟨T1, enc⟩, henc, hs⟩ := except_bind_ok hs
        have ht : s.tabs = T1 := by
          cases enc with
          | plain a => simp only at hs; exact push_tabs hs
          | jump a => simp only at hs; exact push_tabs hs
          | cell a => simp only at hs; exact push_tabs hs
          | free a => simp only at hs; exact push_tabs hs
          | split n1 i1 n2 i2 =>
            simp only at hs
            obtain ⟨ci, _, hs⟩ := except_bind_ok hs
            exact push_tabs hs
        rw [ht] at hv
        rcases encodeOperand_consts henc v hv with h | ⟨h1, h2⟩
        · exact .inl h
        · exact .inr ⟨i, rfl, h1, h2⟩
    intro v hv
    rcases ih s h v hv with h | ⟨i, hi, h⟩
    · rcases hstep v h with h | ⟨i, rfl, h'⟩
      · exact .inl h
      · exact .inr ⟨i, by simp, h'⟩
    · exact .inr ⟨i, by simp [hi], h⟩

theorem toConcrete_consts {passes : Nat} (h : toConcrete P key passes b = .ok c) :
    ∀ v ∈ c.consts, b.attrs.docstring = some v ∨ ∃ i, .instr i ∈ b.elems ∧ P.hasconst i.opcode = true ∧ v = i.arg := by
  obtain ⟨vs, loc, st, _, h2, h3, _⟩ := toConcrete_conv h
  rw [h3]
  intro v hv
  rcases conv_consts _ _ _ _ h2 v hv with h | h
  · left
    simp only [Conv.init, Option.mem_toList] at h
    exact h
  · exact .inr h

/-! ### Regions, by cells -/

theorem regs_stop (M : List Cell) : ∀ (n : Nat) (cur : Option (Nat × TryB)), ∀ p ∈ regs P n cur M,
    ∃ M1 M2, M = M1 ++ M2 ∧ p.2.stop + 1 = (n + (code P M1).length : Nat) := by
  induction M with
  | nil => intro n cur p hp; simp [regs] at hp
  | cons d M ih =>
    intro n cur p hp
    have ext : ∀ n' cur', n' = n + (d.code P).length → p ∈ regs P n' cur' M →
        ∃ M1 M2, d :: M = M1 ++ M2 ∧ p.2.stop + 1 = (n + (code P M1).length : Nat) := by
      intro n' cur' hn' hp'
      obtain ⟨M1, M2, e, hs⟩ := ih n' cur' p hp'
      refine ⟨d :: M1, M2, by rw [e]; rfl, ?_⟩
      rw [hs, hn', code_cons, List.length_append, Nat.add_assoc]
    unfold regs at hp
    cases hd : d.e with
    | tryBegin t =>
      simp only [hd] at hp
      exact ext _ _ (by simp [Cell.code, hd]) hp
    | tryEnd id =>
      simp only [hd] at hp
      cases cur with
      | none => exact ext _ _ (by simp [Cell.code, hd]) hp
      | some q =>
        rcases List.mem_cons.1 hp with rfl | hp
        · exact ⟨[], d :: M, rfl, by simp [code]⟩
        · exact ext _ _ (by simp [Cell.code, hd]) hp
    | instr i => simp only [hd] at hp; exact ext _ _ rfl hp
    | label i => simp only [hd] at hp; exact ext _ _ rfl hp
    | setLineno i => simp only [hd] at hp; exact ext _ _ rfl hp

theorem regs_start (M : List Cell) : ∀ (n : Nat) (cur : Option (Nat × TryB)) (e : Bool), (∀ s t, cur = some (s, t) → e = true → s = n) →
    NoEmptyTry e (M.map (·.e)) → ∀ p ∈ regs P n cur M, (e = false ∧ ∃ s t, cur = some (s, t) ∧ p.2.start = (s : Nat)) ∨
      ∃ M1 d M2 i, M = M1 ++ d :: M2 ∧ d.e = .instr i ∧ p.2.start = (n + (code P M1).length : Nat) := by
  induction M with
  | nil => intro n cur e _ _ p hp; simp [regs] at hp
  | cons d M ih =>
    intro n cur e hc hne p hp
    have ext : ∀ n', n' = n + (d.code P).length → (∃ M1 d' M2 i, M = M1 ++ d' :: M2 ∧ d'.e = .instr i ∧ p.2.start = (n' + (code P M1).length : Nat)) →
        ∃ M1 d' M2 i, d :: M = M1 ++ d' :: M2 ∧ d'.e = .instr i ∧ p.2.start = (n + (code P M1).length : Nat) := by
      rintro n' hn' ⟨M1, d', M2, i, e, hi, hs⟩
      refine ⟨d :: M1, d', M2, i, by rw [e]; rfl, hi, ?_⟩
      rw [hs, hn', code_cons, List.length_append, Nat.add_assoc]
    unfold regs at hp
    cases hd : d.e with
    | tryBegin t =>
      simp only [hd] at hp
      simp only [List.map_cons, hd, NoEmptyTry] at hne
      rcases ih n _ true (by rintro s t' h _; cases h; rfl) hne p hp with ⟨h, _⟩ | h
      · cases h
      · exact .inr (ext _ (by simp [Cell.code, hd]) h)
    | tryEnd id =>
      simp only [hd] at hp
      simp only [List.map_cons, hd, NoEmptyTry] at hne
      have hrec : p ∈ regs P n none M → (e = false ∧ ∃ s t, cur = some (s, t) ∧ p.2.start = (s : Nat)) ∨
          ∃ M1 d' M2 i, d :: M = M1 ++ d' :: M2 ∧ d'.e = .instr i ∧ p.2.start = (n + (code P M1).length : Nat) := by
        intro hp
        rcases ih n none false (by simp) hne.2 p hp with ⟨_, s, t, h, _⟩ | h
        · cases h
        · exact .inr (ext _ (by simp [Cell.code, hd]) h)
      cases cur with
      | none => exact hrec hp
      | some q =>
        rcases List.mem_cons.1 hp with rfl | hp
        · exact .inl ⟨hne.1, q.1, q.2, rfl, rfl⟩
        · exact hrec hp
    | instr i =>
      simp only [hd] at hp
      simp only [List.map_cons, hd, NoEmptyTry] at hne
      rcases ih _ cur false (by simp) hne p hp with ⟨_, s, t, h, hs⟩ | h
      · cases e with
        | false => exact .inl ⟨rfl, s, t, h, hs⟩
        | true =>
          right
          refine ⟨[], d, M, i, rfl, hd, ?_⟩
          rw [hs, hc s t h rfl]; rfl
      · exact .inr (ext _ rfl h)
    | label i =>
      simp only [hd] at hp
      simp only [List.map_cons, hd, NoEmptyTry] at hne
      have h0 : (d.code P).length = 0 := by simp [Cell.code, hd]
      rcases ih _ cur e (fun s t h h' => by rw [hc s t h h', h0]; rfl) hne p hp with h | h
      · exact .inl h
      · exact .inr (ext _ rfl h)
    | setLineno i =>
      simp only [hd] at hp
      simp only [List.map_cons, hd, NoEmptyTry] at hne
      have h0 : (d.code P).length = 0 := by simp [Cell.code, hd]
      rcases ih _ cur e (fun s t h h' => by rw [hc s t h h', h0]; rfl) hne p hp with h | h
      · exact .inl h
      · exact .inr (ext _ rfl h)

theorem fetchedOf_at (A R : List CInstr) (i : CInstr) (h0 : i.opcode ≠ 0) : ∀ u,
    (⟨i.opcode, i.arg.getD 0, u + unitsOf A, u + unitsOf A + i.size / 2 - 1⟩ : Fetched) ∈ fetchedOf u (A ++ i :: R) := by
  induction A with
  | nil => intro u; simp [fetchedOf, h0, unitsOf]
  | cons a A ih =>
    intro u
    have := ih (u + a.size / 2)
    have e : u + a.size / 2 + unitsOf A = u + unitsOf (a :: A) := by simp [unitsOf]; omega
    rw [e] at this
    rw [List.cons_append, fetchedOf]
    split
    · exact this
    · exact List.mem_cons_of_mem _ this

theorem pos_unitsOf (h11 : P.py311 = true) (A R : List CInstr) : pos P (A ++ R) A.length = unitsOf A := by
  rw [pos_append_left P _ _ (Nat.le_refl _)]
  induction A with
  | nil => simp [pos_zero, unitsOf]
  | cons a A ih =>
    rw [List.length_cons, pos_cons, ih, ← width_units, width_311 h11]
    simp [unitsOf]

/-- The first unit of the code of an instruction is that of an instruction fetched. -/
theorem Final.fetched_cell (h : Final P key b c T M) (h11 : P.py311 = true) {M1 M2 : List Cell} {d : Cell} {i : Instr} (hM : M = M1 ++ d :: M2) (hi : d.e = .instr i) :
    ∃ f ∈ fetchedOf 0 (code P M), f.first = unitsOf (code P M1) ∧ (instrOffsets P 0 (code P M))[(code P M1).length]? = some f.unit := by
  have hd : d ∈ M := by rw [hM]; simp
  obtain ⟨hv, hn, _⟩ := h.mem hd hi
  obtain ⟨x, xs, hx, h0⟩ : ∃ x xs, d.code P = x :: xs ∧ x.opcode ≠ 0 := by
    have hz : ∀ x xs, d.code P = x :: xs → x.name ≠ "CACHE" → x.opcode ≠ 0 := by
      intro x xs e hn h0
      have hxm : x ∈ code P M := by rw [hM, code_append, code_cons, e]; simp
      exact hn ((cache_iff h.wf h11 (h.instrs_valid x hxm).1).2 h0)
    rcases h.shape hd hi with ⟨a, _, hc⟩ | ⟨n1, i1, n2, i2, _, hs, hc⟩
    · exact ⟨_, _, hc, hz _ _ hc hn⟩
    · exact ⟨_, _, hc, hz _ _ hc (split_names hs).1⟩
  have e : code P M = code P M1 ++ x :: (xs ++ code P M2) := by rw [hM, code_append, code_cons, hx]; simp
  have hsz := code_size (P := P) (M := M)
  refine ⟨⟨x.opcode, x.arg.getD 0, unitsOf (code P M1), unitsOf (code P M1) + x.size / 2 - 1⟩, ?_, rfl, ?_⟩
  · rw [e]
    have := fetchedOf_at (code P M1) (xs ++ code P M2) x h0 0
    simpa using this
  · rw [instrOffsets_get P _ hsz, if_pos (by rw [e]; simp)]
    have hp : pos P (code P M) ((code P M1).length + 1) = unitsOf (code P M1) + x.size / 2 := by
      rw [e, pos_append_right, pos_cons, pos_zero, ← width_units, width_311 h11]
      have := pos_unitsOf h11 (code P M1) []
      rw [List.append_nil] at this
      rw [this]; rfl
    have hu : P.unit = 1 := by
      have h10 : P.py310 = true := by simp [Platform.py310, Platform.py311] at *; omega
      simp [Platform.unit, h10]
    rw [hp, hu]
    simp

theorem code_nil {M : List Cell} (h : ∀ d ∈ M, ∀ i, d.e ≠ .instr i) : code P M = [] := by
  induction M with
  | nil => rfl
  | cons d M ih =>
    rw [code_cons, ih (fun x hx => h x (by simp [hx]))]
    have := h d (by simp)
    unfold Cell.code
    split
    · rename_i i hi; exact absurd hi (this i)
    · rfl

/-- The unit at a cut between cells is that of an instruction, or the end. -/
theorem Final.fetched_cut (h : Final P key b c T M) (h11 : P.py311 = true) {M1 M2 : List Cell} (hM : M = M1 ++ M2) :
    (∃ f ∈ fetchedOf 0 (code P M), f.first = unitsOf (code P M1)) ∨ unitsOf (code P M1) = unitsOf (code P M) := by
  have key : ∀ (M2 M1 : List Cell), M = M1 ++ M2 → (∃ f ∈ fetchedOf 0 (code P M), f.first = unitsOf (code P M1)) ∨ unitsOf (code P M1) = unitsOf (code P M) := by
    intro M2
    induction M2 with
    | nil => intro M1 e; right; rw [e, List.append_nil]
    | cons d M2 ih =>
      intro M1 e
      by_cases hi : ∃ i, d.e = .instr i
      · obtain ⟨i, hi⟩ := hi
        obtain ⟨f, hf, hx, _⟩ := h.fetched_cell h11 e hi
        exact .inl ⟨f, hf, hx⟩
      · have hd : code P (M1 ++ [d]) = code P M1 := by
          rw [code_append, code_nil (M := [d]) (by intro x hx i hxi; rw [List.mem_singleton.1 hx] at hxi; exact hi ⟨i, hxi⟩), List.append_nil]
        have := ih (M1 ++ [d]) (by rw [e]; simp)
        rw [hd] at this
        exact this
  exact key M2 M1 hM

/-- The entries of the exception table of the result: where they start, stop and lead. -/
theorem Final.entry_cells (h : Final P key b c T M) (h11 : P.py311 = true) (hw : WellTried none [] false b.elems) (hne : NoEmptyTry false b.elems) :
    ∀ e ∈ c.excTable, (∃ f ∈ fetchedOf 0 (code P M), e.start = (f.unit : Nat)) ∧
      ((∃ f ∈ fetchedOf 0 (code P M), e.stop + 1 = (f.first : Nat)) ∨ e.stop + 1 = (unitsOf (code P M) : Nat)) := by
  have hw' : WellTried none [] false (M.map (·.e)) := by rw [h.lay.elems]; exact hw
  have hbl := (blocks_regs (P := P) M 0 [] false [] (by simp)).1 hw'
  rw [List.nil_append] at hbl
  have htab := h.table
  rw [hbl] at htab
  have hrange := regs_range h.code_pos M (fun d hd => hd) 0 none [] false (by simp) (by simp) hw'
  intro e he
  obtain ⟨p, hp, hpe⟩ := mapM_mem _ _ htab e he
  obtain ⟨r1, r2, _⟩ := hrange p hp
  unfold resolveEntry at hpe
  obtain ⟨s, hs, hpe⟩ := except_bind_ok hpe
  obtain ⟨t, ht, hpe⟩ := except_bind_ok hpe
  obtain ⟨ti, hti, hpe⟩ := except_bind_ok hpe
  obtain ⟨htl, _⟩ := h.label hti
  rw [labelOffsets_get P _ code_size, if_pos (by omega)] at hpe
  simp only [pure, Except.pure, Except.ok.injEq, Nat.zero_add] at hpe
  subst hpe
  have hs' := pyGet_ok hs r1
  have ht' := pyGet_ok ht r2
  constructor
  · rcases regs_start M 0 none false (by simp) (by rw [h.lay.elems]; exact hne) p hp with ⟨_, _, _, hx, _⟩ | ⟨M1, d, M2, i, hM, hi, hst⟩
    · cases hx
    · obtain ⟨f, hf, _, hu⟩ := h.fetched_cell h11 hM hi
      rw [hst] at hs'
      simp only [Nat.zero_add, Int.toNat_natCast] at hs'
      rw [hu] at hs'
      exact ⟨f, hf, by rw [Option.some.inj hs']⟩
  · obtain ⟨M1, M2, hM, hst⟩ := regs_stop M 0 none p hp
    have hlen : p.2.stop.toNat + 1 = (code P M1).length := by omega
    have hk : t + 1 = unitsOf (code P M1) := by
      have hsz := code_size (P := P) (M := M)
      rw [instrOffsets_get P _ hsz] at ht'
      have hlt : p.2.stop.toNat < (code P M).length := by rw [hM, code_append, List.length_append]; omega
      rw [if_pos hlt, hlen] at ht'
      have hu : P.unit = 1 := by
        have h10 : P.py310 = true := by simp [Platform.py310, Platform.py311] at *; omega
        simp [Platform.unit, h10]
      have hpu : pos P (code P M) (code P M1).length = unitsOf (code P M1) := by rw [hM, code_append]; exact pos_unitsOf h11 _ _
      have hpos := pos_lt_pos P (code P M) hsz (k := 0) (m := (code P M1).length) (by omega) (by omega)
      rw [pos_zero] at hpos
      rw [hpu, hu] at ht'
      rw [hpu] at hpos
      simp only [Nat.zero_add, Option.some.injEq] at ht'
      omega
    rcases h.fetched_cut h11 hM with ⟨f, hf, hx⟩ | hx
    · left; exact ⟨f, hf, by simp only; omega⟩
    · right; simp only; omega

end
end Verif
