import Verif.Proofs.AssembleD
import Verif.Props.ToCode
import Verif.Props.ExcTable
import Verif.Props.LineTables
/-
Writing the code object does not fail.
-/
namespace Verif
open Spec

/-! ### Line tables before 3.11 -/

theorem packLinetable_total (doff : Int) (dl : Option Int) (h : 0 ≤ doff) : ∃ bs, packLinetable doff dl = .ok bs := by
  cases dl with
  | some d =>
    obtain ⟨bs, hb, _⟩ := packLinetable_some doff d h
    exact ⟨bs, hb⟩
  | none =>
    unfold packLinetable
    simp only [bind, Except.bind, pure, Except.pure, pyAssert]
    by_cases hbig : doff > 254
    · obtain ⟨b3, d3, e3, r1, r2, r3, r4⟩ := linetableOffLoop_ok (doff - 254) (by omega)
      obtain ⟨y, hy, hs⟩ := packBb_ok 254 (-128) (by omega)
      obtain ⟨z, hz, hsz⟩ := packBb_ok d3 0 (by omega)
      simp only [hbig, if_true, hy, hz, e3]
      rw [if_pos (by simp; omega)]
      exact ⟨_, rfl⟩
    · obtain ⟨y, hy, hs⟩ := packBb_ok doff (-128) (by omega)
      simp only [hbig, if_false, hy]
      rw [if_pos (by simp; omega)]
      exact ⟨_, rfl⟩

theorem assembleLinetableLoop_total (l : List LineInfo) : ∀ (off : Nat) (line : Int) (dl : Option Int) (en : Nat), Sorted off l → off ≤ en →
    ∃ bs, assembleLinetableLoop off line dl en l = .ok bs := by
  induction l with
  | nil =>
    intro off line dl en _ he
    rw [assembleLinetableLoop]
    exact packLinetable_total _ _ (by omega)
  | cons i r ih =>
    intro off line dl en hs he
    obtain ⟨h1, h2⟩ := hs
    rw [assembleLinetableLoop]
    split
    · have := ih off line dl (i.offset + i.size) (h2.mono h1) (by omega)
      rw [show ((i.offset + i.size : Nat) : Int) = (i.offset : Int) + i.size by omega] at this
      exact this
    · obtain ⟨p, hp⟩ := packLinetable_total ((i.offset : Int) - off) dl (by omega)
      have := ih i.offset i.lineno (linetableDelta i line) (i.offset + i.size) h2 (by omega)
      rw [show ((i.offset + i.size : Nat) : Int) = (i.offset : Int) + i.size by omega] at this
      obtain ⟨q, hq⟩ := this
      exact bind_total hp (bind_total hq ⟨_, rfl⟩)

theorem assembleLinetable_total (first : Nat) (l : List LineInfo) (h : Sorted 0 l) : ∃ bs, assembleLinetable first l = .ok bs := by
  cases l with
  | nil => exact ⟨_, rfl⟩
  | cons i r =>
    unfold assembleLinetable
    simp only
    have := assembleLinetableLoop_total r 0 i.lineno (linetableDelta i first) (i.offset + i.size) (h.2.mono (by omega)) (by omega)
    rw [show ((i.offset + i.size : Nat) : Int) = (i.offset : Int) + i.size by omega] at this
    exact this

section
variable {κ : Type} [DecidableEq κ]
variable {P : Platform} {key : Arg → κ} {b : Bytecode} {c : Concrete} {T : Tabs} {M : List Cell}

/-- The location of a cell is a line only, or that of an instruction. -/
theorem cellLoc_from {A : Attrs} (es : List BElem) : ∀ (M : List Cell) (loc : Loc), FLay P key A T loc es M →
    ∀ d ∈ M, d.loc = loc ∨ (∃ n, d.loc = Loc.line n) ∨ ∃ i, .instr i ∈ es ∧ i.loc = some d.loc := by
  induction es with
  | nil =>
    intro M loc h d hd
    cases M with
    | nil => simp at hd
    | cons _ _ => exact h.elim
  | cons e es ih =>
    intro M loc h d hd
    cases M with
    | nil => simp at hd
    | cons c M =>
      obtain ⟨h1, h2, _, h4⟩ := h
      have hn : nextLoc loc e = loc ∨ (∃ n, nextLoc loc e = Loc.line n) ∨ ∃ i, .instr i ∈ e :: es ∧ i.loc = some (nextLoc loc e) := by
        cases e with
        | instr i =>
          cases hl : i.loc with
          | none => exact .inl (by simp [nextLoc, hl])
          | some l => exact .inr (.inr ⟨i, by simp, by simp [nextLoc, hl]⟩)
        | setLineno n => exact .inr (.inl ⟨_, rfl⟩)
        | label _ => exact .inl rfl
        | tryBegin _ => exact .inl rfl
        | tryEnd _ => exact .inl rfl
      rcases List.mem_cons.1 hd with rfl | hd
      · rw [h2]; exact hn
      · rcases ih M _ h4 d hd with e1 | e1 | ⟨i, hi, hl⟩
        · rw [e1]; exact hn
        · exact .inr (.inl e1)
        · exact .inr (.inr ⟨i, by simp [hi], hl⟩)

theorem line_encodable (n : Option Nat) : ¬ Unencodable (Loc.line n) := by
  rintro ⟨_, e, h, h'⟩
  cases n with
  | none => simp [Loc.line] at h
  | some n => simp [Loc.line] at h h'

/-- Some instruction has a location the format cannot express, iff the code has one. -/
theorem Final.unencodable (h : Final P key b c T M) :
    (∃ ci ∈ code P M, ∃ l, ci.loc = some l ∧ Unencodable l) ↔ ∃ i l, .instr i ∈ b.elems ∧ i.loc = some l ∧ Unencodable l := by
  constructor
  · rintro ⟨ci, hci, l, hl, hu⟩
    simp only [code, List.mem_flatMap] at hci
    obtain ⟨d, hd, hci⟩ := hci
    rw [cell_loc d ci hci] at hl
    simp only [Option.some.injEq] at hl
    subst hl
    rcases cellLoc_from _ _ _ h.lay d hd with e | ⟨n, e⟩ | ⟨i, hi, e⟩
    · rw [e] at hu; exact absurd hu (line_encodable _)
    · rw [e] at hu; exact absurd hu (line_encodable _)
    · exact ⟨i, _, hi, e, hu⟩
  · rintro ⟨i, l, hi, hl, hu⟩
    rw [← h.lay.elems] at hi
    obtain ⟨d, hd, he⟩ := List.mem_map.1 hi
    have hp := h.code_pos d hd i he
    obtain ⟨ci, hci⟩ := List.exists_mem_of_length_pos hp
    refine ⟨ci, ?_, l, ?_, hu⟩
    · simp only [code, List.mem_flatMap]; exact ⟨d, hd, hci⟩
    · rw [cell_loc d ci hci]
      have : ∀ (es : List BElem) (M : List Cell) (loc : Loc), FLay P key b.attrs T loc es M → ∀ d ∈ M, ∀ i, d.e = .instr i →
          ∀ l, i.loc = some l → d.loc = l := by
        intro es
        induction es with
        | nil =>
          intro M loc h d hd
          cases M with
          | nil => simp at hd
          | cons _ _ => exact h.elim
        | cons e es ih =>
          intro M loc h d hd i hi l hl
          cases M with
          | nil => simp at hd
          | cons c M =>
            obtain ⟨h1, h2, _, h4⟩ := h
            rcases List.mem_cons.1 hd with rfl | hd
            · rw [h2, ← h1, hi]; simp [nextLoc, hl]
            · exact ih M _ h4 d hd i hi l hl
      rw [this _ _ _ h.lay d hd i he l hl]

theorem Final.infos (h : Final P key b c T M) : ∀ x ∈ (assembleCode P c.attrs.firstLineno c.elems).2,
    (x.size % 2 = 0 ∧ 2 ≤ x.size) ∧ ∃ ci ∈ code P M, x.loc = ci.loc ∧ ∀ l, x.loc = some l → Coherent l := by
  obtain ⟨hszs, hlocs⟩ := assembleCodeLoop_sizes P c.elems c.attrs.firstLineno 0
  rw [h.elems, instrsOf_map] at hszs hlocs
  intro x hx
  unfold assembleCode at hx
  rw [h.elems] at hx
  constructor
  · have : x.size ∈ (code P M).map (·.size) := by rw [← hszs]; exact List.mem_map_of_mem hx
    obtain ⟨i, hi, e⟩ := List.mem_map.1 this
    rw [← e]
    have := size_of_units (h.readable i hi)
    omega
  · have : x.loc ∈ (code P M).map (·.loc) := by rw [← hlocs]; exact List.mem_map_of_mem hx
    obtain ⟨i, hi, e⟩ := List.mem_map.1 this
    refine ⟨i, hi, e.symm, fun l hl => ?_⟩
    rw [hl] at e
    exact (h.readable i hi).valid.loc_ok l e

theorem Final.sorted (h : Final P key b c T M) : Sorted 0 (assembleCode P c.attrs.firstLineno c.elems).2 := by
  have := assembleCodeLoop_infos P c.elems c.attrs.firstLineno 0 (fun i hi => by
    rw [h.elems, List.mem_map] at hi
    obtain ⟨j, hj, e⟩ := hi
    simp only [CElem.instr.injEq] at e
    subst e
    have := size_of_units (h.readable j hj)
    omega)
  simpa [assembleCode] using this

/-- The entries of the exception table can be written. -/
theorem Final.entries (h : Final P key b c T M) (hw : WellTried none [] false b.elems) (he : NoEmptyTry false b.elems) :
    ∀ e ∈ c.excTable, e.Valid := by
  have hw' : WellTried none [] false (M.map (·.e)) := by rw [h.lay.elems]; exact hw
  have hbl := (blocks_regs (P := P) M 0 [] false [] (by simp)).1 hw'
  rw [List.nil_append] at hbl
  have htab := h.table
  rw [hbl] at htab
  have hrange := regs_range h.code_pos M (fun d hd => hd) 0 none [] false (by simp) (by simp) hw'
  have hne := regs_nonempty h.code_pos M (fun d hd => hd) 0 none false (by simp) (by rw [h.lay.elems]; exact he)
  intro e hme
  obtain ⟨p, hp, hpe⟩ := mapM_mem _ _ htab e hme
  obtain ⟨r1, r2, r3, r4, r5⟩ := hrange p hp
  unfold resolveEntry at hpe
  obtain ⟨s, hs, hpe⟩ := except_bind_ok hpe
  obtain ⟨t, ht, hpe⟩ := except_bind_ok hpe
  obtain ⟨ti, hti, hpe⟩ := except_bind_ok hpe
  split at hpe
  · simp only [pure, Except.pure, Except.ok.injEq] at hpe
    subst hpe
    have := (offset_mono code_size (pyGet_ok hs r1) (pyGet_ok ht r2)).2 (by have := hne p hp; omega)
    refine ⟨by simp, ?_, by simp, ?_⟩
    · show (s : Int) - 1 ≤ t
      omega
    · show 0 ≤ p.2.depth
      rw [r4]; omega
  · simp [throw, throwThe, MonadExceptOf.throw] at hpe

/-- Writing on 3.11: only the locations may prevent it. -/
theorem Final.emit_iff (h : Final P key b c T M) (hw : P.py311 = true → WellTried none [] false b.elems ∧ NoEmptyTry false b.elems) (n : Int) :
    (∃ co, c.emit P n = .ok co) ↔ (P.py311 = true → ∀ i l, .instr i ∈ b.elems → i.loc = some l → ¬ Unencodable l) := by
  have hinf := h.infos
  by_cases h11 : P.py311 = true
  · obtain ⟨hw, he⟩ := hw h11
    constructor
    · rintro ⟨co, hco⟩ _ i l hi hl hu
      obtain ⟨ci, hci, l', hl', hu'⟩ := h.unencodable.2 ⟨i, l, hi, hl, hu⟩
      unfold Concrete.emit at hco
      simp only [h11, if_true] at hco
      obtain ⟨table, htab, _⟩ := except_bind_ok hco
      obtain ⟨_, hlocs⟩ := assembleCodeLoop_sizes P c.elems c.attrs.firstLineno 0
      have hm : ci.loc ∈ (assembleCode P c.attrs.firstLineno c.elems).2.map (·.loc) := by
        unfold assembleCode
        rw [hlocs, h.elems, instrsOf_map]
        exact List.mem_map_of_mem hci
      obtain ⟨x, hx, hxl⟩ := List.mem_map.1 hm
      have := (C04_locations_raise_iff c.attrs.firstLineno _ (fun x hx => (hinf x hx).1) (fun x hx => by
        obtain ⟨_, _, _, h3⟩ := (hinf x hx).2; exact h3)).2 ⟨x, hx, l', by rw [hxl]; exact hl', hu'⟩
      rw [htab] at this
      simp at this
    · intro hl
      have hl := hl h11
      unfold Concrete.emit
      simp only [h11, if_true]
      obtain ⟨table, htab, _⟩ := C03_positions_are_locations c.attrs.firstLineno (assembleCode P c.attrs.firstLineno c.elems).2
        (fun x hx => (hinf x hx).1) (fun x hx l hxl => by
          obtain ⟨ci, hci, e, hc⟩ := (hinf x hx).2
          refine ⟨hc l hxl, fun hu => ?_⟩
          obtain ⟨i, l', hi, hl', hu'⟩ := h.unencodable.1 ⟨ci, hci, l, by rw [← e]; exact hxl, hu⟩
          exact hl i l' hi hl' hu')
      obtain ⟨bs, hbs, _⟩ := C01_exception_table_roundtrip c.excTable (h.entries hw he)
      exact bind_total htab (bind_total hbs ⟨_, rfl⟩)
  · have hf : P.py311 = false := by simpa using h11
    refine ⟨fun _ h' => absurd h' h11, fun _ => ?_⟩
    unfold Concrete.emit
    simp only [hf, Bool.false_eq_true, if_false]
    have ht : ∃ bs, (if P.py310 = true then assembleLinetable c.attrs.firstLineno (assembleCode P c.attrs.firstLineno c.elems).2
        else assembleLnotab c.attrs.firstLineno (assembleCode P c.attrs.firstLineno c.elems).2) = .ok bs := by
      split
      · exact assembleLinetable_total _ _ h.sorted
      · obtain ⟨bs, hb, _⟩ := assembleLnotabLoop_ok _ 0 c.attrs.firstLineno h.sorted
        exact ⟨bs, hb⟩
    obtain ⟨bs, hb⟩ := ht
    exact bind_total hb (bind_total rfl ⟨_, rfl⟩)

end
end Verif
