import Verif.Props.Errors
import Verif.Props.GraphErrors
import Verif.Props.ConcreteToCode
import Verif.Props.StackTotal
import Verif.Props.DecodeErrors
import Verif.Spec.Errors
/-
C82: an exception of to_code names the mistake.
-/
namespace Verif
open Spec
variable {κ : Type} [DecidableEq κ] {P : Platform} {key : Arg → κ} {eff : Instr → Bool → Py (Int × Int)}

theorem size_even {ci : CInstr} (h : ValidCInstr P ci) : ci.size % 2 = 0 ∧ 2 ≤ ci.size := by
  rw [h.size_eq]
  unfold sizeFor
  omega

theorem mem_instrsOf {ci : CInstr} {es : List CElem} : ci ∈ instrsOf es ↔ .instr ci ∈ es := by
  unfold instrsOf
  rw [List.mem_filterMap]
  constructor
  · rintro ⟨e, he, h⟩
    cases e with
    | instr i => cases h; exact he
    | setLineno n => cases h
  · intro h; exact ⟨_, h, rfl⟩

/-- An entry the exception table of a code object can hold. -/
def Spec.EntryWritable (e : ExcEntry) : Prop := 0 ≤ e.start ∧ e.start - 1 ≤ e.stop ∧ 0 ≤ e.target ∧ 0 ≤ e.depth

/-- Writing fails exactly for a location, then an entry, that cannot be written. -/
theorem emit_error {c : Concrete} (hv : ∀ ci, .instr ci ∈ c.elems → ValidCInstr P ci) (n : Int) (e : PyErr) :
    c.emit P n = .error e ↔ P.py311 = true ∧
      ((e = .valueError ∧ ∃ ci l, .instr ci ∈ c.elems ∧ ci.loc = some l ∧ Unencodable l) ∨
       (e = .assertionError ∧ (∀ ci l, .instr ci ∈ c.elems → ci.loc = some l → ¬ Unencodable l) ∧ ∃ x ∈ c.excTable, ¬ EntryWritable x)) := by
  have hsorted : Sorted 0 (assembleCode P c.attrs.firstLineno c.elems).2 := by
    have := assembleCodeLoop_infos P c.elems c.attrs.firstLineno 0 (fun i hi => (size_even (hv i hi)).1)
    simpa [assembleCode] using this
  obtain ⟨hszs, hlocs⟩ := assembleCodeLoop_sizes P c.elems c.attrs.firstLineno 0
  have hs : ∀ x ∈ (assembleCode P c.attrs.firstLineno c.elems).2, x.size % 2 = 0 ∧ 2 ≤ x.size := by
    intro x hx
    unfold assembleCode at hx
    have : x.size ∈ (instrsOf c.elems).map (·.size) := by rw [← hszs]; exact List.mem_map_of_mem hx
    obtain ⟨i, hi, h⟩ := List.mem_map.1 this
    rw [← h]
    exact size_even (hv i (mem_instrsOf.1 hi))
  have hl : ∀ x ∈ (assembleCode P c.attrs.firstLineno c.elems).2, ∃ ci, .instr ci ∈ c.elems ∧ ci.loc = x.loc := by
    intro x hx
    unfold assembleCode at hx
    have : x.loc ∈ (instrsOf c.elems).map (·.loc) := by rw [← hlocs]; exact List.mem_map_of_mem hx
    obtain ⟨i, hi, h⟩ := List.mem_map.1 this
    exact ⟨i, mem_instrsOf.1 hi, h⟩
  have hl' : ∀ ci, .instr ci ∈ c.elems → ∃ x ∈ (assembleCode P c.attrs.firstLineno c.elems).2, x.loc = ci.loc := by
    intro ci hci
    have : ci.loc ∈ (assembleCode P c.attrs.firstLineno c.elems).2.map (·.loc) := by
      unfold assembleCode
      rw [hlocs]
      exact List.mem_map_of_mem (mem_instrsOf.2 hci)
    exact List.mem_map.1 this
  cases h11 : P.py311 with
  | false =>
    simp only [Bool.false_eq_true, false_and, iff_false]
    intro h
    have ht : ∃ bs, (if P.py310 = true then assembleLinetable c.attrs.firstLineno (assembleCode P c.attrs.firstLineno c.elems).2
        else assembleLnotab c.attrs.firstLineno (assembleCode P c.attrs.firstLineno c.elems).2) = .ok bs := by
      split
      · exact assembleLinetable_total _ _ hsorted
      · obtain ⟨bs, hb, _⟩ := assembleLnotabLoop_ok _ 0 c.attrs.firstLineno hsorted
        exact ⟨bs, hb⟩
    obtain ⟨bs, hb⟩ := ht
    have : ∃ co, c.emit P n = .ok co := by
      unfold Concrete.emit
      simp only [h11, Bool.false_eq_true, if_false]
      exact bind_total hb (bind_total rfl ⟨_, rfl⟩)
    obtain ⟨co, hco⟩ := this
    rw [h] at hco
    cases hco
  | true =>
    simp only [true_and]
    have hcoh : ∀ x ∈ (assembleCode P c.attrs.firstLineno c.elems).2, ∀ l, x.loc = some l → Coherent l := by
      intro x hx l hxl
      obtain ⟨ci, hci, h⟩ := hl x hx
      exact (hv ci hci).loc_ok l (by rw [h]; exact hxl)
    by_cases hu : ∃ ci l, .instr ci ∈ c.elems ∧ ci.loc = some l ∧ Unencodable l
    · obtain ⟨ci, l, hci, hil, hun⟩ := hu
      obtain ⟨x, hx, hxl⟩ := hl' ci hci
      have herr := (C04_locations_raise_iff c.attrs.firstLineno _ hs hcoh).2 ⟨x, hx, l, by rw [hxl]; exact hil, hun⟩
      have : c.emit P n = .error .valueError := by
        unfold Concrete.emit
        simp only [h11, if_true]
        rw [herr]
        rfl
      rw [this]
      constructor
      · intro h; cases h; exact .inl ⟨rfl, ci, l, hci, hil, hun⟩
      · rintro (⟨rfl, _⟩ | ⟨_, h, _⟩)
        · rfl
        · exact absurd hun (h ci l hci hil)
    · have hno : ∀ ci l, .instr ci ∈ c.elems → ci.loc = some l → ¬ Unencodable l := fun ci l h1 h2 h3 => hu ⟨ci, l, h1, h2, h3⟩
      obtain ⟨table, htab, _⟩ := C03_positions_are_locations c.attrs.firstLineno (assembleCode P c.attrs.firstLineno c.elems).2 hs (fun x hx l hxl => by
        refine ⟨hcoh x hx l hxl, ?_⟩
        obtain ⟨ci, hci, h⟩ := hl x hx
        exact hno ci l hci (by rw [h]; exact hxl))
      by_cases hE : ∃ x ∈ c.excTable, ¬ EntryWritable x
      · have herr := (C01_exception_table_error c.excTable).1 hE
        have : c.emit P n = .error .assertionError := by
          unfold Concrete.emit
          simp only [h11, if_true]
          rw [htab]
          simp only [bind, Except.bind]
          rw [herr]
        rw [this]
        constructor
        · intro h; cases h; exact .inr ⟨rfl, hno, hE⟩
        · rintro (⟨_, h⟩ | ⟨rfl, _⟩)
          · exact absurd h hu
          · rfl
      · obtain ⟨bs, hbs, _⟩ := C01_exception_table_roundtrip c.excTable (fun x hx => Classical.byContradiction fun h => hE ⟨x, hx, h⟩)
        have : ∃ co, c.emit P n = .ok co := by
          unfold Concrete.emit
          simp only [h11, if_true]
          exact bind_total htab (bind_total hbs ⟨_, rfl⟩)
        obtain ⟨co, hco⟩ := this
        rw [hco]
        constructor
        · intro h; cases h
        · rintro (⟨_, h⟩ | ⟨_, _, h⟩)
          · exact absurd h hu
          · exact absurd h hE

/-- **C82 (ConcreteBytecode, as it is).** With a stack size and without the computation of depths, `ConcreteBytecode.to_code` raises ValueError exactly
when a location spans several lines without columns (3.11+) and otherwise AssertionError exactly when an entry of the exception table has a negative
number or stops more than a unit before it starts (3.11+). Before 3.11 it never fails. -/
theorem C82_concrete {c : Concrete} (hv : ∀ ci, .instr ci ∈ c.elems → ValidCInstr P ci) {depths : Bool} (hd : (P.py311 && depths) = false) (n : Int) (e : PyErr) :
    c.toCode P key eff (some n) depths = .error e ↔ P.py311 = true ∧
      ((e = .valueError ∧ ∃ ci l, .instr ci ∈ c.elems ∧ ci.loc = some l ∧ Unencodable l) ∨
       (e = .assertionError ∧ (∀ ci l, .instr ci ∈ c.elems → ci.loc = some l → ¬ Unencodable l) ∧ ∃ x ∈ c.excTable, ¬ EntryWritable x)) := by
  unfold Concrete.toCode
  simp only [hd, Bool.false_eq_true, if_false]
  exact emit_error hv n e

theorem bind_cases {α β : Type} {x : Py α} {f : α → Py β} {e : PyErr} (h : (x >>= f) = .error e) : x = .error e ∨ ∃ a, x = .ok a ∧ f a = .error e := by
  cases x with
  | error e' => left; cases h; rfl
  | ok a => right; exact ⟨a, rfl, h⟩

/-- Writing what was assembled from regions that hold instructions: only a location can prevent it. -/
theorem Final.emit_error {b : Bytecode} {c : Concrete} {T : Tabs} {M : List Cell} (h : Final P key b c T M)
    (hw : P.py311 = true → WellTried none [] false b.elems ∧ NoEmptyTry false b.elems) {n : Int} {e : PyErr} (he : c.emit P n = .error e) :
    P.py311 = true ∧ e = .valueError ∧ ∃ i l, .instr i ∈ b.elems ∧ i.loc = some l ∧ Unencodable l := by
  have hv : ∀ ci, .instr ci ∈ c.elems → ValidCInstr P ci := by
    intro ci hci
    rw [h.elems, List.mem_map] at hci
    obtain ⟨j, hj, hx⟩ := hci
    cases hx
    exact (h.readable _ hj).valid
  obtain ⟨h11, hx | ⟨_, _, x, hx, hbad⟩⟩ := (Verif.emit_error hv n e).1 he
  · obtain ⟨rfl, ci, l, hci, hil, hu⟩ := hx
    refine ⟨h11, rfl, h.unencodable.1 ⟨ci, ?_, l, hil, hu⟩⟩
    rw [h.elems, List.mem_map] at hci
    obtain ⟨j, hj, hx⟩ := hci
    cases hx
    exact hj
  · obtain ⟨hw, hne⟩ := hw h11
    exact absurd (h.entries hw hne x hx) hbad

variable {b : Bytecode} {passes : Nat}

/-- **C82 (given stack size).** Without the computation of depths, an exception of `Bytecode.to_code` is one of the assembler, and
names a mistake of C75, or a ValueError for a location that spans several lines without columns (3.11+). -/
theorem C82_given (hP : P.WF) (hw : WellMade P b) (ht : P.py311 = true → WellTried none [] false b.elems ∧ NoEmptyTry false b.elems)
    {depths : Bool} (hd : (P.py311 && depths) = false) {n : Int} {e : PyErr} (h : b.toCode P key eff passes (some n) depths = .error e) :
    Wrong P b passes e ∨ P.py311 = true ∧ e = .valueError ∧ ∃ i l, .instr i ∈ b.elems ∧ i.loc = some l ∧ Unencodable l := by
  unfold Bytecode.toCode at h
  simp only [hd, Bool.false_eq_true, if_false] at h
  rcases bind_cases h with h | ⟨c, hc, h⟩
  · exact .inl (C75_says hP key hw h)
  · obtain ⟨T, M, hF⟩ := toConcrete_Final hP (noCache_of hw) (fun i hi => (hw.valid i hi).1) hc
    exact .inr (hF.emit_error ht h)

/-- A jump of the analysed code and the jump it comes from. -/
theorem jump_same {b' : Bytecode} (hc : codeB b' = codeB b) (hlost : ∀ m o loc, CodeItem.op m o .lost loc ∉ codeB b) (hl : LabelsOnly b)
    {pre post : List BElem} {i : Instr} {l : Nat} (h : b'.elems = pre ++ .instr i :: post) (hi : i.arg = .label l) :
    ∃ pre' j post' l' t, b.elems = pre' ++ .instr j :: post' ∧ j.name = i.name ∧ j.opcode = i.opcode ∧ j.arg = .label l' ∧
      instrCount pre' = instrCount pre ∧ labelAt l b'.elems = some t ∧ labelAt l' b.elems = some t := by
  have hm : (0 + instrCount pre, i.name, i.opcode, argRef (fun l => labelAt l b'.elems) (fun _ => none) i.arg) ∈ ranked 0 (codeB b') :=
    ranked_mem.2 ⟨pre, i, post, h, rfl⟩
  rw [hc] at hm
  obtain ⟨pre', j, post', hb, hx⟩ := ranked_mem.1 hm
  simp only [Prod.mk.injEq] at hx
  obtain ⟨h1, h2, h3, h4⟩ := hx
  have hjm : BElem.instr j ∈ b.elems := by rw [hb]; simp
  have hnl : ArgRef.lost ≠ argRef (fun l => labelAt l b.elems) (fun _ => none) j.arg := by
    intro hx
    apply hlost j.name j.opcode j.loc
    rw [hx]
    exact List.mem_filterMap.2 ⟨_, hjm, rfl⟩
  cases hlab : labelAt l b'.elems with
  | none =>
    rw [hi] at h4
    have e1 : argRef (fun l => labelAt l b'.elems) (fun _ => none) (.label l) = .lost := by simp [argRef, hlab]
    rw [e1] at h4
    exact absurd h4 hnl
  | some t =>
    rw [hi] at h4
    have e1 : argRef (fun l => labelAt l b'.elems) (fun _ => none) (.label l) = .target t := by simp [argRef, hlab]
    rw [e1] at h4
    cases hj : j.arg with
    | label l' =>
      rw [hj] at h4
      simp only [argRef] at h4
      cases hlab' : labelAt l' b.elems with
      | none => rw [hlab'] at h4; cases h4
      | some t' =>
        rw [hlab'] at h4
        simp only [ArgRef.target.injEq] at h4
        exact ⟨pre', j, post', l', t, hb, h2.symm, h3.symm, hj, by omega, rfl, by rw [h4]; exact hlab'⟩
    | block x => exact absurd hj (hl j hjm x)
    | _ => rw [hj] at h4; cases h4

/-- A mistake of the code that comes out of the stack analysis is one of the code that went in. -/
theorem wrong_sized (hl : LabelsOnly b) (ht : WellTried none [] false b.elems) (hne : NoEmptyTry false b.elems) {b' : Bytecode} {n : Int}
    (hs : b.sized P eff true = .ok (n, b')) {e : PyErr} (h : Wrong P b' passes e) : Wrong P b passes e := by
  obtain ⟨s1, s2, s3, s4, s5, s6, g, g', hg, _⟩ := sized_spec hl ht hs
  obtain ⟨y1, y2⟩ := sized_tries hl ht hne hs
  have s6' : ∀ m o loc, CodeItem.op m o .lost loc ∉ codeB b' := by rw [s1]; exact s6
  have hl' : LabelsOnly b' := fun i hi => by
    obtain ⟨_, _, _, _, _, _, h⟩ := item_instr hl s1 s6 hi
    exact h
  have hlab : ∀ i l, BElem.instr i ∈ b'.elems → i.arg = .label l → BElem.label l ∈ b'.elems := by
    intro i l hi hil
    cases hx : labelAt l b'.elems with
    | some t => exact labelAt_mem hx
    | none =>
      exfalso
      apply s6' i.name i.opcode i.loc
      refine List.mem_filterMap.2 ⟨_, hi, ?_⟩
      simp [argRef, hil, hx]
  cases h with
  | line h1 h2 => exact .line h1 (by rw [← s3]; exact h2)
  | @cell i nm h1 h2 h3 h4 =>
    obtain ⟨j, hj, g1, g2, g3, g4, _⟩ := item_instr hl s1 s6 h1
    refine .cell hj (by rw [g2]; exact h2) (n := nm) ?_ (by rw [← s3]; exact h4)
    rcases g4 with g4 | ⟨⟨l, g4⟩, _⟩
    · rw [g4]; exact h3
    · rw [h3] at g4; cases g4
  | @free i nm h1 h2 h3 h4 =>
    obtain ⟨j, hj, g1, g2, g3, g4, _⟩ := item_instr hl s1 s6 h1
    refine .free hj (by rw [g2]; exact h2) (n := nm) ?_ (by rw [← s3]; exact h4)
    rcases g4 with g4 | ⟨⟨l, g4⟩, _⟩
    · rw [g4]; exact h3
    · rw [h3] at g4; cases g4
  | @forward pre post i l h1 h2 h3 h4 h5 =>
    obtain ⟨pre', j, post', l', t, k1, k2, k3, k4, k5, k6, k7⟩ := jump_same s1 s6 hl h1 h2
    have hm := labelAt_mem k7
    rw [h1] at k6
    rw [k1] at k7 hm
    have hnot : BElem.label l' ∉ post' := by
      intro hx
      apply h5
      rw [labelAt_split k6]
      have := (labelAt_split k7).1 hx
      omega
    refine .forward k1 k4 (by rw [k2, k3]; exact h3) ?_ hnot
    rcases List.mem_append.1 hm with hm | hm
    · exact hm
    · rcases List.mem_cons.1 hm with hm | hm
      · cases hm
      · exact absurd hm hnot
  | @backward pre mid post i j0 l h1 h2 h3 h4 =>
    have h1' : b'.elems = pre ++ .instr i :: (mid ++ .label l :: post) := by rw [h1]; simp
    obtain ⟨pre', j, post', l', t, k1, k2, k3, k4, k5, k6, k7⟩ := jump_same s1 s6 hl h1' h2
    rw [h1'] at k6
    rw [k1] at k7
    have hfar : ¬ t ≤ instrCount pre + 1 := by
      intro hx
      exact (labelAt_near k6).1 hx mid post rfl j0 h4
    have hfar' : ¬ ∀ mid' post'', post' = mid' ++ .label l' :: post'' → ∀ j, BElem.instr j ∉ mid' := by
      rw [← labelAt_near k7, k5]
      exact hfar
    apply Classical.byContradiction
    intro hno
    apply hfar'
    intro mid' post'' e' j' hj'
    apply hno
    refine .backward (pre := pre') (mid := mid') (post := post'') (by rw [k1, e']; simp) k4 (by rw [k2, k3]; exact h3) hj'
  | label h1 h2 h3 => exact absurd (hlab _ _ h1 h2) h3
  | handler h1 h2 => exact absurd (y2 _ h1).2 h2
  | end_ h1 h2 =>
    rw [h1] at s5
    rcases wellTried_ends s5 with hx | ⟨t, h3, h4⟩
    · cases hx
    · exact absurd h4 (h2 t h3)
  | last h1 h2 =>
    rw [h1] at s5 y1
    obtain ⟨i, hi⟩ := noEmpty_after s5 y1
    exact absurd hi (h2 i)
  | depth h1 h2 => exact absurd h2 (y2 _ h1).1
  | @dual i h1 h2 h3 =>
    obtain ⟨j, hj, g1, g2, g3, g4, _⟩ := item_instr hl s1 s6 h1
    refine .dual hj (by rw [g2]; exact h2) ?_
    intro x y hx
    rcases g4 with g4 | ⟨_, l, g4⟩
    · exact h3 x y (by rw [← g4]; exact hx)
    · rw [hx] at g4; cases g4
  | block h1 h2 h3 => exact absurd h3 (hl' _ h1 _)
  | nested h1 h2 =>
    rw [h1] at s5
    obtain ⟨id, hid⟩ := wellTried_nested s5
    exact absurd hid (h2 id)
  | passes h1 =>
    refine .passes ?_
    rw [jumpCount_items hl] 
    rw [jumpCount_items hl', s1] at h1
    exact h1

/-- **C82 (default options, 3.11+).** When `Bytecode.to_code()` raises an exception: KeyError for a jump or handler whose label is not in the code; or
the exception is that of the stack analysis; or it names a mistake of C75; or it is ValueError for a location that spans several
lines without columns. -/
theorem C82_default (hP : P.WF) (h11 : P.py311 = true) (hw : WellMade P b) (hl : LabelsOnly b) (ht : WellTried none [] false b.elems)
    (hne : NoEmptyTry false b.elems) {stacksize : Option Int} {e : PyErr} (h : b.toCode P key eff passes stacksize true = .error e) :
    (e = .keyError ∧ ¬ LabelsExist b) ∨ (∃ g, fromBytecode P b = .ok g ∧ g.computeStacksize P eff true = .error e) ∨ Wrong P b passes e ∨
    (e = .valueError ∧ ∃ i l, .instr i ∈ b.elems ∧ i.loc = some l ∧ Unencodable l) := by
  have hv : ∀ i, BElem.instr i ∈ b.elems → ArgOK P i.opcode i.arg := fun i hi => (hw.valid i hi).1.arg_ok
  have hcode : b.toCode P key eff passes stacksize true =
      (b.sized P eff true >>= fun r => toConcrete P key passes r.2 >>= fun c => c.emit P r.1) := by
    unfold Bytecode.toCode
    simp only [h11, Bool.and_true, if_true]
  rw [hcode] at h
  rcases bind_cases h with h | ⟨⟨n, b'⟩, hs, h⟩
  · cases hg : fromBytecode P b with
    | error e' =>
      left
      have hno : ¬ LabelsExist b := by
        intro hx
        obtain ⟨g, hg'⟩ := (C60_from_iff_labels hl hv ht).2 hx
        rw [hg] at hg'
        cases hg'
      refine ⟨?_, hno⟩
      have := (C78_from_noticed (P := P) hv).2 (by
        rintro ⟨pre, t, mid, t', post, hx, hm⟩
        rw [hx] at ht
        obtain ⟨id, hid⟩ := wellTried_nested ht
        exact hm id hid) hno
      unfold Bytecode.sized at h
      rw [this] at h
      cases h
      rfl
    | ok g =>
      right; left
      refine ⟨g, rfl, ?_⟩
      cases hr : g.computeStacksize P eff true with
      | error e' =>
        unfold Bytecode.sized at h
        simp only [hg, hr, bind, Except.bind] at h
        cases h
        rfl
      | ok r =>
        obtain ⟨r', hr'⟩ := (C60_sized_iff eff hl hv ht).2 ⟨g, r, hg, hr⟩
        rw [h] at hr'
        cases hr'
  · right; right
    have hw' : WellMade P b' := by
      obtain ⟨s1, s2, s3, s4, s5, s6, _⟩ := sized_spec hl ht hs
      exact wellMade_same hl s1 s3 s4 s6 s5 hw
    rcases bind_cases h with h | ⟨c, hc, h⟩
    · exact .inl (wrong_sized hl ht hne hs (C75_says hP key hw' h))
    · right
      obtain ⟨T, M, hF⟩ := toConcrete_Final hP (noCache_of hw') (fun i hi => (hw'.valid i hi).1) hc
      obtain ⟨s1, s2, s3, s4, s5, s6, _⟩ := sized_spec hl ht hs
      obtain ⟨_, rfl, i, l, hi, hil, hu⟩ := hF.emit_error (fun _ => ⟨s5, (sized_tries hl ht hne hs).1⟩) h
      obtain ⟨j, hj, _, _, h3, _⟩ := item_instr hl s1 s6 hi
      exact ⟨rfl, j, l, hj, by rw [h3]; exact hil, hu⟩

/-- **C82 (default options, 3.11+), with effects defined for the instructions of the code and that pop before they push.** The analysis itself
raises RuntimeError (an underflow) or AssertionError (a try region entered from inside another one). -/
theorem C82_default_classes (hP : P.WF) (h11 : P.py311 = true) (heff : ∀ i j, eff i j ≠ .error .outOfFuel) (hf : TargetFree eff) (hw : WellMade P b)
    (hl : LabelsOnly b) (ht : WellTried none [] false b.elems) (hne : NoEmptyTry false b.elems)
    (hdef : ∀ i, BElem.instr i ∈ b.elems → ∀ j, ∃ e, eff i j = .ok e ∧ 0 ≤ e.2)
    {stacksize : Option Int} {e : PyErr} (h : b.toCode P key eff passes stacksize true = .error e) :
    e = .keyError ∨ e = .runtimeError ∨ e = .valueError ∨ e = .assertionError := by
  have hv : ∀ i, BElem.instr i ∈ b.elems → ArgOK P i.opcode i.arg := fun i hi => (hw.valid i hi).1.arg_ok
  rcases C82_default hP h11 hw hl ht hne h with ⟨rfl, _⟩ | ⟨g, hg, hr⟩ | h | ⟨rfl, _⟩
  · exact .inl rfl
  · have hS := from_sizeable hf hl hv ht (fun i hi j => (hdef i hi j).imp fun _ h => h.1) hg
    rcases C61_reasons heff hS true hr with h1 | ⟨h1, _⟩
    · exact .inr (.inl h1)
    · exact .inr (.inr (.inr h1))
  · cases h with
    | last h1 h2 =>
      rw [h1] at ht hne
      obtain ⟨i, hi⟩ := noEmpty_after ht hne
      exact absurd hi (h2 i)
    | _ => simp
  · simp

end Verif
