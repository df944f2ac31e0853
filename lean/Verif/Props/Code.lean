import Verif.Proofs.Code
import Verif.Props.ToBytecodeEx
import Verif.Props.StackSizeEx
/-
C39: equality of ConcreteBytecode. C41: a code object written and read back. C49: names of the arguments.
-/
namespace Verif
open Spec

/-! ### C41 -/

theorem eraseDups_nodup {α : Type} [BEq α] [LawfulBEq α] (l : List α) (h : l.Nodup) : l.eraseDups = l := by
  induction l with
  | nil => rfl
  | cons a l ih =>
    rw [List.eraseDups_cons]
    have h' := List.nodup_cons.1 h
    rw [List.filter_eq_self.2, ih h'.2]
    intro b hb
    have : b ≠ a := fun e => h'.1 (e ▸ hb)
    simp [this]

theorem codeCellvars_ordered (P : Platform) (varnames cellvars : List String) (hn : varnames.Nodup)
    (h : CellsOrdered varnames cellvars) : codeCellvars P varnames cellvars = cellvars := by
  unfold codeCellvars
  split
  · obtain ⟨rest, h1, h2⟩ := h
    rw [eraseDups_nodup _ hn]
    have h3 : (varnames.filter (· ∈ cellvars)).filter (· ∉ varnames) = [] := by
      rw [List.filter_eq_nil_iff]
      intro x hx
      simp [(List.mem_filter.1 hx).1]
    have h4 : rest.filter (· ∉ varnames) = rest := by
      rw [List.filter_eq_self]
      intro x hx
      simpa using h2 x hx
    have h5 : cellvars.filter (· ∉ varnames) = rest := by
      generalize hf : (varnames.filter (· ∈ cellvars)) = f at h1 h3
      rw [h1, List.filter_append, h3, h4]; rfl
    rw [h5]
    exact h1.symm
  · rfl

/-- **C41.** Take a ConcreteBytecode for 3.11+ whose instructions are constructible, have honest sizes, are no explicit
EXTENDED_ARG and are laid out with the CACHE entries CPython requires; whose locations can be encoded
(C04_locations_raise_iff: not several lines without columns) and do not put a column-less instruction on line 0; whose
exception table is valid. Then `to_code(n)` without
depth recomputation succeeds and `from_code` reads back: all the attributes and tables, the exception table, the stack
size `n`, the same instructions with the same sizes, and the location each one has (its own, else that of its
predecessor), as code objects keep locations. The docstring is that of the constants; the cells that are also local variables come first,
in the order of these. SetLineno elements are gone. On 3.13
a CACHE has no location of its own. -/
theorem C41_exact (P : Platform) (hP : P.WF) (h11 : P.py311 = true) (c : Concrete) (n : Int)
    (hl : CacheLayout P (instrsOf c.elems)) (hv : ∀ i ∈ instrsOf c.elems, ValidCInstr P i)
    (hs : ∀ i ∈ instrsOf c.elems, (i.assemble P).length = i.size) (hn : ∀ i ∈ instrsOf c.elems, i.name ≠ "EXTENDED_ARG")
    (henc : ∀ i ∈ instrsOf c.elems, ∀ l, i.loc = some l → ¬ Unencodable l)
    (hzero : ∀ l ∈ locsOf c.attrs.firstLineno c.elems, l.lineno = some 0 → l.col.isSome)
    (hexc : ∀ e ∈ c.excTable, 0 ≤ e.start ∧ e.start - 1 ≤ e.stop ∧ 0 ≤ e.target ∧ 0 ≤ e.depth) :
    ∃ (co : Code) (c' : Concrete) (js : List CInstr), c.emit P n = .ok co ∧ Concrete.fromCode P co = .ok c' ∧
      co.stacksize = n ∧ co.nlocals = c.varnames.length ∧
      c'.attrs = { c.attrs with docstring := setDocstring none c.consts, cellvars := (c.varnames.eraseDups.filter (· ∈ c.attrs.cellvars)) ++ c.attrs.cellvars.filter (· ∉ c.varnames) } ∧
      c'.consts = c.consts ∧ c'.names = c.names ∧ c'.varnames = c.varnames ∧ c'.excTable = c.excTable ∧
      c'.elems = js.map .instr ∧ List.Forall₂ SameInstr (instrsOf c.elems) js ∧
      ∀ (k : Nat) (i j : CInstr) (l : Loc), (instrsOf c.elems)[k]? = some i → js[k]? = some j →
        (locsOf c.attrs.firstLineno c.elems)[k]? = some l → (i.opcode ≠ 0 ∨ P.py313 = false) → j.loc = some (keptLoc l) := by
  have hsz : ∀ i ∈ instrsOf c.elems, i.size % 2 = 0 ∧ 2 ≤ i.size := by
    intro i hi
    have := size_of_units (⟨hv i hi, hs i hi, hn i hi⟩ : Readable P i)
    omega
  obtain ⟨hszs, hlocs⟩ := assembleCodeLoop_sizes P c.elems c.attrs.firstLineno 0
  have hinf : ∀ x ∈ (assembleCode P c.attrs.firstLineno c.elems).2,
      (x.size % 2 = 0 ∧ 2 ≤ x.size) ∧ ∀ l, x.loc = some l → Coherent l ∧ ¬ Unencodable l := by
    intro x hx
    constructor
    · have : x.size ∈ (instrsOf c.elems).map (·.size) := by
        rw [← hszs]; exact List.mem_map_of_mem hx
      obtain ⟨i, hi, he⟩ := List.mem_map.1 this
      rw [← he]; exact hsz i hi
    · intro l hl
      have : x.loc ∈ (instrsOf c.elems).map (·.loc) := by
        rw [← hlocs]; exact List.mem_map_of_mem hx
      obtain ⟨i, hi, he⟩ := List.mem_map.1 this
      rw [hl] at he
      exact ⟨(hv i hi).loc_ok l he, henc i hi l he⟩
  obtain ⟨table, htab, hread⟩ := C03_positions_are_locations c.attrs.firstLineno (assembleCode P c.attrs.firstLineno c.elems).2
    (fun x hx => (hinf x hx).1) (fun x hx => (hinf x hx).2)
  have heff : effectiveLocs (assembleCode P c.attrs.firstLineno c.elems).2 = locsOf c.attrs.firstLineno c.elems :=
    effectiveLocs_code P c.elems c.attrs.firstLineno 0
  rw [heff, show (assembleCode P c.attrs.firstLineno c.elems).2.map (·.size) = (instrsOf c.elems).map (·.size) from hszs] at hread
  obtain ⟨exc, hexc1, hexc2⟩ := C01_exception_table_roundtrip c.excTable hexc
  have hcoh : ∀ l ∈ locsOf c.attrs.firstLineno c.elems, Coherent l := by
    intro l hl
    rcases inherit_cases _ _ l hl with rfl | h
    · exact ⟨by simp [Loc.line], by simp [Loc.line], by simp [Loc.line], by simp [Loc.line]⟩
    · obtain ⟨i, hi, he⟩ := List.mem_map.1 h
      exact (hv i hi).loc_ok l he
  have hlen : ((instrsOf c.elems).map (·.size)).length = ((locsOf c.attrs.firstLineno c.elems).map posOf).length := by
    simp [locsOf_length]
  have hposok : ∀ p ∈ perUnit ((instrsOf c.elems).map (·.size)) ((locsOf c.attrs.firstLineno c.elems).map posOf),
      ∃ l, locOfPos p = .ok l := by
    intro p hp
    have : ∃ l ∈ locsOf c.attrs.firstLineno c.elems, p = posOf l := by
      unfold perUnit at hp
      obtain ⟨x, hx, hpx⟩ := List.mem_flatten.1 hp
      rw [List.mem_iff_getElem?] at hx
      obtain ⟨m, hm⟩ := hx
      rw [List.getElem?_zipWith] at hm
      cases h1 : ((instrsOf c.elems).map (·.size))[m]? with
      | none => rw [h1] at hm; simp at hm
      | some s =>
        cases h2 : ((locsOf c.attrs.firstLineno c.elems).map posOf)[m]? with
        | none => rw [h1, h2] at hm; simp at hm
        | some q =>
          rw [h1, h2] at hm
          simp only [Option.some.injEq] at hm
          subst hm
          have := (List.mem_replicate.1 hpx).2
          subst this
          obtain ⟨l, hl, rfl⟩ := List.mem_map.1 (List.mem_of_getElem? h2)
          exact ⟨l, hl, rfl⟩
    obtain ⟨l, hl, rfl⟩ := this
    exact ⟨_, locOfPos_posOf l (hcoh l hl) (hzero l hl)⟩
  obtain ⟨us, js, hd, hre, hno, hlo⟩ := read_back P hP h11 (instrsOf c.elems) hl hv hs hn _ hposok
  have hcode : (assembleCode P c.attrs.firstLineno c.elems).1 = (instrsOf c.elems).flatMap (CInstr.assemble P) :=
    assembleCodeLoop_bytes P c.elems c.attrs.firstLineno 0
  have hem : ∃ co, c.emit P n = .ok co ∧ co = Code.mk c.attrs.argcount c.attrs.posonlyargcount c.attrs.kwonlyargcount
      c.varnames.length n c.attrs.flags ((instrsOf c.elems).flatMap (CInstr.assemble P)) c.consts c.names c.varnames
      c.attrs.filename c.attrs.name c.attrs.qualname c.attrs.firstLineno table exc c.attrs.freevars (codeCellvars P c.varnames c.attrs.cellvars) := by
    refine ⟨_, ?_, rfl⟩
    unfold Concrete.emit
    simp only [h11, if_true]
    rw [htab, hexc1, hcode]
    rfl
  obtain ⟨co, hco, hco'⟩ := hem
  refine ⟨co, ⟨{ c.attrs with docstring := setDocstring none c.consts, cellvars := codeCellvars P c.varnames c.attrs.cellvars }, c.consts, c.names, c.varnames, c.excTable, js.map .instr⟩,
    js, hco, ?_, by rw [hco'], by rw [hco'], by simp only [codeCellvars, h11, if_true], rfl, rfl, rfl, rfl, rfl, forall₂_of_map hno, ?_⟩
  · unfold Concrete.fromCode
    rw [hco']
    simp only [hread, Option.getD_some]
    rw [hd]
    simp only [bind, Except.bind, Bool.false_eq_true, if_false]
    rw [hre]
    simp only [hexc2]
    rfl
  · intro k i j l hi hj hk hop
    refine hlo k i j hi hj hop _ ?_
    have hk' : k < (locsOf c.attrs.firstLineno c.elems).length := (List.getElem?_eq_some_iff.1 hk).1
    have hp := perUnit_last ((instrsOf c.elems).map (·.size)) ((locsOf c.attrs.firstLineno c.elems).map posOf) hlen (by
      intro s hs'
      obtain ⟨i, hi, rfl⟩ := List.mem_map.1 hs'
      exact (hsz i hi).2) k (by simpa using hk')
    rw [List.map_map] at hp
    have hmem : l ∈ locsOf c.attrs.firstLineno c.elems := List.mem_of_getElem? hk
    rw [show ((instrsOf c.elems).map (fun i => i.size / 2)) = (instrsOf c.elems).map ((· / 2) ∘ fun x => x.size) from rfl, hp]
    rw [List.getElem?_map, hk]
    exact locOfPos_posOf l (hcoh l hmem) (hzero l hmem)

/-- **C41 (nothing moves).** If moreover the local variables are distinct and the cells in the order of a code object, all
the attributes but the docstring are kept. -/
theorem C41_roundtrip_partial (P : Platform) (hP : P.WF) (h11 : P.py311 = true) (c : Concrete) (n : Int)
    (hl : CacheLayout P (instrsOf c.elems)) (hv : ∀ i ∈ instrsOf c.elems, ValidCInstr P i)
    (hs : ∀ i ∈ instrsOf c.elems, (i.assemble P).length = i.size) (hn : ∀ i ∈ instrsOf c.elems, i.name ≠ "EXTENDED_ARG")
    (henc : ∀ i ∈ instrsOf c.elems, ∀ l, i.loc = some l → ¬ Unencodable l)
    (hzero : ∀ l ∈ locsOf c.attrs.firstLineno c.elems, l.lineno = some 0 → l.col.isSome)
    (hexc : ∀ e ∈ c.excTable, 0 ≤ e.start ∧ e.start - 1 ≤ e.stop ∧ 0 ≤ e.target ∧ 0 ≤ e.depth)
    (hvar : c.varnames.Nodup) (hcell : CellsOrdered c.varnames c.attrs.cellvars) :
    ∃ (co : Code) (c' : Concrete) (js : List CInstr), c.emit P n = .ok co ∧ Concrete.fromCode P co = .ok c' ∧
      co.stacksize = n ∧ co.nlocals = c.varnames.length ∧
      c'.attrs = { c.attrs with docstring := setDocstring none c.consts } ∧
      c'.consts = c.consts ∧ c'.names = c.names ∧ c'.varnames = c.varnames ∧ c'.excTable = c.excTable ∧
      c'.elems = js.map .instr ∧ List.Forall₂ SameInstr (instrsOf c.elems) js ∧
      ∀ (k : Nat) (i j : CInstr) (l : Loc), (instrsOf c.elems)[k]? = some i → js[k]? = some j →
        (locsOf c.attrs.firstLineno c.elems)[k]? = some l → (i.opcode ≠ 0 ∨ P.py313 = false) → j.loc = some (keptLoc l) := by
  obtain ⟨co, c', js, h1, h2, h3, h4, h5, hr⟩ := C41_exact P hP h11 c n hl hv hs hn henc hzero hexc
  refine ⟨co, c', js, h1, h2, h3, h4, ?_, hr⟩
  have := codeCellvars_ordered P _ _ hvar hcell
  simp only [codeCellvars, h11, if_true] at this
  rw [h5, this]

/-- **C41 (when writing succeeds).** With constructible instructions of honest sizes, `to_code` of this kind raises
exactly when some location covers several lines without columns (ValueError) or some entry of the exception table is not valid
(AssertionError). -/
theorem C41_written_iff (P : Platform) (hP : P.WF) (h11 : P.py311 = true) (c : Concrete) (n : Int)
    (hv : ∀ i ∈ instrsOf c.elems, ValidCInstr P i)
    (hs : ∀ i ∈ instrsOf c.elems, (i.assemble P).length = i.size) (hn : ∀ i ∈ instrsOf c.elems, i.name ≠ "EXTENDED_ARG") :
    (∃ co, c.emit P n = .ok co) ↔ (∀ i ∈ instrsOf c.elems, ∀ l, i.loc = some l → ¬ Unencodable l) ∧
      ∀ e ∈ c.excTable, 0 ≤ e.start ∧ e.start - 1 ≤ e.stop ∧ 0 ≤ e.target ∧ 0 ≤ e.depth := by
  obtain ⟨hszs, hlocs⟩ := assembleCodeLoop_sizes P c.elems c.attrs.firstLineno 0
  have hsz : ∀ x ∈ (assembleCode P c.attrs.firstLineno c.elems).2, x.size % 2 = 0 ∧ 2 ≤ x.size := by
    intro x hx
    have : x.size ∈ (instrsOf c.elems).map (·.size) := by
      rw [← hszs]; exact List.mem_map_of_mem hx
    obtain ⟨i, hi, he⟩ := List.mem_map.1 this
    have := size_of_units (⟨hv i hi, hs i hi, hn i hi⟩ : Readable P i)
    omega
  have hloc : ∀ l : Loc, (∃ x ∈ (assembleCode P c.attrs.firstLineno c.elems).2, x.loc = some l) ↔ ∃ i ∈ instrsOf c.elems, i.loc = some l := by
    intro l
    have h1 := List.mem_map (f := fun x : LineInfo => x.loc) (l := (assembleCode P c.attrs.firstLineno c.elems).2) (b := some l)
    have h2 := List.mem_map (f := fun x : CInstr => x.loc) (l := instrsOf c.elems) (b := some l)
    rw [← h1, ← h2]
    have : (assembleCode P c.attrs.firstLineno c.elems).2.map (fun x => x.loc) = (instrsOf c.elems).map (fun x => x.loc) := hlocs
    rw [this]
  have hcoh : ∀ x ∈ (assembleCode P c.attrs.firstLineno c.elems).2, ∀ l, x.loc = some l → Coherent l := by
    intro x hx l hl
    obtain ⟨i, hi, he⟩ := (hloc l).1 ⟨x, hx, hl⟩
    exact (hv i hi).loc_ok l he
  have hraise := C04_locations_raise_iff c.attrs.firstLineno _ hsz hcoh
  have hexc := C01_exception_table_error c.excTable
  constructor
  · rintro ⟨co, h⟩
    unfold Concrete.emit at h
    simp only [h11, if_true] at h
    obtain ⟨t, ht, h⟩ := except_bind_ok h
    obtain ⟨x, hx, h⟩ := except_bind_ok h
    constructor
    · intro i hi l hl hu
      obtain ⟨y, hy, hyl⟩ := (hloc l).2 ⟨i, hi, hl⟩
      rw [hraise.2 ⟨y, hy, l, hyl, hu⟩] at ht
      cases ht
    · intro e he
      by_cases hb : 0 ≤ e.start ∧ e.start - 1 ≤ e.stop ∧ 0 ≤ e.target ∧ 0 ≤ e.depth
      · exact hb
      · rw [hexc.1 ⟨e, he, hb⟩] at hx; cases hx
  · rintro ⟨g1, g2⟩
    obtain ⟨t, ht, _⟩ := C03_positions_are_locations c.attrs.firstLineno (assembleCode P c.attrs.firstLineno c.elems).2 hsz (by
      intro x hx l hl
      obtain ⟨i, hi, he⟩ := (hloc l).1 ⟨x, hx, hl⟩
      exact ⟨hcoh x hx l hl, g1 i hi l he⟩)
    obtain ⟨x, hx, _⟩ := C01_exception_table_roundtrip c.excTable g2
    unfold Concrete.emit
    simp only [h11, if_true]
    rw [ht, hx]
    exact ⟨_, rfl⟩

/-- A case that meets the hypotheses: an inherited location, a line without columns, caches, an EXTENDED_ARG, a handler, a
cell that is an argument. -/
def codeEx : Concrete where
  attrs := { Attrs.default with argcount := 1, firstLineno := 7, docstring := some (.str "doc"), cellvars := ["x", "z"], freevars := ["f"], flags := 3 }
  consts := [.str "doc", .int 4]
  names := ["g"]
  varnames := ["y", "x"]
  excTable := [⟨1, 5, 8, 2, true⟩]
  elems := [.setLineno 9, cins Py311.platform "RESUME" (some 0), cins Py311.platform "LOAD_GLOBAL" (some 600) (some ⟨some 3, some 4, some 9, some 2⟩)] ++
    List.replicate 5 (cins Py311.platform "CACHE" (some 0)) ++
    [cins Py311.platform "RETURN_VALUE" none (some ⟨some 12, none, none, none⟩)]

/-- The conclusion on that case, computed: written, read back; the locations. -/
example : (match codeEx.emit Py311.platform 5 with
    | .ok co => match Concrete.fromCode Py311.platform co with
      | .ok c => (c.attrs == codeEx.attrs && c.excTable == codeEx.excTable && co.stacksize == 5) &&
          (instrsOf c.elems).map (fun i => (i.name, i.arg, i.size, i.loc)) ==
            [("RESUME", some 0, 2, some ⟨some 9, some 9, none, none⟩),
             ("LOAD_GLOBAL", some 600, 4, some ⟨some 3, some 4, some 9, some 2⟩)] ++
            List.replicate 5 ("CACHE", some 0, 2, some ⟨some 3, some 4, some 9, some 2⟩) ++
            [("RETURN_VALUE", none, 2, some ⟨some 12, some 12, none, none⟩)]
      | .error _ => false
    | .error _ => false) = true := by decide +kernel

/-- It meets the hypotheses of `C41_roundtrip_partial`. -/
example : ∃ co c' : _, codeEx.emit Py311.platform 5 = .ok co ∧ Concrete.fromCode Py311.platform co = .ok c' ∧ c'.attrs = codeEx.attrs := by
  have hmk : (instrsOf codeEx.elems).all (fun i => decide (CInstr.make Py311.platform (some i.name) (.ofOpt i.arg) .unset i.loc i.ext = .ok i)) = true := by
    decide +kernel
  have hcoh : ∀ i ∈ instrsOf codeEx.elems, ∀ l, i.loc = some l → Coherent l ∧ ¬ Unencodable l := by
    have h1 : ∀ l ∈ (instrsOf codeEx.elems).filterMap (·.loc), l = ⟨some 3, some 4, some 9, some 2⟩ ∨ l = ⟨some 12, none, none, none⟩ := by
      decide +kernel
    intro i hi l hl
    rcases h1 l (List.mem_filterMap.2 ⟨i, hi, hl⟩) with rfl | rfl
    · exact ⟨⟨by simp, by simp, by simp, by simp⟩, by simp [Unencodable]⟩
    · exact ⟨⟨by simp, by simp, by simp, by simp⟩, by simp [Unencodable]⟩
  have hv : ∀ i ∈ instrsOf codeEx.elems, ValidCInstr Py311.platform i := by
    intro i hi
    have := List.all_eq_true.1 hmk i hi
    exact (C09_constructed_valid _ _ _ _ _ (fun l hl => (hcoh i hi l hl).1) _ i (by simpa using this)).1
  have hlay : CacheLayout Py311.platform (instrsOf codeEx.elems) := by
    have e : instrsOf codeEx.elems = ⟨"RESUME", 151, some 0, none, none, 2⟩ :: ([] ++ (⟨"LOAD_GLOBAL", 116, some 600, some ⟨some 3, some 4, some 9, some 2⟩, none, 4⟩ ::
        (List.replicate 5 ⟨"CACHE", 0, some 0, none, none, 2⟩ ++ (⟨"RETURN_VALUE", 83, none, some ⟨some 12, none, none, none⟩, none, 2⟩ :: ([] ++ []))))) := by decide +kernel
    rw [e]
    refine .group _ _ _ (by decide) (by decide +kernel) (by simp) (.group _ _ _ (by decide) (by decide +kernel) ?_ (.group _ _ _ (by decide) (by decide +kernel) (by simp) .nil))
    intro c hc
    have := (List.mem_replicate.1 hc).2
    subst this; exact ⟨rfl, rfl⟩
  obtain ⟨co, c', _, h1, h2, _, _, h3, _⟩ := C41_roundtrip_partial Py311.platform Py311.wf rfl codeEx 5 hlay hv (by decide +kernel) (by decide +kernel)
    (fun i hi l hl => (hcoh i hi l hl).2) (by decide +kernel) (by decide +kernel) (by decide +kernel)
    ⟨["z"], by decide +kernel, by decide +kernel⟩
  exact ⟨co, c', h1, h2, h3⟩

/-- Written and read back. -/
def writeRead (P : Platform) (c : Concrete) : Py Concrete := do
  let co ← c.emit P 1
  Concrete.fromCode P co

/-- **C41 fails** in these ways, for ConcreteBytecode objects with constructible instructions: an instruction on line 0
without columns makes `from_code` raise ValueError on the code object just written; a location with a line only comes
back with an end line; a cell listed out of order moves; a docstring that is not the first constant is lost; without the
CACHE entries of its opcode an instruction swallows the next one. -/
theorem C41_statement_false :
    (∃ c : Concrete, (∀ i ∈ instrsOf c.elems, ValidCInstr Py311.platform i) ∧ (c.emit Py311.platform 1).isOk = true ∧
      writeRead Py311.platform c = .error .valueError) ∧
    (∃ c c' : Concrete, c.elems = [cins Py311.platform "RETURN_VALUE" none (some (Loc.line (some 3)))] ∧ writeRead Py311.platform c = .ok c' ∧
      (instrsOf c'.elems).map (·.loc) = [some ⟨some 3, some 3, none, none⟩]) ∧
    (∃ c c' : Concrete, c.attrs.cellvars = ["b", "a"] ∧ c.varnames = ["a", "b"] ∧ writeRead Py311.platform c = .ok c' ∧ c'.attrs.cellvars = ["a", "b"]) ∧
    (∃ c c' : Concrete, c.attrs.docstring = some (.str "doc") ∧ writeRead Py311.platform c = .ok c' ∧ c'.attrs.docstring = none) ∧
    (∃ c c' : Concrete, (instrsOf c.elems).map (·.name) = ["LOAD_GLOBAL", "POP_TOP", "NOP", "NOP", "NOP", "NOP", "RETURN_VALUE"] ∧
      writeRead Py311.platform c = .ok c' ∧
      (instrsOf c'.elems).map (·.name) = ["LOAD_GLOBAL", "CACHE", "CACHE", "CACHE", "CACHE", "CACHE", "RETURN_VALUE"]) := by
  have key : ∀ c : Concrete, (writeRead Py311.platform c).isOk = true → ∃ c', writeRead Py311.platform c = .ok c' := by
    intro c h
    cases hc : writeRead Py311.platform c with
    | ok c' => exact ⟨c', rfl⟩
    | error e => rw [hc] at h; simp [Except.isOk, Except.toBool] at h
  have get : ∀ (c c' : Concrete) (p : Concrete → Bool), writeRead Py311.platform c = .ok c' →
      (match writeRead Py311.platform c with | .ok x => p x | .error _ => false) = true → p c' = true := by
    intro c c' p h1 h2
    rw [h1] at h2; exact h2
  refine ⟨⟨⟨Attrs.default, [], [], [], [], [cins Py311.platform "RETURN_VALUE" none (some (Loc.line (some 0)))]⟩, ?_, by decide +kernel, by decide +kernel⟩, ?_, ?_, ?_, ?_⟩
  · intro i hi
    simp only [instrsOf, cins, List.filterMap_cons, List.filterMap_nil, List.mem_singleton] at hi
    subst hi
    refine (C09_constructed_valid Py311.platform (some "RETURN_VALUE") .unset .unset (some (Loc.line (some 0))) ?_ none _ (by decide +kernel)).1
    intro l hl
    simp only [Option.some.injEq] at hl
    subst hl
    exact ⟨by simp [Loc.line], by simp [Loc.line], by simp [Loc.line], by simp [Loc.line]⟩
  · obtain ⟨c', h⟩ := key ⟨Attrs.default, [], [], [], [], [cins Py311.platform "RETURN_VALUE" none (some (Loc.line (some 3)))]⟩ (by decide +kernel)
    exact ⟨_, c', rfl, h, by simpa using get _ c' (fun c' => decide ((instrsOf c'.elems).map (·.loc) = [some ⟨some 3, some 3, none, none⟩])) h (by decide +kernel)⟩
  · obtain ⟨c', h⟩ := key ⟨{ Attrs.default with cellvars := ["b", "a"] }, [], [], ["a", "b"], [], [cins Py311.platform "RETURN_VALUE"]⟩ (by decide +kernel)
    exact ⟨_, c', rfl, rfl, h, by simpa using get _ c' (fun c' => decide (c'.attrs.cellvars = ["a", "b"])) h (by decide +kernel)⟩
  · obtain ⟨c', h⟩ := key ⟨{ Attrs.default with docstring := some (.str "doc") }, [.int 1], [], [], [], [cins Py311.platform "RETURN_VALUE"]⟩ (by decide +kernel)
    exact ⟨_, c', rfl, h, by simpa using get _ c' (fun c' => decide (c'.attrs.docstring = none)) h (by decide +kernel)⟩
  · obtain ⟨c', h⟩ := key ⟨Attrs.default, [], [], [], [], [cins Py311.platform "LOAD_GLOBAL" (some 0), cins Py311.platform "POP_TOP"] ++
      List.replicate 4 (cins Py311.platform "NOP") ++ [cins Py311.platform "RETURN_VALUE"]⟩ (by decide +kernel)
    exact ⟨_, c', by decide +kernel, h, by
      simpa using get _ c' (fun c' => decide ((instrsOf c'.elems).map (·.name) = ["LOAD_GLOBAL", "CACHE", "CACHE", "CACHE", "CACHE", "CACHE", "RETURN_VALUE"])) h (by decide +kernel)⟩

/-! ### C39 -/

/-- **C39 (what equality means).** `a == b` is True exactly when the tables agree (constants through their keys), all the
attributes agree, and both have a stack size, the same. -/
theorem C39_equal {κ : Type} [DecidableEq κ] (P : Platform) (key : Arg → κ) (eff : Instr → Bool → Py (Int × Int)) (a b : Concrete) :
    Concrete.eq P key eff a b = .ok true ↔
      a.consts.map key = b.consts.map key ∧ a.names = b.names ∧ a.varnames = b.varnames ∧ a.attrs = b.attrs ∧
      ∃ n, a.computeStacksize P eff = .ok n ∧ b.computeStacksize P eff = .ok n := by
  have hsame : a.attrs.same b.attrs = true ↔ a.attrs = b.attrs := by
    unfold Attrs.same
    cases a.attrs; cases b.attrs
    simp only [Bool.and_eq_true, beq_iff_eq, Attrs.mk.injEq]
    grind
  unfold Concrete.eq
  by_cases h1 : a.consts.map key = b.consts.map key
  case neg => simp [h1, pure, Except.pure]
  by_cases h2 : a.names = b.names
  case neg => simp [h1, h2, pure, Except.pure]
  by_cases h3 : a.varnames = b.varnames
  case neg => simp [h1, h2, h3, pure, Except.pure]
  by_cases h4 : a.attrs = b.attrs
  case neg =>
    have : a.attrs.same b.attrs = false := by
      cases h : a.attrs.same b.attrs
      · rfl
      · exact absurd (hsame.1 h) h4
    simp [h1, h2, h3, h4, this, pure, Except.pure]
  have hs := hsame.2 h4
  simp only [h1, h2, h3, hs, ne_eq, not_true_eq_false, if_false, Bool.not_true, Bool.false_eq_true, true_and]
  rw [eq_true h4, true_and]
  cases ha : a.computeStacksize P eff with
  | error e => simp [bind, Except.bind]
  | ok n =>
    cases hb : b.computeStacksize P eff with
    | error e => simp [bind, Except.bind]
    | ok m =>
      simp only [bind, Except.bind, pure, Except.pure, Except.ok.injEq, decide_eq_true_eq, exists_eq_left']
      exact ⟨fun h => h.symm, fun h => h.symm⟩

/-- Code returning one of two constants. -/
def constEx (k : Nat) (exc : List ExcEntry) : Concrete where
  attrs := Attrs.default
  consts := [.int 1, .int 2]
  names := []
  varnames := []
  excTable := exc
  elems := [cins Py311.platform "NOP", cins Py311.platform "LOAD_CONST" (some k), cins Py311.platform "LOAD_CONST" (some 0),
    cins Py311.platform "POP_TOP", cins Py311.platform "RETURN_VALUE"]

/-- **C39 fails**: instructions and exception tables are not compared. One object returns 1, the other 2; one has a
handler, the other none. -/
theorem C39_statement_false :
    Concrete.eq Py311.platform (id : Arg → Arg) eff311 (constEx 0 []) (constEx 1 []) = .ok true ∧
    (constEx 0 []).elems ≠ (constEx 1 []).elems ∧
    Concrete.eq Py311.platform (id : Arg → Arg) eff311 (constEx 0 []) (constEx 0 [⟨0, 0, 2, 0, false⟩]) = .ok true ∧
    (constEx 0 []).excTable ≠ (constEx 0 [⟨0, 0, 2, 0, false⟩]).excTable := by
  refine ⟨by decide +kernel, ?_, by decide +kernel, by decide +kernel⟩
  intro h
  have := congrArg (fun es => (instrsOf es).map (·.arg)) h
  simp [constEx, cins, instrsOf] at this

/-! ### C49 -/

/-- The parameters of a code object: positional ones (`co_argcount` counts positional-only ones too), keyword-only ones,
`*args` (flag 4) and `**kwargs` (flag 8). -/
def paramCount (A : Attrs) : Nat :=
  A.argcount + A.kwonlyargcount + (if A.flags.testBit 2 then 1 else 0) + (if A.flags.testBit 3 then 1 else 0)

/-- **C49 (without positional-only parameters).** `argnames` of the Bytecode are the names of the parameters. In any case
they begin with them. -/
theorem C49_argnames_partial (P : Platform) (prune conserve : Bool) (c : Concrete) (b : Bytecode) (h : toBytecode P prune conserve c = .ok b) :
    (c.attrs.posonlyargcount = 0 → b.argnames = c.varnames.take (paramCount c.attrs)) ∧
    b.argnames.take (paramCount c.attrs) = c.varnames.take (paramCount c.attrs) := by
  unfold toBytecode at h
  obtain ⟨es, _, h⟩ := except_bind_ok h
  obtain ⟨_, _, h⟩ := except_bind_ok h
  obtain ⟨d, _, h⟩ := except_bind_ok h
  have hb : b.argnames = c.varnames.take (nargs c.attrs) := by
    simp only at h
    split at h
    · simp [throw, throwThe, MonadExceptOf.throw, bind, Except.bind] at h
    · split at h
      · simp [throw, throwThe, MonadExceptOf.throw, bind, Except.bind, pure, Except.pure] at h
      · simp only [bind, Except.bind, pure, Except.pure, Except.ok.injEq] at h
        rw [← h]
  have hle : paramCount c.attrs ≤ nargs c.attrs := by unfold paramCount nargs; omega
  constructor
  · intro h0
    rw [hb]; unfold nargs paramCount; rw [h0]; rfl
  · rw [hb, List.take_take, Nat.min_eq_left hle]

/-- **C49 fails** with a positional-only parameter, which is counted twice: `def f(a, /): x = 1` has the parameter `a`, the
Bytecode says `a, x`. -/
theorem C49_argnames_false : ∃ (c : Concrete) (b : Bytecode), c.attrs.argcount = 1 ∧ c.attrs.posonlyargcount = 1 ∧
    c.varnames.take (paramCount c.attrs) = ["a"] ∧ toBytecode Py311.platform true false c = .ok b ∧ b.argnames = ["a", "x"] := by
  let c : Concrete := ⟨{ Attrs.default with argcount := 1, posonlyargcount := 1 }, [.other 0, .int 1], [], ["a", "x"], [],
    [cins Py311.platform "LOAD_CONST" (some 1), cins Py311.platform "STORE_FAST" (some 1), cins Py311.platform "LOAD_CONST" (some 0),
     cins Py311.platform "RETURN_VALUE"]⟩
  cases h : toBytecode Py311.platform true false c with
  | error e =>
    have : (toBytecode Py311.platform true false c).isOk = true := by decide +kernel
    rw [h] at this; simp [Except.isOk, Except.toBool] at this
  | ok b =>
    refine ⟨c, b, rfl, rfl, by decide +kernel, h, ?_⟩
    have : (match toBytecode Py311.platform true false c with | .ok b => b.argnames | .error _ => []) = ["a", "x"] := by decide +kernel
    rw [h] at this; exact this

end Verif
