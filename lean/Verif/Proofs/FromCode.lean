import Verif.Proofs.CodeProgram
import Verif.Props.ToBytecode
import Verif.Props.ConcreteInstr
/-
Reading a code object: `from_code` gives the program the code object denotes.
-/
namespace Verif
open Spec
variable {κ : Type}

/-! ### Exception table -/

theorem and64_ne (b : Nat) : (b &&& 64 ≠ 0) ↔ ¬ b % 128 < 64 := by
  have h1 : (b &&& 64) % 128 = (b % 128) &&& 64 := Nat.and_mod_two_pow (n := 7)
  have h2 : b &&& 64 ≤ 64 := Nat.and_le_right
  rw [Nat.mod_eq_of_lt (by omega)] at h1
  rw [h1, and64_byte (by omega)]
  rw [Nat.mod_mod]
  split <;> omega

theorem parseAcc_read (bs : Bytes) : ∀ acc, parseAcc acc bs = match readNumber acc bs with
    | some p => .ok p
    | none => .error .stopIteration := by
  induction bs with
  | nil => intro acc; rfl
  | cons b r ih =>
    intro acc
    simp only [parseAcc, readNumber]
    by_cases h : b % 128 < 64
    · rw [if_pos h, if_neg (fun hh => (and64_ne b).1 hh h)]
    · rw [if_neg h, if_pos ((and64_ne b).2 h), ih]

theorem parseVarint_read (bs : Bytes) : parseVarint bs = match readNumber 0 bs with
    | some p => .ok p
    | none => .error .stopIteration := by rw [parseVarint_eq, parseAcc_read]

theorem readNumber_len {bs r : Bytes} {acc v : Nat} (h : readNumber acc bs = some (v, r)) : r.length < bs.length := by
  induction bs generalizing acc with
  | nil => simp [readNumber] at h
  | cons b bs ih =>
    simp only [readNumber] at h
    split at h
    · simp only [Option.some.injEq, Prod.mk.injEq] at h
      rw [← h.2]; simp
    · have := ih h
      simp; omega

/-- The entry of a region. -/
def entryOf (r : Region) : ExcEntry := ⟨r.start, (r.start : Int) + r.size - 1, r.target, ((r.depthLasti / 2 : Nat) : Int), decide (r.depthLasti % 2 = 1)⟩

theorem regionOf_entryOf (r : Region) : regionOf (entryOf r) = r := by
  obtain ⟨a, b, c, d⟩ := r
  simp only [regionOf, entryOf, Region.mk.injEq, Int.toNat_natCast, true_and]
  constructor
  · omega
  · by_cases h : d % 2 = 1 <;> simp [h] <;> omega

theorem parse_regions (n m : Nat) (bs : Bytes) (hn : bs.length < n) (hm : bs.length ≤ m) :
    parseExcTableLoop n bs = (readRegions m bs).map entryOf := by
  induction m generalizing n bs with
  | zero =>
    have : bs = [] := List.length_eq_zero_iff.1 (by omega)
    subst this
    cases n with
    | zero => rfl
    | succ n => rfl
  | succ m ih =>
    cases n with
    | zero => omega
    | succ n =>
      unfold parseExcTableLoop readRegions parseExcEntry
      simp only [parseVarint_read]
      cases h1 : readNumber 0 bs with
      | none => rfl
      | some p1 =>
        obtain ⟨a, r1⟩ := p1
        simp only [bind, Except.bind]
        cases h2 : readNumber 0 r1 with
        | none => rfl
        | some p2 =>
          obtain ⟨b, r2⟩ := p2
          simp only
          cases h3 : readNumber 0 r2 with
          | none => rfl
          | some p3 =>
            obtain ⟨c, r3⟩ := p3
            simp only
            cases h4 : readNumber 0 r3 with
            | none => rfl
            | some p4 =>
              obtain ⟨d, r4⟩ := p4
              have l1 := readNumber_len h1
              have l2 := readNumber_len h2
              have l3 := readNumber_len h3
              have l4 := readNumber_len h4
              simp only [pure, Except.pure, List.map_cons]
              rw [ih n r4 (by omega) (by omega)]
              congr 1
              have e1 : d >>> 1 = d / 2 := by simp [Nat.shiftRight_eq_div_pow]
              have e2 : d &&& 1 = d % 2 := Nat.and_one_is_mod d
              simp only [entryOf, e1, e2, ExcEntry.mk.injEq, true_and]
              by_cases h : d % 2 = 1
              · simp [h]
              · have : d % 2 = 0 := by omega
                simp [this]

theorem parseExcTable_regions (bs : Bytes) : parseExcTable bs = (readRegions bs.length bs).map entryOf :=
  parse_regions _ _ bs (Nat.lt_succ_self _) (Nat.le_refl _)

theorem parseExcTable_valid (bs : Bytes) : ∀ e ∈ parseExcTable bs, 0 ≤ e.start ∧ e.start - 1 ≤ e.stop ∧ 0 ≤ e.target ∧ 0 ≤ e.depth := by
  intro e he
  rw [parseExcTable_regions] at he
  obtain ⟨r, _, rfl⟩ := List.mem_map.1 he
  simp only [entryOf]
  omega

theorem parseExcTable_map (bs : Bytes) : (parseExcTable bs).map regionOf = readRegions bs.length bs := by
  rw [parseExcTable_regions, List.map_map]
  conv => rhs; rw [← List.map_id (readRegions bs.length bs)]
  apply List.map_congr_left
  intro r _
  exact regionOf_entryOf r

/-! ### Locations -/

theorem locOfPos_val {p : Pos} {l : Loc} (h : locOfPos p = .ok l) :
    l = ⟨p.line.map Int.toNat, p.endLine.map Int.toNat, p.col.map Int.toNat, p.endCol.map Int.toNat⟩ := by
  unfold locOfPos at h
  by_cases hv : ValidArgs true p.line p.endLine p.col p.endCol
  · obtain ⟨loc', h', e1, e2, e3, e4⟩ := (C11_location_accepts_exactly_coherent true p.line p.endLine p.col p.endCol).1 hv
    rw [h] at h'
    cases h'
    rw [← e1, ← e2, ← e3, ← e4]
    obtain ⟨a, b, c, d⟩ := l
    cases a <;> cases b <;> cases c <;> cases d <;> simp
  · rw [(C11_location_accepts_exactly_coherent true _ _ _ _).2 hv] at h; simp at h

theorem cacheReads_valid (P : Platform) (loc : Loc) (hc : Coherent loc) (n : Nat) : ∀ (pos : List Pos) (us : List CInstr), cacheReads P loc pos n = .ok us →
    ∀ u ∈ us, ValidCInstr P u := by
  induction n with
  | zero => intro pos us h u hu; simp [cacheReads] at h; subst h; simp at hu
  | succ n ih =>
    intro pos us h u hu
    unfold cacheReads at h
    obtain ⟨l, hl, h⟩ := except_bind_ok h
    obtain ⟨i, hi, h⟩ := except_bind_ok h
    obtain ⟨r, hr, h⟩ := except_bind_ok h
    simp only [pure, Except.pure, Except.ok.injEq] at h
    subst h
    rcases List.mem_cons.1 hu with rfl | hu
    · refine (C09_constructed_valid P _ _ _ _ ?_ _ _ hi).1
      intro l' e
      cases e
      split at hl
      · cases hl; exact hc
      · exact Loc.make_coherent hl
    · exact ih _ _ hr u hu

theorem disCode_valid (P : Platform) (m : Nat) : ∀ (caches : Nat) (pos : List Pos) (bs : Bytes) (us : List CInstr), bs.length ≤ m → disCode P caches pos bs = .ok us →
    ∀ u ∈ us, ValidCInstr P u := by
  induction m using Nat.strongRecOn with
  | _ m ih =>
    intro caches pos bs us hm h u hu
    match bs, hm with
    | [], _ => simp [disCode] at h; subst h; simp at hu
    | [_], _ => simp [disCode] at h; subst h; simp at hu
    | op :: a :: rest, hm =>
      have hlt : rest.length < m := by simp at hm; omega
      cases caches with
      | succ k =>
        rw [disCode] at h
        exact ih _ hlt _ _ rest us (Nat.le_refl _) h u hu
      | zero =>
        rw [disCode] at h
        obtain ⟨name, _, h⟩ := except_bind_ok h
        obtain ⟨loc, hl, h⟩ := except_bind_ok h
        obtain ⟨i, hi, h⟩ := except_bind_ok h
        obtain ⟨cs, hcs, h⟩ := except_bind_ok h
        obtain ⟨r, hr, h⟩ := except_bind_ok h
        simp only [pure, Except.pure, Except.ok.injEq] at h
        subst h
        have hco : Coherent loc := Loc.make_coherent hl
        rcases List.mem_append.1 hu with hu | hu
        · rcases List.mem_cons.1 hu with rfl | hu
          · exact (C09_constructed_valid P _ _ _ _ (fun l' e => by cases e; exact hco) _ _ hi).1
          · exact cacheReads_valid P loc hco _ _ _ hcs u hu
        · exact ih _ hlt _ _ rest r (Nat.le_refl _) hr u hu

/-! ### Reading -/

theorem reread_readable {P : Platform} {i j : CInstr} (hr : Readable P i) (h : noLoc j = reread (fun _ => some 0) i) (h2 : i.opcode = 0 → i.size = 2)
    (hv : ValidCInstr P j) : Readable P j := by
  have e1 := congrArg CInstr.name h
  have e4 := congrArg CInstr.arg h
  have e5 := congrArg CInstr.ext h
  simp only [noLoc, reread] at e1 e4 e5
  have hsz := size_of_units hr
  refine ⟨hv, (C07_size_eq_length_iff P j hv).2 ?_, by rw [e1]; exact hr.noext⟩
  intro n hn
  rw [e5] at hn
  split at hn
  · cases hn
  · rename_i hpre
    cases hn
    have h0 : i.opcode ≠ 0 := fun h0 => hpre (by have := h2 h0; omega)
    rw [if_neg h0] at e4
    rw [e4]
    have hs := hr.size
    constructor
    · intro ha
      have : (i.assemble P).length = 2 := by simp [CInstr.assemble, ha]
      omega
    · intro a ha
      unfold nPrefix
      rw [ha]
      simp
      omega

theorem fetchedOf_same {is js : List CInstr} (h : List.Forall₂ SameInstr is js) : ∀ u, fetchedOf u js = fetchedOf u is := by
  induction h with
  | nil => intro u; rfl
  | cons hij _ ih =>
    intro u
    simp only [fetchedOf, hij.opcode, hij.size, ih]
    split
    · rfl
    · rename_i h0; rw [hij.arg h0]

theorem unitsOf_same {is js : List CInstr} (h : List.Forall₂ SameInstr is js) : unitsOf js = unitsOf is := by
  unfold unitsOf
  induction h with
  | nil => rfl
  | cons hij _ ih => simp only [List.map_cons, List.sum_cons, ih, hij.size]

theorem layout_cache_size {P : Platform} {is : List CInstr} (h : CacheLayout P is) : ∀ i ∈ is, i.opcode = 0 → i.size = 2 := by
  induction h with
  | nil => intro i hi; simp at hi
  | group i cs rest h0 _ hcs _ ih =>
    intro x hx h
    rcases List.mem_cons.1 hx with rfl | hx
    · exact absurd h h0
    · rcases List.mem_append.1 hx with hx | hx
      · exact (hcs x hx).2
      · exact ih x hx h

/-- What is read, the instructions apart. -/
def readOf (co : Code) (js : List CInstr) : Concrete where
  attrs := { argcount := co.argcount, posonlyargcount := co.posonlyargcount, kwonlyargcount := co.kwonlyargcount
             firstLineno := co.firstlineno, name := co.name, qualname := co.qualname, filename := co.filename
             docstring := setDocstring none co.consts, cellvars := co.cellvars, freevars := co.freevars, flags := co.flags }
  consts := co.consts
  names := co.names
  varnames := co.varnames
  excTable := parseExcTable co.exctable
  elems := js.map .instr

theorem locOfPos_noPos : locOfPos noPos = .ok ⟨none, none, none, none⟩ := rfl

/-- Reading a code object made of instructions laid out with their caches: the ConcreteBytecode denotes its program. -/
theorem fromCode_program (P : Platform) (hP : P.WF) (h11 : P.py311 = true) (key : Arg → κ) (co : Code) (is : List CInstr)
    (hcode : co.code = is.flatMap (CInstr.assemble P)) (hl : CacheLayout P is) (hr : ∀ i ∈ is, Readable P i)
    (hpos : ∀ p ∈ (readLocs co.firstlineno co.linetable).getD [], ∃ l, locOfPos p = .ok l) :
    ∃ js : List CInstr, Concrete.fromCode P co = .ok (readOf co js) ∧ programC P key (readOf co js) = programCode P key co ∧
      List.Forall₂ SameInstr is js ∧ (∀ j ∈ js, Readable P j) ∧ ∀ j ∈ js, j.opcode = 0 → j.arg = some 0 := by
  obtain ⟨us, js, h1, h2, h3, h4⟩ := read_back P hP h11 is hl (fun i hi => (hr i hi).valid) (fun i hi => (hr i hi).size)
    (fun i hi => (hr i hi).noext) _ hpos
  have hsame := forall₂_of_map h3
  have hvus : ∀ u ∈ us, ValidCInstr P u := disCode_valid P _ 0 _ _ us (Nat.le_refl _) h1
  have hvjs : ∀ j ∈ js, ValidCInstr P j := by
    intro j hj
    refine removeExtendedArgs_valid P (us.map .instr) ?_ 0 none (js.map .instr) h2 j (List.mem_map.2 ⟨j, hj, rfl⟩)
    intro ci hci
    obtain ⟨u, hu, e⟩ := List.mem_map.1 hci
    cases e
    exact hvus _ hu
  have hlen : js.length = is.length := by have := congrArg List.length h3; simpa using this
  have hget : ∀ k : Nat, ∀ j, js[k]? = some j → ∃ i, is[k]? = some i ∧ noLoc j = reread (fun _ => some 0) i := by
    intro k j hj
    have := congrArg (fun l => l[k]?) h3
    simp only [List.getElem?_map, hj, Option.map_some] at this
    cases hi : is[k]? with
    | none => rw [hi] at this; simp at this
    | some i => rw [hi] at this; exact ⟨i, rfl, by simpa using this⟩
  have hrjs : ∀ j ∈ js, Readable P j := by
    intro j hj
    obtain ⟨k, hk⟩ := List.mem_iff_getElem?.1 hj
    obtain ⟨i, hi, e⟩ := hget k j hk
    have him := List.mem_of_getElem? hi
    exact reread_readable (hr i him) e (layout_cache_size hl i him) (hvjs j hj)
  have hlocs : ∀ (a r : List CInstr) (j : CInstr), js = a ++ j :: r → j.opcode ≠ 0 →
      j.loc = some (locOfUnit co (unitsOf a + j.size / 2 - 1)) := by
    intro a r j e h0
    have hj : js[a.length]? = some j := by rw [e]; simp
    obtain ⟨i, hi, hij⟩ := hget _ _ hj
    have hs := sameInstr_of_reread hij
    have hlast : lastOf (is.map (fun i => i.size / 2)) a.length = unitsOf a + j.size / 2 - 1 := by
      have e1 : is.map (fun i => i.size / 2) = js.map (fun i => i.size / 2) := by
        have := congrArg (List.map (fun i : CInstr => i.size / 2)) h3
        rw [List.map_map, List.map_map] at this
        exact this.symm
      rw [e1, e]
      unfold lastOf unitsOf
      rw [List.map_append, List.take_append, List.take_of_length_le (by simp)]
      simp [Nat.add_sub_cancel_left]
    have hok : ∃ l, locOfPos (((readLocs co.firstlineno co.linetable).getD [])[unitsOf a + j.size / 2 - 1]?.getD noPos) = .ok l := by
      cases hx : ((readLocs co.firstlineno co.linetable).getD [])[unitsOf a + j.size / 2 - 1]? with
      | none => exact ⟨_, locOfPos_noPos⟩
      | some p => exact hpos p (List.mem_of_getElem? hx)
    obtain ⟨l, hl'⟩ := hok
    rw [h4 _ i j hi hj (.inl (by rw [← hs.opcode]; exact h0)) l (by rw [hlast]; exact hl')]
    congr 1
    rw [locOfPos_val hl']
    unfold locOfUnit
    cases hx : ((readLocs co.firstlineno co.linetable).getD [])[unitsOf a + j.size / 2 - 1]? with
    | none => rfl
    | some p => rfl
  have hca : ∀ j ∈ js, j.opcode = 0 → j.arg = some 0 := by
    intro j hj h0
    obtain ⟨k, hk⟩ := List.mem_iff_getElem?.1 hj
    obtain ⟨i, hi, e⟩ := hget k j hk
    have e4 := congrArg CInstr.arg e
    have e2 := congrArg CInstr.opcode e
    simp only [noLoc, reread] at e4 e2
    rw [e4, if_pos (e2 ▸ h0)]
  refine ⟨js, ?_, ?_, hsame, hrjs, hca⟩
  · unfold Concrete.fromCode
    rw [hcode, h1]
    simp only [bind, Except.bind, Bool.false_eq_true, if_false, h2]
    rfl
  · have := code_program P hP h11 key (readOf co js) co js id (fun j => j.loc.getD (Loc.line none)) rfl hrjs ?_
      (by rw [hcode, fetch_layout P hP is hl hr 0, fetchedOf_same hsame]) (by rw [hcode, assemble_units P is hr, unitsOf_same hsame]) rfl rfl rfl rfl ?_
      (parseExcTable_valid _) (parseExcTable_map _).symm
    · rw [this]
      exact (List.map_id _).symm
    · intro j hj h0
      obtain ⟨a, r, e⟩ := List.append_of_mem hj
      rw [hlocs a r j e h0]; rfl
    · intro a j r e h0
      rw [hlocs a r j e h0]; rfl

end Verif
