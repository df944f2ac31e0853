import Verif.Spec.CodeProgram
import Verif.Proofs.Code
import Verif.Props.Location
import Verif.Props.ExcTable
/-
The program of an emitted code object is that of the ConcreteBytecode.
-/
namespace Verif
open Spec
variable {κ : Type}

/-! ### Fetching -/

/-- The instructions fetched from a list of concrete instructions starting at unit `u`. -/
def fetchedOf (u : Nat) : List CInstr → List Fetched
  | [] => []
  | i :: r => if i.opcode = 0 then fetchedOf (u + i.size / 2) r
    else ⟨i.opcode, i.arg.getD 0, u, u + i.size / 2 - 1⟩ :: fetchedOf (u + i.size / 2) r

theorem fetch_prefix (P : Platform) (first : Nat) (rest : Bytes) (bs : List Nat) : ∀ (acc u : Nat),
    fetch P 0 first acc u (unitsFlat P.extendedArg bs ++ rest) = fetch P 0 first (foldBytes acc bs) (u + bs.length) rest := by
  induction bs with
  | nil => intro acc u; rfl
  | cons b bs ih =>
    intro acc u
    have : unitsFlat P.extendedArg (b :: bs) ++ rest = P.extendedArg :: b :: (unitsFlat P.extendedArg bs ++ rest) := by
      simp [unitsFlat]
    rw [this]
    have e : fetch P 0 first acc u (P.extendedArg :: b :: (unitsFlat P.extendedArg bs ++ rest)) =
        fetch P 0 first (acc * 256 + b) (u + 1) (unitsFlat P.extendedArg bs ++ rest) := by
      rw [fetch.eq_def]
      exact if_pos rfl
    rw [e, ih]
    simp only [foldBytes, List.foldl_cons, List.length_cons]
    congr 1
    omega

theorem fetch_skip (P : Platform) (rest : Bytes) : ∀ (c u : Nat) (xs : Bytes), xs.length = 2 * c →
    fetch P c u 0 u (xs ++ rest) = fetch P 0 (u + c) 0 (u + c) rest := by
  intro c
  induction c with
  | zero =>
    intro u xs h
    have : xs = [] := List.length_eq_zero_iff.1 (by omega)
    subst this; rfl
  | succ c ih =>
    intro u xs h
    match xs, h with
    | x :: y :: xs, h =>
      have h' : xs.length = 2 * c := by simp at h; omega
      have := ih (u + 1) xs h'
      simp only [List.cons_append]
      rw [fetch.eq_def]
      simp only
      rw [this]
      congr 1 <;> omega
    | [x], h => simp at h; omega
    | [], h => simp at h

theorem fetch_instr (P : Platform) (hP : P.WF) (i : CInstr) (hr : Readable P i) (u : Nat) (rest : Bytes) :
    fetch P 0 u 0 u (i.assemble P ++ rest) = ⟨i.opcode, i.arg.getD 0, u, u + i.size / 2 - 1⟩ ::
      fetch P (P.cacheEntries i.opcode) (u + i.size / 2) 0 (u + i.size / 2) rest := by
  have hne := hr.opcode_ne hP
  have hsz := size_of_units hr
  cases ha : i.arg with
  | none =>
    have hn : nPrefix i = 0 := by
      have h1 := hr.size
      have : (i.assemble P).length = 2 := by simp [CInstr.assemble, ha]
      omega
    have : i.assemble P = [i.opcode, 0] := by simp [CInstr.assemble, ha]
    rw [this]
    simp only [List.cons_append, List.nil_append]
    rw [fetch.eq_def]
    simp only [if_neg hne]
    have e : i.size / 2 = 1 := by omega
    rw [e]
    simp
  | some a =>
    have hx : extNeeded a ≤ nPrefix i := by unfold nPrefix; rw [ha]; simp; omega
    rw [assemble_prefix P i hr.valid.size_eq a ha, List.append_assoc, fetch_prefix, foldBytes_prefix _ _ hx, prefixBytes_length]
    simp only [List.cons_append, List.nil_append]
    rw [fetch.eq_def]
    simp only [if_neg hne]
    have e : i.size / 2 = nPrefix i + 1 := by omega
    rw [e]
    have e2 : a / 256 * 256 + a % 256 = a := by omega
    rw [e2]
    simp [Nat.add_assoc]

theorem fetchedOf_caches (cs rest : List CInstr) (h : ∀ c ∈ cs, c.opcode = 0 ∧ c.size = 2) : ∀ u,
    fetchedOf u (cs ++ rest) = fetchedOf (u + cs.length) rest := by
  induction cs with
  | nil => intro u; rfl
  | cons c cs ih =>
    intro u
    have hc := h c (by simp)
    simp only [List.cons_append, fetchedOf, hc.1, if_true, hc.2]
    rw [ih (fun x hx => h x (by simp [hx]))]
    simp only [List.length_cons]
    congr 1
    omega

theorem caches_length (P : Platform) (cs : List CInstr) (hr : ∀ i ∈ cs, Readable P i) (h : ∀ c ∈ cs, c.opcode = 0 ∧ c.size = 2) :
    (cs.flatMap (CInstr.assemble P)).length = 2 * cs.length := by
  induction cs with
  | nil => rfl
  | cons c cs ih =>
    simp only [List.flatMap_cons, List.length_append, List.length_cons]
    rw [ih (fun i hi => hr i (by simp [hi])) (fun i hi => h i (by simp [hi])), assemble_cache_length P (hr c (by simp)) (h c (by simp)).2]
    omega

/-- Fetching from the assembled code. -/
theorem fetch_layout (P : Platform) (hP : P.WF) (is : List CInstr) (hl : CacheLayout P is) (hr : ∀ i ∈ is, Readable P i) : ∀ u,
    fetch P 0 u 0 u (is.flatMap (CInstr.assemble P)) = fetchedOf u is := by
  induction hl with
  | nil => intro u; rfl
  | group i cs rest h0 hlen hcs _ ih =>
    intro u
    simp only [List.flatMap_cons, List.flatMap_append]
    rw [fetch_instr P hP i (hr i (by simp)), fetch_skip P _ _ _ _ (by rw [caches_length P cs (fun i hi => hr i (by simp [hi])) hcs, hlen])]
    rw [ih (fun i hi => hr i (by simp [hi]))]
    rw [fetchedOf, if_neg h0, fetchedOf_caches cs rest hcs, hlen]

/-! ### Targets -/

theorem width_311 {P : Platform} (h11 : P.py311 = true) (i : CInstr) : width P i = i.size / 2 := by
  have : P.py310 = true := by simp [Platform.py310, Platform.py311] at *; omega
  simp [width, this]

/-- The opcode 0 is CACHE. -/
theorem cache_iff {P : Platform} (hP : P.WF) (h11 : P.py311 = true) {i : CInstr} (hv : ValidCInstr P i) : i.name = "CACHE" ↔ i.opcode = 0 := by
  constructor
  · intro h
    have := hv.name_op
    rw [h, (hP.cache h11).1] at this
    exact (Option.some.inj this).symm
  · intro h
    have h1 := hP.name_op i.name i.opcode hv.name_op hv.base
    have h2 := hP.name_op _ _ (hP.cache h11).1 (hP.cache h11).2
    rw [h, h2.2] at h1
    exact (Option.some.inj h1.2).symm

theorem nameOf_valid {P : Platform} (hP : P.WF) {i : CInstr} (hv : ValidCInstr P i) : nameOf P i.opcode = i.name := by
  simp [nameOf, (hP.name_op i.name i.opcode hv.name_op hv.base).2]

/-- Total number of code units. -/
def unitsOf (is : List CInstr) : Nat := (is.map (fun i => i.size / 2)).sum

theorem fetchedOf_first (is : List CInstr) : ∀ u, ∀ f ∈ fetchedOf u is, u ≤ f.first := by
  induction is with
  | nil => intro u f hf; simp [fetchedOf] at hf
  | cons i is ih =>
    intro u f hf
    unfold fetchedOf at hf
    split at hf
    · have := ih _ f hf; omega
    · rcases List.mem_cons.1 hf with rfl | hf
      · exact Nat.le_refl _
      · have := ih _ f hf; omega

theorem opAtUnit_lt (P : Platform) (t : Int) (len : Nat) (fs : List Fetched) (h : ∀ f ∈ fs, t < f.first) (hl : t < len) : ∀ n, opAtUnit P t len n fs = none := by
  induction fs with
  | nil => intro n; simp [opAtUnit]; omega
  | cons f fs ih =>
    intro n
    have := h f (by simp)
    rw [opAtUnit, if_neg (by omega), ih (fun x hx => h x (by simp [hx]))]

theorem opAtUnit_fetched (P : Platform) (hP : P.WF) (h11 : P.py311 = true) (t : Int) (is : List CInstr) (hr : ∀ i ∈ is, Readable P i) : ∀ u n,
    opAtUnit P t (u + unitsOf is) n (fetchedOf u is) = opAt P t u n (is.map .instr) := by
  induction is with
  | nil => intro u n; simp [fetchedOf, opAtUnit, opAt, unitsOf]
  | cons i is ih =>
    intro u n
    have hi := hr i (by simp)
    have hc := cache_iff hP h11 hi.valid
    have hsz := size_of_units hi
    have e : u + unitsOf (i :: is) = (u + i.size / 2) + unitsOf is := by simp [unitsOf]; omega
    rw [e]
    have ih' := ih (fun x hx => hr x (by simp [hx])) (u + i.size / 2)
    simp only [List.map_cons, opAt, fetchedOf]
    by_cases h0 : i.opcode = 0
    · rw [if_pos h0]
      simp only [hc.2 h0, if_true]
      by_cases ht : t = u
      · rw [if_pos ht]
        refine opAtUnit_lt P t _ _ ?_ (by omega) n
        intro f hf
        have := fetchedOf_first is _ f hf
        omega
      · rw [if_neg ht, width_311 h11, ← ih']
        simp [opCount]
    · rw [if_neg h0]
      have hn : i.name ≠ "CACHE" := fun h => h0 (hc.1 h)
      simp only [hn, if_false, opAtUnit]
      by_cases ht : t = u
      · rw [if_pos ht, if_pos ht]
      · rw [if_neg ht, if_neg ht, width_311 h11, ← ih', nameOf_valid hP hi.valid]

/-! ### Exception table -/

theorem readNumber_varint {bs : Bytes} (h : IsVarint bs) : ∀ (acc : Nat) (rest : Bytes),
    readNumber acc (bs ++ rest) = some (bs.foldl (fun v b => v * 64 + b % 64) acc, rest) := by
  induction h with
  | last d hd =>
    intro acc rest
    simp only [List.cons_append, List.nil_append, readNumber, List.foldl_cons, List.foldl_nil]
    rw [if_pos (by omega)]
  | more d r hd _ ih =>
    intro acc rest
    simp only [List.cons_append, readNumber, List.foldl_cons]
    rw [if_neg (by omega), ih]

theorem readNumber_marked {a : Nat} {as : Bytes} (h : IsVarint (a :: as)) (rest : Bytes) :
    readNumber 0 (((128 + a) :: as) ++ rest) = some (varintValue (a :: as), rest) := by
  have := readNumber_varint h 0 rest
  rw [← show readNumber 0 ((a :: as) ++ rest) = some (varintValue (a :: as), rest) from this]
  simp only [List.cons_append, readNumber]
  have e1 : (128 + a) % 128 = a % 128 := by omega
  have e2 : (128 + a) % 64 = a % 64 := by omega
  rw [e1, e2]

/-- An entry as it is read. -/
def regionOf (e : ExcEntry) : Region :=
  ⟨e.start.toNat, (e.stop - e.start + 1).toNat, e.target.toNat, 2 * e.depth.toNat + if e.lasti then 1 else 0⟩

theorem readRegions_chunks : ∀ (es : List ExcEntry) (chunks : List Bytes) (n : Nat), chunks.length = es.length → chunks.flatten.length ≤ n →
    (∀ p ∈ es.zip chunks, Spec.IsEntry p.2 p.1.start.toNat (p.1.stop - p.1.start + 1).toNat
        p.1.target.toNat (2 * p.1.depth.toNat + if p.1.lasti then 1 else 0)) →
    readRegions n chunks.flatten = es.map regionOf := by
  intro es
  induction es with
  | nil =>
    intro chunks n hlen _ _
    have : chunks = [] := List.length_eq_zero_iff.1 (by simpa using hlen)
    subst this
    cases n <;> simp [readRegions, readNumber]
  | cons e es ih =>
    intro chunks n hlen hn h
    match chunks, hlen with
    | ch :: chunks, hlen =>
      obtain ⟨a, as, b, c, d, ha, hb, hc, hd, hch, e1, e2, e3, e4⟩ := h (e, ch) (by simp)
      simp only at hch e1 e2 e3 e4
      have hlen' : chunks.length = es.length := by simpa using hlen
      cases n with
      | zero => rw [hch] at hn; simp at hn
      | succ n =>
        have hn' : chunks.flatten.length ≤ n := by
          rw [List.flatten_cons, hch] at hn
          simp only [List.length_append, List.length_cons] at hn
          omega
        have ih' := ih chunks n hlen' hn' (fun p hp => h p (by simp only [List.zip_cons_cons, List.mem_cons]; exact .inr hp))
        unfold readRegions
        rw [List.flatten_cons, hch]
        simp only [List.append_assoc]
        rw [readNumber_marked ha]
        simp only
        rw [readNumber_varint hb]
        simp only
        rw [readNumber_varint hc]
        simp only
        rw [readNumber_varint hd]
        simp only
        rw [ih']
        simp only [List.map_cons]
        congr 1
        simp only [regionOf, Region.mk.injEq]
        exact ⟨e1, e2, e3, e4⟩

theorem find_map_region (es : List ExcEntry) (h : ∀ e ∈ es, 0 ≤ e.start ∧ e.start - 1 ≤ e.stop ∧ 0 ≤ e.target ∧ 0 ≤ e.depth) (u : Nat) :
    (es.map regionOf).find? (fun e => e.start ≤ u && u < e.start + e.size) =
      (es.find? (fun e => e.start ≤ (u : Int) && (u : Int) ≤ e.stop)).map regionOf := by
  induction es with
  | nil => rfl
  | cons e es ih =>
    obtain ⟨h1, h2, h3, h4⟩ := h e (by simp)
    have hb : (decide ((regionOf e).start ≤ u) && decide (u < (regionOf e).start + (regionOf e).size)) = (decide (e.start ≤ (u : Int)) && decide ((u : Int) ≤ e.stop)) := by
      rw [Bool.eq_iff_iff, Bool.and_eq_true, Bool.and_eq_true, decide_eq_true_iff, decide_eq_true_iff, decide_eq_true_iff, decide_eq_true_iff]
      simp only [regionOf]
      omega
    simp only [List.map_cons, List.find?_cons, hb]
    split
    · rfl
    · exact ih (fun x hx => h x (by simp [hx]))


/-! ### Operands -/

theorem frameSlots_code (P : Platform) (h11 : P.py311 = true) (v c f : List String) : frameSlots v (codeCellvars P v c) f = frameSlots v c f := by
  unfold frameSlots codeCellvars
  rw [if_pos h11, List.filter_append]
  have h1 : (v.eraseDups.filter (· ∈ c)).filter (fun n => !(v.contains n)) = [] := by
    rw [List.filter_eq_nil_iff]
    intro x hx
    have := (List.mem_filter.1 hx).1
    simp [List.mem_eraseDups.1 this]
  have h2 : (c.filter (· ∉ v)).filter (fun n => !(v.contains n)) = c.filter (fun n => !(v.contains n)) := by
    rw [List.filter_filter]
    congr 1
    funext x
    by_cases hx : x ∈ v <;> simp [hx]
  rw [h1, h2, List.nil_append]

theorem expandC_dest {P : Platform} {key : Arg → κ} {c : Concrete} {d d' : Option Nat} {i : CInstr} (h : P.hasJump i.opcode = false) :
    expandC P key c d i = expandC P key c d' i := by
  unfold expandC operandC
  simp only [h, Bool.false_eq_true, if_false]

/-- Only the tables matter. -/
theorem expandC_tables {P : Platform} (h11 : P.py311 = true) {key : Arg → κ} {c c' : Concrete} {d : Option Nat} {i i' : CInstr}
    (h1 : c'.consts = c.consts) (h2 : c'.names = c.names) (h3 : c'.varnames = c.varnames)
    (h5 : frameSlots c'.varnames c'.attrs.cellvars c'.attrs.freevars = frameSlots c.varnames c.attrs.cellvars c.attrs.freevars)
    (k1 : i'.name = i.name) (k2 : i'.opcode = i.opcode) (k3 : i'.arg = i.arg) :
    expandC P key c' d i' = expandC P key c d i := by
  have e1 : localSlots P c' = localSlots P c := by
    unfold localSlots; rw [h5, h3]
  have e2 : derefSlots P c' = derefSlots P c := by
    unfold derefSlots; rw [if_pos h11, if_pos h11, h5]
  unfold expandC operandC
  rw [k1, k2, k3, e1, e2, h1, h2]

theorem hasJump_hasArg {P : Platform} (hP : P.WF) {i : CInstr} (hv : ValidCInstr P i) (h : P.hasJump i.opcode = true) : P.hasArg i.opcode = true := by
  refine hP.operand_arg i.name i.opcode hv.name_op hv.base ?_
  unfold Platform.hasJump at h
  simp only [Bool.or_eq_true] at h ⊢
  grind

/-! ### Locations -/

theorem getElem_flatMap_replicate {α β : Type} (w : α → Nat) (g : α → β) (a : List α) (x : α) (r : List α) (j : Nat) (hj : j < w x) :
    ((a ++ x :: r).flatMap (fun i => List.replicate (w i) (g i)))[(a.map w).sum + j]? = some (g x) := by
  induction a with
  | nil =>
    simp only [List.nil_append, List.flatMap_cons, List.map_nil, List.sum_nil, Nat.zero_add]
    rw [List.getElem?_append_left (by simpa using hj)]
    simp [List.getElem?_replicate, hj]
  | cons y a ih =>
    simp only [List.cons_append, List.flatMap_cons, List.map_cons, List.sum_cons]
    rw [List.getElem?_append_right (by simp; omega)]
    simp only [List.length_replicate]
    rw [show w y + (a.map w).sum + j - w y = (a.map w).sum + j by omega]
    exact ih

theorem inherit_all (prev : Loc) (is : List CInstr) (g : CInstr → Loc) (h : ∀ i ∈ is, i.loc = some (g i)) : inherit prev (is.map (·.loc)) = is.map g := by
  induction is generalizing prev with
  | nil => rfl
  | cons i is ih =>
    simp only [List.map_cons, h i (by simp), inherit]
    rw [ih _ (fun x hx => h x (by simp [hx]))]

theorem instrsOf_instrs (is : List CInstr) : instrsOf (is.map .instr) = is := by
  induction is with
  | nil => rfl
  | cons i is ih => simp only [instrsOf, List.map_cons, List.filterMap_cons] at *; rw [ih]

theorem perUnit_flatMap {α β : Type} (w : α → Nat) (g : α → β) (is : List α) :
    perUnit (is.map w) (is.map g) = is.flatMap (fun i => List.replicate (w i / 2) (g i)) := by
  unfold perUnit
  induction is with
  | nil => rfl
  | cons i is ih => simp only [List.map_cons, List.zipWith_cons_cons, List.flatten_cons, List.flatMap_cons, ih]

theorem locOf_posOf (l : Loc) (hc : Coherent l) :
    (⟨(posOf l).line.map Int.toNat, (posOf l).endLine.map Int.toNat, (posOf l).col.map Int.toNat, (posOf l).endCol.map Int.toNat⟩ : Loc) = keptLoc l := by
  obtain ⟨ln, el, c, ec⟩ := l
  have h1 := hc.colPair
  simp only at h1
  cases ln with
  | none => simp [posOf, keptLoc]
  | some n =>
    cases c with
    | none =>
      simp at h1
      simp [posOf, keptLoc, h1]
    | some c =>
      cases ec with
      | none => simp at h1
      | some e => cases el <;> simp [posOf, keptLoc]

theorem assemble_units (P : Platform) (is : List CInstr) (hr : ∀ i ∈ is, Readable P i) : (is.flatMap (CInstr.assemble P)).length / 2 = unitsOf is := by
  have : (is.flatMap (CInstr.assemble P)).length = 2 * unitsOf is := by
    induction is with
    | nil => rfl
    | cons i is ih =>
      have hi := hr i (by simp)
      have := size_of_units hi
      simp only [List.flatMap_cons, List.length_append]
      rw [ih (fun x hx => hr x (by simp [hx])), hi.size]
      simp only [unitsOf, List.map_cons, List.sum_cons]
      omega
  omega

/-- A code object and a ConcreteBytecode with the same instructions, tables, regions and (through `f`) locations denote the
same program. -/
theorem code_program (P : Platform) (hP : P.WF) (h11 : P.py311 = true) (key : Arg → κ) (c : Concrete) (co : Code) (is : List CInstr) (f : Loc → Loc) (g : CInstr → Loc)
    (he : c.elems = is.map .instr) (hr : ∀ i ∈ is, Readable P i) (hg : ∀ i ∈ is, i.opcode ≠ 0 → i.loc = some (g i))
    (hfs : fetch P 0 0 0 0 co.code = fetchedOf 0 is) (hun : co.code.length / 2 = unitsOf is)
    (t1 : (tablesOf co).consts = c.consts) (t2 : (tablesOf co).names = c.names) (t3 : (tablesOf co).varnames = c.varnames)
    (t5 : frameSlots co.varnames co.cellvars co.freevars = frameSlots c.varnames c.attrs.cellvars c.attrs.freevars)
    (hloc : ∀ (a : List CInstr) (i : CInstr) (r : List CInstr), is = a ++ i :: r → i.opcode ≠ 0 → locOfUnit co (unitsOf a + i.size / 2 - 1) = f (g i))
    (hval : ∀ e ∈ c.excTable, 0 ≤ e.start ∧ e.start - 1 ≤ e.stop ∧ 0 ≤ e.target ∧ 0 ≤ e.depth)
    (hreg : readRegions co.exctable.length co.exctable = c.excTable.map regionOf) :
    programCode P key co = (programC P key c).map (fun o => { o with loc := f o.loc }) := by
  have hsz : ∀ i ∈ is, i.size % 2 = 0 ∧ 2 ≤ i.size := by
    intro i hi
    have := size_of_units (hr i hi)
    omega
  have hop : ∀ t : Int, opAtUnit P t (co.code.length / 2) 0 (fetchedOf 0 is) = opAt P t 0 0 c.elems := by
    intro t
    rw [hun, he]
    have := opAtUnit_fetched P hP h11 t is hr 0 0
    rwa [Nat.zero_add] at this
  have hh : ∀ u, handlerOfUnit P co (fetchedOf 0 is) u = handlerAt P c u := by
    intro u
    unfold handlerOfUnit handlerAt
    rw [hreg, find_map_region _ hval]
    cases hf : c.excTable.find? (fun e => e.start ≤ (u : Int) && (u : Int) ≤ e.stop) with
    | none => rfl
    | some e =>
      obtain ⟨v1, v2, v3, v4⟩ := hval e (List.mem_of_find?_eq_some hf)
      simp only [Option.map_some]
      have ht : (((regionOf e).target : Nat) : Int) = e.target := by simp only [regionOf]; omega
      rw [ht, hop]
      cases opAt P e.target 0 0 c.elems with
      | none => rfl
      | some t =>
        simp only [Option.map_some, regionOf]
        cases e.lasti
        · simp
        · have : (2 * e.depth.toNat + 1) % 2 = 1 := by omega
          have h2 : (2 * e.depth.toNat + 1) / 2 = e.depth.toNat := by omega
          simp [h2]
  -- the walk
  have key' : ∀ (r a : List CInstr) (line : Nat), is = a ++ r →
      (fetchedOf (unitsOf a) r).flatMap (fun f =>
        (expandC P key (tablesOf co) ((jumpUnit P f).bind (fun t => opAtUnit P t (co.code.length / 2) 0 (fetchedOf 0 is)))
          ⟨nameOf P f.opcode, f.opcode, if P.hasArg f.opcode then some f.arg else none, none, none, 2⟩).map
        (fun p => (⟨p.1, p.2, locOfUnit co f.unit, handlerOfUnit P co (fetchedOf 0 is) f.unit⟩ : Op κ))) =
      (opsC P key c line (unitsOf a) (r.map .instr)).map (fun o => { o with loc := f o.loc }) := by
    intro r
    induction r with
    | nil => intro a line _; rfl
    | cons i r ih =>
      intro a line e
      have hi : i ∈ is := by rw [e]; simp
      have hri := hr i hi
      have hv := hri.valid
      have hs := hsz i hi
      have e' : is = (a ++ [i]) ++ r := by rw [e]; simp
      have eu : unitsOf (a ++ [i]) = unitsOf a + i.size / 2 := by simp [unitsOf]
      have hc := cache_iff hP h11 hv
      have hw := width_311 h11 i
      have h10 : P.py310 = true := by simp [Platform.py310, Platform.py311] at *; omega
      simp only [List.map_cons, opsC, List.map_append]
      have ih' := ih (a ++ [i]) ((i.loc.bind (·.lineno)).getD line) e'
      rw [eu] at ih'
      rw [hw, ← ih']
      by_cases h0 : i.opcode = 0
      · simp only [fetchedOf, h0, if_true]
        have : ∀ d, expandC P key c d i = [] := by intro d; unfold expandC; rw [if_pos (hc.2 h0)]
        rw [this]
        simp
      · simp only [fetchedOf, h0, if_false, List.flatMap_cons]
        congr 1
        have harg : (if P.hasArg i.opcode then some (i.arg.getD 0) else none) = i.arg := by
          by_cases ha : P.hasArg i.opcode = true
          · rw [if_pos ha]
            obtain ⟨v, hv'⟩ := Option.isSome_iff_exists.1 (hv.arg_required ha)
            rw [hv']; rfl
          · rw [if_neg ha, hv.arg_forbidden (by simpa using ha) h0]
        have hexp : expandC P key (tablesOf co) ((jumpUnit P ⟨i.opcode, i.arg.getD 0, unitsOf a, unitsOf a + i.size / 2 - 1⟩).bind
              (fun t => opAtUnit P t (co.code.length / 2) 0 (fetchedOf 0 is)))
            ⟨nameOf P i.opcode, i.opcode, if P.hasArg i.opcode then some (i.arg.getD 0) else none, none, none, 2⟩ =
            expandC P key c ((i.getJumpTarget P (unitsOf a)).bind (fun t => opAt P t 0 0 c.elems)) i := by
          rw [expandC_tables (i' := ⟨nameOf P i.opcode, i.opcode, if P.hasArg i.opcode then some (i.arg.getD 0) else none, none, none, 2⟩) h11 (i := i) t1 t2 t3 t5 (nameOf_valid hP hv) rfl harg]
          by_cases hj : P.hasJump i.opcode = true
          · obtain ⟨v, hv'⟩ := Option.isSome_iff_exists.1 (hv.arg_required (hasJump_hasArg hP hv hj))
            congr 1
            have hju : jumpUnit P ⟨i.opcode, i.arg.getD 0, unitsOf a, unitsOf a + i.size / 2 - 1⟩ = i.getJumpTarget P (unitsOf a) := by
              unfold jumpUnit CInstr.getJumpTarget CInstr.useCacheOpcodes
              rw [hv']
              simp only [nameOf_valid hP hv, h10, h11, if_true, Option.getD_some]
              have e1 : ((unitsOf a + i.size / 2 - 1 : Nat) : Int) + 1 + (P.cacheEntries i.opcode : Int) =
                  (unitsOf a : Int) + ((i.size / 2 + P.cacheEntries i.opcode : Nat) : Int) := by omega
              rw [e1]
            rw [hju]
            cases i.getJumpTarget P (unitsOf a) with
            | none => rfl
            | some t => exact hop t
          · exact expandC_dest (by simpa using hj)
        rw [hexp, List.map_map]
        apply List.map_congr_left
        intro p _
        simp only [Function.comp, h10, if_true]
        rw [hloc a i r e h0, hh, hg i hi h0]
        simp only [Option.getD_some]
  unfold programCode programC
  rw [hfs, he]
  exact key' is [] _ rfl


/-- A code object emitted from instructions all of which have a location denotes the program of the ConcreteBytecode, with
the locations as code objects keep them. -/
theorem emit_program (P : Platform) (hP : P.WF) (h11 : P.py311 = true) (key : Arg → κ) (c : Concrete) (is : List CInstr) (g : CInstr → Loc)
    (he : c.elems = is.map .instr) (hl : CacheLayout P is) (hr : ∀ i ∈ is, Readable P i) (hg : ∀ i ∈ is, i.loc = some (g i)) (n : Int)
    (co : Code) (h : c.emit P n = .ok co) :
    programCode P key co = (programC P key c).map (fun o => { o with loc := keptLoc o.loc }) := by
  -- the fields of the code object
  unfold Concrete.emit at h
  simp only [h11, if_true] at h
  obtain ⟨table, htab, h⟩ := except_bind_ok h
  obtain ⟨exc, hexc, h⟩ := except_bind_ok h
  simp only [pure, Except.pure, Except.ok.injEq] at h
  have hcode : co.code = is.flatMap (CInstr.assemble P) := by
    rw [← h]
    show (assembleCodeLoop P 0 (normalizeLineno c.attrs.firstLineno c.elems)).1 = _
    rw [assembleCodeLoop_bytes, he, instrsOf_instrs]
  have hlt : co.linetable = table := by rw [← h]
  have hfl : co.firstlineno = c.attrs.firstLineno := by rw [← h]
  have hex : co.exctable = exc := by rw [← h]
  have t1 : (tablesOf co).consts = c.consts := by rw [← h]; rfl
  have t2 : (tablesOf co).names = c.names := by rw [← h]; rfl
  have t3 : (tablesOf co).varnames = c.varnames := by rw [← h]; rfl
  have t5 : frameSlots co.varnames co.cellvars co.freevars = frameSlots c.varnames c.attrs.cellvars c.attrs.freevars := by
    rw [← h]; exact frameSlots_code P h11 _ _ _
  clear h
  have hsz : ∀ i ∈ is, i.size % 2 = 0 ∧ 2 ≤ i.size := by
    intro i hi
    have := size_of_units (hr i hi)
    omega
  have hfs : fetch P 0 0 0 0 co.code = fetchedOf 0 is := by rw [hcode]; exact fetch_layout P hP is hl hr 0
  have hun : co.code.length / 2 = unitsOf is := by rw [hcode, assemble_units P is hr]
  -- locations
  obtain ⟨hszs, hlocs⟩ := assembleCodeLoop_sizes P c.elems c.attrs.firstLineno 0
  rw [he, instrsOf_instrs] at hszs hlocs
  have hinf : ∀ x ∈ (assembleCode P c.attrs.firstLineno c.elems).2, (x.size % 2 = 0 ∧ 2 ≤ x.size) ∧ ∀ l, x.loc = some l → Coherent l := by
    intro x hx
    rw [he] at hx
    constructor
    · have : x.size ∈ is.map (·.size) := by rw [← hszs]; exact List.mem_map_of_mem hx
      obtain ⟨i, hi, e⟩ := List.mem_map.1 this
      rw [← e]; exact hsz i hi
    · intro l hl
      have : x.loc ∈ is.map (·.loc) := by rw [← hlocs]; exact List.mem_map_of_mem hx
      obtain ⟨i, hi, e⟩ := List.mem_map.1 this
      rw [hl] at e
      exact (hr i hi).valid.loc_ok l e
  have hun2 : ∀ x ∈ (assembleCode P c.attrs.firstLineno c.elems).2, ∀ l, x.loc = some l → Coherent l ∧ ¬ Unencodable l := by
    intro x hx l hl
    refine ⟨(hinf x hx).2 l hl, fun hu => ?_⟩
    have := (C04_locations_raise_iff c.attrs.firstLineno _ (fun x hx => (hinf x hx).1) (fun x hx => (hinf x hx).2)).2 ⟨x, hx, l, hl, hu⟩
    rw [htab] at this
    simp at this
  obtain ⟨table', htab', hread⟩ := C03_positions_are_locations c.attrs.firstLineno _ (fun x hx => (hinf x hx).1) hun2
  rw [htab] at htab'
  cases htab'
  have heff : effectiveLocs (assembleCode P c.attrs.firstLineno c.elems).2 = is.map g := by
    have := effectiveLocs_code P c.elems c.attrs.firstLineno 0
    unfold assembleCode
    rw [this]
    unfold locsOf
    rw [he, instrsOf_instrs]
    exact inherit_all _ is g hg
  rw [heff] at hread
  have hszs' : (assembleCode P c.attrs.firstLineno c.elems).2.map (·.size) = is.map (·.size) := by
    unfold assembleCode; rw [he]; exact hszs
  rw [hszs', List.map_map, perUnit_flatMap] at hread
  have hloc : ∀ (a : List CInstr) (i : CInstr) (r : List CInstr), is = a ++ i :: r → locOfUnit co (unitsOf a + i.size / 2 - 1) = keptLoc (g i) := by
    intro a i r e
    have hi : i ∈ is := by rw [e]; simp
    have := hsz i hi
    unfold locOfUnit
    rw [hfl, hlt, hread, Option.getD_some, e]
    rw [show unitsOf a + i.size / 2 - 1 = (a.map (fun i => i.size / 2)).sum + (i.size / 2 - 1) by unfold unitsOf; omega]
    rw [getElem_flatMap_replicate (fun i => i.size / 2) _ a i r _ (by omega)]
    exact locOf_posOf (g i) ((hr i hi).valid.loc_ok _ (hg i hi))
  -- handlers
  have hval : ∀ e ∈ c.excTable, 0 ≤ e.start ∧ e.start - 1 ≤ e.stop ∧ 0 ≤ e.target ∧ 0 ≤ e.depth := by
    intro e hm
    by_cases hx : 0 ≤ e.start ∧ e.start - 1 ≤ e.stop ∧ 0 ≤ e.target ∧ 0 ≤ e.depth
    · exact hx
    · have := (C01_exception_table_error c.excTable).1 ⟨e, hm, hx⟩
      rw [hexc] at this
      simp at this
  obtain ⟨chunks, hch1, hch2, hch3, _⟩ := C02_exception_table_format c.excTable hval
  rw [hexc] at hch1
  cases hch1
  have hreg : readRegions co.exctable.length co.exctable = c.excTable.map regionOf := by
    rw [hex]
    exact readRegions_chunks c.excTable chunks _ hch2 (Nat.le_refl _) hch3
  exact code_program P hP h11 key c co is keptLoc g he hr (fun i hi _ => hg i hi) hfs hun t1 t2 t3 t5 (fun a i r e _ => hloc a i r e) hval hreg

end Verif
