import Verif.Model.Assemble
import Verif.Proofs.ConcreteInstr
import Mathlib.Data.List.Induction
/- Helper lemmas for reading code strings back (C08, C44). -/
namespace Verif
open Spec

/-- The `n` bytes carried by the EXTENDED_ARG prefixes of argument `v`. -/
def prefixBytes : Nat → Nat → List Nat
  | 0, _ => []
  | n + 1, v => prefixBytes n (v / 256) ++ [v / 256 % 256]

def foldBytes (acc : Nat) (bs : List Nat) : Nat := bs.foldl (fun acc b => acc * 256 + b) acc

def unitsFlat (ext : Nat) (bs : List Nat) : Bytes := bs.flatMap (fun b => [ext, b])

theorem prefixBytes_length (n v : Nat) : (prefixBytes n v).length = n := by
  induction n generalizing v with
  | zero => rfl
  | succ n ih => simp [prefixBytes, ih]

theorem prefixBytes_lt (n v : Nat) : ∀ b ∈ prefixBytes n v, b < 256 := by
  induction n generalizing v with
  | zero => simp [prefixBytes]
  | succ n ih =>
    intro b hb
    simp only [prefixBytes, List.mem_append, List.mem_singleton] at hb
    rcases hb with hb | rfl
    · exact ih _ b hb
    · omega

theorem foldBytes_append (acc : Nat) (bs cs : List Nat) : foldBytes acc (bs ++ cs) = foldBytes (foldBytes acc bs) cs := by
  simp [foldBytes]

theorem foldBytes_prefix (n v : Nat) (h : extNeeded v ≤ n) : foldBytes 0 (prefixBytes n v) = v / 256 := by
  induction n generalizing v with
  | zero =>
    have : v < 256 := by
      rw [extNeeded_le_iff] at h; simpa using h
    simp [prefixBytes, foldBytes]; omega
  | succ n ih =>
    have h' : extNeeded (v / 256) ≤ n := by
      by_cases hv : v < 256
      · rw [Nat.div_eq_of_lt hv, extNeeded_lt (by decide)]; omega
      · rw [extNeeded_ge hv] at h; omega
    rw [prefixBytes, foldBytes_append, ih _ h']
    simp [foldBytes]; omega

theorem prefixBytes_zero (n : Nat) : prefixBytes n 0 = List.replicate n 0 := by
  induction n with
  | zero => rfl
  | succ n ih => simp [prefixBytes, ih, List.replicate_succ']

theorem prefixBytes_small (n v : Nat) (h : v < 256) : prefixBytes n v = List.replicate n 0 := by
  cases n with
  | zero => rfl
  | succ n => simp [prefixBytes, Nat.div_eq_of_lt h, prefixBytes_zero, List.replicate_succ']

theorem unitsFlat_append (ext : Nat) (bs cs : List Nat) : unitsFlat ext (bs ++ cs) = unitsFlat ext bs ++ unitsFlat ext cs := by
  simp [unitsFlat]

theorem unitsFlat_zeros (ext n : Nat) : unitsFlat ext (List.replicate n 0) = padUnits ext n := by
  induction n with
  | zero => rfl
  | succ n ih => simp only [unitsFlat, padUnits, List.replicate_succ, List.flatMap_cons, List.flatten_cons] at *; rw [ih]

/-- Padding followed by the needed prefixes. -/
theorem pad_ext_eq (ext n v : Nat) (h : extNeeded v ≤ n) :
    padUnits ext (n - extNeeded v) ++ extUnits ext v = unitsFlat ext (prefixBytes n v) := by
  induction v using Nat.strongRecOn generalizing n with
  | _ v ih =>
    by_cases hv : v < 256
    · rw [extUnits, if_pos hv, extNeeded_lt hv, prefixBytes_small _ _ hv, unitsFlat_zeros]; simp
    · rw [extUnits, if_neg hv]
      rw [extNeeded_ge hv] at h ⊢
      obtain ⟨m, rfl⟩ : ∃ m, n = m + 1 := ⟨n - 1, by omega⟩
      rw [prefixBytes, unitsFlat_append, ← ih (v / 256) (by omega) m (by omega), ← List.append_assoc]
      congr 2
      · congr 1; omega

theorem prefixBytes_fold (bs : List Nat) (hb : ∀ b ∈ bs, b < 256) (a : Nat) (ha : a < 256) :
    prefixBytes bs.length (foldBytes 0 bs * 256 + a) = bs := by
  induction bs using List.reverseRecOn generalizing a with
  | nil => rfl
  | append_singleton bs b ih =>
    have hb' : b < 256 := hb b (by simp)
    simp only [List.length_append, List.length_singleton, prefixBytes]
    have h1 : (foldBytes 0 (bs ++ [b]) * 256 + a) / 256 = foldBytes 0 bs * 256 + b := by
      rw [foldBytes_append]; simp [foldBytes]; omega
    rw [h1, ih (fun x hx => hb x (by simp [hx])) b hb']
    congr 2; omega

theorem foldBytes_lt (bs : List Nat) (hb : ∀ b ∈ bs, b < 256) : foldBytes 0 bs < 256 ^ bs.length := by
  induction bs using List.reverseRecOn with
  | nil => simp [foldBytes]
  | append_singleton bs b ih =>
    have hb' : b < 256 := hb b (by simp)
    have := ih (fun x hx => hb x (by simp [hx]))
    rw [foldBytes_append]
    simp only [foldBytes, List.foldl_cons, List.foldl_nil, List.length_append, List.length_singleton, Nat.pow_succ] at *
    omega

/-- The bytes of an instruction as prefixes and a final unit. -/
theorem assemble_prefix (P : Platform) (s : CInstr) (hs : s.size = sizeFor s.arg s.ext) (a : Nat) (ha : s.arg = some a) :
    s.assemble P = unitsFlat P.extendedArg (prefixBytes (nPrefix s) a) ++ [s.opcode, a % 256] := by
  rw [assemble_eq P s hs, ha]
  simp only
  rw [pad_ext_eq]
  unfold nPrefix; rw [ha]; simp; omega

/-- The state of `_remove_extended_args` after the prefixes `bs`. -/
def extState (bs : List Nat) : Option Nat := if bs = [] then none else some (foldBytes 0 bs)

theorem extState_snoc (bs : List Nat) (a : Nat) :
    (match extState bs with | some e => some ((e <<< 8) + a) | none => some a) = extState (bs ++ [a]) := by
  unfold extState
  by_cases h : bs = []
  · subst h; simp [foldBytes]
  · simp [h, shl8, foldBytes_append]; simp [foldBytes]

/-- An EXTENDED_ARG unit. -/
def extInstr (P : Platform) (b : Nat) (loc : Option Loc) : CInstr := ⟨"EXTENDED_ARG", P.extendedArg, some b, loc, none, 2⟩

theorem removeExtendedArgs_ext (P : Platform) (bs : List Nat) (u : CInstr) (hn : u.name = "EXTENDED_ARG") (a : Nat)
    (ha : u.arg = some a) (rest : List CElem) :
    removeExtendedArgs P bs.length (extState bs) (.instr u :: rest) =
      removeExtendedArgs P (bs ++ [a]).length (extState (bs ++ [a])) rest := by
  rw [removeExtendedArgs.eq_def]
  simp only [hn, if_true, ha]
  rw [← extState_snoc]
  cases extState bs <;> simp

theorem removeExtendedArgs_prefix (P : Platform) (us : List CInstr) (cs : List Nat)
    (hus : us.map (fun u => (u.name, u.arg)) = cs.map (fun c => ("EXTENDED_ARG", some c))) (rest : List CElem) :
    ∀ bs : List Nat, removeExtendedArgs P bs.length (extState bs) (us.map .instr ++ rest) =
      removeExtendedArgs P (bs ++ cs).length (extState (bs ++ cs)) rest := by
  induction us generalizing cs with
  | nil =>
    intro bs
    cases cs with
    | nil => simp
    | cons => simp at hus
  | cons u us ih =>
    intro bs
    cases cs with
    | nil => simp at hus
    | cons c cs =>
      simp only [List.map_cons, List.cons.injEq, Prod.mk.injEq] at hus
      simp only [List.map_cons, List.cons_append]
      rw [removeExtendedArgs_ext P bs u hus.1.1 c hus.1.2, ih cs hus.2 (bs ++ [c])]
      simp

/-- `CInstr.make` on a valid name and argument. -/
theorem make_ok (P : Platform) (hP : P.WF) (n : String) (op : Nat) (hn : P.opmap n = some op) (hb : op < P.minInstrumented)
    (a : Option Nat) (h1 : P.hasArg op = true → a.isSome) (h2 : P.hasArg op = false → op ≠ 0 → a = none)
    (h3 : ∀ v, a = some v → v ≤ 2147483647) (loc : Option Loc) (ext : Option Nat) :
    CInstr.make P (some n) (.ofOpt a) .unset loc ext = .ok ⟨n, op, a, loc, ext, sizeFor a ext⟩ := by
  have hl : lookupName P (some n) = .ok (n, op) := by
    simp [lookupName, hn]; omega
  have hc : CInstr.checkArg P op (.ofOpt a) = .ok a := by
    unfold CInstr.checkArg
    cases a with
    | none =>
      cases hA : P.hasArg op with
      | true => simp at h1; simp [hA] at h1
      | false => simp [CArg.ofOpt]
    | some v =>
      have hv := checkArgInt_of (h3 v rfl)
      cases hA : P.hasArg op with
      | true => simp [CArg.ofOpt, hv, Except.map]
      | false =>
        by_cases h0 : op = 0
        · subst h0; simp [CArg.ofOpt, hv, Except.map]
        · have := h2 hA h0; simp at this
  have hi : initLocation P.py311 .unset loc = .ok loc := by cases loc <;> rfl
  simp only [CInstr.make, CInstr.set_, hl, hc, hi, bind, Except.bind, pure, Except.pure, computeSize_eq]

/-- An instruction as its reader sees it: the argument of a CACHE is 0, the prefixes are remembered. -/
def reread (cacheArg : Option Nat → Option Nat) (i : CInstr) : CInstr :=
  { i with arg := if i.opcode = 0 then cacheArg i.arg else i.arg, loc := none,
           ext := if nPrefix i = 0 then none else some (nPrefix i) }

/-- The single-unit instructions an instruction is read as before folding. -/
def unitInstrs (P : Platform) (cacheArg : Option Nat → Option Nat) (i : CInstr) : List CInstr :=
  match (if i.opcode = 0 then cacheArg i.arg else i.arg) with
  | none => [⟨i.name, i.opcode, none, none, none, 2⟩]
  | some a => (prefixBytes (nPrefix i) a).map (fun b => extInstr P b none) ++ [⟨i.name, i.opcode, some (a % 256), none, none, 2⟩]

/-- Forget the location. -/
def noLoc (i : CInstr) : CInstr := { i with loc := none }

/-- Locations of the last unit of each group. -/
def groupLast : List Nat → List (Option Loc) → List (Option Loc)
  | [], _ => []
  | n :: ns, ls => (ls.take n).getLast?.join :: groupLast ns (ls.drop n)

/-- What C08 needs of an instruction: constructible, `size` honest, not itself an EXTENDED_ARG. -/
structure Readable (P : Platform) (i : CInstr) : Prop where
  valid : ValidCInstr P i
  size : (i.assemble P).length = i.size
  noext : i.name ≠ "EXTENDED_ARG"

theorem Readable.opcode_ne {P : Platform} (hP : P.WF) {i : CInstr} (h : Readable P i) : i.opcode ≠ P.extendedArg := by
  intro he
  have h1 := hP.name_op i.name i.opcode h.valid.name_op h.valid.base
  have h2 := hP.name_op _ _ hP.ext hP.ext_base
  rw [he, h2.2] at h1
  exact h.noext (Option.some.inj h1.2.symm)

theorem size_of_units {P : Platform} {i : CInstr} (hr : Readable P i) : i.size = 2 + 2 * nPrefix i := by
  rw [← hr.size, assemble_length P i hr.valid.size_eq]

theorem sizeFor_reread {i : CInstr} (hs : i.size = 2 + 2 * nPrefix i) {a : Nat} (ha : i.arg = some a) (hn : nPrefix i = 0) :
    i.size = sizeFor (some a) none := by
  rw [hs, hn]
  have : extNeeded a = 0 := by simp [nPrefix, ha] at hn; omega
  simp [sizeFor, this]

/-- Folding one instruction. -/
theorem removeExtendedArgs_instr (P : Platform) (hP : P.WF) (cacheArg : Option Nat → Option Nat) (i : CInstr) (hr : Readable P i)
    (hca : i.opcode = 0 → nPrefix i = 0 ∧ ∀ a, cacheArg i.arg = some a → a < 256)
    (us : List CInstr) (hus : us.map noLoc = unitInstrs P cacheArg i)
    (rest : List CElem) (r : List CElem) (hrest : removeExtendedArgs P 0 none rest = .ok r) :
    ∃ j, removeExtendedArgs P 0 none (us.map .instr ++ rest) = .ok (.instr j :: r) ∧
      noLoc j = reread cacheArg i ∧ j.loc = (us.map (·.loc)).getLast?.join := by
  have hv := hr.valid
  have hs := size_of_units hr
  -- the last unit
  have hplain : ∀ u : CInstr, u.name = i.name → removeExtendedArgs P 0 none (.instr u :: rest) = .ok (.instr u :: r) := by
    intro u hu
    rw [removeExtendedArgs.eq_def]
    simp only [hu, hr.noext, if_false, hrest, bind, Except.bind, pure, Except.pure]
  unfold unitInstrs at hus
  cases hca' : (if i.opcode = 0 then cacheArg i.arg else i.arg) with
  | none =>
    rw [hca'] at hus
    simp only [List.map_eq_singleton_iff] at hus
    obtain ⟨u, rfl, hu⟩ := hus
    have hn0 : nPrefix i = 0 := by
      by_cases h0 : i.opcode = 0
      · exact (hca h0).1
      · rw [if_neg h0] at hca'; simp [nPrefix, hca']
    refine ⟨u, hplain u (by have := congrArg CInstr.name hu; exact this), ?_, ?_⟩
    · rw [hu, reread, hca', if_pos hn0]; simp [hs, hn0]
    · simp
  | some a =>
    rw [hca'] at hus
    simp only at hus
    obtain ⟨us1, us2, rfl, h1, h2⟩ := List.map_eq_append_iff.1 hus
    simp only [List.map_eq_singleton_iff] at h2
    obtain ⟨u, rfl, hu⟩ := h2
    have hun := congrArg CInstr.name hu
    have hua := congrArg CInstr.arg hu
    simp only [noLoc] at hun hua
    have hkeys : us1.map (fun u => (u.name, u.arg)) = (prefixBytes (nPrefix i) a).map (fun c => ("EXTENDED_ARG", some c)) := by
      have := congrArg (List.map (fun u : CInstr => (u.name, u.arg))) h1
      simpa [noLoc, extInstr, Function.comp_def] using this
    rw [List.map_append, List.append_assoc]
    have hpre := removeExtendedArgs_prefix P us1 _ hkeys ([u].map .instr ++ rest) []
    simp only [List.length_nil, List.nil_append, extState, if_true] at hpre
    rw [hpre, prefixBytes_length]
    by_cases hn0 : nPrefix i = 0
    · rw [hn0]
      simp only [prefixBytes, if_true, List.map_cons, List.map_nil, List.cons_append, List.nil_append]
      refine ⟨u, hplain u hun, ?_, ?_⟩
      · rw [hu, reread, hca', if_pos hn0]
        have ha : a < 256 := by
          by_cases h0 : i.opcode = 0
          · exact (hca h0).2 a (by rw [if_pos h0] at hca'; exact hca')
          · rw [if_neg h0] at hca'
            simp only [nPrefix, hca'] at hn0
            have := (extNeeded_le_iff 0 a).1 (by omega)
            simpa using this
        simp [hs, hn0, Nat.mod_eq_of_lt ha]
      · simp
    · have h0 : i.opcode ≠ 0 := fun h => hn0 (hca h).1
      rw [if_neg h0] at hca'
      have hne : prefixBytes (nPrefix i) a ≠ [] := by
        intro h; have := congrArg List.length h; rw [prefixBytes_length] at this; simp at this; exact hn0 this
      rw [if_neg hne]
      have hle : extNeeded a ≤ nPrefix i := by simp [nPrefix, hca']; omega
      rw [foldBytes_prefix _ _ hle]
      have hnop : i.name ≠ "NOP" := by
        intro h
        obtain ⟨o, ho, _, ho2, ho3⟩ := hP.nop
        have := hv.name_op; rw [h, ho] at this; simp only [Option.some.injEq] at this; subst this
        have := hv.arg_forbidden ho2 ho3; rw [hca'] at this; simp at this
      have hmk := make_ok P hP i.name i.opcode hv.name_op hv.base (some a) (by simp)
        (fun h1 h2 => by have := hv.arg_forbidden h1 h2; rw [hca'] at this; exact this)
        (fun v hv' => hv.arg_range v (by rw [hca']; exact hv')) u.loc (some (nPrefix i))
      refine ⟨⟨i.name, i.opcode, some a, u.loc, some (nPrefix i), sizeFor (some a) (some (nPrefix i))⟩, ?_, ?_, by simp⟩
      · rw [removeExtendedArgs.eq_def]
        have hval : ((a / 256) <<< 8) + a % 256 = a := by rw [shl8]; omega
        simp only [List.map_cons, List.map_nil, List.cons_append, List.nil_append]
        simp only [hun, hua, hr.noext, if_false, hnop, pure, Except.pure, bind, Except.bind]
        rw [hval]
        simp only [CArg.ofOpt] at hmk
        rw [hmk]
        simp only [hrest]
      · simp only [noLoc, reread, if_neg hn0, if_neg h0, hca']
        simp only [sizeFor, hs]

theorem unitInstrs_length (P : Platform) (cacheArg : Option Nat → Option Nat) (i : CInstr)
    (hca : i.opcode = 0 → nPrefix i = 0) : (unitInstrs P cacheArg i).length = 1 + nPrefix i := by
  unfold unitInstrs
  cases h : (if i.opcode = 0 then cacheArg i.arg else i.arg) with
  | none =>
    have : nPrefix i = 0 := by
      by_cases h0 : i.opcode = 0
      · exact hca h0
      · rw [if_neg h0] at h; simp [nPrefix, h]
    simp [this]
  | some a => simp [prefixBytes_length]; omega

/-- Folding a whole list of units. -/
theorem removeExtendedArgs_list (P : Platform) (hP : P.WF) (cacheArg : Option Nat → Option Nat) (is : List CInstr)
    (hr : ∀ i ∈ is, Readable P i)
    (hca : ∀ i ∈ is, i.opcode = 0 → nPrefix i = 0 ∧ ∀ a, cacheArg i.arg = some a → a < 256) :
    ∀ us : List CInstr, us.map noLoc = is.flatMap (unitInstrs P cacheArg) →
    ∃ js : List CInstr, removeExtendedArgs P 0 none (us.map .instr) = .ok (js.map .instr) ∧
      js.map noLoc = is.map (reread cacheArg) ∧
      js.map (·.loc) = groupLast (is.map (fun i => 1 + nPrefix i)) (us.map (·.loc)) := by
  induction is with
  | nil =>
    intro us h
    simp only [List.flatMap_nil, List.map_eq_nil_iff] at h
    subst h
    exact ⟨[], rfl, rfl, rfl⟩
  | cons i is ih =>
    intro us h
    rw [List.flatMap_cons] at h
    obtain ⟨us1, us2, rfl, h1, h2⟩ := List.map_eq_append_iff.1 h
    obtain ⟨js, hj, hjn, hjl⟩ := ih (fun k hk => hr k (by simp [hk])) (fun k hk => hca k (by simp [hk])) us2 h2
    obtain ⟨j, hj', hjn', hjl'⟩ := removeExtendedArgs_instr P hP cacheArg i (hr i (by simp)) (hca i (by simp)) us1 h1 _ _ hj
    have hlen : us1.length = 1 + nPrefix i := by
      rw [← unitInstrs_length P cacheArg i (fun h => (hca i (by simp) h).1), ← h1, List.length_map]
    refine ⟨j :: js, by rw [List.map_append, hj']; rfl, by simp [hjn, hjn'], ?_⟩
    simp only [List.map_cons, List.map_append, groupLast]
    rw [List.take_left' (by simp [hlen]), List.drop_left' (by simp [hlen]), hjl, hjl']

/-! ### The 3.11+ reader -/

/-- A CACHE as read. -/
def cacheUnit : CInstr := ⟨"CACHE", 0, some 0, none, none, 2⟩

theorem mapM_const {α β} (f : α → Py β) (v : β) (hf : ∀ x, f x = .ok v) (l : List α) :
    l.mapM f = .ok (List.replicate l.length v) := by
  induction l with
  | nil => rfl
  | cons x l ih => rw [List.mapM_cons, hf, ih]; rfl

theorem sizeFor_small (a : Option Nat) (h : ∀ v, a = some v → v < 256) : sizeFor a none = 2 := by
  cases a with
  | none => simp [sizeFor, extNeeded_lt]
  | some v => simp [sizeFor, extNeeded_lt (h v rfl)]

theorem disUnits_cons (P : Platform) (hP : P.WF) (h11 : P.py311 = true) (n : String) (op : Nat) (hn : P.opmap n = some op)
    (hb : op < P.minInstrumented) (a : Nat) (ha : a < 256) (rest : Bytes) (r : List CInstr)
    (hr : disUnits P (P.cacheEntries op) rest = .ok r) :
    disUnits P 0 (op :: a :: rest) =
      .ok (⟨n, op, if P.hasArg op then some a else none, none, none, 2⟩ :: (List.replicate (P.cacheEntries op) cacheUnit ++ r)) := by
  have hno := (hP.name_op n op hn hb).2
  have hmk := make_ok P hP n op hn hb (if P.hasArg op then some a else none) (by intro h; simp [h]) (by intro h; simp [h])
    (by intro v hv; split at hv <;> simp at hv; omega) none none
  have hmk2 := make_ok P hP "CACHE" 0 (hP.cache h11).1 (hP.cache h11).2 (some 0) (by simp) (by simp) (by simp) none none
  rw [sizeFor_small _ (by intro v hv; split at hv <;> simp at hv; omega)] at hmk
  rw [sizeFor_small _ (by simp)] at hmk2
  have hmk2 : CInstr.make P (some "CACHE") (.int 0) = .ok cacheUnit := hmk2
  have hofs : CArg.ofOpt (if P.hasArg op then some a else none) = if P.hasArg op then CArg.int a else .unset := by
    split <;> rfl
  rw [hofs] at hmk
  rw [disUnits]
  simp only [hno, bind, Except.bind]
  rw [hmk]
  simp only
  rw [mapM_const _ cacheUnit (fun _ => hmk2)]
  simp only [hr, pure, Except.pure, List.length_replicate]
  rfl

theorem disUnits_skip (P : Platform) (c : Nat) (xs rest : Bytes) (h : xs.length = 2 * c) :
    disUnits P c (xs ++ rest) = disUnits P 0 rest := by
  induction c generalizing xs with
  | zero =>
    have : xs = [] := List.length_eq_zero_iff.1 (by omega)
    subst this; rfl
  | succ c ih =>
    match xs, h with
    | x :: y :: xs, h =>
      simp only [List.cons_append]
      rw [disUnits]
      exact ih xs (by simp at h; omega)
    | [], h => simp at h
    | [x], h => simp at h; omega

theorem disUnits_prefix (P : Platform) (hP : P.WF) (h11 : P.py311 = true) (bs : List Nat) (hb : ∀ b ∈ bs, b < 256)
    (rest : Bytes) (r : List CInstr) (hr : disUnits P 0 rest = .ok r) :
    disUnits P 0 (unitsFlat P.extendedArg bs ++ rest) = .ok (bs.map (fun b => extInstr P b none) ++ r) := by
  induction bs with
  | nil => simpa [unitsFlat] using hr
  | cons b bs ih =>
    have := ih (fun x hx => hb x (by simp [hx]))
    have h := disUnits_cons P hP h11 "EXTENDED_ARG" P.extendedArg hP.ext hP.ext_base b (hb b (by simp))
      (unitsFlat P.extendedArg bs ++ rest) _ (by rw [hP.cache_ext]; exact this)
    simp only [hP.ext_arg, if_true, hP.cache_ext, List.replicate_zero, List.nil_append] at h
    exact h

theorem assemble_cache_length (P : Platform) {c : CInstr} (hr : Readable P c) (hs : c.size = 2) :
    (c.assemble P).length = 2 := by rw [hr.size, hs]

theorem flatMap_const {α β} (l : List α) (f : α → List β) (v : β) (h : ∀ x ∈ l, f x = [v]) :
    l.flatMap f = List.replicate l.length v := by
  induction l with
  | nil => rfl
  | cons x l ih =>
    rw [List.flatMap_cons, h x (by simp), ih (fun y hy => h y (by simp [hy]))]; rfl

/-- Reading the code string unit by unit, 3.11+. -/
theorem disUnits_layout (P : Platform) (hP : P.WF) (h11 : P.py311 = true) (is : List CInstr) (hl : CacheLayout P is)
    (hr : ∀ i ∈ is, Readable P i) :
    disUnits P 0 (is.flatMap (CInstr.assemble P)) = .ok (is.flatMap (unitInstrs P (fun _ => some 0))) ∧
    (∀ i ∈ is, i.opcode = 0 → nPrefix i = 0) := by
  induction hl with
  | nil => exact ⟨rfl, by simp⟩
  | group i cs rest h0 hlen hcs _ ih =>
    obtain ⟨ih, ih2⟩ := ih (fun k hk => hr k (by simp [hk]))
    have hcn : ∀ c ∈ cs, nPrefix c = 0 := by
      intro c hc
      have := size_of_units (hr c (by simp [hc]))
      have := (hcs c hc).2
      omega
    constructor
    · rw [List.flatMap_cons, List.flatMap_append]
      have hcsl : (cs.flatMap (CInstr.assemble P)).length = 2 * P.cacheEntries i.opcode := by
        rw [← hlen, List.length_flatMap]
        have : cs.map (fun c => (c.assemble P).length) = cs.map (fun _ => 2) :=
          List.map_congr_left (fun c hc => assemble_cache_length P (hr c (by simp [hc])) (hcs c hc).2)
        rw [this]; simp only [List.map_const', List.sum_replicate_nat]; omega
      have hskip := disUnits_skip P (P.cacheEntries i.opcode) _ (rest.flatMap (CInstr.assemble P)) hcsl
      rw [ih] at hskip
      have hcu : cs.flatMap (unitInstrs P (fun _ => some 0)) = List.replicate (P.cacheEntries i.opcode) cacheUnit := by
        have h1 : ∀ c ∈ cs, unitInstrs P (fun _ => some 0) c = [cacheUnit] := by
          intro c hc
          have hcv := (hr c (by simp [hc])).valid
          have hnm : c.name = "CACHE" := by
            have a1 := hP.name_op _ _ hcv.name_op hcv.base
            have a2 := hP.name_op _ _ (hP.cache h11).1 (hP.cache h11).2
            rw [(hcs c hc).1] at a1
            rw [a2.2] at a1
            exact (Option.some.inj a1.2).symm
          simp [unitInstrs, (hcs c hc).1, hcn c hc, prefixBytes, cacheUnit, hnm]
        rw [← hlen]; exact flatMap_const cs _ _ h1
      have hv := (hr i (by simp)).valid
      rw [List.flatMap_cons, List.flatMap_append, hcu]
      cases ha : i.arg with
      | none =>
        rw [CInstr.assemble, ha]
        have hA : P.hasArg i.opcode = false := by
          cases h : P.hasArg i.opcode with
          | false => rfl
          | true => have := hv.arg_required h; rw [ha] at this; simp at this
        have := disUnits_cons P hP h11 i.name i.opcode hv.name_op hv.base 0 (by decide) _ _ hskip
        simp only [hA] at this
        simpa [unitInstrs, h0, ha] using this
      | some a =>
        have hA : P.hasArg i.opcode = true := by
          cases h : P.hasArg i.opcode with
          | true => rfl
          | false => have := hv.arg_forbidden h h0; rw [ha] at this; simp at this
        rw [assemble_prefix P i hv.size_eq a ha, List.append_assoc]
        have h1 := disUnits_cons P hP h11 i.name i.opcode hv.name_op hv.base (a % 256) (by omega) _ _ hskip
        simp only [hA, if_true] at h1
        have h2 := disUnits_prefix P hP h11 (prefixBytes (nPrefix i) a) (prefixBytes_lt _ _) _ _ h1
        simpa [unitInstrs, h0, ha] using h2
    · intro k hk h
      simp only [List.mem_cons, List.mem_append] at hk
      rcases hk with rfl | hk | hk
      · exact absurd h h0
      · exact hcn k hk
      · exact ih2 k hk h

/-! ### The reader of 3.8 - 3.10 -/

/-- A line number `InstrLocation` accepts. -/
def LineOK (P : Platform) (l : LinenoArg) : Prop := ∃ x, initLocation P.py311 l none = .ok x

theorem make_lineno_ok (P : Platform) (hP : P.WF) (n : String) (op : Nat) (hn : P.opmap n = some op) (hb : op < P.minInstrumented)
    (a : Option Nat) (h1 : P.hasArg op = true → a.isSome) (h2 : P.hasArg op = false → op ≠ 0 → a = none)
    (h3 : ∀ v, a = some v → v ≤ 2147483647) (l : LinenoArg) (hl : LineOK P l) :
    ∃ loc, CInstr.make P (some n) (.ofOpt a) l = .ok ⟨n, op, a, loc, none, sizeFor a none⟩ := by
  obtain ⟨x, hx⟩ := hl
  refine ⟨x, ?_⟩
  have := make_ok P hP n op hn hb a h1 h2 h3 none none
  have hi : initLocation P.py311 .unset none = .ok none := rfl
  revert this
  simp only [CInstr.make, hx, hi, bind, Except.bind, pure, Except.pure]
  cases (CInstr.set_ P ⟨"", 0, none, none, none, 0⟩ (some n) (CArg.ofOpt a)).2 with
  | error e => simp
  | ok u =>
    intro h
    simp only [Except.ok.injEq, CInstr.mk.injEq] at h ⊢
    exact ⟨h.1, h.2.1, h.2.2.1, trivial, h.2.2.2.2.1, h.2.2.2.2.2⟩

/-- A unit as read. -/
def rawUnit (P : Platform) (p : Nat × Nat) : CInstr :=
  ⟨(P.opname p.1).getD "", p.1, if P.hasArg p.1 then some p.2 else none, none, none, 2⟩

def flatPairs (ps : List (Nat × Nat)) : Bytes := ps.flatMap (fun p => [p.1, p.2])

theorem flatPairs_length (ps : List (Nat × Nat)) : (flatPairs ps).length = 2 * ps.length := by
  induction ps with
  | nil => rfl
  | cons p ps ih =>
    have : flatPairs (p :: ps) = p.1 :: p.2 :: flatPairs ps := rfl
    rw [this]; simp only [List.length_cons, ih]; omega

theorem disassembleAll_units (P : Platform) (hP : P.WF) (lineAt : Nat → Option LinenoArg)
    (hla : ∀ off l, lineAt off = some l → LineOK P l) (ps : List (Nat × Nat))
    (hps : ∀ p ∈ ps, p.2 < 256 ∧ ∃ n, P.opmap n = some p.1 ∧ p.1 < P.minInstrumented) :
    ∀ (pre : List (Nat × Nat)) (lineno : LinenoArg) (fuel : Nat), LineOK P lineno → ps.length ≤ fuel →
    ∃ js : List CInstr, disassembleAll P lineAt lineno (flatPairs (pre ++ ps)) fuel
        (if P.py310 then pre.length else 2 * pre.length) = .ok js ∧ js.map noLoc = ps.map (rawUnit P) := by
  induction ps with
  | nil =>
    intro pre lineno fuel _ _
    refine ⟨[], ?_, rfl⟩
    have hnot : ¬ (if P.py310 then pre.length else 2 * pre.length) <
        (flatPairs (pre ++ [])).length / (if P.py310 then 2 else 1) := by
      rw [flatPairs_length]; split <;> simp
    cases fuel with
    | zero => rw [disassembleAll, if_neg hnot]
    | succ f => rw [disassembleAll, if_neg hnot]
  | cons p ps ih =>
    intro pre lineno fuel hl hf
    obtain ⟨f, rfl⟩ : ∃ f, fuel = f + 1 := ⟨fuel - 1, by simp at hf; omega⟩
    obtain ⟨hb, n, hn, hbase⟩ := hps p (by simp)
    have hname := (hP.name_op n p.1 hn hbase).2
    have hlt : (if P.py310 then pre.length else 2 * pre.length) <
        (flatPairs (pre ++ p :: ps)).length / (if P.py310 then 2 else 1) := by
      rw [flatPairs_length]; split <;> simp
    generalize hl' : (lineAt (if P.py310 then 2 * (if P.py310 then pre.length else 2 * pre.length) else
      (if P.py310 then pre.length else 2 * pre.length))).getD lineno = lineno'
    have hok : LineOK P lineno' := by
      rw [← hl']
      cases h : lineAt (if P.py310 then 2 * (if P.py310 then pre.length else 2 * pre.length) else
        (if P.py310 then pre.length else 2 * pre.length)) with
      | none => exact hl
      | some x => exact hla _ _ h
    have hidx : (if P.py310 then 2 * (if P.py310 then pre.length else 2 * pre.length) else
        (if P.py310 then pre.length else 2 * pre.length)) = 2 * pre.length := by split <;> rfl
    have hc0 : (flatPairs (pre ++ p :: ps))[2 * pre.length]? = some p.1 := by
      have : flatPairs (pre ++ p :: ps) = flatPairs pre ++ (p.1 :: p.2 :: flatPairs ps) := by simp [flatPairs]
      rw [this, List.getElem?_append_right (by rw [flatPairs_length]; omega), flatPairs_length]; simp
    have hc1 : (flatPairs (pre ++ p :: ps))[2 * pre.length + 1]? = some p.2 := by
      have : flatPairs (pre ++ p :: ps) = flatPairs pre ++ (p.1 :: p.2 :: flatPairs ps) := by simp [flatPairs]
      rw [this, List.getElem?_append_right (by rw [flatPairs_length]; omega), flatPairs_length]
      rw [show 2 * pre.length + 1 - 2 * pre.length = 1 by omega]; rfl
    obtain ⟨loc, hmk⟩ := make_lineno_ok P hP n p.1 hn hbase (if P.hasArg p.1 then some p.2 else none) (by intro h; simp [h])
      (by intro h; simp [h]) (by intro v hv; split at hv <;> simp at hv; omega) lineno' hok
    rw [sizeFor_small _ (by intro v hv; split at hv <;> simp at hv; omega)] at hmk
    have hdis : CInstr.disassemble P lineno' (flatPairs (pre ++ p :: ps)) (if P.py310 then pre.length else 2 * pre.length) =
        .ok ⟨n, p.1, if P.hasArg p.1 then some p.2 else none, loc, none, 2⟩ := by
      unfold CInstr.disassemble
      simp only [hidx, hc0, hname]
      cases hA : P.hasArg p.1 with
      | true => simp only [if_true, hc1]; simp only [hA, if_true, CArg.ofOpt] at hmk; exact hmk
      | false => simp only [hA, CArg.ofOpt] at hmk; simpa using hmk
    obtain ⟨js, hjs, hjn⟩ := ih (fun q hq => hps q (by simp [hq])) (pre ++ [p]) lineno' f hok (by simp at hf; omega)
    have hoff : (if P.py310 then pre.length else 2 * pre.length) + (if P.py310 then 2 / 2 else 2) =
        (if P.py310 then (pre ++ [p]).length else 2 * (pre ++ [p]).length) := by split <;> simp; omega
    refine ⟨⟨n, p.1, if P.hasArg p.1 then some p.2 else none, loc, none, 2⟩ :: js, ?_, ?_⟩
    · rw [disassembleAll, if_pos hlt]
      simp only [hl', hdis, bind, Except.bind, hoff]
      rw [show pre ++ p :: ps = (pre ++ [p]) ++ ps by simp, hjs]
      simp only [pure, Except.pure]
    · simp [hjn, noLoc, rawUnit, hname]

/-- The units of an instruction. -/
def unitPairs (P : Platform) (i : CInstr) : List (Nat × Nat) :=
  match i.arg with
  | none => [(i.opcode, 0)]
  | some a => (prefixBytes (nPrefix i) a).map (fun b => (P.extendedArg, b)) ++ [(i.opcode, a % 256)]

theorem assemble_pairs (P : Platform) (i : CInstr) (hv : ValidCInstr P i) : i.assemble P = flatPairs (unitPairs P i) := by
  unfold unitPairs
  cases ha : i.arg with
  | none => rw [CInstr.assemble, ha]; rfl
  | some a =>
    rw [assemble_prefix P i hv.size_eq a ha]
    simp [flatPairs, unitsFlat, List.flatMap_map]

theorem unitPairs_raw (P : Platform) (hP : P.WF) (i : CInstr) (hv : ValidCInstr P i) (h0 : i.opcode ≠ 0) :
    (unitPairs P i).map (rawUnit P) = unitInstrs P id i := by
  have hname := (hP.name_op _ _ hv.name_op hv.base).2
  have hext := (hP.name_op _ _ hP.ext hP.ext_base).2
  unfold unitPairs unitInstrs
  rw [if_neg h0]
  cases ha : i.arg with
  | none =>
    have hA : P.hasArg i.opcode = false := by
      cases h : P.hasArg i.opcode with
      | false => rfl
      | true => have := hv.arg_required h; rw [ha] at this; simp at this
    simp [rawUnit, hname, hA]
  | some a =>
    have hA : P.hasArg i.opcode = true := by
      cases h : P.hasArg i.opcode with
      | true => rfl
      | false => have := hv.arg_forbidden h h0; rw [ha] at this; simp at this
    simp [rawUnit, hname, hA, hext, hP.ext_arg, extInstr, Function.comp_def]

theorem unitPairs_lt (P : Platform) (hP : P.WF) (i : CInstr) (hv : ValidCInstr P i) :
    ∀ p ∈ unitPairs P i, p.2 < 256 ∧ ∃ n, P.opmap n = some p.1 ∧ p.1 < P.minInstrumented := by
  intro p hp
  unfold unitPairs at hp
  cases ha : i.arg with
  | none =>
    rw [ha] at hp; simp at hp; subst hp
    exact ⟨by simp, i.name, hv.name_op, hv.base⟩
  | some a =>
    rw [ha] at hp
    simp only [List.mem_append, List.mem_map, List.mem_singleton] at hp
    rcases hp with ⟨b, hb, rfl⟩ | rfl
    · exact ⟨prefixBytes_lt _ _ b hb, _, hP.ext, hP.ext_base⟩
    · exact ⟨Nat.mod_lt _ (by decide), i.name, hv.name_op, hv.base⟩

theorem flatPairs_flatMap (P : Platform) (is : List CInstr) (hv : ∀ i ∈ is, ValidCInstr P i) :
    is.flatMap (CInstr.assemble P) = flatPairs (is.flatMap (unitPairs P)) := by
  induction is with
  | nil => rfl
  | cons i is ih =>
    rw [List.flatMap_cons, List.flatMap_cons, assemble_pairs P i (hv i (by simp)), ih (fun k hk => hv k (by simp [hk]))]
    simp [flatPairs]

theorem flatMap_congr' {α β} {l : List α} {f g : α → List β} (h : ∀ x ∈ l, f x = g x) : l.flatMap f = l.flatMap g := by
  induction l with
  | nil => rfl
  | cons x l ih => rw [List.flatMap_cons, List.flatMap_cons, h x (by simp), ih (fun y hy => h y (by simp [hy]))]

/-! ### Folding then assembling -/

/-- Bytes of an element. -/
def elemBytes (P : Platform) : CElem → Bytes
  | .setLineno _ => []
  | .instr i => i.assemble P

/-- A single-unit instruction as any of the readers produces. -/
structure RawInstr (P : Platform) (u : CInstr) : Prop where
  valid : ValidCInstr P u
  ext : u.ext = none
  byte : ∀ a, u.arg = some a → a < 256

theorem raw_assemble (P : Platform) (u : CInstr) (h : RawInstr P u) : u.assemble P = [u.opcode, u.arg.getD 0] := by
  cases ha : u.arg with
  | none => rw [CInstr.assemble, ha]; rfl
  | some a =>
    have hb := h.byte a ha
    have : nPrefix u = 0 := by simp [nPrefix, ha, h.ext, extNeeded_lt hb]
    rw [assemble_prefix P u h.valid.size_eq a ha, this]
    simp [unitsFlat, prefixBytes, Nat.mod_eq_of_lt hb]

theorem removeExtendedArgs_bytes (P : Platform) (hP : P.WF) (us : List CInstr) (hus : ∀ u ∈ us, RawInstr P u) :
    ∀ (bs : List Nat), (∀ b ∈ bs, b < 256) → ∀ es, removeExtendedArgs P bs.length (extState bs) (us.map .instr) = .ok es →
    (∀ i, CElem.instr i ∈ es → i.name = "NOP" → i.ext = none) →
    es.flatMap (elemBytes P) = unitsFlat P.extendedArg bs ++ us.flatMap (CInstr.assemble P) := by
  induction us with
  | nil =>
    intro bs _ es h _
    simp only [List.map_nil, removeExtendedArgs] at h
    unfold extState at h
    by_cases hb : bs = []
    · subst hb; simp at h; subst h; rfl
    · simp [hb] at h
  | cons u us ih =>
    intro bs hbs es h hnop
    have hu := hus u (by simp)
    have hrest : ∀ v ∈ us, RawInstr P v := fun v hv => hus v (by simp [hv])
    rw [List.map_cons] at h
    by_cases hn : u.name = "EXTENDED_ARG"
    · have hop : u.opcode = P.extendedArg := by
        have := hu.valid.name_op; rw [hn, hP.ext] at this; exact (Option.some.inj this).symm
      obtain ⟨a, ha⟩ : ∃ a, u.arg = some a := Option.isSome_iff_exists.1 (hu.valid.arg_required (by rw [hop]; exact hP.ext_arg))
      rw [removeExtendedArgs_ext P bs u hn a ha] at h
      rw [ih hrest (bs ++ [a]) (by
        intro b hb; simp only [List.mem_append, List.mem_singleton] at hb
        rcases hb with hb | rfl
        · exact hbs b hb
        · exact hu.byte _ ha) es h hnop]
      rw [List.flatMap_cons, raw_assemble P u hu, hop, ha, unitsFlat_append]
      simp [unitsFlat]
    · rw [removeExtendedArgs.eq_def] at h
      simp only [hn, if_false] at h
      by_cases hb : bs = []
      · subst hb
        simp only [extState, if_true, List.length_nil] at h
        cases hr : removeExtendedArgs P 0 none (us.map .instr) with
        | error e => rw [hr] at h; simp [bind, Except.bind] at h
        | ok r =>
          rw [hr] at h
          simp only [bind, Except.bind, pure, Except.pure, Except.ok.injEq] at h
          subst h
          have := ih hrest [] (by simp) r (by simpa [extState] using hr) (fun i hi => hnop i (by simp [hi]))
          rw [List.flatMap_cons, List.flatMap_cons, this]
          simp [elemBytes, unitsFlat]
      · have hst : extState bs = some (foldBytes 0 bs) := by simp [extState, hb]
        rw [hst] at h
        simp only at h
        by_cases hnp : u.name = "NOP"
        · -- excluded
          simp only [hnp, if_true, pure, Except.pure, bind, Except.bind] at h
          cases hmk : CInstr.make P (some "NOP") CArg.unset .unset u.loc (some bs.length) with
          | error e => rw [hmk] at h; simp at h
          | ok i' =>
            rw [hmk] at h
            simp only at h
            cases hr : removeExtendedArgs P 0 none (us.map .instr) with
            | error e => rw [hr] at h; simp at h
            | ok r =>
              rw [hr] at h
              simp only [Except.ok.injEq] at h
              subst h
              have hc := set_spec P ⟨"", 0, none, none, some bs.length, 0⟩ (some "NOP") CArg.unset
              unfold CInstr.make at hmk
              rcases hc with ⟨h1, _, hext, hnm, _, _⟩ | ⟨e, he⟩
              · simp only [h1, bind, Except.bind] at hmk
                cases hi : initLocation P.py311 .unset u.loc with
                | error e => rw [hi] at hmk; simp at hmk
                | ok l =>
                  rw [hi] at hmk
                  simp only [pure, Except.pure, Except.ok.injEq] at hmk
                  have := hnop i' (by simp) (by rw [← hmk]; exact Option.some.inj hnm)
                  rw [← hmk] at this; simp only at this; rw [hext] at this; simp at this
              · simp [he, bind, Except.bind] at hmk
        · simp only [hnp, if_false] at h
          cases ha : u.arg with
          | none => rw [ha] at h; simp [bind, Except.bind, throw, throwThe, MonadExceptOf.throw] at h
          | some a =>
            rw [ha] at h
            simp only [pure, Except.pure, bind, Except.bind, shl8] at h
            have hba := hu.byte a ha
            cases hmk : CInstr.make P (some u.name) (CArg.int ((foldBytes 0 bs * 256 + a : Nat) : Int)) .unset u.loc (some bs.length) with
            | error e => rw [hmk] at h; simp at h
            | ok i' =>
              rw [hmk] at h
              simp only at h
              cases hr : removeExtendedArgs P 0 none (us.map .instr) with
              | error e => rw [hr] at h; simp at h
              | ok r =>
                rw [hr] at h
                simp only [Except.ok.injEq] at h
                subst h
                have ihr := ih hrest [] (by simp) r (by simpa [extState] using hr) (fun i hi => hnop i (by simp [hi]))
                -- what make produced
                have hle : foldBytes 0 bs * 256 + a ≤ 2147483647 := by
                  by_contra hgt
                  simp only [CInstr.make, CInstr.set_, bind, Except.bind] at hmk
                  cases hlk : lookupName P (some u.name) with
                  | error e => rw [hlk] at hmk; simp at hmk
                  | ok q =>
                    obtain ⟨qn, qo⟩ := q
                    rw [hlk] at hmk
                    simp only at hmk
                    cases hca : CInstr.checkArg P qo (CArg.int ((foldBytes 0 bs * 256 + a : Nat) : Int)) with
                    | error e => rw [hca] at hmk; simp at hmk
                    | ok w =>
                      have g := checkArg_ok hca
                      have : w = some (foldBytes 0 bs * 256 + a) := by
                        unfold CInstr.checkArg at hca
                        have hci : ∀ w, (checkArgInt (CArg.int ((foldBytes 0 bs * 256 + a : Nat) : Int))).map some = .ok w →
                            w = some (foldBytes 0 bs * 256 + a) := by
                          intro w hw
                          simp only [checkArgInt] at hw
                          rw [if_neg (by omega)] at hw
                          simp [Except.map] at hw
                        split at hca
                        · exact hci w hca
                        · split at hca
                          · exact hci w hca
                          · simp at hca
                      have := g.2.2 _ this
                      omega
                have hmk' := make_ok P hP u.name u.opcode hu.valid.name_op hu.valid.base (some (foldBytes 0 bs * 256 + a)) (by simp)
                  (fun h1 h2 => by have := hu.valid.arg_forbidden h1 h2; rw [ha] at this; simp at this)
                  (fun v hv => by simp at hv; omega) u.loc (some bs.length)
                simp only [CArg.ofOpt] at hmk'
                rw [hmk] at hmk'
                simp only [Except.ok.injEq] at hmk'
                subst hmk'
                have hneed : extNeeded (foldBytes 0 bs * 256 + a) ≤ bs.length := by
                  rw [extNeeded_le_iff]
                  have := foldBytes_lt bs hbs
                  rw [Nat.pow_succ]; omega
                rw [List.flatMap_cons, ihr, List.flatMap_cons, raw_assemble P u hu, ha]
                have hasm := assemble_prefix P ⟨u.name, u.opcode, some (foldBytes 0 bs * 256 + a), u.loc, some bs.length,
                  sizeFor (some (foldBytes 0 bs * 256 + a)) (some bs.length)⟩ rfl _ rfl
                simp only [elemBytes]
                rw [hasm]
                have hnpx : nPrefix ⟨u.name, u.opcode, some (foldBytes 0 bs * 256 + a), u.loc, some bs.length,
                    sizeFor (some (foldBytes 0 bs * 256 + a)) (some bs.length)⟩ = bs.length := by
                  simp [nPrefix]; omega
                rw [hnpx, prefixBytes_fold bs hbs a hba]
                have : (foldBytes 0 bs * 256 + a) % 256 = a := by omega
                simp [this, unitsFlat]

theorem make_inv {P : Platform} {n : String} {a : CArg} {s : CInstr} (h : CInstr.make P (some n) a = .ok s) :
    ValidCInstr P s ∧ s.name = n ∧ s.argVal = a ∧ s.ext = none ∧ s.loc = none := by
  unfold CInstr.make at h
  rcases set_spec P ⟨"", 0, none, none, none, 0⟩ (some n) a with ⟨h1, hloc, hext, hn, ha, h2⟩ | ⟨e, he⟩
  · simp only [h1, bind, Except.bind, initLocation, pure, Except.pure, Except.ok.injEq] at h
    subst h
    obtain ⟨v1, v2, v3, v4, v5, v6, _⟩ := h2 (by simp)
    exact ⟨⟨v1, v2, v3, v4, v5, v6, by simp⟩, Option.some.inj hn, ha, hext, rfl⟩
  · simp [he, bind, Except.bind] at h

theorem disUnits_raw (P : Platform) (hP : P.WF) (h11 : P.py311 = true) (code : Bytes) (n : Nat) (hn : code.length ≤ n) (hc : ∀ b ∈ code, b < 256) :
    ∀ (c : Nat) (us : List CInstr), disUnits P c code = .ok us →
    (∀ u ∈ us, RawInstr P u) ∧ List.replicate (2 * c) 0 ++ us.flatMap (CInstr.assemble P) = significant P c code := by
  induction n generalizing code with
  | zero =>
    have : code = [] := List.length_eq_zero_iff.1 (by omega)
    subst this
    intro c us h
    rw [disUnits] at h
    · simp at h; subst h
      refine ⟨by simp, ?_⟩
      cases c <;> simp [significant]
    · simp
  | succ n ih =>
    intro c us h
    match code, hn, hc with
    | [], _, _ =>
      rw [disUnits] at h
      · simp at h; subst h
        refine ⟨by simp, ?_⟩
        cases c <;> simp [significant]
      · simp
    | [x], _, _ =>
      rw [disUnits] at h
      · simp at h; subst h
        refine ⟨by simp, ?_⟩
        cases c <;> simp [significant]
      · simp
    | op :: a :: rest, hn, hc =>
      simp at hn
      cases c with
      | succ c =>
        rw [disUnits] at h
        obtain ⟨h1, h2⟩ := ih rest (by omega) (fun b hb => hc b (by simp [hb])) c us h
        refine ⟨h1, ?_⟩
        rw [significant, ← h2, show 2 * (c + 1) = 2 * c + 1 + 1 by omega]
        simp [List.replicate_succ]
      | zero =>
        have hno : ∃ nm, P.opname op = some nm := by
          cases hno : P.opname op with
          | none => rw [disUnits] at h; simp [hno, bind, Except.bind] at h
          | some nm => exact ⟨nm, rfl⟩
        obtain ⟨nm, hno⟩ := hno
        have hopm := hP.op_name op nm (hc op (by simp)) hno
        -- the instruction itself must be constructible
        rw [disUnits] at h
        simp only [hno, bind, Except.bind] at h
        cases hmk : CInstr.make P (some nm) (if P.hasArg op then .int a else .unset) with
        | error e => rw [hmk] at h; simp at h
        | ok i =>
          obtain ⟨hv, hin, hia, hie, _⟩ := make_inv hmk
          have hio : i.opcode = op := by have := hv.name_op; rw [hin, hopm] at this; exact (Option.some.inj this).symm
          have hmk2 := make_ok P hP "CACHE" 0 (hP.cache h11).1 (hP.cache h11).2 (some 0) (by simp) (by simp) (by simp) none none
          rw [sizeFor_small _ (by simp)] at hmk2
          have hmk2 : CInstr.make P (some "CACHE") (.int 0) = .ok cacheUnit := hmk2
          rw [hmk] at h
          simp only at h
          rw [mapM_const _ cacheUnit (fun _ => hmk2)] at h
          simp only [List.length_replicate] at h
          cases hr : disUnits P (P.cacheEntries op) rest with
          | error e => rw [hr] at h; simp at h
          | ok r =>
            rw [hr] at h
            simp only [pure, Except.pure, Except.ok.injEq] at h
            subst h
            obtain ⟨h1, h2⟩ := ih rest (by omega) (fun b hb => hc b (by simp [hb])) _ r hr
            have hargi : i.arg = if P.hasArg op then some a else none := by
              unfold CInstr.argVal at hia
              cases hA : P.hasArg op with
              | true =>
                simp only [hA, if_true] at hia ⊢
                cases hx : i.arg with
                | none => rw [hx] at hia; simp [CArg.ofOpt] at hia
                | some x => rw [hx] at hia; simp only [CArg.ofOpt, CArg.int.injEq] at hia; simp; omega
              | false =>
                simp only [hA] at hia
                cases hx : i.arg with
                | none => simp
                | some x => rw [hx] at hia; simp [CArg.ofOpt] at hia
            have hri : RawInstr P i := ⟨hv, hie, by
              intro x hx; rw [hargi] at hx; split at hx <;> simp at hx
              subst hx; exact hc _ (by simp)⟩
            have hcv := (make_inv hmk2).1
            have hrc : RawInstr P cacheUnit := ⟨hcv, rfl, by simp [cacheUnit]⟩
            refine ⟨?_, ?_⟩
            · intro u hu
              simp only [List.cons_append, List.mem_cons, List.mem_append, List.mem_replicate] at hu
              rcases hu with rfl | ⟨_, rfl⟩ | hu
              · exact hri
              · exact hrc
              · exact h1 u hu
            · rw [significant, ← h2]
              simp only [Nat.mul_zero, List.replicate_zero, List.nil_append, List.cons_append, List.flatMap_cons, List.flatMap_append]
              rw [raw_assemble P i hri, hio, hargi]
              have hrep : ∀ k, (List.replicate k cacheUnit).flatMap (CInstr.assemble P) = List.replicate (2 * k) 0 := by
                intro k
                induction k with
                | zero => rfl
                | succ k ihk =>
                  rw [List.replicate_succ, List.flatMap_cons, ihk, raw_assemble P _ hrc, show 2 * (k + 1) = 2 * k + 1 + 1 by omega]
                  simp [List.replicate_succ, cacheUnit]
              rw [hrep]
              cases P.hasArg op <;> simp

end Verif
