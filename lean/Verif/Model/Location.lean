import Verif.Model.Basic
/-
Instruction locations (src/bytecode/instr.py 413-500) and the 3.11+ location table encoder
(src/bytecode/concrete.py 568-742).
-/
namespace Verif

/-- `InstrLocation`, instr.py 426-443. Fields hold validated (non-negative) ints or None. -/
structure Loc where
  lineno : Option Nat
  endLineno : Option Nat
  col : Option Nat
  endCol : Option Nat
deriving DecidableEq, Repr

/-- `_check_location`, instr.py 413-423, on None or an int (a non-int raises TypeError; not represented). -/
def checkLocation (location : Option Int) (minValue : Int) : Py Unit :=
  match location with
  | none => .ok ()
  | some v => if v < minValue then .error .valueError else .ok ()

/-- `InstrLocation.__init__`, instr.py 445-491. `py311` is `sys.version_info >= (3, 11)`. -/
def Loc.make (py311 : Bool) (lineno endLineno col endCol : Option Int) : Py Loc := do
  checkLocation lineno (if py311 then 0 else 1)
  checkLocation endLineno 1
  checkLocation col 0
  checkLocation endCol 0
  -- `if end_lineno:` (a validated end line is >= 1, hence truthy when not None)
  match endLineno with
  | none => pure ()
  | some el =>
    if el = 0 then pure () else
    match lineno with
    | none => throw .valueError
    | some l => if l > el then throw .valueError else pure ()
  if col.isSome || endCol.isSome then
    match lineno, endLineno with
    | some l, some el =>
      match endCol with
      | some ec =>
        match col with
        | none => throw .valueError
        | some c => if l = el ∧ c > ec then throw .valueError else pure ()
      | none => throw .valueError
    | _, _ => throw .valueError
  return { lineno := lineno.map Int.toNat, endLineno := endLineno.map Int.toNat,
           col := col.map Int.toNat, endCol := endCol.map Int.toNat }

/-- `InstrLocation(lineno, None, None, None)` for an already validated line. -/
def Loc.line (l : Option Nat) : Loc := ⟨l, none, none, none⟩

/-- `bytearray.extend` / `append`: every int must be in `range(256)`, else ValueError. -/
def toBytes : List Int → Py Bytes
  | [] => .ok []
  | x :: xs => if 0 ≤ x ∧ x < 256 then (do let r ← toBytes xs; return x.toNat :: r) else .error .valueError

/-- `_encode_location_varint`, concrete.py 569-580, for a non-negative int. -/
def encodeLocVarintNat (varint : Nat) : Bytes :=
  if varint >>> 6 = 0 then [varint &&& 0x3F]
  else ((varint &&& 0x3F) ||| 0x40) :: encodeLocVarintNat (varint >>> 6)
termination_by varint
decreasing_by simp [Nat.shiftRight_eq_div_pow] at *; omega

/-- `_encode_location_varint` on any int: on a negative int the Python loop does not terminate
(`-1 >> 6 == -1`), modelled as `outOfFuel`. -/
def encodeLocVarint (varint : Int) : Py Bytes :=
  if varint < 0 then .error .outOfFuel else .ok (encodeLocVarintNat varint.toNat)

/-- `_encode_location_svarint`, concrete.py 582-586. `((-s) << 1) | 1 = 2*(-s) + 1`. -/
def encodeLocSvarint (svarint : Int) : Py Bytes :=
  if svarint < 0 then encodeLocVarint (2 * (-svarint) + 1) else encodeLocVarint (2 * svarint)

/-- `_pack_location_header`, concrete.py 589-591. -/
def packLocationHeader (code : Int) (size : Int) : Int :=
  128 + code * 8 + (if size ≤ 8 then size - 1 else 7)

/-- `_pack_location`, concrete.py 593-681. `size` is in code units. -/
def packLocation (size : Int) (lineno : Int) (location : Option Loc) : Py Bytes := do
  let (lLineno, endLineno, col, endCol) : Option Int × Option Nat × Option Nat × Option Nat :=
    match location with
    | none => (some lineno, none, none, none)
    | some loc => (loc.lineno.map Int.ofNat, loc.endLineno, loc.col, loc.endCol)
  match lLineno with
  | none => toBytes [packLocationHeader 15 size]
  | some l =>
    match col with
    | none =>
      match endLineno with
      | some el => if (el : Int) ≠ l then throw .valueError else pure ()
      | none => pure ()
      let h ← toBytes [packLocationHeader 13 size]
      let d ← encodeLocSvarint (l - lineno)
      return h ++ d
    | some c =>
      match endLineno, endCol with
      | some el, some ec =>
        -- Short forms
        if (el : Int) = l ∧ l - lineno = 0 ∧ c < 72 ∧ (ec : Int) - c ≤ 15 then
          toBytes [packLocationHeader ((c / 8 : Nat) : Int) size, (((c % 8 : Nat) : Int) * 16) + ((ec : Int) - c)]
        -- One line form
        else if (el : Int) = l ∧ (l - lineno = 1 ∨ l - lineno = 2) ∧ c < 256 ∧ ec < 256 then
          toBytes [packLocationHeader (10 + l - lineno) size, c, ec]
        -- Long form
        else do
          let h ← toBytes [packLocationHeader 14 size]
          let a ← encodeLocSvarint (l - lineno)
          let b ← encodeLocVarint ((el : Int) - l)
          let c' ← encodeLocVarint ((c : Int) + 1)
          let d ← encodeLocVarint ((ec : Int) + 1)
          return h ++ a ++ b ++ c' ++ d
      | _, _ => throw .assertionError

/-- `lineno = location.lineno if location.lineno is not None else lineno`, concrete.py 700. -/
def newRef (lineno : Int) (location : Loc) : Int := match location.lineno with | some l => (l : Int) | none => lineno

/-- The `while True` loop of `_push_locations`, concrete.py 696-703 (`size` already in code units).
Returns the bytes appended and the new reference line. Fuel: `size` decreases by 8 per iteration. -/
def pushLocationsLoop : Nat → Int → Int → Loc → Py (Bytes × Int)
  | 0, _, _, _ => .error .outOfFuel
  | fuel + 1, size, lineno, location => do
    let p ← packLocation size lineno (some location)
    let lineno := newRef lineno location
    let size := size - 8
    if size < 1 then return (p, lineno)
    else
      let (q, lineno) ← pushLocationsLoop fuel size lineno location
      return (p ++ q, lineno)

/-- `_push_locations`, concrete.py 683-705; `size` in bytes. -/
def pushLocations (size : Nat) (lineno : Int) (location : Loc) : Py (Bytes × Int) :=
  pushLocationsLoop (size + 1) ((size / 2 : Nat) : Int) lineno location

/-- One element of `linenos` as built by `_assemble_code` (concrete.py 430-437):
offset, size in bytes, inherited line, location. -/
structure LineInfo where
  offset : Nat
  size : Nat
  lineno : Nat
  loc : Option Loc
deriving DecidableEq, Repr

/-- The `for` loop and the final push of `_assemble_locations`, concrete.py 725-742. -/
def assembleLocationsLoop (size : Nat) (lineno : Int) (oldLoc : Loc) : List LineInfo → Py Bytes
  | [] => do
    let (p, _) ← pushLocations size lineno oldLoc
    return p
  | i :: rest =>
    let location := i.loc.getD oldLoc            -- `location or old_location`
    if oldLoc.lineno.isSome ∧ oldLoc = location then
      assembleLocationsLoop (size + i.size) lineno oldLoc rest
    else do
      let (p, lineno) ← pushLocations size lineno oldLoc
      let q ← assembleLocationsLoop i.size lineno location rest
      return p ++ q

/-- `_assemble_locations`, concrete.py 707-742. -/
def assembleLocations (firstLineno : Nat) (linenos : List LineInfo) : Py Bytes :=
  match linenos with
  | [] => .ok []
  | i :: rest =>
    let oldLocation := i.loc.getD (Loc.line (some i.lineno))
    assembleLocationsLoop i.size firstLineno oldLocation rest

end Verif
