import Verif.Model.Basic
/-
Reader of co_linetable (3.11+), written from CPython's Objects/locations.md, independently of the encoder.
-/
namespace Verif.Spec

/-- What `co_positions()` reports for one code unit. -/
structure Pos where
  line : Option Int
  endLine : Option Int
  col : Option Int
  endCol : Option Int
deriving DecidableEq, Repr

/-- varint: 6 bit digits, least significant first, bit 0x40 on all but the last. -/
def readVarint : Bytes → Option (Nat × Bytes)
  | [] => none
  | b :: rest =>
    if b % 128 < 64 then some (b % 64, rest)
    else match readVarint rest with
      | some (v, r) => some (b % 64 + 64 * v, r)
      | none => none

/-- signed varint: lowest bit is the sign. -/
def readSvarint (bs : Bytes) : Option (Int × Bytes) :=
  match readVarint bs with
  | some (v, r) => some (if v % 2 = 1 then -((v / 2 : Nat) : Int) else ((v / 2 : Nat) : Int), r)
  | none => none

/-- A stored column is off by one; 0 means "no column". -/
def readCol (bs : Bytes) : Option (Option Int × Bytes) :=
  match readVarint bs with
  | some (0, r) => some (none, r)
  | some (v + 1, r) => some (some (v : Int), r)
  | none => none

/-- One entry: number of code units covered, position, new reference line, remaining bytes. -/
def readEntry (line : Int) (bs : Bytes) : Option (Nat × Pos × Int × Bytes) :=
  match bs with
  | [] => none
  | b :: rest =>
    if b < 128 then none else
    let code := (b / 8) % 16
    let len := b % 8 + 1
    if code ≤ 9 then
      match rest with
      | b2 :: rest =>
        let c : Int := code * 8 + (b2 / 16) % 8
        some (len, ⟨some line, some line, some c, some (c + b2 % 16)⟩, line, rest)
      | [] => none
    else if code ≤ 12 then
      match rest with
      | c :: e :: rest =>
        let l := line + (code - 10)
        some (len, ⟨some l, some l, some c, some e⟩, l, rest)
      | _ => none
    else if code = 13 then do
      let (d, rest) ← readSvarint rest
      some (len, ⟨some (line + d), some (line + d), none, none⟩, line + d, rest)
    else if code = 14 then do
      let (d, rest) ← readSvarint rest
      let (de, rest) ← readVarint rest
      let (c, rest) ← readCol rest
      let (e, rest) ← readCol rest
      some (len, ⟨some (line + d), some (line + d + de), c, e⟩, line + d, rest)
    else some (len, ⟨none, none, none, none⟩, line, rest)

/-- All entries, expanded to one position per code unit. Every entry consumes at least one byte, so
`bs.length + 1` is enough fuel. `none`: malformed table. -/
def readLocsFuel : Nat → Int → Bytes → Option (List Pos)
  | _, _, [] => some []
  | 0, _, _ :: _ => none
  | fuel + 1, line, b :: bs => do
    let (len, pos, line, rest) ← readEntry line (b :: bs)
    let r ← readLocsFuel fuel line rest
    some (List.replicate len pos ++ r)

def readLocs (firstLine : Int) (bs : Bytes) : Option (List Pos) := readLocsFuel bs.length firstLine bs

/-- CPython's line-only scanner (`_PyLineTable_NextAddressRange`, used by `co_lines()` and by tracebacks):
looks only at the entry head and the line delta, then skips to the next byte whose bit 0x80 is set. -/
def lineDelta (bs : Bytes) : Option (Option Int) :=
  match bs with
  | [] => none
  | b :: rest =>
    let code := (b / 8) % 16
    if code ≤ 10 then some (some 0)
    else if code = 11 then some (some 1)
    else if code = 12 then some (some 2)
    else if code ≤ 14 then (readSvarint rest).map (fun p => some p.1)
    else some none

def scanLinesFuel : Nat → Int → Bytes → Option (List (Option Int))
  | _, _, [] => some []
  | 0, _, _ :: _ => none
  | fuel + 1, line, b :: bs => do
    let d ← lineDelta (b :: bs)
    let len := b % 8 + 1
    let line' := line + d.getD 0
    let r ← scanLinesFuel fuel line' (bs.dropWhile (· < 128))
    some (List.replicate len (d.map (fun _ => line')) ++ r)

/-- One line (or none) per code unit, as `co_lines()` reports it. -/
def scanLines (firstLine : Int) (bs : Bytes) : Option (List (Option Int)) := scanLinesFuel bs.length firstLine bs

end Verif.Spec
