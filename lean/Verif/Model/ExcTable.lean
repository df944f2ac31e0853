import Verif.Model.Basic
/-
Exception table codec: src/bytecode/concrete.py 196-248 and 793-847.
-/
namespace Verif

/-- `ExceptionTableEntry`, concrete.py 196-248. Offsets are Python ints (may be negative). -/
structure ExcEntry where
  start : Int
  stop : Int
  target : Int
  depth : Int
  lasti : Bool
deriving DecidableEq, Repr

/-- The `while value:` loop of `_encode_varint`, concrete.py 829-831 (`temp` is least significant first). -/
def encodeVarintLoop (temp : List Nat) (value : Nat) : List Nat :=
  if value = 0 then temp
  else encodeVarintLoop (temp ++ [(value &&& 63) ||| (if temp.isEmpty then 0 else 64)]) (value >>> 6)
termination_by value
decreasing_by simp [Nat.shiftRight_eq_div_pow]; omega

/-- `temp[-1] |= 128`, concrete.py 834. -/
def setLastMarker (temp : List Nat) : List Nat :=
  match temp.reverse with
  | [] => []
  | x :: xs => (((x ||| 128) :: xs)).reverse

/-- `_encode_varint`, concrete.py 823-835. -/
def encodeVarint (value : Int) (setBeginMarker : Bool := false) : Py Bytes := do
  pyAssert (decide (0 ≤ value))
  let temp := encodeVarintLoop [] value.toNat
  let temp := if temp.isEmpty then [0] else temp
  let temp := if setBeginMarker then setLastMarker temp else temp
  return temp.reverse

/-- The `while b & 64:` loop of `_parse_varint`, concrete.py 798-801. `next()` on an exhausted iterator raises
StopIteration. -/
def parseVarintLoop (val b : Nat) (rest : Bytes) : Py (Nat × Bytes) :=
  if b &&& 64 ≠ 0 then
    match rest with
    | [] => .error .stopIteration
    | b' :: rest' => parseVarintLoop ((val <<< 6) ||| (b' &&& 63)) b' rest'
  else .ok (val, rest)

/-- `_parse_varint`, concrete.py 794-802. The iterator is the list of remaining bytes. -/
def parseVarint (bytes : Bytes) : Py (Nat × Bytes) :=
  match bytes with
  | [] => .error .stopIteration
  | b :: rest => parseVarintLoop (b &&& 63) b rest

/-- One iteration of the `while True` loop of `_parse_exception_table`, concrete.py 812-819. -/
def parseExcEntry (bytes : Bytes) : Py (ExcEntry × Bytes) := do
  let (start, r) ← parseVarint bytes
  let (length, r) ← parseVarint r
  let (target, r) ← parseVarint r
  let (dl, r) ← parseVarint r
  return ({ start := start, stop := (start : Int) + length - 1, target := target,
            depth := ((dl >>> 1 : Nat) : Int), lasti := decide (dl &&& 1 ≠ 0) }, r)

/-- `_parse_exception_table`, concrete.py 804-821: entries are read until the iterator is exhausted (StopIteration,
possibly in the middle of an entry, ends the loop). Fuel: each iteration consumes at least one byte, so
`bytes.length + 1` suffices. -/
def parseExcTableLoop : Nat → Bytes → List ExcEntry
  | 0, _ => []
  | fuel + 1, bytes =>
    match parseExcEntry bytes with
    | .ok (e, rest) => e :: parseExcTableLoop fuel rest
    | .error _ => []

def parseExcTable (bytes : Bytes) : List ExcEntry := parseExcTableLoop (bytes.length + 1) bytes

/-- Body of the loop of `_assemble_exception_table`, concrete.py 840-845. -/
def assembleExcEntry (e : ExcEntry) : Py Bytes := do
  let size := e.stop - e.start + 1
  let depth := 2 * e.depth + (if e.lasti then 1 else 0)
  let a ← encodeVarint e.start true
  let b ← encodeVarint size
  let c ← encodeVarint e.target
  let d ← encodeVarint depth
  return a ++ b ++ c ++ d

/-- `_assemble_exception_table`, concrete.py 837-847. -/
def assembleExcTable : List ExcEntry → Py Bytes
  | [] => .ok []
  | e :: es => do
    let a ← assembleExcEntry e
    let b ← assembleExcTable es
    return a ++ b

end Verif
