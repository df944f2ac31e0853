import Verif.Model.Basic
/-
Byte format of co_exceptiontable, written from CPython's Objects/exception_handling_notes.txt, independently of
the encoder: an entry is four varints; a varint is a non-empty run of 6 bit digits, bit 0x40 set on all digits but
the last; bit 0x80 is set on the first byte of an entry and on no other byte.
-/
namespace Verif.Spec

/-- A plain varint: digits below 128, the continuation bit 0x40 on all but the last. -/
inductive IsVarint : Bytes → Prop
  | last (d : Nat) : d < 64 → IsVarint [d]
  | more (d : Nat) (r : Bytes) : d < 64 → IsVarint r → IsVarint ((64 + d) :: r)

/-- The number a plain varint denotes: base 64, most significant digit first. -/
def varintValue (bs : Bytes) : Nat := bs.foldl (fun v b => v * 64 + b % 64) 0

/-- One entry: the first varint carries the begin marker 0x80 on its first byte. -/
def IsEntry (bs : Bytes) (start size target depthLasti : Nat) : Prop :=
  ∃ a as b c d, IsVarint (a :: as) ∧ IsVarint b ∧ IsVarint c ∧ IsVarint d ∧
    bs = (128 + a) :: as ++ b ++ c ++ d ∧
    varintValue (a :: as) = start ∧ varintValue b = size ∧ varintValue c = target ∧ varintValue d = depthLasti

/-- A byte starts an entry. -/
def startsEntry (b : Nat) : Bool := decide (128 ≤ b)

end Verif.Spec
