import Verif.Model.Platform
/-
Instructions whose argument packs several things, by release, as CPython's interpreter (bytecodes.c, ceval.c) reads them.
-/
namespace Verif.Spec

/-- Instructions on a name whose argument is twice the index of the name plus a flag, in release 3.`m`. -/
def flagged (m : Nat) : List String :=
  (if 11 ≤ m then ["LOAD_GLOBAL"] else []) ++ (if 12 ≤ m then ["LOAD_ATTR"] else [])

/-- Instructions on a name whose argument is four times the index of the name plus two flags. -/
def flagged2 (m : Nat) : List String := if 12 ≤ m then ["LOAD_SUPER_ATTR"] else []

/-- Instructions that call an intrinsic function, with the number of its arguments. -/
def intrinsicCalls (m : Nat) : List (String × Nat) := if 12 ≤ m then [("CALL_INTRINSIC_1", 1), ("CALL_INTRINSIC_2", 2)] else []

/-- Instructions on two variables, with the instructions on one variable they stand for. -/
def pairs (m : Nat) : List (String × String × String) :=
  if 13 ≤ m then [("LOAD_FAST_LOAD_FAST", "LOAD_FAST", "LOAD_FAST"), ("STORE_FAST_LOAD_FAST", "STORE_FAST", "LOAD_FAST"),
    ("STORE_FAST_STORE_FAST", "STORE_FAST", "STORE_FAST")] else []

end Verif.Spec
