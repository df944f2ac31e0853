import Verif.Spec.CodeOK
/-
What more a code object must meet to be written again by the library.
-/
namespace Verif.Spec

/-- Beyond `CodeOK`: LOAD_DEREF and the like are about declared cell and free variables, the two-variable opcodes of 3.13 about
plain local variables, the size is far from the limits (a code string of 256 MB), and positions without columns are on a
single line. The code objects of CPython's compiler meet this. -/
structure Rewritable (P : Platform) (co : Code) : Prop where
  cells : ∀ f ∈ fetched P co, P.hasfree f.opcode = true → ∀ n, (derefSlots P (tablesOf co))[f.arg]? = some (.named n) → n ∈ co.cellvars
  duals : ∀ f ∈ fetched P co, P.dual f.opcode = true → f.arg / 16 < co.varnames.length ∧ f.arg % 16 < co.varnames.length
  size : 8 * co.code.length + co.varnames.length + co.cellvars.length + co.freevars.length ≤ 2147483647
  columns : ∀ p ∈ (readLocs co.firstlineno co.linetable).getD [], p.col = none → p.endLine = p.line

end Verif.Spec
