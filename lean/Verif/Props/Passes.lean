import Verif.Proofs.PassBound
import Verif.Props.WellFormed
import Verif.Props.OldCode
/-
C70: how many passes `to_code` needs.
-/
namespace Verif
open Spec
section
variable {κ : Type} [DecidableEq κ] {P : Platform} {key : Arg → κ} {eff : Instr → Bool → Py (Int × Int)} {b : Bytecode} {c : Concrete} {co : Code}
  {passes : Nat} {stacksize : Option Int} {depths : Bool}

/-- **C70 (conversion).** The passes jump resolution needs are at most one more than the EXTENDED_ARG prefixes of the jumps in the
result: allowing that many, or more, gives the result. -/
theorem C70_concrete (hP : P.WF) (hcache : ∀ e ∈ b.elems, e.isCache = false) (hv : ∀ i, .instr i ∈ b.elems → ValidInstr P i)
    (h : toConcrete P key passes b = .ok c) (m : Nat) (hm : jumpPrefixes P (instrsOf c.elems) < m) : toConcrete P key m b = .ok c :=
  toConcrete_enough hP hcache hv h hm

theorem fetchedOf_prefixes (hP : P.WF) (is : List CInstr) (hr : ∀ i ∈ is, Readable P i) : ∀ u,
    jumpPrefixes P is = (((fetchedOf u is).filter (fun f => P.hasJump f.opcode)).map (fun f => f.unit - f.first)).sum := by
  induction is with
  | nil => intro u; rfl
  | cons i is ih =>
    intro u
    have hi := hr i (by simp)
    have ih := ih (fun x hx => hr x (by simp [hx])) (u + i.size / 2)
    have hsz := size_of_units hi
    unfold jumpPrefixes at ih ⊢
    unfold fetchedOf
    rw [List.filter_cons]
    split
    · rename_i hj
      split
      · rename_i h0
        have := hasJump_arg hP hi.valid.name_op hi.valid.base hj
        rw [h0, hP.zero] at this; cases this
      · rw [List.filter_cons]
        simp only [hj, if_true, List.map_cons, List.sum_cons, ih, prefixes]
        omega
    · rename_i hj
      split
      · exact ih
      · rw [List.filter_cons]
        simp only [hj, if_false, Bool.false_eq_true]
        exact ih

/-- EXTENDED_ARG of jumps in the code object written. -/
theorem emit_prefixes (hP : P.WF) {n : Int} (hcache : ∀ e ∈ b.elems, e.isCache = false) (hv : ∀ i, .instr i ∈ b.elems → ValidInstr P i)
    (h : toConcrete P key passes b = .ok c) (he : c.emit P n = .ok co) : jumpPrefixes P (instrsOf c.elems) = jumpExtArgs P co := by
  obtain ⟨T, M, hF⟩ := toConcrete_Final hP hcache hv h
  have hcode : co.code = (code P M).flatMap (CInstr.assemble P) := by
    have : co.code = (assembleCodeLoop P 0 (normalizeLineno c.attrs.firstLineno c.elems)).1 := by
      unfold Concrete.emit at he
      simp only at he
      obtain ⟨table, _, he⟩ := except_bind_ok he
      obtain ⟨exc, _, he⟩ := except_bind_ok he
      simp only [pure, Except.pure, Except.ok.injEq] at he
      subst he; rfl
    rw [this, assembleCodeLoop_bytes, hF.elems, instrsOf_instrs]
  have hfs : fetched P co = fetchedOf 0 (code P M) := by
    unfold fetched
    rw [hcode]
    cases h11 : P.py311 with
    | true => exact fetch_layout P hP _ (hF.layout h11) hF.readable 0
    | false => exact fetch_layout P hP _ (old_layout hP h11 _ hF.readable) hF.readable 0
  rw [hF.elems, instrsOf_instrs, fetchedOf_prefixes hP _ hF.readable 0]
  unfold jumpExtArgs
  rw [hfs]

/-- **C70.** Whatever the options, if `to_code` succeeds with some number of passes, then with any number of passes larger than the
number of EXTENDED_ARG before jumps in the code object it returned, `to_code` returns the same code object. In particular the
default of 10 passes is enough when there are at most 9. (With 10 it may not be: `C58_default_passes_statement_false`.) -/
theorem C70_passes (hP : P.WF) (hcache : ∀ e ∈ b.elems, e.isCache = false) (hv : ∀ i, .instr i ∈ b.elems → ValidInstr P i) (hl : LabelsOnly b)
    (hw : WellTried none [] false b.elems) (h : b.toCode P key eff passes stacksize depths = .ok co) (m : Nat) (hm : jumpExtArgs P co < m) :
    b.toCode P key eff m stacksize depths = .ok co := by
  have key' : ∀ {b' : Bytecode} {c : Concrete} {n : Int}, (∀ e ∈ b'.elems, e.isCache = false) → (∀ i, .instr i ∈ b'.elems → ValidInstr P i) →
      toConcrete P key passes b' = .ok c → c.emit P n = .ok co → toConcrete P key m b' = .ok c := by
    intro b' c n h1 h2 h3 h4
    exact toConcrete_enough hP h1 h2 h3 (by rw [emit_prefixes hP h1 h2 h3 h4]; exact hm)
  have hs : ∀ {r : Int × Bytecode} {c : Concrete}, b.sized P eff depths = .ok r → toConcrete P key passes r.2 = .ok c → c.emit P r.1 = .ok co →
      toConcrete P key m r.2 = .ok c := by
    rintro ⟨n, b'⟩ c hr hc he
    obtain ⟨h1, h2, h3, h4, h5, h6, _⟩ := sized_spec hl hw hr
    exact key' (noCache_same hl h1 h6 hcache) (valid_same hl h1 h6 hv) hc he
  unfold Bytecode.toCode at h ⊢
  split at h
  · rename_i hx
    rw [if_pos hx]
    obtain ⟨r, hr, h⟩ := except_bind_ok h
    obtain ⟨c, hc, h⟩ := except_bind_ok h
    rw [hr]
    simp only [bind, Except.bind]
    rw [hs hr hc h]
    exact h
  · rename_i hx
    rw [if_neg hx]
    split at h
    · obtain ⟨c, hc, h⟩ := except_bind_ok h
      simp only [bind, Except.bind]
      rw [key' hcache hv hc h]
      exact h
    · obtain ⟨r, hr, h⟩ := except_bind_ok h
      obtain ⟨c, hc, h⟩ := except_bind_ok h
      simp only [hr, bind, Except.bind]
      rw [hs hr hc h]
      exact h
end
end Verif
