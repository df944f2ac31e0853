import Verif.Proofs.ConvertBack
import Verif.Proofs.SameCode
/-
C80: what was converted can be converted back, and when it cannot.
-/
namespace Verif
open Spec
section
variable {κ : Type} [DecidableEq κ] {P : Platform} {key : Arg → κ} {b : Bytecode} {c : Concrete}

/-- Has the code CACHE entries? -/
def Spec.hasCaches (c : Concrete) : Bool := c.elems.any (fun e => match e with | .instr ci => ci.name == "CACHE" | _ => false)

theorem hasCaches_iff : hasCaches c = true ↔ ∃ ci, .instr ci ∈ c.elems ∧ ci.name = "CACHE" := by
  unfold hasCaches
  rw [List.any_eq_true]
  constructor
  · rintro ⟨e, he, h⟩
    cases e with
    | instr ci => exact ⟨ci, he, by simpa using h⟩
    | setLineno n => cases h
  · rintro ⟨ci, h1, h2⟩
    exact ⟨_, h1, by simpa using h2⟩

/-- What is wrong with the result is what is wrong with the elements it was made of. -/
theorem undecodable_iff (hP : P.WF) {passes : Nat} {prune : Bool} (hcache : ∀ e ∈ b.elems, e.isCache = false) (hv : ∀ i, .instr i ∈ b.elems → ValidInstr P i)
    (h : toConcrete P key passes b = .ok c) (hw : WellTried none [] false b.elems) (hf : FreeApart P c)
    (hok : ∀ i, .instr i ∈ b.elems → OperandOK P c.varnames i) (hint : ∀ i, .instr i ∈ b.elems → IntrinsicOK i)
    (hkey : ∀ x y, key x = key y → IsValue y → IsValue x) (e : PyErr) :
    Undecodable P c prune c.elems e ↔ NotBack b.elems (hasCaches c) prune e := by
  obtain ⟨T, M, hF⟩ := toConcrete_Final hP hcache hv h
  have hmem : ∀ ci, .instr ci ∈ c.elems ↔ ci ∈ code P M := by
    intro ci; rw [hF.elems]; simp
  constructor
  · intro hu
    cases hu with
    | same h => exact .same (by have := hF.starts_back hw; grind)
    | @arg ci a e hm h1 h2 h3 =>
      exfalso
      have hci := (hmem ci).1 hm
      obtain ⟨hvc, hne⟩ := hF.instrs_valid ci hci
      have hd := hF.decodable hok hint hkey hci h1
      have h0 : ci.opcode ≠ 0 := by
        intro h0
        cases h11 : P.py311 with
        | true => exact h1 ((cache_iff hP h11 hvc).2 h0)
        | false =>
          have := hvc.name_op
          rw [h0] at this
          exact hP.no_zero h11 _ this
      obtain ⟨arg, g1, g2⟩ := decode_total hP hf hvc h1 h0 hne hd
      have hA : P.hasArg ci.opcode = true := by
        cases hx : P.hasArg ci.opcode with
        | true => rfl
        | false => have := hvc.arg_forbidden hx h0; rw [h2] at this; cases this
      unfold decodeOperand at g1
      rw [h2] at g1
      simp only at g1
      cases hj : P.hasJump ci.opcode with
      | true =>
        obtain ⟨k1, k2, k3, k4, k5⟩ := (kinds_excl hP ci.opcode).jump hj
        obtain ⟨i1, i2⟩ := not_intr hP (op := ci.opcode) (by simp [hj])
        have hdl := hP.dual_local ci.opcode
        cases h3 <;> simp_all
      | false =>
        rcases decodeArg_check hP hj hne hA (hvc.arg_range a h2) g1 with ⟨_, hno⟩ | ⟨e', he', _⟩
        · exact hno e h3
        · have := (checkArg_iff P hP ci.name ci.opcode hne arg).2 (g2 hj)
          rw [this] at he'; cases he'
    | @cache ci h0 hm h1 h2 => exact .caches (hasCaches_iff.2 ⟨ci, hm, h1⟩) h0
    | @line ci h0 hm h1 =>
      exfalso
      have hci := (hmem ci).1 (lined_instr hm)
      simp only [code, List.mem_flatMap] at hci
      obtain ⟨d, _, hci⟩ := hci
      rw [cell_loc d ci hci] at h1
      cases h1
    | jump h1 h2 h3 =>
      obtain ⟨i, l, g1, g2, g3⟩ := hF.jumps_back.1 ⟨_, _, _, h1, h2, h3⟩
      exact .atEnd (.inl ⟨i, g1, g2⟩) g3
    | handler h1 h2 h3 =>
      obtain ⟨t, g1, g2⟩ := (hF.handlers_back hw).1 ⟨_, h1, h2, h3⟩
      exact .atEnd (.inr ⟨t, g1, rfl⟩) g2
  · intro hn
    cases hn with
    | same h => exact .same (by have := hF.starts_back hw; grind)
    | @atEnd l ha he =>
      rcases ha with ⟨i, h1, h2⟩ | ⟨t, h1, rfl⟩
      · obtain ⟨off, ci, t, g1, g2, g3⟩ := hF.jumps_back.2 ⟨i, l, h1, h2, he⟩
        exact .jump g1 g2 g3
      · obtain ⟨e, g1, g2, g3⟩ := (hF.handlers_back hw).2 ⟨t, h1, he⟩
        exact .handler g1 g2 g3
    | caches h1 h0 =>
      obtain ⟨ci, hm, hn⟩ := hasCaches_iff.1 h1
      refine .cache h0 hm hn ?_
      obtain ⟨n, a, loc, rfl, hca⟩ := hF.made ((hmem ci).1 hm)
      rw [show (mkI P n a loc).arg = a from rfl, hca hn]
      rfl

/-- **C80.** The code a Bytecode was converted to can be converted back, unless two try regions start at the same instruction,
a jump or a handler goes to the end of the code, or there are CACHE entries and `prune_caches=False`. An exception says which: AssertionError,
KeyError, ValueError. Excluded: the operands of C21, and on 3.13 free variables that are also local ones. -/
theorem C80_back (hP : P.WF) {passes : Nat} {prune conserve : Bool} (hcache : ∀ e ∈ b.elems, e.isCache = false) (hv : ∀ i, .instr i ∈ b.elems → ValidInstr P i)
    (h : toConcrete P key passes b = .ok c) (hw : WellTried none [] false b.elems) (hf : FreeApart P c)
    (hok : ∀ i, .instr i ∈ b.elems → OperandOK P c.varnames i) (hint : ∀ i, .instr i ∈ b.elems → IntrinsicOK i)
    (hkey : ∀ x y, key x = key y → IsValue y → IsValue x) :
    ((∃ b', toBytecode P prune conserve c = .ok b') ↔ ∀ e, ¬ NotBack b.elems (hasCaches c) prune e) ∧
      ∀ e, toBytecode P prune conserve c = .error e → NotBack b.elems (hasCaches c) prune e := by
  obtain ⟨T, M, hF⟩ := toConcrete_Final hP hcache hv h
  have hval : ∀ ci, .instr ci ∈ c.elems → ValidCInstr P ci ∧ ci.name ≠ "EXTENDED_ARG" := by
    intro ci hci
    rw [hF.elems] at hci
    simp only [List.mem_map, CElem.instr.injEq, exists_eq_right] at hci
    exact hF.instrs_valid ci hci
  obtain ⟨h1, h2⟩ := C79_plain (c := c) (prune := prune) (conserve := conserve) hP (fun ci hci => (hval ci hci).1) (fun ci hci => (hval ci hci).2)
  have hiff := undecodable_iff hP (prune := prune) hcache hv h hw hf hok hint hkey
  refine ⟨?_, fun e he => (hiff e).1 (h2 e he)⟩
  rw [h1]
  simp only [hiff]

/-- **C80.** In particular, by default (`prune_caches=True`), a Bytecode whose labels all have an instruction after them and whose
try regions hold an instruction is converted there and back. -/
theorem C80_default (hP : P.WF) {passes : Nat} {conserve : Bool} (hcache : ∀ e ∈ b.elems, e.isCache = false) (hv : ∀ i, .instr i ∈ b.elems → ValidInstr P i)
    (h : toConcrete P key passes b = .ok c) (hw : WellTried none [] false b.elems) (hf : FreeApart P c)
    (hok : ∀ i, .instr i ∈ b.elems → OperandOK P c.varnames i) (hint : ∀ i, .instr i ∈ b.elems → IntrinsicOK i)
    (hkey : ∀ x y, key x = key y → IsValue y → IsValue x) (hend : ∀ l, ¬ AtEnd b.elems l) (hne : NoEmptyTry false b.elems) :
    ∃ b', toBytecode P true conserve c = .ok b' := by
  refine (C80_back hP hcache hv h hw hf hok hint hkey).1.2 ?_
  intro e he
  cases he with
  | same hs =>
    -- between the two TryBegin, the TryEnd of the first
    obtain ⟨pre, t, mid, t', post, h1, h2⟩ := hs
    rw [h1] at hw hne
    have suffixW : ∀ (l r : List BElem) (o : Option Nat) (s : List Nat) (a : Bool), WellTried o s a (l ++ r) → ∃ o' s' a', WellTried o' s' a' r := by
      intro l r
      induction l with
      | nil => intro o s a hh; exact ⟨o, s, a, hh⟩
      | cons x l ih =>
        intro o s a hh
        cases x <;> simp only [List.cons_append, WellTried] at hh
        · exact ih _ _ _ hh
        · exact ih _ _ _ hh
        · exact ih _ _ _ hh
        · exact ih _ _ _ hh.2.2
        · exact ih _ _ _ hh.2.2
    have suffixN : ∀ (l r : List BElem) (a : Bool), NoEmptyTry a (l ++ r) → ∃ a', NoEmptyTry a' r := by
      intro l r
      induction l with
      | nil => intro a hh; exact ⟨a, hh⟩
      | cons x l ih =>
        intro a hh
        cases x <;> simp only [List.cons_append, NoEmptyTry] at hh
        · exact ih _ hh
        · exact ih _ hh
        · exact ih _ hh
        · exact ih _ hh
        · exact ih _ hh.2
    obtain ⟨o, s, a, hw⟩ := suffixW _ _ _ _ _ hw
    obtain ⟨a', hne⟩ := suffixN _ _ _ hne
    simp only [WellTried] at hw
    simp only [NoEmptyTry] at hne
    have main : ∀ (mid : List BElem), (∀ i, .instr i ∉ mid) → ∀ s a id, WellTried (some id) s a (mid ++ .tryBegin t' :: post) →
        NoEmptyTry true (mid ++ .tryBegin t' :: post) → False := by
      intro mid
      induction mid with
      | nil => intro _ s a id hw _; simp [WellTried] at hw
      | cons x mid ih =>
        intro hm s a id hw hne
        cases x with
        | instr i => exact hm i (by simp)
        | label l => exact ih (fun i hi => hm i (by simp [hi])) _ _ _ hw hne
        | setLineno l => exact ih (fun i hi => hm i (by simp [hi])) _ _ _ hw hne
        | tryBegin t => simp [WellTried] at hw
        | tryEnd i => simp [NoEmptyTry] at hne
    exact main mid h2 _ _ _ hw.2.2 hne
  | atEnd _ hx => exact hend _ hx
  | caches _ hx => cases hx

end
end Verif
