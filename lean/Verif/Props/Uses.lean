import Verif.Proofs.Uses
import Verif.Proofs.FromCodeRules
import Verif.Props.RoundTripSize
/-
C17: exactly what the tables of the code object are; C71: the tables after a round trip.
-/
namespace Verif
open Spec
section
variable {κ : Type} [DecidableEq κ] {P : Platform} {key : Arg → κ} {eff : Instr → Bool → Py (Int × Int)} {b : Bytecode} {c : Concrete} {co co' : Code}
  {passes : Nat} {stacksize : Option Int} {depths : Bool}

/-- **C17 (exact).** The constants of the ConcreteBytecode are the docstring, if set, and the constants the instructions load, each (up to `const_key`)
once, in the order of first use; the names are the names the instructions use, each once, in the order of first use; the variables are the
arguments followed by the other local variables used, each once, in the order of first use, those of the two-variable opcodes first on 3.13. -/
theorem C17_exact (hP : P.WF) (hv : ∀ i, .instr i ∈ b.elems → ValidInstr P i) (h : toConcrete P key passes b = .ok c) :
    c.consts = firsts key (b.attrs.docstring.toList ++ usesOf (constUse P) b.elems) ∧ c.names = firsts id (usesOf (nameUse P) b.elems) ∧
    c.varnames = b.argnames ++ (firsts id ((if P.py313 then usesOf (dualUse P) b.elems else []) ++ usesOf (localUse P) b.elems)).filter
      (fun n => decide (n ∉ b.argnames)) := by
  obtain ⟨vs, loc, st, hvs, hst, e1, e2, e3⟩ := toConcrete_conv h
  have ht := conv_uses hP _ hv _ _ _ hst
  have hp := prepass_uses hP hv hvs
  rw [e1, e2, e3, ht]
  refine ⟨?_, ?_, ?_⟩
  · rw [firsts_append]
    simp only [Conv.init]
    congr 1
    cases b.attrs.docstring <;> rfl
  · show addAll id [] _ = _
    rw [addAll_firsts]; simp
  · show addAll id vs _ = _
    rw [hp, ← addAll_append, addAll_firsts]; simp

/-- The tables of the code object. -/
theorem emit_tables {n : Int} (he : c.emit P n = .ok co) : co.consts = c.consts ∧ co.names = c.names ∧ co.varnames = c.varnames := by
  unfold Concrete.emit at he
  simp only at he
  obtain ⟨table, _, he⟩ := except_bind_ok he
  obtain ⟨exc, _, he⟩ := except_bind_ok he
  simp only [pure, Except.pure, Except.ok.injEq] at he
  subst he; exact ⟨rfl, rfl, rfl⟩

/-- The uses can be read in the code with its jumps resolved. -/
theorem uses_code {α : Type} (g : Nat → Arg → List α) (hv : ∀ i, .instr i ∈ b.elems → ValidInstr P i)
    (hg : ∀ o a, ArgOK P o a → (∃ l, a = .label l) ∨ (∃ x, a = .block x) → g o a = []) :
    usesOf (fun i => g i.opcode i.arg) b.elems = (codeB b).flatMap (fun | .op _ o (.value a) _ => g o a | _ => []) := by
  unfold codeB resolved usesOf
  generalize (fun l => labelAt l b.elems) = lab
  have : ∀ es : List BElem, (∀ i, .instr i ∈ es → ValidInstr P i) →
      es.flatMap (fun | .instr i => g i.opcode i.arg | _ => []) = (resolved lab (fun _ => none) es).flatMap (fun | .op _ o (.value a) _ => g o a | _ => []) := by
    intro es
    induction es with
    | nil => intro _; rfl
    | cons e es ih =>
      intro hv
      rw [List.flatMap_cons, ih (fun i hi => hv i (by simp [hi]))]
      cases e with
      | instr i =>
        have hi := (hv i (by simp)).arg_ok
        have hx : resolved lab (fun _ => none) (.instr i :: es) = .op i.name i.opcode (argRef lab (fun _ => none) i.arg) i.loc :: resolved lab (fun _ => none) es := rfl
        rw [hx, List.flatMap_cons]
        congr 1
        simp only
        cases ha : i.arg with
        | label l =>
          rw [ha] at hi
          rw [hg _ _ hi (.inl ⟨l, rfl⟩)]
          simp only [argRef]
          cases lab l <;> rfl
        | block x =>
          rw [ha] at hi
          rw [hg _ _ hi (.inr ⟨x, rfl⟩)]
          rfl
        | _ => rfl
      | setLineno n => rfl
      | label l => rfl
      | tryBegin t => rfl
      | tryEnd t => rfl
  exact this _ hv

theorem uses_same {b' : Bytecode} (hv : ∀ i, .instr i ∈ b.elems → ValidInstr P i) (hv' : ∀ i, .instr i ∈ b'.elems → ValidInstr P i) (h : codeB b' = codeB b) :
    usesOf (constUse P) b'.elems = usesOf (constUse P) b.elems ∧ usesOf (nameUse P) b'.elems = usesOf (nameUse P) b.elems ∧
    usesOf (localUse P) b'.elems = usesOf (localUse P) b.elems ∧ usesOf (dualUse P) b'.elems = usesOf (dualUse P) b.elems := by
  have key : ∀ {α : Type} (g : Nat → Arg → List α), (∀ o a, ArgOK P o a → (∃ l, a = .label l) ∨ (∃ x, a = .block x) → g o a = []) →
      usesOf (fun i => g i.opcode i.arg) b'.elems = usesOf (fun i => g i.opcode i.arg) b.elems := by
    intro α g hg
    rw [uses_code g hv hg, uses_code g hv' hg, h]
  refine ⟨key (fun o a => constUse P ⟨"", o, a, none⟩) ?_, key (fun o a => nameUse P ⟨"", o, a, none⟩) ?_, key (fun o a => localUse P ⟨"", o, a, none⟩) ?_,
    key (fun o a => dualUse P ⟨"", o, a, none⟩) ?_⟩
  · intro o a hok ha
    unfold constUse
    split
    · rename_i hc
      rcases ha with ⟨l, rfl⟩ | ⟨x, rfl⟩
      · exact absurd rfl ((hok.const hc).1 l)
      · exact absurd rfl ((hok.const hc).2 x)
    · rfl
  · rintro o a hok (⟨l, rfl⟩ | ⟨x, rfl⟩) <;> (unfold nameUse; split <;> rfl)
  · rintro o a hok (⟨l, rfl⟩ | ⟨x, rfl⟩) <;> (unfold localUse; split <;> rfl)
  · rintro o a hok (⟨l, rfl⟩ | ⟨x, rfl⟩) <;> (unfold dualUse localUse; split <;> (try split) <;> rfl)

/-- **C17 (exact, code objects).** The same for `to_code`, whatever its options. -/
theorem C17_to_code_exact (hP : P.WF) (hcache : ∀ e ∈ b.elems, e.isCache = false) (hv : ∀ i, .instr i ∈ b.elems → ValidInstr P i) (hl : LabelsOnly b)
    (hw : WellTried none [] false b.elems) (h : b.toCode P key eff passes stacksize depths = .ok co) :
    co.consts = firsts key (b.attrs.docstring.toList ++ usesOf (constUse P) b.elems) ∧ co.names = firsts id (usesOf (nameUse P) b.elems) ∧
    co.varnames = b.argnames ++ (firsts id ((if P.py313 then usesOf (dualUse P) b.elems else []) ++ usesOf (localUse P) b.elems)).filter
      (fun n => decide (n ∉ b.argnames)) := by
  obtain ⟨b', c, n, hc, he, e1, e2, e3, _, e5, _⟩ := toCode_source hcache hv hl hw h
  obtain ⟨t1, t2, t3⟩ := emit_tables he
  obtain ⟨u1, u2, u3, u4⟩ := uses_same hv e5 e1
  have := C17_exact hP e5 hc
  rwa [u1, u2, u3, u4, e2, e3, ← t1, ← t2, ← t3] at this

/-! ### Round trip -/

theorem locals_str {n : String} (h : Atom.str n ∈ localsLookup P c) : n ∈ c.varnames := by
  have hc : Atom.str n ∈ cellsLookup P c → P.py313 = true → n ∈ c.varnames := by
    intro h h13
    have h11 : P.py311 = true := by simp [Platform.py311, Platform.py313] at *; omega
    unfold cellsLookup at h
    rw [if_pos h11] at h
    simp at h; exact h
  unfold localsLookup at h
  split at h
  · rename_i h13
    simp only [List.mem_append] at h
    rcases h with h | h
    · exact hc h h13
    · simp at h
  · simpa using h

/-- What the instructions read from a code object use is in its tables. -/
theorem decode_uses (hP : P.WF) {op a : Nat} {arg : Arg} (h : decodeArg P c op a = .ok arg) (i : Instr) (ho : i.opcode = op) (ha : i.arg = arg) :
    (∀ v ∈ constUse P i, v ∈ c.consts) ∧ (∀ n ∈ nameUse P i, n ∈ c.names) ∧ (P.dual op = false → ∀ n ∈ localUse P i, n ∈ c.varnames) := by
  have hK := kinds_excl hP op
  subst ho; subst ha
  unfold constUse nameUse localUse
  refine ⟨?_, ?_, ?_⟩
  · intro v hv
    split at hv
    · rename_i hc
      simp only [List.mem_singleton] at hv
      subst hv
      unfold decodeArg at h
      rw [if_pos hc] at h
      exact List.mem_of_getElem? (argIdx_ok h)
    · cases hv
  · intro n hn
    split at hn
    · rename_i hc
      have := hK.name hc
      unfold decodeArg at h
      rw [if_neg (by grind), if_neg (by grind), if_pos hc] at h
      split at h
      · obtain ⟨x, hx, h⟩ := except_bind_ok h
        simp only [pure, Except.pure, Except.ok.injEq] at h
        rw [← h] at hn
        simp only [List.mem_singleton] at hn
        subst hn
        exact List.mem_of_getElem? (argIdx_ok hx)
      · split at h
        · obtain ⟨x, hx, h⟩ := except_bind_ok h
          simp only [pure, Except.pure, Except.ok.injEq] at h
          rw [← h] at hn
          simp only [List.mem_singleton] at hn
          subst hn
          exact List.mem_of_getElem? (argIdx_ok hx)
        · obtain ⟨x, hx, h⟩ := except_bind_ok h
          simp only [pure, Except.pure, Except.ok.injEq] at h
          rw [← h] at hn
          simp only [List.mem_singleton] at hn
          subst hn
          exact List.mem_of_getElem? (argIdx_ok hx)
    · cases hn
  · intro hd n hn
    split at hn
    · rename_i hc
      have := hK.local_ hc
      unfold decodeArg at h
      rw [if_neg (by grind), if_pos hc, if_neg (by simp [hd])] at h
      obtain ⟨x, hx, h⟩ := except_bind_ok h
      simp only [pure, Except.pure, Except.ok.injEq] at h
      rw [← h] at hn
      have hm := List.mem_of_getElem? (argIdx_ok hx)
      cases x <;> simp only [Atom.toArg, List.mem_singleton, List.not_mem_nil] at hn
      subst hn
      exact locals_str hm
    · cases hn

theorem docstring_mem {consts : List Arg} : ∀ v ∈ (setDocstring (setDocstring none consts) consts).toList, v ∈ consts := by
  intro v hv
  unfold setDocstring at hv
  cases consts with
  | nil => simp at hv
  | cons x r =>
    cases x <;> simp_all
    rename_i k
    cases k <;> simp_all

/-- What `from_code` reads uses nothing that is not in the tables of the code object. -/
theorem fromCode_uses (hP : P.WF) (h11 : P.py311 = true) (hok : CodeOK P co) (hd : ∀ f ∈ fetched P co, P.dual f.opcode = false) {conserve : Bool}
    (h : Bytecode.fromCode P co true conserve = .ok b) :
    (∀ v ∈ b.attrs.docstring.toList ++ usesOf (constUse P) b.elems, v ∈ co.consts) ∧ (∀ n ∈ usesOf (nameUse P) b.elems, n ∈ co.names) ∧
    (∀ n ∈ usesOf (localUse P) b.elems, n ∈ co.varnames) ∧ usesOf (dualUse P) b.elems = [] ∧ b.argnames <+: co.varnames ∧
    b.attrs.cellvars = co.cellvars ∧ b.attrs.freevars = co.freevars := by
  obtain ⟨js, g1, _, hR, _⟩ := readFrom_of (key := (id : Arg → Arg)) hP h11 hok
  have ht : toBytecode P true conserve (readOf co js) = .ok b := by
    unfold Bytecode.fromCode at h; rw [g1] at h; exact h
  obtain ⟨hval, _, _⟩ := C51_usable hP h11 hok conserve h
  have hnd := noDual_of hP h11 hok hd h
  have hu : ∀ i, .instr i ∈ b.elems → (∀ v ∈ constUse P i, v ∈ co.consts) ∧ (∀ n ∈ nameUse P i, n ∈ co.names) ∧ (∀ n ∈ localUse P i, n ∈ co.varnames) := by
    intro i hi
    obtain ⟨f, hf, h1, j, hj, h2, h3, off, arg, h4, h5⟩ := hR.instr hP h11 ht hi
    have hno : (∃ l, i.arg = .label l) → constUse P i = [] ∧ nameUse P i = [] ∧ localUse P i = [] := by
      rintro ⟨l, hl⟩
      have hjmp := (kinds_excl hP i.opcode).jump (label_hasJump (hval i hi).1 hl)
      refine ⟨?_, ?_, ?_⟩
      · unfold constUse; rw [if_neg (by grind)]
      · unfold nameUse; rw [if_neg (by grind)]
      · unfold localUse; rw [if_neg (by grind)]
    cases hx : j.getJumpTarget P off with
    | some t =>
      rw [hx] at h5
      obtain ⟨e1, e2, e3⟩ := hno ⟨_, h5⟩
      rw [e1, e2, e3]
      simp
    | none =>
      rw [hx] at h5
      simp only at h5
      unfold decodeOperand at h4
      cases ha : j.arg with
      | some a =>
        rw [ha] at h4
        obtain ⟨d1, d2, d3⟩ := decode_uses hP h4 i h2.symm h5
        refine ⟨d1, d2, d3 ?_⟩
        rw [h2]; exact hnd i hi
      | none =>
        rw [ha] at h4
        simp only at h4
        split at h4
        · cases h4
        · rename_i hk
          simp only [h2, Bool.or_eq_true, not_or] at hk
          unfold constUse nameUse localUse
          rw [if_neg (by grind), if_neg (by grind), if_neg (by grind)]
          simp
  have hmem : ∀ {α : Type} (f : Instr → List α) (x : α), x ∈ usesOf f b.elems → ∃ i, .instr i ∈ b.elems ∧ x ∈ f i := by
    intro α f x hx
    obtain ⟨e, he, hx⟩ := List.mem_flatMap.1 hx
    cases e with
    | instr i => exact ⟨i, he, hx⟩
    | _ => cases hx
  obtain ⟨es', d, _, _, _, _, h5⟩ := toBytecode_ok ht
  refine ⟨?_, ?_, ?_, ?_, ?_, ?_, ?_⟩
  · intro v hv
    rcases List.mem_append.1 hv with hv | hv
    · rw [h5] at hv
      exact docstring_mem v hv
    · obtain ⟨i, hi, hx⟩ := hmem _ _ hv
      exact (hu i hi).1 v hx
  · intro n hn
    obtain ⟨i, hi, hx⟩ := hmem _ _ hn
    exact (hu i hi).2.1 n hx
  · intro n hn
    obtain ⟨i, hi, hx⟩ := hmem _ _ hn
    exact (hu i hi).2.2 n hx
  · rw [List.eq_nil_iff_forall_not_mem]
    intro n hn
    obtain ⟨i, hi, hx⟩ := hmem _ _ hn
    unfold dualUse at hx
    rw [if_neg (by rw [hnd i hi]; simp)] at hx
    cases hx
  · rw [h5]; exact List.take_prefix _ _
  · rw [h5]; rfl
  · rw [h5]; rfl

omit [DecidableEq κ] in
theorem length_le_of_key {α : Type} (key : α → κ) {l m : List α} (hn : (l.map key).Nodup) (h : ∀ x ∈ l, x ∈ m) : l.length ≤ m.length := by
  have h1 : (l.map key) ⊆ (m.map key) := by
    intro x hx
    obtain ⟨y, hy, rfl⟩ := List.mem_map.1 hx
    exact List.mem_map_of_mem (h y hy)
  have := (List.subperm_of_subset hn h1).length_le
  simpa using this

/-- **C71 (tables).** Reading a code object of 3.11+ and writing it adds nothing to its tables: each constant, name and variable of the new code
object is one of the original, and the tables are not longer. -/
theorem C71_tables (hP : P.WF) (h11 : P.py311 = true) (hok : CodeOK P co) (hd : ∀ f ∈ fetched P co, P.dual f.opcode = false) {conserve : Bool}
    (hb : Bytecode.fromCode P co true conserve = .ok b) (h : b.toCode P key eff passes stacksize depths = .ok co') :
    (∀ v ∈ co'.consts, v ∈ co.consts) ∧ co'.consts.length ≤ co.consts.length ∧ (∀ n ∈ co'.names, n ∈ co.names) ∧ co'.names.length ≤ co.names.length ∧
    (∀ n ∈ co'.varnames, n ∈ co.varnames) ∧ (co.varnames.Nodup → co'.varnames.length ≤ co.varnames.length) := by
  obtain ⟨hval, hlo, hwt⟩ := C51_usable hP h11 hok conserve hb
  have hcache : ∀ e ∈ b.elems, e.isCache = false := by
    intro e he
    cases e with
    | instr i => simpa [BElem.isCache] using (hval i he).2.2
    | _ => rfl
  obtain ⟨t1, t2, t3⟩ := C17_to_code_exact hP hcache (fun i hi => (hval i hi).1) hlo hwt h
  obtain ⟨u1, u2, u3, u4, u5, _⟩ := fromCode_uses hP h11 hok hd hb
  have s1 : ∀ v ∈ co'.consts, v ∈ co.consts := by
    intro v hv; rw [t1] at hv; exact u1 v (firsts_sub _ _ v hv)
  have s2 : ∀ v ∈ co'.names, v ∈ co.names := by
    intro v hv; rw [t2] at hv; exact u2 v (firsts_sub _ _ v hv)
  have s3 : ∀ v ∈ co'.varnames, v ∈ co.varnames := by
    intro v hv
    rw [t3] at hv
    rcases List.mem_append.1 hv with hv | hv
    · exact u5.subset hv
    · have := firsts_sub _ _ v (List.mem_filter.1 hv).1
      rw [u4] at this
      simp only [ite_self, List.nil_append] at this
      exact u3 v this
  refine ⟨s1, length_le_of_key key (by rw [t1]; exact firsts_nodup _ _) s1, s2, length_le_of_key id (by rw [t2]; exact firsts_nodup _ _) s2, s3, ?_⟩
  intro hn
  refine length_le_of_key id ?_ s3
  rw [t3, List.map_id, List.nodup_append]
  refine ⟨u5.sublist.nodup hn, ?_, ?_⟩
  · have := firsts_nodup (id : String → String) ((if P.py313 then usesOf (dualUse P) b.elems else []) ++ usesOf (localUse P) b.elems)
    rw [List.map_id] at this
    exact List.filter_sublist.nodup this
  · intro x hx y hy e
    subst e
    have := (List.mem_filter.1 hy).2
    simp [hx] at this
end
end Verif
