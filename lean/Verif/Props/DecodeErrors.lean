import Verif.Proofs.DecodeErrors
import Verif.Proofs.PrefixErrors
import Verif.Props.ToBytecode
/-
C79: the exceptions of `ConcreteBytecode.to_bytecode`.
-/
namespace Verif
open Spec

variable {P : Platform} {c : Concrete} {prune conserve : Bool}

theorem lined_instr {line : Nat} {es : List CElem} {l : Nat} {ci : CInstr} (h : (l, ci) ∈ lined line es) : .instr ci ∈ es := by
  induction es generalizing line with
  | nil => cases h
  | cons e es ih =>
    cases e with
    | setLineno n => exact List.mem_cons_of_mem _ (ih h)
    | instr i =>
      simp only [lined, List.mem_cons, Prod.mk.injEq] at h
      rcases h with ⟨_, rfl⟩ | h
      · simp
      · exact List.mem_cons_of_mem _ (ih h)

theorem instr_lined {es : List CElem} {ci : CInstr} (h : .instr ci ∈ es) (line : Nat) : ∃ l, (l, ci) ∈ lined line es := by
  induction es generalizing line with
  | nil => cases h
  | cons e es ih =>
    cases e with
    | setLineno n =>
      simp only [List.mem_cons, reduceCtorEq, false_or] at h
      exact ih h n
    | instr i =>
      simp only [List.mem_cons, CElem.instr.injEq] at h
      rcases h with rfl | h
      · exact ⟨_, by rw [lined]; exact List.mem_cons_self ..⟩
      · obtain ⟨l, hl⟩ := ih h ((i.loc.bind (·.lineno)).getD line)
        exact ⟨l, by rw [lined]; exact List.mem_cons_of_mem _ hl⟩

theorem placed_starts {off : Nat} {es : List CElem} {t : Nat} : t ∈ starts P off es ↔ ∃ ci, (t, ci) ∈ placed P off es := by
  induction es generalizing off with
  | nil => simp [starts, placed]
  | cons e es ih =>
    cases e with
    | setLineno n => exact ih
    | instr i =>
      simp only [starts, placed, List.mem_cons, ih, Prod.mk.injEq]
      constructor
      · rintro (rfl | ⟨ci, h⟩)
        · exact ⟨i, .inl ⟨rfl, rfl⟩⟩
        · exact ⟨ci, .inr h⟩
      · rintro ⟨ci, ⟨rfl, _⟩ | h⟩
        · exact .inl rfl
        · exact .inr ⟨ci, h⟩

theorem jumpTargets_placed {off : Nat} {es : List CElem} {t : Int} : t ∈ jumpTargets P off es ↔ ∃ o ci, (o, ci) ∈ placed P off es ∧ ci.getJumpTarget P o = some t := by
  induction es generalizing off with
  | nil => simp [jumpTargets, placed]
  | cons e es ih =>
    cases e with
    | setLineno n => exact ih
    | instr i =>
      simp only [jumpTargets, placed, List.mem_append, List.mem_cons, ih, Prod.mk.injEq, width_units]
      constructor
      · rintro (h | ⟨o, ci, h, h'⟩)
        · exact ⟨off, i, .inl ⟨rfl, rfl⟩, by simpa using h⟩
        · exact ⟨o, ci, .inr h, h'⟩
      · rintro ⟨o, ci, ⟨rfl, rfl⟩ | h, h'⟩
        · exact .inl (by simpa using h')
        · exact .inr ⟨o, ci, h, h'⟩

/-- `to_bytecode` after the folding of the EXTENDED_ARG prefixes. -/
theorem decode_says (hP : P.WF) {es : List CElem} (hes : removeExtendedArgs P 0 none c.elems = .ok es)
    (hv : ∀ ci, .instr ci ∈ es → ValidCInstr P ci ∧ ci.name ≠ "EXTENDED_ARG") :
    (∃ b, toBytecode P prune conserve c = .ok b ∧ ∀ e, ¬ Undecodable P c prune es e) ∨
      ∃ e, toBytecode P prune conserve c = .error e ∧ Undecodable P c prune es e := by
  unfold toBytecode
  rw [hes]
  simp only [bind, Except.bind]
  by_cases hn : (c.excTable.map (·.start)).Nodup
  · simp only [hn, decide_true, pyAssert, if_true]
    rcases loop_says (c := c) hP (prune := prune) (conserve := conserve) (targets := jumpTargets P 0 es ++ c.excTable.map (·.target)) hn es hv c.attrs.firstLineno 0 []
      with ⟨d, hd, hins, hlab, hjmp, htb⟩ | ⟨e, l, ci, hd, hmem, hbad⟩
    · rw [hd]
      simp only
      by_cases hj : ∀ t ∈ d.jumps, ∃ n ∈ d.labels, t = (n : Int)
      · have hj' : (d.jumps.all (fun t => decide (t ∈ d.labels.map (fun (n : Nat) => (n : Int))))) = true := by
          simp only [List.all_eq_true, decide_eq_true_eq, List.mem_map]
          intro t ht
          obtain ⟨n, h1, h2⟩ := hj t ht
          exact ⟨n, h1, h2.symm⟩
        simp only [hj', Bool.not_true, Bool.false_eq_true, if_false]
        by_cases hh : ∀ k ∈ d.tbs, ∃ n ∈ d.labels, (c.excTable[k]?.map (·.target)).getD (-1) = (n : Int)
        · have hh' : (d.tbs.all (fun k => decide ((c.excTable[k]?.map (·.target)).getD (-1) ∈ d.labels.map (fun (n : Nat) => (n : Int))))) = true := by
            simp only [List.all_eq_true, decide_eq_true_eq, List.mem_map]
            intro k hk
            obtain ⟨n, h1, h2⟩ := hh k hk
            exact ⟨n, h1, h2.symm⟩
          simp only [hh', Bool.not_true, Bool.false_eq_true, if_false]
          refine .inl ⟨_, rfl, ?_⟩
          intro e hu
          cases hu with
          | same h => exact h hn
          | arg hm h1 h2 h3 =>
            obtain ⟨l, hl⟩ := instr_lined hm c.attrs.firstLineno
            rw [lined_eq] at hl
            exact hins _ _ _ hl (.arg h1 h2 h3)
          | cache h0 hm h1 h2 =>
            obtain ⟨l, hl⟩ := instr_lined hm c.attrs.firstLineno
            rw [lined_eq] at hl
            exact hins _ _ _ hl (.cache h0 h1 h2)
          | line h0 hm h1 =>
            rw [lined_eq] at hm
            exact hins _ _ _ hm (.line h0 h1 rfl)
          | @jump off ci t hm ht h1 =>
            obtain ⟨n, h2, rfl⟩ := hj t ((hjmp t).2 ⟨off, ci, hm, ht⟩)
            exact h1 n ((hlab n).1 h2).1 rfl
          | @handler e hm h0 h1 =>
            obtain ⟨k, hk⟩ := List.getElem?_of_mem hm
            obtain ⟨n, h2, h3⟩ := hh k ((htb k).2 (.inr ⟨e, hk, h0⟩))
            rw [hk] at h3
            exact h1 n ((hlab n).1 h2).1 h3.symm
        · right
          have hh' : (d.tbs.all (fun k => decide ((c.excTable[k]?.map (·.target)).getD (-1) ∈ d.labels.map (fun (n : Nat) => (n : Int))))) = false := by
            rw [Bool.eq_false_iff]
            simp only [ne_eq, List.all_eq_true, decide_eq_true_eq, List.mem_map]
            intro h; apply hh
            intro k hk
            obtain ⟨n, h1, h2⟩ := h k hk
            exact ⟨n, h1, h2.symm⟩
          simp only [hh', Bool.not_false, if_true]
          refine ⟨.keyError, rfl, ?_⟩
          have : ∃ k ∈ d.tbs, ¬ ∃ n ∈ d.labels, (c.excTable[k]?.map (·.target)).getD (-1) = (n : Int) := by
            by_contra hc
            apply hh
            intro k hk
            by_contra hc'
            exact hc ⟨k, hk, hc'⟩
          obtain ⟨k, hk, hno⟩ := this
          rcases (htb k).1 hk with h | ⟨e, he, h⟩
          · cases h
          · refine .handler (List.mem_of_getElem? he) h ?_
            intro n hn' hx
            apply hno
            refine ⟨n, (hlab n).2 ⟨hn', ?_⟩, by rw [he]; exact hx.symm⟩
            rw [hx]
            exact List.mem_append_right _ (List.mem_map_of_mem (List.mem_of_getElem? he))
      · right
        have hj' : (d.jumps.all (fun t => decide (t ∈ d.labels.map (fun (n : Nat) => (n : Int))))) = false := by
          rw [Bool.eq_false_iff]
          simp only [ne_eq, List.all_eq_true, decide_eq_true_eq, List.mem_map]
          intro h; apply hj
          intro t ht
          obtain ⟨n, h1, h2⟩ := h t ht
          exact ⟨n, h1, h2.symm⟩
        simp only [hj', Bool.not_false, if_true]
        refine ⟨.keyError, rfl, ?_⟩
        have : ∃ t ∈ d.jumps, ¬ ∃ n ∈ d.labels, t = (n : Int) := by
          by_contra hc
          apply hj
          intro k hk
          by_contra hc'
          exact hc ⟨k, hk, hc'⟩
        obtain ⟨t, ht, hno⟩ := this
        obtain ⟨o, ci, h1, h2⟩ := (hjmp t).1 ht
        refine .jump h1 h2 ?_
        intro n hn' hx
        apply hno
        refine ⟨n, (hlab n).2 ⟨hn', ?_⟩, hx.symm⟩
        rw [hx]
        exact List.mem_append_left _ (jumpTargets_placed.2 ⟨o, ci, h1, h2⟩)
    · right
      rw [hd]
      refine ⟨e, rfl, ?_⟩
      rw [← lined_eq] at hmem
      have hm := lined_instr hmem
      cases hbad with
      | arg h1 h2 h3 => exact .arg hm h1 h2 h3
      | cache h0 h1 h2 => exact .cache h0 hm h1 h2
      | line h0 h1 h2 => subst h2; exact .line h0 hmem h1
  · right
    simp only [hn, decide_false, pyAssert, Bool.false_eq_true, if_false]
    exact ⟨.assertionError, rfl, .same hn⟩

/-! ### C79 -/

/-- **C79.** An exception of `to_bytecode` names the mistake: a mistake in the EXTENDED_ARG prefixes, or — once they are folded —
an argument that denotes nothing, a target where no instruction starts, two handlers that start at the same offset, … Every mistake
of `BadPrefix` and `Undecodable` gives an exception. So `to_bytecode` succeeds exactly on the ConcreteBytecode without mistake.
-/
theorem C79_says (hP : P.WF) (hv : ∀ ci, .instr ci ∈ c.elems → ValidCInstr P ci) {e : PyErr}
    (h : toBytecode P prune conserve c = .error e) :
    BadPrefix (instrsOf c.elems) e ∨ ∃ es, removeExtendedArgs P 0 none c.elems = .ok es ∧ Undecodable P c prune es e := by
  rcases removeExtendedArgs_says hP c.elems hv [] [] rfl 0 with ⟨es, h1, _, h3⟩ | ⟨e', h1, h2⟩
  · right
    have h1 : removeExtendedArgs P 0 none c.elems = .ok es := h1
    refine ⟨es, h1, ?_⟩
    rcases decode_says (prune := prune) (conserve := conserve) hP h1 (fun ci hci => ⟨removeExtendedArgs_valid P _ hv _ _ _ h1 ci hci, h3 ci hci⟩)
      with ⟨b, h4, _⟩ | ⟨e', h4, h5⟩
    · rw [h] at h4; cases h4
    · rw [h] at h4; cases h4; exact h5
  · left
    have h1 : removeExtendedArgs P 0 none c.elems = .error e' := h1
    unfold toBytecode at h
    rw [h1] at h
    cases h
    exact h2

/-- **C79.** It succeeds exactly when there is no mistake in the prefixes and none in the code they give. -/
theorem C79_iff (hP : P.WF) (hv : ∀ ci, .instr ci ∈ c.elems → ValidCInstr P ci) :
    (∃ b, toBytecode P prune conserve c = .ok b) ↔
      (∀ e, ¬ BadPrefix (instrsOf c.elems) e) ∧ ∃ es, removeExtendedArgs P 0 none c.elems = .ok es ∧ ∀ e, ¬ Undecodable P c prune es e := by
  constructor
  · rintro ⟨b, hb⟩
    rcases removeExtendedArgs_says hP c.elems hv [] [] rfl 0 with ⟨es, h1, h2, h3⟩ | ⟨e', h1, h2⟩
    · have h1 : removeExtendedArgs P 0 none c.elems = .ok es := h1
      refine ⟨h2, es, h1, ?_⟩
      rcases decode_says (prune := prune) (conserve := conserve) hP h1 (fun ci hci => ⟨removeExtendedArgs_valid P _ hv _ _ _ h1 ci hci, h3 ci hci⟩)
        with ⟨b, h4, h5⟩ | ⟨e', h4, h5⟩
      · exact h5
      · rw [hb] at h4; cases h4
    · have h1 : removeExtendedArgs P 0 none c.elems = .error e' := h1
      unfold toBytecode at hb
      rw [h1] at hb
      cases hb
  · rintro ⟨h1, es, h2, h3⟩
    cases hb : toBytecode P prune conserve c with
    | ok b => exact ⟨b, rfl⟩
    | error e =>
      rcases C79_says hP hv hb with h | ⟨es', h4, h5⟩
      · exact absurd h (h1 e)
      · rw [h2] at h4; cases h4; exact absurd h5 (h3 e)

/-- **C79.** The prefixes are foldable exactly when no mistake is in them. -/
theorem C79_prefixes (hP : P.WF) (hv : ∀ ci, .instr ci ∈ c.elems → ValidCInstr P ci) :
    (∃ es, removeExtendedArgs P 0 none c.elems = .ok es) ↔ ∀ e, ¬ BadPrefix (instrsOf c.elems) e := by
  rcases removeExtendedArgs_says hP c.elems hv [] [] rfl 0 with ⟨es, h1, h2, h3⟩ | ⟨e', h1, h2⟩
  · exact ⟨fun _ => h2, fun _ => ⟨es, h1⟩⟩
  · have h1 : removeExtendedArgs P 0 none c.elems = .error e' := h1
    refine ⟨fun ⟨es, h⟩ => ?_, fun h => absurd h2 (h e')⟩
    rw [h1] at h; cases h

/-- **C79.** Without EXTENDED_ARG prefixes — code read by `from_code`, or made by `to_concrete_bytecode` — it succeeds exactly when
nothing is wrong with the code, and an exception says what is. -/
theorem C79_plain (hP : P.WF) (hv : ∀ ci, .instr ci ∈ c.elems → ValidCInstr P ci) (hne : ∀ ci, .instr ci ∈ c.elems → ci.name ≠ "EXTENDED_ARG") :
    ((∃ b, toBytecode P prune conserve c = .ok b) ↔ ∀ e, ¬ Undecodable P c prune c.elems e) ∧
      ∀ e, toBytecode P prune conserve c = .error e → Undecodable P c prune c.elems e := by
  have hr : removeExtendedArgs P 0 none c.elems = .ok c.elems := by
    have : ∀ es : List CElem, (∀ ci, .instr ci ∈ es → ci.name ≠ "EXTENDED_ARG") → removeExtendedArgs P 0 none es = .ok es := by
      intro es
      induction es with
      | nil => intro _; rfl
      | cons e es ih =>
        intro h
        have ih := ih (fun ci hci => h ci (by simp [hci]))
        cases e with
        | setLineno n => rw [removeExtendedArgs, ih]; rfl
        | instr i =>
          rw [removeExtendedArgs.eq_def]
          simp only [h i (by simp), if_false, ih]; rfl
    exact this _ hne
  rcases decode_says (prune := prune) (conserve := conserve) hP hr (fun ci hci => ⟨hv ci hci, hne ci hci⟩) with ⟨b, h1, h2⟩ | ⟨e, h1, h2⟩
  · exact ⟨⟨fun _ => h2, fun _ => ⟨b, h1⟩⟩, fun e h => by rw [h] at h1; cases h1⟩
  · exact ⟨⟨fun ⟨b, h⟩ => (by rw [h] at h1; cases h1), fun h => absurd h2 (h e)⟩, fun e' h => (by rw [h] at h1; cases h1; exact h2)⟩

end Verif
