import Verif.Proofs.WellFormed
/-
The code object `to_code` writes is well formed: instructions and operands.
-/
namespace Verif
open Spec
section
variable {κ : Type} [DecidableEq κ]
variable {P : Platform} {key : Arg → κ} {b : Bytecode} {c : Concrete} {T : Tabs} {M : List Cell} {co : Code} {g : CInstr → Loc}

theorem fetchedOf_mem (is : List CInstr) : ∀ u, ∀ f ∈ fetchedOf u is, ∃ i ∈ is, i.opcode = f.opcode ∧ i.opcode ≠ 0 ∧ f.arg = i.arg.getD 0 := by
  induction is with
  | nil => intro u f hf; simp [fetchedOf] at hf
  | cons i is ih =>
    intro u f hf
    unfold fetchedOf at hf
    split at hf
    · obtain ⟨j, hj, h⟩ := ih _ f hf
      exact ⟨j, by simp [hj], h⟩
    · rename_i h0
      rcases List.mem_cons.1 hf with rfl | hf
      · exact ⟨i, by simp, rfl, h0, rfl⟩
      · obtain ⟨j, hj, h⟩ := ih _ f hf
        exact ⟨j, by simp [hj], h⟩

theorem Final.cache_zero (h : Final P key b c T M) (h11 : P.py311 = true) : ∀ ci ∈ code P M, ci.opcode = 0 → ci.arg = some 0 := by
  intro ci hci h0
  have hn := (cache_iff h.wf h11 (h.instrs_valid ci hci).1).2 h0
  simp only [code, List.mem_flatMap] at hci
  obtain ⟨d, hd, hci⟩ := hci
  cases hi : d.e with
  | instr i =>
    obtain ⟨hv, hnc, _⟩ := h.mem hd hi
    rcases h.shape hd hi with ⟨a, _, hc⟩ | ⟨n1, i1, n2, i2, _, hs, hc⟩
    · rw [hc, List.mem_cons] at hci
      rcases hci with rfl | hci
      · exact absurd hn hnc
      · obtain ⟨_, rfl⟩ := List.mem_replicate.1 hci; rfl
    · obtain ⟨e1, e2⟩ := split_names hs
      rw [hc, List.mem_cons, List.mem_cons] at hci
      rcases hci with rfl | rfl | hci
      · exact absurd hn e1
      · exact absurd hn e2
      · obtain ⟨_, rfl⟩ := List.mem_replicate.1 hci; rfl
  | _ => simp [Cell.code, hi] at hci

/-- Each instruction fetched is written for an instruction of the Bytecode; a comparison, an intrinsic or a two-variable
instruction is written for itself. -/
theorem Final.fetched_instr (h : Final P key b c T M) (h11 : P.py311 = true) (hok : ∀ i, .instr i ∈ b.elems → OperandOK P c.varnames i) {f : Fetched}
    (hf : f ∈ fetchedOf 0 (code P M)) (hl : P.haslocal f.opcode = false ∨ P.dual f.opcode = true) :
    ∃ (i : Instr) (dest : Option Nat) (ci : CInstr), .instr i ∈ b.elems ∧ i.opcode = f.opcode ∧ ci.opcode = f.opcode ∧ ci.name = i.name ∧ f.arg = ci.arg.getD 0 ∧
      ValidCInstr P ci ∧ i.name ≠ "CACHE" ∧ expandC P key c dest ci = expandB P key (fun l => labelPos P l 0 b.elems) i := by
  obtain ⟨ci, hci, e1, e2, e3⟩ := fetchedOf_mem _ _ f hf
  have hvc := (h.instrs_valid ci hci).1
  have hnc : ci.name ≠ "CACHE" := fun hx => e2 ((cache_iff h.wf h11 hvc).1 hx)
  have hci' := hci
  simp only [code, List.mem_flatMap] at hci
  obtain ⟨d, hd, hci⟩ := hci
  obtain ⟨M1, M2, hM⟩ := List.append_of_mem hd
  cases hi : d.e with
  | instr i =>
    have hmem : .instr i ∈ b.elems := by rw [← h.lay.elems, hM]; simp [hi]
    obtain ⟨hv, hn, _⟩ := h.mem hd hi
    have hops := h.operands hM hi (hok i hmem)
    rcases h.shape hd hi with ⟨a, _, hc⟩ | ⟨n1, i1, n2, i2, _, hs, hc⟩
    · rw [hc, List.mem_cons] at hci
      rcases hci with rfl | hci
      · rw [hc, opsI_single, List.map_map] at hops
        refine ⟨i, ((mkI P i.name a.toOpt d.loc).getJumpTarget P (pos P (code P M) (code P M1).length)).bind (fun t => opAt P t 0 0 c.elems), _, hmem, ?_, e1,
          rfl, e3, hvc, hn, ?_⟩
        · rw [← e1, mkI_opcode hv.name_op]
        · rw [← hops]
          conv_lhs => rw [← List.map_id (expandC P key c _ _)]
          rfl
      · obtain ⟨_, rfl⟩ := List.mem_replicate.1 hci
        exact absurd rfl hnc
    · exfalso
      obtain ⟨o1, p1, l1, q1⟩ := h.wf.dual_single _ _ _ hs n1 (.inl rfl)
      obtain ⟨o2, p2, l2, q2⟩ := h.wf.dual_single _ _ _ hs n2 (.inr rfl)
      rw [hc, List.mem_cons, List.mem_cons] at hci
      rcases hci with rfl | rfl | hci
      · rw [mkI_opcode p1] at e1
        rw [← e1, l1, q1] at hl; simp at hl
      · rw [mkI_opcode p2] at e1
        rw [← e1, l2, q2] at hl; simp at hl
      · obtain ⟨_, rfl⟩ := List.mem_replicate.1 hci
        exact absurd rfl hnc
  | _ => simp [Cell.code, hi] at hci

/-- Each instruction of the Bytecode gives an operation with its location. -/
theorem FLay.op_loc {A : Attrs} (hP : P.WF) (tgt : Nat → Option Nat) {loc : Loc} {es : List BElem} {M : List Cell} (h : FLay P key A T loc es M) (tr : Option TryB) :
    ∀ d ∈ M, ∀ i, d.e = .instr i → i.name ≠ "CACHE" → ∃ o ∈ opsB P key tgt loc tr es, o.loc = d.loc := by
  induction es generalizing loc M tr with
  | nil => cases M with
    | nil => simp
    | cons d M => simp [FLay] at h
  | cons e es ih =>
    cases M with
    | nil => simp [FLay] at h
    | cons d M =>
      simp only [FLay] at h
      obtain ⟨h1, h2, _, h4⟩ := h
      intro x hx i hi hn
      rcases List.mem_cons.1 hx with rfl | hx
      · rw [hi] at h1
        subst h1
        have hlen : 0 < (expandB P key tgt i).length := by
          unfold expandB
          rw [if_neg hn]
          repeat' split
          all_goals simp
        obtain ⟨p, hp⟩ := List.exists_mem_of_length_pos hlen
        refine ⟨⟨p.1, p.2, i.loc.getD loc, tr.bind (handlerB tgt)⟩, ?_, ?_⟩
        · simp only [opsB, List.mem_append, List.mem_map]
          exact .inl ⟨p, hp, rfl⟩
        · rw [h2]; rfl
      · cases e with
        | instr j =>
          obtain ⟨o, ho, hl⟩ := ih h4 tr x hx i hi hn
          exact ⟨o, by simp only [opsB, List.mem_append]; exact .inr ho, hl⟩
        | label j => exact ih h4 tr x hx i hi hn
        | setLineno j => exact ih h4 tr x hx i hi hn
        | tryBegin t => exact ih h4 (some t) x hx i hi hn
        | tryEnd t => exact ih h4 none x hx i hi hn

/-! ### Targets -/

theorem opAtUnit_total (P : Platform) (t : Int) (len : Nat) (fs : List Fetched) : ∀ n k, opAtUnit P t len n fs = some k →
    (∃ f ∈ fs, t = f.first) ∨ k = n + (fs.map (fun f => opCount P (nameOf P f.opcode) f.opcode)).sum := by
  induction fs with
  | nil => intro n k h; unfold opAtUnit at h; split at h <;> simp_all
  | cons f fs ih =>
    intro n k h
    unfold opAtUnit at h
    split at h
    · rename_i e; exact .inl ⟨f, by simp, e⟩
    · rcases ih _ _ h with ⟨g, hg, e⟩ | e
      · exact .inl ⟨g, by simp [hg], e⟩
      · right; rw [e]; simp; omega

theorem programCode_length : (programCode P key co).length = ((fetched P co).map (fun f => opCount P (nameOf P f.opcode) f.opcode)).sum := by
  unfold programCode fetched
  simp only
  rw [List.length_flatMap]
  congr 1
  refine List.map_congr_left ?_
  intro f _
  rw [List.length_map, expand_length_C]

/-- An operation of a fetched instruction. -/
theorem programCode_fetched {f : Fetched} (hf : f ∈ fetched P co) (hn : nameOf P f.opcode ≠ "CACHE") :
    ∃ p, p ∈ expandC P key (tablesOf co) ((jumpUnit P f).bind (fun t => opAtUnit P t (co.code.length / 2) 0 (fetched P co)))
      ⟨nameOf P f.opcode, f.opcode, if P.hasArg f.opcode then some f.arg else none, none, none, 2⟩ ∧
      (⟨p.1, p.2, locOfUnit co f.unit, handlerOfUnit P co (fetched P co) f.unit⟩ : Op κ) ∈ programCode P key co := by
  have hlen : 0 < (expandC P key (tablesOf co) ((jumpUnit P f).bind (fun t => opAtUnit P t (co.code.length / 2) 0 (fetched P co)))
      ⟨nameOf P f.opcode, f.opcode, if P.hasArg f.opcode then some f.arg else none, none, none, 2⟩).length := by
    rw [expand_length_C]
    unfold opCount
    simp only [if_neg hn]
    split <;> omega
  obtain ⟨p, hp⟩ := List.exists_mem_of_length_pos hlen
  exact ⟨p, hp, List.mem_flatMap.2 ⟨f, hf, List.mem_map.2 ⟨p, hp, rfl⟩⟩⟩

end
end Verif
