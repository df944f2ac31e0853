import Verif.Proofs.WellFormedC
import Verif.Spec.Rewritable
import Verif.Proofs.AssembleD
/-
The code object `to_code` writes can be written again.
-/
namespace Verif
open Spec
section
variable {κ : Type} [DecidableEq κ]
variable {P : Platform} {key : Arg → κ} {b : Bytecode} {c : Concrete} {T : Tabs} {M : List Cell} {co : Code}

theorem cellvars_kept (h11 : P.py311 = true) {vs cs : List String} {n : String} (h : n ∈ cs) : n ∈ codeCellvars P vs cs := by
  unfold codeCellvars
  rw [if_pos h11]
  by_cases hv : n ∈ vs
  · simp [h, hv]
  · simp [h, hv]

theorem posOf_single {l : Loc} (h : (posOf l).col = none) : (posOf l).endLine = (posOf l).line := by
  unfold posOf at *
  repeat' split at h
  all_goals simp_all

theorem Final.encoded (h : Final P key b c T M) {i : Instr} (hi : .instr i ∈ b.elems) : ∃ enc, encodeOperand P key b.attrs T i = .ok (T, enc) := by
  rw [← h.lay.elems] at hi
  obtain ⟨d, hd, he⟩ := List.mem_map.1 hi
  obtain ⟨_, _, enc, henc, _⟩ := h.mem hd he
  exact ⟨enc, henc⟩

theorem local_index {vs cs fs : List String} {k : Nat} {n : String} (h : (frameSlots vs cs fs)[k]? = some (.named n)) (hn : n ∈ vs) : k < vs.length := by
  unfold frameSlots at h
  by_contra hk
  rw [List.map_append, List.append_assoc, List.getElem?_append_right (by simpa using hk)] at h
  have := List.mem_of_getElem? h
  simp at this
  exact this.2 hn

theorem Final.rewritable (h : Final P key b c T M) (h11 : P.py311 = true) {n : Int} (he : c.emit P n = .ok co)
    (hok : ∀ i, .instr i ∈ b.elems → OperandOK P c.varnames i)
    (hsize : 8 * co.code.length + co.varnames.length + co.cellvars.length + co.freevars.length ≤ 2147483647) : Rewritable P co := by
  have hP := h.wf
  have hg : ∀ i ∈ code P M, i.loc = some ((fun i : CInstr => i.loc.getD (Loc.line none)) i) := by
    intro i hi
    obtain ⟨l, hl⟩ := (h.plain i hi).2.1
    simp [hl]
  have E := emitted P hP h11 c (code P M) _ h.elems (h.layout h11) h.readable hg n co he
  refine ⟨?_, ?_, hsize, ?_⟩
  · intro f hf hc x hx
    rw [E.fetch_] at hf
    obtain ⟨k1, k2, k3, k4, k5⟩ := (kinds_excl hP f.opcode).free hc
    obtain ⟨i, dest, ci, q1, q2, q3, q4, q5, q6, q7, q8⟩ := h.fetched_instr h11 hok hf (.inl k2)
    unfold expandC expandB at q8
    rw [if_neg q7, if_neg (by rw [q4]; exact q7), q3, q2, not_dual hP k2] at q8
    simp only [List.cons.injEq, and_true, Prod.mk.injEq] at q8
    have := q8.2
    obtain ⟨a, ha⟩ := Option.isSome_iff_exists.1 (q6.arg_required (hP.operand_arg _ _ q6.name_op q6.base (by rw [q3]; simp [hc])))
    rw [ha] at q5
    simp only [Option.getD_some] at q5
    have hds : derefSlots P (tablesOf co) = derefSlots P c := by
      unfold derefSlots
      show (if P.py311 then frameSlots co.varnames co.cellvars co.freevars else _) = _
      rw [E.slots_, if_pos h11, if_pos h11]
    rw [hds, q5] at hx
    obtain ⟨enc, henc⟩ := h.encoded q1
    have hA := (h.valid i q1).arg_ok.free (by rw [q2]; exact hc)
    unfold operandC operandB at this
    simp only [q3, k1, k2, k3, k4, k5, hc, ha, Bool.or_self, Bool.false_eq_true, if_false, if_true] at this
    unfold slotAt at this
    rw [hx] at this
    rw [E.cellvars_, h.attrs]
    apply cellvars_kept h11
    rcases hA with ⟨n, hn⟩ | ⟨n, hn⟩
    · rw [hn] at this
      simp [slotOf] at this
      subst this
      unfold encodeOperand at henc
      simp only [hn, q2, k1, k2, k3, k4, k5, hc, Bool.false_eq_true, if_false, if_true] at henc
      obtain ⟨k, hk, _⟩ := except_bind_ok henc
      exact pyIndexOf_mem hk
    · rw [hn] at this
      simp [slotOf] at this
  · intro f hf hd
    rw [E.fetch_] at hf
    obtain ⟨i, dest, ci, q1, q2, q3, q4, q5, q6, q7, q8⟩ := h.fetched_instr h11 hok hf (.inr hd)
    obtain ⟨x, y, hxy, hx, hy⟩ := (h.valid i q1).arg_ok.dual (by rw [q2]; exact hd)
    obtain ⟨a, ha⟩ := Option.isSome_iff_exists.1 (q6.arg_required (hP.operand_arg _ _ q6.name_op q6.base (by rw [q3]; simp [hP.dual_local _ hd])))
    have hfa : f.arg = a := by rw [q5, ha]; rfl
    obtain ⟨⟨n1, n2⟩, hds⟩ := Option.isSome_iff_exists.1 (show (P.dualSingles f.opcode).isSome = true from hd)
    unfold expandC expandB at q8
    rw [if_neg q7, if_neg (by rw [q4]; exact q7), q3, q2, hds, ha, hxy] at q8
    simp only [List.cons.injEq, and_true, Prod.mk.injEq, true_and] at q8
    obtain ⟨enc, henc⟩ := h.encoded q1
    obtain ⟨m1, m2, hm, hm1, hm2⟩ : ∃ m1 m2, (Arg.tuple [x, y] = .tuple [.str m1, .str m2]) ∧ m1 ∈ c.varnames ∧ m2 ∈ c.varnames := by
      rw [h.varnames]
      have hl := hP.dual_local _ hd
      have hcst : P.hasconst f.opcode = false := ((kinds_excl hP f.opcode).local_ hl).2.2.2.1
      unfold encodeOperand at henc
      rw [hxy] at henc
      simp only [q2, hcst, hl, hds, Bool.false_eq_true, if_false, if_true] at henc
      split at henc
      · rename_i m1 m2 hm
        refine ⟨m1, m2, hm, ?_⟩
        have hT : T.varnames = (addTo (addTo T.varnames m1).1 m2).1 := by
          split at henc <;> (simp only [Except.ok.injEq, Prod.mk.injEq] at henc; exact (congrArg Tabs.varnames henc.1).symm)
        constructor
        · rw [hT]; exact (addTo_prefix _ m2).subset (addTo_mem _ _)
        · rw [hT]; exact addTo_mem _ _
      · simp at henc
    simp only [Arg.tuple.injEq, List.cons.injEq, and_true] at hm
    obtain ⟨rfl, rfl⟩ := hm
    have hidx : ∀ (k : Nat) (m : String), m ∈ c.varnames → (slotAt (localSlots P c) k : Operand κ) = slotOf (.str m) → k < co.varnames.length := by
      intro k m hm e
      unfold slotAt at e
      simp only [slotOf] at e
      split at e
      · rename_i s hs
        cases e
        rw [E.varnames_]
        unfold localSlots at hs
        split at hs
        · exact local_index hs hm
        · have := (List.getElem?_eq_some_iff.1 hs).1
          simpa using this
      · cases e
    rw [hfa]
    exact ⟨hidx _ _ hm1 q8.1, hidx _ _ hm2 q8.2⟩
  · intro p hp hcol
    rw [E.locs_] at hp
    obtain ⟨ci, hci, hp⟩ := List.mem_flatMap.1 hp
    rw [(List.mem_replicate.1 hp).2] at hcol ⊢
    exact posOf_single hcol

end
end Verif
