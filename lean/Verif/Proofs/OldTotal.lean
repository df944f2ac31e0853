import Verif.Proofs.OldRead
import Verif.Proofs.FromCodeTotal
/-
Reading a well-formed code object of 3.8 to 3.10 does not fail.
-/
namespace Verif
open Spec

section
variable {P : Platform}

theorem fetched_start_old (js : List CInstr) (hs : ∀ j ∈ js, j.size % 2 = 0) : ∀ u cur, scaleOf P * cur = 2 * u → ∀ f ∈ fetchedOf u js,
    ∃ s ∈ starts P cur (js.map .instr), scaleOf P * s = 2 * f.first := by
  induction js with
  | nil => intro u cur _ f hf; simp [fetchedOf] at hf
  | cons j js ih =>
    intro u cur hu f hf
    have hj := hs j (by simp)
    have hw : scaleOf P * (cur + width P j) = 2 * (u + j.size / 2) := by
      rw [Nat.mul_add, hu, scale_width hj]; omega
    have ih' := ih (fun i hi => hs i (by simp [hi])) _ _ hw
    simp only [List.map_cons, starts]
    unfold fetchedOf at hf
    split at hf
    · obtain ⟨s, h1, h2⟩ := ih' f hf
      exact ⟨s, List.mem_cons_of_mem _ h1, h2⟩
    · rcases List.mem_cons.1 hf with rfl | hf
      · exact ⟨cur, List.mem_cons_self, hu⟩
      · obtain ⟨s, h1, h2⟩ := ih' f hf
        exact ⟨s, List.mem_cons_of_mem _ h1, h2⟩

theorem fetched_jump_old (hP : P.WF) (h11 : P.py311 = false) (js : List CInstr) (hr : ∀ j ∈ js, Readable P j) : ∀ u cur, scaleOf P * cur = 2 * u →
    ∀ t, t ∈ jumpTargets P cur (js.map .instr) → ∃ f ∈ fetchedOf u js, jumpByte P f = some (scaleOf P * t) := by
  induction js with
  | nil => intro u cur _ t ht; simp [jumpTargets] at ht
  | cons j js ih =>
    intro u cur hu t ht
    have hj := hr j (by simp)
    have hv := hj.valid
    have hsz := size_of_units hj
    have h0 := old_opcode hP h11 hv
    have hw : scaleOf P * (cur + width P j) = 2 * (u + j.size / 2) := by
      rw [Nat.mul_add, hu, scale_width (by omega)]; omega
    simp only [List.map_cons, jumpTargets, List.mem_append, Option.mem_toList, Option.mem_def] at ht
    rw [← width_units] at ht
    rcases ht with ht | ht
    · have hjump := target_hasJump ht
      have hA := hasJump_hasArg hP hv hjump
      refine ⟨⟨j.opcode, j.arg.getD 0, u, u + j.size / 2 - 1⟩, by simp [fetchedOf, h0], ?_⟩
      obtain ⟨v, hv'⟩ := Option.isSome_iff_exists.1 (hv.arg_required hA)
      unfold CInstr.getJumpTarget CInstr.useCacheOpcodes at ht
      unfold jumpByte
      simp only [hv', h11, Bool.false_eq_true, if_false, Nat.add_zero] at ht
      simp only [nameOf_valid hP hv, hv', Option.getD_some]
      have e1 : (2 * (((u + j.size / 2 - 1 : Nat) : Int) + 1)) = (scaleOf P : Int) * ((cur : Int) + ((if P.py310 then j.size / 2 else j.size : Nat) : Int)) := by
        have : ((scaleOf P * (cur + width P j) : Nat) : Int) = ((2 * (u + j.size / 2) : Nat) : Int) := by rw [hw]
        rw [Int.natCast_mul, Int.natCast_add] at this
        unfold width at this
        rw [this]
        omega
      have e2 : (if P.py310 = true then (2 : Int) else 1) = (scaleOf P : Int) := by unfold scaleOf; split <;> rfl
      rw [e1, e2]
      repeat' split at ht
      all_goals first
        | cases ht; done
        | (simp only [Option.some.injEq] at ht; subst ht
           simp only [*, if_true, if_false, Option.some.injEq, Int.mul_add, Int.mul_sub, Bool.false_eq_true, reduceIte])
    · obtain ⟨f, hf, hx⟩ := ih (fun i hi => hr i (by simp [hi])) _ _ hw t ht
      refine ⟨f, ?_, hx⟩
      unfold fetchedOf
      rw [if_neg h0]
      exact List.mem_cons_of_mem _ hf

theorem opAtByte_isSome (P : Platform) (t : Int) (len : Nat) (fs : List Fetched) (h : ∃ f ∈ fs, t = 2 * f.first) : ∀ n, (opAtByte P t len n fs).isSome = true := by
  induction fs with
  | nil => intro n; simp at h
  | cons f fs ih =>
    intro n
    unfold opAtByte
    split
    · rfl
    · rename_i hne
      obtain ⟨g, hg, hx⟩ := h
      rcases List.mem_cons.1 hg with rfl | hg
      · exact absurd hx hne
      · exact ih ⟨g, hg, hx⟩ _

/-- What is known of the instructions read from a code object of 3.8 to 3.10. -/
structure ReadFromOld (P : Platform) (co : Code) (js : List CInstr) : Prop where
  fetch_ : fetched P co = fetchedOf 0 js
  units_ : co.code.length = 2 * unitsOf js
  readable : ∀ j ∈ js, Readable P j
  located : ∀ j ∈ js, ∃ l, j.loc = some l ∧ ∃ k, 2 * k < co.code.length ∧ l = Loc.line ((lineOfByte P co (2 * k)).map Int.toNat)

variable {co : Code} {js : List CInstr}

theorem ReadFromOld.valid (h : ReadFromOld P co js) : ∀ ci, .instr ci ∈ (readOld co js).elems → ValidCInstr P ci := by
  intro ci hci
  obtain ⟨j, hj, e⟩ := List.mem_map.1 hci
  cases e
  exact (h.readable _ hj).valid

theorem ReadFromOld.remove (h : ReadFromOld P co js) : removeExtendedArgs P 0 none (readOld co js).elems = .ok (readOld co js).elems :=
  remove_noext P js (fun j hj => (h.readable j hj).noext) 0

theorem tableOK_empty {c : Concrete} (h : c.excTable = []) : TableOK P c := by
  constructor <;> rw [h] <;> simp

theorem ReadFromOld.decodable (hP : P.WF) (h11 : P.py311 = false) (h : ReadFromOld P co js) (hok : OldCodeOK P co) :
    ∀ j ∈ js, Decodable P (readOld co js) j := by
  intro j hj
  have hv := (h.readable j hj).valid
  have h0 := old_opcode hP h11 hv
  have h12 : P.py312 = false := by simp [Platform.py312, Platform.py311] at *; omega
  have h13 : P.py313 = false := by simp [Platform.py313, Platform.py311] at *; omega
  obtain ⟨f, hf, e1, e2⟩ := fetched_of js 0 j hj h0
  rw [← h.fetch_] at hf
  have hfa : ∀ a, j.arg = some a → f.arg = a := by intro a ha; rw [e2, ha]; rfl
  have harg : (if P.hasArg f.opcode then some f.arg else none) = j.arg := by
    rw [e1, e2]
    by_cases ha : P.hasArg j.opcode = true
    · rw [if_pos ha]
      obtain ⟨v, hv'⟩ := Option.isSome_iff_exists.1 (hv.arg_required ha)
      rw [hv']; rfl
    · rw [if_neg ha, hv.arg_forbidden (by simpa using ha) h0]
  constructor
  · intro p hp
    by_cases hjump : P.hasJump j.opcode = true
    · have hd := not_dual hP ((kinds_excl hP j.opcode).jump hjump).2.1
      unfold expandC at hp
      split at hp
      · simp at hp
      · rw [hd] at hp
        simp only [List.mem_singleton] at hp
        rw [hp]
        simp [operandC, hjump, jumpOr]
    · rw [expandC_dest (d' := (jumpByte P f).bind (fun t => opAtByte P t co.code.length 0 (fetched P co))) (by simpa using hjump),
        expandC_old (key := (id : Arg → Arg)) (c := tablesOf co) (c' := readOld co js) (i' := j) (i := ⟨nameOf P f.opcode, f.opcode, if P.hasArg f.opcode then some f.arg else none, none, none, 2⟩) h11 rfl rfl rfl rfl rfl
          (by simp only; rw [e1]; exact (nameOf_valid hP hv).symm) e1.symm harg.symm] at hp
      exact hok.operands ⟨p.1, p.2, Loc.line ((lineOfByte P co (2 * f.unit)).map Int.toNat), none⟩ (by
        unfold programOld
        exact List.mem_flatMap.2 ⟨f, hf, List.mem_map.2 ⟨p, hp, rfl⟩⟩)
  · intro hc a ha
    rw [← hfa a ha]; exact hok.compares f hf (by rw [e1]; exact hc)
  · intro hc; simp [Platform.intrinsic1, h12] at hc
  · intro hc; simp [Platform.intrinsic2, h12] at hc
  · intro hc; simp [Platform.dual, Platform.dualSingles, h13] at hc
  · intro _ a _ v hx
    exact hok.consts v (List.mem_of_getElem? hx)

/-- `to_bytecode` of what is read. -/
theorem ReadFromOld.total (hP : P.WF) (h11 : P.py311 = false) (h : ReadFromOld P co js) (hok : OldCodeOK P co) (prune conserve : Bool) :
    ∃ b, toBytecode P prune conserve (readOld co js) = .ok b := by
  have h13 : P.py313 = false := by simp [Platform.py313, Platform.py311] at *; omega
  obtain ⟨d, hd, hlab, hjmp, htb⟩ := loop_total (c := readOld co js) hP (fun h => by rw [h13] at h; cases h) (prune := prune) (conserve := conserve)
    (targets := jumpTargets P 0 (readOld co js).elems ++ (readOld co js).excTable.map (·.target)) (readOld co js).elems (by
      intro ci hci
      obtain ⟨j, hj, e⟩ := List.mem_map.1 hci
      cases e
      have hr := h.readable _ hj
      have hc := old_name hP h11 hr.valid
      refine ⟨hr.valid, hr.noext, fun _ => h.decodable hP h11 hok _ hj, fun hn => absurd hn hc,
        ⟨fun hn => absurd hn hc, fun h0 => absurd h0 (old_opcode hP h11 hr.valid)⟩, fun hl => ?_⟩
      obtain ⟨l, hl', _⟩ := h.located _ hj
      rw [hl] at hl'; cases hl') (readOld co js).attrs.firstLineno 0 [] (by simp)
  unfold toBytecode
  rw [h.remove]
  have hnd : ((readOld co js).excTable.map (·.start)).Nodup := by
    show ([] : List Int).Nodup
    simp
  simp only [bind, Except.bind, pyAssert, hnd, decide_true, if_true, hd]
  have hj : d.jumps.all (fun t => decide (t ∈ d.labels.map (fun (n : Nat) => (n : Int)))) = true := by
    rw [List.all_eq_true]
    intro t ht
    rw [decide_eq_true_iff, List.mem_map]
    obtain ⟨f, hf, hx⟩ := fetched_jump_old hP h11 js h.readable 0 0 rfl t (hjmp t ht)
    rw [← h.fetch_] at hf
    obtain ⟨g, hg, hg'⟩ := hok.jumps f hf _ hx
    rw [h.fetch_] at hg
    obtain ⟨s, hs, hs'⟩ := fetched_start_old js (fun j hj => by have := size_of_units (h.readable j hj); omega) 0 0 rfl g hg
    have : (s : Int) = t := by
      have hs'' : ((scaleOf P * s : Nat) : Int) = ((2 * g.first : Nat) : Int) := by rw [hs']
      rw [Int.natCast_mul] at hs''
      have hp := scale_pos (P := P)
      exact Int.eq_of_mul_eq_mul_left (a := (scaleOf P : Int)) (by omega) (by rw [hs'', hg']; simp)
    refine ⟨s, (hlab _).2 ⟨hs, ?_⟩, this⟩
    rw [this]
    exact List.mem_append_left _ (hjmp t ht)
  have ht : d.tbs.all (fun k => decide (((readOld co js).excTable[k]?.map (·.target)).getD (-1) ∈ d.labels.map (fun (n : Nat) => (n : Int)))) = true := by
    rw [List.all_eq_true]
    intro k hk
    have := htb k hk
    simp [readOld] at this
  rw [hj, ht]
  exact ⟨_, rfl⟩

theorem readFromOld_of {κ : Type} (hP : P.WF) (h11 : P.py311 = false) (key : Arg → κ) (hok : OldCodeOK P co) :
    ∃ js, Concrete.fromCodeOld P co = .ok (readOld co js) ∧ programC P key (readOld co js) = programOld P key co ∧ ReadFromOld P co js := by
  obtain ⟨js, h1, h2, h3, h4, h5⟩ := fromCodeOld_program hP h11 key hok.bytes hok.lines
  exact ⟨js, h1, h2, h4, h5, fun j hj => (h3 j hj).1, fun j hj => (h3 j hj).2⟩

end
end Verif
