import Verif.Spec.CodeOK
import Verif.Proofs.FromCode
/-
A code string of CPython is made of concrete instructions.
-/
namespace Verif
open Spec

/-- The concrete instruction of a group of units. -/
def groupInstr (P : Platform) (exts : List Nat) (name : String) (op a : Nat) : CInstr :=
  ⟨name, op, if P.hasArg op then some (wideArg exts a) else none, none, if exts = [] then none else some exts.length, 2 + 2 * exts.length⟩

def cacheInstr : CInstr := ⟨"CACHE", 0, some 0, none, none, 2⟩

theorem wideArg_ext (exts : List Nat) (a : Nat) (he : ∀ e ∈ exts, e < 256) (ha : a < 256) : extNeeded (wideArg exts a) ≤ exts.length := by
  rw [extNeeded_le_iff]
  have := foldBytes_lt exts he
  unfold foldBytes at this
  unfold wideArg
  rw [Nat.pow_succ]
  omega

theorem pairs_length (x : Nat) (l : List Nat) : (l.flatMap (fun e => [x, e])).length = 2 * l.length := by
  induction l with
  | nil => rfl
  | cons e es ih => rw [List.flatMap_cons, List.length_append, ih]; simp; omega

theorem groupInstr_readable (P : Platform) (hP : P.WF) (exts : List Nat) (name : String) (op a : Nat) (he : ∀ e ∈ exts, e < 256) (hn : P.opname op = some name)
    (h0 : op ≠ 0) (hx : op ≠ P.extendedArg) (hb : op < P.minInstrumented) (h256 : op < 256) (ha : a < 256) (hw : wideArg exts a ≤ 2147483647)
    (hna : P.hasArg op = false → exts = [] ∧ a = 0) :
    Readable P (groupInstr P exts name op a) ∧ (groupInstr P exts name op a).assemble P = exts.flatMap (fun e => [P.extendedArg, e]) ++ [op, a] := by
  have hop := hP.op_name op name h256 hn
  have hname : name ≠ "EXTENDED_ARG" := by
    rintro rfl
    rw [hP.ext] at hop
    exact hx (Option.some.inj hop).symm
  have hle := wideArg_ext exts a he ha
  have hsize : (groupInstr P exts name op a).size = sizeFor (groupInstr P exts name op a).arg (groupInstr P exts name op a).ext := by
    unfold groupInstr sizeFor
    by_cases h : exts = []
    · subst h
      simp only [if_true, List.length_nil]
      cases hA : P.hasArg op with
      | true =>
        simp only [if_true, Option.getD_some]
        simp only [List.length_nil] at hle
        omega
      | false => simp [extNeeded_lt]
    · simp [h]
  have hv : ValidCInstr P (groupInstr P exts name op a) := by
    refine ⟨hop, hb, ?_, ?_, ?_, hsize, ?_⟩
    · intro h; simp only [groupInstr] at h ⊢; simp [h]
    · intro h _; simp only [groupInstr] at h ⊢; simp [h]
    · intro v hv
      simp only [groupInstr] at hv
      split at hv
      · cases hv; exact hw
      · cases hv
    · intro l hl; simp [groupInstr] at hl
  have hasm : (groupInstr P exts name op a).assemble P = exts.flatMap (fun e => [P.extendedArg, e]) ++ [op, a] := by
    cases hA : P.hasArg op with
    | false =>
      obtain ⟨rfl, rfl⟩ := hna hA
      simp [CInstr.assemble, groupInstr, hA]
    | true =>
      have harg : (groupInstr P exts name op a).arg = some (wideArg exts a) := by simp [groupInstr, hA]
      rw [assemble_prefix P _ hsize _ harg]
      have hnp : nPrefix (groupInstr P exts name op a) = exts.length := by
        unfold nPrefix
        rw [harg]
        simp only [groupInstr]
        by_cases h : exts = []
        · subst h; simp at hle ⊢; exact hle
        · simp [h]; omega
      rw [hnp]
      have := prefixBytes_fold exts he a ha
      have e2 : foldBytes 0 exts * 256 + a = wideArg exts a := rfl
      rw [e2] at this
      rw [this]
      have : wideArg exts a % 256 = a := by unfold wideArg; omega
      rw [this]
      rfl
  refine ⟨⟨hv, ?_, hname⟩, hasm⟩
  rw [hasm]
  rw [List.length_append, pairs_length]
  simp [groupInstr]; omega

theorem cacheInstr_readable (P : Platform) (hP : P.WF) (h11 : P.py311 = true) : Readable P cacheInstr ∧ cacheInstr.assemble P = [0, 0] := by
  obtain ⟨h1, h2⟩ := hP.cache h11
  have hasm : cacheInstr.assemble P = [0, 0] := by
    rw [assemble_prefix P cacheInstr (by unfold cacheInstr sizeFor; simp [extNeeded_lt]) 0 rfl]
    have : nPrefix cacheInstr = 0 := by unfold nPrefix cacheInstr; simp [extNeeded_lt]
    rw [this]; rfl
  refine ⟨⟨⟨h1, h2, ?_, ?_, ?_, ?_, ?_⟩, by rw [hasm]; rfl, by decide⟩, hasm⟩
  · intro _; rfl
  · intro _ h; exact absurd rfl h
  · intro a ha; cases ha; omega
  · unfold cacheInstr sizeFor; simp [extNeeded_lt]
  · intro l hl; cases hl

theorem caches_assemble (P : Platform) (hP : P.WF) (h11 : P.py311 = true) (n : Nat) :
    (List.replicate n cacheInstr).flatMap (CInstr.assemble P) = List.replicate (2 * n) 0 := by
  induction n with
  | zero => rfl
  | succ n ih => rw [List.replicate_succ, List.flatMap_cons, ih, (cacheInstr_readable P hP h11).2, Nat.mul_succ]; rfl

/-- The instructions of a code string. -/
theorem wellCoded_instrs (P : Platform) (hP : P.WF) (h11 : P.py311 = true) {bs : Bytes} (h : WellCoded P bs) :
    ∃ is : List CInstr, bs = is.flatMap (CInstr.assemble P) ∧ CacheLayout P is ∧ ∀ i ∈ is, Readable P i := by
  induction h with
  | nil => exact ⟨[], rfl, .nil, by simp⟩
  | instr exts name op a rest he hn h0 hx hb h256 ha hw hna _ ih =>
    obtain ⟨is, e, hl, hr⟩ := ih
    obtain ⟨h1, h2⟩ := groupInstr_readable P hP exts name op a he hn h0 hx hb h256 ha hw hna
    refine ⟨groupInstr P exts name op a :: (List.replicate (P.cacheEntries op) cacheInstr ++ is), ?_, ?_, ?_⟩
    · rw [List.flatMap_cons, List.flatMap_append, caches_assemble P hP h11, ← e, h2]
      simp
    · refine .group _ _ _ h0 (by simp [groupInstr]) ?_ hl
      intro c hc
      rw [(List.mem_replicate.1 hc).2]
      exact ⟨rfl, rfl⟩
    · intro i hi
      rcases List.mem_cons.1 hi with rfl | hi
      · exact h1
      · rcases List.mem_append.1 hi with hi | hi
        · rw [(List.mem_replicate.1 hi).2]; exact (cacheInstr_readable P hP h11).1
        · exact hr i hi

end Verif
