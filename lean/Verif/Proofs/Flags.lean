import Verif.Model.Flags
import Verif.Spec.Flags
import Verif.Spec.Operands
import Verif.Proofs.Resolve
/-
Lemmas about `infer_flags`.
-/
namespace Verif
open Spec

/-- An instruction as the specification sees it. -/
def FView.fi (P : Platform) (conc : Bool) : FView → Option FI
  | .instr n op a => some ⟨n, a.asInt, P.hasfree op || !conc && P.haslocal op && mentionsCell a⟩
  | _ => none

/-- What is known of the instructions of a container. -/
def FView.OK (P : Platform) (conc : Bool) : FView → Prop
  | .instr n op a => P.opmap n = some op ∧ op < P.minInstrumented ∧
      (conc = true → a.isCellOrFree = false) ∧ (conc = false → ArgOK P op a)
  | _ => True

theorem isOp_iff {P : Platform} (hP : P.WF) {name : String} {op : Nat} (h : P.opmap name = some op)
    (hb : op < P.minInstrumented) (n : String) : P.isOp n op = true ↔ name = n := by
  unfold Platform.isOp
  rw [beq_iff_eq]
  constructor
  · intro h'
    have a := (hP.name_op _ _ h hb).2
    have b := (hP.name_op _ _ h' hb).2
    rw [a] at b
    exact Option.some.inj b
  · rintro rfl; exact h

theorem unoptimized_iff {P : Platform} (hP : P.WF) {name : String} {op : Nat} (h : P.opmap name = some op)
    (hb : op < P.minInstrumented) : unoptimizedOp P op = true ↔ name ∈ ["STORE_NAME", "LOAD_NAME", "DELETE_NAME"] := by
  simp [unoptimizedOp, isOp_iff hP h hb, or_assoc]

theorem async_iff {P : Platform} (hP : P.WF) {name : String} {op : Nat} (h : P.opmap name = some op)
    (hb : op < P.minInstrumented) : asyncOp P op = true ↔ name ∈ asyncNames P := by
  unfold asyncOp asyncNames
  cases h1 : P.py311 <;> cases h2 : P.py312 <;> simp [isOp_iff hP h hb] <;> grind

theorem genLike_iff {P : Platform} (hP : P.WF) {name : String} {op : Nat} (h : P.opmap name = some op)
    (hb : op < P.minInstrumented) :
    generatorLikeOp P op = true ↔ name = (if P.py311 then "RETURN_GENERATOR" else "YIELD_FROM") := by
  unfold generatorLikeOp
  cases h1 : P.py311 <;> simp [isOp_iff hP h hb]

theorem asyncNames_flag {P : Platform} {n : String} (h : n ∈ asyncNames P) : n ∈ flagNames := by
  unfold asyncNames at h
  unfold flagNames
  cases h1 : P.py311 <;> cases h2 : P.py312 <;> simp [h1, h2] at h ⊢ <;>
    grind

/-- The code's test for cell and free variables is the specification's. -/
theorem deref_iff {P : Platform} (hP : P.WF) {conc : Bool} {n : String} {op : Nat} {a : Arg}
    (h : (FView.instr n op a).OK P conc) :
    (P.hasfree op || (!conc && P.dual op && a.pairHasCell) || (P.py313 && P.haslocal op && a.isCellOrFree)) =
    (P.hasfree op || !conc && P.haslocal op && mentionsCell a) := by
  obtain ⟨_, _, hc, ha⟩ := h
  cases conc with
  | true => simp [hc rfl]
  | false =>
    have ha := ha rfl
    simp only [Bool.not_false, Bool.true_and]
    cases hd : P.dual op with
    | true =>
      obtain ⟨x, y, rfl, hx, hy⟩ := ha.dual hd
      have hl := hP.dual_local op hd
      rcases hx with ⟨_, rfl⟩ | ⟨_, rfl⟩ <;> rcases hy with ⟨_, rfl⟩ | ⟨_, rfl⟩ <;>
        simp [Arg.pairHasCell, Arg.isCellOrFree, mentionsCell, hl]
    | false =>
      simp only [Bool.false_and, Bool.or_false]
      cases hl : P.haslocal op with
      | false => simp
      | true =>
        rcases ha.local_ hl hd with ⟨_, rfl⟩ | ⟨h13, ⟨_, rfl⟩ | ⟨_, rfl⟩⟩
        · simp [Arg.isCellOrFree, mentionsCell]
        · simp [Arg.isCellOrFree, mentionsCell, h13]
        · simp [Arg.isCellOrFree, mentionsCell, h13]

theorem ex_mem_cons {α : Type} (p : α → Prop) (a : α) (l : List α) :
    (∃ x, x ∈ a :: l ∧ p x) ↔ p a ∨ ∃ x, x ∈ l ∧ p x := by simp

/-! Cons lemmas for the specification. -/

theorem usesNames_cons (i : FI) (l : List FI) :
    UsesNames (i :: l) ↔ i.name ∈ ["STORE_NAME", "LOAD_NAME", "DELETE_NAME"] ∨ UsesNames l := by
  unfold UsesNames
  rw [ex_mem_cons]

theorem genLike_cons (P : Platform) (i : FI) (l : List FI) :
    GeneratorLike P (i :: l) ↔ i.name = (if P.py311 then "RETURN_GENERATOR" else "YIELD_FROM") ∨ GeneratorLike P l := by
  unfold GeneratorLike
  rw [ex_mem_cons]

/-- The head is an await resumption. -/
def resAwait (l : List FI) : Prop := ∃ j v, l[0]? = some j ∧ j.arg = some v ∧ v % 4 = 3

theorem awaitAt_cons_zero (P : Platform) (i : FI) (l : List FI) :
    AwaitAt P (i :: l) 0 ↔ P.py311 = true ∧ i.name = "YIELD_VALUE" ∧ resAwait l := by
  unfold AwaitAt resAwait
  simp

theorem awaitAt_cons_succ (P : Platform) (i : FI) (l : List FI) (k : Nat) :
    AwaitAt P (i :: l) (k + 1) ↔ AwaitAt P l k := by
  unfold AwaitAt
  simp

theorem usesAsync_cons (P : Platform) (i : FI) (l : List FI) :
    UsesAsync P (i :: l) ↔ i.name ∈ asyncNames P ∨ (P.py311 = true ∧ i.name = "YIELD_VALUE" ∧ resAwait l) ∨
      UsesAsync P l := by
  unfold UsesAsync
  rw [ex_mem_cons]
  constructor
  · rintro ((h | h) | ⟨k, h⟩)
    · exact .inl h
    · exact .inr (.inr (.inl h))
    · cases k with
      | zero => exact .inr (.inl ((awaitAt_cons_zero P i l).1 h))
      | succ k => exact .inr (.inr (.inr ⟨k, (awaitAt_cons_succ P i l k).1 h⟩))
  · rintro (h | h | h | ⟨k, h⟩)
    · exact .inl (.inl h)
    · exact .inr ⟨0, (awaitAt_cons_zero P i l).2 h⟩
    · exact .inl (.inr h)
    · exact .inr ⟨k + 1, (awaitAt_cons_succ P i l k).2 h⟩

theorem yields_cons (P : Platform) (i : FI) (l : List FI) :
    Yields P (i :: l) ↔ (i.name = "YIELD_VALUE" ∧ ¬ (P.py311 = true ∧ resAwait l)) ∨ Yields P l := by
  unfold Yields
  constructor
  · rintro ⟨k, j, h1, h2, h3⟩
    cases k with
    | zero =>
      simp only [List.getElem?_cons_zero, Option.some.injEq] at h1
      subst h1
      refine .inl ⟨h2, fun ⟨h4, h5⟩ => h3 ((awaitAt_cons_zero P i l).2 ⟨h4, h2, h5⟩)⟩
    | succ k =>
      exact .inr ⟨k, j, by simpa using h1, h2, fun h => h3 ((awaitAt_cons_succ P i l k).2 h)⟩
  · rintro (⟨h1, h2⟩ | ⟨k, j, h1, h2, h3⟩)
    · exact ⟨0, i, rfl, h1, fun h => h2 ⟨((awaitAt_cons_zero P i l).1 h).1, ((awaitAt_cons_zero P i l).1 h).2.2⟩⟩
    · exact ⟨k + 1, j, by simpa using h1, h2, fun h => h3 ((awaitAt_cons_succ P i l k).1 h)⟩

/-- What the loop computes. -/
structure ScanSpec (P : Platform) (pend : Bool) (s s' : Scan) (l : List FI) : Prop where
  optimized : s'.optimized = true ↔ s.optimized = true ∧ ¬ UsesNames l
  hasFree : s'.hasFree = true ↔ s.hasFree = true ∨ ∃ i ∈ l, i.deref = true
  async : s'.knownAsync = true ↔ s.knownAsync = true ∨ UsesAsync P l ∨ (pend = true ∧ resAwait l)
  gen : s'.knownGenerator = true ↔ s.knownGenerator = true ∨ Yields P l ∨ (pend = true ∧ ¬ resAwait l)
  poss : s'.possibleGenerator = true ↔ s.possibleGenerator = true ∨ GeneratorLike P l

theorem scanResume_ok {s s' : Scan} {name : String} {arg : Arg} (h : scanResume s name arg = .ok s') :
    name = "RESUME" ∧ ((∃ v, arg.asInt = some v ∧ v % 4 = 3) ∧ s' = { s with knownAsync := true } ∨
      (¬ ∃ v, arg.asInt = some v ∧ v % 4 = 3) ∧ s' = { s with knownGenerator := true }) := by
  unfold scanResume at h
  obtain ⟨_, h1, h⟩ := except_bind_ok h
  have hn : name = "RESUME" := by
    unfold pyAssert at h1
    split at h1
    · rename_i hh; simpa using hh
    · cases h1
  refine ⟨hn, ?_⟩
  obtain ⟨v, hv, h⟩ := except_bind_ok h
  simp only [pure, Except.pure, Except.ok.injEq] at h
  have hcase : (arg.asInt = some v) ∨ (arg.asInt = none ∧ v = 0) := by
    cases arg with
    | unset => right; simp only [resumeArg, Except.ok.injEq] at hv; exact ⟨rfl, hv.symm⟩
    | int a => left; simp only [resumeArg, Arg.asInt, Except.ok.injEq] at hv; simp [Arg.asInt, hv]
    | bool a => left; simp only [resumeArg, Arg.asInt, Except.ok.injEq] at hv; simp [Arg.asInt, hv]
    | compare a => left; simp only [resumeArg, Arg.asInt, Except.ok.injEq] at hv; simp [Arg.asInt, hv]
    | intr1 a => left; simp only [resumeArg, Arg.asInt, Except.ok.injEq] at hv; simp [Arg.asInt, hv]
    | intr2 a => left; simp only [resumeArg, Arg.asInt, Except.ok.injEq] at hv; simp [Arg.asInt, hv]
    | _ => simp [resumeArg, Arg.asInt] at hv
  subst h
  rcases hcase with hc | ⟨hc, rfl⟩
  · rw [hc]
    by_cases h3 : v % 4 = 3
    · left; exact ⟨⟨v, rfl, h3⟩, by rw [if_neg (by simpa using h3)]⟩
    · right
      refine ⟨?_, by rw [if_pos h3]⟩
      rintro ⟨w, hw, hw3⟩
      cases hw
      exact h3 hw3
  · right
    rw [hc]
    exact ⟨by simp, rfl⟩

theorem scanLoop_ok {P : Platform} (hP : P.WF) (hF : FlagOps P) {conc : Bool} {vs : List FView} :
    (∀ v ∈ vs, v.OK P conc) → ∀ {pend : Bool} {s s' : Scan}, scanLoop P conc pend s vs = .ok s' →
    ScanSpec P pend s s' (vs.filterMap (FView.fi P conc)) := by
  induction vs with
  | nil =>
    intro _ pend s s' h
    unfold scanLoop at h
    cases pend with
    | true => simp at h
    | false =>
      simp only [Bool.false_eq_true, if_false, Except.ok.injEq] at h
      subst h
      constructor <;> simp [UsesNames, UsesAsync, Yields, GeneratorLike, AwaitAt]
  | cons v r ih =>
    intro hok pend s s' h
    have ihr := fun {pend s s'} => @ih (fun x hx => hok x (by simp [hx])) pend s s'
    cases v with
    | skip => rw [scanLoop] at h; exact ihr h
    | tuple => rw [scanLoop] at h; cases h
    | instr name op arg =>
      obtain ⟨ho, hb, hrest⟩ := hok _ (List.mem_cons_self)
      have hokv : (FView.instr name op arg).OK P conc := ⟨ho, hb, hrest⟩
      have hfi : (FView.instr name op arg :: r).filterMap (FView.fi P conc) =
          ⟨name, arg.asInt, P.hasfree op || !conc && P.haslocal op && mentionsCell arg⟩ ::
            r.filterMap (FView.fi P conc) := rfl
      rw [hfi]
      generalize hl : r.filterMap (FView.fi P conc) = l at ihr ⊢
      -- instructions infer_flags looks for have no variable operand
      have hnod : name ∈ flagNames → (P.hasfree op || !conc && P.haslocal op && mentionsCell arg) = false := by
        intro hn
        have := hF name hn op ho
        simp [this.1, this.2]
      unfold scanLoop at h
      cases pend with
      | true =>
        simp only [if_true] at h
        obtain ⟨s1, h1, h2⟩ := except_bind_ok h
        obtain ⟨rfl, hr⟩ := scanResume_ok h1
        have I := ihr h2
        have hd := hnod (by decide)
        have hna : "RESUME" ∉ asyncNames P := by
          unfold asyncNames; cases P.py311 <;> cases P.py312 <;> decide
        have hng : "RESUME" ≠ (if P.py311 then "RETURN_GENERATOR" else "YIELD_FROM") := by cases P.py311 <;> decide
        have hra : resAwait (⟨"RESUME", arg.asInt, P.hasfree op || !conc && P.haslocal op && mentionsCell arg⟩ :: l) ↔
            ∃ v, arg.asInt = some v ∧ v % 4 = 3 := by
          unfold resAwait; simp
        constructor
        · rw [usesNames_cons, I.optimized]
          rcases hr with ⟨_, rfl⟩ | ⟨_, rfl⟩ <;> simp
        · rw [ex_mem_cons, I.hasFree, hd]
          rcases hr with ⟨_, rfl⟩ | ⟨_, rfl⟩ <;> simp
        · rw [usesAsync_cons, I.async, hra]
          rcases hr with ⟨hh, rfl⟩ | ⟨hh, rfl⟩ <;> simp [hna, hh]
        · rw [yields_cons, I.gen, hra]
          rcases hr with ⟨hh, rfl⟩ | ⟨hh, rfl⟩ <;> simp [hh]
        · rw [genLike_cons, I.poss]
          rcases hr with ⟨_, rfl⟩ | ⟨_, rfl⟩ <;> simp [hng]
      | false =>
        simp only [Bool.false_eq_true, if_false] at h
        have key := deref_iff hP hokv
        have hu := unoptimized_iff hP ho hb
        have ha := async_iff hP ho hb
        have hy := isOp_iff hP ho hb "YIELD_VALUE"
        have hg := genLike_iff hP ho hb
        unfold scanInstr at h
        split at h
        · rename_i c1
          have hn := hu.1 c1
          have I := ihr h
          have hd := hnod (by simp at hn; rcases hn with rfl | rfl | rfl <;> decide)
          have hna : name ∉ asyncNames P := by
            simp at hn
            unfold asyncNames
            rcases hn with rfl | rfl | rfl <;> cases P.py311 <;> cases P.py312 <;> decide
          have hny : name ≠ "YIELD_VALUE" := by simp at hn; rcases hn with rfl | rfl | rfl <;> decide
          have hng : name ≠ (if P.py311 then "RETURN_GENERATOR" else "YIELD_FROM") := by
            simp at hn
            rcases hn with rfl | rfl | rfl <;> cases P.py311 <;> decide
          constructor
          · rw [usesNames_cons, I.optimized]; simp only; constructor
            · rintro ⟨h, _⟩; cases h
            · rintro ⟨_, h⟩; exact absurd (.inl hn) h
          · rw [ex_mem_cons, I.hasFree]; simp [hd]
          · rw [usesAsync_cons, I.async]; simp [hna, hny]
          · rw [yields_cons, I.gen]; simp [hny]
          · rw [genLike_cons, I.poss]; simp [hng]
        · rename_i c1
          have hn1 : name ∉ ["STORE_NAME", "LOAD_NAME", "DELETE_NAME"] := fun h => c1 (hu.2 h)
          split at h
          · rename_i c2
            have hn := ha.1 c2
            have I := ihr h
            have hd := hnod (asyncNames_flag hn)
            have hny : name ≠ "YIELD_VALUE" := by
              rintro rfl; revert hn; unfold asyncNames; cases P.py311 <;> cases P.py312 <;> decide
            have hng : name ≠ (if P.py311 then "RETURN_GENERATOR" else "YIELD_FROM") := by
              rintro rfl; revert hn; unfold asyncNames; cases P.py311 <;> cases P.py312 <;> decide
            constructor
            · rw [usesNames_cons, I.optimized]; simp only [hn1, false_or]
            · rw [ex_mem_cons, I.hasFree]; simp [hd]
            · rw [usesAsync_cons, I.async]; simp [hn]
            · rw [yields_cons, I.gen]; simp [hny]
            · rw [genLike_cons, I.poss]; simp [hng]
          · rename_i c2
            have hn2 : name ∉ asyncNames P := fun h => c2 (ha.2 h)
            split at h
            · rename_i c3
              have hn := hy.1 c3
              have hd := hnod (by rw [hn]; decide)
              have hng : name ≠ (if P.py311 then "RETURN_GENERATOR" else "YIELD_FROM") := by
                rw [hn]; cases P.py311 <;> decide
              cases h11 : P.py311 with
              | true =>
                simp only [h11, if_true] at h
                have I := ihr h
                constructor
                · rw [usesNames_cons, I.optimized]; simp only [hn1, false_or]
                · rw [ex_mem_cons, I.hasFree]; simp [hd]
                · rw [usesAsync_cons, I.async]; simp [hn2, hn, h11]; grind
                · rw [yields_cons, I.gen]; simp [hn, h11]; grind
                · rw [genLike_cons, I.poss]; simp only [hng, false_or]
              | false =>
                simp only [h11, Bool.false_eq_true, if_false] at h
                have I := ihr h
                constructor
                · rw [usesNames_cons, I.optimized]; simp only [hn1, false_or]
                · rw [ex_mem_cons, I.hasFree]; simp [hd]
                · rw [usesAsync_cons, I.async]; simp [hn2, h11]
                · rw [yields_cons, I.gen]; simp [hn, h11]
                · rw [genLike_cons, I.poss]; simp only [hng, false_or]
            · rename_i c3
              have hn3 : name ≠ "YIELD_VALUE" := fun h => c3 (hy.2 h)
              split at h
              · rename_i c4
                have hn := hg.1 c4
                have I := ihr h
                have hd := hnod (by rw [hn]; cases P.py311 <;> decide)
                constructor
                · rw [usesNames_cons, I.optimized]; simp only [hn1, false_or]
                · rw [ex_mem_cons, I.hasFree]; simp [hd]
                · rw [usesAsync_cons, I.async]; simp [hn2, hn3]
                · rw [yields_cons, I.gen]; simp [hn3]
                · rw [genLike_cons, I.poss]; simp [hn]
              · rename_i c4
                have hn4 : name ≠ (if P.py311 then "RETURN_GENERATOR" else "YIELD_FROM") := fun h => c4 (hg.2 h)
                have hlast : scanLoop P conc false
                    { s with hasFree := s.hasFree || (P.hasfree op || !conc && P.haslocal op && mentionsCell arg) } r =
                    .ok s' := by
                  rw [← key]
                  split at h
                  · rename_i c5; simpa [c5] using h
                  · rename_i c5
                    split at h
                    · rename_i c6; simpa [c5, c6] using h
                    · rename_i c6
                      split at h
                      · rename_i c7; simpa [c5, c6, c7] using h
                      · rename_i c7
                        simp only [Bool.not_eq_true] at c5 c6 c7
                        simpa only [c5, c6, c7, Bool.or_false] using h
                have I := ihr hlast
                constructor
                · rw [usesNames_cons, I.optimized]; simp only [hn1, false_or]
                · rw [ex_mem_cons, I.hasFree]; simp only [Bool.or_eq_true]; grind
                · rw [usesAsync_cons, I.async]; simp [hn2, hn3]
                · rw [yields_cons, I.gen]; simp [hn3]
                · rw [genLike_cons, I.poss]; simp only [hn4, false_or]

end Verif
