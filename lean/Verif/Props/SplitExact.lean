import Verif.Props.CFG
/-
C25, exact version: what split_block does in every case.
-/
namespace Verif
open Spec

theorem blkIter_fails {P : Platform} {es : List BElem} {e : PyErr} (h : blkIter P es = .error e) : e = .valueError := by
  induction es with
  | nil => simp [blkIter] at h
  | cons a r ih =>
    simp only [blkIter, bind, Except.bind] at h
    cases hc : blkCheck P a r with
    | ok u => rw [hc] at h; exact ih h
    | error e' =>
      rw [hc] at h
      simp only [Except.error.injEq] at h
      subst h
      unfold blkCheck at hc
      split at hc
      · simpa using hc.symm
      · split at hc
        · split at hc
          · simpa using hc.symm
          · split at hc
            · simpa using hc.symm
            · simp at hc
        · simp at hc
      · simp at hc

/-- the elements may form a block: no Label, and a jump only as the last instruction, to a block -/
def BlockLike (P : Platform) (es : List BElem) : Prop := blkIter P es = .ok ()

theorem blockLike_iff {P : Platform} {es : List BElem} : BlockLike P es ↔
    (∀ l, BElem.label l ∉ es) ∧ ∀ pre i post, es = pre ++ .instr i :: post → P.hasJump i.opcode = true →
      (∃ b, i.arg = .block b) ∧ ∀ j, BElem.instr j ∉ post := by
  unfold BlockLike
  induction es with
  | nil => simp [blkIter]
  | cons a r ih =>
    have hcheck : blkCheck P a r = .ok () ↔ (∀ l, a ≠ .label l) ∧ ∀ i, a = .instr i → P.hasJump i.opcode = true → (∃ b, i.arg = .block b) ∧ ∀ j, BElem.instr j ∉ r := by
      cases a with
      | label l => simp [blkCheck]
      | instr i =>
        simp only [blkCheck]
        by_cases hj : P.hasJump i.opcode = true
        · rw [if_pos hj]
          by_cases ha : r.any BElem.isInstr = true
          · rw [if_pos ha]
            simp only [reduceCtorEq, false_iff]
            rintro ⟨_, h⟩
            obtain ⟨_, h2⟩ := h i rfl hj
            rw [List.any_eq_true] at ha
            obtain ⟨x, hx, hxi⟩ := ha
            cases x with
            | instr j => exact h2 j hx
            | _ => simp [BElem.isInstr] at hxi
          · rw [if_neg ha]
            have hno : ∀ j, BElem.instr j ∉ r := fun j hj => ha (List.any_eq_true.2 ⟨_, hj, rfl⟩)
            by_cases hb : i.arg.asBlock.isNone = true
            · rw [if_pos hb]
              simp only [reduceCtorEq, false_iff]
              rintro ⟨_, h⟩
              obtain ⟨⟨b, h1⟩, _⟩ := h i rfl hj
              rw [h1] at hb
              simp [Arg.asBlock] at hb
            · rw [if_neg hb]
              simp only [true_iff]
              refine ⟨by simp, ?_⟩
              intro i' hi' _
              simp only [BElem.instr.injEq] at hi'
              subst hi'
              refine ⟨?_, hno⟩
              cases harg : i.arg <;> simp_all [Arg.asBlock]
        · rw [if_neg hj]
          simp only [true_iff]
          refine ⟨by simp, ?_⟩
          intro i' hi' hj'
          simp only [BElem.instr.injEq] at hi'
          subst hi'
          exact absurd hj' hj
      | setLineno n => simp [blkCheck]
      | tryBegin t => simp [blkCheck]
      | tryEnd t => simp [blkCheck]
    have hstep : blkIter P (a :: r) = .ok () ↔ blkCheck P a r = .ok () ∧ blkIter P r = .ok () := by
      simp only [blkIter, bind, Except.bind]
      cases blkCheck P a r <;> simp
    rw [hstep, hcheck, ih]
    constructor
    · rintro ⟨⟨h1, h2⟩, h3, h4⟩
      refine ⟨?_, ?_⟩
      · intro l hl
        rcases List.mem_cons.1 hl with rfl | hl
        · exact h1 l rfl
        · exact h3 l hl
      · intro pre i post he hj
        cases pre with
        | nil =>
          simp only [List.nil_append, List.cons.injEq] at he
          obtain ⟨rfl, rfl⟩ := he
          exact h2 i rfl hj
        | cons x pre =>
          simp only [List.cons_append, List.cons.injEq] at he
          exact h4 pre i post he.2 hj
    · rintro ⟨h1, h2⟩
      refine ⟨⟨fun l hl => h1 l (by simp [hl]), fun i hi hj => h2 [] i r (by rw [hi]; rfl) hj⟩, fun l hl => h1 l (by simp [hl]), ?_⟩
      intro pre i post he hj
      exact h2 (a :: pre) i post (by rw [he]; rfl) hj

/-- **C25 (exact).** `split_block(block, i)` on a block of the graph with `0 < i` inside it (or at its end, when it is the last block).
If the elements from `i` on may form a block, it returns a new block, placed right after the block and linked to it, that takes those elements; the whole code in order is the same, every
jump and handler of the block leads to the same blocks from one of the two halves, the edges of the other blocks are unchanged - but the new block has no next block, so that
whatever the block fell into is no longer its successor. If they may not, it raises ValueError, and the block has lost the elements from `i` on. -/
theorem C25_exact (P : Platform) (c : CFG) (hI : IndexOK c) (hf : ∀ b ∈ c.blocks, b < c.fresh) (k b : Nat)
    (hb : c.blocks[k]? = some b) (i : Nat) (h0 : 0 < i)
    (hi : i < (c.heap b).elems.length ∨ (i = (c.heap b).elems.length ∧ k + 1 = c.blocks.length)) :
    (BlockLike P ((c.heap b).elems.drop i) → ∃ n c', c.splitBlock P b i = (c', .ok n) ∧ n ∉ c.blocks ∧
      c'.blocks = c.blocks.take (k + 1) ++ n :: c.blocks.drop (k + 1) ∧
      (c'.heap b).elems = (c.heap b).elems.take i ∧ (c'.heap n).elems = (c.heap b).elems.drop i ∧
      (c'.heap b).next = some n ∧ (c'.heap n).next = none ∧
      (∀ x ∈ c.blocks, x ≠ b → c'.heap x = c.heap x) ∧
      allCode c' = allCode c ∧
      (∀ t, JumpEdge c b t ↔ JumpEdge c' b t ∨ JumpEdge c' n t) ∧
      (∀ t, FallEdge c' b t ↔ t = n ∧ fallsThrough ((c.heap b).elems.take i) = true) ∧ (∀ t, ¬ FallEdge c' n t) ∧
      (∀ x ∈ c.blocks, x ≠ b → ∀ t, (JumpEdge c' x t ↔ JumpEdge c x t) ∧ (FallEdge c' x t ↔ FallEdge c x t)) ∧
      IndexOK c') ∧
    (¬ BlockLike P ((c.heap b).elems.drop i) → ∃ c', c.splitBlock P b i = (c', .error .valueError) ∧ c'.blocks = c.blocks ∧
      (c'.heap b).elems = (c.heap b).elems.take i ∧ (c'.heap b).next = (c.heap b).next ∧ (∀ x, x ≠ b → c'.heap x = c.heap x) ∧ IndexOK c') := by
  have h : c.Inv := CFG.inv_of_indexOK hI hf
  have he : c.splitBlock P b i = c.splitCut P k b i := by
    rw [CFG.splitBlock_eq h hb, if_neg (by omega), if_neg (by omega), if_neg (by omega), if_neg (by simp; omega)]
    simp
  constructor
  · intro hw
    obtain ⟨n, c', h1, h2, h3, h4, h5, h6, h7, h8, h9⟩ := C25_partial P c hI hf k b hb i h0 hi hw
    obtain ⟨s1, s2, s3, _, _, _, s7⟩ := CFG.splitCut_ok h hb hw
    rw [he] at h1
    have hn : n = c.fresh := by
      rw [Prod.ext_iff] at h1
      have := h1.2.symm.trans s1
      simpa using this
    have hc' : c' = (c.splitCut P k b i).1 := by rw [h1]
    have hnext : (c'.heap n).next = none := by
      rw [hc', s3, hn]; simp [upd]
    refine ⟨n, c', by rw [he]; exact h1, h2, h3, h4, h5, h6, hnext, h7, h8, ?_, ?_, ?_, ?_, h9⟩
    · intro t
      have hmem : ∀ e, e ∈ (c.heap b).elems ↔ e ∈ (c'.heap b).elems ∨ e ∈ (c'.heap n).elems := by
        intro e
        rw [h4, h5, ← List.mem_append, List.take_append_drop]
      unfold JumpEdge
      simp only [hmem]
      grind
    · intro t
      unfold FallEdge
      rw [h4, h6]
      simp only [Option.some.injEq]
      constructor
      · rintro ⟨a, b⟩; exact ⟨a.symm, b⟩
      · rintro ⟨a, b⟩; exact ⟨a.symm, b⟩
    · intro t hfe
      unfold FallEdge at hfe
      rw [hnext] at hfe
      simp at hfe
    · intro x hx hxb t
      unfold JumpEdge FallEdge
      rw [h7 x hx hxb]
      exact ⟨Iff.rfl, Iff.rfl⟩
  · intro hw
    cases hx : blkIter P ((c.heap b).elems.drop i) with
    | ok u => exact absurd hx hw
    | error e =>
      have := blkIter_fails hx
      subst this
      have hs : c.splitBlock P b i = _ := he.trans (CFG.splitCut_err hx)
      refine ⟨_, hs, rfl, by simp [upd], by simp [upd], fun x hxb => by simp [upd, hxb], ?_⟩
      exact (CFG.heap_inv h _).indexOK

/-- Both cases occur. -/
example : BlockLike Py311.platform [.setLineno 4, nopI, .instr ⟨"JUMP_FORWARD", 110, .block 1, none⟩] := by
  unfold BlockLike; decide +kernel
example : ¬ BlockLike Py311.platform [.instr ⟨"JUMP_FORWARD", 110, .block 1, none⟩, nopI] := by
  unfold BlockLike; decide +kernel

end Verif
