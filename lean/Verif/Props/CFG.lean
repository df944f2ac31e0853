import Verif.Proofs.CFG
import Verif.Proofs.Dead
import Verif.Instances.Py311
import Mathlib.Data.List.Nodup
/-
C24 (block indexes), C25 (split_block), C28 (dead blocks).
-/
namespace Verif
open Spec

theorem CFG.inv_of_indexOK {c : CFG} (hI : IndexOK c) (hf : ∀ b ∈ c.blocks, b < c.fresh) : c.Inv := by
  refine ⟨?_, ?_, hf⟩
  · intro i b hb
    have := hI.1 i b hb
    unfold CFG.getBlockIndex at this
    split at this
    · simp only [Except.ok.injEq] at this
      rw [← this]; assumption
    · cases this
  · intro b hb
    have := hI.2 b hb
    unfold CFG.getBlockIndex at this
    split at this
    · cases this
    · assumption

/-- No deletion by a negative index. -/
def CFG.Op.nonneg : CFG.Op → Prop
  | .delIndex i => 0 ≤ i
  | _ => True

theorem CFG.step_inv {P : Platform} {c : CFG} (h : c.Inv) (op : CFG.Op) (hop : op.nonneg) : (c.step P op).Inv := by
  cases op with
  | addBlock es => exact CFG.addBlk_inv h _
  | addBlockFrom b =>
    unfold CFG.step CFG.addBlockFrom
    simp only
    cases blkIter P (c.heap b).elems with
    | error e => exact h
    | ok u => exact CFG.addBlk_inv h _
  | splitBlock b i => exact CFG.splitBlock_inv h b i
  | delIndex i =>
    simp only [CFG.Op.nonneg] at hop
    by_cases hk : i < c.blocks.length
    · obtain ⟨k, rfl⟩ : ∃ k : Nat, i = k := ⟨i.toNat, by omega⟩
      exact (CFG.delIndex_ok h (by omega)).2.2.2.2.2.2
    · unfold CFG.step
      simp only
      rw [CFG.delIndex_out hop (by omega)]
      exact h
  | delBlock b =>
    unfold CFG.step CFG.delBlock CFG.getBlockIndex
    simp only
    cases hb : c.index b with
    | none => exact h
    | some i =>
      obtain ⟨k, rfl, _, hk⟩ := h.get hb
      exact (CFG.delIndex_ok h hk).2.2.2.2.2.2
  | mutate b blk => exact CFG.heap_inv h _

theorem CFG.run_inv {P : Platform} (ops : List CFG.Op) : ∀ {c : CFG}, c.Inv → (∀ op ∈ ops, op.nonneg) →
    (ops.foldl (CFG.step P) c).Inv := by
  induction ops with
  | nil => intro c h _; exact h
  | cons op r ih =>
    intro c h ho
    exact ih (CFG.step_inv h op (ho op (by simp))) (fun o hm => ho o (by simp [hm]))

/-- **C24.** After any sequence of edits of a new CFG (adding blocks, splitting them at any index, deleting
them by block or by non-negative index, changing the contents of blocks in any way; edits that raise included),
`get_block_index` gives each block its position and raises ValueError for every other block.
Missing: deletions by a negative index, for which the statement is false (`C24_statement_false`). -/
theorem C24_indexes (P : Platform) (ops : List CFG.Op) (h : ∀ i, CFG.Op.delIndex i ∈ ops → 0 ≤ i) :
    IndexOK (ops.foldl (CFG.step P) CFG.new) := by
  refine (CFG.run_inv ops CFG.new_inv ?_).indexOK
  intro op ho
  cases op with
  | delIndex i => exact h i ho
  | _ => trivial

/-- The edits that raise ValueError or IndexError (deleting or splitting an absent block, index out of range) leave the
CFG as it was, and a deletion that succeeds removes exactly the block asked for. -/
theorem C24_delete (P : Platform) (ops : List CFG.Op) (h : ∀ i, CFG.Op.delIndex i ∈ ops → 0 ≤ i) :
    let c := ops.foldl (CFG.step P) CFG.new
    (∀ k : Nat, k < c.blocks.length → (c.delIndex k).2 = .ok () ∧ (c.delIndex k).1.blocks = c.blocks.eraseIdx k ∧
      (c.delIndex k).1.heap = c.heap) ∧
    (∀ k : Nat, c.blocks.length ≤ k → c.delIndex k = (c, .error .indexError)) ∧
    (∀ b, b ∈ c.blocks → (c.delBlock b).2 = .ok () ∧ (c.delBlock b).1.blocks = c.blocks.erase b ∧
      (c.delBlock b).1.heap = c.heap) ∧
    (∀ b, b ∉ c.blocks → c.delBlock b = (c, .error .valueError)) := by
  intro c
  have hI : c.Inv := CFG.run_inv ops CFG.new_inv (by
    intro op ho
    cases op with
    | delIndex i => exact h i ho
    | _ => trivial)
  refine ⟨?_, ?_, ?_, ?_⟩
  · intro k hk
    have := CFG.delIndex_ok hI hk
    exact ⟨this.1, this.2.1, this.2.2.1⟩
  · intro k hk
    exact CFG.delIndex_out (by omega) (by omega)
  · intro b hb
    obtain ⟨k, hk, hkb⟩ := List.getElem_of_mem hb
    have hk? : c.blocks[k]? = some b := by rw [List.getElem?_eq_getElem hk, hkb]
    have := CFG.delIndex_ok hI hk
    have he : c.delBlock b = c.delIndex k := by
      unfold CFG.delBlock CFG.getBlockIndex
      rw [hI.pos k b hk?]
    rw [he]
    refine ⟨this.1, ?_, this.2.2.1⟩
    rw [this.2.1]
    subst hkb
    rw [List.Nodup.erase_getElem hI.nodup k hk]
  · intro b hb
    unfold CFG.delBlock CFG.getBlockIndex
    rw [hI.absent b hb]

/-- C24 is false as stated: `del cfg[-1]` on three blocks leaves wrong indexes. -/
theorem C24_statement_false (P : Platform) :
    let c := [CFG.Op.addBlock [], .addBlock [], .delIndex (-1)].foldl (CFG.step P) CFG.new
    c.blocks = [0, 1] ∧ c.getBlockIndex 0 = .ok (-1) ∧ c.getBlockIndex 1 = .ok (-1) := by
  refine ⟨rfl, rfl, rfl⟩

/-- **C25 (partial).** `split_block(b, i)` with `i` inside a block whose elements after `i` are acceptable in a block:
it returns a new block; the block keeps its first `i` elements, the new block has the others, comes right after it and
is its next block; no other block changes; the whole code, in order, is the same.
Missing: the successor of the original block through fall-through is not kept (`C25_statement_false`). -/
theorem C25_partial (P : Platform) (c : CFG) (hI : IndexOK c) (hf : ∀ b ∈ c.blocks, b < c.fresh) (k b : Nat)
    (hb : c.blocks[k]? = some b) (i : Nat) (h0 : 0 < i)
    (hi : i < (c.heap b).elems.length ∨ (i = (c.heap b).elems.length ∧ k + 1 = c.blocks.length))
    (hw : blkIter P ((c.heap b).elems.drop i) = .ok ()) :
    ∃ n c', c.splitBlock P b i = (c', .ok n) ∧ n ∉ c.blocks ∧
      c'.blocks = c.blocks.take (k + 1) ++ n :: c.blocks.drop (k + 1) ∧
      (c'.heap b).elems = (c.heap b).elems.take i ∧ (c'.heap n).elems = (c.heap b).elems.drop i ∧
      (c'.heap b).next = some n ∧
      (∀ x ∈ c.blocks, x ≠ b → c'.heap x = c.heap x) ∧
      allCode c' = allCode c ∧ IndexOK c' := by
  have h : c.Inv := CFG.inv_of_indexOK hI hf
  have hlt : k < c.blocks.length := (List.getElem?_eq_some_iff.1 hb).1
  have hfr : c.fresh ∉ c.blocks := fun hm => by have := h.lt _ hm; omega
  have hbf : b ≠ c.fresh := fun he => hfr (he ▸ List.mem_of_getElem? hb)
  have he : c.splitBlock P b i = c.splitCut P k b i := by
    rw [CFG.splitBlock_eq h hb, if_neg (by omega), if_neg (by omega), if_neg (by omega), if_neg (by simp; omega)]
    simp
  obtain ⟨s1, s2, s3, _, _, _, s7⟩ := CFG.splitCut_ok h hb hw
  refine ⟨c.fresh, (c.splitCut P k b i).1, ?_, hfr, s2, ?_, ?_, ?_, ?_, ?_, s7.indexOK⟩
  · rw [he, ← s1]
  · rw [s3]; simp [upd, hbf]
  · rw [s3]; simp [upd]
  · rw [s3]; simp [upd, hbf]
  · intro x hx hxb
    rw [s3]
    have : x ≠ c.fresh := fun he => hfr (he ▸ hx)
    simp [upd, this, hxb]
  · have hbl : c.blocks = c.blocks.take k ++ b :: c.blocks.drop (k + 1) := by
      have hg : c.blocks[k] = b := by
        have := List.getElem?_eq_getElem hlt
        rw [hb] at this
        simpa using this.symm
      rw [← hg, ← List.drop_eq_getElem_cons hlt, List.take_append_drop]
    have htk : c.blocks.take (k + 1) = c.blocks.take k ++ [b] := by
      rw [List.take_add_one, hb]; rfl
    have hnb : ∀ j x, c.blocks[j]? = some x → j ≠ k → x ≠ b := by
      intro j x hx hj he
      subst he
      exact hj (h.getElem?_inj hx hb)
    unfold allCode
    rw [s2, s3, htk]
    conv => rhs; rw [hbl]
    simp only [List.flatMap_append, List.flatMap_cons, List.flatMap_nil, List.append_nil, List.append_assoc]
    have e1 : (c.blocks.take k).flatMap (fun x => (upd (upd c.heap b ⟨(c.heap b).elems.take i, some c.fresh⟩) c.fresh ⟨(c.heap b).elems.drop i, none⟩ x).elems) =
        (c.blocks.take k).flatMap (fun x => (c.heap x).elems) := by
      rw [List.flatMap_def, List.flatMap_def]
      congr 1
      apply List.map_congr_left
      intro x hx
      obtain ⟨j, hj, hjx⟩ := List.getElem_of_mem hx
      rw [List.getElem_take] at hjx
      rw [List.length_take] at hj
      have h1 : x ≠ b := hnb j x (by rw [List.getElem?_eq_getElem (by omega), hjx]) (by omega)
      have h2 : x ≠ c.fresh := fun he => hfr (he ▸ List.mem_of_mem_take hx)
      simp only [upd, h1, h2, if_false]
    have e2 : (c.blocks.drop (k + 1)).flatMap (fun x => (upd (upd c.heap b ⟨(c.heap b).elems.take i, some c.fresh⟩) c.fresh ⟨(c.heap b).elems.drop i, none⟩ x).elems) =
        (c.blocks.drop (k + 1)).flatMap (fun x => (c.heap x).elems) := by
      rw [List.flatMap_def, List.flatMap_def]
      congr 1
      apply List.map_congr_left
      intro x hx
      obtain ⟨j, hj, hjx⟩ := List.getElem_of_mem hx
      rw [List.getElem_drop] at hjx
      rw [List.length_drop] at hj
      have h1 : x ≠ b := hnb (k + 1 + j) x (by rw [List.getElem?_eq_getElem (by omega), hjx]) (by omega)
      have h2 : x ≠ c.fresh := fun he => hfr (he ▸ List.mem_of_mem_drop hx)
      simp only [upd, h1, h2, if_false]
    rw [e1, e2]
    simp [upd, hbf, ← List.append_assoc (List.take i _), List.take_append_drop]

/-- **C25 (the other cases).** Out of range indexes raise ValueError, index 0 gives the block itself and the length
gives the following block when there is one; nothing changes. A block that is not in the CFG raises ValueError. -/
theorem C25_cases (P : Platform) (c : CFG) (hI : IndexOK c) (hf : ∀ b ∈ c.blocks, b < c.fresh) :
    (∀ b i, b ∉ c.blocks → c.splitBlock P b i = (c, .error .valueError)) ∧
    ∀ k b, c.blocks[k]? = some b →
      (∀ i : Int, i < 0 ∨ i > (c.heap b).elems.length → c.splitBlock P b i = (c, .error .valueError)) ∧
      c.splitBlock P b 0 = (c, .ok b) ∧
      (∀ b', c.blocks[k + 1]? = some b' → (c.heap b).elems ≠ [] →
        c.splitBlock P b (c.heap b).elems.length = (c, .ok b')) := by
  have h : c.Inv := CFG.inv_of_indexOK hI hf
  refine ⟨?_, ?_⟩
  · intro b i hb
    unfold CFG.splitBlock CFG.getBlockIndex
    rw [h.absent b hb]
  · intro k b hb
    refine ⟨?_, ?_, ?_⟩
    · intro i hi
      rw [CFG.splitBlock_eq h hb]
      by_cases h0 : i < 0
      · rw [if_pos h0]
      · have : i > (c.heap b).elems.length := by omega
        rw [if_neg h0, if_neg (by omega), if_pos this]
    · rw [CFG.splitBlock_eq h hb]
      simp
    · intro b' hb' hne
      have : 0 < (c.heap b).elems.length := List.length_pos_iff.2 hne
      have hl := (List.getElem?_eq_some_iff.1 hb').1
      rw [CFG.splitBlock_eq h hb, if_neg (by omega), if_neg (by omega), if_neg (by omega), if_pos (by simp; omega), hb']
      rfl

/-- A CFG of given blocks, numbered from 0. -/
def mkCFG (bs : List Blk) : CFG where
  attrs := Attrs.default
  argnames := []
  blocks := List.range bs.length
  index := fun b => if b < bs.length then some (b : Int) else none
  heap := fun b => bs[b]?.getD ⟨[], none⟩
  fresh := bs.length

def nopI : BElem := .instr ⟨"NOP", 9, .unset, none⟩

/-- C25 is false as stated: two blocks, the first falling into the second; after the split the new block has no next
block. -/
theorem C25_statement_false :
    let c := mkCFG [⟨[nopI, nopI], some 1⟩, ⟨[nopI], none⟩]
    let c' := (c.splitBlock Py311.platform 0 1).1
    (c.splitBlock Py311.platform 0 1).2 = .ok 2 ∧ FallEdge c 0 1 ∧ ¬ FallEdge c' 2 1 := by
  refine ⟨by decide +kernel, ⟨by decide +kernel, by decide +kernel⟩, ?_⟩
  rintro ⟨h, _⟩
  exact absurd h (by decide +kernel)

/-- Another loss: the split of a block with a jump in the middle raises ValueError and drops the end of the block. -/
theorem C25_error_loses_code :
    let c := mkCFG [⟨[nopI, .instr ⟨"JUMP_FORWARD", 110, .block 1, none⟩, nopI], none⟩, ⟨[nopI], none⟩]
    (c.splitBlock Py311.platform 0 1).2 = .error .valueError ∧
    allCode (c.splitBlock Py311.platform 0 1).1 = [nopI, nopI] := by
  exact ⟨by decide +kernel, by decide +kernel⟩

/-- Non-vacuity of C25: the middle block of three, cut in two. -/
example : ∃ n c', (mkCFG [⟨[nopI], some 1⟩, ⟨[nopI, .setLineno 4, nopI], some 2⟩, ⟨[nopI], none⟩]).splitBlock
    Py311.platform 1 2 = (c', .ok n) ∧ c'.blocks = [0, 1, n, 2] := by
  have hI : IndexOK (mkCFG [⟨[nopI], some 1⟩, ⟨[nopI, .setLineno 4, nopI], some 2⟩, ⟨[nopI], none⟩]) := by
    refine ⟨?_, ?_⟩
    · intro i b hb
      have : i < 3 := (List.getElem?_eq_some_iff.1 hb).1
      have hb' := hb
      rcases i with _ | _ | _ | i
      all_goals first
        | omega
        | (simp [mkCFG, List.range, List.range.loop] at hb; subst hb; rfl)
    · intro b hb
      have : ¬ b < 3 := by
        intro h; exact hb (List.mem_range.2 h)
      simp [mkCFG, CFG.getBlockIndex, this]
  obtain ⟨n, c', h1, _, h2, _⟩ := C25_partial Py311.platform _ hI (by intro b hb; exact List.mem_range.1 hb) 1 1 rfl 2
    (by omega) (.inl (by decide +kernel)) (by decide +kernel)
  exact ⟨n, c', h1, h2⟩

/-- **C28.** On every CFG, `get_dead_blocks` never loops for ever, and when it returns, the blocks it returns
are exactly those of the CFG, in order, that cannot be reached from the first one through jumps and exception
handlers. It raises ValueError only when a block it reaches is malformed.
Missing: fall-through edges are not followed (`C28_statement_false`). -/
theorem C28_dead_blocks (P : Platform) (c : CFG) (hc : Closed c) :
    c.getDeadBlocks P ≠ .error .outOfFuel ∧
    ∀ dead, c.getDeadBlocks P = .ok dead →
      dead.Sublist c.blocks ∧ ∀ b, b ∈ dead ↔ b ∈ c.blocks ∧ ¬ JumpReachable c b := by
  unfold CFG.getDeadBlocks
  cases hbl : c.blocks with
  | nil =>
    refine ⟨by simp, ?_⟩
    intro dead h
    simp only [Except.ok.injEq] at h
    subst h
    exact ⟨List.Sublist.refl _, by simp⟩
  | cons e r =>
    simp only
    have he : e < c.fresh := hc.1 e (by simp [hbl])
    refine ⟨?_, ?_⟩
    · have hfuel := deadLoop_fuel (P := P) hc c.deadFuel [e] [] (by simpa using he) (by
        have : deadLeft c.heap c.fresh [] = ((List.range c.fresh).map (fun b => (deadEdges (c.heap b).elems).length)).sum := by
          unfold deadLeft; simp
        rw [this]
        unfold CFG.deadFuel
        simp only [List.length_cons, List.length_nil]
        omega)
      cases hd : deadLoop P c.heap c.deadFuel [e] [] with
      | ok s => simp [bind, Except.bind, pure, Except.pure]
      | error err =>
        simp only [bind, Except.bind]
        rw [hd] at hfuel
        exact hfuel
    · intro dead h
      obtain ⟨seen, hs, h⟩ := except_bind_ok h
      simp only [pure, Except.pure, Except.ok.injEq] at h
      subst h
      obtain ⟨h1, h2, h3, _⟩ := deadLoop_ok (e := e) _ _ _ _ hs (by intro b hb; simp at hb; subst hb; exact .refl _)
        (by simp) (by simp) (by simp)
      refine ⟨List.filter_sublist, ?_⟩
      intro b
      rw [List.mem_filter]
      simp only [decide_eq_true_eq]
      have key : b ∈ seen ↔ JumpReachable c b := by
        constructor
        · intro hb
          exact ⟨e, by simp [hbl], h1 b hb⟩
        · rintro ⟨e', he', hst⟩
          simp only [hbl, List.head?_cons, Option.some.injEq] at he'
          subst he'
          induction hst with
          | refl => exact h2 _ (.inr (by simp))
          | tail _ hedge ih => exact h3 _ ih _ hedge
      rw [key]

/-- Whatever the fall-through edges, an unreachable block is always reported. -/
theorem C28_complete (P : Platform) (c : CFG) (hc : Closed c) (dead : List Nat) (h : c.getDeadBlocks P = .ok dead)
    (b : Nat) (hb : b ∈ c.blocks) (hr : ¬ Reachable c b) : b ∈ dead := by
  refine (((C28_dead_blocks P c hc).2 dead h).2 b).2 ⟨hb, ?_⟩
  rintro ⟨e, he, hst⟩
  refine hr ⟨e, he, ?_⟩
  clear hr hb h hc
  induction hst with
  | refl => exact .refl _
  | tail _ hedge ih => exact .tail ih (.inl hedge)

/-- When every fall-through edge doubles a jump or handler edge, the answer is exact. -/
theorem C28_exact_partial (P : Platform) (c : CFG) (hc : Closed c) (dead : List Nat) (h : c.getDeadBlocks P = .ok dead)
    (hfall : ∀ a b, Reachable c a → FallEdge c a b → JumpEdge c a b) (b : Nat) :
    b ∈ dead ↔ b ∈ c.blocks ∧ ¬ Reachable c b := by
  rw [((C28_dead_blocks P c hc).2 dead h).2 b]
  have : JumpReachable c b ↔ Reachable c b := by
    constructor
    · rintro ⟨e, he, hst⟩
      refine ⟨e, he, ?_⟩
      induction hst with
      | refl => exact .refl _
      | tail _ hedge ih => exact .tail ih (.inl hedge)
    · rintro ⟨e, he, hst⟩
      refine ⟨e, he, ?_⟩
      induction hst with
      | refl => exact .refl _
      | tail hpre hedge ih =>
        refine .tail ih ?_
        rcases hedge with hedge | hedge
        · exact hedge
        · exact hfall _ _ ⟨e, he, hpre⟩ hedge
  rw [this]

/-- C28 is false as stated: the second block, reached by fall-through, is reported dead. -/
theorem C28_statement_false :
    let c := mkCFG [⟨[nopI], some 1⟩, ⟨[nopI], none⟩]
    Closed c ∧ c.getDeadBlocks Py311.platform = .ok [1] ∧ Reachable c 1 := by
  refine ⟨⟨by intro b hb; exact List.mem_range.1 hb, ?_⟩, by decide +kernel, 0, rfl, ?_⟩
  · intro b hb
    have hb : b < 2 := hb
    rcases b with _ | _ | b
    · refine ⟨?_, ?_, ?_⟩
      · intro i t hi ht
        simp [mkCFG, nopI] at hi; subst hi; simp at ht
      · intro t ht; simp [mkCFG, nopI] at ht
      · intro n hn; simp [mkCFG] at hn; subst hn; decide
    · refine ⟨?_, ?_, ?_⟩
      · intro i t hi ht
        simp [mkCFG, nopI] at hi; subst hi; simp at ht
      · intro t ht; simp [mkCFG, nopI] at ht
      · intro n hn; simp [mkCFG] at hn
    · omega
  · exact .tail (.refl _) (.inr ⟨rfl, by decide +kernel⟩)

/-- Non-vacuity: a jump over a dead block. -/
example : (mkCFG [⟨[.instr ⟨"JUMP_FORWARD", 110, .block 2, none⟩], none⟩, ⟨[nopI], some 2⟩, ⟨[nopI], none⟩]).getDeadBlocks
    Py311.platform = .ok [1] := by decide +kernel

end Verif
