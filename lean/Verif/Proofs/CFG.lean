import Verif.Spec.CFG
import Verif.Proofs.Resolve
/-
Lemmas about CFG edits and the search of dead blocks.
-/
namespace Verif
open Spec

theorem pyRange_cons {a : Int} {n : Nat} (h : a < n) : pyRange a n = a :: pyRange (a + 1) n := by
  unfold pyRange
  obtain ⟨m, hm⟩ : ∃ m, (n - a).toNat = m + 1 := ⟨(n - a).toNat - 1, by omega⟩
  have h2 : ((n : Int) - (a + 1)).toNat = m := by omega
  rw [hm, h2, List.range_succ_eq_map]
  simp only [List.map_cons, List.map_map, List.cons.injEq]
  refine ⟨by simp, List.map_congr_left ?_⟩
  intro k _
  simp only [Function.comp, Nat.succ_eq_add_one]
  omega

theorem pyRange_nil {a : Int} {n : Nat} (h : (n : Int) ≤ a) : pyRange a n = [] := by
  unfold pyRange
  have : ((n : Int) - a).toNat = 0 := by omega
  rw [this]; rfl

theorem pyPos_nat {len k : Nat} (h : k < len) : pyPos len k = some k := by
  unfold pyPos
  have h0 : ¬ ((k : Int) < 0) := by omega
  simp only [h0, if_false]
  rw [if_pos (by omega)]
  simp

theorem pyPos_some {len : Nat} {i : Int} {k : Nat} (h : pyPos len i = some k) (hi : 0 ≤ i) : i = k ∧ k < len := by
  unfold pyPos at h
  have h0 : ¬ (i < 0) := by omega
  simp only [h0, if_false] at h
  split at h
  · simp only [Option.some.injEq] at h; omega
  · cases h

theorem pyStart_nat {len k : Nat} (h : k ≤ len) : pyStart len k = k := by
  unfold pyStart
  rw [if_neg (by omega)]
  simp
  omega

theorem delLoop_eq (blocks : List Nat) : ∀ (m k : Nat) (idx : Nat → Option Int), k + m = blocks.length →
    delLoop blocks idx (pyRange k blocks.length) = shiftIndex (-1) idx (blocks.drop k) := by
  intro m
  induction m with
  | zero =>
    intro k idx h
    rw [pyRange_nil (by omega), List.drop_eq_nil_of_le (by omega)]
    rfl
  | succ m ih =>
    intro k idx h
    have hk : k < blocks.length := by omega
    rw [pyRange_cons (by omega), List.drop_eq_getElem_cons hk]
    unfold delLoop shiftIndex
    rw [pyPos_nat hk]
    simp only [Option.bind_some, List.getElem?_eq_getElem hk]
    cases hb : idx blocks[k] with
    | none => rfl
    | some v =>
      simp only
      have := ih (k + 1) (upd idx blocks[k] (some (v + -1))) (by omega)
      simpa [Int.sub_eq_add_neg] using this

theorem shiftIndex_ok (d : Int) (l : List Nat) : ∀ (idx : Nat → Option Int), l.Nodup → (∀ b ∈ l, (idx b).isSome) →
    (shiftIndex d idx l).2 = .ok () ∧ (∀ b ∈ l, (shiftIndex d idx l).1 b = (idx b).map (· + d)) ∧
    (∀ b, b ∉ l → (shiftIndex d idx l).1 b = idx b) := by
  induction l with
  | nil => intro idx _ _; exact ⟨rfl, by simp, by intro b _; rfl⟩
  | cons a r ih =>
    intro idx hn hs
    obtain ⟨v, hv⟩ := Option.isSome_iff_exists.1 (hs a (by simp))
    unfold shiftIndex
    simp only [hv]
    rw [List.nodup_cons] at hn
    have hs' : ∀ b ∈ r, (upd idx a (some (v + d)) b).isSome := by
      intro b hb
      have : b ≠ a := fun h => hn.1 (h ▸ hb)
      simp only [upd, this, if_false]
      exact hs b (by simp [hb])
    obtain ⟨h1, h2, h3⟩ := ih (upd idx a (some (v + d))) hn.2 hs'
    refine ⟨h1, ?_, ?_⟩
    · intro b hb
      by_cases hba : b = a
      · subst hba
        rw [h3 b hn.1, hv]
        simp [upd]
      · have hbr : b ∈ r := by simpa [hba] using hb
        rw [h2 b hbr]
        simp [upd, hba]
    · intro b hb
      simp only [List.mem_cons, not_or] at hb
      rw [h3 b hb.2]
      simp [upd, hb.1]

/-- Invariant of the dictionary. -/
structure CFG.Inv (c : CFG) : Prop where
  pos : ∀ (i b : Nat), c.blocks[i]? = some b → c.index b = some (i : Int)
  absent : ∀ b, b ∉ c.blocks → c.index b = none
  lt : ∀ b ∈ c.blocks, b < c.fresh

theorem CFG.Inv.nodup {c : CFG} (h : c.Inv) : c.blocks.Nodup := by
  unfold List.Nodup
  rw [List.pairwise_iff_getElem]
  intro i j hi hj hij heq
  have h1 := h.pos i _ (List.getElem?_eq_getElem hi)
  have h2 := h.pos j _ (List.getElem?_eq_getElem hj)
  rw [heq, h2] at h1
  simp only [Option.some.injEq] at h1
  omega

theorem CFG.Inv.indexOK {c : CFG} (h : c.Inv) : IndexOK c := by
  refine ⟨?_, ?_⟩
  · intro i b hb
    unfold CFG.getBlockIndex
    rw [h.pos i b hb]
  · intro b hb
    unfold CFG.getBlockIndex
    rw [h.absent b hb]

theorem CFG.Inv.get {c : CFG} (h : c.Inv) {b : Nat} {i : Int} (hi : c.index b = some i) :
    ∃ k : Nat, i = k ∧ c.blocks[k]? = some b ∧ k < c.blocks.length := by
  have hm : b ∈ c.blocks := by
    apply Classical.byContradiction
    intro hm
    rw [h.absent b hm] at hi; cases hi
  obtain ⟨k, hk, hb⟩ := List.getElem_of_mem hm
  have hb' : c.blocks[k]? = some b := by rw [List.getElem?_eq_getElem hk, hb]
  have := h.pos k b hb'
  rw [hi] at this
  simp only [Option.some.injEq] at this
  exact ⟨k, this, hb', hk⟩

theorem CFG.Inv.getElem?_inj {c : CFG} (h : c.Inv) {i j b : Nat} (hi : c.blocks[i]? = some b) (hj : c.blocks[j]? = some b) :
    i = j := by
  have h1 := h.pos i b hi
  have h2 := h.pos j b hj
  rw [h1] at h2
  simp only [Option.some.injEq] at h2
  omega

theorem CFG.addBlk_inv {c : CFG} (h : c.Inv) (blk : Blk) : (c.addBlk blk).Inv := by
  have hf : c.fresh ∉ c.blocks := fun hm => by have := h.lt _ hm; omega
  refine ⟨?_, ?_, ?_⟩
  · intro i b hb
    simp only [CFG.addBlk] at hb ⊢
    by_cases hi : i < c.blocks.length
    · rw [List.getElem?_append_left hi] at hb
      have : b ≠ c.fresh := fun he => hf (he ▸ List.mem_of_getElem? hb)
      simp only [upd, this, if_false]
      exact h.pos i b hb
    · rw [List.getElem?_append_right (by omega)] at hb
      have : i - c.blocks.length = 0 := by
        apply Classical.byContradiction
        intro hne
        obtain ⟨m, hm⟩ : ∃ m, i - c.blocks.length = m + 1 := ⟨i - c.blocks.length - 1, by omega⟩
        rw [hm] at hb; simp at hb
      rw [this] at hb
      simp only [List.getElem?_cons_zero, Option.some.injEq] at hb
      subst hb
      simp only [upd, if_true, Option.some.injEq]
      omega
  · intro b hb
    simp only [CFG.addBlk, List.mem_append, List.mem_singleton, not_or] at hb ⊢
    simp only [upd, hb.2, if_false]
    exact h.absent b hb.1
  · intro b hb
    simp only [CFG.addBlk, List.mem_append, List.mem_singleton] at hb ⊢
    rcases hb with hb | hb
    · have := h.lt b hb; omega
    · omega

theorem CFG.new_inv : CFG.new.Inv := by
  apply CFG.addBlk_inv
  refine ⟨?_, ?_, ?_⟩
  · intro i b hb; simp at hb
  · intro b _; rfl
  · intro b hb; simp at hb

/-- Deleting at a valid position. -/
theorem CFG.delIndex_ok {c : CFG} (h : c.Inv) {k : Nat} (hk : k < c.blocks.length) :
    (c.delIndex k).2 = .ok () ∧ (c.delIndex k).1.blocks = c.blocks.eraseIdx k ∧ (c.delIndex k).1.heap = c.heap ∧
    (c.delIndex k).1.fresh = c.fresh ∧ (c.delIndex k).1.attrs = c.attrs ∧ (c.delIndex k).1.argnames = c.argnames ∧
    (c.delIndex k).1.Inv := by
  have hb : c.blocks[k]? = some c.blocks[k] := List.getElem?_eq_getElem hk
  have hi := h.pos k _ hb
  have hnd := h.nodup
  have hlen : (c.blocks.eraseIdx k).length = c.blocks.length - 1 := List.length_eraseIdx_of_lt hk
  have hd : (c.blocks.eraseIdx k).drop k = c.blocks.drop (k + 1) := by
    rw [List.eraseIdx_eq_take_drop_succ, List.drop_append]
    simp [Nat.min_eq_left (Nat.le_of_lt hk)]
  have hnotin : c.blocks[k] ∉ c.blocks.eraseIdx k := by
    intro hm
    obtain ⟨j, hj, hjb⟩ := List.getElem_of_mem hm
    have hj? : (c.blocks.eraseIdx k)[j]? = some c.blocks[k] := by rw [List.getElem?_eq_getElem hj, hjb]
    rw [List.getElem?_eraseIdx] at hj?
    split at hj?
    · have := h.getElem?_inj hj? hb; omega
    · have := h.getElem?_inj hj? hb; omega
  have hdel : delLoop (c.blocks.eraseIdx k) (upd c.index c.blocks[k] none) (pyRange k (c.blocks.eraseIdx k).length) =
      shiftIndex (-1) (upd c.index c.blocks[k] none) (c.blocks.drop (k + 1)) := by
    rw [delLoop_eq _ ((c.blocks.eraseIdx k).length - k) k _ (by omega), hd]
  have hmem : ∀ b ∈ c.blocks.drop (k + 1), ∃ j, k < j ∧ c.blocks[j]? = some b := by
    intro b hb
    obtain ⟨j, hj, hjb⟩ := List.getElem_of_mem hb
    rw [List.getElem_drop] at hjb
    rw [List.length_drop] at hj
    exact ⟨k + 1 + j, by omega, by rw [List.getElem?_eq_getElem (by omega), hjb]⟩
  have hne : ∀ b ∈ c.blocks.drop (k + 1), b ≠ c.blocks[k] := by
    intro b hbm he
    obtain ⟨j, hj, hjb⟩ := hmem b hbm
    subst he
    have := h.getElem?_inj hjb hb
    omega
  obtain ⟨s1, s2, s3⟩ := shiftIndex_ok (-1) (c.blocks.drop (k + 1)) (upd c.index c.blocks[k] none)
    (hnd.sublist (List.drop_sublist _ _)) (by
      intro b hbm
      have := hne b hbm
      simp only [upd, this, if_false]
      obtain ⟨j, _, hjb⟩ := hmem b hbm
      rw [h.pos j b hjb]; rfl)
  have heq : c.delIndex k = ({ c with blocks := c.blocks.eraseIdx k, index := (shiftIndex (-1) (upd c.index c.blocks[k] none) (c.blocks.drop (k + 1))).1 }, (shiftIndex (-1) (upd c.index c.blocks[k] none) (c.blocks.drop (k + 1))).2) := by
    unfold CFG.delIndex
    rw [pyPos_nat hk]
    simp only [hb, hi, hdel]
  rw [heq]
  refine ⟨s1, rfl, rfl, rfl, rfl, rfl, ?_, ?_, ?_⟩
  · intro i b hbi
    simp only at hbi ⊢
    rw [List.getElem?_eraseIdx] at hbi
    split at hbi
    · rename_i hlt
      have hnd : b ∉ c.blocks.drop (k + 1) := by
        intro hm
        obtain ⟨j, hj, hjb⟩ := hmem b hm
        have := h.getElem?_inj hjb hbi
        omega
      rw [s3 b hnd]
      have : b ≠ c.blocks[k] := by
        intro he; subst he
        have := h.getElem?_inj hbi hb
        omega
      simp only [upd, this, if_false]
      exact h.pos i b hbi
    · rename_i hge
      have hlt : i + 1 < c.blocks.length := (List.getElem?_eq_some_iff.1 hbi).1
      have hm : b ∈ c.blocks.drop (k + 1) := by
        rw [List.mem_iff_getElem?]
        refine ⟨i - k, ?_⟩
        rw [List.getElem?_drop, ← hbi]
        congr 1; omega
      rw [s2 b hm]
      simp only [upd, hne b hm, if_false]
      rw [h.pos _ b hbi]
      simp
      omega
  · intro b hbm
    simp only at hbm ⊢
    by_cases hbk : b = c.blocks[k]
    · subst hbk
      rw [s3]
      · simp [upd]
      · intro hm; exact hne _ hm rfl
    · have hb2 : b ∉ c.blocks := by
        intro hm
        obtain ⟨j, hj, hjb⟩ := List.getElem_of_mem hm
        apply hbm
        rw [List.mem_eraseIdx_iff_getElem]
        refine ⟨j, hj, ?_, hjb⟩
        intro hjk
        subst hjk
        exact hbk hjb.symm
      rw [s3]
      · simp only [upd, hbk, if_false]; exact h.absent b hb2
      · intro hm; exact hb2 (List.mem_of_mem_drop hm)
  · intro b hbm
    exact h.lt b (List.mem_of_mem_eraseIdx hbm)

theorem CFG.delIndex_out {c : CFG} {i : Int} (hi : 0 ≤ i) (hk : c.blocks.length ≤ i) :
    c.delIndex i = (c, .error .indexError) := by
  unfold CFG.delIndex
  have : pyPos c.blocks.length i = none := by
    unfold pyPos
    simp only [show ¬ i < 0 by omega, if_false]
    rw [if_neg (by omega)]
  rw [this]

/-- The cut of `split_block`. -/
theorem CFG.splitCut_ok {P : Platform} {c : CFG} (h : c.Inv) {k b j : Nat} (hk : c.blocks[k]? = some b)
    (hi : blkIter P ((c.heap b).elems.drop j) = .ok ()) :
    (c.splitCut P k b j).2 = .ok c.fresh ∧
    (c.splitCut P k b j).1.blocks = c.blocks.take (k + 1) ++ c.fresh :: c.blocks.drop (k + 1) ∧
    (c.splitCut P k b j).1.heap = upd (upd c.heap b ⟨(c.heap b).elems.take j, some c.fresh⟩) c.fresh ⟨(c.heap b).elems.drop j, none⟩ ∧
    (c.splitCut P k b j).1.fresh = c.fresh + 1 ∧ (c.splitCut P k b j).1.attrs = c.attrs ∧
    (c.splitCut P k b j).1.argnames = c.argnames ∧
    (c.splitCut P k b j).1.Inv := by
  have hlt : k < c.blocks.length := (List.getElem?_eq_some_iff.1 hk).1
  have hnd := h.nodup
  have hf : c.fresh ∉ c.blocks := fun hm => by have := h.lt _ hm; omega
  have hpos : pyStart c.blocks.length ((k : Int) + 1) = k + 1 := pyStart_nat (k := k + 1) (by omega)
  have hmem : ∀ x ∈ c.blocks.drop (k + 1), ∃ j, k < j ∧ c.blocks[j]? = some x := by
    intro x hb
    obtain ⟨j, hj, hjb⟩ := List.getElem_of_mem hb
    rw [List.getElem_drop] at hjb
    rw [List.length_drop] at hj
    exact ⟨k + 1 + j, by omega, by rw [List.getElem?_eq_getElem (by omega), hjb]⟩
  obtain ⟨s1, s2, s3⟩ := shiftIndex_ok 1 (c.blocks.drop (k + 1)) c.index
    (hnd.sublist (List.drop_sublist _ _)) (by
      intro x hx
      obtain ⟨j, _, hjb⟩ := hmem x hx
      rw [h.pos j x hjb]; rfl)
  have hupd : upd (upd (upd c.heap b ⟨(c.heap b).elems.take j, (c.heap b).next⟩) b ⟨(c.heap b).elems.take j, some c.fresh⟩)
      c.fresh ⟨(c.heap b).elems.drop j, none⟩ =
      upd (upd c.heap b ⟨(c.heap b).elems.take j, some c.fresh⟩) c.fresh ⟨(c.heap b).elems.drop j, none⟩ := by
    funext x
    simp only [upd]
    split
    · rfl
    · split
      · rfl
      · rfl
  have heq : c.splitCut P k b j = ({ c with blocks := c.blocks.take (k + 1) ++ c.fresh :: c.blocks.drop (k + 1), index := upd (shiftIndex 1 c.index (c.blocks.drop (k + 1))).1 c.fresh (some ((k : Int) + 1)), heap := upd (upd c.heap b ⟨(c.heap b).elems.take j, some c.fresh⟩) c.fresh ⟨(c.heap b).elems.drop j, none⟩, fresh := c.fresh + 1 }, .ok c.fresh) := by
    unfold CFG.splitCut
    simp only [hi, hpos]
    generalize hg : shiftIndex 1 c.index (c.blocks.drop (k + 1)) = p at s1 ⊢
    obtain ⟨p1, p2⟩ := p
    simp only at s1
    subst s1
    simp only [hupd]
  rw [heq]
  have htl : (c.blocks.take (k + 1)).length = k + 1 := by
    rw [List.length_take]; omega
  refine ⟨rfl, rfl, rfl, rfl, rfl, rfl, ?_, ?_, ?_⟩
  · intro i x hx
    simp only at hx ⊢
    by_cases hi : i < k + 1
    · rw [List.getElem?_append_left (by omega), List.getElem?_take, if_pos hi] at hx
      have hne : x ≠ c.fresh := fun he => hf (he ▸ List.mem_of_getElem? hx)
      have hnm : x ∉ c.blocks.drop (k + 1) := by
        intro hm
        obtain ⟨j, hj, hjb⟩ := hmem x hm
        have := h.getElem?_inj hjb hx
        omega
      simp only [upd, hne, if_false]
      rw [s3 x hnm]
      exact h.pos i x hx
    · rw [List.getElem?_append_right (by omega), htl] at hx
      by_cases hi2 : i = k + 1
      · subst hi2
        simp only [Nat.sub_self, List.getElem?_cons_zero, Option.some.injEq] at hx
        subst hx
        simp [upd]
      · obtain ⟨m, hm⟩ : ∃ m, i - (k + 1) = m + 1 := ⟨i - (k + 1) - 1, by omega⟩
        rw [hm, List.getElem?_cons_succ, List.getElem?_drop] at hx
        have hne : x ≠ c.fresh := fun he => hf (he ▸ List.mem_of_getElem? hx)
        have hmm : x ∈ c.blocks.drop (k + 1) := by
          rw [List.mem_iff_getElem?]
          exact ⟨m, by rw [List.getElem?_drop, hx]⟩
        simp only [upd, hne, if_false]
        rw [s2 x hmm, h.pos _ x hx]
        simp
        omega
  · intro x hx
    simp only [List.mem_append, List.mem_cons, not_or] at hx
    have hb2 : x ∉ c.blocks := by
      intro hm
      rw [← List.take_append_drop (k + 1) c.blocks, List.mem_append] at hm
      rcases hm with hm | hm
      · exact hx.1 hm
      · exact hx.2.2 hm
    simp only [upd, hx.2.1, if_false]
    rw [s3 x hx.2.2]
    exact h.absent x hb2
  · intro x hx
    simp only [List.mem_append, List.mem_cons] at hx ⊢
    rcases hx with hx | hx | hx
    · have := h.lt x (List.mem_of_mem_take hx); omega
    · omega
    · have := h.lt x (List.mem_of_mem_drop hx); omega

theorem CFG.splitCut_err {P : Platform} {c : CFG} {bi : Int} {b j : Nat} {e : PyErr}
    (hi : blkIter P ((c.heap b).elems.drop j) = .error e) :
    c.splitCut P bi b j = ({ c with heap := upd c.heap b ⟨(c.heap b).elems.take j, (c.heap b).next⟩ }, .error e) := by
  unfold CFG.splitCut
  simp only [hi]

theorem CFG.heap_inv {c : CFG} (h : c.Inv) (f : Nat → Blk) : ({ c with heap := f } : CFG).Inv :=
  ⟨h.pos, h.absent, h.lt⟩

/-- `split_block` on a block of the graph: which of the cases. -/
theorem CFG.splitBlock_eq {P : Platform} {c : CFG} (h : c.Inv) {k b : Nat} (hk : c.blocks[k]? = some b) (i : Int) :
    c.splitBlock P b i =
      if i < 0 then (c, .error .valueError)
      else if i = 0 then (c, .ok b)
      else if i > (c.heap b).elems.length then (c, .error .valueError)
      else if i.toNat = (c.heap b).elems.length ∧ k + 1 < c.blocks.length then (c, .ok (c.blocks[k + 1]?.getD 0))
      else c.splitCut P k b i.toNat := by
  have hlt : k < c.blocks.length := (List.getElem?_eq_some_iff.1 hk).1
  unfold CFG.splitBlock CFG.getBlockIndex
  rw [h.pos k b hk]
  simp only [pyPos_nat hlt, Option.bind_some, hk]
  split
  · rfl
  · split
    · rfl
    · split
      · rfl
      · by_cases hc : i.toNat = (c.heap b).elems.length ∧ k + 1 < c.blocks.length
        · rw [if_pos hc, if_pos ⟨hc.1, by omega⟩]
          have hp : pyPos c.blocks.length ((k : Int) + 1) = some (k + 1) := pyPos_nat (k := k + 1) hc.2
          rw [hp]
          simp only [Option.bind_some, List.getElem?_eq_getElem hc.2, Option.getD_some]
        · rw [if_neg hc, if_neg (by intro hx; exact hc ⟨hx.1, by omega⟩)]

theorem CFG.splitBlock_inv {P : Platform} {c : CFG} (h : c.Inv) (b : Nat) (i : Int) : (c.splitBlock P b i).1.Inv := by
  by_cases hb : b ∈ c.blocks
  · obtain ⟨k, hk, hkb⟩ := List.getElem_of_mem hb
    have hk? : c.blocks[k]? = some b := by rw [List.getElem?_eq_getElem hk, hkb]
    rw [CFG.splitBlock_eq h hk?]
    split
    · exact h
    · split
      · exact h
      · split
        · exact h
        · split
          · exact h
          · cases hi : blkIter P ((c.heap b).elems.drop i.toNat) with
            | ok u => exact (CFG.splitCut_ok h hk? hi).2.2.2.2.2.2
            | error e =>
              rw [CFG.splitCut_err hi]
              exact CFG.heap_inv h _
  · unfold CFG.splitBlock CFG.getBlockIndex
    rw [h.absent b hb]
    exact h

end Verif
