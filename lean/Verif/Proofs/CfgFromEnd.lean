import Verif.Proofs.CfgFrom
/-
`from_bytecode`: labels, final passes, code of the result.
-/
namespace Verif
open Spec

theorem lastRange_some {n : Nat} {f : Nat → Bool} {p : Nat} (h : ((List.range n).filter f).getLast? = some p) :
    p < n ∧ f p = true ∧ ∀ q, p < q → q < n → f q = false := by
  obtain ⟨ys, hys⟩ := List.getLast?_eq_some_iff.1 h
  have hm : p ∈ (List.range n).filter f := by rw [hys]; simp
  rw [List.mem_filter, List.mem_range] at hm
  refine ⟨hm.1, hm.2, ?_⟩
  intro q hpq hq
  cases hf : f q with
  | false => rfl
  | true =>
    exfalso
    have hqm : q ∈ (List.range n).filter f := by rw [List.mem_filter, List.mem_range]; exact ⟨hq, hf⟩
    have hs : ((List.range n).filter f).Pairwise (· < ·) := List.Pairwise.filter _ List.pairwise_lt_range
    rw [hys] at hqm hs
    rw [List.pairwise_append] at hs
    rw [List.mem_append, List.mem_singleton] at hqm
    rcases hqm with h1 | h1
    · have := hs.2.2 q h1 p (by simp)
      omega
    · omega

theorem labelAt_of (es : List BElem) : ∀ (l p : Nat), es[p]? = some (.label l) → (∀ q, p < q → es[q]? ≠ some (.label l)) →
    labelAt l es = some (instrCount (es.take p)) := by
  induction es with
  | nil => intro l p h; simp at h
  | cons x r ih =>
    intro l p h hq
    cases p with
    | zero =>
      simp only [List.getElem?_cons_zero, Option.some.injEq] at h
      subst h
      have hn : labelAt l r = none := by
        have : ∀ q, r[q]? ≠ some (BElem.label l) := fun q => by
          have := hq (q + 1) (by omega)
          simpa using this
        clear ih hq
        induction r with
        | nil => rfl
        | cons y r ih =>
          have h0 := this 0
          have ih := ih (fun q => by have := this (q + 1); simpa using this)
          cases y with
          | label l' =>
            have : l' ≠ l := by intro h; subst h; exact h0 rfl
            simp [labelAt, ih, this]
          | instr i => simp [labelAt, ih]
          | setLineno i => simp [labelAt, ih]
          | tryBegin i => simp [labelAt, ih]
          | tryEnd i => simp [labelAt, ih]
      simp [labelAt, hn, instrCount]
    | succ p =>
      have h' : r[p]? = some (.label l) := by simpa using h
      have := ih l p h' (fun q hpq => by have := hq (q + 1) (by omega); simpa using this)
      cases x with
      | label l' => simp [labelAt, this, instrCount, BElem.isInstr]
      | instr i => simp [labelAt, this, instrCount, List.countP_cons, BElem.isInstr]
      | setLineno i => simp [labelAt, this, instrCount, BElem.isInstr]
      | tryBegin i => simp [labelAt, this, instrCount, BElem.isInstr]
      | tryEnd i => simp [labelAt, this, instrCount, BElem.isInstr]

theorem labelIndex_some {l p : Nat} {es : List BElem} (h : labelIndex l es = some p) :
    es[p]? = some (.label l) ∧ labelAt l es = some (instrCount (es.take p)) := by
  obtain ⟨h1, h2, h3⟩ := lastRange_some h
  have h2 := of_decide_eq_true h2
  refine ⟨h2, labelAt_of es l p h2 ?_⟩
  intro q hpq hq
  have hlt : q < es.length := (List.getElem?_eq_some_iff.1 hq).1
  have := h3 q hpq hlt
  rw [hq] at this
  simp at this

theorem mapM_ok_mem {α β : Type} {f : α → Py β} : ∀ {l : List α} {r : List β}, l.mapM f = .ok r →
    (∀ b ∈ r, ∃ a ∈ l, f a = .ok b) ∧ (∀ a ∈ l, ∃ b ∈ r, f a = .ok b) := by
  intro l
  induction l with
  | nil =>
    intro r h
    simp only [List.mapM_nil, pure, Except.pure, Except.ok.injEq] at h
    subst h
    simp
  | cons x l ih =>
    intro r h
    rw [List.mapM_cons] at h
    obtain ⟨y, hy, h⟩ := except_bind_ok h
    obtain ⟨ys, hys, h⟩ := except_bind_ok h
    simp only [pure, Except.pure, Except.ok.injEq] at h
    subst h
    obtain ⟨i1, i2⟩ := ih hys
    refine ⟨?_, ?_⟩
    · intro b hb
      rcases List.mem_cons.1 hb with rfl | hb
      · exact ⟨x, by simp, hy⟩
      · obtain ⟨a, ha, hf⟩ := i1 b hb
        exact ⟨a, by simp [ha], hf⟩
    · intro a ha
      rcases List.mem_cons.1 ha with rfl | ha
      · exact ⟨y, by simp, hy⟩
      · obtain ⟨b, hb, hf⟩ := i2 a ha
        exact ⟨b, by simp [hb], hf⟩

theorem blockStarts_ok {es : List BElem} {starts : List Nat} (h : blockStarts es = .ok starts) :
    (∀ p ∈ starts, ∃ l, labelIndex l es = some p) ∧
    (∀ e ∈ es, ∀ l, refLabel e = some l → ∃ p ∈ starts, labelIndex l es = some p) := by
  unfold blockStarts at h
  obtain ⟨h1, h2⟩ := mapM_ok_mem h
  refine ⟨?_, ?_⟩
  · intro p hp
    obtain ⟨l, _, hl⟩ := h1 p hp
    refine ⟨l, ?_⟩
    split at hl
    · rename_i k hk
      simp only [Except.ok.injEq] at hl
      rw [hk, hl]
    · cases hl
  · intro e he l hl
    obtain ⟨p, hp, hf⟩ := h2 l (List.mem_filterMap.2 ⟨e, he, hl⟩)
    refine ⟨p, hp, ?_⟩
    split at hf
    · rename_i k hk
      simp only [Except.ok.injEq] at hf
      rw [hk, hf]
    · cases hf

/-! ### Final passes -/

theorem insertEnds_code (ids : List Nat) : ∀ (ex : List Nat) (es : List BElem), codeOf (insertEnds ex es ids) = codeOf es := by
  induction ids with
  | nil => intro ex es; rfl
  | cons i r ih =>
    intro ex es
    unfold insertEnds
    split
    · exact ih _ _
    · rw [ih]; rfl

theorem applyEnds_code {labels : Nat → Option Nat} (ends : List (Nat × List Nat)) : ∀ {bs bs' : List Blk},
    applyEnds labels bs ends = .ok bs' → bs'.map codeBlk = bs.map codeBlk := by
  induction ends with
  | nil => intro bs bs' h; simp only [applyEnds, Except.ok.injEq] at h; rw [h]
  | cons x r ih =>
    intro bs bs' h
    obtain ⟨l, ids⟩ := x
    unfold applyEnds at h
    split at h
    · cases h
    · rename_i k hk
      rw [ih h]
      split
      · rename_i b hb
        rw [List.map_set]
        have : codeBlk ⟨insertEnds (leadingEnds b.elems) b.elems ids, b.next⟩ = codeBlk b := by
          unfold codeBlk; simp only [insertEnds_code]
        rw [this]
        apply List.ext_getElem?
        intro i
        rw [List.getElem?_set]
        split
        · rename_i hki
          subst hki
          rw [List.getElem?_map, hb]
          have : k < (bs.map codeBlk).length := by
            rw [List.length_map]; exact (List.getElem?_eq_some_iff.1 hb).1
          simp only [this, if_true, Option.map_some]
        · rfl
      · rfl

theorem resolved_append (f g : Nat → Option Nat) (a b : List BElem) : resolved f g (a ++ b) = resolved f g a ++ resolved f g b := by
  unfold resolved; rw [List.filterMap_append]

theorem resolved_codeOf (f g : Nat → Option Nat) (a : List BElem) : resolved f g (codeOf a) = resolved f g a := by
  unfold resolved codeOf
  rw [List.filterMap_filter]
  congr 1
  funext x
  cases x <;> rfl

theorem resolved_flatCode (f g : Nat → Option Nat) (bs : List Blk) : resolved f g (flatCode bs) = resolved f g (bs.flatMap (·.elems)) := by
  induction bs with
  | nil => rfl
  | cons b r ih =>
    have : flatCode (b :: r) = codeOf b.elems ++ flatCode r := rfl
    rw [this, List.flatMap_cons, resolved_append, resolved_append, ih, resolved_codeOf]

/-- Replacing labels by blocks. -/
theorem toBlock_resolved {labels lab blk : Nat → Option Nat} : ∀ {es es' : List BElem}, es.mapM (toBlockElem labels) = .ok es' →
    (∀ i, BElem.instr i ∈ es → ∀ b, i.arg ≠ .block b) →
    (∀ i, BElem.instr i ∈ es → ∀ l k, i.arg = .label l → labels l = some k → blk k = lab l) →
    resolved (fun _ => none) blk es' = resolved lab (fun _ => none) es ∧ instrCount es' = instrCount es := by
  intro es
  induction es with
  | nil =>
    intro es' h _ _
    simp only [List.mapM_nil, pure, Except.pure, Except.ok.injEq] at h
    subst h
    exact ⟨rfl, rfl⟩
  | cons x r ih =>
    intro es' h hnb hl
    rw [List.mapM_cons] at h
    obtain ⟨y, hy, h⟩ := except_bind_ok h
    obtain ⟨ys, hys, h⟩ := except_bind_ok h
    simp only [pure, Except.pure, Except.ok.injEq] at h
    subst h
    obtain ⟨i1, i2⟩ := ih hys (fun i hi => hnb i (by simp [hi])) (fun i hi => hl i (by simp [hi]))
    have key : resolved (fun _ => none) blk [y] = resolved lab (fun _ => none) [x] ∧ instrCount [y] = instrCount [x] := by
      unfold toBlockElem at hy
      split at hy
      · rename_i i
        split at hy
        · rename_i l hl'
          split at hy
          · rename_i k hk
            simp only [Except.ok.injEq] at hy
            subst hy
            refine ⟨?_, rfl⟩
            have := hl i (by simp) l k hl' hk
            simp only [resolved, List.filterMap_cons, List.filterMap_nil, argRef, hl', this]
          · cases hy
        · rename_i hnl
          simp only [Except.ok.injEq] at hy
          subst hy
          refine ⟨?_, rfl⟩
          have hb := hnb i (by simp)
          simp only [resolved, List.filterMap_cons, List.filterMap_nil]
          cases ha : i.arg with
          | label l => exact absurd ha (hnl l)
          | block b => exact absurd ha (hb b)
          | _ => rfl
      · split at hy
        · simp only [Except.ok.injEq] at hy
          subst hy; exact ⟨rfl, rfl⟩
        · cases hy
      · rename_i h1 h2
        simp only [Except.ok.injEq] at hy
        subst hy
        refine ⟨?_, rfl⟩
        cases x with
        | instr i => exact absurd rfl (h1 i)
        | _ => rfl
    have e1 : y :: ys = [y] ++ ys := rfl
    have e2 : x :: r = [x] ++ r := rfl
    rw [e1, e2, resolved_append, resolved_append, instrCount_append, instrCount_append, key.1, key.2, i1, i2]
    exact ⟨rfl, rfl⟩

theorem range_getD (bs : List Blk) (d : Blk) : (List.range bs.length).map (fun i => bs[i]?.getD d) = bs := by
  apply List.ext_getElem?
  intro i
  rw [List.getElem?_map]
  by_cases h : i < bs.length
  · simp [h]
  · simp [h]

theorem allCode_ofBlocks (at_ : Attrs) (an : List String) (bs : List Blk) : allCode (CFG.ofBlocks at_ an bs) = bs.flatMap (·.elems) := by
  unfold allCode CFG.ofBlocks
  simp only
  conv_rhs => rw [← range_getD bs ⟨[], none⟩]
  rw [List.flatMap_map]

theorem blockAt_range' (heap : Nat → Blk) (b : Nat) (len : Nat) : ∀ start, start ≤ b → b < start + len →
    blockAt heap b (List.range' start len) = some (((List.range' start (b - start)).map (fun k => instrCount (heap k).elems)).sum) := by
  induction len with
  | zero => intro start h1 h2; omega
  | succ n ih =>
    intro start h1 h2
    rw [List.range'_succ]
    unfold blockAt
    split
    · rename_i h; subst h; simp
    · rename_i h
      rw [ih (start + 1) (by omega) (by omega)]
      have : b - start = (b - (start + 1)) + 1 := by omega
      rw [this, List.range'_succ]
      simp [Nat.add_comm]

theorem blockAt_ofBlocks (bs : List Blk) (k : Nat) (h : k < bs.length) :
    blockAt (fun b => bs[b]?.getD ⟨[], none⟩) k (List.range bs.length) = some (instrCount ((bs.take k).flatMap (·.elems))) := by
  rw [List.range_eq_range', blockAt_range' _ k _ 0 (by omega) (by omega)]
  congr 1
  have : (bs.take k) = (List.range k).map (fun i => bs[i]?.getD ⟨[], none⟩) := by
    apply List.ext_getElem?
    intro i
    rw [List.getElem?_map, List.getElem?_take]
    by_cases hi : i < k
    · have : i < bs.length := by omega
      simp [hi, this]
    · simp [hi]
  rw [this, List.flatMap_map]
  unfold instrCount
  rw [List.countP_flatMap]
  simp only [Nat.sub_zero, List.range_eq_range']
  rfl

end Verif
