import Verif.Proofs.CFG
/-
The search of `get_dead_blocks`.
-/
namespace Verif
open Spec

theorem mem_deadEdges {c : CFG} {a b : Nat} : b ∈ deadEdges (c.heap a).elems ↔ JumpEdge c a b := by
  unfold deadEdges JumpEdge
  rw [List.mem_filterMap]
  constructor
  · rintro ⟨e, he, h⟩
    cases e with
    | instr i =>
      left
      refine ⟨i, he, ?_⟩
      simp only [Arg.asBlock] at h
      split at h
      · rename_i h2
        simp only [Option.some.injEq] at h
        rw [h2, h]
      · cases h
    | tryBegin t =>
      right
      simp only [Option.some.injEq] at h
      exact ⟨t, he, h⟩
    | label l => cases h
    | setLineno n => cases h
    | tryEnd t => cases h
  · rintro (⟨i, hi, ha⟩ | ⟨t, ht, ha⟩)
    · exact ⟨_, hi, by simp [Arg.asBlock, ha]⟩
    · exact ⟨_, ht, by simp [ha]⟩

theorem deadLoop_ok {P : Platform} {c : CFG} {e : Nat} : ∀ (n : Nat) (st seen out : List Nat),
    deadLoop P c.heap n st seen = .ok out →
    (∀ b ∈ st, Star (JumpEdge c) e b) → (∀ b ∈ seen, Star (JumpEdge c) e b) →
    (∀ b ∈ seen, ∀ b', JumpEdge c b b' → b' ∈ seen ∨ b' ∈ st) →
    (∀ b ∈ seen, blkIter P (c.heap b).elems = .ok ()) →
    (∀ b ∈ out, Star (JumpEdge c) e b) ∧ (∀ b, b ∈ seen ∨ b ∈ st → b ∈ out) ∧
    (∀ b ∈ out, ∀ b', JumpEdge c b b' → b' ∈ out) ∧ (∀ b ∈ out, blkIter P (c.heap b).elems = .ok ()) := by
  intro n
  induction n with
  | zero => intro st seen out h; cases h
  | succ n ih =>
    intro st seen out h h1 h2 h3 h4
    cases st with
    | nil =>
      simp only [deadLoop, Except.ok.injEq] at h
      subst h
      refine ⟨h2, by simp, ?_, h4⟩
      intro b hb b' he
      simpa using h3 b hb b' he
    | cons a st =>
      unfold deadLoop at h
      split at h
      · rename_i ha
        obtain ⟨i1, i2, i3, i4⟩ := ih st seen out h (fun b hb => h1 b (by simp [hb])) h2 (by
          intro b hb b' he
          rcases h3 b hb b' he with h | h
          · exact .inl h
          · rcases List.mem_cons.1 h with h | h
            · subst h; exact .inl ha
            · exact .inr h) h4
        refine ⟨i1, ?_, i3, i4⟩
        intro b hb
        rcases hb with hb | hb
        · exact i2 b (.inl hb)
        · rcases List.mem_cons.1 hb with h | h
          · subst h; exact i2 b (.inl ha)
          · exact i2 b (.inr h)
      · rename_i ha
        obtain ⟨u, hu, h⟩ := except_bind_ok h
        obtain ⟨i1, i2, i3, i4⟩ := ih _ (a :: seen) out h (by
          intro b hb
          rw [List.mem_append, List.mem_reverse] at hb
          rcases hb with hb | hb
          · exact .tail (h1 a (by simp)) (mem_deadEdges.1 hb)
          · exact h1 b (by simp [hb])) (by
          intro b hb
          rcases List.mem_cons.1 hb with h | h
          · subst h; exact h1 b (by simp)
          · exact h2 b h) (by
          intro b hb b' he
          rw [List.mem_append, List.mem_reverse]
          rcases List.mem_cons.1 hb with h | h
          · subst h; exact .inr (.inl (mem_deadEdges.2 he))
          · rcases h3 b h b' he with h | h
            · exact .inl (by simp [h])
            · rcases List.mem_cons.1 h with h | h
              · exact .inl (by simp [h])
              · exact .inr (.inr h)) (by
          intro b hb
          rcases List.mem_cons.1 hb with h | h
          · subst h; exact hu
          · exact h4 b h)
        refine ⟨i1, ?_, i3, i4⟩
        intro b hb
        rcases hb with hb | hb
        · exact i2 b (.inl (by simp [hb]))
        · rcases List.mem_cons.1 hb with h | h
          · subst h; exact i2 b (.inl (by simp))
          · exact i2 b (.inr (by simp [h]))

/-- References in the blocks not yet seen. -/
def deadLeft (heap : Nat → Blk) (m : Nat) (seen : List Nat) : Nat :=
  ((List.range m).map (fun b => if b ∈ seen then 0 else (deadEdges (heap b).elems).length)).sum

theorem deadLeft_cons {heap : Nat → Blk} {m a : Nat} {seen : List Nat} (ha : a < m) (hs : a ∉ seen) :
    deadLeft heap m (a :: seen) + (deadEdges (heap a).elems).length = deadLeft heap m seen := by
  unfold deadLeft
  induction m with
  | zero => omega
  | succ m ih =>
    rw [List.range_succ, List.map_append, List.map_append, List.sum_append, List.sum_append]
    simp only [List.map_cons, List.map_nil, List.sum_cons, List.sum_nil, Nat.add_zero]
    by_cases hm : a = m
    · subst hm
      have : (List.range a).map (fun b => if b ∈ a :: seen then 0 else (deadEdges (heap b).elems).length) =
          (List.range a).map (fun b => if b ∈ seen then 0 else (deadEdges (heap b).elems).length) := by
        apply List.map_congr_left
        intro b hb
        rw [List.mem_range] at hb
        have : b ≠ a := by omega
        simp [this]
      rw [this]
      simp only [List.mem_cons, true_or, if_true, hs, if_false]
      omega
    · have := ih (by omega)
      have hm' : m ≠ a := fun h => hm h.symm
      simp only [List.mem_cons, hm', false_or] at this ⊢
      omega

theorem deadLoop_fuel {P : Platform} {c : CFG} (hc : Closed c) : ∀ (n : Nat) (st seen : List Nat),
    (∀ b ∈ st, b < c.fresh) → st.length + deadLeft c.heap c.fresh seen < n →
    deadLoop P c.heap n st seen ≠ .error .outOfFuel := by
  intro n
  induction n with
  | zero => intro st seen _ h; omega
  | succ n ih =>
    intro st seen hst hn
    cases st with
    | nil => simp [deadLoop]
    | cons a st =>
      unfold deadLoop
      split
      · exact ih st seen (fun b hb => hst b (by simp [hb])) (by simp at hn; omega)
      · rename_i ha
        have hal := hst a (by simp)
        cases hi : blkIter P (c.heap a).elems with
        | error e =>
          simp only [bind, Except.bind]
          intro he
          simp only [Except.error.injEq] at he
          subst he
          revert hi
          generalize (c.heap a).elems = es
          intro hi
          induction es with
          | nil => simp [blkIter] at hi
          | cons x r ihr =>
            unfold blkIter at hi
            simp only [bind, Except.bind] at hi
            cases hx : blkCheck P x r with
            | ok u => rw [hx] at hi; exact ihr hi
            | error e =>
              rw [hx] at hi
              simp only [Except.error.injEq] at hi
              subst hi
              unfold blkCheck at hx
              repeat' split at hx
              all_goals cases hx
        | ok u =>
          simp only [bind, Except.bind]
          refine ih _ _ ?_ ?_
          · intro b hb
            rw [List.mem_append, List.mem_reverse] at hb
            rcases hb with hb | hb
            · rcases mem_deadEdges.1 hb with ⟨i, hi, hb⟩ | ⟨t, ht, hb⟩
              · exact ((hc.2 a hal).1 i b hi hb)
              · rw [← hb]; exact (hc.2 a hal).2.1 t ht
            · exact hst b (by simp [hb])
          · have := deadLeft_cons (heap := c.heap) hal ha
            simp only [List.length_append, List.length_reverse, List.length_cons] at hn ⊢
            omega

end Verif
