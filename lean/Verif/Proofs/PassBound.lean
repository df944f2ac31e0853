import Verif.Proofs.Passes
import Verif.Spec.Passes
/-
How many passes jump resolution takes, from the layout it reaches or any layout above it.
-/
namespace Verif
open Spec

section
variable {P : Platform} {labels jumps : List (Nat × Nat)}

/-- How far the jumps of `l` are from those of `N`. -/
def gap (jumps : List (Nat × Nat)) (l N : List CInstr) : Nat :=
  (jumps.map (fun j => (((N[j.1]?).map (·.size)).getD 0 - ((l[j.1]?).map (·.size)).getD 0) / 2)).sum

theorem pass_gap {l out N : List CInstr} (hr : Ready P labels jumps l) (hp : PreFix P labels jumps l) (hb : Smaller out N)
    (h : jumpPass P labels jumps l = .ok (out, true)) : gap jumps out N < gap jumps l N := by
  have hsm := pass_smaller hr hp h
  have hlt : ∃ j ∈ jumps, (out[j.1]?).map (·.size) ≠ (l[j.1]?).map (·.size) := by
    refine Classical.byContradiction fun hno => ?_
    have : ∀ k ∈ jumps.map (·.1), (out[k]?).map (·.size) = (l[k]?).map (·.size) := by
      intro k hk
      obtain ⟨j, hj, rfl⟩ := List.mem_map.1 hk
      exact Classical.byContradiction fun hh => hno ⟨j, hj, hh⟩
    have := (jumpSteps_ok hr.nodup _ _ _ _ h).2.2 ⟨rfl, this⟩
    exact absurd this (by simp)
  have hval : ∀ j ∈ jumps, ∃ a b c : Nat, (l[j.1]?).map (·.size) = some (2 + 2 * a) ∧ (out[j.1]?).map (·.size) = some (2 + 2 * b) ∧
      (N[j.1]?).map (·.size) = some c ∧ a ≤ b ∧ 2 + 2 * b ≤ c := by
    intro j hj
    obtain ⟨k, lab⟩ := j
    obtain ⟨t, ci, g1, g2, g3, g4, g5, g6, g7, g8⟩ := pass_jump hr h hj
    have hsz := g4.built.size
    have hle := (hsm.2 k _ _ g3 g7).1
    have hkN : k < N.length := by rw [hb.1]; exact (List.getElem?_eq_some_iff.1 g7).1
    obtain ⟨cN, hcN⟩ : ∃ x, N[k]? = some x := ⟨_, List.getElem?_eq_getElem hkN⟩
    have hle' := (hb.2 k _ _ g7 hcN).1
    refine ⟨extNeeded (ci.arg.getD 0), extNeeded (jumpArg P ci (pos P l t) (pos P l k)).toNat, cN.size, by simp only [g3, Option.map_some]; rw [hsz, sizeFor],
      by simp only [g7, Option.map_some]; rfl, by simp only [hcN, Option.map_some], ?_, ?_⟩
    · simp only [hsz, sizeFor, Option.getD_some] at hle; omega
    · simp only [sizeFor] at hle'; exact hle'
  unfold gap
  obtain ⟨j, hj, hne⟩ := hlt
  refine sum_lt_sum jumps _ _ (fun x hx => ?_) hj ?_
  · obtain ⟨a, b, c, e1, e2, e3, e4, e5⟩ := hval x hx
    rw [e1, e2, e3]; simp only [Option.getD_some]; omega
  · obtain ⟨a, b, c, e1, e2, e3, e4, e5⟩ := hval j hj
    rw [e1, e2] at hne
    rw [e1, e2, e3]; simp only [Option.getD_some, ne_eq, Option.some.injEq] at hne ⊢; omega

/-- A consistent layout bounds the number of passes. -/
theorem loop_within (hP : P.WF) (n : Nat) (l N : List CInstr) (hr : Ready P labels jumps l) (hp : PreFix P labels jumps l)
    (hN : Ready P labels jumps N) (hcons : Consistent P labels jumps N) (hle : Smaller l N) (hn : gap jumps l N < n) :
    ∃ out, jumpLoop P labels jumps n l = .ok out := by
  induction n generalizing l with
  | zero => omega
  | succ n ih =>
    obtain ⟨⟨out, m⟩, h⟩ := pass_total hP hr hN hcons hle
    have hb := pass_below hP hr hN hcons hle h
    simp only [jumpLoop, h, bind, Except.bind]
    cases m with
    | false => exact ⟨out, rfl⟩
    | true =>
      simp only [if_true]
      have hs := pass_gap hr hp hb h
      exact ih out (pass_ready hr h) (pass_prefix hr hp h) hb (by omega)

theorem sum_indices {α : Type} (p : α → Bool) (f : α → Nat) (l : List α) (ks : List Nat) (hnd : ks.Nodup)
    (hk : ∀ k ∈ ks, ∃ a, l[k]? = some a ∧ p a = true) :
    (ks.map (fun k => ((l[k]?).map f).getD 0)).sum ≤ ((l.filter p).map f).sum := by
  induction l generalizing ks with
  | nil =>
    cases ks with
    | nil => simp
    | cons k ks => obtain ⟨a, h, _⟩ := hk k (by simp); simp at h
  | cons a l ih =>
    have step : ∀ ks : List Nat, ks.Nodup → 0 ∉ ks → (∀ k ∈ ks, ∃ x, (a :: l)[k]? = some x ∧ p x = true) →
        (ks.map (fun k => (((a :: l)[k]?).map f).getD 0)).sum ≤ ((l.filter p).map f).sum := by
      intro ks hnd h0 hk
      have := ih (ks.map (· - 1)) (by
        refine List.Pairwise.map _ (fun x y h => ?_) (List.Pairwise.and_mem.1 hnd)
        obtain ⟨hx, hy, hne⟩ := h
        have : x ≠ 0 := fun e => h0 (e ▸ hx)
        have : y ≠ 0 := fun e => h0 (e ▸ hy)
        omega) (by
        intro k hk'
        obtain ⟨k', hk1, rfl⟩ := List.mem_map.1 hk'
        obtain ⟨x, hx, hpx⟩ := hk k' hk1
        cases k' with
        | zero => exact absurd hk1 h0
        | succ k' => exact ⟨x, by simpa using hx, hpx⟩)
      refine Nat.le_trans (Nat.le_of_eq ?_) this
      rw [List.map_map]
      congr 1
      apply List.map_congr_left
      intro k hk'
      cases k with
      | zero => exact absurd hk' h0
      | succ k => simp
    by_cases h0 : 0 ∈ ks
    · have hp0 := List.perm_cons_erase h0
      have e1 := (hp0.map (fun k => (((a :: l)[k]?).map f).getD 0)).sum_nat
      rw [e1]
      obtain ⟨x, hx, hpx⟩ := hk 0 h0
      simp only [List.getElem?_cons_zero, Option.some.injEq] at hx
      subst hx
      have := step (ks.erase 0) (hnd.erase 0) (fun h => by have := (List.Nodup.mem_erase_iff hnd).1 h; exact this.1 rfl)
        (fun k hk' => hk k (List.mem_of_mem_erase hk'))
      simp only [List.map_cons, List.getElem?_cons_zero, Option.map_some, Option.getD_some, List.sum_cons, List.filter_cons, hpx, if_true]
      omega
    · have := step ks hnd h0 hk
      refine Nat.le_trans this ?_
      rw [List.filter_cons]
      split
      · simp
      · exact Nat.le_refl _
end

section
variable {κ : Type} [DecidableEq κ]
variable {P : Platform} {key : Arg → κ} {b : Bytecode} {c : Concrete}

theorem start_gap {st : Conv} {M : List Cell} (h : Start P b st M) {N : List CInstr} (hr : Ready P st.labels st.jumps N) (hlen : N.length = st.instrs.length) :
    gap st.jumps st.instrs N ≤ jumpPrefixes P N := by
  unfold gap jumpPrefixes
  have := sum_indices (fun i => P.hasJump i.opcode) prefixes N (st.jumps.map (·.1)) hr.nodup (by
    intro k hk
    obtain ⟨⟨k', lab⟩, hk', rfl⟩ := List.mem_map.1 hk
    obtain ⟨ci, g, hj⟩ := hr.jump k' lab hk'
    exact ⟨ci, g, hj.jump⟩)
  rw [List.map_map] at this
  refine Nat.le_trans (sum_le_sum _ _ _ (fun j hj => ?_)) this
  obtain ⟨k, lab⟩ := j
  obtain ⟨ci, g, hjj⟩ := hr.jump k lab hj
  have hk : k < st.instrs.length := by rw [← hlen]; exact (List.getElem?_eq_some_iff.1 g).1
  have e := List.getElem?_eq_getElem hk
  have := h.two k lab _ hj e
  simp only [g, e, Option.map_some, Option.getD_some, this, Function.comp, prefixes]
  exact Nat.le_refl _

/-- The passes it takes: one more than the EXTENDED_ARG prefixes of the jumps in the result. -/
theorem toConcrete_enough (hP : P.WF) {n m : Nat} (hcache : ∀ e ∈ b.elems, e.isCache = false)
    (hv : ∀ i, .instr i ∈ b.elems → ValidInstr P i) (h : toConcrete P key n b = .ok c) (hm : jumpPrefixes P (instrsOf c.elems) < m) :
    toConcrete P key m b = .ok c := by
  obtain ⟨st, M0, T, M, h1, h2, h3, h4, h5, h6⟩ := toConcrete_start hP hcache hv h
  have hci : (instrsOf c.elems) = code P M := by
    unfold instrsOf
    rw [h3.elems]
    induction code P M with
    | nil => rfl
    | cons x l ih => simp [ih]
  obtain ⟨r1, r2, r3⟩ := loop_consistent hP n _ _ h2.ready h6
  have hsm := smaller_of_shape h2 r1 r2
  obtain ⟨out, ho⟩ := loop_within hP m _ _ h2.ready h2.pre r1 r3 hsm (Nat.lt_of_le_of_lt (start_gap h2 r1 r2.1) (hci ▸ hm))
  have hsame : out = code P M := by
    rcases Nat.le_total n m with hnm | hnm
    · have := jumpLoop_mono hnm h6; rw [ho] at this; cases this; rfl
    · have := jumpLoop_mono hnm ho; rw [h6] at this; cases this; rfl
  subst hsame
  unfold toConcrete at h ⊢
  rw [h1] at h ⊢
  simp only [bind, Except.bind] at h ⊢
  rw [h6] at h
  rw [ho]
  exact h
end
end Verif
