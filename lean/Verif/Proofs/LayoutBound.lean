import Verif.Proofs.PassBound
/-
A layout that has room for every jump bounds the layout jump resolution reaches.
-/
namespace Verif
open Spec

section
variable {P : Platform} {labels jumps : List (Nat × Nat)}

/-- Every jump has room for its argument. -/
def Wide (P : Platform) (labels jumps : List (Nat × Nat)) (N : List CInstr) : Prop :=
  (∀ i ∈ N, 2 ≤ i.size) ∧
  ∀ k lab, (k, lab) ∈ jumps → ∃ ci t, N[k]? = some ci ∧ lookupLabel labels lab = .ok t ∧ t ≤ N.length ∧
    0 ≤ jumpArg P ci (pos P N t) (pos P N k) ∧ jumpArg P ci (pos P N t) (pos P N k) ≤ 2147483647 ∧
    sizeFor (some (jumpArg P ci (pos P N t) (pos P N k)).toNat) none ≤ ci.size

theorem pass_wide {l out N : List CInstr} {m : Bool} (hr : Ready P labels jumps l) (hN : Wide P labels jumps N) (hle : Smaller l N)
    (h : jumpPass P labels jumps l = .ok (out, m)) : Smaller out N := by
  have hs := pass_same hr h
  refine ⟨by rw [hle.1, hs.1], fun k i i' hi hi' => ?_⟩
  have hkl : k < l.length := by have := (List.getElem?_eq_some_iff.1 hi).1; rw [hs.1] at this; exact this
  obtain ⟨i0, hi0⟩ : ∃ i0, l[k]? = some i0 := ⟨_, List.getElem?_eq_getElem hkl⟩
  obtain ⟨g1, g2, g3, _⟩ := hs.2 k i0 i hi0 hi
  obtain ⟨e1, e2, e3⟩ := hle.2 k i0 i' hi0 hi'
  refine ⟨?_, by rw [g2, e2], by rw [g3, e3]⟩
  by_cases hm : k ∈ jumps.map (·.1)
  · obtain ⟨⟨k', lab⟩, hk, rfl⟩ := List.mem_map.1 hm
    simp only at hi hi' hi0
    obtain ⟨t, ci, ht, htl, g, hj, _, _, g2', _⟩ := pass_jump hr h hk
    rw [g] at hi0; cases hi0
    rw [g2'] at hi; cases hi
    obtain ⟨cN, tN, c1, c2, c3, c4, c5, c6⟩ := hN.2 k' lab hk
    rw [c1] at hi'; cases hi'
    rw [ht] at c2; cases c2
    have hm := (jumpArg_mono hr.size hN.1 hle g c1 htl (hr.cache k' lab t _ hk ht g)).1
    exact Nat.le_trans (sizeFor_mono hm) c6
  · rw [g1 hm]; exact e1

theorem pass_wide_total {l N : List CInstr} (hP : P.WF) (hr : Ready P labels jumps l) (hN : Wide P labels jumps N) (hle : Smaller l N) :
    ∃ r, jumpPass P labels jumps l = .ok r := by
  refine pass_good hP hr ?_
  intro k lab hk
  obtain ⟨cN, t, c1, c2, c3, c4, c5, c6⟩ := hN.2 k lab hk
  obtain ⟨ci, g, hj⟩ := hr.jump k lab hk
  rw [hle.1] at c3
  obtain ⟨hm, hz⟩ := jumpArg_mono hr.size hN.1 hle g c1 c3 (hr.cache k lab t _ hk c2 g)
  have := hz c4
  refine ⟨t, ci, c2, c3, g, hj, this, ?_⟩
  omega

theorem loop_wide (hP : P.WF) (n : Nat) (l N : List CInstr) (hr : Ready P labels jumps l) (hp : PreFix P labels jumps l)
    (hN : Wide P labels jumps N) (hle : Smaller l N) :
    (∀ out, jumpLoop P labels jumps n l = .ok out → Smaller out N) ∧ (gap jumps l N < n → ∃ out, jumpLoop P labels jumps n l = .ok out) := by
  induction n generalizing l with
  | zero => exact ⟨fun out h => by simp [jumpLoop] at h, fun h => by omega⟩
  | succ n ih =>
    obtain ⟨⟨out, m⟩, h⟩ := pass_wide_total hP hr hN hle
    have hb := pass_wide hr hN hle h
    simp only [jumpLoop, h, bind, Except.bind]
    cases m with
    | false =>
      simp only [Bool.false_eq_true, if_false, pure, Except.pure, Except.ok.injEq]
      exact ⟨fun _ he => he ▸ hb, fun _ => ⟨out, rfl⟩⟩
    | true =>
      simp only [if_true]
      have hs := pass_gap hr hp hb h
      obtain ⟨i1, i2⟩ := ih out (pass_ready hr h) (pass_prefix hr hp h) hb
      exact ⟨i1, fun hn => i2 (by omega)⟩
end

section
variable {κ : Type} [DecidableEq κ]
variable {P : Platform} {key : Arg → κ} {b : Bytecode} {c : Concrete}

/-- A layout of the same operations: the same instructions with arguments and sizes of their own, other instructions at least
as large, every jump large enough for its argument and going to the same operation. -/
structure Room (P : Platform) (l N : List CInstr) : Prop where
  length : N.length = l.length
  same : ∀ (k : Nat) (i i' : CInstr), l[k]? = some i → N[k]? = some i' → i'.name = i.name ∧ i'.opcode = i.opcode
  two : ∀ i ∈ N, 2 ≤ i.size
  other : ∀ (k : Nat) (i i' : CInstr), l[k]? = some i → N[k]? = some i' → P.hasJump i.opcode = false → i.size ≤ i'.size
  jump : ∀ (k : Nat) (i i' : CInstr), l[k]? = some i → N[k]? = some i' → P.hasJump i.opcode = true →
    ∃ a, i'.arg = some a ∧ a ≤ 2147483647 ∧ sizeFor (some a) none ≤ i'.size
  dest : ∀ (k : Nat) (i i' : CInstr), l[k]? = some i → N[k]? = some i' → P.hasJump i.opcode = true →
    (i'.getJumpTarget P (pos P N k)).bind (fun t => opAt P t 0 0 (N.map .instr)) =
      (i.getJumpTarget P (pos P l k)).bind (fun t => opAt P t 0 0 (l.map .instr))

/-- The layout reached is below every layout with room. -/
theorem toConcrete_room (hP : P.WF) {passes : Nat} (hcache : ∀ e ∈ b.elems, e.isCache = false)
    (hv : ∀ i, .instr i ∈ b.elems → ValidInstr P i) (h : toConcrete P key passes b = .ok c) (l N : List CInstr)
    (hl : c.elems = l.map .instr) (hN : Room P l N) : ∀ (k : Nat) (i i' : CInstr), l[k]? = some i → N[k]? = some i' → i.size ≤ i'.size := by
  obtain ⟨st, M0, T, M, h1, h2, h3, h4, h5, h6⟩ := toConcrete_start hP hcache hv h
  have hl' : l = code P M := by
    have := h3.elems
    rw [hl] at this
    exact (List.map_inj_right (fun x y hxy => by cases hxy; rfl)).1 this
  subst hl'
  obtain ⟨hr, hs, hcons⟩ := loop_consistent hP passes _ _ h2.ready h6
  obtain ⟨n1, n2, n3, n4, n5, n6⟩ := hN
  have hkey : Wide P st.labels st.jumps N := by
    refine ⟨n3, ?_⟩
    intro k lab hk
    obtain ⟨ci, t, a, g1, g2, g3, g4, g5, g6, g7⟩ := hcons k lab hk
    obtain ⟨ci2, g1', hj⟩ := hr.jump k lab hk
    rw [g1] at g1'; cases g1'
    have hkN : k < N.length := by rw [n1]; exact (List.getElem?_eq_some_iff.1 g1).1
    obtain ⟨ci', hci'⟩ : ∃ x, N[k]? = some x := ⟨_, List.getElem?_eq_getElem hkN⟩
    obtain ⟨m1, m2⟩ := n2 k ci ci' g1 hci'
    obtain ⟨a', m6, m7, m8⟩ := n5 k ci ci' g1 hci' hj.jump
    have htgt : ci'.getJumpTarget P (pos P N k) = some (pos P N t : Int) := by
      rw [h4] at g2
      obtain ⟨_, K, _, hK⟩ := h3.label g2
      have hdest := n6 k ci ci' g1 hci' hj.jump
      have hK' := hK
      rw [h3.elems] at hK
      rw [g7] at hdest
      simp only [Option.bind_some] at hdest
      rw [hK] at hdest
      cases ht : ci'.getJumpTarget P (pos P N k) with
      | none => rw [ht] at hdest; simp at hdest
      | some off =>
        rw [ht] at hdest
        simp only [Option.bind_some] at hdest
        have := opAt_congr (P := P) (off := 0) (code P M) N n1 (fun k i i' hi hi' => ⟨(n2 k i i' hi hi').1, (n2 k i i' hi hi').2⟩) hr.size n3 t K 0 0 0 g3
          (by rw [Nat.zero_add]; exact hK)
        rw [Nat.zero_add] at this
        rw [opAt_inj hdest this]
    have hh := (jumpArg_target hP (by rw [m2]; exact hj.jump) m6 _ _).1 htgt
    refine ⟨ci', t, hci', g2, by rw [n1]; exact g3, ?_, ?_, ?_⟩
    · omega
    · omega
    · rw [← hh]; simpa using m8
  have hsm : Smaller st.instrs N := by
    refine ⟨by rw [n1, hs.1], fun k i i' hi hi' => ?_⟩
    have hk : k < (code P M).length := by rw [← n1]; exact (List.getElem?_eq_some_iff.1 hi').1
    have e1 : (code P M)[k]? = some _ := List.getElem?_eq_getElem hk
    obtain ⟨b1, b2, b3, _⟩ := hs.2 k i _ hi e1
    obtain ⟨m1, m2⟩ := n2 k _ i' e1 hi'
    refine ⟨?_, by rw [m1, b2], by rw [m2, b3]⟩
    by_cases hm : k ∈ st.jumps.map (·.1)
    · obtain ⟨⟨k', lab⟩, hk', rfl⟩ := List.mem_map.1 hm
      rw [h2.two k' lab i hk' hi]
      exact n3 i' (List.mem_of_getElem? hi')
    · have hnj : P.hasJump ((code P M)[k]).opcode = false := by
        cases hj : P.hasJump ((code P M)[k]).opcode with
        | false => rfl
        | true =>
          obtain ⟨lab, hlab⟩ := h3.jump_at e1 hj
          rw [← h5] at hlab
          exact absurd (List.mem_map.2 ⟨_, hlab, rfl⟩) hm
      have := n4 k _ i' e1 hi' hnj
      rw [b1 hm] at this; exact this
  intro k i i' hi hi'
  exact (((loop_wide hP passes _ _ h2.ready h2.pre hkey hsm).1 _ h6).2 k i i' hi hi').1

theorem room_prefixes {l N : List CInstr} (h : Room P l N) (hle : ∀ (k : Nat) (i i' : CInstr), l[k]? = some i → N[k]? = some i' → i.size ≤ i'.size) :
    jumpPrefixes P l ≤ jumpPrefixes P N := by
  have hsame := h.same
  have hlen := h.length
  clear h
  unfold jumpPrefixes
  induction l generalizing N with
  | nil => simp
  | cons i l ih =>
    cases N with
    | nil => simp at hlen
    | cons i' N =>
      have := ih (N := N) (fun k a a' ha ha' => hle (k + 1) a a' (by simpa using ha) (by simpa using ha'))
        (fun k a a' ha ha' => hsame (k + 1) a a' (by simpa using ha) (by simpa using ha')) (by simpa using hlen)
      have h1 := hle 0 i i' rfl rfl
      have h2 := (hsame 0 i i' rfl rfl).2
      rw [List.filter_cons, List.filter_cons, h2]
      split
      · simp only [List.map_cons, List.sum_cons, prefixes]
        have : (i.size - 2) / 2 ≤ (i'.size - 2) / 2 := Nat.div_le_div_right (by omega)
        unfold prefixes at *
        omega
      · exact this
end
end Verif
