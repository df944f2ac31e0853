import Verif.Proofs.Resolve
import Verif.Spec.Jumps
/-
Jump resolution on arbitrary instruction lists.
-/
namespace Verif
open Spec

theorem units_pos (P : Platform) (i : CInstr) (h : 2 ≤ i.size) : P.unit ≤ i.units P := by
  unfold Platform.unit CInstr.units; split <;> omega

theorem sizeFor_ge (a e : Option Nat) : 2 ≤ sizeFor a e := by unfold sizeFor; omega

theorem pos_zero (P : Platform) (l : List CInstr) : pos P l 0 = 0 := by simp [pos]
theorem pos_cons (P : Platform) (i : CInstr) (l : List CInstr) (k : Nat) : pos P (i :: l) (k + 1) = i.units P + pos P l k := by
  simp [pos]

theorem labelOffsets_length (P : Platform) (o : Nat) (l : List CInstr) : (labelOffsets P o l).length = l.length + 1 := by
  induction l generalizing o with
  | nil => rfl
  | cons i l ih => simp [labelOffsets, ih]

theorem labelOffsets_get (P : Platform) (l : List CInstr) (h : ∀ i ∈ l, 2 ≤ i.size) (o k : Nat) :
    (labelOffsets P o l)[k]? = if k ≤ l.length then some (o + pos P l k) else none := by
  induction l generalizing o k with
  | nil => cases k <;> simp [labelOffsets, pos]
  | cons i l ih =>
    have hu := units_pos P i (h i (by simp))
    cases k with
    | zero => simp [labelOffsets, pos]
    | succ k =>
      simp only [labelOffsets, List.getElem?_cons_succ, List.length_cons, Nat.add_le_add_iff_right]
      rw [ih (fun x hx => h x (by simp [hx])), pos_cons]
      split
      · simp only [Option.some.injEq]; omega
      · rfl

theorem instrOffsets_length (P : Platform) (o : Nat) (l : List CInstr) : (instrOffsets P o l).length = l.length := by
  induction l generalizing o with
  | nil => rfl
  | cons i l ih => simp [instrOffsets, ih]

theorem instrOffsets_get (P : Platform) (l : List CInstr) (h : ∀ i ∈ l, 2 ≤ i.size) (o k : Nat) :
    (instrOffsets P o l)[k]? = if k < l.length then some (o + (pos P l (k + 1) - P.unit)) else none := by
  induction l generalizing o k with
  | nil => simp [instrOffsets]
  | cons i l ih =>
    have hu := units_pos P i (h i (by simp))
    cases k with
    | zero => simp [instrOffsets, pos]
    | succ k =>
      simp only [instrOffsets, List.getElem?_cons_succ, List.length_cons, Nat.add_lt_add_iff_right]
      rw [ih (fun x hx => h x (by simp [hx]))]
      split
      · rename_i hk
        simp only [Option.some.injEq]
        rw [pos_cons P i l (k + 1)]
        have : P.unit ≤ pos P l (k + 1) := by
          cases l with
          | nil => simp at hk
          | cons j l => rw [pos_cons]; have := units_pos P j (h j (by simp)); omega
        omega
      · rfl

theorem pos_le_pos (P : Platform) (l : List CInstr) {k m : Nat} (h : k ≤ m) : pos P l k ≤ pos P l m := by
  induction l generalizing k m with
  | nil => simp [pos]
  | cons i l ih =>
    cases k with
    | zero => simp [pos_zero]
    | succ k =>
      cases m with
      | zero => omega
      | succ m => rw [pos_cons, pos_cons]; have := ih (k := k) (m := m) (by omega); omega

theorem unit_pos (P : Platform) : 0 < P.unit := by unfold Platform.unit; split <;> omega

theorem pos_lt_pos (P : Platform) (l : List CInstr) (h2 : ∀ i ∈ l, 2 ≤ i.size) {k m : Nat} (h : k < m) (hm : m ≤ l.length) :
    pos P l k + P.unit ≤ pos P l m := by
  induction l generalizing k m with
  | nil => simp at hm; omega
  | cons i l ih =>
    cases m with
    | zero => omega
    | succ m =>
      rw [pos_cons]
      cases k with
      | zero => rw [pos_zero]; have := units_pos P i (h2 i (by simp)); omega
      | succ k =>
        rw [pos_cons]
        have := ih (k := k) (m := m) (fun x hx => h2 x (by simp [hx])) (by omega) (by simpa using hm)
        omega

theorem pos_append_left (P : Platform) (l m : List CInstr) {k : Nat} (h : k ≤ l.length) : pos P (l ++ m) k = pos P l k := by
  simp [pos, List.take_append_of_le_length h]

theorem pos_append_right (P : Platform) (l m : List CInstr) (k : Nat) : pos P (l ++ m) (l.length + k) = pos P l l.length + pos P m k := by
  simp [pos, List.take_length_add_append]

theorem pos_succ (P : Platform) (l : List CInstr) {k : Nat} {ci : CInstr} (h : l[k]? = some ci) : pos P l (k + 1) = pos P l k + ci.units P := by
  induction l generalizing k with
  | nil => simp at h
  | cons i l ih =>
    cases k with
    | zero => simp only [List.getElem?_cons_zero, Option.some.injEq] at h; subst h; simp [pos]
    | succ k =>
      simp only [List.getElem?_cons_succ] at h
      rw [pos_cons, pos_cons, ih h]; omega

/-- Positions only depend on sizes. -/
theorem pos_congr (P : Platform) {l l' : List CInstr} (h : l.map (·.size) = l'.map (·.size)) (k : Nat) : pos P l k = pos P l' k := by
  have hu : ∀ i : CInstr, i.units P = (fun n => if P.py310 then n / 2 else n) i.size := fun i => rfl
  unfold pos
  have h1 : ∀ l : List CInstr, (l.take k).map (CInstr.units P) = ((l.map (·.size)).take k).map (fun n => if P.py310 then n / 2 else n) := by
    intro l; rw [← List.map_take, List.map_map]; rfl
  rw [h1, h1, h]

/-- What one pass does. -/
structure PassOK (P : Platform) (labels jumps : List (Nat × Nat)) (offs : List Nat) (instrs out : List CInstr) : Prop where
  length : out.length = instrs.length
  other : ∀ k, k ∉ jumps.map (·.1) → out[k]? = instrs[k]?
  jump : ∀ k lab, (k, lab) ∈ jumps → ∃ ti target own ci ci', lookupLabel labels lab = .ok ti ∧ offs[ti]? = some target ∧
    offs[k]? = some own ∧ instrs[k]? = some ci ∧ ci.set_ P (some ci.name) (.int (jumpArg P ci target own)) = (ci', .ok ()) ∧
    out[k]? = some ci'

theorem jumpSteps_ok {P : Platform} {labels jumps : List (Nat × Nat)} {offs : List Nat} (hn : (jumps.map (·.1)).Nodup)
    (s out : List CInstr) (m m' : Bool) (h : jumps.foldlM (jumpStep P labels offs) (s, m) = .ok (out, m')) :
    PassOK P labels jumps offs s out ∧
    (m' = false ↔ m = false ∧ ∀ k ∈ jumps.map (·.1), (out[k]?).map (·.size) = (s[k]?).map (·.size)) := by
  induction jumps generalizing s m with
  | nil =>
    simp only [List.foldlM_nil, pure, Except.pure, Except.ok.injEq, Prod.mk.injEq] at h
    obtain ⟨rfl, rfl⟩ := h
    exact ⟨⟨rfl, fun _ _ => rfl, by simp⟩, by simp⟩
  | cons j jumps ih =>
    obtain ⟨k, lab⟩ := j
    simp only [List.map_cons, List.nodup_cons] at hn
    rw [List.foldlM_cons] at h
    obtain ⟨⟨s1, m1⟩, h1, h⟩ := except_bind_ok h
    obtain ⟨⟨hlen, hoth, hj⟩, hm⟩ := ih hn.2 s1 m1 h
    unfold jumpStep at h1
    obtain ⟨ti, hti, h1⟩ := except_bind_ok h1
    simp only at h1 hti
    split at h1
    · rename_i target own ci ht ho hc
      cases hset : ci.set_ P (some ci.name) (.int (jumpArg P ci target own)) with
      | mk ci' r =>
        rw [hset] at h1
        obtain ⟨u, hu, h1⟩ := except_bind_ok h1
        simp only [pure, Except.pure, Except.ok.injEq, Prod.mk.injEq] at h1
        obtain ⟨rfl, rfl⟩ := h1
        simp only at hu
        subst hu
        have hk : k < s.length := (List.getElem?_eq_some_iff.1 hc).1
        have hk1 : out[k]? = some ci' := by
          rw [hoth k hn.1, List.getElem?_set_self hk]
        refine ⟨⟨by simpa using hlen, ?_, ?_⟩, ?_⟩
        · intro x hx
          simp only [List.map_cons, List.mem_cons, not_or] at hx
          rw [hoth x hx.2, List.getElem?_set_ne (Ne.symm hx.1)]
        · intro x lab' hx
          rcases List.mem_cons.1 hx with hx | hx
          · cases hx
            exact ⟨ti, target, own, ci, ci', hti, ht, ho, hc, hset, hk1⟩
          · obtain ⟨ti', t', o', c1, c2, g1, g2, g3, g4, g5, g6⟩ := hj x lab' hx
            have hne : k ≠ x := by
              rintro rfl
              exact hn.1 (List.mem_map.2 ⟨(k, lab'), hx, rfl⟩)
            rw [List.getElem?_set_ne hne] at g4
            exact ⟨ti', t', o', c1, c2, g1, g2, g3, g4, g5, g6⟩
        · rw [hm]
          simp only [Bool.or_eq_false_iff, List.map_cons, List.mem_cons, forall_eq_or_imp, hk1, hc, Option.map_some,
            Option.some.injEq]
          have : (ci'.size != ci.size) = false ↔ ci'.size = ci.size := by simp
          rw [this, and_assoc]
          refine and_congr_right fun _ => and_congr_right fun _ => ?_
          refine forall_congr' fun x => imp_congr_right fun hx => ?_
          have hne : k ≠ x := by rintro rfl; exact hn.1 hx
          rw [List.getElem?_set_ne hne]
    · simp at h1

theorem jumpPass_ok {P : Platform} {labels jumps : List (Nat × Nat)} {instrs out : List CInstr} {m : Bool}
    (hn : (jumps.map (·.1)).Nodup) (h : jumpPass P labels jumps instrs = .ok (out, m)) :
    PassOK P labels jumps (labelOffsets P 0 instrs) instrs out ∧ (m = false ↔ out.map (·.size) = instrs.map (·.size)) := by
  obtain ⟨h1, h2⟩ := jumpSteps_ok hn _ _ _ _ h
  refine ⟨h1, h2.trans ?_⟩
  simp only [true_and]
  constructor
  · intro hk
    apply List.ext_getElem?
    intro k
    rw [List.getElem?_map, List.getElem?_map]
    by_cases hm : k ∈ jumps.map (·.1)
    · exact hk k hm
    · rw [h1.other k hm]
  · intro he k _
    rw [← List.getElem?_map, ← List.getElem?_map, he]

/-- The result of the loop comes out of a pass that changed no size. -/
theorem jumpLoop_ok {P : Platform} {labels jumps : List (Nat × Nat)} {n : Nat} {instrs out : List CInstr}
    (Inv : List CInstr → Prop) (hstep : ∀ l l' m, Inv l → jumpPass P labels jumps l = .ok (l', m) → Inv l')
    (h0 : Inv instrs) (h : jumpLoop P labels jumps n instrs = .ok out) :
    ∃ mid, Inv mid ∧ jumpPass P labels jumps mid = .ok (out, false) := by
  induction n generalizing instrs with
  | zero => simp [jumpLoop] at h
  | succ n ih =>
    simp only [jumpLoop] at h
    obtain ⟨⟨i1, m⟩, h1, h⟩ := except_bind_ok h
    cases m with
    | true => simp only [if_true] at h; exact ih (hstep _ _ _ h0 h1) h
    | false =>
      simp only [Bool.false_eq_true, if_false, pure, Except.pure, Except.ok.injEq] at h
      subst h
      exact ⟨instrs, h0, h1⟩

end Verif
