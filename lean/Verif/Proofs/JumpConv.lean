import Verif.Proofs.Jumps
/-
Convergence of jump resolution: the passes are a monotone iteration from the smallest layout.
-/
namespace Verif
open Spec

/-- A jump instruction as the converter keeps it. -/
structure JInstr (P : Platform) (ci : CInstr) : Prop where
  built : Built P ci
  jump : P.hasJump ci.opcode = true

/-- State before or between passes. -/
structure Ready (P : Platform) (labels jumps : List (Nat × Nat)) (l : List CInstr) : Prop where
  nodup : (jumps.map (·.1)).Nodup
  size : ∀ i ∈ l, 2 ≤ i.size
  jump : ∀ k lab, (k, lab) ∈ jumps → ∃ ci, l[k]? = some ci ∧ JInstr P ci
  label : ∀ lab t, lookupLabel labels lab = .ok t → t ≤ l.length
  /-- no label inside the inline caches of a jump -/
  cache : ∀ k lab t ci, (k, lab) ∈ jumps → lookupLabel labels lab = .ok t → l[k]? = some ci → k < t →
    k + 1 + ci.useCacheOpcodes P ≤ t

theorem hasJump_arg {P : Platform} (hP : P.WF) {op : Nat} {n : String} (hn : P.opmap n = some op) (hb : op < P.minInstrumented)
    (h : P.hasJump op = true) : P.hasArg op = true := by
  apply hP.operand_arg n op hn hb
  simp only [Platform.hasJump, Bool.or_eq_true] at h
  rcases h with h | h <;> simp [h]

/-- The built instruction with its name, argument and location. -/
theorem built_eq {P : Platform} {ci : CInstr} (hb : Built P ci) {loc : Loc} (hl : ci.loc = some loc) : ci = mkI P ci.name ci.arg loc := by
  obtain ⟨n, o, a, l, e, s⟩ := ci
  simp only [mkI, CInstr.mk.injEq, true_and]
  have h1 := hb.name_op
  have h2 := hb.ext
  have h3 := hb.size
  simp only at h1 h2 h3 hl
  simp [h1, h2, h3, hl]

/-- Assigning an argument, for any location. -/
theorem built_set {P : Platform} {ci ci' : CInstr} {v : Int} (hb : Built P ci)
    (h : ci.set_ P (some ci.name) (.int v) = (ci', .ok ())) :
    ci' = { ci with arg := some v.toNat, size := sizeFor (some v.toNat) none } ∧ Built P ci' ∧ 0 ≤ v ∧ v ≤ 2147483647 := by
  obtain ⟨n, o, a, l, e, s⟩ := ci
  have key : ∀ loc, (⟨n, o, a, some loc, e, s⟩ : CInstr).set_ P (some n) (.int v) = ({ ci' with loc := some loc }, .ok ()) := by
    intro loc
    unfold CInstr.set_ at h ⊢
    simp only at h ⊢
    cases hl : lookupName P (some n) with
    | error e => rw [hl] at h; simp at h
    | ok p =>
      rw [hl] at h
      simp only at h ⊢
      cases hc : CInstr.checkArg P p.2 (.int v) with
      | error e => rw [hc] at h; simp at h
      | ok a' =>
        rw [hc] at h
        simp only [Prod.mk.injEq, and_true] at h ⊢
        rw [← h]
  have hloc : ci'.loc = l := by
    unfold CInstr.set_ at h
    simp only at h
    cases hl : lookupName P (some n) with
    | error e => rw [hl] at h; simp at h
    | ok p =>
      rw [hl] at h
      simp only at h
      cases hc : CInstr.checkArg P p.2 (.int v) with
      | error e => rw [hc] at h; simp at h
      | ok a' =>
        rw [hc] at h
        simp only [Prod.mk.injEq, and_true] at h
        rw [← h]
  have hb' : Built P (⟨n, o, a, some (Loc.line none), e, s⟩ : CInstr) := ⟨hb.1, hb.2, hb.3, hb.4, hb.5, hb.6, hb.7⟩
  have he := built_eq hb' rfl
  have hk := key (Loc.line none)
  rw [he] at hk
  obtain ⟨g1, g2, g3⟩ := mkI_set (he ▸ hb') hk rfl
  obtain ⟨n', o', a', l', e', s'⟩ := ci'
  simp only at hloc
  subst hloc
  have h2 := hb.ext
  have h1 := hb.name_op
  simp only at h2 h1
  subst h2
  simp only [mkI, CInstr.mk.injEq, true_and] at g1
  obtain ⟨rfl, rfl, rfl, rfl, rfl⟩ := g1
  refine ⟨by simp [h1], ⟨g2.1, g2.2, g2.3, g2.4, g2.5, g2.6, g2.7⟩, g3⟩

theorem jinstr_set_ok {P : Platform} (hP : P.WF) {ci : CInstr} {v : Int} (hb : JInstr P ci) (h1 : 0 ≤ v) (h2 : v ≤ 2147483647) :
    ci.set_ P (some ci.name) (.int v) = ({ ci with arg := some v.toNat, size := sizeFor (some v.toNat) none }, .ok ()) := by
  have hop := hb.built.name_op
  have hbase := hb.built.base
  have hext := hb.built.ext
  unfold CInstr.set_ lookupName
  simp only [hop, if_neg (Nat.not_le.2 hbase)]
  have hc : CInstr.checkArg P ci.opcode (.int v) = .ok (some v.toNat) := by
    unfold CInstr.checkArg checkArgInt
    rw [if_pos (hasJump_arg hP hop hbase hb.jump)]
    simp [h1, h2, Except.map]
  rw [hc]
  simp [computeSize_eq, hext]

/-- The argument written is the one whose target is the label. -/
theorem jumpArg_target {P : Platform} (hP : P.WF) {ci : CInstr} (hj : P.hasJump ci.opcode = true) {a : Nat} (ha : ci.arg = some a)
    (target own : Nat) : ci.getJumpTarget P own = some (target : Int) ↔ (a : Int) = jumpArg P ci target own := by
  unfold CInstr.getJumpTarget jumpArg CInstr.units
  rw [ha]
  simp only
  by_cases hf : isForwardRelJump P ci.name ci.opcode
  · simp only [hf, if_true, Option.some.injEq]; omega
  · simp only [hf]
    by_cases hb : isBackwardRelJump P ci.name ci.opcode
    · simp only [hb, if_true, Option.some.injEq]; simp only [Bool.false_eq_true, if_false, Option.some.injEq]; omega
    · simp only [hb, Bool.false_eq_true, if_false]
      have habs : isAbsJump P ci.opcode = true := by
        simp only [Platform.hasJump, Bool.or_eq_true] at hj
        unfold isForwardRelJump at hf
        unfold isBackwardRelJump at hb
        unfold Platform.HASJREL at hf hb
        unfold isAbsJump Platform.HASJABS
        rcases hj with hj | hj
        · rw [hj] at hf hb
          simp only [Bool.true_and, Bool.not_eq_true', Bool.not_eq_false] at hf hb
          exact absurd hf hb
        · split
          · rename_i h13; have := hP.no_jabs h13 ci.opcode; rw [this] at hj; exact absurd hj (by simp)
          · exact hj
      simp only [habs, if_true, Option.some.injEq]

theorem jumpArg_congr {P : Platform} {ci ci' : CInstr} (hn : ci'.name = ci.name) (ho : ci'.opcode = ci.opcode) (hs : ci'.size = ci.size)
    (t o : Nat) : jumpArg P ci' t o = jumpArg P ci t o := by
  unfold jumpArg CInstr.units CInstr.useCacheOpcodes
  rw [hn, ho, hs]

/-- Pointwise larger. -/
def Smaller (l l' : List CInstr) : Prop :=
  l'.length = l.length ∧ ∀ (k : Nat) (i i' : CInstr), l[k]? = some i → l'[k]? = some i' →
    i.size ≤ i'.size ∧ i'.name = i.name ∧ i'.opcode = i.opcode

theorem Smaller.units {P : Platform} {i i' : CInstr} (h : i.size ≤ i'.size) : i.units P ≤ i'.units P := by
  unfold CInstr.units; split <;> omega

theorem Smaller.tail {i i' : CInstr} {l l' : List CInstr} (h : Smaller (i :: l) (i' :: l')) : Smaller l l' :=
  ⟨by simpa using h.1, fun k a b ha hb => h.2 (k + 1) a b (by simpa using ha) (by simpa using hb)⟩

theorem pos_diff {P : Platform} {l l' : List CInstr} (h : Smaller l l') {k m : Nat} (hkm : k ≤ m) :
    pos P l m + pos P l' k ≤ pos P l' m + pos P l k := by
  induction l generalizing l' k m with
  | nil =>
    have : l' = [] := List.length_eq_zero_iff.1 h.1
    subst this; simp [pos]
  | cons i l ih =>
    cases l' with
    | nil => have := h.1; simp at this
    | cons i' l' =>
      have hu := Smaller.units (P := P) (h.2 0 i i' rfl rfl).1
      cases m with
      | zero => have : k = 0 := by omega
                subst this; simp [pos_zero]
      | succ m =>
        cases k with
        | zero =>
          simp only [pos_cons, pos_zero]
          have := ih h.tail (Nat.zero_le m)
          simp only [pos_zero] at this; omega
        | succ k =>
          simp only [pos_cons]
          have := ih h.tail (k := k) (m := m) (by omega)
          omega

theorem pos_skip {P : Platform} {l : List CInstr} (h2 : ∀ i ∈ l, 2 ≤ i.size) {k m n : Nat} (h : k + n ≤ m) (hm : m ≤ l.length) :
    pos P l k + n ≤ pos P l m := by
  induction n generalizing k with
  | zero => exact pos_le_pos P l (by omega)
  | succ n ih =>
    have h1 := pos_lt_pos P l h2 (k := k) (m := k + 1) (by omega) (by omega)
    have := unit_pos P
    have := ih (k := k + 1) (by omega)
    omega

/-- The argument of a jump grows with the layout (as a natural number); and if it is valid in the larger layout it is
valid in the smaller. -/
theorem jumpArg_mono {P : Platform} {l l' : List CInstr} (h2 : ∀ i ∈ l, 2 ≤ i.size) (h2' : ∀ i ∈ l', 2 ≤ i.size) (h : Smaller l l') {k t : Nat} {ci ci' : CInstr}
    (hk : l[k]? = some ci) (hk' : l'[k]? = some ci') (ht : t ≤ l.length)
    (hc : k < t → k + 1 + ci.useCacheOpcodes P ≤ t) :
    (jumpArg P ci (pos P l t) (pos P l k)).toNat ≤ (jumpArg P ci' (pos P l' t) (pos P l' k)).toNat ∧
    (0 ≤ jumpArg P ci' (pos P l' t) (pos P l' k) → 0 ≤ jumpArg P ci (pos P l t) (pos P l k)) := by
  obtain ⟨hs, hn, ho⟩ := h.2 k ci ci' hk hk'
  have hcache : ci'.useCacheOpcodes P = ci.useCacheOpcodes P := by unfold CInstr.useCacheOpcodes; rw [ho]
  have e1 := pos_succ P l hk
  have e1' := pos_succ P l' hk'
  have hlen := h.1
  unfold jumpArg
  rw [hn, ho, hcache]
  generalize ci.useCacheOpcodes P = C at *
  simp only
  split
  · -- forward
    by_cases hkt : k < t
    · have d := pos_diff (P := P) h (k := k + 1) (m := t) (by omega)
      have sk := pos_skip (P := P) h2 (hc hkt) ht
      have p := pos_le_pos P l (k := k + 1) (m := t) (by omega)
      have p' := pos_le_pos P l' (k := k + 1) (m := t) (by omega)
      omega
    · have p := pos_le_pos P l (k := t) (m := k) (by omega)
      have p' := pos_le_pos P l' (k := t) (m := k) (by omega)
      have := pos_lt_pos P l h2 (k := k) (m := k + 1) (by omega) (by have := (List.getElem?_eq_some_iff.1 hk).1; omega)
      have := pos_lt_pos P l' h2' (k := k) (m := k + 1) (by omega) (by have := (List.getElem?_eq_some_iff.1 hk').1; omega)
      have := unit_pos P
      omega
  · split
    · by_cases hkt : k < t
      · have d := pos_diff (P := P) h (k := k + 1) (m := t) (by omega)
        have sk := pos_skip (P := P) h2 (hc hkt) ht
        omega
      · have p := pos_diff (P := P) h (k := t) (m := k + 1) (by omega)
        have q := pos_le_pos P l (k := t) (m := k + 1) (by omega)
        have q' := pos_le_pos P l' (k := t) (m := k + 1) (by omega)
        omega
    · have p := pos_diff (P := P) h (k := 0) (m := t) (by omega)
      simp only [pos_zero] at p
      omega

theorem extNeeded_mono {a b : Nat} (h : a ≤ b) : extNeeded a ≤ extNeeded b := by
  rw [extNeeded_le_iff]
  have := (extNeeded_le_iff (extNeeded b) b).1 (Nat.le_refl _)
  omega

theorem sizeFor_mono {a b : Nat} (h : a ≤ b) : sizeFor (some a) none ≤ sizeFor (some b) none := by
  have := extNeeded_mono h
  simp [sizeFor]; omega

/-- Every jump is at most as large as the pass will make it. -/
def PreFix (P : Platform) (labels jumps : List (Nat × Nat)) (l : List CInstr) : Prop :=
  ∀ k lab t ci, (k, lab) ∈ jumps → lookupLabel labels lab = .ok t → l[k]? = some ci →
    ci.size ≤ sizeFor (some (jumpArg P ci (pos P l t) (pos P l k)).toNat) none

section
variable {P : Platform} {labels jumps : List (Nat × Nat)}

/-- One pass, with offsets as positions. -/
theorem pass_jump {l out : List CInstr} {m : Bool} (hr : Ready P labels jumps l) (h : jumpPass P labels jumps l = .ok (out, m))
    {k lab : Nat} (hk : (k, lab) ∈ jumps) : ∃ t ci, lookupLabel labels lab = .ok t ∧ t ≤ l.length ∧ l[k]? = some ci ∧ JInstr P ci ∧
      0 ≤ jumpArg P ci (pos P l t) (pos P l k) ∧ jumpArg P ci (pos P l t) (pos P l k) ≤ 2147483647 ∧
      out[k]? = some { ci with arg := some (jumpArg P ci (pos P l t) (pos P l k)).toNat,
                               size := sizeFor (some (jumpArg P ci (pos P l t) (pos P l k)).toNat) none } ∧
      Built P { ci with arg := some (jumpArg P ci (pos P l t) (pos P l k)).toNat,
                        size := sizeFor (some (jumpArg P ci (pos P l t) (pos P l k)).toNat) none } := by
  obtain ⟨h1, _⟩ := jumpPass_ok hr.nodup h
  obtain ⟨ti, target, own, ci, ci', g1, g2, g3, g4, g5, g6⟩ := h1.jump k lab hk
  obtain ⟨ci2, g4', hj⟩ := hr.jump k lab hk
  rw [g4] at g4'; cases g4'
  rw [labelOffsets_get P l hr.size] at g2 g3
  split at g2
  · rename_i htl
    split at g3
    · simp only [Nat.zero_add, Option.some.injEq] at g2 g3
      subst g2 g3
      obtain ⟨e1, e2, e3, e4⟩ := built_set hj.built g5
      exact ⟨ti, ci, g1, htl, g4, hj, e3, e4, e1 ▸ g6, e1 ▸ e2⟩
    · simp at g3
  · simp at g2

theorem pass_same {l out : List CInstr} {m : Bool} (hr : Ready P labels jumps l) (h : jumpPass P labels jumps l = .ok (out, m)) :
    SameShape (jumps.map (·.1)) l out := by
  obtain ⟨h1, _⟩ := jumpPass_ok hr.nodup h
  refine ⟨h1.length, fun k i i' hi hi' => ?_⟩
  by_cases hm : k ∈ jumps.map (·.1)
  · obtain ⟨⟨k', lab⟩, hk, rfl⟩ := List.mem_map.1 hm
    obtain ⟨t, ci, _, _, g, _, _, _, g2, _⟩ := pass_jump hr h hk
    simp only at hi hi'
    rw [g] at hi; cases hi
    rw [g2] at hi'; cases hi'
    exact ⟨fun hh => absurd hm hh, rfl, rfl, rfl, rfl⟩
  · have := h1.other k hm
    rw [hi, hi'] at this
    cases this
    exact ⟨fun _ => rfl, rfl, rfl, rfl, rfl⟩

theorem pass_ready {l out : List CInstr} {m : Bool} (hr : Ready P labels jumps l) (h : jumpPass P labels jumps l = .ok (out, m)) :
    Ready P labels jumps out := by
  obtain ⟨h1, _⟩ := jumpPass_ok hr.nodup h
  have hs := pass_same hr h
  refine ⟨hr.nodup, ?_, ?_, ?_, ?_⟩
  · intro i hi
    obtain ⟨k, hk⟩ := List.mem_iff_getElem?.1 hi
    by_cases hm : k ∈ jumps.map (·.1)
    · obtain ⟨⟨k', lab⟩, hk', rfl⟩ := List.mem_map.1 hm
      obtain ⟨t, ci, _, _, g, _, _, _, g2, _⟩ := pass_jump hr h hk'
      simp only at hk
      rw [g2] at hk; cases hk
      simp only [sizeFor]; omega
    · rw [h1.other k hm] at hk
      exact hr.size i (List.mem_of_getElem? hk)
  · intro k lab hk
    obtain ⟨t, ci, _, _, g, hj, _, _, g2, g3⟩ := pass_jump hr h hk
    exact ⟨_, g2, g3, hj.jump⟩
  · intro lab t ht; rw [h1.length]; exact hr.label lab t ht
  · intro k lab t ci hk ht hc hlt
    obtain ⟨t', ci0, _, _, g, hj, _, _, g2, g3⟩ := pass_jump hr h hk
    have := hr.cache k lab t ci0 hk ht g hlt
    rw [g2] at hc; cases hc
    exact this

theorem pass_smaller {l out : List CInstr} {m : Bool} (hr : Ready P labels jumps l) (hp : PreFix P labels jumps l)
    (h : jumpPass P labels jumps l = .ok (out, m)) : Smaller l out := by
  have hs := pass_same hr h
  refine ⟨hs.1, fun k i i' hi hi' => ?_⟩
  obtain ⟨g1, g2, g3, _⟩ := hs.2 k i i' hi hi'
  refine ⟨?_, g2, g3⟩
  by_cases hm : k ∈ jumps.map (·.1)
  · obtain ⟨⟨k', lab⟩, hk, rfl⟩ := List.mem_map.1 hm
    obtain ⟨t, ci, ht, _, g, _, _, _, g2, _⟩ := pass_jump hr h hk
    simp only at hi hi'
    rw [g] at hi; cases hi
    rw [g2] at hi'; cases hi'
    exact hp k' lab t _ hk ht g
  · rw [g1 hm]; exact Nat.le_refl _

theorem pass_prefix {l out : List CInstr} {m : Bool} (hr : Ready P labels jumps l) (hp : PreFix P labels jumps l)
    (h : jumpPass P labels jumps l = .ok (out, m)) : PreFix P labels jumps out := by
  have hsm := pass_smaller hr hp h
  have hr' := pass_ready hr h
  intro k lab t ci hk ht hc
  obtain ⟨t', ci0, ht', htl, g, hj, _, _, g2, g3⟩ := pass_jump hr h hk
  rw [ht] at ht'; cases ht'
  have hcc := hc
  rw [g2] at hc; cases hc
  simp only
  refine sizeFor_mono ?_
  exact (jumpArg_mono hr.size hr'.size hsm g hcc htl (hr.cache k lab t _ hk ht g)).1

/-- A consistent layout is above every pass. -/
theorem pass_below {l out N : List CInstr} {m : Bool} (hP : P.WF) (hr : Ready P labels jumps l)
    (hN : Ready P labels jumps N) (hcons : Consistent P labels jumps N) (hle : Smaller l N)
    (h : jumpPass P labels jumps l = .ok (out, m)) : Smaller out N := by
  have hs := pass_same hr h
  refine ⟨by rw [hle.1, hs.1], fun k i i' hi hi' => ?_⟩
  have hkl : k < l.length := by have := (List.getElem?_eq_some_iff.1 hi).1; rw [hs.1] at this; exact this
  obtain ⟨i0, hi0⟩ : ∃ i0, l[k]? = some i0 := ⟨_, List.getElem?_eq_getElem hkl⟩
  obtain ⟨g1, g2, g3, _⟩ := hs.2 k i0 i hi0 hi
  obtain ⟨e1, e2, e3⟩ := hle.2 k i0 i' hi0 hi'
  refine ⟨?_, by rw [g2, e2], by rw [g3, e3]⟩
  by_cases hm : k ∈ jumps.map (·.1)
  · obtain ⟨⟨k', lab⟩, hk, rfl⟩ := List.mem_map.1 hm
    simp only at hi hi' hi0
    obtain ⟨t, ci, ht, htl, g, hj, _, _, g2', _⟩ := pass_jump hr h hk
    rw [g] at hi0; cases hi0
    rw [g2'] at hi; cases hi
    obtain ⟨cN, tN, a, c1, c2, c3, c4, c5, c6, c7⟩ := hcons k' lab hk
    rw [c1] at hi'; cases hi'
    rw [ht] at c2; cases c2
    have := (jumpArg_target hP (by rw [e3]; exact hj.jump) c4 _ _).1 c7
    have hm := (jumpArg_mono hr.size hN.size hle g c1 htl (hr.cache k' lab t _ hk ht g)).1
    rw [← this] at hm
    simp only [c6]
    exact sizeFor_mono (by simpa using hm)
  · rw [g1 hm]; exact e1

/-- A pass that finds every label and a good argument for every jump does not fail. -/
theorem pass_good {l : List CInstr} (hP : P.WF) (hr : Ready P labels jumps l)
    (hgood : ∀ k lab, (k, lab) ∈ jumps → ∃ t ci, lookupLabel labels lab = .ok t ∧ t ≤ l.length ∧ l[k]? = some ci ∧ JInstr P ci ∧
      0 ≤ jumpArg P ci (pos P l t) (pos P l k) ∧ jumpArg P ci (pos P l t) (pos P l k) ≤ 2147483647) :
    ∃ r, jumpPass P labels jumps l = .ok r := by
  unfold jumpPass
  have hoff := labelOffsets_get P l hr.size 0
  generalize labelOffsets P 0 l = offs at hoff
  have hnd := hr.nodup
  have : ∀ (js : List (Nat × Nat)) (s : List CInstr) (m : Bool), (js.map (·.1)).Nodup →
      (∀ k lab, (k, lab) ∈ js → (k, lab) ∈ jumps ∧ s[k]? = l[k]?) → ∃ r, js.foldlM (jumpStep P labels offs) (s, m) = .ok r := by
    intro js
    induction js with
    | nil => intro s m _ _; exact ⟨(s, m), rfl⟩
    | cons j js ih =>
      intro s m hn hs
      obtain ⟨k, lab⟩ := j
      obtain ⟨hmem, hsk⟩ := hs k lab (by simp)
      obtain ⟨t, ci, g1, g2, g3, g4, g5, g6⟩ := hgood k lab hmem
      simp only [List.map_cons, List.nodup_cons] at hn
      have hkl : k < l.length := (List.getElem?_eq_some_iff.1 g3).1
      have hst : jumpStep P labels offs (s, m) (k, lab) = .ok (s.set k { ci with arg := some (jumpArg P ci (pos P l t) (pos P l k)).toNat, size := sizeFor (some (jumpArg P ci (pos P l t) (pos P l k)).toNat) none },
          m || (sizeFor (some (jumpArg P ci (pos P l t) (pos P l k)).toNat) none != ci.size)) := by
        unfold jumpStep
        simp only [g1, bind, Except.bind, hoff, if_pos g2, if_pos (Nat.le_of_lt hkl), Nat.zero_add, hsk, g3]
        rw [jinstr_set_ok hP g4 g5 g6]
        rfl
      rw [List.foldlM_cons, hst]
      simp only [bind, Except.bind]
      refine ih _ _ hn.2 (fun k' lab' hk' => ?_)
      obtain ⟨q1, q2⟩ := hs k' lab' (by simp [hk'])
      refine ⟨q1, ?_⟩
      have hne : k ≠ k' := by rintro rfl; exact hn.1 (List.mem_map.2 ⟨(k, lab'), hk', rfl⟩)
      rw [List.getElem?_set_ne hne, q2]
  exact this jumps l false hnd (fun k lab hk => ⟨hk, rfl⟩)

/-- Below a consistent layout no pass fails. -/
theorem pass_total {l N : List CInstr} (hP : P.WF) (hr : Ready P labels jumps l)
    (hN : Ready P labels jumps N) (hcons : Consistent P labels jumps N) (hle : Smaller l N) :
    ∃ r, jumpPass P labels jumps l = .ok r := by
  refine pass_good hP hr ?_
  intro k lab hk
  obtain ⟨cN, t, a, c1, c2, c3, c4, c5, c6, c7⟩ := hcons k lab hk
  obtain ⟨ci, g, hj⟩ := hr.jump k lab hk
  rw [hle.1] at c3
  obtain ⟨e1, e2, e3⟩ := hle.2 k ci cN g c1
  have hh := (jumpArg_target hP (by rw [e3]; exact hj.jump) c4 _ _).1 c7
  obtain ⟨hm, hz⟩ := jumpArg_mono hr.size hN.size hle g c1 c3 (hr.cache k lab t _ hk c2 g)
  rw [← hh] at hm hz
  have := hz (by omega)
  refine ⟨t, ci, c2, c3, g, hj, this, ?_⟩
  simp only [Int.toNat_natCast] at hm
  omega

/-- Total size left before every jump has the largest size. -/
def slack (jumps : List (Nat × Nat)) (l : List CInstr) : Nat :=
  (jumps.map (fun j => (8 - ((l[j.1]?).map (·.size)).getD 0) / 2)).sum

theorem sum_le_sum {α} (l : List α) (f g : α → Nat) (h : ∀ x ∈ l, f x ≤ g x) : (l.map f).sum ≤ (l.map g).sum := by
  induction l with
  | nil => simp
  | cons a l ih =>
    simp only [List.map_cons, List.sum_cons]
    have := h a (by simp)
    have := ih (fun x hx => h x (by simp [hx]))
    omega

theorem sum_lt_sum {α} (l : List α) (f g : α → Nat) (h : ∀ x ∈ l, f x ≤ g x) {a : α} (ha : a ∈ l) (hlt : f a < g a) :
    (l.map f).sum < (l.map g).sum := by
  induction l with
  | nil => simp at ha
  | cons b l ih =>
    simp only [List.map_cons, List.sum_cons]
    have h1 := h b (by simp)
    have h2 := sum_le_sum l f g (fun x hx => h x (by simp [hx]))
    rcases List.mem_cons.1 ha with rfl | ha
    · omega
    · have := ih (fun x hx => h x (by simp [hx])) ha; omega

theorem sizeFor_le_8 {a : Nat} (h : a ≤ 2147483647) : sizeFor (some a) none ≤ 8 := by
  have := (extNeeded_le_iff 3 a).2 (by omega)
  simp [sizeFor]; omega

/-- A pass that changes a size uses up some slack. -/
theorem pass_slack {l out : List CInstr} (hr : Ready P labels jumps l) (hp : PreFix P labels jumps l)
    (h : jumpPass P labels jumps l = .ok (out, true)) : slack jumps out < slack jumps l := by
  obtain ⟨h1, h2⟩ := jumpPass_ok hr.nodup h
  have hsm := pass_smaller hr hp h
  have hlt : ∃ j ∈ jumps, (out[j.1]?).map (·.size) ≠ (l[j.1]?).map (·.size) := by
    refine Classical.byContradiction fun hno => ?_
    have : ∀ k ∈ jumps.map (·.1), (out[k]?).map (·.size) = (l[k]?).map (·.size) := by
      intro k hk
      obtain ⟨j, hj, rfl⟩ := List.mem_map.1 hk
      exact Classical.byContradiction fun hh => hno ⟨j, hj, hh⟩
    have := (jumpSteps_ok hr.nodup _ _ _ _ h).2.2 ⟨rfl, this⟩
    exact absurd this (by simp)
  have hval : ∀ j ∈ jumps, ∃ a b : Nat, (l[j.1]?).map (·.size) = some (2 + 2 * a) ∧ (out[j.1]?).map (·.size) = some (2 + 2 * b) ∧ a ≤ b ∧ b ≤ 3 := by
    intro j hj
    obtain ⟨k, lab⟩ := j
    obtain ⟨t, ci, g1, g2, g3, g4, g5, g6, g7, g8⟩ := pass_jump hr h hj
    have hsz := g4.built.size
    have hle := (hsm.2 k _ _ g3 g7).1
    refine ⟨extNeeded (ci.arg.getD 0), extNeeded (jumpArg P ci (pos P l t) (pos P l k)).toNat, by simp only [g3, Option.map_some]; rw [hsz, sizeFor],
      by simp only [g7, Option.map_some]; rfl, ?_, ?_⟩
    · simp only [hsz, sizeFor, Option.getD_some] at hle; omega
    · exact (extNeeded_le_iff 3 _).2 (by omega)
  unfold slack
  obtain ⟨j, hj, hne⟩ := hlt
  refine sum_lt_sum jumps _ _ (fun x hx => ?_) hj ?_
  · obtain ⟨a, b, e1, e2, e3, e4⟩ := hval x hx
    rw [e1, e2]; simp only [Option.getD_some]; omega
  · obtain ⟨a, b, e1, e2, e3, e4⟩ := hval j hj
    rw [e1, e2] at hne
    rw [e1, e2]; simp only [Option.getD_some, ne_eq, Option.some.injEq] at hne ⊢; omega

theorem slack_le (jumps : List (Nat × Nat)) (l : List CInstr) (h : ∀ j ∈ jumps, 2 ≤ ((l[j.1]?).map (·.size)).getD 0) :
    slack jumps l ≤ 3 * jumps.length := by
  have := sum_le_sum jumps (fun j => (8 - ((l[j.1]?).map (·.size)).getD 0) / 2) (fun _ => 3) (fun x hx => by have := h x hx; omega)
  unfold slack
  refine Nat.le_trans this ?_
  clear this h
  induction jumps with
  | nil => simp
  | cons a l ih => simp only [List.map_cons, List.sum_cons, List.length_cons]; omega

theorem ready_slack {l : List CInstr} (hr : Ready P labels jumps l) : slack jumps l ≤ 3 * jumps.length := by
  refine slack_le _ _ (fun j hj => ?_)
  obtain ⟨k, lab⟩ := j
  obtain ⟨ci, g, hj'⟩ := hr.jump k lab hj
  simp only [g, Option.map_some, Option.getD_some]
  exact hr.size ci (List.mem_of_getElem? g)

theorem jumpPass_not_runtime (l : List CInstr) : jumpPass P labels jumps l ≠ .error .runtimeError := by
  unfold jumpPass
  generalize labelOffsets P 0 l = offs
  generalize (l, false) = s
  induction jumps generalizing s with
  | nil => simp [pure, Except.pure]
  | cons j js ih =>
    rw [List.foldlM_cons]
    cases hs : jumpStep P labels offs s j with
    | ok r => simpa [bind, Except.bind] using ih r
    | error e =>
      simp only [bind, Except.bind, ne_eq, Except.error.injEq]
      rintro rfl
      unfold jumpStep lookupLabel at hs
      cases hf : labels.find? (fun x => x.1 == j.2) with
      | none => rw [hf] at hs; simp [bind, Except.bind] at hs
      | some p =>
        rw [hf] at hs
        simp only [bind, Except.bind] at hs
        split at hs
        · rename_i target own ci _ _ _
          cases hset : ci.set_ P (some ci.name) (.int (jumpArg P ci target own)) with
          | mk ci' r =>
            rw [hset] at hs
            cases r with
            | ok u => simp [pure, Except.pure] at hs
            | error e =>
              simp only [Except.error.injEq] at hs
              subst hs
              unfold CInstr.set_ at hset
              cases hl : lookupName P (some ci.name) with
              | error e =>
                rw [hl] at hset
                simp only [Prod.mk.injEq, Except.error.injEq] at hset
                unfold lookupName at hl
                split at hl <;> try (split at hl <;> try split at hl)
                all_goals simp_all
              | ok p =>
                rw [hl] at hset
                simp only at hset
                cases hc : CInstr.checkArg P p.2 (.int (jumpArg P ci target own)) with
                | ok a => rw [hc] at hset; simp at hset
                | error e =>
                  rw [hc] at hset
                  simp only [Prod.mk.injEq, Except.error.injEq] at hset
                  unfold CInstr.checkArg checkArgInt at hc
                  simp only at hc
                  repeat' split at hc
                  all_goals simp_all [Except.map]
        · simp at hs

/-- Enough passes: no RuntimeError. -/
theorem loop_terminates (n : Nat) (l : List CInstr) (hr : Ready P labels jumps l) (hp : PreFix P labels jumps l)
    (hn : slack jumps l < n) : jumpLoop P labels jumps n l ≠ .error .runtimeError := by
  induction n generalizing l with
  | zero => omega
  | succ n ih =>
    simp only [jumpLoop]
    cases h : jumpPass P labels jumps l with
    | error e => simp only [bind, Except.bind]; intro he; cases he; exact jumpPass_not_runtime l h
    | ok r =>
      obtain ⟨out, m⟩ := r
      simp only [bind, Except.bind]
      cases m with
      | false => simp [pure, Except.pure]
      | true =>
        simp only [if_true]
        have := pass_slack hr hp h
        exact ih out (pass_ready hr h) (pass_prefix hr hp h) (by omega)

/-- The result is consistent. -/
theorem loop_consistent (hP : P.WF) (n : Nat) (l out : List CInstr) (hr : Ready P labels jumps l)
    (h : jumpLoop P labels jumps n l = .ok out) :
    Ready P labels jumps out ∧ SameShape (jumps.map (·.1)) l out ∧ Consistent P labels jumps out := by
  have trans : ∀ {a b c : List CInstr}, SameShape (jumps.map (·.1)) a b → SameShape (jumps.map (·.1)) b c → SameShape (jumps.map (·.1)) a c := by
    intro a b c h1 h2
    refine ⟨by rw [h2.1, h1.1], fun k i i'' hi hi'' => ?_⟩
    have hkb : k < b.length := by rw [h1.1]; exact (List.getElem?_eq_some_iff.1 hi).1
    obtain ⟨i', hi'⟩ : ∃ i', b[k]? = some i' := ⟨_, List.getElem?_eq_getElem hkb⟩
    obtain ⟨a1, a2, a3, a4, a5⟩ := h1.2 k i i' hi hi'
    obtain ⟨b1, b2, b3, b4, b5⟩ := h2.2 k i' i'' hi' hi''
    exact ⟨fun hk => (b1 hk).trans (a1 hk), b2.trans a2, b3.trans a3, b4.trans a4, b5.trans a5⟩
  obtain ⟨mid, ⟨hm1, hm2⟩, hpass⟩ := jumpLoop_ok (fun x => Ready P labels jumps x ∧ SameShape (jumps.map (·.1)) l x)
    (fun a b m ha hb => ⟨pass_ready ha.1 hb, trans ha.2 (pass_same ha.1 hb)⟩) ⟨hr, rfl, fun k i i' hi hi' => by rw [hi] at hi'; cases hi'; simp⟩ h
  refine ⟨pass_ready hm1 hpass, trans hm2 (pass_same hm1 hpass), ?_⟩
  have hsz := (jumpPass_ok hm1.nodup hpass).2.1 rfl
  have hlen := (pass_same hm1 hpass).1
  intro k lab hk
  obtain ⟨t, ci, g1, g2, g3, g4, g5, g6, g7, g8⟩ := pass_jump hm1 hpass hk
  refine ⟨_, t, _, g7, g1, by rw [hlen]; exact g2, rfl, by omega, rfl, ?_⟩
  rw [pos_congr P hsz, pos_congr P hsz]
  refine (jumpArg_target hP (by exact g4.jump) rfl _ _).2 ?_
  have hs : sizeFor (some (jumpArg P ci (pos P mid t) (pos P mid k)).toNat) none = ci.size := by
    have : (out.map (·.size))[k]? = (mid.map (·.size))[k]? := by rw [hsz]
    rw [List.getElem?_map, List.getElem?_map, g7, g3] at this
    simpa using this
  have := jumpArg_congr (P := P) (ci := ci) (ci' := { ci with arg := some (jumpArg P ci (pos P mid t) (pos P mid k)).toNat, size := sizeFor (some (jumpArg P ci (pos P mid t) (pos P mid k)).toNat) none })
    rfl rfl hs (pos P mid t) (pos P mid k)
  rw [this]
  omega

/-- A consistent layout bounds the run, and makes it succeed. -/
theorem loop_below (hP : P.WF) (n : Nat) (l N : List CInstr) (hr : Ready P labels jumps l) (hp : PreFix P labels jumps l)
    (hN : Ready P labels jumps N) (hcons : Consistent P labels jumps N) (hle : Smaller l N) :
    (∀ out, jumpLoop P labels jumps n l = .ok out → Smaller out N) ∧
    (slack jumps l < n → ∃ out, jumpLoop P labels jumps n l = .ok out) := by
  induction n generalizing l with
  | zero => exact ⟨fun out h => by simp [jumpLoop] at h, fun h => by omega⟩
  | succ n ih =>
    obtain ⟨⟨out, m⟩, h⟩ := pass_total hP hr hN hcons hle
    have hb := pass_below hP hr hN hcons hle h
    simp only [jumpLoop, h, bind, Except.bind]
    cases m with
    | false =>
      simp only [Bool.false_eq_true, if_false, pure, Except.pure, Except.ok.injEq]
      exact ⟨fun _ he => he ▸ hb, fun _ => ⟨out, rfl⟩⟩
    | true =>
      simp only [if_true]
      have hs := pass_slack hr hp h
      obtain ⟨i1, i2⟩ := ih out (pass_ready hr h) (pass_prefix hr hp h) hb
      exact ⟨i1, fun hn => i2 (by omega)⟩

end
end Verif
