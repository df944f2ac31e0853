import Verif.Model.Platform
/- Building a `Platform` from an opcode table, and its well-formedness. -/
namespace Verif

/-- A platform from a list of (name, opcode). -/
def mkPlatform (minor : Nat) (table : List (String × Nat)) (caches : List (Nat × Nat)) (hasArg : Nat → Bool)
    (minInstrumented extendedArg : Nat)
    (hasconst haslocal hasname hasfree hascompare hasjrel hasjabs : List Nat)
    (stackEffect : Nat → Option Nat → Option Bool → Option Int) : Platform where
  minor := minor
  opmap := fun n => (table.find? (fun p => p.1 == n)).map (·.2)
  opname := fun op => if op < 256 then (table.find? (fun p => p.2 == op)).map (·.1) else none
  hasArg := hasArg
  minInstrumented := minInstrumented
  extendedArg := extendedArg
  hasconst := hasconst.contains
  haslocal := haslocal.contains
  hasname := hasname.contains
  hasfree := hasfree.contains
  hascompare := hascompare.contains
  hasjrel := hasjrel.contains
  hasjabs := hasjabs.contains
  cacheEntries := fun op => ((caches.find? (fun p => p.1 == op)).map (·.2)).getD 0
  stackEffect := stackEffect

theorem find_snd_of_nodup {α β} [DecidableEq α] [DecidableEq β] (l : List (α × β)) (h : (l.map (·.2)).Nodup) (a : α) (b : β)
    (hm : (a, b) ∈ l) : l.find? (fun p => p.2 == b) = some (a, b) := by
  induction l with
  | nil => simp at hm
  | cons x xs ih =>
    simp only [List.map_cons, List.nodup_cons, List.mem_map] at h
    rw [List.find?_cons]
    rcases List.mem_cons.1 hm with rfl | hm
    · simp
    · by_cases hx : x.2 = b
      · exact absurd ⟨(a, b), hm, hx.symm⟩ h.1
      · rw [beq_eq_false_iff_ne.2 hx, ih h.2 hm]

theorem find_fst_of_nodup {α β} [DecidableEq α] [DecidableEq β] (l : List (α × β)) (h : (l.map (·.1)).Nodup) (a : α) (b : β)
    (hm : (a, b) ∈ l) : l.find? (fun p => p.1 == a) = some (a, b) := by
  induction l with
  | nil => simp at hm
  | cons x xs ih =>
    simp only [List.map_cons, List.nodup_cons, List.mem_map] at h
    rw [List.find?_cons]
    rcases List.mem_cons.1 hm with rfl | hm
    · simp
    · by_cases hx : x.1 = a
      · exact absurd ⟨(a, b), hm, hx.symm⟩ h.1
      · rw [beq_eq_false_iff_ne.2 hx, ih h.2 hm]

/-- The clauses of `Platform.WF` about flagged, two-variable and intrinsic opcodes, for one opcode. -/
def FlagOK (P : Platform) (op : Nat) : Prop :=
  (P.bitflag op = true → P.hasname op = true ∧ P.bitflag2 op = false) ∧ (P.bitflag2 op = true → P.hasname op = true) ∧
  (P.dual op = true → P.haslocal op = true) ∧
  (∀ n1 n2, P.dualSingles op = some (n1, n2) → ∀ n, n = n1 ∨ n = n2 → ∃ o, P.opmap n = some o ∧ P.haslocal o = true ∧ P.dual o = false) ∧
  ((P.intrinsic1 op || P.intrinsic2 op) = true → P.hasArg op = true ∧ (P.hasJump op || P.hasfree op || P.haslocal op ||
    P.hasname op || P.hasconst op || P.hascompare op) = false) ∧ (P.intrinsic1 op = true → P.intrinsic2 op = false) ∧
  (∀ n1 n2, P.dualSingles op = some (n1, n2) → ∀ n, n = n1 ∨ n = n2 → ∀ o, P.opmap n = some o → P.cacheEntries o = 0) ∧
  (∀ n1 n2, P.dualSingles op = some (n1, n2) → ∀ n, n = n1 ∨ n = n2 → ∀ o, P.opmap n = some o → o < P.minInstrumented)

def flagCheck (P : Platform) (op : Nat) : Bool :=
  (!P.bitflag op || (P.hasname op && !P.bitflag2 op)) && (!P.bitflag2 op || P.hasname op) && (!P.dual op || P.haslocal op) &&
  (match P.dualSingles op with
    | none => true
    | some (n1, n2) => [n1, n2].all (fun n => match P.opmap n with
      | none => false
      | some o => P.haslocal o && !P.dual o && (P.cacheEntries o == 0 && decide (o < P.minInstrumented)))) &&
  (!(P.intrinsic1 op || P.intrinsic2 op) || (P.hasArg op && !(P.hasJump op || P.hasfree op || P.haslocal op ||
    P.hasname op || P.hasconst op || P.hascompare op))) && (!P.intrinsic1 op || !P.intrinsic2 op)

theorem flagOK_of {P : Platform} {op : Nat} (h : ∀ n, P.isOp n op = true → flagCheck P op = true) : FlagOK P op := by
  by_cases hn : ∃ n, P.isOp n op = true
  · obtain ⟨n, hn⟩ := hn
    have hc := h n hn
    simp only [flagCheck, Bool.and_eq_true, Bool.or_eq_true, Bool.not_eq_true'] at hc
    obtain ⟨⟨⟨⟨⟨h1, h2⟩, h3⟩, h4⟩, h5⟩, h6⟩ := hc
    refine ⟨fun h => ?_, fun h => ?_, fun h => ?_, ?_, fun h => ?_, fun h => ?_, ?_, ?_⟩
    · simpa [h] using h1
    · simpa [h] using h2
    · simpa [h] using h3
    · intro n1 n2 hd n hnn
      rw [hd] at h4
      simp only [List.all_eq_true] at h4
      have := h4 n (by simpa using hnn)
      split at this
      · simp at this
      · rename_i o ho
        simp only [Bool.and_eq_true, Bool.not_eq_true'] at this
        exact ⟨o, ho, this.1⟩
    · rcases h5 with h5 | h5
      · rw [h5] at h; simp at h
      · exact h5
    · simpa [h] using h6
    · intro n1 n2 hd n hnn o ho
      rw [hd] at h4
      simp only [List.all_eq_true] at h4
      have := h4 n (by simpa using hnn)
      rw [ho] at this
      simp only [Bool.and_eq_true, beq_iff_eq] at this
      exact this.2.1
    · intro n1 n2 hd n hnn o ho
      rw [hd] at h4
      simp only [List.all_eq_true] at h4
      have := h4 n (by simpa using hnn)
      rw [ho] at this
      simp only [Bool.and_eq_true, decide_eq_true_eq] at this
      exact this.2.2
  · have hf : ∀ n, P.isOp n op = false := fun n => by
      cases hh : P.isOp n op
      · rfl
      · exact absurd ⟨n, hh⟩ hn
    refine ⟨?_, ?_, ?_, ?_, ?_, ?_, ?_, ?_⟩ <;>
      simp [Platform.bitflag, Platform.bitflag2, Platform.dual, Platform.dualSingles, Platform.intrinsic1, Platform.intrinsic2, hf]

theorem mkPlatform_wf {minor table caches hasArg minI ext hc hl hn hf hcmp hjr hja se}
    (h1 : (table.map (·.1)).Nodup) (h2 : (table.map (·.2)).Nodup) (h3 : table.all (fun p => decide (minI ≤ p.2) || decide (p.2 < 256)) = true)
    (h4 : ("EXTENDED_ARG", ext) ∈ table) (h5 : ext < minI) (h6 : hasArg ext = true)
    (h7 : ∃ p ∈ table, p.1 = "NOP" ∧ p.2 < minI ∧ hasArg p.2 = false ∧ p.2 ≠ 0)
    (h8 : 11 ≤ minor → ("CACHE", 0) ∈ table) (h9 : 0 < minI) (h10 : hasArg 0 = false)
    (h11 : caches.all (fun p => p.1 != ext && p.1 != 0) = true)
    (h12 : table.all (fun p => decide (minI ≤ p.2) || !(hc ++ hl ++ hn ++ hf ++ hcmp ++ hjr ++ hja).contains p.2 || hasArg p.2) = true) (h13 : 13 ≤ minor → hja = [])
    (h14 : minor < 11 → 0 ∉ table.map (·.2))
    (h15 : ((hjr ++ hja.filter (fun x => !hjr.contains x)) ++ hf ++ hl ++ hn ++ hc ++ hcmp).Nodup)
    (h16 : table.all (fun p => flagCheck (mkPlatform minor table caches hasArg minI ext hc hl hn hf hcmp hjr hja se) p.2) = true)
    (h17 : minor < 11 → caches = [] ∧ (table.find? (·.1 == "CACHE")).isNone = true) :
    (mkPlatform minor table caches hasArg minI ext hc hl hn hf hcmp hjr hja se).WF := by
  have hop : ∀ n op, (n, op) ∈ table → (mkPlatform minor table caches hasArg minI ext hc hl hn hf hcmp hjr hja se).opmap n = some op := by
    intro n op hm
    simp [mkPlatform, find_fst_of_nodup table h1 n op hm]
  have hflag : ∀ op, FlagOK (mkPlatform minor table caches hasArg minI ext hc hl hn hf hcmp hjr hja se) op := by
    intro op
    refine flagOK_of (fun n h => ?_)
    simp only [mkPlatform, Platform.isOp, beq_iff_eq, Option.map_eq_some_iff] at h
    obtain ⟨p, hp, rfl⟩ := h
    rw [List.all_eq_true] at h16
    exact h16 p (List.mem_of_find?_eq_some hp)
  constructor
  · intro n op h hlt
    simp only [mkPlatform, Option.map_eq_some_iff] at h hlt ⊢
    obtain ⟨⟨a, b⟩, hfind, rfl⟩ := h
    have hm := List.mem_of_find?_eq_some hfind
    have hp := List.find?_some hfind
    simp only [beq_iff_eq] at hp
    subst hp
    have hlt256 : b < 256 := by
      rw [List.all_eq_true] at h3
      have := h3 _ hm
      simp at this; omega
    refine ⟨hlt256, ?_⟩
    rw [if_pos hlt256, find_snd_of_nodup table h2 a b hm]; rfl
  · intro op n hlt h
    simp only [mkPlatform] at h
    rw [if_pos hlt, Option.map_eq_some_iff] at h
    obtain ⟨⟨a, b⟩, hfind, rfl⟩ := h
    have hm := List.mem_of_find?_eq_some hfind
    have hp := List.find?_some hfind
    simp only [beq_iff_eq] at hp
    subst hp
    exact hop a b hm
  · exact hop _ _ h4
  · exact h5
  · exact h6
  · obtain ⟨⟨n, op⟩, hm, rfl, h⟩ := h7
    exact ⟨op, hop _ _ hm, h⟩
  · intro hp
    exact ⟨hop _ _ (h8 (of_decide_eq_true hp)), h9⟩
  · exact h10
  · simp only [mkPlatform]
    rw [List.find?_eq_none.2 (fun p hp => by rw [List.all_eq_true] at h11; have := h11 p hp; simp at this; simp [this.1])]
    rfl
  · simp only [mkPlatform]
    rw [List.find?_eq_none.2 (fun p hp => by rw [List.all_eq_true] at h11; have := h11 p hp; simp at this; simp [this.2])]
    rfl
  · intro hp n h
    simp only [mkPlatform, Option.map_eq_some_iff] at h
    obtain ⟨p, hp', h0⟩ := h
    exact h14 (by have := of_decide_eq_false hp; simp only [mkPlatform] at this; omega) (List.mem_map.2 ⟨p, List.mem_of_find?_eq_some hp', h0⟩)
  · intro n op hm hb h
    rw [List.all_eq_true] at h12
    simp only [mkPlatform, Option.map_eq_some_iff] at hm hb
    obtain ⟨p, hp, rfl⟩ := hm
    have := h12 p (List.mem_of_find?_eq_some hp)
    have h' : (hc ++ hl ++ hn ++ hf ++ hcmp ++ hjr ++ hja).contains p.2 = true := by simpa [mkPlatform, or_assoc] using h
    rw [h', decide_eq_false (Nat.not_le.2 hb)] at this
    simpa [mkPlatform] using this
  · intro op
    have hc1 := List.nodup_iff_count.1 h15 op
    simp only [List.count_append] at hc1
    have hcnt : ∀ l : List Nat, (if l.contains op then 1 else 0) ≤ l.count op := by
      intro l; split
      · rename_i h; exact List.count_pos_iff.2 (by simpa using h)
      · omega
    have hj : (if (hjr.contains op || hja.contains op) then 1 else 0) ≤ hjr.count op + (hja.filter (fun x => !hjr.contains x)).count op := by
      by_cases h1 : hjr.contains op
      · have := hcnt hjr; simp only [h1, Bool.true_or, if_true] at this ⊢; omega
      · by_cases h2 : hja.contains op
        · have hmem : op ∈ hja.filter (fun x => !hjr.contains x) := by
            rw [List.mem_filter]; exact ⟨by simpa using h2, by simpa using h1⟩
          have := List.count_pos_iff.2 hmem
          split <;> omega
        · simp only [Bool.not_eq_true] at h1 h2; simp only [h1, h2, Bool.or_self]; simp
    have := hcnt hf; have := hcnt hl; have := hcnt hn; have := hcnt hc; have := hcnt hcmp
    have hsum : ∀ a b c d e f : Bool, [a, b, c, d, e, f].count true = (if a then 1 else 0) + (if b then 1 else 0) + (if c then 1 else 0) +
        (if d then 1 else 0) + (if e then 1 else 0) + (if f then 1 else 0) := by decide
    rw [hsum]
    simp only [Platform.hasJump, mkPlatform]
    refine Nat.le_trans ?_ hc1
    refine Nat.add_le_add (Nat.add_le_add (Nat.add_le_add (Nat.add_le_add (Nat.add_le_add hj ?_) ?_) ?_) ?_) ?_ <;> apply hcnt
  · exact fun op => (hflag op).1
  · exact fun op => (hflag op).2.1
  · exact fun op => (hflag op).2.2.1
  · exact fun op => (hflag op).2.2.2.1
  · exact fun op => (hflag op).2.2.2.2.1
  · exact fun op => (hflag op).2.2.2.2.2.1
  · exact fun op => (hflag op).2.2.2.2.2.2.1
  · exact fun op => (hflag op).2.2.2.2.2.2.2
  · intro hp op
    have := h13 (of_decide_eq_true hp)
    simp [mkPlatform, this]
  · intro hp op
    have := (h17 (by have := of_decide_eq_false hp; simp only [mkPlatform] at this; omega)).1
    simp [mkPlatform, this]
  · intro hp
    have := (h17 (by have := of_decide_eq_false hp; simp only [mkPlatform] at this; omega)).2
    rw [Option.isNone_iff_eq_none] at this
    simp only [mkPlatform, this]; rfl

end Verif
