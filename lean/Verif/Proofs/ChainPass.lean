import Verif.Proofs.Chain
/-
The passes over the chain of jumps.
-/
namespace Verif
open Spec

/-- Units of a jump with argument `a` (below 65536). -/
def chU (a : Nat) : Nat := if a < 256 then 1 else 2

theorem chJumpI_size {a : Nat} (h : a < 65536) : (chJumpI a).size = 2 * chU a := by
  show sizeFor (some a) none = _
  unfold sizeFor chU
  simp only [Option.getD_some]
  have e1 : extNeeded a = if a < 256 then 0 else extNeeded (a / 256) + 1 := by rw [extNeeded]
  have e2 : extNeeded (a / 256) = if a / 256 < 256 then 0 else extNeeded (a / 256 / 256) + 1 := by rw [extNeeded]
  rw [if_pos (by omega)] at e2
  rw [e2] at e1
  grind

theorem p310 : Py311.platform.py310 = true := by decide +kernel

theorem chJumpI_units {a : Nat} (h : a < 65536) : (chJumpI a).units Py311.platform = chU a := by
  unfold CInstr.units
  rw [p310, chJumpI_size h]
  simp

theorem chNopI_units : chNopI.units Py311.platform = 1 := by decide +kernel

theorem chJumpI_op (a : Nat) : (chJumpI a).opcode = (chJumpI 0).opcode := rfl

theorem chJumpI_jump {a : Nat} (ha : a < 65536) : JInstr Py311.platform (chJumpI a) := by
  have h0 : Py311.platform.opmap "JUMP_FORWARD" = some (chJumpI 0).opcode := by decide +kernel
  have h1 : (chJumpI 0).opcode < Py311.platform.minInstrumented := by decide +kernel
  have h2 : Py311.platform.hasArg (chJumpI 0).opcode = true := by decide +kernel
  have h3 : Py311.platform.hasJump (chJumpI 0).opcode = true := by decide +kernel
  refine ⟨⟨h0, h1, by simp [chJumpI, mkI], fun h => ?_, fun x hx => ?_, rfl, rfl⟩, h3⟩
  · rw [chJumpI_op, h2] at h; cases h
  · simp [chJumpI, mkI] at hx; omega


theorem chCode_get {n : Nat} {a : Nat → Nat} {p : Nat} (h : p < 255 * n + 258) : (chCode n a)[p]? = some (chAt n a p) := by
  simp [chCode, h]

theorem ch_pos_succ {P : Platform} {l : List CInstr} {k : Nat} {i : CInstr} (h : l[k]? = some i) : pos P l (k + 1) = pos P l k + i.units P := by
  simp [pos, List.take_add_one, h]

theorem pos_nops {n : Nat} {a : Nat → Nat} {i : Nat} (hi : i ≤ n) (ha : a i < 65536) : ∀ m, m < 255 ∨ (i = n ∧ m < 258) →
    pos Py311.platform (chCode n a) (255 * i + 1 + m) = pos Py311.platform (chCode n a) (255 * i) + chU (a i) + m := by
  intro m
  induction m with
  | zero =>
    intro _
    rw [Nat.add_zero, ch_pos_succ (chCode_get (by omega))]
    have h1 : 255 * i % 255 = 0 := by omega
    have h2 : 255 * i / 255 = i := by omega
    simp [chAt, h1, h2, hi, chJumpI_units ha]
  | succ m ih =>
    intro hm
    have := ih (by omega)
    rw [← Nat.add_assoc, ch_pos_succ (chCode_get (by omega)), this]
    have h1 : ¬ ((255 * i + 1 + m) % 255 = 0 ∧ (255 * i + 1 + m) / 255 ≤ n) := by omega
    simp [chAt, h1, chNopI_units]
    omega

/-- The distance from behind a jump to its label. -/
def chArg (n : Nat) (a : Nat → Nat) (i : Nat) : Nat := if i = n then 256 else 254 + chU (a (i + 1))

/-- Where label `i` is. -/
def chTarget (n i : Nat) : Nat := if i = n then 255 * n + 257 else 255 * (i + 1) + 1

theorem pos_label {n : Nat} {a : Nat → Nat} (ha : ∀ i, a i < 65536) {i : Nat} (hi : i ≤ n) :
    pos Py311.platform (chCode n a) (chTarget n i) = pos Py311.platform (chCode n a) (255 * i) + chU (a i) + chArg n a i := by
  unfold chTarget chArg
  by_cases h : i = n
  · subst h
    rw [if_pos rfl, if_pos rfl]
    exact pos_nops hi (ha i) 256 (.inr ⟨rfl, by omega⟩)
  · rw [if_neg h, if_neg h]
    have h1 := pos_nops hi (ha i) 254 (.inl (by omega))
    have h2 := pos_nops (show i + 1 ≤ n by omega) (ha (i + 1)) 0 (.inl (by omega))
    rw [show 255 * (i + 1) + 1 = 255 * (i + 1) + 1 + 0 by omega, h2, show 255 * (i + 1) = 255 * i + 1 + 254 by omega, h1]
    omega

theorem chLabels_find {i n : Nat} (h : i < n) : (chLabels n).find? (·.1 == i) = some (i, 255 * (i + 1) + 1) := by
  induction n with
  | zero => omega
  | succ n ih =>
    rw [chLabels, List.find?_cons]
    by_cases hx : n = i
    · subst hx; simp
    · have : (n == i) = false := by simp [hx]
      simp only [this]
      exact ih (by omega)

theorem chLabel_at {i n : Nat} (h : i ≤ n) : lookupLabel ((n, 255 * n + 257) :: chLabels n) i = .ok (chTarget n i) := by
  unfold lookupLabel chTarget
  rw [List.find?_cons]
  by_cases hx : n = i
  · subst hx; simp
  · have : (n == i) = false := by simp [hx]
    have h' : i ≠ n := fun h => hx h.symm
    simp [this, chLabels_find (show i < n by omega), h']

theorem chAt_size {n : Nat} {a : Nat → Nat} : ∀ i ∈ chCode n a, 2 ≤ i.size := by
  intro i hi
  simp only [chCode, List.mem_map] at hi
  obtain ⟨p, _, rfl⟩ := hi
  unfold chAt
  split
  · exact sizeFor_ge (some (a (p / 255))) none
  · exact sizeFor_ge none none

theorem chCode_length {n : Nat} {a : Nat → Nat} : (chCode n a).length = 255 * n + 258 := by simp [chCode]

theorem chCode_set {n : Nat} {a : Nat → Nat} {i v : Nat} (hi : i ≤ n) : (chCode n a).set (255 * i) (chJumpI v) = chCode n (fun k => if k = i then v else a k) := by
  apply List.ext_getElem?
  intro p
  rw [List.getElem?_set]
  by_cases hp : p < 255 * n + 258
  · rw [chCode_get hp, chCode_get hp, chCode_length]
    split
    · rename_i h
      subst h
      have h1 : 255 * i % 255 = 0 := by omega
      have h2 : 255 * i / 255 = i := by omega
      rw [if_pos (by omega)]
      simp [chAt, h1, h2, hi]
    · unfold chAt
      split
      · rename_i h1 h2
        have : p / 255 ≠ i := by omega
        simp [this]
      · rfl
  · have h1 : (chCode n a)[p]? = none := by rw [List.getElem?_eq_none_iff, chCode_length]; omega
    have h2 : (chCode n (fun k => if k = i then v else a k))[p]? = none := by rw [List.getElem?_eq_none_iff, chCode_length]; omega
    rw [h1, h2, if_neg (by omega)]

/-- One jump of a pass that began with the arguments `a`. -/
theorem chStep {n : Nat} {a a' : Nat → Nat} (ha : ∀ i, a i < 65536) {i : Nat} (hi : i ≤ n) (he : a' i = a i) (m : Bool) :
    jumpStep Py311.platform ((n, 255 * n + 257) :: chLabels n) (labelOffsets Py311.platform 0 (chCode n a)) (chCode n a', m) (255 * i, i) =
      .ok (chCode n (fun k => if k = i then chArg n a i else a' k), m || chU (chArg n a i) != chU (a i)) := by
  have h1 : 255 * i % 255 = 0 := by omega
  have h2 : 255 * i / 255 = i := by omega
  have hat : chAt n a' (255 * i) = chJumpI (a i) := by simp [chAt, h1, h2, hi, he]
  have hT : chTarget n i ≤ 255 * n + 258 := by unfold chTarget; split <;> omega
  have hA : chArg n a i < 65536 := by unfold chArg chU; split <;> (try split) <;> omega
  have harg : jumpArg Py311.platform (chJumpI (a i)) (pos Py311.platform (chCode n a) (chTarget n i)) (pos Py311.platform (chCode n a) (255 * i)) = (chArg n a i : Int) := by
    have hf : isForwardRelJump Py311.platform (chJumpI 0).name (chJumpI 0).opcode = true := by decide +kernel
    have hf : isForwardRelJump Py311.platform (chJumpI (a i)).name (chJumpI (a i)).opcode = true := hf
    have hu : (chJumpI 0).useCacheOpcodes Py311.platform = 0 := by decide +kernel
    have hu : (chJumpI (a i)).useCacheOpcodes Py311.platform = 0 := hu
    unfold jumpArg
    rw [if_pos hf, hu, pos_label ha hi, chJumpI_units (ha i)]
    omega
  unfold jumpStep
  rw [chLabel_at hi]
  simp only [bind, Except.bind]
  rw [labelOffsets_get _ _ chAt_size, labelOffsets_get _ _ chAt_size, chCode_length, if_pos hT, if_pos (by omega), chCode_get (by omega), hat]
  simp only [Nat.zero_add]
  rw [harg, jinstr_set_ok Py311.wf (chJumpI_jump (ha i)) (by omega) (by omega)]
  have hset : ({ chJumpI (a i) with arg := some (chArg n a i : Int).toNat, size := sizeFor (some (chArg n a i : Int).toNat) none } : CInstr) = chJumpI (chArg n a i) := by
    simp [chJumpI, mkI]
  rw [hset]
  simp only [pure, Except.pure]
  rw [chCode_set hi, chJumpI_size hA, chJumpI_size (ha i)]
  congr 3
  unfold chU
  grind

theorem chFold {n : Nat} {a : Nat → Nat} (ha : ∀ i, a i < 65536) : ∀ k, k ≤ n + 1 →
    (chJumps k).foldlM (jumpStep Py311.platform ((n, 255 * n + 257) :: chLabels n) (labelOffsets Py311.platform 0 (chCode n a))) (chCode n a, false) =
      .ok (chCode n (fun i => if i < k then chArg n a i else a i), (List.range k).any (fun i => chU (chArg n a i) != chU (a i))) := by
  intro k
  induction k with
  | zero => intro _; simp [chJumps, pure, Except.pure]
  | succ k ih =>
    intro hk
    have : chJumps (k + 1) = chJumps k ++ [(255 * k, k)] := by simp [chJumps, List.range_succ]
    rw [this, List.foldlM_append, ih (by omega)]
    simp only [bind, Except.bind, List.foldlM_cons, List.foldlM_nil]
    rw [chStep ha (by omega) (by simp)]
    simp only [pure, Except.pure]
    congr 2
    · congr 1
      funext i
      grind
    · simp [List.range_succ]

theorem chCode_congr {n : Nat} {a a' : Nat → Nat} (h : ∀ i, i ≤ n → a i = a' i) : chCode n a = chCode n a' := by
  unfold chCode
  apply List.map_congr_left
  intro p hp
  unfold chAt
  split
  · rename_i hx; rw [h _ hx.2]
  · rfl

/-- The arguments after `t` passes. -/
def chArgs (n t i : Nat) : Nat := if t = 0 then 0 else if n + 1 ≤ i + t then 256 else 255

theorem chArgs_next {n t i : Nat} (h : i ≤ n) : chArg n (chArgs n t) i = chArgs n (t + 1) i := by
  unfold chArg chArgs chU
  grind

theorem chArgs_units {n t i : Nat} : chU (chArgs n t i) = if 1 ≤ t ∧ n + 1 ≤ i + t then 2 else 1 := by
  unfold chArgs chU
  grind

theorem chPass (n t : Nat) : jumpPass Py311.platform ((n, 255 * n + 257) :: chLabels n) (chJumps (n + 1)) (chCode n (chArgs n t)) =
    .ok (chCode n (chArgs n (t + 1)), decide (t ≤ n)) := by
  have ha : ∀ i, chArgs n t i < 65536 := by intro i; unfold chArgs; grind
  unfold jumpPass
  rw [chFold ha (n + 1) (Nat.le_refl _)]
  congr 2
  · apply chCode_congr
    intro i hi
    rw [if_pos (by omega), chArgs_next hi]
  · rw [Bool.eq_iff_iff, List.any_eq_true, decide_eq_true_iff]
    constructor
    · rintro ⟨i, hi, h⟩
      rw [List.mem_range] at hi
      rw [chArgs_next (by omega), chArgs_units, chArgs_units] at h
      grind
    · intro h
      refine ⟨n - t, List.mem_range.2 (by omega), ?_⟩
      rw [chArgs_next (by omega), chArgs_units, chArgs_units]
      grind

theorem chLoop (n : Nat) : ∀ N t, t ≤ n + 1 → jumpLoop Py311.platform ((n, 255 * n + 257) :: chLabels n) (chJumps (n + 1)) N (chCode n (chArgs n t)) =
    if n + 2 ≤ N + t then .ok (chCode n (chArgs n (n + 2))) else .error .runtimeError := by
  intro N
  induction N with
  | zero =>
    intro t ht
    rw [jumpLoop, if_neg (by omega)]
  | succ N ih =>
    intro t ht
    rw [jumpLoop, chPass]
    simp only [bind, Except.bind]
    by_cases h : t ≤ n
    · simp only [h, decide_true, if_true]
      rw [ih (t + 1) (by omega)]
      congr 1
      simp; omega
    · have : t = n + 1 := by omega
      subst this
      simp only [h, decide_false, Bool.false_eq_true, if_false]
      rw [if_pos (by omega)]
      rfl

section
variable {κ : Type} [DecidableEq κ] (key : Arg → κ)

theorem chain_toConcrete (n N : Nat) : toConcrete Py311.platform key N (chain n) =
    if n + 2 ≤ N then .ok { attrs := Attrs.default, consts := [], names := [], varnames := [], excTable := [], elems := (chCode n (chArgs n (n + 2))).map .instr }
    else .error .runtimeError := by
  unfold toConcrete
  rw [chain_start]
  simp only [bind, Except.bind]
  have h0 : chCode n (fun _ => 0) = chCode n (chArgs n 0) := chCode_congr (fun _ _ => rfl)
  have := chLoop n N 0 (by omega)
  simp only [chConv]
  rw [h0, this]
  simp only [Nat.add_zero]
  by_cases h : n + 2 ≤ N
  · rw [if_pos h, if_pos h]; rfl
  · rw [if_neg h, if_neg h]

end
end Verif
