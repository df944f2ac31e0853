import Verif.Props.Uses
import Verif.Proofs.SameRoom
/-
What the instructions use can be read in the program; the first uses.
-/
namespace Verif
open Spec
section
variable {κ : Type} [DecidableEq κ] {P : Platform} {key : Arg → κ} {b : Bytecode}

theorem uses_ops {α : Type} (f : Instr → List α) (F : String × Operand κ → List α) (tgt : Nat → Option Nat) (es : List BElem) :
    ∀ (loc : Loc) (tr : Option TryB), (∀ i, .instr i ∈ es → (expandB P key tgt i).flatMap F = f i) →
    usesOf f es = ((opsB P key tgt loc tr es).map Op.bare).flatMap F := by
  induction es with
  | nil => intro _ _ _; rfl
  | cons e es ih =>
    intro loc tr h
    have h' : ∀ i, .instr i ∈ es → (expandB P key tgt i).flatMap F = f i := fun i hi => h i (by simp [hi])
    have hu : ∀ e : BElem, usesOf f (e :: es) = (match e with | .instr i => f i | _ => []) ++ usesOf f es := by
      intro e; unfold usesOf; rw [List.flatMap_cons]; cases e <;> rfl
    rw [hu]
    cases e with
    | instr i =>
      simp only [opsB, List.map_append, List.map_map, List.flatMap_append]
      rw [← ih _ _ h', ← h i (by simp)]
      congr 1
      rw [List.flatMap_map]
      rfl
    | label l => exact ih _ _ h'
    | setLineno n => exact ih _ _ h'
    | tryBegin t => exact ih _ _ h'
    | tryEnd t => exact ih _ _ h'

/-- The name an operand is about. -/
def nameOp : String × Operand κ → List String
  | (_, .name n) => [n]
  | (_, .flagName _ n) => [n]
  | (_, .flag2Name _ _ n) => [n]
  | _ => []

/-- The key of the constant an operand is. -/
def constOp : String × Operand κ → List κ
  | (_, .const k) => [k]
  | _ => []

/-- The local variable, among `vs`, an operand is about. -/
def localOp (P : Platform) (vs : List String) (o : String × Operand κ) : List String :=
  if (P.opmap o.1).any P.haslocal then
    match o.2 with
    | .slot (.named n) => if n ∈ vs then [n] else []
    | _ => []
  else []

theorem expand_single (hP : P.WF) {i : Instr} (hc : i.name ≠ "CACHE") (hd : P.dual i.opcode = false) (tgt : Nat → Option Nat) :
    expandB P key tgt i = [(i.name, operandB P key tgt i.opcode i.arg)] := by
  unfold expandB
  rw [if_neg hc]
  have : P.dualSingles i.opcode = none := by
    unfold Platform.dual at hd
    cases h : P.dualSingles i.opcode with
    | none => rfl
    | some p => rw [h] at hd; simp at hd
  rw [this]

theorem uses_names (hP : P.WF) (hcache : ∀ e ∈ b.elems, e.isCache = false) (hv : ∀ i, .instr i ∈ b.elems → ValidInstr P i)
    (hd : ∀ i, .instr i ∈ b.elems → P.dual i.opcode = false) :
    usesOf (nameUse P) b.elems = ((programB P key b).map Op.bare).flatMap nameOp := by
  refine uses_ops _ _ _ _ _ _ (fun i hi => ?_)
  have hc : i.name ≠ "CACHE" := by have := hcache _ hi; simpa [BElem.isCache] using this
  rw [expand_single hP hc (hd i hi)]
  have hA := (hv i hi).arg_ok
  have hK := kinds_excl hP i.opcode
  simp only [List.flatMap_cons, List.flatMap_nil, List.append_nil]
  unfold nameUse operandB
  cases hn : P.hasname i.opcode with
  | true =>
    obtain ⟨k1, k2, k3, k4, k5⟩ := hK.name hn
    simp only [k1, k2, k3, k4, Bool.false_eq_true, if_false, Bool.or_self, if_true]
    cases h1 : P.bitflag i.opcode with
    | true => obtain ⟨x, n, e⟩ := hA.flag h1; rw [e]; rfl
    | false =>
      cases h2 : P.bitflag2 i.opcode with
      | true => obtain ⟨x, y, n, e⟩ := hA.flag2 h2; rw [e]; rfl
      | false => obtain ⟨n, e⟩ := hA.name hn h1 h2; rw [e]; rfl
  | false =>
    simp only [Bool.false_eq_true, if_false]
    repeat' split
    all_goals first | rfl | (simp only [jumpOr]; split <;> rfl)

theorem uses_consts (hP : P.WF) (hcache : ∀ e ∈ b.elems, e.isCache = false)
    (hd : ∀ i, .instr i ∈ b.elems → P.dual i.opcode = false) :
    (usesOf (constUse P) b.elems).map key = ((programB P key b).map Op.bare).flatMap constOp := by
  have h : (usesOf (constUse P) b.elems).map key = usesOf (fun i => (constUse P i).map key) b.elems := by
    unfold usesOf
    rw [List.map_flatMap]
    congr 1
    funext e
    cases e <;> rfl
  rw [h]
  refine uses_ops _ _ _ _ _ _ (fun i hi => ?_)
  have hc : i.name ≠ "CACHE" := by have := hcache _ hi; simpa [BElem.isCache] using this
  rw [expand_single hP hc (hd i hi)]
  have hK := kinds_excl hP i.opcode
  simp only [List.flatMap_cons, List.flatMap_nil, List.append_nil]
  unfold constUse operandB
  cases hn : P.hasconst i.opcode with
  | true =>
    obtain ⟨k1, k2, k3, k4, k5⟩ := hK.const hn
    simp only [k1, Bool.false_eq_true, if_false, if_true]
    rfl
  | false =>
    simp only [Bool.false_eq_true, if_false]
    repeat' split
    all_goals first | rfl | (simp only [jumpOr]; split <;> rfl)

theorem uses_locals (hP : P.WF) (hcache : ∀ e ∈ b.elems, e.isCache = false) (hv : ∀ i, .instr i ∈ b.elems → ValidInstr P i)
    (hd : ∀ i, .instr i ∈ b.elems → P.dual i.opcode = false) (vs : List String) (hs : ∀ n ∈ usesOf (localUse P) b.elems, n ∈ vs)
    (hx : ∀ i, .instr i ∈ b.elems → P.haslocal i.opcode = true → ∀ n, i.arg = .cell n → n ∉ vs) :
    usesOf (localUse P) b.elems = ((programB P key b).map Op.bare).flatMap (localOp P vs) := by
  refine uses_ops _ _ _ _ _ _ (fun i hi => ?_)
  have hc : i.name ≠ "CACHE" := by have := hcache _ hi; simpa [BElem.isCache] using this
  rw [expand_single hP hc (hd i hi)]
  have hA := (hv i hi).arg_ok
  have hK := kinds_excl hP i.opcode
  simp only [List.flatMap_cons, List.flatMap_nil, List.append_nil]
  unfold localOp
  simp only [(hv i hi).name_op, Option.any_some]
  cases hn : P.haslocal i.opcode with
  | false =>
    unfold localUse
    simp [hn]
  | true =>
    obtain ⟨k1, k2, k3, k4, k5⟩ := hK.local_ hn
    have hm : ∀ n ∈ localUse P i, n ∈ vs := by
      intro n hn'
      refine hs n ?_
      unfold usesOf
      exact List.mem_flatMap.2 ⟨_, hi, hn'⟩
    unfold operandB localUse at *
    simp only [k1, k2, k4, hn, Bool.false_eq_true, if_false, if_true, Bool.or_false] at hm ⊢
    rcases hA.local_ hn (hd i hi) with ⟨n, e⟩ | ⟨_, ⟨n, e⟩ | ⟨n, e⟩⟩
    · rw [e] at hm ⊢
      simp only at hm ⊢
      rw [if_pos (hm n (by simp))]
    · rw [e]
      simp only
      rw [if_neg (hx i hi hn n e)]
    · rw [e]

/-! ### First uses -/

theorem firsts_key {α : Type} (key : α → κ) (l : List α) : (firsts key l).map key = firsts id (l.map key) := by
  induction l with
  | nil => rfl
  | cons x l ih =>
    simp only [firsts, List.map_cons, List.cons.injEq, true_and, id]
    rw [← ih, List.filter_map]
    rfl

theorem pairwise_inj {α : Type} (key : α → κ) : ∀ (c : List α), c.Pairwise (fun a b => key a ≠ key b) → ∀ x ∈ c, ∀ y ∈ c, key x = key y → x = y := by
  intro c
  induction c with
  | nil => intro _ x hx; cases hx
  | cons w c ih =>
    intro hp x hx y hy e
    rw [List.pairwise_cons] at hp
    rcases List.mem_cons.1 hx with hx' | hx' <;> rcases List.mem_cons.1 hy with hy' | hy'
    · rw [hx', hy']
    · exact absurd e (by rw [hx']; exact hp.1 y hy')
    · exact absurd e.symm (by rw [hy']; exact hp.1 x hx')
    · exact ih hp.2 x hx' y hy' e

/-- Lists with the same keys, and the same value for each key, have the same first uses. -/
theorem firsts_same {α : Type} (key : α → κ) (l l' : List α) (hk : l'.map key = l.map key) (hs : ∀ v ∈ l', v ∈ firsts key l) :
    firsts key l' = firsts key l := by
  have h1 : (firsts key l').map key = (firsts key l).map key := by rw [firsts_key, firsts_key, hk]
  have hn := firsts_nodup key l
  have hs' : ∀ v ∈ firsts key l', v ∈ firsts key l := fun v hv => hs v (firsts_sub key l' v hv)
  generalize firsts key l' = a at *
  generalize firsts key l = c at *
  have inj : ∀ x ∈ c, ∀ y ∈ c, key x = key y → x = y := by
    rw [List.Nodup, List.pairwise_map] at hn
    exact pairwise_inj key c hn
  apply List.ext_getElem?
  intro k
  have := congrArg (fun l => l[k]?) h1
  simp only [List.getElem?_map] at this
  cases ha : a[k]? with
  | none => rw [ha] at this; cases hc : c[k]? with
    | none => rfl
    | some y => rw [hc] at this; cases this
  | some x =>
    rw [ha] at this
    cases hc : c[k]? with
    | none => rw [hc] at this; cases this
    | some y =>
      rw [hc] at this
      simp only [Option.map_some, Option.some.injEq] at this
      rw [inj x (hs' x (List.mem_of_getElem? ha)) y (List.mem_of_getElem? hc) this]

end
end Verif
