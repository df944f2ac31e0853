import Verif.Spec.StackPaths
import Verif.Proofs.StackSize
/-
A checker for concrete graphs: a finite list of configurations closed under the steps contains all those on the paths.
-/
namespace Verif
open Spec

/-- All the steps from a configuration. -/
def succs (P : Platform) (eff : Instr → Bool → Py (Int × Int)) (c : CFG) (x : Config) : List Config :=
  match x.pos with
  | none => []
  | some i =>
    match (c.heap x.blk).elems[i]? with
    | none =>
      if i = (c.heap x.blk).elems.length then
        (match (c.heap x.blk).next with | some n => [⟨n, some 0, x.depth⟩] | none => [])
      else []
    | some (.instr ins) =>
      (match eff ins false with
        | .ok e =>
          if isFinal ins.name then
            (if P.hasJump ins.opcode && isUncondJump ins.name then [] else [⟨x.blk, none, x.depth + e.1 + e.2⟩])
          else [⟨x.blk, some (i + 1), x.depth + e.1 + e.2⟩]
        | .error _ => []) ++
      (match ins.arg with
        | .block t => (match eff ins true with
          | .ok e => if P.hasJump ins.opcode then [⟨t, some 0, x.depth + e.1 + e.2⟩] else []
          | .error _ => [])
        | _ => [])
    | some _ => [⟨x.blk, some (i + 1), x.depth⟩]

theorem succs_step {P : Platform} {eff : Instr → Bool → Py (Int × Int)} {c : CFG} {x y : Config} (h : Step P eff c x y) :
    y ∈ succs P eff c x := by
  rcases h with ⟨e, h⟩ | h
  · cases h with
    | go h1 h2 h3 =>
      simp only [succs, h1, h3, h2]
      simp
    | jump h1 h2 h3 h4 =>
      simp only [succs, h1, h3, h4, h2]
      simp
    | stop h1 h2 h3 h4 =>
      simp only [succs, h1, h4, h2, h3]
      simp
  · cases h with
    | skip h1 h2 =>
      rename_i b i d x
      cases x <;> simp_all [succs, BElem.isInstr]
    | next h1 =>
      rename_i b d n
      have : (c.heap b).elems[(c.heap b).elems.length]? = none := by simp
      simp only [succs, this, h1]
      simp

theorem step_succs {P : Platform} {eff : Instr → Bool → Py (Int × Int)} {c : CFG} {x y : Config}
    (h : y ∈ succs P eff c x) : Step P eff c x y := by
  obtain ⟨b, pos, d⟩ := x
  cases pos with
  | none => simp [succs] at h
  | some i =>
    unfold succs at h
    simp only at h
    split at h
    · split at h
      · rename_i hi
        subst hi
        split at h
        · rename_i n hn
          simp only [List.mem_singleton] at h
          subst h
          exact .inr (.next hn)
        · simp at h
      · simp at h
    · rename_i ins hi
      rw [List.mem_append] at h
      left
      rcases h with h | h
      · split at h
        · rename_i e he
          split at h
          · rename_i hf
            split at h
            · simp at h
            · rename_i hj
              simp only [List.mem_singleton] at h
              subst h
              exact ⟨e, .stop hi hf (by simpa using hj) he⟩
          · rename_i hf
            simp only [List.mem_singleton] at h
            subst h
            exact ⟨e, .go hi (by simpa using hf) he⟩
        · simp at h
      · split at h
        · rename_i t ht
          split at h
          · rename_i e he
            split at h
            · rename_i hj
              simp only [List.mem_singleton] at h
              subst h
              exact ⟨e, .jump hi hj ht he⟩
            · simp at h
          · simp at h
        · simp at h
    · rename_i x hx hi
      simp only [List.mem_singleton] at h
      subst h
      refine .inr (.skip hi ?_)
      cases x <;> simp_all [BElem.isInstr]

/-- The list is closed and contains the entry. -/
def pathCheck (P : Platform) (eff : Instr → Bool → Py (Int × Int)) (c : CFG) (d0 : Int) (L : List Config) : Bool :=
  L.all (fun x => (succs P eff c x).all (fun y => decide (y ∈ L))) &&
  (match c.blocks.head? with | some b => decide (⟨b, some 0, d0⟩ ∈ L) | none => true)

theorem pathCheck_sound {P : Platform} {eff : Instr → Bool → Py (Int × Int)} {c : CFG} {d0 : Int} {L : List Config}
    (h : pathCheck P eff c d0 L = true) : ∀ x, OnPath P eff c d0 x → x ∈ L := by
  rintro x ⟨b, hb, hst⟩
  unfold pathCheck at h
  rw [hb] at h
  simp only [Bool.and_eq_true, decide_eq_true_eq, List.all_eq_true] at h
  induction hst with
  | refl => exact h.2
  | tail hpre hstep ih => exact h.1 _ ih _ (succs_step hstep)

/-- The configurations follow each other. -/
def pathChain (P : Platform) (eff : Instr → Bool → Py (Int × Int)) (c : CFG) (x : Config) : List Config → Bool
  | [] => true
  | y :: l => decide (y ∈ succs P eff c x) && pathChain P eff c y l

theorem star_of_chain {P : Platform} {eff : Instr → Bool → Py (Int × Int)} {c : CFG} (l : List Config) :
    ∀ x, pathChain P eff c x l = true → Star (Step P eff c) x (l.getLast?.getD x) := by
  induction l with
  | nil => intro x _; exact .refl _
  | cons y l ih =>
    intro x h
    simp only [pathChain, Bool.and_eq_true, decide_eq_true_eq] at h
    have h1 : Star (Step P eff c) x y := .tail (.refl _) (step_succs h.1)
    have h2 := h1.trans (ih y h.2)
    have : (y :: l).getLast?.getD x = l.getLast?.getD y := by
      cases l with
      | nil => rfl
      | cons z r => rw [List.getLast?_cons_cons]; simp [List.getLast?_cons]
    rw [this]
    exact h2

theorem onPath_of_chain {P : Platform} {eff : Instr → Bool → Py (Int × Int)} {c : CFG} {d0 : Int} {x : Config} (b : Nat)
    (hb : c.blocks.head? = some b) (l : List Config) (h : pathChain P eff c ⟨b, some 0, d0⟩ l = true)
    (hl : l.getLast? = some x) : OnPath P eff c d0 x := by
  have := star_of_chain l _ h
  rw [hl] at this
  exact ⟨b, hb, this⟩

/-- Every path keeps the depth at most `B`, on a concrete graph. -/
theorem bounded_of_check {P : Platform} {eff : Instr → Bool → Py (Int × Int)} {c : CFG} {d0 B : Int} {L : List Config}
    (h : pathCheck P eff c d0 L = true) (hB : L.all (fun x => decide (x.depth ≤ B)) = true) :
    ∀ x, OnPath P eff c d0 x → x.depth ≤ B := by
  intro x hx
  exact of_decide_eq_true (List.all_eq_true.1 hB _ (pathCheck_sound h x hx))

/-- Every block is entered with one depth, on a concrete graph. -/
theorem consistent_of_check {P : Platform} {eff : Instr → Bool → Py (Int × Int)} {c : CFG} {d0 : Int} {L : List Config}
    (h : pathCheck P eff c d0 L = true)
    (hB : L.all (fun x => L.all (fun y => decide (x.pos = some 0 → y.pos = some 0 → x.blk = y.blk → x.depth = y.depth))) = true) :
    ∀ X a s, OnPath P eff c d0 ⟨X, some 0, a⟩ → OnPath P eff c d0 ⟨X, some 0, s⟩ → a = s := by
  intro X a s h1 h2
  exact of_decide_eq_true (List.all_eq_true.1 (List.all_eq_true.1 hB _ (pathCheck_sound h _ h1)) _ (pathCheck_sound h _ h2)) rfl rfl rfl

end Verif
