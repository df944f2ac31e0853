import Verif.Proofs.LayoutBound
import Verif.Proofs.CodeProgram
/-
Two lists of instructions with the same operations: the instructions are the same, the jumps go to the same operations.
-/
namespace Verif
open Spec
section
variable {κ : Type} {P : Platform} {key : Arg → κ}

/-- An operation without location and handler. -/
def Op.bare (o : Op κ) : String × Operand κ := (o.name, o.operand)

theorem ops_line (c : Concrete) (es : List CElem) : ∀ (line line' cur : Nat), (opsC P key c line cur es).map Op.bare = (opsC P key c line' cur es).map Op.bare := by
  induction es with
  | nil => intro _ _ _; rfl
  | cons e es ih =>
    intro line line' cur
    cases e with
    | setLineno n => rfl
    | instr ci =>
      simp only [opsC, List.map_append, List.map_map]
      congr 1
      exact ih _ _ _

theorem ops_caches (c : Concrete) (cs : List CInstr) (h : ∀ x ∈ cs, x.name = "CACHE") (es : List CElem) : ∀ (line cur : Nat),
    (opsC P key c line cur (cs.map .instr ++ es)).map Op.bare = (opsC P key c line (cur + (cs.map (CInstr.units P)).sum) es).map Op.bare := by
  induction cs with
  | nil => intro _ _; rfl
  | cons x cs ih =>
    intro line cur
    have hx := h x (by simp)
    simp only [List.map_cons, List.cons_append, opsC, expandC, hx, if_true, List.map_nil, List.nil_append, width_units, List.sum_cons]
    rw [ops_line c _ _ line, ih (fun y hy => h y (by simp [hy]))]
    rw [Nat.add_assoc]

theorem ops_head (c : Concrete) (i : CInstr) (es : List CElem) (hn : i.name ≠ "CACHE") (hd : P.dualSingles i.opcode = none) (line cur : Nat) :
    (opsC P key c line cur (.instr i :: es)).map Op.bare =
      (i.name, operandC P key c ((i.getJumpTarget P cur).bind (fun t => opAt P t 0 0 c.elems)) i) :: (opsC P key c line (cur + i.units P) es).map Op.bare := by
  simp only [opsC, expandC, hn, if_false, hd, List.map_cons, List.map_nil, List.cons_append, List.nil_append, width_units]
  rw [ops_line c _ _ line]
  rfl

theorem same_groups {c d : Concrete} {l : List CInstr} (hl : CacheLayout P l) : ∀ {N : List CInstr}, CacheLayout P N →
    (∀ i ∈ l, Readable P i) → (∀ i ∈ N, Readable P i) →
    (∀ i ∈ l, i.name = "CACHE" ↔ i.opcode = 0) → (∀ i ∈ N, i.name = "CACHE" ↔ i.opcode = 0) →
    (∀ i ∈ l, P.dualSingles i.opcode = none) → (∀ i ∈ N, P.dualSingles i.opcode = none) → P.hasJump 0 = false →
    ∀ (line cur cur' u u' : Nat), (opsC P key c line cur (l.map .instr)).map Op.bare = (opsC P key d line cur' (N.map .instr)).map Op.bare →
    (∀ (k : Nat) f f', (fetchedOf u l)[k]? = some f → (fetchedOf u' N)[k]? = some f' → P.hasJump f.opcode = false → f'.opcode = f.opcode → f.unit - f.first ≤ f'.unit - f'.first) →
    N.length = l.length ∧ ∀ (k : Nat) (i i' : CInstr), l[k]? = some i → N[k]? = some i' → i'.name = i.name ∧ i'.opcode = i.opcode ∧
      (P.hasJump i.opcode = false → i.size ≤ i'.size) ∧
      (P.hasJump i.opcode = true → (i'.getJumpTarget P ((cur' + pos P N k : Nat) : Int)).bind (fun t => opAt P t 0 0 d.elems) =
        (i.getJumpTarget P ((cur + pos P l k : Nat) : Int)).bind (fun t => opAt P t 0 0 c.elems)) := by
  induction hl with
  | nil =>
    intro N hN _ h2 _ h4 _ h6 _ line cur cur' u u' h _
    cases hN with
    | nil => exact ⟨rfl, fun k i i' hi => by simp at hi⟩
    | group i' cs' rest' g1 _ _ _ =>
      rw [List.map_cons, ops_head d i' _ (fun hx => g1 ((h4 i' (by simp)).1 hx)) (h6 i' (by simp))] at h
      cases h
  | group i cs rest e1 e2 e3 _ ih =>
    intro N hN h1 h2 h3 h4 h5 h6 h0 line cur cur' u u' h hf
    cases hN with
    | nil =>
      rw [List.map_cons, ops_head c i _ (fun hx => e1 ((h3 i (by simp)).1 hx)) (h5 i (by simp))] at h
      cases h
    | group i' cs' rest' g1 g2 g3 g4 =>
      rw [List.map_cons, List.map_cons, ops_head c i _ (fun hx => e1 ((h3 i (by simp)).1 hx)) (h5 i (by simp)),
        ops_head d i' _ (fun hx => g1 ((h4 i' (by simp)).1 hx)) (h6 i' (by simp))] at h
      simp only [List.cons.injEq, Prod.mk.injEq] at h
      obtain ⟨⟨hn, hop⟩, h⟩ := h
      have hopc : i'.opcode = i.opcode := by
        have a := (h1 i (by simp)).valid.name_op
        have b := (h2 i' (by simp)).valid.name_op
        rw [← hn, a] at b
        exact (Option.some.inj b).symm
      have hlen : cs'.length = cs.length := by rw [g2, e2, hopc]
      rw [List.map_append, ops_caches c cs (fun x hx => (h3 x (by simp [hx])).2 (e3 x hx).1), List.map_append,
        ops_caches d cs' (fun x hx => (h4 x (by simp [hx])).2 (g3 x hx).1)] at h
      have hsz := size_of_units (h1 i (by simp))
      have hsz' := size_of_units (h2 i' (by simp))
      have hfc : ∀ (cs rest : List CInstr) (u : Nat), (∀ x ∈ cs, x.opcode = 0 ∧ x.size = 2) → fetchedOf u (cs ++ rest) = fetchedOf (u + cs.length) rest := by
        intro cs rest
        induction cs with
        | nil => intro u _; rfl
        | cons x cs ih =>
          intro u hx
          have := hx x (by simp)
          simp only [List.cons_append, fetchedOf, this.1, if_true, this.2, Nat.reduceDiv, List.length_cons]
          rw [ih _ (fun y hy => hx y (by simp [hy]))]
          congr 1
          omega
      have hfi : fetchedOf u (i :: (cs ++ rest)) = ⟨i.opcode, i.arg.getD 0, u, u + i.size / 2 - 1⟩ :: fetchedOf (u + i.size / 2 + cs.length) rest := by
        rw [fetchedOf, if_neg e1, hfc cs rest _ e3]
      have hfi' : fetchedOf u' (i' :: (cs' ++ rest')) = ⟨i'.opcode, i'.arg.getD 0, u', u' + i'.size / 2 - 1⟩ :: fetchedOf (u' + i'.size / 2 + cs'.length) rest' := by
        rw [fetchedOf, if_neg g1, hfc cs' rest' _ g3]
      rw [hfi, hfi'] at hf
      obtain ⟨r1, r2⟩ := ih g4 (fun x hx => h1 x (by simp [hx])) (fun x hx => h2 x (by simp [hx])) (fun x hx => h3 x (by simp [hx]))
        (fun x hx => h4 x (by simp [hx])) (fun x hx => h5 x (by simp [hx])) (fun x hx => h6 x (by simp [hx])) h0 _ _ _ _ _ h
        (fun k f f' hk hk' => hf (k + 1) f f' (by simpa using hk) (by simpa using hk'))
      refine ⟨by simp [r1, hlen], ?_⟩
      intro k a a' ha ha'
      cases k with
      | zero =>
        simp only [List.getElem?_cons_zero, Option.some.injEq] at ha ha'
        subst ha ha'
        refine ⟨hn.symm, hopc, fun hj => ?_, fun hj => ?_⟩
        · have := hf 0 _ _ rfl rfl hj hopc
          simp only at this
          omega
        · simp only [operandC, hj, if_true, hopc] at hop
          simp only [pos, List.take_zero, List.map_nil, List.sum_nil, Nat.add_zero]
          have hinj : ∀ x y : Option Nat, (jumpOr x : Operand κ) = jumpOr y → x = y := by
            intro x y hxy
            cases x <;> cases y <;> simp [jumpOr] at hxy ⊢
            exact hxy
          exact (hinj _ _ hop).symm
      | succ k =>
        simp only [List.getElem?_cons_succ] at ha ha'
        by_cases hk : k < cs.length
        · rw [List.getElem?_append_left hk] at ha
          rw [List.getElem?_append_left (by omega)] at ha'
          have m := List.mem_of_getElem? ha
          have m' := List.mem_of_getElem? ha'
          refine ⟨?_, by rw [(e3 a m).1, (g3 a' m').1], fun _ => by rw [(e3 a m).2, (g3 a' m').2]; exact Nat.le_refl _,
            fun hj => by rw [(e3 a m).1, h0] at hj; cases hj⟩
          rw [(h3 a (by simp [m])).2 (e3 a m).1, (h4 a' (by simp [m'])).2 (g3 a' m').1]
        · rw [List.getElem?_append_right (by omega)] at ha ha'
          rw [hlen] at ha'
          obtain ⟨t1, t2, t3, t4⟩ := r2 _ a a' ha ha'
          refine ⟨t1, t2, t3, fun hj => ?_⟩
          have hp : pos P (i :: (cs ++ rest)) (k + 1) = i.units P + (cs.map (CInstr.units P)).sum + pos P rest (k - cs.length) := by
            simp only [pos, List.take_succ_cons, List.map_cons, List.sum_cons, List.take_append, List.map_append, List.sum_append]
            rw [List.take_of_length_le (by omega)]
            omega
          have hp' : pos P (i' :: (cs' ++ rest')) (k + 1) = i'.units P + (cs'.map (CInstr.units P)).sum + pos P rest' (k - cs.length) := by
            simp only [pos, List.take_succ_cons, List.map_cons, List.sum_cons, List.take_append, List.map_append, List.sum_append, hlen]
            rw [List.take_of_length_le (by omega)]
            omega
          have := t4 hj
          rw [hp, hp']
          rw [show cur' + (i'.units P + (cs'.map (CInstr.units P)).sum + pos P rest' (k - cs.length)) = cur' + i'.units P + (cs'.map (CInstr.units P)).sum + pos P rest' (k - cs.length) by omega,
            show cur + (i.units P + (cs.map (CInstr.units P)).sum + pos P rest (k - cs.length)) = cur + i.units P + (cs.map (CInstr.units P)).sum + pos P rest (k - cs.length) by omega]
          exact this

/-- Sizes compared instruction by instruction, as fetched. -/
theorem fetchedOf_le (l : List CInstr) : ∀ (N : List CInstr) (u u' : Nat), N.length = l.length →
    (∀ (k : Nat) (i i' : CInstr), l[k]? = some i → N[k]? = some i' → i'.opcode = i.opcode ∧ i.size ≤ i'.size) →
    ∀ (k : Nat) f f', (fetchedOf u l)[k]? = some f → (fetchedOf u' N)[k]? = some f' → f.unit - f.first ≤ f'.unit - f'.first := by
  induction l with
  | nil => intro N u u' _ _ k f f' hf; simp [fetchedOf] at hf
  | cons i l ih =>
    intro N u u' hlen hle k f f' hf hf'
    cases N with
    | nil => simp at hlen
    | cons i' N =>
      have ih' := fun u u' => ih N u u' (by simpa using hlen) (fun k a a' ha ha' => hle (k + 1) a a' (by simpa using ha) (by simpa using ha'))
      obtain ⟨h1, h2⟩ := hle 0 i i' rfl rfl
      unfold fetchedOf at hf hf'
      rw [h1] at hf'
      split at hf
      · rename_i h0
        rw [if_pos h0] at hf'
        exact ih' _ _ k f f' hf hf'
      · rename_i h0
        rw [if_neg h0] at hf'
        cases k with
        | zero =>
          simp only [List.getElem?_cons_zero, Option.some.injEq] at hf hf'
          subst hf hf'
          have : i.size / 2 ≤ i'.size / 2 := Nat.div_le_div_right h2
          simp only
          omega
        | succ k => exact ih' _ _ k f f' (by simpa using hf) (by simpa using hf')
end
end Verif
