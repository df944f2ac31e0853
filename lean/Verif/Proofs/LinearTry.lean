import Verif.Spec.LinearTry
import Verif.Proofs.Linear
import Verif.Proofs.ProgDepths
import Verif.Props.StackMap
/- Executions of a Bytecode, exceptions included, are executions of its graph. -/
namespace Verif
open Spec

theorem lastInstr_onTry (g : TryB → TryB) (es : List BElem) : lastInstr (es.map (BElem.onTry g)) = lastInstr es := by
  unfold lastInstr
  rw [← List.map_reverse, List.findSome?_map]
  congr 1
  funext e
  cases e <;> rfl

theorem bridge_retry {P : Platform} {b : Bytecode} {c c' : CFG} {n : Nat} {g : TryB → TryB} (B : Bridge P b c n) (hr : Retry g c c')
    (hd : DepthsOnly c c') : Bridge P b c' n := by
  have hl : ∀ k, lastInstr (c'.heap k).elems = lastInstr (c.heap k).elems := by
    intro k; rw [hr.2 k]; exact lastInstr_onTry g _
  refine ⟨B.pos, hr.1.trans B.blocks, ?_, ?_, (codeG_only hd).trans B.code, B.labels, blocksOnly_only hd B.blocksOnly, ?_⟩
  · intro k hk
    have : fallsThrough (c'.heap k).elems = fallsThrough (c.heap k).elems := by
      unfold fallsThrough; rw [hl k]
    rw [this, ← B.next k hk, hr.2 k]
  · intro k hk
    rw [hl k]; exact B.last k hk
  · rw [codeG_only hd]; exact B.lost

def dataOf (t : TryB) : Nat × Bool × Option Nat := (t.target, t.lasti, t.depth)

theorem guardsDG_at (pre : List BElem) (j : Instr) (post : List BElem) : ∀ q : Option TryB,
    (guardsDG q (pre ++ .instr j :: post))[instrCount pre]? = some ((openAfter q pre).map dataOf) := by
  induction pre with
  | nil => intro q; rfl
  | cons e pre ih =>
    intro q
    cases e with
    | instr i =>
      have : instrCount (.instr i :: pre) = instrCount pre + 1 := by
        unfold instrCount; rw [List.countP_cons]; simp [BElem.isInstr]
      rw [this]
      exact ih q
    | tryBegin t => exact ih (some t)
    | tryEnd id =>
      have : (if q.map (·.id) = some id then none else q) = (if q.any (fun t => t.id = id) then none else q) := by
        cases q with
        | none => rfl
        | some t => simp
      simp only [List.cons_append, guardsDG, openAfter, this]
      exact ih _
    | label l => exact ih q
    | setLineno l => exact ih q

/-- The handler of an instruction of the graph. -/
theorem guardsDG_open {c : CFG} {n k p : Nat} {j : Instr} (hbl : c.blocks = List.range n) (hk : k < n) (hp : (c.heap k).elems[p]? = some (.instr j)) :
    (guardsDG none (allCode c))[numOf c k p]? = some ((openAt c k p).map dataOf) := by
  have hs : (c.heap k).elems = (c.heap k).elems.take p ++ .instr j :: (c.heap k).elems.drop (p + 1) := by
    rw [← drop_cons_of_getElem? hp, List.take_append_drop]
  have htw : c.blocks.takeWhile (fun x => x ≠ k) = List.range k := by
    rw [hbl, range_split hk, List.takeWhile_append_of_pos]
    · rw [List.takeWhile_cons_of_neg (by simp), List.append_nil]
    · intro a ha
      simp only [ne_eq, decide_eq_true_eq]
      have := List.mem_range.1 ha
      omega
  have hall : allCode c = ((List.range k).flatMap (fun x => (c.heap x).elems) ++ (c.heap k).elems.take p) ++ .instr j ::
      ((c.heap k).elems.drop (p + 1) ++ (List.range' (k + 1) (n - k - 1)).flatMap (fun x => (c.heap x).elems)) := by
    unfold allCode
    rw [hbl, range_split hk, List.flatMap_append, List.flatMap_cons]
    rw [show (c.heap k).elems ++ (List.range' (k + 1) (n - k - 1)).flatMap (fun x => (c.heap x).elems) =
      ((c.heap k).elems.take p ++ .instr j :: (c.heap k).elems.drop (p + 1)) ++ (List.range' (k + 1) (n - k - 1)).flatMap (fun x => (c.heap x).elems) from by rw [← hs]]
    simp
  rw [hall]
  have hn : numOf c k p = instrCount ((List.range k).flatMap (fun x => (c.heap x).elems) ++ (c.heap k).elems.take p) := by
    unfold numOf startOf
    rw [instrCount_append]
  rw [hn, guardsDG_at]
  unfold openAt openAtBlock
  rw [htw]
  congr 2
  have happ : ∀ (x y : List BElem) (q : Option TryB), openAfter q (x ++ y) = openAfter (openAfter q x) y := by
    intro x y
    induction x with
    | nil => intro q; rfl
    | cons e x ih => intro q; cases e <;> simp only [List.cons_append, openAfter] <;> exact ih _
  exact happ _ _ _

variable {P : Platform} {b : Bytecode} {c : CFG} {n : Nat} {eff : Instr → Bool → Py (Int × Int)}

theorem gOnPath_closed (d0 : Int) : StepClosed P eff c (GOnPath P eff c d0) := by
  rintro x y ⟨k, hk, hs⟩ h
  exact ⟨k, hk, .tail hs (.plain h)⟩

/-- The handlers of a table are those of the graph. -/
def TableOf (c : CFG) (hs : List (Option Handler)) : Prop :=
  ∀ (k : Nat) (h : Handler), hs[k]? = some (some h) → (handlersDG c)[k]? = some (some (some h.target, h.lasti, some h.depth))

/-- A handler of the table, in the graph. -/
theorem TableOf.at_ {hs : List (Option Handler)} (hT : TableOf c hs) (hbl : c.blocks = List.range n) {k p : Nat} {j : Instr} {h : Handler} (hk : k < n)
    (hp : (c.heap k).elems[p]? = some (.instr j)) (hh : hs[numOf c k p]? = some (some h)) :
    ∃ t, openAt c k p = some t ∧ t.depth = some h.depth ∧ t.lasti = h.lasti ∧ t.target < n ∧ startOf c t.target = h.target := by
  have h1 := hT _ _ hh
  unfold handlersDG at h1
  rw [List.getElem?_map, guardsDG_open hbl hk hp] at h1
  simp only [Option.map_some, Option.some.injEq, Option.map_map, Option.map_eq_some_iff, Function.comp, dataOf, Prod.mk.injEq] at h1
  obtain ⟨t, ht, h2, h3, h4⟩ := h1
  have hm : t.target < n := by
    have := blockAt_mem h2
    rw [hbl] at this
    exact List.mem_range.1 this
  rw [hbl, blockAt_range c hm, Option.some.injEq] at h2
  exact ⟨t, ht, h4, h3, hm, h2⟩

/-- From the list to the graph. -/
theorem ltOnPath_toG (hf : TargetFree eff) (B : Bridge P b c n) {hs : List (Option Handler)} (hT : TableOf c hs) {d0 : Int} {x : LConfig}
    (h : LTOnPath P eff b hs d0 x) : ∃ y, Stands (GOnPath P eff c d0) c n x y := by
  induction h with
  | refl =>
    refine ⟨⟨0, some 0, d0⟩, ⟨0, ?_, .refl _⟩, rfl, (by intro h; cases h), ?_⟩
    · rw [B.blocks]
      have := B.pos
      cases n with
      | zero => omega
      | succ n => simp [List.range_succ_eq_map]
    · rintro K ⟨⟩
      exact ⟨0, rfl, B.pos, by simp, by simp [numOf, startOf, instrCount], by intro j hj; simp at hj⟩
  | tail _ hs' ih =>
    obtain ⟨z, hz⟩ := ih
    cases hs' with
    | plain he =>
      obtain ⟨_, v, _, _, _, hv⟩ := exec_toG (gOnPath_closed d0) hf B hz he
      exact ⟨v, hv⟩
    | @raise K d h hK hh =>
      obtain ⟨k, p, j, g1, g2, g3, g4, g5, g6⟩ := hz.instr (gOnPath_closed d0) B (List.getElem?_eq_getElem hK)
      subst g5
      obtain ⟨t, t1, t2, t3, t4, t5⟩ := hT.at_ B.blocks g2 g4 hh
      refine ⟨⟨t.target, some 0, (h.depth : Int) + 1 + (if h.lasti then 1 else 0)⟩, ?_, rfl, (by intro h; cases h), ?_⟩
      · obtain ⟨k0, hk0, hst⟩ := g1
        have := GStep.raise (P := P) (eff := eff) (d := d) g4 t1 t2
        rw [t3] at this
        exact ⟨k0, hk0, .tail hst this⟩
      · rintro K' ⟨⟩
        exact ⟨0, rfl, t4, by simp, (by simp [numOf, t5, instrCount]), by intro j hj; simp at hj⟩

end Verif
