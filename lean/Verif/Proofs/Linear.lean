import Verif.Spec.Linear
import Verif.Proofs.StackSize
import Verif.Props.CfgConv
import Verif.Model.StackEffect
/- Executions of a Bytecode are executions of its graph. -/
namespace Verif
open Spec

theorem effOf_targetFree (P : Platform) (check : Bool) : TargetFree (effOf P check) := by
  intro i l t j
  have h1 : Instr.effectArg P { i with arg := .label l } = Instr.effectArg P { i with arg := .block t } := rfl
  have h2 : Instr.stackEffect P { i with arg := .label l } (some j) = Instr.stackEffect P { i with arg := .block t } (some j) := by
    unfold Instr.stackEffect; rw [h1]
  unfold effOf
  split
  · unfold Instr.prePost
    rw [h2]
    have h3 : ∀ e : Int, dynamicEffect P i.name e (.label l) (some j) = dynamicEffect P i.name e (.block t) (some j) := by
      intro e
      unfold dynamicEffect
      have h4 : effectInt (.label l) = effectInt (.block t) := rfl
      rw [h4]
    simp only [h3]
  · rw [h2]

/-- The number of an instruction of the graph, or of the next one. -/
def startOf (c : CFG) (b : Nat) : Nat := instrCount ((List.range b).flatMap (fun k => (c.heap k).elems))
def numOf (c : CFG) (b i : Nat) : Nat := startOf c b + instrCount ((c.heap b).elems.take i)

theorem instrsE_append (x y : List BElem) : instrsE (x ++ y) = instrsE x ++ instrsE y := List.filterMap_append ..

theorem instrsE_length (es : List BElem) : (instrsE es).length = instrCount es := by
  induction es with
  | nil => rfl
  | cons e es ih =>
    unfold instrsE instrCount at *
    cases e <;> simp_all [BElem.isInstr, List.filterMap_cons, List.countP_cons]

theorem blockAt_split (heap : Nat → Blk) (b : Nat) (pre post : List Nat) (h : b ∉ pre) :
    blockAt heap b (pre ++ b :: post) = some (instrCount (pre.flatMap (fun k => (heap k).elems))) := by
  induction pre with
  | nil => simp [blockAt, instrCount]
  | cons k pre ih =>
    rw [List.mem_cons, not_or] at h
    show blockAt heap b (k :: (pre ++ b :: post)) = _
    unfold blockAt
    rw [if_neg (Ne.symm h.1), ih h.2, List.flatMap_cons, instrCount_append]
    simp [Nat.add_comm]

theorem blockAt_mem {heap : Nat → Blk} {b m : Nat} : ∀ {bs : List Nat}, blockAt heap b bs = some m → b ∈ bs := by
  intro bs
  induction bs generalizing m with
  | nil => intro h; cases h
  | cons k bs ih =>
    intro h
    unfold blockAt at h
    split at h
    · rename_i e; simp [e]
    · cases hb : blockAt heap b bs with
      | none => rw [hb] at h; cases h
      | some x => exact List.mem_cons_of_mem _ (ih hb)

theorem range_split {n b : Nat} (h : b < n) : List.range n = List.range b ++ b :: List.range' (b + 1) (n - b - 1) := by
  rw [List.range_eq_range', List.range_eq_range', show n = b + (1 + (n - b - 1)) by omega, ← List.range'_append_1, Nat.zero_add,
    Nat.add_comm 1, List.range'_succ, show b + (n - b - 1 + 1) - b - 1 = n - b - 1 by omega]

theorem blockAt_range (c : CFG) {n b : Nat} (h : b < n) : blockAt c.heap b (List.range n) = some (startOf c b) := by
  rw [range_split h, blockAt_split _ _ _ _ (by simp)]
  rfl

/-- An instruction of the graph, by its number. -/
theorem instr_at {c : CFG} {n b i : Nat} {j : Instr} (hbl : c.blocks = List.range n) (hb : b < n) (hi : (c.heap b).elems[i]? = some (.instr j)) :
    (instrsE (allCode c))[numOf c b i]? = some j := by
  have hs : (c.heap b).elems = (c.heap b).elems.take i ++ .instr j :: (c.heap b).elems.drop (i + 1) := by
    rw [← drop_cons_of_getElem? hi, List.take_append_drop]
  unfold allCode
  rw [hbl, range_split hb, List.flatMap_append, List.flatMap_cons, instrsE_append, instrsE_append, hs, instrsE_append]
  unfold numOf startOf
  rw [← instrsE_length, ← instrsE_length, List.getElem?_append_right (by omega), Nat.add_sub_cancel_left, List.append_assoc, List.getElem?_append_right (by simp)]
  simp [instrsE]

theorem startOf_succ (c : CFG) (b : Nat) : startOf c (b + 1) = startOf c b + instrCount (c.heap b).elems := by
  unfold startOf
  rw [List.range_succ, List.flatMap_append, instrCount_append]
  simp

theorem startOf_all {c : CFG} {n : Nat} (hbl : c.blocks = List.range n) : startOf c n = (instrsE (allCode c)).length := by
  rw [instrsE_length]
  unfold startOf allCode
  rw [hbl]

/-- What is known of the graph of a Bytecode. -/
structure Bridge (P : Platform) (b : Bytecode) (c : CFG) (n : Nat) : Prop where
  pos : 0 < n
  blocks : c.blocks = List.range n
  next : ∀ k < n, (c.heap k).next = (if k + 1 < n ∧ fallsThrough (c.heap k).elems = true then some (k + 1) else none)
  last : ∀ k, k + 1 < n → ∃ i, lastInstr (c.heap k).elems = some i
  code : codeG c = codeB b
  labels : LabelsOnly b
  blocksOnly : BlocksOnly c
  lost : ∀ m o loc, CodeItem.op m o .lost loc ∉ codeG c

theorem bridge_of {P : Platform} {b : Bytecode} {c : CFG} (hl : LabelsOnly b) (h : fromBytecode P b = .ok c) : ∃ n, Bridge P b c n := by
  obtain ⟨⟨n, h1, h2, h3⟩, _, h4⟩ := C27 P b c hl h
  exact ⟨n, h1, h2, fun k hk => (h3 k hk).2.1, fun k hk => (h3 k (by omega)).2.2 hk, h4, hl, (C26_from P b c hl h).2.2.2.2, (C26_no_dangling P b c hl h).2⟩

def opsOf (l : List CodeItem) : List (String × Nat × ArgRef × Option Loc) :=
  l.filterMap (fun | .op m o a loc => some (m, o, a, loc) | _ => none)

theorem opsOf_resolved (lab blk : Nat → Option Nat) (es : List BElem) :
    opsOf (resolved lab blk es) = (instrsE es).map (fun i => (i.name, i.opcode, argRef lab blk i.arg, i.loc)) := by
  unfold opsOf resolved instrsE
  rw [List.filterMap_filterMap, List.map_filterMap]
  congr 1
  funext e
  cases e <;> rfl

/-- The instruction of the graph and the instruction of the Bytecode. -/
structure SameAt (b : Bytecode) (c : CFG) (i j : Instr) : Prop where
  name : i.name = j.name
  opcode : i.opcode = j.opcode
  args : (i = j ∧ (∀ l, i.arg ≠ .label l) ∧ ∀ t, j.arg ≠ .block t) ∨
    ∃ l t m, i.arg = .label l ∧ j.arg = .block t ∧ i = { j with arg := .label l } ∧ labelAt l b.elems = some m ∧ blockAt c.heap t c.blocks = some m

variable {P : Platform} {b : Bytecode} {c : CFG} {n : Nat}

theorem Bridge.same (B : Bridge P b c n) {i j : Instr} (hi : BElem.instr i ∈ b.elems) (hj : BElem.instr j ∈ allCode c)
    (h : (i.name, i.opcode, argRef (fun l => labelAt l b.elems) (fun _ => none) i.arg, i.loc) =
      (j.name, j.opcode, argRef (fun _ => none) (fun t => blockAt c.heap t c.blocks) j.arg, j.loc)) : SameAt b c i j := by
  simp only [Prod.mk.injEq] at h
  obtain ⟨h1, h2, h3, h4⟩ := h
  refine ⟨h1, h2, ?_⟩
  have hlj : CodeItem.op j.name j.opcode (argRef (fun _ => none) (fun t => blockAt c.heap t c.blocks) j.arg) j.loc ∈ codeG c :=
    List.mem_filterMap.2 ⟨_, hj, rfl⟩
  have hjl : ∀ l, j.arg ≠ .label l := by
    obtain ⟨k, hk, hjk⟩ := List.mem_flatMap.1 hj
    exact B.blocksOnly k hk j hjk
  have hib := B.labels i hi
  cases hja : j.arg with
  | label l => exact absurd hja (hjl l)
  | block t =>
    right
    rw [hja] at h3 hlj
    simp only [argRef] at h3 hlj
    cases hbt : blockAt c.heap t c.blocks with
    | none => rw [hbt] at hlj; exact absurd hlj (B.lost _ _ _)
    | some m =>
      rw [hbt] at h3
      cases hia : i.arg with
      | label l =>
        rw [hia] at h3
        simp only [argRef] at h3
        cases hll : labelAt l b.elems with
        | none => rw [hll] at h3; cases h3
        | some m' =>
          rw [hll] at h3
          simp only [ArgRef.target.injEq] at h3
          subst h3
          refine ⟨l, t, m', rfl, rfl, ?_, hll, hbt⟩
          cases i; cases j
          simp only at h1 h2 h4 hia
          subst h1 h2 h4 hia
          rfl
      | block x => exact absurd hia (hib x)
      | _ => rw [hia] at h3; cases h3
  | _ =>
    left
    rw [hja] at h3
    cases hia : i.arg with
    | label l =>
      rw [hia] at h3
      simp only [argRef] at h3
      cases hll : labelAt l b.elems <;> rw [hll] at h3 <;> cases h3
    | block x => exact absurd hia (hib x)
    | _ =>
      rw [hia] at h3
      refine ⟨?_, by simp, by simp⟩
      have h5 : i.arg = j.arg := by
        rw [hia, hja] <;> exact ArgRef.value.inj h3
      cases i; cases j
      simp only at h1 h2 h4 h5
      subst h1 h2 h4 h5
      rfl

theorem Bridge.ops (B : Bridge P b c n) : (instrsB b).map (fun i => (i.name, i.opcode, argRef (fun l => labelAt l b.elems) (fun _ => none) i.arg, i.loc)) =
    (instrsE (allCode c)).map (fun j => (j.name, j.opcode, argRef (fun _ => none) (fun t => blockAt c.heap t c.blocks) j.arg, j.loc)) := by
  have := congrArg opsOf B.code
  unfold codeB codeG at this
  rw [opsOf_resolved, opsOf_resolved] at this
  exact this.symm

theorem mem_instrsE {es : List BElem} {i : Instr} (h : i ∈ instrsE es) : BElem.instr i ∈ es := by
  obtain ⟨e, he, hx⟩ := List.mem_filterMap.1 h
  cases e <;> simp at hx
  subst hx; exact he

theorem Bridge.toB (B : Bridge P b c n) {k : Nat} {j : Instr} (h : (instrsE (allCode c))[k]? = some j) :
    ∃ i, (instrsB b)[k]? = some i ∧ SameAt b c i j := by
  have := congrArg (·[k]?) B.ops
  simp only [List.getElem?_map, h, Option.map_some] at this
  cases hi : (instrsB b)[k]? with
  | none => rw [hi] at this; cases this
  | some i =>
    rw [hi] at this
    simp only [Option.map_some, Option.some.injEq] at this
    exact ⟨i, rfl, B.same (mem_instrsE (List.mem_of_getElem? hi)) (mem_instrsE (List.mem_of_getElem? h)) this⟩

theorem Bridge.toG (B : Bridge P b c n) {k : Nat} {i : Instr} (h : (instrsB b)[k]? = some i) :
    ∃ j, (instrsE (allCode c))[k]? = some j ∧ SameAt b c i j := by
  have := congrArg (·[k]?) B.ops
  simp only [List.getElem?_map, h, Option.map_some] at this
  cases hj : (instrsE (allCode c))[k]? with
  | none => rw [hj] at this; cases this
  | some j =>
    rw [hj] at this
    simp only [Option.map_some, Option.some.injEq] at this
    exact ⟨j, rfl, B.same (mem_instrsE (List.mem_of_getElem? h)) (mem_instrsE (List.mem_of_getElem? hj)) this⟩

theorem SameAt.eff {eff : Instr → Bool → Py (Int × Int)} (hf : TargetFree eff) {i j : Instr} (h : SameAt b c i j) (x : Bool) : eff i x = eff j x := by
  rcases h.args with ⟨rfl, _⟩ | ⟨l, t, m, h1, h2, h3, _⟩
  · rfl
  · rw [h3, hf j l t x, ← h2]

variable {eff : Instr → Bool → Py (Int × Int)}

/-- From the graph to the list: a step. -/
theorem exec_toL (hf : TargetFree eff) (B : Bridge P b c n) {x y : Config} {e : Int × Int} (hx : x.blk < n) (h : Exec P eff c x e y) :
    y.blk < n ∧ LExec P eff b ⟨x.pos.map (numOf c x.blk), x.depth⟩ e ⟨y.pos.map (numOf c y.blk), y.depth⟩ := by
  cases h with
  | @go k i d ins e h1 h2 h3 =>
    obtain ⟨i', hi', hs⟩ := B.toB (instr_at B.blocks hx h1)
    refine ⟨hx, ?_⟩
    have : numOf c k (i + 1) = numOf c k i + 1 := by
      unfold numOf
      rw [List.take_add_one, h1, instrCount_append]
      simp [instrCount, BElem.isInstr]
      omega
    simp only [Option.map_some, this]
    exact .go hi' (by rw [hs.name]; exact h2) (by rw [hs.eff hf]; exact h3)
  | @jump k i d ins e t h1 h2 h3 h4 =>
    obtain ⟨i', hi', hs⟩ := B.toB (instr_at B.blocks hx h1)
    rcases hs.args with ⟨_, _, hh⟩ | ⟨l, t', m, a1, a2, a3, a4, a5⟩
    · exact absurd h3 (hh t)
    · rw [h3] at a2
      cases a2
      have ht : t < n := by
        have := blockAt_mem a5
        rw [B.blocks] at this
        exact List.mem_range.1 this
      have hm : m = startOf c t := by
        rw [B.blocks, blockAt_range c ht] at a5
        exact (Option.some.inj a5).symm
      refine ⟨ht, ?_⟩
      have : numOf c t 0 = m := by simp [numOf, hm, instrCount]
      simp only [Option.map_some, this]
      exact .jump hi' (by rw [hs.opcode]; exact h2) a1 a4 (by rw [hs.eff hf]; exact h4)
  | @stop k i d ins e h1 h2 h3 h4 =>
    obtain ⟨i', hi', hs⟩ := B.toB (instr_at B.blocks hx h1)
    exact ⟨hx, .stop hi' (by rw [hs.name]; exact h2) (by rw [hs.name, hs.opcode]; exact h3) (by rw [hs.eff hf]; exact h4)⟩

theorem move_toL (B : Bridge P b c n) {x y : Config} (hx : x.blk < n) (h : Move c x y) :
    y.blk < n ∧ (⟨y.pos.map (numOf c y.blk), y.depth⟩ : LConfig) = ⟨x.pos.map (numOf c x.blk), x.depth⟩ := by
  cases h with
  | @skip k i d e h1 h2 =>
    refine ⟨hx, ?_⟩
    have : numOf c k (i + 1) = numOf c k i := by
      unfold numOf
      rw [List.take_add_one, h1, instrCount_append]
      simp [instrCount, h2]
    simp [this]
  | @next k d m h1 =>
    have hk := B.next k hx
    rw [h1] at hk
    split at hk
    · rename_i h2
      cases hk
      refine ⟨h2.1, ?_⟩
      have : numOf c (k + 1) 0 = numOf c k (c.heap k).elems.length := by
        unfold numOf
        rw [startOf_succ]
        simp [instrCount]
      simp [this]
    · cases hk

/-- From the graph to the list. -/
theorem onPath_toL (hf : TargetFree eff) (B : Bridge P b c n) {d0 : Int} {x : Config} (h : OnPath P eff c d0 x) :
    x.blk < n ∧ LOnPath P eff b d0 ⟨x.pos.map (numOf c x.blk), x.depth⟩ := by
  obtain ⟨k, hk, hst⟩ := h
  have hk0 : k = 0 := by
    have := B.pos
    rw [B.blocks] at hk
    cases n with
    | zero => omega
    | succ n => simp [List.range_succ_eq_map] at hk; exact hk.symm
  subst hk0
  induction hst with
  | refl =>
    refine ⟨B.pos, ?_⟩
    have : numOf c 0 0 = 0 := by simp [numOf, startOf, instrCount]
    simp only [Option.map_some, this]
    exact .refl _
  | tail _ hs ih =>
    obtain ⟨h1, h2⟩ := ih
    rcases hs with ⟨e, hs⟩ | hs
    · obtain ⟨g1, g2⟩ := exec_toL hf B h1 hs
      exact ⟨g1, .tail h2 ⟨e, g2⟩⟩
    · obtain ⟨g1, g2⟩ := move_toL B h1 hs
      exact ⟨g1, by rw [g2]; exact h2⟩

/-! ### From the list to the graph -/

/-- Nothing before the position ends the execution. -/
def Alive (c : CFG) (k i : Nat) : Prop := ∀ j, BElem.instr j ∈ (c.heap k).elems.take i → isFinal j.name = false

theorem lastInstr_mem {es : List BElem} {i : Instr} (h : lastInstr es = some i) : BElem.instr i ∈ es := by
  unfold lastInstr at h
  obtain ⟨e, he, hx⟩ := List.exists_of_findSome?_eq_some h
  cases e <;> simp at hx
  subst hx; exact List.mem_reverse.1 he

/-- Going on to the next instruction. -/
theorem advance (B : Bridge P b c n) {K : Nat} (hK : K < (instrsE (allCode c)).length) : ∀ m k, n - k = m → k < n → ∀ r i, (c.heap k).elems.length - i = r →
    i ≤ (c.heap k).elems.length → Alive c k i → numOf c k i = K → ∀ d, ∃ k' i' j, Star (Move c) ⟨k, some i, d⟩ ⟨k', some i', d⟩ ∧
      k' < n ∧ Alive c k' i' ∧ (c.heap k').elems[i']? = some (.instr j) ∧ numOf c k' i' = K := by
  intro m
  induction m with
  | zero => intro k h1 h2; omega
  | succ m ihm =>
    intro k hm hk r
    induction r with
    | zero =>
      intro i hr hi ha hn d
      have hie : i = (c.heap k).elems.length := by omega
      subst hie
      have hlast : k + 1 < n := by
        apply Classical.byContradiction
        intro hc
        have : k + 1 = n := by omega
        have h1 := startOf_all (c := c) B.blocks
        rw [← this, startOf_succ] at h1
        unfold numOf at hn
        rw [List.take_length] at hn
        omega
      obtain ⟨li, hli⟩ := B.last k hlast
      have hnext : (c.heap k).next = some (k + 1) := by
        rw [B.next k hk, if_pos]
        refine ⟨hlast, ?_⟩
        unfold fallsThrough
        rw [hli]
        simp only [Bool.not_eq_true']
        exact ha li (by rw [List.take_length]; exact lastInstr_mem hli)
      obtain ⟨k', i', j, h1, h2, h3, h4, h5⟩ := ihm (k + 1) (by omega) hlast _ 0 rfl (by omega) (by intro j hj; simp at hj)
        (by rw [← hn]; unfold numOf; rw [startOf_succ, List.take_length]; simp [instrCount]) d
      exact ⟨k', i', j, Spec.Star.trans (.tail (.refl _) (.next hnext)) h1, h2, h3, h4, h5⟩
    | succ r ihr =>
      intro i hr hi ha hn d
      have hlt : i < (c.heap k).elems.length := by omega
      have hel := List.getElem?_eq_getElem hlt
      cases he : (c.heap k).elems[i] with
      | instr j => exact ⟨k, i, j, .refl _, hk, ha, by rw [hel, he], hn⟩
      | _ =>
        have hni : (c.heap k).elems[i].isInstr = false := by rw [he]; rfl
        obtain ⟨k', i', j, h1, h2, h3, h4, h5⟩ := ihr (i + 1) (by omega) (by omega) (by
            intro j hj
            rw [List.take_add_one, hel] at hj
            rcases List.mem_append.1 hj with hj | hj
            · exact ha j hj
            · simp [he] at hj) (by
            rw [← hn]; unfold numOf
            rw [List.take_add_one, hel, instrCount_append]
            simp [instrCount, hni]) d
        exact ⟨k', i', j, Spec.Star.trans (.tail (.refl _) (.skip hel hni)) h1, h2, h3, h4, h5⟩

/-- Closed by the steps of executions. -/
def StepClosed (P : Platform) (eff : Instr → Bool → Py (Int × Int)) (c : CFG) (Q : Config → Prop) : Prop := ∀ x y, Q x → Step P eff c x y → Q y

theorem onPath_closed (d0 : Int) : StepClosed P eff c (OnPath P eff c d0) := by
  rintro x y ⟨k, hk, hs⟩ h
  exact ⟨k, hk, .tail hs h⟩

theorem moves_closed {Q : Config → Prop} (hQ : StepClosed P eff c Q) {x y : Config} (h : Q x) (hm : Star (Move c) x y) : Q y := by
  induction hm with
  | refl => exact h
  | tail _ h1 ih => exact hQ _ _ ih (.inr h1)

/-- A configuration of the graph standing for one of the list. -/
structure Stands (Q : Config → Prop) (c : CFG) (n : Nat) (x : LConfig) (y : Config) : Prop where
  path : Q y
  depth : y.depth = x.depth
  stopped : x.pos = none → y.pos = none
  at_ : ∀ K, x.pos = some K → ∃ i, y.pos = some i ∧ y.blk < n ∧ i ≤ (c.heap y.blk).elems.length ∧ numOf c y.blk i = K ∧ Alive c y.blk i

/-- At an instruction. -/
theorem Stands.instr {Q : Config → Prop} (hQ : StepClosed P eff c Q) (B : Bridge P b c n) {d : Int} {K : Nat} {i : Instr} {y : Config} (h : Stands Q c n ⟨some K, d⟩ y)
    (hi : (instrsB b)[K]? = some i) : ∃ k p j, Q ⟨k, some p, d⟩ ∧ k < n ∧ Alive c k p ∧ (c.heap k).elems[p]? = some (.instr j) ∧
      numOf c k p = K ∧ SameAt b c i j := by
  obtain ⟨p, h1, h2, h3, h4, h5⟩ := h.at_ K rfl
  obtain ⟨j, hj, hs⟩ := B.toG hi
  have hK : K < (instrsE (allCode c)).length := (List.getElem?_eq_some_iff.1 hj).1
  obtain ⟨k', p', j', g1, g2, g3, g4, g5⟩ := advance B hK _ y.blk rfl h2 _ p rfl h3 h5 h4 d
  have hj' := instr_at B.blocks g2 g4
  rw [g5, hj] at hj'
  cases hj'
  refine ⟨k', p', j, moves_closed hQ ?_ g1, g2, g3, g4, g5, hs⟩
  have hd := h.depth
  have hp := h.path
  cases y
  simp only at h1 hd
  subst h1 hd
  exact hp

theorem exec_toG {Q : Config → Prop} (hQ : StepClosed P eff c Q) (hf : TargetFree eff) (B : Bridge P b c n) {x y : LConfig} {e : Int × Int} {z : Config} (hs : Stands Q c n x z)
    (h : LExec P eff b x e y) : ∃ u v, Q u ∧ u.depth = x.depth ∧ Exec P eff c u e v ∧ Stands Q c n y v := by
  cases h with
  | @go K d i e h1 h2 h3 =>
    obtain ⟨k, p, j, g1, g2, g3, g4, g5, g6⟩ := hs.instr hQ B h1
    have hex : Exec P eff c ⟨k, some p, d⟩ e ⟨k, some (p + 1), d + e.1 + e.2⟩ :=
      .go g4 (by rw [← g6.name]; exact h2) (by rw [← g6.eff hf]; exact h3)
    refine ⟨_, _, g1, rfl, hex, ?_, rfl, (by intro h; cases h), ?_⟩
    · exact hQ _ _ g1 (.inl ⟨e, hex⟩)
    · rintro K' ⟨⟩
      have hl := (List.getElem?_eq_some_iff.1 g4).1
      refine ⟨p + 1, rfl, g2, by simp only; omega, ?_, ?_⟩
      · rw [← g5]; unfold numOf
        rw [List.take_add_one, g4, instrCount_append]
        simp [instrCount, BElem.isInstr]
        omega
      · intro j' hj'
        simp only at hj'
        rw [List.take_add_one, g4] at hj'
        rcases List.mem_append.1 hj' with hj' | hj'
        · exact g3 j' hj'
        · simp at hj'
          subst hj'
          rw [← g6.name]; exact h2
  | @jump K d i e l m h1 h2 h3 h4 h5 =>
    obtain ⟨k, p, j, g1, g2, g3, g4, g5, g6⟩ := hs.instr hQ B h1
    rcases g6.args with ⟨_, hh, _⟩ | ⟨l', t, m', a1, a2, a3, a4, a5⟩
    · exact absurd h3 (hh l)
    · rw [h3] at a1
      cases a1
      rw [h4] at a4
      cases a4
      have hex : Exec P eff c ⟨k, some p, d⟩ e ⟨t, some 0, d + e.1 + e.2⟩ :=
        .jump g4 (by rw [← g6.opcode]; exact h2) a2 (by rw [← g6.eff hf]; exact h5)
      refine ⟨_, _, g1, rfl, hex, ?_, rfl, (by intro h; cases h), ?_⟩
      · exact hQ _ _ g1 (.inl ⟨e, hex⟩)
      · rintro K' ⟨⟩
        have ht : t < n := by
          have := blockAt_mem a5
          rw [B.blocks] at this
          exact List.mem_range.1 this
        have hm : m = startOf c t := by
          rw [B.blocks, blockAt_range c ht] at a5
          exact (Option.some.inj a5).symm
        exact ⟨0, rfl, ht, by simp, (by simp [numOf, hm, instrCount]), by intro j hj; simp at hj⟩
  | @stop K d i e h1 h2 h3 h4 =>
    obtain ⟨k, p, j, g1, g2, g3, g4, g5, g6⟩ := hs.instr hQ B h1
    have hex : Exec P eff c ⟨k, some p, d⟩ e ⟨k, none, d + e.1 + e.2⟩ :=
      .stop g4 (by rw [← g6.name]; exact h2) (by rw [← g6.name, ← g6.opcode]; exact h3) (by rw [← g6.eff hf]; exact h4)
    refine ⟨_, _, g1, rfl, hex, ?_, rfl, fun _ => rfl, by intro K h; cases h⟩
    exact hQ _ _ g1 (.inl ⟨e, hex⟩)

/-- From the list to the graph. -/
theorem onPath_toG (hf : TargetFree eff) (B : Bridge P b c n) {d0 : Int} {x : LConfig} (h : LOnPath P eff b d0 x) : ∃ y, Stands (OnPath P eff c d0) c n x y := by
  induction h with
  | refl =>
    refine ⟨⟨0, some 0, d0⟩, ⟨0, ?_, .refl _⟩, rfl, (by intro h; cases h), ?_⟩
    · rw [B.blocks]
      have := B.pos
      cases n with
      | zero => omega
      | succ n => simp [List.range_succ_eq_map]
    · rintro K ⟨⟩
      exact ⟨0, rfl, B.pos, by simp, by simp [numOf, startOf, instrCount], by intro j hj; simp at hj⟩
  | tail _ hs ih =>
    obtain ⟨z, hz⟩ := ih
    obtain ⟨e, hs⟩ := hs
    obtain ⟨_, v, _, _, _, hv⟩ := exec_toG (onPath_closed d0) hf B hz hs
    exact ⟨v, hv⟩

/-- Underflows are the same. -/
theorem underflows_iff (hf : TargetFree eff) (B : Bridge P b c n) (d0 : Int) : LUnderflows P eff b d0 ↔ Underflows P eff c d0 := by
  constructor
  · rintro ⟨x, e, y, h1, h2, h3⟩
    obtain ⟨z, hz⟩ := onPath_toG hf B h1
    obtain ⟨u, v, g1, g2, g3, _⟩ := exec_toG (onPath_closed d0) hf B hz h2
    exact ⟨u, e, v, g1, g3, by rw [g2]; exact h3⟩
  · rintro ⟨x, e, y, h1, h2, h3⟩
    obtain ⟨g1, g2⟩ := onPath_toL hf B h1
    exact ⟨_, e, _, g2, (exec_toL hf B g1 h2).2, h3⟩

end Verif
