import Verif.Props.StackMap
import Verif.Props.StackSizeEx
import Verif.Model.CfgConv
/-
A stack map can be checked by computation; the theorems of Props/StackMap on the graph of a loop in a try block.
-/
namespace Verif
open Spec

def StackMap.endInB (M : StackMap) (b : Nat) (r : InTry) : Bool :=
  match r with
  | none => true
  | some p => (M.before p.1.target).all (fun k => decide (k = b ∨ k ∈ M.before b))

theorem endIn_of {M : StackMap} {b : Nat} {r : InTry} (h : StackMap.endInB M b r = true) : M.EndIn b r := by
  intro p hp
  subst hp
  simpa [StackMap.endInB] using h

def StackMap.lowB (M : StackMap) (d : Int) (r : InTry) : Bool :=
  match r with
  | none => true
  | some p => decide (M.base p.1.target ≤ d)

theorem low_of {M : StackMap} {d : Int} {r : InTry} (h : StackMap.lowB M d r = true) : M.Low d r := by
  intro p hp
  subst hp
  simpa [StackMap.lowB] using h

def StackMap.entersB (M : StackMap) (c : CFG) (b : Nat) (d : Int) (r : InTry) (n : Nat) : Bool :=
  (M.before n).all (fun k => decide (k = b ∨ k ∈ M.before b)) &&
  match M.entry n with
  | none => false
  | some (d', r') => decide (d' = d) &&
    (decide (r' = r) || decide (n = b ∨ n ∈ M.before b) ||
      (M.joins n && decide (closeLead r (c.heap n).elems = none) && StackMap.endInB M n r))

theorem enters_of {M : StackMap} {c : CFG} {b : Nat} {d : Int} {r : InTry} {n : Nat} (h : StackMap.entersB M c b d r n = true) :
    M.Enters c b d r n := by
  unfold StackMap.entersB at h
  rw [Bool.and_eq_true] at h
  obtain ⟨h1, h2⟩ := h
  refine ⟨by simpa using h1, ?_⟩
  split at h2
  · cases h2
  · rename_i d' r' he
    simp only [Bool.and_eq_true, Bool.or_eq_true, decide_eq_true_eq] at h2
    obtain ⟨rfl, h3⟩ := h2
    refine ⟨r', he, ?_⟩
    rcases h3 with (h3 | h3) | ⟨⟨h3, h4⟩, h5⟩
    · exact .inl h3
    · exact .inr (.inl h3)
    · exact .inr (.inr ⟨h3, h4, endIn_of h5⟩)

def ownEndB (i : Instr) (l : List BElem) (r : InTry) : Bool :=
  !isFinal i.name || match nextEnd l with
    | none => true
    | some id => r.any (fun p => p.1.id == id)

theorem ownEnd_of {i : Instr} {l : List BElem} {r : InTry} (h : ownEndB i l r = true) : OwnEnd i l r := by
  intro hf id hid
  unfold ownEndB at h
  rw [hf, hid] at h
  cases r with
  | none => simp at h
  | some p => exact ⟨p, rfl, by simpa using h⟩

def StackMap.describesB (M : StackMap) (P : Platform) (eff : Instr → Bool → Py (Int × Int)) (c : CFG) (b : Nat) :
    List BElem → Int → InTry → Option TryB → Bool
  | [], d, r, _ => match (c.heap b).next with
    | none => true
    | some n => !(c.heap n).elems.isEmpty && StackMap.entersB M c b d r n
  | .instr i :: l, d, r, q =>
    decide (r.map Prod.fst = q) && ownEndB i l r && (!(isFinal i.name && (nextEnd l).isSome) || StackMap.endInB M b r) &&
    (!P.hasJump i.opcode || match i.arg, eff i true with
      | .block t, .ok e =>
        let d' := d + e.1 + e.2
        let r' := if isFinal i.name && (nextEnd l).isSome then none else M.touch d' r
        StackMap.lowB M d' r' && StackMap.entersB M c b d' r' t
      | _, _ => true) &&
    ((P.hasJump i.opcode && isUncondJump i.name) || match eff i false with
      | .ok e =>
        let d' := d + e.1 + e.2
        (!(isFinal i.name && (nextEnd l).isSome) || StackMap.lowB M d' r) &&
        (isFinal i.name || (StackMap.lowB M d' r && StackMap.describesB M P eff c b l d' (M.touch d' r) q))
      | _ => true)
  | .tryBegin t :: l, d, _, _ =>
    decide (M.entry t.target = some (M.base t.target + 1 + (if t.lasti then 1 else 0), none)) && decide (M.base t.target ≤ d) &&
      StackMap.describesB M P eff c b l d (some (t, decide (d = M.base t.target))) (some t)
  | .tryEnd id :: l, d, r, q =>
    (!r.any (fun p => p.1.id = id) || StackMap.endInB M b r) &&
    StackMap.describesB M P eff c b l d (closeTry r id) (if q.any (fun t => t.id = id) then none else q)
  | .setLineno _ :: l, d, r, q => StackMap.describesB M P eff c b l d r q
  | .label _ :: _, _, _, _ => false

theorem describes_of {M : StackMap} {P : Platform} {eff : Instr → Bool → Py (Int × Int)} {c : CFG} {b : Nat} :
    ∀ {es : List BElem} {d : Int} {r : InTry} {q : Option TryB}, StackMap.describesB M P eff c b es d r q = true →
      M.Describes P eff c b es d r q := by
  intro es
  induction es with
  | nil =>
    intro d r q h n hn
    simp only [StackMap.describesB, hn, Bool.and_eq_true, Bool.not_eq_true', List.isEmpty_eq_false_iff] at h
    exact ⟨h.1, enters_of h.2⟩
  | cons x l ih =>
    intro d r q h
    cases x with
    | label n => cases h
    | setLineno n => exact ih h
    | tryBegin t =>
      simp only [StackMap.describesB, Bool.and_eq_true, decide_eq_true_eq] at h
      exact ⟨h.1.1, h.1.2, ih h.2⟩
    | tryEnd id =>
      simp only [StackMap.describesB, Bool.and_eq_true, Bool.or_eq_true] at h
      refine ⟨?_, ih h.2⟩
      intro p hp hid
      rcases h.1 with h1 | h1
      · subst hp
        simp [hid] at h1
      · exact endIn_of h1
    | instr i =>
      simp only [StackMap.describesB, Bool.and_eq_true, decide_eq_true_eq] at h
      obtain ⟨⟨⟨⟨h1, h2⟩, h3⟩, h4⟩, h5⟩ := h
      refine ⟨h1, ownEnd_of h2, ?_, ?_, ?_⟩
      · intro hf hs
        rw [hf, hs] at h3
        exact endIn_of (by simpa using h3)
      · intro hj t e ht he
        rw [hj, ht, he] at h4
        simp only [Bool.not_true, Bool.false_or] at h4
        rw [Bool.and_eq_true] at h4
        exact ⟨low_of (by simp only [Bool.and_eq_true]; exact h4.1), enters_of (by simp only [Bool.and_eq_true]; exact h4.2)⟩
      · intro hj e he
        rw [hj, he] at h5
        simp only [Bool.false_or, Bool.and_eq_true] at h5
        refine ⟨?_, ?_⟩
        · intro hf hs
          rw [hf, hs] at h5
          exact low_of (by simpa using h5.1)
        · intro hf
          rw [hf] at h5
          simp only [Bool.false_or, Bool.and_eq_true] at h5
          exact ⟨low_of h5.2.1, ih h5.2.2⟩

/-- The whole map. -/
def StackMap.validB (M : StackMap) (P : Platform) (eff : Instr → Bool → Py (Int × Int)) (c : CFG) (d0 : Int) : Bool :=
  (match c.blocks.head? with
    | none => true
    | some b => decide (M.entry b = some (d0, none)) && decide (M.before b = [])) &&
  c.blocks.all (fun b => match M.entry b with
    | none => true
    | some (d, r) => (!M.joins b || decide (r = none)) && StackMap.lowB M d r &&
        StackMap.describesB M P eff c b (c.heap b).elems d r (openAtBlock c b))

theorem valid_of {M : StackMap} {P : Platform} {eff : Instr → Bool → Py (Int × Int)} {c : CFG} {d0 : Int}
    (h : StackMap.validB M P eff c d0 = true) (hb : ∀ n, M.base n < 32768) : M.Valid P eff c d0 := by
  unfold StackMap.validB at h
  rw [Bool.and_eq_true] at h
  refine ⟨?_, ?_, hb⟩
  · intro b hb
    rw [hb] at h
    simpa using h.1
  · intro b hb d r he
    have := List.all_eq_true.1 h.2 b hb
    rw [he] at this
    simp only [Bool.and_eq_true, Bool.or_eq_true, Bool.not_eq_true', decide_eq_true_eq] at this
    obtain ⟨⟨h1, h2⟩, h3⟩ := this
    refine ⟨?_, low_of h2, describes_of h3⟩
    intro hj
    rcases h1 with h1 | h1
    · rw [hj] at h1; cases h1
    · exact h1

/-- Following a path: at each point, go on, jump, or (anything else) take the handler where the region ends. -/
def StackMap.follow (M : StackMap) (P : Platform) (eff : Instr → Bool → Py (Int × Int)) (c : CFG) :
    List Nat → Nat × Nat × Int × InTry → Option (Nat × Nat × Int × InTry)
  | [], x => some x
  | 0 :: l, (b, i, d, r) =>
    match (c.heap b).elems[i]? with
    | some (.setLineno _) => StackMap.follow M P eff c l (b, i + 1, d, r)
    | some (.tryBegin t) => StackMap.follow M P eff c l (b, i + 1, d, some (t, decide (d = M.base t.target)))
    | some (.tryEnd id) => StackMap.follow M P eff c l (b, i + 1, d, closeTry r id)
    | some (.instr ins) =>
      if isFinal ins.name = false then
        match eff ins false with
        | .ok e => StackMap.follow M P eff c l (b, i + 1, d + e.1 + e.2, M.touch (d + e.1 + e.2) r)
        | _ => none
      else none
    | some (.label _) => none
    | none =>
      if i = (c.heap b).elems.length then
        match (c.heap b).next with
        | some n => match M.entry n with
          | some (d', r') => StackMap.follow M P eff c l (n, 0, d', r')
          | none => none
        | none => none
      else none
  | _ :: l, (b, i, _, _) =>
    match (c.heap b).elems[i]? with
    | some (.instr ins) =>
      if P.hasJump ins.opcode = true then
        match ins.arg, eff ins true with
        | .block t, .ok _ => match M.entry t with
          | some (d', r') => StackMap.follow M P eff c l (t, 0, d', r')
          | none => none
        | _, _ => none
      else none
    | _ => none

theorem follow_reached {M : StackMap} {P : Platform} {eff : Instr → Bool → Py (Int × Int)} {c : CFG} (l : List Nat) :
    ∀ (x y : Nat × Nat × Int × InTry), M.Reached P eff c x.1 x.2.1 x.2.2.1 x.2.2.2 → StackMap.follow M P eff c l x = some y →
      M.Reached P eff c y.1 y.2.1 y.2.2.1 y.2.2.2 := by
  induction l with
  | nil =>
    intro x y hx h
    simp only [StackMap.follow, Option.some.injEq] at h
    subst h
    exact hx
  | cons a l ih =>
    rintro ⟨b, i, d, r⟩ y hx h
    simp only at hx
    cases a with
    | zero =>
      simp only [StackMap.follow] at h
      split at h
      · rename_i h1; exact ih _ _ (.line hx h1) h
      · rename_i h1; exact ih _ _ (.open_ hx h1) h
      · rename_i h1; exact ih _ _ (.close hx h1) h
      · rename_i h1
        split at h
        · rename_i h2
          split at h
          · rename_i h3; exact ih _ _ (.go hx h1 h2 h3) h
          · cases h
        · cases h
      · cases h
      · split at h
        · rename_i h1
          split at h
          · rename_i h2
            split at h
            · rename_i h3; exact ih _ _ (.next hx h1 h2 h3) h
            · cases h
          · cases h
        · cases h
    | succ a =>
      simp only [StackMap.follow] at h
      split at h
      · rename_i h1
        split at h
        · rename_i h2
          split at h
          · rename_i h3 h4
            split at h
            · rename_i h5; exact ih _ _ (.jump hx h1 h2 h3 h4 h5) h
            · cases h
          · cases h
        · cases h
      · cases h

/-- The targets of the regions met are among those of the TryBegins and of the entries of the map. -/
theorem reached_targets {M : StackMap} {P : Platform} {eff : Instr → Bool → Py (Int × Int)} {c : CFG} {T : List Nat}
    (h1 : ∀ b t, BElem.tryBegin t ∈ (c.heap b).elems → t.target ∈ T)
    (h2 : ∀ b d t f, M.entry b = some (d, some (t, f)) → t.target ∈ T) {b i : Nat} {d : Int} {r : InTry}
    (h : M.Reached P eff c b i d r) : ∀ t f, r = some (t, f) → t.target ∈ T := by
  induction h with
  | first _ he => intro t f hr; exact h2 _ _ t f (by rw [he, hr])
  | line _ _ ih => exact ih
  | open_ _ hx _ =>
    intro t f hr
    simp only [Option.some.injEq, Prod.mk.injEq] at hr
    obtain ⟨rfl, _⟩ := hr
    exact h1 _ _ (List.mem_of_getElem? hx)
  | close _ _ ih =>
    intro t f hr
    unfold closeTry at hr
    split at hr
    · cases hr
    · exact ih t f hr
  | @go b i d r ins e _ _ _ _ ih =>
    intro t f hr
    cases r with
    | none => cases hr
    | some p =>
      simp only [StackMap.touch, Option.map_some, Option.some.injEq, Prod.mk.injEq] at hr
      obtain ⟨rfl, _⟩ := hr
      exact ih p.1 p.2 rfl
  | jump _ _ _ _ _ he _ => intro t f hr; exact h2 _ _ t f (by rw [he, hr])
  | next _ _ _ he _ => intro t f hr; exact h2 _ _ t f (by rw [he, hr])
  | handler _ _ he _ => intro t f hr; exact h2 _ _ t f (by rw [he, hr])

/-! ### The example -/

/-- `try: [values]; for x in y: … / except: …` : the region is entered with two values (a constant on top of another) and
its smallest depth, 1, is met only after the first instruction; the loop is left by a jump out of the region. -/
def tryLoopBlocks : List Blk := [
  ⟨[i311 "RESUME" (.int 0), i311 "LOAD_CONST" (.int 6), i311 "LOAD_CONST" (.int 7), .tryBegin ⟨0, 4, true, none⟩,
    i311 "POP_TOP", .setLineno 3, i311 "LOAD_FAST" (.str "y"), i311 "GET_ITER"], some 1⟩,
  ⟨[i311 "FOR_ITER" (.block 3)], some 2⟩,
  ⟨[i311 "STORE_FAST" (.str "x"), i311 "JUMP_BACKWARD" (.block 1), .tryEnd 0], none⟩,
  ⟨[.tryEnd 0, i311 "RETURN_VALUE"], none⟩,
  ⟨[i311 "PUSH_EXC_INFO", i311 "POP_TOP", i311 "POP_EXCEPT", i311 "POP_TOP", i311 "RETURN_VALUE"], none⟩]

def tryLoop : CFG := mkCFG tryLoopBlocks

/-- It is what `from_bytecode` makes of this list. -/
def tryLoopCode : Bytecode where
  attrs := Attrs.default
  argnames := []
  elems := [i311 "RESUME" (.int 0), i311 "LOAD_CONST" (.int 6), i311 "LOAD_CONST" (.int 7), .tryBegin ⟨0, 9, true, none⟩,
    i311 "POP_TOP", .setLineno 3, i311 "LOAD_FAST" (.str "y"), i311 "GET_ITER",
    .label 7, i311 "FOR_ITER" (.label 8), i311 "STORE_FAST" (.str "x"), i311 "JUMP_BACKWARD" (.label 7), .tryEnd 0,
    .label 8, i311 "RETURN_VALUE",
    .label 9, i311 "PUSH_EXC_INFO", i311 "POP_TOP", i311 "POP_EXCEPT", i311 "POP_TOP", i311 "RETURN_VALUE"]

example : (fromBytecode Py311.platform tryLoopCode).toOption.map (fun c => c.blocks.map (fun b => ((c.heap b).elems, (c.heap b).next))) =
    some (tryLoopBlocks.map (fun b => (b.elems, b.next))) := by decide +kernel

def tryLoopMap : StackMap where
  entry := fun b => [some (0, none), some (2, some (⟨0, 4, true, none⟩, true)), some (3, some (⟨0, 4, true, none⟩, true)),
    some (1, none), some (3, none)][b]?.getD none
  base := fun b => if b = 4 then 1 else 0
  joins := fun b => b == 3
  before := fun b => if b = 2 then [1] else []

theorem tryLoop_valid : tryLoopMap.Valid Py311.platform eff311 tryLoop 0 := by
  refine valid_of (by decide +kernel) ?_
  intro n
  unfold tryLoopMap
  simp only
  split <;> omega

theorem mkCFG_tries {bs : List Blk} {p : TryB → Bool}
    (h : bs.all (fun b => b.elems.all (fun | .tryBegin t => p t | _ => true)) = true) :
    ∀ b t, BElem.tryBegin t ∈ ((mkCFG bs).heap b).elems → p t = true := by
  intro b t ht
  unfold mkCFG at ht
  simp only at ht
  cases hb : bs[b]? with
  | none => rw [hb] at ht; simp at ht
  | some k =>
    rw [hb] at ht
    exact List.all_eq_true.1 (List.all_eq_true.1 h k (List.mem_of_getElem? hb)) _ ht

theorem tryLoop_unique : UniqueTry tryLoop := by
  intro b1 _ b2 _ t1 t2 h1 h2 _
  have h : tryLoopBlocks.all (fun b => b.elems.all (fun | .tryBegin t => decide (t = ⟨0, 4, true, none⟩) | _ => true)) = true := by
    decide +kernel
  have e1 := mkCFG_tries (p := fun t => decide (t = ⟨0, 4, true, none⟩)) h b1 t1 h1
  have e2 := mkCFG_tries (p := fun t => decide (t = ⟨0, 4, true, none⟩)) h b2 t2 h2
  simp only [decide_eq_true_eq] at e1 e2
  rw [e1, e2]

theorem tryLoop_ends : tryLoopMap.Ends Py311.platform eff311 tryLoop := by
  intro b i d t f ins hr _
  have ht : t.target ∈ [4] := by
    refine reached_targets ?_ ?_ hr t f rfl
    · intro b t ht
      have := mkCFG_tries (bs := tryLoopBlocks) (p := fun t => decide (t.target ∈ [4])) (by decide +kernel) b t ht
      simpa using this
    · intro b d t f he
      unfold tryLoopMap at he
      simp only at he
      match b with
      | 0 | 1 | 2 | 3 | 4 => simp at he <;> simp [← he.2.1]
      | n + 5 => simp at he
  simp only [List.mem_singleton] at ht
  have hlast : tryLoopMap.Reached Py311.platform eff311 tryLoop 2 1 2 (some (⟨0, 4, true, none⟩, true)) :=
    follow_reached [0, 0, 0, 0, 0, 0, 0, 0, 0, 0, 0, 0] (0, 0, 0, none) (2, 1, 2, some (⟨0, 4, true, none⟩, true))
      (.first rfl rfl) (by decide +kernel)
  refine ⟨2, 1, 2, _, ⟨0, 4, true, none⟩, hlast, ?_, by rw [ht]⟩
  exact .jump (ins := ⟨"JUMP_BACKWARD", 140, .block 1, none⟩) (e := (0, 0)) (k := 1) (by decide +kernel) (by decide +kernel)
    (by decide +kernel) rfl (by decide +kernel) (by decide +kernel)

/-- Non-vacuity of C29, C31 and C33 with handlers: the size is 4 and the depth of the handler is 1. -/
example : (tryLoop.computeStacksize Py311.platform eff311 true).toOption.map (fun p => (p.1, (p.2.heap 0).elems[3]?)) =
    some (4, some (.tryBegin ⟨0, 4, true, some 1⟩)) := by decide +kernel

example : made Py311.platform (allCode tryLoop) = true := by decide +kernel

example (n : Int) (c' : CFG) (h : tryLoop.computeStacksize Py311.platform eff311 true = .ok (n, c')) :
    (∀ x, GOnPath Py311.platform eff311 c' 0 x → x.depth ≤ max n 0) ∧
    (∀ x e y, GOnPath Py311.platform eff311 c' 0 x → Exec Py311.platform eff311 c' x e y → 0 ≤ x.depth + e.1) ∧
    ∀ b i d ins t, GOnPath Py311.platform eff311 c' 0 ⟨b, some i, d⟩ →
      (c'.heap b).elems[i]? = some (.instr ins) → openAt c' b i = some t → ∃ k : Nat, t.depth = some k ∧ (k : Int) ≤ d := by
  refine ⟨C29_handlers_partial _ _ _ _ _ tryLoopMap rfl tryLoop_valid tryLoop_ends tryLoop_unique h,
    C31_handlers_partial _ _ _ _ _ tryLoopMap rfl tryLoop_valid tryLoop_ends tryLoop_unique h, ?_⟩
  intro b i d ins t h1 h2 h3
  obtain ⟨k, h4, h5, _⟩ := C33_partial _ _ _ _ _ tryLoopMap rfl tryLoop_valid tryLoop_ends tryLoop_unique h b i d ins t h1 h2 h3
  exact ⟨k, h4, h5⟩

end Verif
