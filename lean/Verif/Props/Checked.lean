import Verif.Props.RealEx
/-
The hypotheses of C69 as a computable test of a code object together with a finite stack map.
-/
namespace Verif
open Spec

/-- A stack map given by lists, one element for each block. -/
structure MapData where
  entry : List (Option (Int × InTry))
  base : List Nat
  joins : List Bool
  before : List (List Nat)

def MapData.toMap (D : MapData) : StackMap where
  entry := fun b => D.entry[b]?.getD none
  base := fun b => ((D.base[b]?.getD 0 : Nat) : Int)
  joins := fun b => D.joins[b]?.getD false
  before := fun b => D.before[b]?.getD []

/-- The region that ends at the first of these elements, after the depth of its handler has been met. -/
def endTry (M : StackMap) (P : Platform) (eff : Instr → Bool → Py (Int × Int)) : List BElem → Int → InTry → Option TryB
  | .tryEnd id :: _, _, some (t, true) => if t.id = id then some t else none
  | .instr ins :: l, d, r =>
    if P.hasJump ins.opcode && isUncondJump ins.name then
      match ins.arg, eff ins true, r with
      | .block _, .ok _, some (t, true) => if nextEnd l = some t.id then some t else none
      | _, _, _ => none
    else if isFinal ins.name then
      match eff ins false with
      | .ok e => match M.touch (d + e.1 + e.2) r with
        | some (t, true) => if nextEnd l = some t.id then some t else none
        | _ => none
      | _ => none
    else none
  | _, _, _ => none

/-- What a walk through the graph meets: the regions of instructions reached, those that end after the depth of their handler has been met, the blocks it leads to. -/
structure Walk where
  live : List TryB
  ends : List TryB
  targets : List Nat

/-- Through one block. -/
def walk (M : StackMap) (P : Platform) (eff : Instr → Bool → Py (Int × Int)) (next : Option Nat) : List BElem → Int → InTry → Walk
  | [], _, _ => ⟨[], [], next.toList⟩
  | .setLineno _ :: l, d, r => walk M P eff next l d r
  | .label _ :: _, _, _ => ⟨[], [], []⟩
  | .tryBegin t :: l, d, _ => walk M P eff next l d (some (t, decide (d = M.base t.target)))
  | .tryEnd id :: l, d, r =>
    let w := walk M P eff next l d (closeTry r id)
    let e := (endTry M P eff (.tryEnd id :: l) d r).toList
    ⟨w.live, e ++ w.ends, e.map (·.target) ++ w.targets⟩
  | .instr ins :: l, d, r =>
    let w : Walk := if isFinal ins.name then ⟨[], [], []⟩ else
      match eff ins false with
      | .ok e => walk M P eff next l (d + e.1 + e.2) (M.touch (d + e.1 + e.2) r)
      | _ => ⟨[], [], []⟩
    let e := (endTry M P eff (.instr ins :: l) d r).toList
    let js := if P.hasJump ins.opcode then match ins.arg, eff ins true with | .block t, .ok _ => [t] | _, _ => [] else []
    ⟨(r.map Prod.fst).toList ++ w.live, e ++ w.ends, js ++ e.map (·.target) ++ w.targets⟩

/-- Through the graph, each block once. -/
def explore (M : StackMap) (P : Platform) (eff : Instr → Bool → Py (Int × Int)) (c : CFG) : Nat → List Nat → List Nat → Walk → Walk
  | 0, _, _, acc => acc
  | _ + 1, [], _, acc => acc
  | fuel + 1, b :: work, seen, acc =>
    if seen.contains b then explore M P eff c fuel work seen acc else
    match M.entry b with
    | none => explore M P eff c fuel work seen acc
    | some (d, r) =>
      let w := walk M P eff (c.heap b).next (c.heap b).elems d r
      explore M P eff c fuel (w.targets ++ work) (b :: seen) ⟨w.live ++ acc.live, w.ends ++ acc.ends, []⟩

def graphTries (c : CFG) : List TryB :=
  (c.blocks.flatMap (fun b => (c.heap b).elems)).filterMap fun | .tryBegin t => some t | _ => none

/-- All the regions are met, and the handlers of all of them. -/
def metB (D : MapData) (P : Platform) (eff : Instr → Bool → Py (Int × Int)) (c : CFG) : Bool :=
  let w := explore D.toMap P eff c (4 * (c.blocks.flatMap (fun b => (c.heap b).elems)).length + 2 * c.blocks.length + 4) c.blocks.head?.toList [] ⟨[], [], []⟩
  (graphTries c).all (fun t => w.live.contains t) &&
  (graphTries c ++ D.entry.filterMap (fun x => x.bind (fun p => p.2.map Prod.fst))).all (fun t => w.ends.any (fun u => u.target == t.target))

/-- All the instructions have a stack effect. -/
def effsDefB (eff : Instr → Bool → Py (Int × Int)) (b : Bytecode) : Bool :=
  (instrsB b).all (fun i => (eff i true).toOption.isSome && (eff i false).toOption.isSome)

theorem effsDef_of {eff : Instr → Bool → Py (Int × Int)} {b : Bytecode} (h : effsDefB eff b = true) :
    ∀ i, BElem.instr i ∈ b.elems → ∀ j, ∃ e, eff i j = .ok e := by
  intro i hi j
  have := List.all_eq_true.1 h i (List.mem_filterMap.2 ⟨_, hi, rfl⟩)
  rw [Bool.and_eq_true] at this
  have key : ∀ {x : Py (Int × Int)}, x.toOption.isSome = true → ∃ e, x = .ok e := by
    intro x h
    cases x with
    | error e => cases h
    | ok a => exact ⟨a, rfl⟩
  cases j
  · exact key this.2
  · exact key this.1

/-- The test: the code object is well formed, its instructions have a stack effect, and the map describes the graph of its instructions. -/
def checkedB (P : Platform) (check : Bool) (co : Code) (D : MapData) : Bool :=
  codeOKB P co && rewritableB P co && (fetched P co).all (fun f => !P.dual f.opcode) && smallTablesB P co && decide (jumpExtArgs P co < 10) &&
  match Bytecode.fromCode P co with
  | .error _ => false
  | .ok b => effsDefB (effOf P check) b &&
    match fromBytecode P b with
    | .error _ => false
    | .ok g =>
      D.base.all (fun n => decide (n < 32768)) &&
      StackMap.validB D.toMap P (effOf P check) g (initialSize P b.attrs.flags) &&
      g.blocks.all (fun k => match D.toMap.entry k with | none => true | some (d, r) => StackMap.safeFromB D.toMap P (effOf P check) (g.heap k).elems d r) &&
      metB D P (effOf P check) g &&
      ((programCode P (id : Arg → Arg) co).map (·.handler)).all (fun
        | none => true
        | some h => g.blocks.all (fun t => !decide (blockAt g.heap t g.blocks = some h.target) || decide (D.toMap.base t = h.depth)))

/-! ### The test is sound -/
section
variable {M : StackMap} {P : Platform} {eff : Instr → Bool → Py (Int × Int)} {c : CFG}

/-- What has been met really is reached. -/
structure Walk.Good (M : StackMap) (P : Platform) (eff : Instr → Bool → Py (Int × Int)) (c : CFG) (w : Walk) : Prop where
  live : ∀ t ∈ w.live, ∃ b i d f ins, M.Reached P eff c b i d (some (t, f)) ∧ (c.heap b).elems[i]? = some (.instr ins)
  ends : ∀ t ∈ w.ends, ∃ b i d r, M.Reached P eff c b i d r ∧ M.EndsAt P eff c b i d r t
  targets : ∀ n ∈ w.targets, ∀ d r, M.entry n = some (d, r) → M.Reached P eff c n 0 d r

theorem Walk.good_nil : Walk.Good M P eff c ⟨[], [], []⟩ := ⟨by simp, by simp, by simp⟩

theorem endTry_sound {b i : Nat} {es : List BElem} {d : Int} {r : InTry} {t : TryB} (hes : (c.heap b).elems.drop i = es) (h : endTry M P eff es d r = some t) :
    M.EndsAt P eff c b i d r t := by
  have hx : ∀ x l, es = x :: l → (c.heap b).elems[i]? = some x ∧ (c.heap b).elems.drop (i + 1) = l := by
    intro x l e
    rw [e] at hes
    have : ((c.heap b).elems.drop i)[0]? = some x := by rw [hes]; rfl
    rw [List.getElem?_drop] at this
    refine ⟨by simpa using this, ?_⟩
    rw [← List.drop_drop, hes]; rfl
  unfold endTry at h
  split at h
  · rename_i id l _ t'
    split at h
    · rename_i e; cases h; subst e
      exact .mark (hx _ _ rfl).1
    · cases h
  · rename_i ins l
    obtain ⟨h1, h2⟩ := hx _ _ rfl
    split at h
    · rename_i hj
      rw [Bool.and_eq_true] at hj
      split at h
      · rename_i k e t' ha he
        split at h
        · rename_i hn; cases h
          exact .jump h1 hj.1 hj.2 ha he (by rw [h2]; exact hn)
        · cases h
      · cases h
    · rename_i hj
      split at h
      · rename_i hf
        split at h
        · rename_i e he
          split at h
          · rename_i t' ht
            split at h
            · rename_i hn; cases h
              exact .stop h1 hf (by simpa using hj) he ht (by rw [h2]; exact hn)
            · cases h
          · cases h
        · cases h
      · cases h
  · cases h

theorem walk_sound {b : Nat} : ∀ (es : List BElem) (i : Nat) (d : Int) (r : InTry), (c.heap b).elems.drop i = es → i ≤ (c.heap b).elems.length →
    M.Reached P eff c b i d r → Walk.Good M P eff c (walk M P eff (c.heap b).next es d r) := by
  intro es
  induction es with
  | nil =>
    intro i d r hes hi hr
    refine ⟨by simp [walk], by simp [walk], ?_⟩
    intro n hn d' r' he
    simp only [walk, Option.mem_toList, Option.mem_def] at hn
    have : i = (c.heap b).elems.length := by
      have := congrArg List.length hes
      simp at this; omega
    exact .next hr this hn he
  | cons x l ih =>
    intro i d r hes hi hr
    have hx : (c.heap b).elems[i]? = some x := by
      have : ((c.heap b).elems.drop i)[0]? = some x := by rw [hes]; rfl
      rw [List.getElem?_drop] at this
      simpa using this
    have hl : (c.heap b).elems.drop (i + 1) = l := by rw [← List.drop_drop, hes]; rfl
    have hi' : i + 1 ≤ (c.heap b).elems.length := (List.getElem?_eq_some_iff.1 hx).1
    cases x with
    | setLineno n => exact ih _ _ _ hl hi' (.line hr hx)
    | label n => exact Walk.good_nil
    | tryBegin t => exact ih _ _ _ hl hi' (.open_ hr hx)
    | tryEnd id =>
      have hw := ih _ _ _ hl hi' (.close hr hx)
      have he : ∀ t, t ∈ (endTry M P eff (.tryEnd id :: l) d r).toList → M.EndsAt P eff c b i d r t := by
        intro t ht
        simp only [Option.mem_toList, Option.mem_def] at ht
        exact endTry_sound hes ht
      simp only [walk]
      refine ⟨hw.live, ?_, ?_⟩
      · intro t ht
        rcases List.mem_append.1 ht with ht | ht
        · exact ⟨b, i, d, r, hr, he t ht⟩
        · exact hw.ends t ht
      · intro n hn d' r' hd
        rcases List.mem_append.1 hn with hn | hn
        · obtain ⟨t, ht, rfl⟩ := List.mem_map.1 hn
          exact .handler hr (he t ht) hd
        · exact hw.targets n hn d' r' hd
    | instr ins =>
      have hw : Walk.Good M P eff c (if isFinal ins.name then ⟨[], [], []⟩ else
          match eff ins false with
          | .ok e => walk M P eff (c.heap b).next l (d + e.1 + e.2) (M.touch (d + e.1 + e.2) r)
          | _ => ⟨[], [], []⟩) := by
        split
        · exact Walk.good_nil
        · rename_i hf
          split
          · rename_i e he
            exact ih _ _ _ hl hi' (.go hr hx (by simpa using hf) he)
          · exact Walk.good_nil
      have he : ∀ t, t ∈ (endTry M P eff (.instr ins :: l) d r).toList → M.EndsAt P eff c b i d r t := by
        intro t ht
        simp only [Option.mem_toList, Option.mem_def] at ht
        exact endTry_sound hes ht
      simp only [walk]
      refine ⟨?_, ?_, ?_⟩
      · intro t ht
        rcases List.mem_append.1 ht with ht | ht
        · simp only [Option.mem_toList, Option.mem_def, Option.map_eq_some_iff] at ht
          obtain ⟨⟨t', f⟩, e1, e2⟩ := ht
          simp only at e2
          subst e2; subst e1
          exact ⟨b, i, d, f, ins, hr, hx⟩
        · exact hw.live t ht
      · intro t ht
        rcases List.mem_append.1 ht with ht | ht
        · exact ⟨b, i, d, r, hr, he t ht⟩
        · exact hw.ends t ht
      · intro n hn d' r' hd
        rcases List.mem_append.1 hn with hn | hn
        · rcases List.mem_append.1 hn with hn | hn
          · split at hn
            · rename_i hj
              split at hn
              · rename_i t e ha he'
                simp only [List.mem_singleton] at hn
                subst hn
                exact .jump hr hx hj ha he' hd
              · cases hn
            · cases hn
          · obtain ⟨t, ht, rfl⟩ := List.mem_map.1 hn
            exact .handler hr (he t ht) hd
        · exact hw.targets n hn d' r' hd

theorem explore_sound (fuel : Nat) : ∀ (work seen : List Nat) (acc : Walk), Walk.Good M P eff c acc →
    (∀ n ∈ work, ∀ d r, M.entry n = some (d, r) → M.Reached P eff c n 0 d r) → Walk.Good M P eff c (explore M P eff c fuel work seen acc) := by
  induction fuel with
  | zero => intro work seen acc ha _; exact ha
  | succ fuel ih =>
    intro work seen acc ha hw
    cases work with
    | nil => exact ha
    | cons b work =>
      have hw' : ∀ n ∈ work, ∀ d r, M.entry n = some (d, r) → M.Reached P eff c n 0 d r := fun n hn => hw n (by simp [hn])
      rw [explore]
      split
      · exact ih _ _ _ ha hw'
      · split
        · exact ih _ _ _ ha hw'
        · rename_i d r he
          have hg := walk_sound (c.heap b).elems 0 d r (by simp) (by simp) (hw b (by simp) d r he)
          refine ih _ _ _ ⟨?_, ?_, by simp⟩ ?_
          · intro t ht
            rcases List.mem_append.1 ht with ht | ht
            · exact hg.live t ht
            · exact ha.live t ht
          · intro t ht
            rcases List.mem_append.1 ht with ht | ht
            · exact hg.ends t ht
            · exact ha.ends t ht
          · intro n hn
            rcases List.mem_append.1 hn with hn | hn
            · exact hg.targets n hn
            · exact hw' n hn

theorem mem_triesOf {t : TryB} : t ∈ graphTries c ↔ BElem.tryBegin t ∈ c.blocks.flatMap (fun b => (c.heap b).elems) := by
  unfold graphTries
  rw [List.mem_filterMap]
  constructor
  · rintro ⟨x, hx, e⟩
    cases x <;> simp at e
    subst e; exact hx
  · intro h; exact ⟨_, h, rfl⟩

theorem met_sound {D : MapData} (hb : ∀ b, b ∉ c.blocks → (c.heap b).elems = []) (h : metB D P eff c = true) : D.toMap.Ends P eff c ∧ D.toMap.Live P eff c := by
  unfold metB at h
  simp only [Bool.and_eq_true] at h
  obtain ⟨h1, h2⟩ := h
  have hg := explore_sound (M := D.toMap) (P := P) (eff := eff) (c := c)
    (4 * (c.blocks.flatMap (fun b => (c.heap b).elems)).length + 2 * c.blocks.length + 4) c.blocks.head?.toList [] ⟨[], [], []⟩ Walk.good_nil (by
      intro n hn d r he
      simp only [Option.mem_toList, Option.mem_def] at hn
      exact .first hn he)
  refine ⟨?_, ?_⟩
  · intro b i d t f ins hr _
    have ht : t.target ∈ (graphTries c ++ D.entry.filterMap (fun x => x.bind (fun p => p.2.map Prod.fst))).map (·.target) := by
      refine reached_targets ?_ ?_ hr t f rfl
      · intro b t ht
        refine List.mem_map.2 ⟨t, List.mem_append.2 (.inl (mem_triesOf.2 ?_)), rfl⟩
        by_cases hm : b ∈ c.blocks
        · exact List.mem_flatMap.2 ⟨b, hm, ht⟩
        · rw [hb b hm] at ht; cases ht
      · intro b d t f he
        refine List.mem_map.2 ⟨t, List.mem_append.2 (.inr (List.mem_filterMap.2 ⟨some (d, some (t, f)), ?_, rfl⟩)), rfl⟩
        simp only [MapData.toMap] at he
        cases hx : D.entry[b]? with
        | none => rw [hx] at he; cases he
        | some x => rw [hx] at he; simp only [Option.getD_some] at he; subst he; exact List.mem_of_getElem? hx
    obtain ⟨t0, ht0, e0⟩ := List.mem_map.1 ht
    obtain ⟨u, hu, hu2⟩ := List.any_eq_true.1 (List.all_eq_true.1 h2 t0 ht0)
    obtain ⟨b', i', d', r', hr', he'⟩ := hg.ends u hu
    exact ⟨b', i', d', r', u, hr', he', by rw [← e0]; simpa using hu2⟩
  · intro t ht
    have := List.all_eq_true.1 h1 t (mem_triesOf.2 ht)
    exact hg.live t (by simpa using this)

end

/-- The handlers of the instructions do not depend on how constants are compared. -/
theorem handlers_key {κ κ' : Type} [DecidableEq κ] [DecidableEq κ'] {P : Platform} (key : Arg → κ) (key' : Arg → κ') {co : Code} :
    (programCode P key co).map (·.handler) = (programCode P key' co).map (·.handler) := by
  unfold programCode
  simp only [List.map_flatMap, List.map_map]
  refine congrArg (fun g => List.flatMap g _) (funext fun f => ?_)
  have h : ∀ {κ : Type} (l : List (String × Operand κ)) (g : String × Operand κ → Op κ) (x : Option Handler), (∀ p, (g p).handler = x) →
      l.map ((fun o : Op κ => o.handler) ∘ g) = List.replicate l.length x := by
    intro κ l g x hg
    induction l with
    | nil => rfl
    | cons a l ih => simp only [List.map_cons, Function.comp_apply, hg, List.length_cons, List.replicate_succ]; rw [ih]
  rw [h _ _ (handlerOfUnit P co (fetch P 0 0 0 0 co.code) f.unit) (fun _ => rfl), h _ _ (handlerOfUnit P co (fetch P 0 0 0 0 co.code) f.unit) (fun _ => rfl),
    expand_length_C, expand_length_C]

/-- **C69 (checked).** For a code object that passes the test with some stack map: it is read, written with the default options, and the code object written is the
same program, instructions, operands, locations and handlers with their depths, not longer, and with a stack size that is enough for every execution of its
instructions, exceptions included. -/
theorem C69_checked {κ : Type} [DecidableEq κ] {P : Platform} (hP : P.WF) (h11 : P.py311 = true) (key : Arg → κ) (check : Bool) {co : Code} {D : MapData}
    (h : checkedB P check co D = true) :
    ∃ b co', Bytecode.fromCode P co = .ok b ∧ b.toCode P key (effOf P check) = .ok co' ∧ programCode P key co' = programCode P key co ∧
      co'.code.length ≤ co.code.length ∧
      ∀ x, LTOnPath P (effOf P check) b ((programCode P key co).map (·.handler)) (initialSize P b.attrs.flags) x →
        x.depth ≤ max co'.stacksize (initialSize P b.attrs.flags) := by
  unfold checkedB at h
  simp only [Bool.and_eq_true, decide_eq_true_iff] at h
  obtain ⟨⟨⟨⟨⟨h1, h2⟩, h3⟩, h4⟩, h5⟩, h⟩ := h
  cases hb : Bytecode.fromCode P co with
  | error e => rw [hb] at h; cases h
  | ok b =>
    rw [hb] at h
    simp only [Bool.and_eq_true] at h
    obtain ⟨h6, h⟩ := h
    cases hg : fromBytecode P b with
    | error e => rw [hg] at h; cases h
    | ok g =>
      rw [hg] at h
      simp only [Bool.and_eq_true] at h
      obtain ⟨⟨⟨⟨h7, h8⟩, h9⟩, h10⟩, h12⟩ := h
      have hbase : ∀ n, 0 ≤ D.toMap.base n ∧ D.toMap.base n < 32768 := by
        intro n
        simp only [MapData.toMap]
        cases hx : D.base[n]? with
        | none => simp
        | some x =>
          have := of_decide_eq_true (List.all_eq_true.1 h7 x (List.mem_of_getElem? hx))
          simp only [Option.getD_some]; omega
      have hheap : ∀ k, k ∉ g.blocks → (g.heap k).elems = [] := by
        intro k hk
        refine from_heap_none hg ?_
        obtain ⟨bs, rfl⟩ := from_blocks hg
        simp only [CFG.ofBlocks, List.mem_range, List.length_range] at hk ⊢
        omega
      obtain ⟨hE, hL⟩ := met_sound hheap h10
      obtain ⟨co', r1, r2, r3, r4⟩ := C69_passes (passes := 10) hP h11 key (fun i j => effOf_ne _ _ _ (.inr rfl) i j) (effOf_targetFree _ _) (codeOK_of h1) (rewritable_of h2)
        (by intro f hf; simpa using List.all_eq_true.1 h3 f hf) (smallTables_of h4) hb (effsDef_of h6) hg D.toMap
        (valid_of h8 (fun n => (hbase n).2)) (safe_of h9 (fun n => (hbase n).1)) hE hL (by
          intro x hx t ht
          have hx' : some x ∈ (programCode P (id : Arg → Arg) co).map (·.handler) := by
            rw [handlers_key (id : Arg → Arg) key]; exact hx
          have h13 := List.all_eq_true.1 h12 _ hx'
          have h14 := List.all_eq_true.1 h13 t (blockAt_mem ht)
          simpa [ht] using h14) h5
      exact ⟨b, co', rfl, r1, r2, r3, r4⟩

end Verif
