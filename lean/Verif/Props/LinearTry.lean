import Verif.Proofs.LinearTry
import Verif.Props.HandlerDepths
import Verif.Props.LinearSize
/-
C55 with exception handlers: the stack size of the code object, along the executions of the list of instructions, exceptions being
dispatched by the exception table of the code object.
-/
namespace Verif
open Spec
section
variable {κ : Type}

theorem progD_handlers {P : Platform} (key : Arg → κ) (idx : Nat → Nat) (items : List CodeItem) : ∀ (loc : Loc) (hs : List (Option HandlerAt)),
    (∀ m o a l, CodeItem.op m o a l ∈ items → m ≠ "CACHE" ∧ P.dual o = false) → hs.length = (itemCounts P items).length →
    (progD P key idx loc items hs).map (·.handler) = hs.map (handlerD idx) := by
  induction items with
  | nil =>
    intro loc hs _ hlen
    cases hs with
    | nil => rfl
    | cons h hs => simp [itemCounts] at hlen
  | cons e items ih =>
    intro loc hs hok hlen
    cases e with
    | line n =>
      simp only [progD]
      exact ih _ hs (fun m o a l h => hok m o a l (by simp [h])) (by simpa [itemCounts] using hlen)
    | op m o a l =>
      obtain ⟨h1, h2⟩ := hok m o a l (by simp)
      cases hs with
      | nil => simp [itemCounts] at hlen
      | cons h hs =>
        have hd : P.dualSingles o = none := by
          simpa [Platform.dual] using h2
        simp only [progD, List.map_append, List.map_cons]
        rw [ih _ hs (fun m o a l h => hok m o a l (by simp [h])) (by simpa [itemCounts] using hlen)]
        simp [expandI, h1, hd]

theorem guardsD_length (es : List BElem) : ∀ q, (guardsD q es).length = instrCount es := by
  induction es with
  | nil => intro q; rfl
  | cons e es ih =>
    intro q
    have hc : instrCount (e :: es) = instrCount es + (if e.isInstr then 1 else 0) := by
      unfold instrCount
      rw [List.countP_cons]
    cases e <;> simp only [guardsD, List.length_cons, ih, hc, BElem.isInstr, if_true, Nat.add_zero, Bool.false_eq_true, if_false]

theorem sum_ones : ∀ (l : List Nat) (n : Nat), (∀ x ∈ l, x = 1) → n ≤ l.length → (l.take n).sum = n := by
  intro l
  induction l with
  | nil => intro n _ h; simp at h; subst h; rfl
  | cons x l ih =>
    intro n h1 h2
    cases n with
    | zero => rfl
    | succ n =>
      rw [List.take_succ_cons, List.sum_cons, ih n (fun y hy => h1 y (by simp [hy])) (by simpa using h2), h1 x (by simp)]
      omega

/-- The handlers in the program of a Bytecode, when each instruction is one operation. -/
theorem programB_handlers {P : Platform} (hP : P.WF) (key : Arg → κ) {b : Bytecode} (hv : ∀ i, BElem.instr i ∈ b.elems → ValidInstr P i) (hl : LabelsOnly b)
    (hone : ∀ m o a l, CodeItem.op m o a l ∈ codeB b → m ≠ "CACHE" ∧ P.dual o = false) {k : Nat} {h : Handler}
    (hh : ((programB P key b).map (·.handler))[k]? = some (some h)) :
    (handlersD b)[k]? = some (some (some h.target, h.lasti, some h.depth)) := by
  have hcl : (itemCounts P (codeB b)).length = instrCount b.elems := by
    unfold codeB
    rw [itemCounts_resolved]
    exact countsOf_length P b.elems
  have hlen : (handlersD b).length = (itemCounts P (codeB b)).length := by
    rw [hcl]
    unfold handlersD
    rw [List.length_map, guardsD_length]
  have h1 : ∀ x ∈ itemCounts P (codeB b), x = 1 := by
    intro x hx
    obtain ⟨e, he, hx⟩ := List.mem_filterMap.1 hx
    cases e with
    | line n => cases hx
    | op m o a l =>
      obtain ⟨g1, g2⟩ := hone m o a l he
      simp only [Option.some.injEq] at hx
      rw [← hx]
      simp [opCount, g1, g2]
  rw [program_itemsD hP key b hv hl, progD_handlers key _ _ _ _ hone hlen, List.getElem?_map, Option.map_eq_some_iff] at hh
  obtain ⟨x, hx, hxh⟩ := hh
  rw [hx]
  unfold handlerD at hxh
  split at hxh
  · rename_i m l d
    simp only [Option.some.injEq] at hxh
    subst hxh
    have hm : m ≤ instrCount b.elems := by
      unfold handlersD at hx
      rw [List.getElem?_map, Option.map_eq_some_iff] at hx
      obtain ⟨y, _, hy⟩ := hx
      cases y with
      | none => cases hy
      | some y =>
        simp only [Option.map_some, Option.some.injEq, Prod.mk.injEq] at hy
        exact labelAt_le hy.1
    have : itemIdx P (codeB b) m = m := sum_ones _ _ h1 (by rw [hcl]; exact hm)
    simp only [this]
  · cases hxh

theorem uniqueTry_ordered {c : CFG} (ho : Ordered (allCode c)) : UniqueTry c := by
  have key : ∀ es : List BElem, (begins es).Nodup → ∀ t1 t2, BElem.tryBegin t1 ∈ es → BElem.tryBegin t2 ∈ es → t1.id = t2.id → t1 = t2 := by
    intro es
    induction es with
    | nil => intro _ t1 t2 h; cases h
    | cons e es ih =>
      intro hn t1 t2 h1 h2 hid
      rw [show e :: es = [e] ++ es from rfl, begins_append, List.nodup_append] at hn
      have hb : ∀ t, BElem.tryBegin t ∈ es → t.id ∈ begins es := by
        intro t ht
        unfold begins
        exact List.mem_filterMap.2 ⟨_, ht, rfl⟩
      rcases List.mem_cons.1 h1 with h1 | h1 <;> rcases List.mem_cons.1 h2 with h2 | h2
      · rw [← h2] at h1; cases h1; rfl
      · exfalso
        exact hn.2.2 t1.id (by rw [← h1]; simp [begins]) t2.id (hb t2 h2) hid
      · exfalso
        exact hn.2.2 t2.id (by rw [← h2]; simp [begins]) t1.id (hb t1 h1) hid.symm
      · exact ih hn.2.1 t1 t2 h1 h2 hid
  intro b1 hb1 b2 hb2 t1 t2 h1 h2 hid
  exact key _ ho.nodup t1 t2 (List.mem_flatMap.2 ⟨b1, hb1, h1⟩) (List.mem_flatMap.2 ⟨b2, hb2, h2⟩) hid

variable [DecidableEq κ]

/-- The handlers in the exception table written are those of the graph, with its depths. -/
theorem to_code_table (P : Platform) (hP : P.WF) (h11 : P.py311 = true) (key : Arg → κ) (eff : Instr → Bool → Py (Int × Int))
    (b : Bytecode) (hcache : ∀ e ∈ b.elems, e.isCache = false) (hdual : ∀ i, .instr i ∈ b.elems → P.dual i.opcode = false)
    (hv : ∀ i, .instr i ∈ b.elems → ValidInstr P i) (hl : LabelsOnly b) (hw : WellTried none [] false b.elems)
    (passes : Nat) (stacksize : Option Int) (co : Code) (h : b.toCode P key eff passes stacksize true = .ok co)
    (hok : ∀ i, .instr i ∈ b.elems → OperandOK P co.varnames i) (g g' : CFG) (m : Int) (hg : fromBytecode P b = .ok g)
    (hg' : g.computeStacksize P eff true = .ok (m, g')) (hsd : SameDepth (allCode g')) :
    (∃ n, Bridge P b g' n) ∧ TableOf g' ((programCode P key co).map (·.handler)) := by
  obtain ⟨g1, g1', n1, b', h1, h2, h3, h4, h5, h6, h7, h8, h9⟩ := C48_default hP h11 (.inl rfl) hcache hv hl hw h hok
  rw [hg] at h1; cases h1
  rw [hg'] at h2; cases h2
  obtain ⟨n, B⟩ := bridge_of hl hg
  obtain ⟨a1, a2, a3, a4, a5⟩ := C26_from P b g hl hg
  have hho : Ordered (allCode g) := (from_tries hw hg).1
  have hU := uniqueTry_ordered hho
  have hdo := computeStacksize_only hg'
  have hhead : g.blocks.head? = some 0 := by
    rw [B.blocks]
    have := B.pos
    cases n with
    | zero => omega
    | succ n => simp [List.range_succ_eq_map]
  obtain ⟨m, st, gg, _, _, _, hretry, _⟩ := compute_depths hhead hg'
  have B' := bridge_retry B hretry hdo
  have hn' : g'.blocks.Nodup := by rw [hdo.blocks]; exact a4
  have hD := to_depths hn' (ordered_marks (marks_only hdo).symm hho) hsd h3
  have hlost : ∀ m o loc, CodeItem.op m o .lost loc ∉ codeB b := by
    have := B.lost
    rw [B.code] at this
    exact this
  have hlb' : LabelsOnly b' := by
    intro i hi x hx
    obtain ⟨j, hj, rfl⟩ := to_instr h3 hi
    have hx' : argLab j.arg = .block x := hx
    cases ha : j.arg <;> rw [ha] at hx' <;> cases hx'
  have hvb' := valid_same hl h4 hlost hv
  have hone : ∀ m o a l, CodeItem.op m o a l ∈ codeB b' → m ≠ "CACHE" ∧ P.dual o = false := by
    intro m o a l hmem
    rw [h4] at hmem
    unfold codeB resolved at hmem
    obtain ⟨e, he, hx⟩ := List.mem_filterMap.1 hmem
    cases e with
    | instr i =>
      simp only [Option.some.injEq, CodeItem.op.injEq] at hx
      obtain ⟨rfl, rfl, _, _⟩ := hx
      refine ⟨?_, hdual i he⟩
      have := hcache _ he
      simpa [BElem.isCache] using this
    | setLineno l => cases hx
    | _ => cases hx
  refine ⟨⟨n, B'⟩, ?_⟩
  intro k t ht
  have : (programCode P key co).map (·.handler) = (programB P key b').map (·.handler) := by
    rw [h8, List.map_map]
    rfl
  rw [this] at ht
  rw [← hD]
  exact programB_handlers hP key hvb' hlb' hone ht

/-- **C55 (partial), with exception handlers.** On 3.11+, `to_code` with the default computation of stack size and depths; `g` is the graph
of the Bytecode, `g'` the graph with the depths. When `g` has a stack map (each block is entered with one number of values on the
stack, as in compiled code, and the region of each handler ends after its depth has been met) and the regions of `g'` with the same
handler record the same depth, then, along every execution of the list of instructions, of any length, jumps taken or not, any protected
instruction raising or not, exceptions being dispatched by the exception table read from the code object: the number of values never
exceeds `co_stacksize` (the value a generator is started with before 3.13 apart), no instruction pops more values than there are, and
every handler is started with no more values than there are when the exception is raised. Missing: Bytecode without stack map,
instructions that stand for two operations (3.13). -/
theorem C55_handlers_partial (P : Platform) (hP : P.WF) (h11 : P.py311 = true) (key : Arg → κ) (eff : Instr → Bool → Py (Int × Int)) (hf : TargetFree eff)
    (b : Bytecode) (hcache : ∀ e ∈ b.elems, e.isCache = false) (hdual : ∀ i, .instr i ∈ b.elems → P.dual i.opcode = false)
    (hv : ∀ i, .instr i ∈ b.elems → ValidInstr P i) (hl : LabelsOnly b) (hw : WellTried none [] false b.elems)
    (passes : Nat) (stacksize : Option Int) (co : Code) (h : b.toCode P key eff passes stacksize true = .ok co)
    (hok : ∀ i, .instr i ∈ b.elems → OperandOK P co.varnames i) (g g' : CFG) (hg : fromBytecode P b = .ok g)
    (hg' : g.computeStacksize P eff true = .ok (co.stacksize, g')) (hsd : SameDepth (allCode g'))
    (M : StackMap) (hM : M.Valid P eff g (initialSize P b.attrs.flags)) (hE : M.Ends P eff g) :
    let hs := (programCode P key co).map (·.handler)
    let d0 := initialSize P b.attrs.flags
    (∀ x, LTOnPath P eff b hs d0 x → x.depth ≤ max co.stacksize d0) ∧
    (∀ x e y, LTOnPath P eff b hs d0 x → LExec P eff b x e y → 0 ≤ x.depth + e.1) ∧
    (∀ k d t, LTOnPath P eff b hs d0 ⟨some k, d⟩ → k < (instrsB b).length → hs[k]? = some (some t) → (t.depth : Int) ≤ d) := by
  intro hs d0
  obtain ⟨⟨n, B'⟩, hT⟩ := to_code_table P hP h11 key eff b hcache hdual hv hl hw passes stacksize co h hok g g' _ hg hg' hsd
  have hU := uniqueTry_ordered (from_tries hw hg).1
  have a2 := (C26_from P b g hl hg).2.1
  have hat : g.attrs = b.attrs := a2
  have hd0 : d0 = initialSize P g.attrs.flags := by rw [hat]
  change M.Valid P eff g d0 at hM
  rw [hd0] at hM ⊢
  have r1 := C29_handlers_partial P eff g g' co.stacksize M h11 hM hE hU hg'
  have r2 := C31_handlers_partial P eff g g' co.stacksize M h11 hM hE hU hg'
  have r3 := C33_partial P eff g g' co.stacksize M h11 hM hE hU hg'
  refine ⟨?_, ?_, ?_⟩
  · intro x hx
    obtain ⟨y, hy⟩ := ltOnPath_toG hf B' hT hx
    rw [← hy.depth]
    exact r1 y hy.path
  · intro x e y hx he
    obtain ⟨z, hz⟩ := ltOnPath_toG hf B' hT hx
    obtain ⟨u, v, u1, u2, u3, _⟩ := exec_toG (gOnPath_closed _) hf B' hz he
    rw [← u2]
    exact r2 u e v u1 u3
  · intro k d t hx hk ht
    obtain ⟨z, hz⟩ := ltOnPath_toG hf B' hT hx
    obtain ⟨k', p, j, g1, g2, g3, g4, g5, g6⟩ := hz.instr (gOnPath_closed _) B' (List.getElem?_eq_getElem hk)
    subst g5
    obtain ⟨u, t1, t2, t3, t4, t5⟩ := hT.at_ B'.blocks g2 g4 ht
    obtain ⟨q, q1, q2, _⟩ := r3 k' p d j u g1 g4 t1
    rw [t2] at q1
    cases q1
    exact q2

end
end Verif
