import Verif.Props.StackMapTotal
import Verif.Props.RoundTripTotal
import Verif.Props.LinearTryEx
/-
C69: the default round trip of code objects computes again the stack depths of the exception table.
-/
namespace Verif
open Spec
section
variable {κ : Type} [DecidableEq κ] {P : Platform} {key : Arg → κ} {eff : Instr → Bool → Py (Int × Int)}

/-- **C33 (partial), all the regions.** On 3.11+, for a graph with a stack map in which some instruction of every region is reached: after
`compute_stacksize`, every TryBegin of the graph records the depth of the map. -/
theorem C33_all_partial (P : Platform) (eff : Instr → Bool → Py (Int × Int)) (c c' : CFG) (n : Int) (M : StackMap)
    (h311 : P.py311 = true) (hM : M.Valid P eff c (initialSize P c.attrs.flags)) (hE : M.Ends P eff c) (hU : UniqueTry c)
    (hlive : M.Live P eff c) (h : c.computeStacksize P eff true = .ok (n, c')) :
    ∀ t, .tryBegin t ∈ allCode c' → ∃ k : Nat, t.depth = some k ∧ (k : Int) = M.base t.target := by
  intro t ht
  cases hc : c.blocks.head? with
  | none =>
    rw [List.head?_eq_none_iff] at hc
    unfold CFG.computeStacksize at h
    rw [hc] at h
    simp only [Except.ok.injEq, Prod.mk.injEq] at h
    obtain ⟨_, rfl⟩ := h
    unfold allCode at ht
    rw [hc] at ht
    cases ht
  | some b0 =>
    obtain ⟨m, st, g, hv, hn, hg, hre, hpos, hd⟩ := compute_depths hc h
    have hA := analysed h311 hM hU hc hv
    unfold allCode at ht
    obtain ⟨b, hb, hmem⟩ := List.mem_flatMap.1 ht
    rw [hre.2 b] at hmem
    obtain ⟨x, hx, hxe⟩ := List.mem_map.1 hmem
    cases x with
    | tryBegin u =>
      simp only [BElem.onTry, BElem.tryBegin.injEq] at hxe
      subst hxe
      rw [hre.1] at hb
      obtain ⟨b1, i, d, f, ins, hr, hi⟩ := hlive u (List.mem_flatMap.2 ⟨b, hb, hx⟩)
      have hok := reached_ok hA hM hr
      have hD := hok.describes
      rw [drop_cons_of_getElem? hi] at hD
      obtain ⟨k, h1, h2, _⟩ := handler_depth hA hM hE hg hre hpos hd hr hi (t := g u) (by
        rw [openAt_retry hg hre, ← hD.1]; rfl)
      exact ⟨k, h1, h2⟩
    | _ => cases hxe

theorem guardsDG_mem (es : List BElem) : ∀ (q : Option TryB) (x : Nat × Bool × Option Nat), some x ∈ guardsDG q es →
    (∃ t, (q = some t ∨ .tryBegin t ∈ es) ∧ x = (t.target, t.lasti, t.depth)) := by
  induction es with
  | nil => intro q x h; cases h
  | cons e es ih =>
    intro q x h
    cases e with
    | instr i =>
      rcases List.mem_cons.1 h with h | h
      · obtain ⟨t, ht, hx⟩ := Option.map_eq_some_iff.1 h.symm
        exact ⟨t, .inl ht, hx.symm⟩
      · obtain ⟨t, ht, hx⟩ := ih _ _ h
        exact ⟨t, by simpa using ht, hx⟩
    | tryBegin u =>
      obtain ⟨t, ht, hx⟩ := ih _ _ h
      refine ⟨t, ?_, hx⟩
      rcases ht with ht | ht
      · cases ht; simp
      · simp [ht]
    | tryEnd id =>
      obtain ⟨t, ht, hx⟩ := ih _ _ h
      refine ⟨t, ?_, hx⟩
      rcases ht with ht | ht
      · split at ht
        · cases ht
        · exact .inl ht
      · simp [ht]
    | label l => obtain ⟨t, ht, hx⟩ := ih _ _ h; exact ⟨t, by simpa using ht, hx⟩
    | setLineno l => obtain ⟨t, ht, hx⟩ := ih _ _ h; exact ⟨t, by simpa using ht, hx⟩

theorem noDepth_ext {l1 l2 : List (Op κ)} (h : l1.map Op.noDepth = l2.map Op.noDepth)
    (hd : ∀ (k : Nat) (h1 h2 : Handler), (l1.map (·.handler))[k]? = some (some h1) → (l2.map (·.handler))[k]? = some (some h2) → h1.target = h2.target → h1.depth = h2.depth) :
    l1 = l2 := by
  apply List.ext_getElem?
  intro k
  have hk : (l1.map Op.noDepth)[k]? = (l2.map Op.noDepth)[k]? := by rw [h]
  have hdk := hd k
  simp only [List.getElem?_map] at hk hdk
  cases e1 : l1[k]? with
  | none =>
    cases e2 : l2[k]? with
    | none => rfl
    | some o2 => rw [e1, e2] at hk; cases hk
  | some o1 =>
    cases e2 : l2[k]? with
    | none => rw [e1, e2] at hk; cases hk
    | some o2 =>
      rw [e1, e2] at hk hdk
      obtain ⟨n1, p1, c1, x1⟩ := o1
      obtain ⟨n2, p2, c2, x2⟩ := o2
      simp only [Option.map_some, Option.some.injEq, Op.noDepth, Op.mk.injEq] at hk hdk ⊢
      obtain ⟨rfl, rfl, rfl, hx⟩ := hk
      refine ⟨rfl, rfl, rfl, ?_⟩
      cases x1 with
      | none =>
        cases x2 with
        | none => rfl
        | some y2 => cases hx
      | some y1 =>
        cases x2 with
        | none => cases hx
        | some y2 =>
          have := hdk y1 y2 rfl rfl
          obtain ⟨t1, l1, d1⟩ := y1
          obtain ⟨t2, l2, d2⟩ := y2
          simp only [Option.map_some, Option.some.injEq, Handler.mk.injEq, and_true] at hx
          obtain ⟨rfl, rfl⟩ := hx
          have := this rfl
          simp only at this
          rw [this]

/-- **C69.** On 3.11+, a code object as the compiler writes them (without two-variable opcodes, finding 6) is read and
written with the default options, so that `to_code` computes the stack size and the depths of the exception table again. When the
graph of its instructions has a stack map that shows no underflow, whose depths for the handlers are those recorded in the exception
table, and in which no try region is dead: nothing fails, and the code object written denotes the same program, depths of the
handlers included; and along every execution of it, of any length, exceptions included, the number of values on the stack never
exceeds the stack size computed (the value a generator is started with before 3.13 apart). Without a stack map the claim
is false (C33). -/
theorem C69_default_identity (hP : P.WF) (h11 : P.py311 = true) (key : Arg → κ) (heff : ∀ i j, eff i j ≠ .error .outOfFuel) (hf : TargetFree eff)
    {co : Code} (hok : CodeOK P co) (hre : Rewritable P co) (hd : ∀ f ∈ fetched P co, P.dual f.opcode = false)
    {b : Bytecode} (hb : Bytecode.fromCode P co = .ok b) (hdef : ∀ i, .instr i ∈ b.elems → ∀ j, ∃ e, eff i j = .ok e)
    {g : CFG} (hg : fromBytecode P b = .ok g) (M : StackMap) (hM : M.Valid P eff g (initialSize P b.attrs.flags)) (hS : M.Safe P eff g)
    (hE : M.Ends P eff g) (hlive : M.Live P eff g)
    (hbase : ∀ h, some h ∈ (programCode P key co).map (·.handler) → ∀ t, blockAt g.heap t g.blocks = some h.target → M.base t = h.depth)
    {passes : Nat} (hp : 3 * jumpsOfCode P co < passes) :
    ∃ co', b.toCode P key eff passes = .ok co' ∧ programCode P key co' = programCode P key co ∧
      ∀ x, LTOnPath P eff b ((programCode P key co).map (·.handler)) (initialSize P b.attrs.flags) x → x.depth ≤ max co'.stacksize (initialSize P b.attrs.flags) := by
  obtain ⟨b0, hb0, h1, h2, h3, h4, _, h6⟩ := C62_rules hP h11 hok hre false
  rw [hb] at hb0; cases hb0
  have hj := fromCode_jumps hP h11 hok hb
  obtain ⟨hval, hlo, hwt⟩ := C51_usable hP h11 hok false hb
  obtain ⟨co', hco⟩ := C61_to_code_handlers (key := key) (passes := passes) hP h11 heff hf h1 hlo h2 h3 h4 h6 hdef hg M hM hS (by omega) none
  have hnd := noDual_of hP h11 hok hd hb
  have hsame := C52_locations hP h11 hok hre.columns hb hco (fun i hi hx => by rw [hnd i hi] at hx; cases hx)
  have hcache : ∀ e ∈ b.elems, e.isCache = false := by
    intro e he
    cases e with
    | instr i => simpa [BElem.isCache] using (hval i he).2.2
    | _ => rfl
  have hv : ∀ i, .instr i ∈ b.elems → ValidInstr P i := fun i hi => (hval i hi).1
  have hop : ∀ i, .instr i ∈ b.elems → OperandOK P co'.varnames i := fun i hi =>
    ⟨fun hc v hv => compare_back hP h11 hok false hb i hi hc v hv, fun hx => by rw [hnd i hi] at hx; cases hx⟩
  obtain ⟨g1, g', n, b', q1, q2, q3, q4, q5, q6, q7, q8, q9⟩ := C48_default hP h11 (.inl rfl) hcache hv hlo hwt hco hop
  rw [hg] at q1; cases q1
  have hat : g.attrs = b.attrs := (C26_from P b g hlo hg).2.1
  have hU := uniqueTry_ordered (from_tries hwt hg).1
  have hall := C33_all_partial P eff g g' n M h11 (by rw [hat]; exact hM) hE hU hlive q2
  have hsd : SameDepth (allCode g') := by
    intro t u ht hu htu _
    obtain ⟨k, e1, e2⟩ := hall t ht
    obtain ⟨k', e3, e4⟩ := hall u hu
    rw [e1, e3]
    rw [htu] at e2
    congr 1
    omega
  obtain ⟨_, hT⟩ := to_code_table P hP h11 key eff b hcache hnd hv hlo hwt passes none co' hco hop g g' n hg q2 hsd
  have hdo := computeStacksize_only q2
  have heq : programCode P key co' = programCode P key co := by
    refine noDepth_ext hsame ?_
    intro k h1 h2 e1 e2 htg
    have e3 := hT k h1 e1
    unfold handlersDG at e3
    rw [List.getElem?_map, Option.map_eq_some_iff] at e3
    obtain ⟨y, e3, e4⟩ := e3
    obtain ⟨x, rfl, e5⟩ := Option.map_eq_some_iff.1 e4
    obtain ⟨t, ht, rfl⟩ := guardsDG_mem _ _ _ (List.mem_of_getElem? e3)
    rcases ht with ht | ht
    · cases ht
    simp only [Prod.mk.injEq] at e5
    obtain ⟨e5, _, e6⟩ := e5
    obtain ⟨k', e7, e8⟩ := hall t ht
    rw [blockAt_only hdo, hdo.blocks, htg] at e5
    have := hbase h2 (List.mem_of_getElem? e2) t.target e5
    rw [e6] at e7
    cases e7
    omega
  refine ⟨co', hco, heq, ?_⟩
  rw [← heq]
  exact (C55_handlers_partial P hP h11 key eff hf b hcache hnd hv hlo hwt passes none co' hco hop g g' hg (by rw [q9]; exact q2) hsd M hM hE).1

end
end Verif
