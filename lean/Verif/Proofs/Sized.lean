import Verif.Model.Code
import Verif.Props.CfgConv
import Verif.Props.CfgTry
/-
`compute_stacksize` changes nothing but the depths; through the graph and back.
-/
namespace Verif
open Spec

/-- Forget the depth. -/
def eraseD : BElem → BElem
  | .tryBegin t => .tryBegin { t with depth := none }
  | e => e

/-- Two graphs that differ by the depths of their TryBegin at most. -/
structure DepthsOnly (c c' : CFG) : Prop where
  attrs : c'.attrs = c.attrs
  argnames : c'.argnames = c.argnames
  blocks : c'.blocks = c.blocks
  elems : ∀ b, (c'.heap b).elems.map eraseD = (c.heap b).elems.map eraseD

theorem DepthsOnly.refl (c : CFG) : DepthsOnly c c := ⟨rfl, rfl, rfl, fun _ => rfl⟩

theorem DepthsOnly.trans {a b c : CFG} (h : DepthsOnly a b) (k : DepthsOnly b c) : DepthsOnly a c :=
  ⟨k.attrs.trans h.attrs, k.argnames.trans h.argnames, k.blocks.trans h.blocks, fun x => (k.elems x).trans (h.elems x)⟩

theorem setDepth_only (c : CFG) (id d : Nat) : DepthsOnly c (c.setDepth id d) := by
  refine ⟨rfl, rfl, rfl, ?_⟩
  intro b
  simp only [CFG.setDepth, List.map_map]
  apply List.map_congr_left
  intro e _
  cases e with
  | tryBegin t =>
    simp only [Function.comp]
    split <;> rfl
  | _ => rfl

theorem foldDepth_only (ids : List Nat) (d : Nat) : ∀ c : CFG, DepthsOnly c (ids.foldl (fun c id => c.setDepth id d) c) := by
  induction ids with
  | nil => intro c; exact .refl c
  | cons i ids ih => intro c; exact (setDepth_only c i d).trans (ih _)

theorem assignDepths_only (env : SizeEnv) (st : SizeSt) (ts : List TryB) : ∀ (c c' : CFG), assignDepths env st c ts = .ok c' → DepthsOnly c c' := by
  induction ts with
  | nil =>
    intro c c' h
    simp only [assignDepths, Except.ok.injEq] at h
    subst h; exact .refl c
  | cons t ts ih =>
    intro c c' h
    unfold assignDepths at h
    split at h
    · obtain ⟨_, _, h⟩ := except_bind_ok h
      exact (setDepth_only c _ _).trans (ih _ _ h)
    · cases h

theorem computeStacksize_only {P : Platform} {eff : Instr → Bool → Py (Int × Int)} {c c' : CFG} {depths : Bool} {n : Int}
    (h : c.computeStacksize P eff depths = .ok (n, c')) : DepthsOnly c c' := by
  unfold CFG.computeStacksize at h
  split at h
  · simp only [Except.ok.injEq, Prod.mk.injEq] at h
    rw [← h.2]; exact .refl c
  · obtain ⟨⟨m, st⟩, _, h⟩ := except_bind_ok h
    obtain ⟨ids, _, h⟩ := except_bind_ok h
    simp only at h
    split at h
    · obtain ⟨c2, h2, h⟩ := except_bind_ok h
      simp only [pure, Except.pure, Except.ok.injEq, Prod.mk.injEq] at h
      rw [← h.2]
      exact (foldDepth_only _ _ _).trans (assignDepths_only _ _ _ _ _ h2)
    · simp only [pure, Except.pure, Except.ok.injEq, Prod.mk.injEq] at h
      rw [← h.2]
      exact foldDepth_only _ _ _

/-! ### What does not depend on depths -/

theorem flatMap_erase {c c' : CFG} (h : DepthsOnly c c') : (allCode c').map eraseD = (allCode c).map eraseD := by
  unfold allCode
  rw [h.blocks, List.map_flatMap, List.map_flatMap]
  congr 1
  funext b
  exact h.elems b

theorem count_erase (es : List BElem) : instrCount (es.map eraseD) = instrCount es := by
  unfold instrCount
  rw [List.countP_map]
  congr 1
  funext e
  cases e <;> rfl

theorem blockAt_only {c c' : CFG} (h : DepthsOnly c c') (b : Nat) : ∀ l, blockAt c'.heap b l = blockAt c.heap b l := by
  intro l
  induction l with
  | nil => rfl
  | cons k l ih =>
    unfold blockAt
    rw [ih]
    have : instrCount (c'.heap k).elems = instrCount (c.heap k).elems := by
      rw [← count_erase, h.elems k, count_erase]
    rw [this]

theorem resolved_erase (lab blk : Nat → Option Nat) (es : List BElem) : resolved lab blk (es.map eraseD) = resolved lab blk es := by
  unfold resolved
  rw [List.filterMap_map]
  congr 1
  funext e
  cases e <;> rfl

theorem guardsG_erase (es : List BElem) : ∀ cur, guardsG cur (es.map eraseD) = guardsG cur es := by
  induction es with
  | nil => intro _; rfl
  | cons e es ih =>
    intro cur
    cases e <;> simp [eraseD, guardsG, ih]

theorem marks_erase (es : List BElem) : (es.map eraseD).map markOf = es.map markOf := by
  rw [List.map_map]
  apply List.map_congr_left
  intro e _
  cases e <;> rfl

theorem codeG_only {c c' : CFG} (h : DepthsOnly c c') : codeG c' = codeG c := by
  unfold codeG
  rw [← resolved_erase _ _ (allCode c'), flatMap_erase h, resolved_erase, h.blocks]
  congr 1
  funext b
  exact blockAt_only h b _

theorem handlersG_only {c c' : CFG} (h : DepthsOnly c c') : handlersG c' = handlersG c := by
  unfold handlersG
  rw [← guardsG_erase (allCode c'), flatMap_erase h, guardsG_erase, h.blocks]
  congr 2
  funext g
  rw [blockAt_only h]

theorem marks_only {c c' : CFG} (h : DepthsOnly c c') : (allCode c').map markOf = (allCode c).map markOf := by
  rw [← marks_erase (allCode c'), flatMap_erase h, marks_erase]

theorem blocksOnly_only {c c' : CFG} (h : DepthsOnly c c') (hb : BlocksOnly c) : BlocksOnly c' := by
  intro b hm i hi
  refine hb b (by rwa [h.blocks] at hm) i ?_
  have : BElem.instr i ∈ (c'.heap b).elems.map eraseD := List.mem_map.2 ⟨_, hi, rfl⟩
  rw [h.elems b] at this
  obtain ⟨e, he, hx⟩ := List.mem_map.1 this
  cases e <;> simp [eraseD] at hx
  subst hx; exact he

/-- Through the graph, with the stack size computed, and back: the same code, the same handlers (depths apart). -/
theorem sized_spec {P : Platform} {eff : Instr → Bool → Py (Int × Int)} {b b' : Bytecode} {depths : Bool} {n : Int} (hl : LabelsOnly b)
    (hw : WellTried none [] false b.elems) (h : b.sized P eff depths = .ok (n, b')) :
    codeB b' = codeB b ∧ handlersOf b' = handlersOf b ∧ b'.attrs = b.attrs ∧ b'.argnames = b.argnames ∧ WellTried none [] false b'.elems ∧
    (∀ m o loc, CodeItem.op m o .lost loc ∉ codeB b) ∧
    ∃ g g' : CFG, fromBytecode P b = .ok g ∧ g.computeStacksize P eff depths = .ok (n, g') ∧ g'.toBytecode P = .ok b' := by
  unfold Bytecode.sized at h
  obtain ⟨g, hg, h⟩ := except_bind_ok h
  obtain ⟨⟨m, g'⟩, hg', h⟩ := except_bind_ok h
  obtain ⟨x, hx, h⟩ := except_bind_ok h
  simp only [pure, Except.pure, Except.ok.injEq, Prod.mk.injEq] at h
  obtain ⟨rfl, rfl⟩ := h
  have hd := computeStacksize_only hg'
  obtain ⟨a1, a2, a3, a4, a5⟩ := C26_from P b g hl hg
  obtain ⟨f1, f2, f3⟩ := from_tries hw hg
  have hn' : g'.blocks.Nodup := by rw [hd.blocks]; exact a4
  have ho' : Ordered (allCode g') := ordered_marks (marks_only hd).symm f1
  have hs' : stW nextId none (allCode g') = none := by
    have := stW_marks (marks_only hd) (c := none) (c' := none) rfl
    rw [f2] at this
    cases hh : stW nextId none (allCode g') with
    | none => rfl
    | some t => rw [hh] at this; cases this
  obtain ⟨b1, b2, b3⟩ := C26_to P g' x hn' (blocksOnly_only hd a5) hx
  refine ⟨b1.trans ((codeG_only hd).trans a1), (to_tries hn' ho' hx).trans ((handlersG_only hd).trans f3), b2.trans (hd.attrs.trans a2),
    b3.trans (hd.argnames.trans a3), to_well ho' hs' hx, (C26_no_dangling P b g hl hg).1, g, g', hg, hg', hx⟩

end Verif
