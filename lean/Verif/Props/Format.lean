import Verif.Proofs.FormatG
import Verif.Props.StackMapEx
/-
C57: the text of `format_bytecode`.
-/
namespace Verif
open Spec

/-- Two Bytecode show the same code: the same elements at the same positions, labels being known by their position and TryBegin by their
number, and, with line numbers, the same line at each element that is not a label. -/
def ShowSame (ln : Bool) (a b : Bytecode) : Prop :=
  a.elems.length = b.elems.length ∧ ∀ n e f, a.elems[n]? = some e → b.elems[n]? = some f →
    SameElem (fun l => lastAt l 0 a.elems) (fun l => lastAt l 0 b.elems) (fun _ => none) (fun _ => none) (fun l => lastAt l 0 a.elems)
      (fun l => lastAt l 0 b.elems) (beginIds (a.elems.take n)) (beginIds (b.elems.take n)) e f ∧
    (ln = true → (∀ l, e ≠ .label l) → shownLine a.attrs.firstLineno (a.elems.take (n + 1)) = shownLine b.attrs.firstLineno (b.elems.take (n + 1)))

theorem argsOf_mem {es : List BElem} {i : Instr} (h : .instr i ∈ es) : i.arg ∈ argsOf es :=
  List.mem_filterMap.2 ⟨_, h, rfl⟩

theorem formatElems_last {ln : Bool} {repr : Arg → Text} {R : Nat → Option Nat} : ∀ {es : List BElem} {k : Nat} {s : FmtSt} {t : Text},
    formatElems ln repr (nameOf (txt "label_instr") R) k s es = .ok t → ∃ r, t = r ++ ['\n']
  | [], _, _, _, h => ⟨[], (Except.ok.inj h).symm⟩
  | e :: r, k, s, t, h => by
    rcases formatElems_cons h with ⟨l, j, u, _, h1, h2⟩ | ⟨_, _, u, h1, h2⟩
    · obtain ⟨q, rfl⟩ := formatElems_last h1
      exact ⟨_, by rw [h2]; simp only [← List.append_assoc]; rfl⟩
    · obtain ⟨q, rfl⟩ := formatElems_last h1
      exact ⟨_, by rw [h2]; simp only [← List.append_assoc]; rfl⟩

/-- **C57, Bytecode.** Two Bytecode objects for which `format_bytecode` gives the same text show the same code: the same number of elements, the same
instructions with the same arguments, jumps to labels at the same positions, the same try regions with the same handlers, flags and depths,
and, when lines are asked for, the same lines. `repr` is Python's: see `ReprOK`. -/
theorem C57_bytecode (ln : Bool) (repr : Arg → Text) (a b : Bytecode) (t : Text) (hr : ReprOK repr (argsOf a.elems ++ argsOf b.elems))
    (hna : NamesOK a.elems) (hnb : NamesOK b.elems) (ha : formatBytecode ln repr a = .ok t) (hb : formatBytecode ln repr b = .ok t) :
    ShowSame ln a b := by
  unfold formatBytecode at ha hb
  obtain ⟨_, _, ha⟩ := except_bind_ok ha
  obtain ⟨_, _, hb⟩ := except_bind_ok hb
  obtain ⟨u, ha1, ha2⟩ := except_bind_ok ha
  obtain ⟨v, hb1, hb2⟩ := except_bind_ok hb
  rw [labelNames_nameOf] at ha1 hb1
  have huv : u = v := by
    obtain ⟨x, rfl⟩ := formatElems_last ha1
    obtain ⟨y, rfl⟩ := formatElems_last hb1
    have h1 := (Except.ok.inj ha2).trans (Except.ok.inj hb2).symm
    rw [List.dropLast_concat, List.dropLast_concat] at h1
    rw [h1]
  have h := formatElems_inj (fa := a.attrs.firstLineno) (fb := b.attrs.firstLineno) hr a.elems b.elems [] [] 0 ⟨[], a.attrs.firstLineno, none, 4⟩ ⟨[], b.attrs.firstLineno, none, 4⟩ u v rfl rfl rfl rfl
    (fun i hi => ⟨hna i hi, List.mem_append_left _ (argsOf_mem hi)⟩) (fun i hi => ⟨hnb i hi, List.mem_append_right _ (argsOf_mem hi)⟩)
    ⟨rfl, rfl, rfl⟩ rfl rfl rfl rfl ha1 hb1 huv
  simp only [Nat.zero_add, List.nil_append] at h
  exact h

/-- **C57, ConcreteBytecode.** Two ConcreteBytecode objects with the same text have the same number of instructions, each with the same name,
the same argument and the same offset, and the same exception table; with lines, the same lines. -/
theorem C57_concrete (ln : Bool) (repr : Arg → Text) (hr : ∀ n : Nat, repr (.int n) = decimal n) (a b : Concrete) (t : Text)
    (hna : ∀ i, .instr i ∈ a.elems → OpName i.name) (hnb : ∀ i, .instr i ∈ b.elems → OpName i.name)
    (ha : formatConcrete ln repr a = .ok t) (hb : formatConcrete ln repr b = .ok t) :
    ∃ ia ib : List CInstr, a.elems = ia.map .instr ∧ b.elems = ib.map .instr ∧ ia.length = ib.length ∧ a.excTable = b.excTable ∧
      ∀ (n : Nat) (i j : CInstr), ia[n]? = some i → ib[n]? = some j → i.name = j.name ∧ i.arg = j.arg ∧
        ((ia.take n).map (·.size)).sum = ((ib.take n).map (·.size)).sum ∧
        (ln = true → shownLineC a.attrs.firstLineno (ia.take (n + 1)) = shownLineC b.attrs.firstLineno (ib.take (n + 1))) := by
  unfold formatConcrete at ha hb
  obtain ⟨u, ha1, ha2⟩ := except_bind_ok ha
  obtain ⟨v, hb1, hb2⟩ := except_bind_ok hb
  have hlast : ∀ {es : List CElem} {o : Nat} {s : FmtSt} {w : Text}, formatConcreteElems ln repr o s es = .ok w → w = [] ∨ ∃ r, w = r ++ ['\n'] ∧ r ≠ [] := by
    intro es
    induction es with
    | nil => intro o s w h; exact .inl (Except.ok.inj h).symm
    | cons e es ih =>
      intro o s w h
      right
      obtain ⟨i, x, _, h1, h2⟩ := formatConcrete_cons h
      have hne : (cLine ln repr o s i).1 ≠ [] := by
        cases ln with
        | false =>
          simp only [cLine, Bool.false_eq_true, if_false]
          simp
        | true =>
          simp only [cLine, if_true, FmtSt.line]
          split <;> simp
      rcases ih h1 with rfl | ⟨r, rfl, _⟩
      · exact ⟨_, h2, hne⟩
      · exact ⟨(cLine ln repr o s i).1 ++ '\n' :: r, by rw [h2]; simp, by simp⟩
  have hbuf : ∀ {w : Text} (xs : List ExcEntry), (w = [] ∨ ∃ r, w = r ++ ['\n'] ∧ r ≠ []) →
      (w ++ tableText xs = [] ∨ ∃ r, w ++ tableText xs = r ++ ['\n'] ∧ r ≠ []) := by
    intro w xs hw
    rcases tableText_last xs with h | ⟨r, h, hr⟩
    · rw [h, List.append_nil]; exact hw
    · exact .inr ⟨w ++ r, by rw [h, List.append_assoc], by simp [hr]⟩
  have h1 := dropLast_inj (hbuf a.excTable (hlast ha1)) (hbuf b.excTable (hlast hb1)) ((Except.ok.inj ha2).trans (Except.ok.inj hb2).symm)
  have h := formatConcreteElems_inj (fa := a.attrs.firstLineno) (fb := b.attrs.firstLineno) hr a.elems b.elems [] [] ⟨[], a.attrs.firstLineno, none, 4⟩ ⟨[], b.attrs.firstLineno, none, 4⟩ 0 0 u v hna hnb rfl rfl rfl rfl rfl ha1 hb1 h1
  simpa only [List.nil_append] using h

/-- **C57, ControlFlowGraph.** Two graphs with the same text have the same number of blocks, block by block the same elements (jumps and handlers
to blocks with the same number) and the same next block. -/
theorem C57_graph (ln : Bool) (P : Platform) (repr : Arg → Text) (a b : CFG) (t : Text) (hr : ReprOK repr (argsOf (allCode a) ++ argsOf (allCode b)))
    (hna : NamesOK (allCode a)) (hnb : NamesOK (allCode b)) (ha : formatCFG ln P repr a = .ok t) (hb : formatCFG ln P repr b = .ok t) :
    a.blocks.length = b.blocks.length ∧ ∀ (k x y : Nat), a.blocks[k]? = some x → b.blocks[k]? = some y →
      (a.heap x).elems.length = (b.heap y).elems.length ∧
      (a.heap x).next.map (fun z => lastBlock z 1 a.blocks) = (b.heap y).next.map (fun z => lastBlock z 1 b.blocks) ∧
      ∀ n e f, (a.heap x).elems[n]? = some e → (b.heap y).elems[n]? = some f →
        SameElem (fun _ => none) (fun _ => none) (fun z => lastBlock z 1 a.blocks) (fun z => lastBlock z 1 b.blocks) (fun z => lastBlock z 1 a.blocks)
          (fun z => lastBlock z 1 b.blocks) (beginIds (elemsOf a.heap (a.blocks.take k) ++ (a.heap x).elems.take n))
          (beginIds (elemsOf b.heap (b.blocks.take k) ++ (b.heap y).elems.take n)) e f ∧
        (ln = true → shownLine a.attrs.firstLineno (elemsOf a.heap (a.blocks.take k) ++ (a.heap x).elems.take (n + 1)) =
          shownLine b.attrs.firstLineno (elemsOf b.heap (b.blocks.take k) ++ (b.heap y).elems.take (n + 1))) := by
  unfold formatCFG at ha hb
  obtain ⟨u, ha1, ha2⟩ := except_bind_ok ha
  obtain ⟨v, hb1, hb2⟩ := except_bind_ok hb
  rw [blockNames_nameOf] at ha1 hb1
  have huv := dropLast_inj (formatBlks_last ha1) (formatBlks_last hb1) ((Except.ok.inj ha2).trans (Except.ok.inj hb2).symm)
  have h := formatBlks_inj (fa := a.attrs.firstLineno) (fb := b.attrs.firstLineno) hr a.blocks b.blocks [] [] ⟨[], a.attrs.firstLineno, none, 4⟩ ⟨[], b.attrs.firstLineno, none, 4⟩ u v
    (fun i hi => ⟨hna i hi, List.mem_append_left _ (argsOf_mem hi)⟩) (fun i hi => ⟨hnb i hi, List.mem_append_right _ (argsOf_mem hi)⟩)
    ⟨rfl, rfl, rfl⟩ rfl rfl rfl rfl ha1 hb1 huv
  simpa only [List.nil_append] using h

theorem formatElems_total {ln : Bool} {repr : Arg → Text} {names : Nat → Option Text} : ∀ (es : List BElem) (k : Nat) (s : FmtSt),
    (∀ l, .label l ∈ es → names l ≠ none) →
    (∃ t, formatElems ln repr names k s es = .ok t ∧ ∀ n, .setLineno n ∉ es) ∨
    (formatElems ln repr names k s es = .error .attributeError ∧ ∃ n, .setLineno n ∈ es)
  | [], _, _, _ => .inl ⟨_, rfl, by simp⟩
  | e :: r, k, s, hn => by
    have ih := fun k s => formatElems_total (ln := ln) (repr := repr) (names := names) r k s (fun l hl => hn l (List.mem_cons_of_mem _ hl))
    cases e with
    | setLineno n => exact .inr ⟨rfl, n, by simp⟩
    | label l =>
      cases hl : names l with
      | none => exact absurd hl (hn l (by simp))
      | some x =>
        rcases ih (k + 1) s with ⟨t, h1, h2⟩ | ⟨h1, n, h2⟩
        · exact .inl ⟨_, by simp only [formatElems, hl, h1]; rfl, by simpa using h2⟩
        · exact .inr ⟨by simp only [formatElems, hl, h1]; rfl, n, by simp [h2]⟩
    | instr i =>
      rcases ih (k + 1) (formatCode ln repr names (fun _ => none) k s i).2 with ⟨t, h1, h2⟩ | ⟨h1, n, h2⟩
      · exact .inl ⟨_, by simp only [formatElems, h1]; rfl, by simpa using h2⟩
      · exact .inr ⟨by simp only [formatElems, h1]; rfl, n, by simp [h2]⟩
    | tryBegin i =>
      rcases ih (k + 1) (formatBegin ln names k s i).2 with ⟨t, h1, h2⟩ | ⟨h1, n, h2⟩
      · exact .inl ⟨_, by simp only [formatElems, h1]; rfl, by simpa using h2⟩
      · exact .inr ⟨by simp only [formatElems, h1]; rfl, n, by simp [h2]⟩
    | tryEnd i =>
      rcases ih (k + 1) (formatEnd ln k { s with indent := s.indent - 2 } i).2 with ⟨t, h1, h2⟩ | ⟨h1, n, h2⟩
      · exact .inl ⟨_, by simp only [formatElems, h1]; rfl, by simpa using h2⟩
      · exact .inr ⟨by simp only [formatElems, h1]; rfl, n, by simp [h2]⟩

theorem lastAt_some (l : Nat) : ∀ (es : List BElem) (k : Nat), .label l ∈ es → lastAt l k es ≠ none
  | [], _, h => by simp at h
  | e :: r, k, h => by
    simp only [lastAt]
    rcases List.mem_cons.1 h with rfl | h
    · simp
    · have := lastAt_some l r (k + 1) h
      cases hl : lastAt l (k + 1) r with
      | none => exact absurd hl this
      | some x => simp

/-- **C57, when a text is given.** `format_bytecode` gives a text for a Bytecode that can be iterated exactly when it holds no SetLineno; with one
it raises AttributeError. The full statement (a text for every Bytecode) is false: `C57_statement_false`. -/
theorem C57_text (ln : Bool) (repr : Arg → Text) (b : Bytecode) (hi : (iterElems false b.elems).2 = .ok ()) :
    ((∃ t, formatBytecode ln repr b = .ok t) ↔ ∀ n, .setLineno n ∉ b.elems) ∧
    ((∃ n, .setLineno n ∈ b.elems) → formatBytecode ln repr b = .error .attributeError) := by
  have hn : ∀ l, .label l ∈ b.elems → labelNames 0 (fun _ => none) b.elems l ≠ none := by
    intro l hl h
    rw [labelNames_nameOf] at h
    simp only [nameOf, Option.map_eq_none_iff] at h
    exact lastAt_some l b.elems 0 hl h
  unfold formatBytecode
  rw [hi]
  rcases formatElems_total (ln := ln) (repr := repr) b.elems 0 ⟨[], b.attrs.firstLineno, none, 4⟩ hn with ⟨t, h1, h2⟩ | ⟨h1, n, h2⟩
  · refine ⟨⟨fun _ => h2, fun _ => ⟨t.dropLast, ?_⟩⟩, fun ⟨n, hn⟩ => absurd hn (h2 n)⟩
    rw [h1]; rfl
  · refine ⟨⟨fun ⟨t, ht⟩ => ?_, fun h => absurd h2 (h n)⟩, fun _ => ?_⟩
    · rw [h1] at ht; cases ht
    · rw [h1]; rfl

theorem formatConcreteElems_total {ln : Bool} {repr : Arg → Text} : ∀ (es : List CElem) (o : Nat) (s : FmtSt),
    (∃ t, formatConcreteElems ln repr o s es = .ok t ∧ ∀ n, .setLineno n ∉ es) ∨
    (formatConcreteElems ln repr o s es = .error .attributeError ∧ ∃ n, .setLineno n ∈ es)
  | [], _, _ => .inl ⟨_, rfl, by simp⟩
  | .setLineno n :: _, _, _ => .inr ⟨rfl, n, by simp⟩
  | .instr i :: r, o, s => by
    rcases formatConcreteElems_total (ln := ln) (repr := repr) r (o + i.size) (cLine ln repr o s i).2 with ⟨t, h1, h2⟩ | ⟨h1, n, h2⟩
    · refine .inl ⟨(cLine ln repr o s i).1 ++ ['\n'] ++ t, ?_, by simpa using h2⟩
      rw [formatConcreteElems]
      simp only [cLine] at h1 ⊢
      rw [h1]; rfl
    · refine .inr ⟨?_, n, by simp [h2]⟩
      rw [formatConcreteElems]
      simp only [cLine] at h1 ⊢
      rw [h1]; rfl

/-- **C57, when a text is given, ConcreteBytecode.** Exactly when there is no SetLineno; with one AttributeError is raised. -/
theorem C57_text_concrete (ln : Bool) (repr : Arg → Text) (c : Concrete) :
    ((∃ t, formatConcrete ln repr c = .ok t) ↔ ∀ n, .setLineno n ∉ c.elems) ∧
    ((∃ n, .setLineno n ∈ c.elems) → formatConcrete ln repr c = .error .attributeError) := by
  unfold formatConcrete
  rcases formatConcreteElems_total (ln := ln) (repr := repr) c.elems 0 ⟨[], c.attrs.firstLineno, none, 4⟩ with ⟨t, h1, h2⟩ | ⟨h1, n, h2⟩
  · refine ⟨⟨fun _ => h2, fun _ => ⟨_, by rw [h1]; rfl⟩⟩, fun ⟨n, hn⟩ => absurd hn (h2 n)⟩
  · refine ⟨⟨fun ⟨t, ht⟩ => ?_, fun h => absurd h2 (h n)⟩, fun _ => ?_⟩
    · rw [h1] at ht; cases ht
    · rw [h1]; rfl

theorem formatBlk_total {ln : Bool} {P : Platform} {repr : Arg → Text} {names : Nat → Option Text} : ∀ (es : List BElem) (k : Nat) (seen : Bool) (s : FmtSt),
    blkIter P es = .ok () →
    (∃ t, formatBlk ln P repr names k seen s es = .ok t ∧ ∀ n, .setLineno n ∉ es) ∨
    (formatBlk ln P repr names k seen s es = .error .attributeError ∧ ∃ n, .setLineno n ∈ es)
  | [], _, _, _, _ => .inl ⟨_, rfl, by simp⟩
  | e :: r, k, seen, s, hit => by
    unfold blkIter at hit
    obtain ⟨_, hc, hit⟩ := except_bind_ok hit
    have ih := fun k b s => formatBlk_total (ln := ln) (repr := repr) (names := names) r k b s hit
    unfold formatBlk
    rw [hc]
    cases e with
    | setLineno n => exact .inr ⟨rfl, n, by simp⟩
    | label l => simp [blkCheck] at hc
    | instr i =>
      rcases ih (k + 1) true (formatCode ln repr (fun _ => none) names k s i).2 with ⟨t, h1, h2⟩ | ⟨h1, n, h2⟩
      · exact .inl ⟨_, by simp only [Bind.bind, Except.bind, h1]; rfl, by simpa using h2⟩
      · exact .inr ⟨by simp only [Bind.bind, Except.bind, h1], n, by simp [h2]⟩
    | tryBegin i =>
      rcases ih (k + 1) seen (formatBegin ln names k s i).2 with ⟨t, h1, h2⟩ | ⟨h1, n, h2⟩
      · exact .inl ⟨_, by simp only [Bind.bind, Except.bind, h1]; rfl, by simpa using h2⟩
      · exact .inr ⟨by simp only [Bind.bind, Except.bind, h1], n, by simp [h2]⟩
    | tryEnd i =>
      rcases ih (k + 1) seen (formatEnd ln k (if seen then { s with indent := s.indent - 2 } else s) i).2 with ⟨t, h1, h2⟩ | ⟨h1, n, h2⟩
      · exact .inl ⟨_, by simp only [Bind.bind, Except.bind, h1]; rfl, by simpa using h2⟩
      · exact .inr ⟨by simp only [Bind.bind, Except.bind, h1], n, by simp [h2]⟩

theorem formatBlks_total {ln : Bool} {P : Platform} {repr : Arg → Text} {names : Nat → Option Text} {heap : Nat → Blk} : ∀ (bs : List Nat) (s : FmtSt),
    (∀ b ∈ bs, names b ≠ none ∧ blkIter P (heap b).elems = .ok () ∧ ∀ x, (heap b).next = some x → names x ≠ none) →
    (∃ t, formatBlks ln P repr names heap s bs = .ok t ∧ ∀ b ∈ bs, ∀ n, .setLineno n ∉ (heap b).elems) ∨
    (formatBlks ln P repr names heap s bs = .error .attributeError ∧ ∃ b ∈ bs, ∃ n, .setLineno n ∈ (heap b).elems)
  | [], _, _ => .inl ⟨_, rfl, by simp⟩
  | b :: r, s, hit => by
    obtain ⟨hn, hb, hx⟩ := hit b (by simp)
    have ih := fun s => formatBlks_total (ln := ln) (repr := repr) (names := names) r s (fun c hc => hit c (List.mem_cons_of_mem _ hc))
    unfold formatBlks
    cases hnb : names b with
    | none => exact absurd hnb hn
    | some nb =>
      rcases formatBlk_total (ln := ln) (repr := repr) (names := names) _ 0 false s hb with ⟨t, h1, h2⟩ | ⟨h1, n, h2⟩
      · simp only [h1, Bind.bind, Except.bind]
        cases hnx : (heap b).next with
        | none =>
          rcases ih t.2 with ⟨u, h3, h4⟩ | ⟨h3, c, hc, n, h4⟩
          · exact .inl ⟨_, by simp only [h3]; rfl, by simpa using ⟨h2, h4⟩⟩
          · exact .inr ⟨by simp only [h3], c, List.mem_cons_of_mem _ hc, n, h4⟩
        | some x =>
          cases hnn : names x with
          | none => exact absurd hnn (hx x hnx)
          | some m =>
            rcases ih t.2 with ⟨u, h3, h4⟩ | ⟨h3, c, hc, n, h4⟩
            · exact .inl ⟨_, by simp only [hnn, h3]; rfl, by simpa using ⟨h2, h4⟩⟩
            · exact .inr ⟨by simp only [hnn, h3], c, List.mem_cons_of_mem _ hc, n, h4⟩
      · exact .inr ⟨by simp only [h1, Bind.bind, Except.bind], b, by simp, n, h2⟩

theorem lastBlock_some (b : Nat) : ∀ (bs : List Nat) (k : Nat), b ∈ bs → lastBlock b k bs ≠ none
  | [], _, h => by simp at h
  | x :: r, k, h => by
    simp only [lastBlock]
    rcases List.mem_cons.1 h with rfl | h
    · simp
    · have := lastBlock_some b r (k + 1) h
      cases hl : lastBlock b (k + 1) r with
      | none => exact absurd hl this
      | some x => simp

/-- **C57, when a text is given, ControlFlowGraph.** A graph whose blocks can be iterated and are followed by blocks of the graph has a text exactly
when it holds no SetLineno; with one AttributeError is raised. -/
theorem C57_text_graph (ln : Bool) (P : Platform) (repr : Arg → Text) (c : CFG) (hi : ∀ b ∈ c.blocks, blkIter P (c.heap b).elems = .ok ())
    (hx : ∀ b ∈ c.blocks, ∀ x, (c.heap b).next = some x → x ∈ c.blocks) :
    ((∃ t, formatCFG ln P repr c = .ok t) ↔ ∀ b ∈ c.blocks, ∀ n, .setLineno n ∉ (c.heap b).elems) ∧
    ((∃ b ∈ c.blocks, ∃ n, .setLineno n ∈ (c.heap b).elems) → formatCFG ln P repr c = .error .attributeError) := by
  have hn : ∀ b ∈ c.blocks, blockNames 1 (fun _ => none) c.blocks b ≠ none := by
    intro b hb h
    rw [blockNames_nameOf] at h
    simp only [nameOf, Option.map_eq_none_iff] at h
    exact lastBlock_some b c.blocks 1 hb h
  unfold formatCFG
  rcases formatBlks_total (ln := ln) (P := P) (repr := repr) (names := blockNames 1 (fun _ => none) c.blocks) (heap := c.heap) c.blocks ⟨[], c.attrs.firstLineno, none, 4⟩
    (fun b hb => ⟨hn b hb, hi b hb, fun x h => hn x (hx b hb x h)⟩) with ⟨t, h1, h2⟩ | ⟨h1, b, hb, n, h2⟩
  · refine ⟨⟨fun _ => h2, fun _ => ⟨_, by rw [h1]; rfl⟩⟩, fun ⟨b, hb, n, hn⟩ => absurd hn (h2 b hb n)⟩
  · refine ⟨⟨fun ⟨t, ht⟩ => ?_, fun h => absurd h2 (h b hb n)⟩, fun _ => ?_⟩
    · rw [h1] at ht; cases ht
    · rw [h1]; rfl

/-- A `repr` for the examples. -/
def reprEx : Arg → Text
  | .int v => intText v
  | .str s => '\'' :: s.toList ++ ['\'']
  | _ => []

/-- A loop in a try region. -/
def textEx (l h : Nat) : Bytecode where
  attrs := Attrs.default
  argnames := []
  elems := [i311 "RESUME" (.int 0), .tryBegin ⟨l + h, h, true, some 1⟩, .label l, i311 "LOAD_FAST" (.str "x"), i311 "JUMP_BACKWARD" (.label l),
    .tryEnd (l + h), .label h, i311 "PUSH_EXC_INFO", i311 "RERAISE" (.int 0)]

/-- Its text. -/
theorem textEx_text : formatBytecode false reprEx (textEx 3 5) = .ok
    "    RESUME 0\n    TryBegin 0 -> <label_instr6> [1] last_i\n\nlabel_instr2:\n      LOAD_FAST 'x'\n      JUMP_BACKWARD <label_instr2>\n    TryEnd (0)\n\nlabel_instr6:\n    PUSH_EXC_INFO\n    RERAISE 0\n".toList := by
  decide +kernel

/-- The hypotheses of `C57_bytecode` are met by two copies of the loop with different Label objects, with lines and without. -/
example (ln : Bool) : ∃ t, formatBytecode ln reprEx (textEx 3 5) = .ok t ∧ formatBytecode ln reprEx (textEx 8 2) = .ok t ∧
    ReprOK reprEx (argsOf (textEx 3 5).elems ++ argsOf (textEx 8 2).elems) ∧ NamesOK (textEx 3 5).elems ∧ NamesOK (textEx 8 2).elems := by
  have names : ∀ es : List BElem, (es.all (fun | .instr i => decide (OpName i.name) | _ => true)) = true → NamesOK es := by
    intro es h i hi
    simpa using List.all_eq_true.1 h _ hi
  have hr : ReprOK reprEx (argsOf (textEx 3 5).elems ++ argsOf (textEx 8 2).elems) := by
    refine ⟨?_, ?_, ?_⟩ <;> decide +kernel
  refine ⟨(formatBytecode ln reprEx (textEx 3 5)).toOption.getD [], ?_, ?_, hr, names _ (by decide +kernel), names _ (by decide +kernel)⟩
  · cases ln <;> decide +kernel
  · cases ln <;> decide +kernel

/-- The full statement is false: a Bytecode with a SetLineno, which `to_code` accepts, has no text. -/
theorem C57_statement_false : (iterElems false tryLoopCode.elems).2 = .ok () ∧ formatBytecode true reprEx tryLoopCode = .error .attributeError :=
  ⟨by decide +kernel, ((C57_text true reprEx tryLoopCode (by decide +kernel)).2 ⟨3, by decide +kernel⟩)⟩

/-- Nor does the text tell a handler whose depth is not set from one with depth 0. -/
theorem C57_depth_hidden (ln : Bool) (repr : Arg → Text) (l id : Nat) (q : Bool) :
    formatBytecode ln repr ⟨Attrs.default, [], [.tryBegin ⟨id, l, q, none⟩, .tryEnd id]⟩ =
    formatBytecode ln repr ⟨Attrs.default, [], [.tryBegin ⟨id, l, q, some 0⟩, .tryEnd id]⟩ := rfl

/-- The hypotheses of `C57_text_graph`. -/
example : (∀ b ∈ (mkCFG tryLoopBlocks).blocks, blkIter Py311.platform ((mkCFG tryLoopBlocks).heap b).elems = .ok ()) ∧
    (∀ b ∈ (mkCFG tryLoopBlocks).blocks, ∀ x, ((mkCFG tryLoopBlocks).heap b).next = some x → x ∈ (mkCFG tryLoopBlocks).blocks) := by
  constructor <;> decide +kernel

/-- An instruction without location is shown on line 0, whatever the line it will have. -/
example : formatBytecode true reprEx { attrs := { Attrs.default with firstLineno := 7 }, argnames := [], elems := [i311 "RETURN_VALUE"] } =
    .ok "    L.  0   0: RETURN_VALUE\n".toList := by decide +kernel

/-- The hypotheses of `C57_concrete`: a text of a ConcreteBytecode with an exception table. -/
example : formatConcrete false reprEx ⟨Attrs.default, [], [], [], [⟨2, 4, 8, 1, true⟩],
      [.instr ⟨"RESUME", 151, some 0, none, none, 2⟩, .instr ⟨"LOAD_FAST", 124, some 300, none, none, 4⟩, .instr ⟨"RETURN_VALUE", 83, none, none, none, 2⟩]⟩ =
    .ok "  0    RESUME 0\n  2    LOAD_FAST 300\n  6    RETURN_VALUE\n\nException table:\n2 to 4 -> 8 [1] lasti".toList := by
  decide +kernel

/-- The hypotheses of `C57_graph`: the text of a graph with a handler (the line marker of `tryLoop` left out). -/
example : formatCFG false Py311.platform reprEx (mkCFG (tryLoopBlocks.map (fun b => ⟨b.elems.filter (fun | .setLineno _ => false | _ => true), b.next⟩))) =
    .ok "block1:\n    RESUME 0\n    LOAD_CONST 6\n    LOAD_CONST 7\n    TryBegin 0 -> <block5> [0] last_i\n      POP_TOP\n      LOAD_FAST 'y'\n      GET_ITER\n      -> block2\n\nblock2:\n      FOR_ITER <block4>\n      -> block3\n\nblock3:\n      STORE_FAST 'x'\n      JUMP_BACKWARD <block2>\n    TryEnd (0)\n\nblock4:\n    TryEnd (0)\n    RETURN_VALUE\n\nblock5:\n    PUSH_EXC_INFO\n    POP_TOP\n    POP_EXCEPT\n    POP_TOP\n    RETURN_VALUE\n".toList := by
  decide +kernel

/-- The names of the opcodes are as `OpName` requires. -/
example : (List.range 256).all (fun op => match Py311.platform.opname op with | some n => decide (OpName n) | none => true) = true := by decide +kernel

end Verif
