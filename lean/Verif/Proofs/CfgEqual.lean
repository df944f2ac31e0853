import Verif.Spec.CfgEqual
import Verif.Model.CfgEqual
import Verif.Proofs.Equal
/- Proofs for the equality of graphs: reduction to the comparison of lists (Proofs/Equal). -/
namespace Verif
open Spec

variable {κ : Type}

/-- jumps to blocks as jumps to labels -/
def asLab : BElem → BElem
  | .instr i => match i.arg with
    | .block b => .instr { i with arg := .label b }
    | _ => .instr i
  | e => e

/-- items of a graph as items of a list -/
def GraphItem.toFlat : GraphItem κ → FlatItem κ
  | .instr k => .instr k
  | .setLineno n => .setLineno n
  | .jump l n t => .jump l n t
  | .tryBegin o t l => .tryBegin o t.toNat l
  | .tryEnd o => .tryEnd o

/-- block numbers are not negative -/
def GraphItem.Pos : GraphItem κ → Prop
  | .tryBegin _ t _ => 0 ≤ t
  | _ => True

theorem toFlat_inj {x y : GraphItem κ} (hx : x.Pos) (hy : y.Pos) (h : x.toFlat = y.toFlat) : x = y := by
  cases x <;> cases y <;> simp only [GraphItem.toFlat, GraphItem.Pos, FlatItem.instr.injEq, FlatItem.setLineno.injEq,
    FlatItem.jump.injEq, FlatItem.tryBegin.injEq, FlatItem.tryEnd.injEq, reduceCtorEq, GraphItem.instr.injEq, GraphItem.setLineno.injEq,
    GraphItem.jump.injEq, GraphItem.tryBegin.injEq, GraphItem.tryEnd.injEq] at h hx hy ⊢ <;> grind

theorem map_toFlat_inj {x y : List (GraphItem κ)} (hx : ∀ a ∈ x, a.Pos) (hy : ∀ a ∈ y, a.Pos) :
    x.map GraphItem.toFlat = y.map GraphItem.toFlat ↔ x = y := by
  constructor
  · intro h
    induction x generalizing y with
    | nil => cases y with
      | nil => rfl
      | cons b y => cases h
    | cons a x ih => cases y with
      | nil => cases h
      | cons b y =>
        simp only [List.map_cons, List.cons.injEq] at h
        rw [toFlat_inj (hx a (by simp)) (hy b (by simp)) h.1, ih (fun z hz => hx z (by simp [hz])) (fun z hz => hy z (by simp [hz])) h.2]
  · rintro rfl; rfl

/-- number of a block -/
def numberOf (c : CFG) (b : Nat) : Option Nat := (c.index b).map Int.toNat

theorem index_of_mem {c : CFG} (hI : IndexOK c) {b : Nat} (hb : b ∈ c.blocks) : ∃ n : Nat, c.blocks[n]? = some b ∧ c.index b = some (n : Int) := by
  obtain ⟨n, hn⟩ := List.mem_iff_getElem?.1 hb
  have := hI.1 n b hn
  unfold CFG.getBlockIndex at this
  split at this
  · rename_i i hi
    simp only [Except.ok.injEq] at this
    exact ⟨n, hn, by rw [hi, this]⟩
  · cases this

theorem numberOf_iff {c : CFG} (hI : IndexOK c) (b n : Nat) : numberOf c b = some n ↔ IsBlock c b n := by
  unfold numberOf IsBlock
  constructor
  · intro h
    by_cases hb : b ∈ c.blocks
    · obtain ⟨m, h1, h2⟩ := index_of_mem hI hb
      rw [h2] at h
      simp at h
      rw [← h]; exact h1
    · have := hI.2 b hb
      unfold CFG.getBlockIndex at this
      split at this
      · cases this
      · rename_i hn; rw [hn] at h; cases h
  · intro h
    have := hI.1 n b h
    unfold CFG.getBlockIndex at this
    split at this
    · rename_i i hi
      simp only [Except.ok.injEq] at this
      rw [hi, this]; simp
    · cases this

theorem items_append (P : Platform) (key : Arg → κ) (x y : List BElem) (idx : Nat) (tries : List Nat) :
    items P key idx tries (x ++ y) = items P key idx tries x ++ items P key (idx + x.length) (x.foldl triesOf tries) y := by
  induction x generalizing idx tries with
  | nil => rfl
  | cons e r ih =>
    simp only [List.cons_append, items, ih, List.length_cons, List.foldl_cons]
    rw [show idx + 1 + r.length = idx + (r.length + 1) by omega]

theorem ended_append (x y : List BElem) (tries : List Nat) :
    Ended tries (x ++ y) ↔ Ended tries x ∧ Ended (x.foldl triesOf tries) y := by
  induction x generalizing tries with
  | nil => simp [Ended]
  | cons e r ih => simp only [List.cons_append, Ended, ih, List.foldl_cons, and_assoc]

theorem flatAll_append {labels : Nat → Option Nat} {x y u v : List (FlatItem κ)} (h1 : flatAll labels x = .ok u) (h2 : flatAll labels y = .ok v) :
    flatAll labels (x ++ y) = .ok (u ++ v) := by
  induction x generalizing u with
  | nil => cases h1; exact h2
  | cons a r ih =>
    obtain ⟨b, zs, rfl, h3, h4⟩ := flatAll_cons h1
    simp only [List.cons_append, flatAll, h3, ih h4]
    rfl

theorem flatAll_mk {labels : Nat → Option Nat} {a b : FlatItem κ} {r v : List (FlatItem κ)} (h1 : flatResolve labels a = .ok b) (h2 : flatAll labels r = .ok v) :
    flatAll labels (a :: r) = .ok (b :: v) := by
  simp only [flatAll, h1, h2]; rfl

theorem triesOf_asLab (tries : List Nat) (e : BElem) : triesOf tries (asLab e) = triesOf tries e := by
  cases e with
  | instr i => simp only [asLab]; split <;> rfl
  | _ => rfl

theorem foldl_asLab (x : List BElem) (tries : List Nat) : (x.map asLab).foldl triesOf tries = x.foldl triesOf tries := by
  induction x generalizing tries with
  | nil => rfl
  | cons e r ih => simp only [List.map_cons, List.foldl_cons, triesOf_asLab, ih]

theorem ended_asLab (x : List BElem) (tries : List Nat) : Ended tries (x.map asLab) ↔ Ended tries x := by
  induction x generalizing tries with
  | nil => rfl
  | cons e r ih =>
    simp only [List.map_cons, Ended, triesOf_asLab, ih]
    cases e with
    | instr i => simp only [asLab]; split <;> simp
    | _ => rfl

theorem trailing_first (r : List BElem) : (trailingTryEnd r = none ∧ firstEnd r = []) ∨ ∃ id, trailingTryEnd r = some id ∧ firstEnd r = [.tryEnd id] := by
  induction r with
  | nil => exact .inl ⟨rfl, rfl⟩
  | cons e r ih =>
    cases e with
    | tryEnd id => exact .inr ⟨id, rfl, rfl⟩
    | _ => exact ih

theorem checkArgInt_nat {k : Nat} (h : k ≤ 2147483647) : checkArgInt (.int (k : Int)) = .ok k := by
  unfold checkArgInt
  simp only
  rw [if_pos ⟨by omega, by omega⟩]; simp

/-- what `==` reads of one block -/
theorem graphBlock_spec {P : Platform} {key : Arg → κ} {c : CFG} (hI : IndexOK c) (hf : c.blocks.length ≤ 2147483647) (es : List BElem)
    (hit : blkIter P es = .ok ())
    (hj : ∀ i b, .instr i ∈ shownBlock P es → i.arg = .block b → b ∈ c.blocks) (hh : ∀ t, .tryBegin t ∈ shownBlock P es → t.target ∈ c.blocks)
    (ha : ∀ i, .instr i ∈ shownBlock P es → P.hasJump i.opcode = false → ∀ l, i.arg ≠ .label l ∧ i.arg ≠ .block l)
    (tries : List Nat) (he : Ended tries (shownBlock P es)) :
    ∃ q, graphBlock P key c tries es = .ok (q, (shownBlock P es).foldl triesOf tries) ∧ (∀ x ∈ q, x.Pos) ∧
      ∀ idx, flatAll (numberOf c) (items P key idx tries ((shownBlock P es).map asLab)) = .ok (q.map GraphItem.toFlat) := by
  induction es generalizing tries with
  | nil => exact ⟨[], rfl, by simp, fun _ => rfl⟩
  | cons e r ih =>
    unfold blkIter at hit
    obtain ⟨u, hck, hit'⟩ := except_bind_ok hit
    cases u
    cases e with
    | label l => cases hck
    | setLineno n =>
      simp only [shownBlock] at hj hh ha he ⊢
      obtain ⟨q, h1, h2, h3⟩ := ih hit' (fun i b hi => hj i b (List.mem_cons_of_mem _ hi)) (fun t ht => hh t (List.mem_cons_of_mem _ ht))
        (fun i hi => ha i (List.mem_cons_of_mem _ hi)) tries he.2
      refine ⟨.setLineno n :: q, ?_, ?_, ?_⟩
      · unfold graphBlock
        rw [hck]
        simp only [bind, Except.bind, h1]
        rfl
      · intro x hx
        rcases List.mem_cons.1 hx with rfl | hx
        · exact trivial
        · exact h2 x hx
      · intro idx
        exact flatAll_mk rfl (h3 (idx + 1))
    | tryEnd id =>
      simp only [shownBlock] at hj hh ha he ⊢
      obtain ⟨q, h1, h2, h3⟩ := ih hit' (fun i b hi => hj i b (List.mem_cons_of_mem _ hi)) (fun t ht => hh t (List.mem_cons_of_mem _ ht))
        (fun i hi => ha i (List.mem_cons_of_mem _ hi)) tries he.2
      refine ⟨.tryEnd (tries.idxOf id) :: q, ?_, ?_, ?_⟩
      · unfold graphBlock graphTryEnd
        rw [hck]
        simp only [bind, Except.bind, if_pos (he.1 id rfl), h1]
        rfl
      · intro x hx
        rcases List.mem_cons.1 hx with rfl | hx
        · exact trivial
        · exact h2 x hx
      · intro idx
        exact flatAll_mk rfl (h3 (idx + 1))
    | tryBegin t =>
      simp only [shownBlock] at hj hh ha he ⊢
      obtain ⟨q, h1, h2, h3⟩ := ih hit' (fun i b hi => hj i b (List.mem_cons_of_mem _ hi)) (fun t ht => hh t (List.mem_cons_of_mem _ ht))
        (fun i hi => ha i (List.mem_cons_of_mem _ hi)) (setDefault tries t.id) he.2
      obtain ⟨n, hn, hx⟩ := index_of_mem hI (hh t List.mem_cons_self)
      have hg : c.getBlockIndex t.target = .ok (n : Int) := hI.1 n _ hn
      refine ⟨.tryBegin ((setDefault tries t.id).idxOf t.id) n t.lasti :: q, ?_, ?_, ?_⟩
      · unfold graphBlock
        rw [hck]
        simp only [bind, Except.bind, hg, h1]
        rfl
      · intro x hx
        rcases List.mem_cons.1 hx with rfl | hx
        · simp [GraphItem.Pos]
        · exact h2 x hx
      · intro idx
        refine flatAll_mk ?_ (h3 (idx + 1))
        simp only [asLab, itemOf, flatResolve, numberOf, hx]
        rfl
    | instr i =>
      have hopt : P.hasJump i.opcode = true → ∃ b, i.arg = .block b := by
        intro hjm
        unfold blkCheck at hck
        simp only [hjm, if_true] at hck
        split at hck
        · cases hck
        · split at hck
          · cases hck
          · rename_i hn
            cases hb : i.arg with
            | block b => exact ⟨b, rfl⟩
            | _ => rw [hb] at hn; simp [Arg.asBlock] at hn
      have hlab : P.hasJump i.opcode = false → .instr i ∈ shownBlock P (.instr i :: r) → asLab (.instr i) = .instr i := by
        intro hjm hm
        have := ha i hm hjm
        simp only [asLab]
        split
        · rename_i b hb; exact absurd hb (this b).2
        · rfl
      by_cases hend : endsBlock P i = true
      · simp only [shownBlock, hend, if_true] at hj hh ha he hlab ⊢
        have hlast : ∃ x : GraphItem κ, graphLast P key c i = .ok x ∧ x.Pos ∧ ∀ idx, flatResolve (numberOf c) (itemOf P key idx tries (asLab (.instr i))) = .ok x.toFlat := by
          cases hjm : P.hasJump i.opcode with
          | true =>
            obtain ⟨b, hb⟩ := hopt hjm
            obtain ⟨n, hn, hx⟩ := index_of_mem hI (hj i b List.mem_cons_self hb)
            have hg : c.getBlockIndex b = .ok (n : Int) := hI.1 n _ hn
            have hlt : n ≤ 2147483647 := by
              have := (List.getElem?_eq_some_iff.1 hn).1
              omega
            refine ⟨.jump i.loc i.name n, ?_, trivial, ?_⟩
            · unfold graphLast
              simp only [hjm, if_true, hb, Arg.asBlock, bind, Except.bind, hg, checkArgInt_nat hlt]
              rfl
            · intro idx
              have hal : asLab (.instr i) = .instr { i with arg := .label b } := by simp only [asLab, hb]
              rw [hal]
              simp only [itemOf, flatResolve, numberOf, hx]
              rfl
          | false =>
            refine ⟨.instr (i.cmpKey P key), ?_, trivial, ?_⟩
            · unfold graphLast; rw [hjm]; rfl
            · intro idx
              rw [hlab hjm List.mem_cons_self]
              simp only [itemOf]
              split
              · rename_i l hl; exact absurd hl (ha i List.mem_cons_self hjm l).1
              · rfl
        obtain ⟨x, hx1, hx2, hx3⟩ := hlast
        have hcond : (P.hasJump i.opcode || isFinal i.name) = true := hend
        rcases trailing_first r with ⟨t1, t2⟩ | ⟨id, t1, t2⟩
        · rw [t2] at he ⊢
          refine ⟨[x], ?_, by simpa using hx2, ?_⟩
          · unfold graphBlock
            rw [hck]
            simp only [bind, Except.bind, hcond, if_true, hx1, t1]
            rfl
          · intro idx
            exact flatAll_mk (hx3 idx) rfl
        · rw [t2] at he ⊢
          refine ⟨[x, .tryEnd (tries.idxOf id)], ?_, ?_, ?_⟩
          · unfold graphBlock graphTryEnd
            rw [hck]
            have hid : id ∈ tries := he.2.1 id rfl
            simp only [bind, Except.bind, hcond, if_true, hx1, t1, if_pos hid]
            rfl
          · intro y hy
            simp only [List.mem_cons, List.not_mem_nil, or_false] at hy
            rcases hy with rfl | rfl
            · exact hx2
            · exact trivial
          · intro idx
            refine flatAll_mk (hx3 idx) (flatAll_mk (labels := numberOf c) (b := .tryEnd (tries.idxOf id)) ?_ rfl)
            rw [triesOf_asLab]
            rfl
      · have hend' : endsBlock P i = false := by simpa using hend
        have hjm : P.hasJump i.opcode = false := by
          unfold endsBlock at hend'; simp at hend'; exact hend'.1
        have hs : shownBlock P (.instr i :: r) = .instr i :: shownBlock P r := by simp [shownBlock, hend']
        rw [hs] at hj hh ha he hlab ⊢
        obtain ⟨q, h1, h2, h3⟩ := ih hit' (fun i b hi => hj i b (List.mem_cons_of_mem _ hi)) (fun t ht => hh t (List.mem_cons_of_mem _ ht))
          (fun i hi => ha i (List.mem_cons_of_mem _ hi)) tries he.2
        have hcond : (P.hasJump i.opcode || isFinal i.name) = false := hend'
        refine ⟨.instr (i.cmpKey P key) :: q, ?_, ?_, ?_⟩
        · unfold graphBlock
          rw [hck]
          simp only [bind, Except.bind, hcond, Bool.false_eq_true, if_false, h1]
          rfl
        · intro x hx
          rcases List.mem_cons.1 hx with rfl | hx
          · exact trivial
          · exact h2 x hx
        · intro idx
          refine flatAll_mk ?_ (by rw [triesOf_asLab]; exact h3 (idx + 1))
          rw [hlab hjm List.mem_cons_self]
          simp only [itemOf]
          split
          · rename_i l hl; exact absurd hl (ha i List.mem_cons_self hjm l).1
          · rfl

theorem graphBlocks_spec {P : Platform} {key : Arg → κ} {c : CFG} (hI : IndexOK c) (hf : c.blocks.length ≤ 2147483647) (bs : List Nat)
    (hit : ∀ b ∈ bs, blkIter P (c.heap b).elems = .ok ())
    (hj : ∀ i b, .instr i ∈ bs.flatMap (fun b => shownBlock P (c.heap b).elems) → i.arg = .block b → b ∈ c.blocks)
    (hh : ∀ t, .tryBegin t ∈ bs.flatMap (fun b => shownBlock P (c.heap b).elems) → t.target ∈ c.blocks)
    (ha : ∀ i, .instr i ∈ bs.flatMap (fun b => shownBlock P (c.heap b).elems) → P.hasJump i.opcode = false → ∀ l, i.arg ≠ .label l ∧ i.arg ≠ .block l)
    (tries : List Nat) (he : Ended tries (bs.flatMap (fun b => shownBlock P (c.heap b).elems))) :
    ∃ q, graphBlocks P key c tries bs = .ok q ∧ (∀ x ∈ q, x.Pos) ∧
      ∀ idx, flatAll (numberOf c) (items P key idx tries ((bs.flatMap (fun b => shownBlock P (c.heap b).elems)).map asLab)) = .ok (q.map GraphItem.toFlat) := by
  induction bs generalizing tries with
  | nil => exact ⟨[], rfl, by simp, fun _ => rfl⟩
  | cons b bs ih =>
    simp only [List.flatMap_cons] at hj hh ha he ⊢
    obtain ⟨he1, he2⟩ := (ended_append _ _ _).1 he
    obtain ⟨p, p1, p2, p3⟩ := graphBlock_spec (key := key) hI hf (c.heap b).elems (hit b List.mem_cons_self) (fun i b hi => hj i b (List.mem_append_left _ hi))
      (fun t ht => hh t (List.mem_append_left _ ht)) (fun i hi => ha i (List.mem_append_left _ hi)) tries he1
    obtain ⟨q, q1, q2, q3⟩ := ih (fun b hb => hit b (List.mem_cons_of_mem _ hb)) (fun i b hi => hj i b (List.mem_append_right _ hi))
      (fun t ht => hh t (List.mem_append_right _ ht)) (fun i hi => ha i (List.mem_append_right _ hi)) _ he2
    refine ⟨p ++ q, ?_, ?_, ?_⟩
    · unfold graphBlocks
      simp only [bind, Except.bind, p1, q1]
      rfl
    · intro x hx
      rcases List.mem_append.1 hx with hx | hx
      · exact p2 x hx
      · exact q2 x hx
    · intro idx
      rw [List.map_append, items_append, List.map_append, foldl_asLab]
      exact flatAll_append (p3 idx) (q3 _)

theorem mem_fold_tries (x : List BElem) (tries : List Nat) (id : Nat) :
    id ∈ x.foldl triesOf tries ↔ id ∈ tries ∨ ∃ t, .tryBegin t ∈ x ∧ t.id = id := by
  induction x generalizing tries with
  | nil => simp
  | cons e r ih =>
    rw [List.foldl_cons, ih]
    cases e with
    | tryBegin t =>
      simp only [triesOf, setDefault, List.mem_cons, BElem.tryBegin.injEq]
      by_cases h : t.id ∈ tries
      · rw [if_pos h]
        constructor
        · rintro (h | ⟨u, hu, rfl⟩)
          · exact .inl h
          · exact .inr ⟨u, .inr hu, rfl⟩
        · rintro (h' | ⟨u, rfl | hu, rfl⟩)
          · exact .inl h'
          · exact .inl h
          · exact .inr ⟨u, hu, rfl⟩
      · rw [if_neg h, List.mem_append, List.mem_singleton]
        constructor
        · rintro ((h | rfl) | ⟨u, hu, rfl⟩)
          · exact .inl h
          · exact .inr ⟨t, .inl rfl, rfl⟩
          · exact .inr ⟨u, .inr hu, rfl⟩
        · rintro (h' | ⟨u, rfl | hu, rfl⟩)
          · exact .inl (.inl h')
          · exact .inl (.inr rfl)
          · exact .inr ⟨u, hu, rfl⟩
    | _ => simp [triesOf]

theorem ended_of {es : List BElem} (h : ∀ x id y, es = x ++ .tryEnd id :: y → ∃ t, .tryBegin t ∈ x ∧ t.id = id) : Ended [] es := by
  suffices H : ∀ pre post, es = pre ++ post → Ended (pre.foldl triesOf []) post from H [] es rfl
  intro pre post
  induction post generalizing pre with
  | nil => intro _; trivial
  | cons e r ih =>
    intro he
    refine ⟨?_, ?_⟩
    · rintro id rfl
      exact (mem_fold_tries pre [] id).2 (.inr (h pre id r he))
    · have := ih (pre ++ [e]) (by rw [he]; simp)
      simpa using this

theorem getInstructions_spec {P : Platform} (key : Arg → κ) {c : CFG} (hc : ComparableG P c) :
    ∃ q, c.getInstructions P key = .ok q ∧ (∀ x ∈ q, x.Pos) ∧
      flatAll (numberOf c) (items P key 0 [] ((shown P c).map asLab)) = .ok (q.map GraphItem.toFlat) := by
  obtain ⟨q, h1, h2, h3⟩ := graphBlocks_spec (key := key) hc.index hc.few c.blocks hc.blocks hc.jumps hc.handlers hc.args [] (ended_of hc.paired)
  exact ⟨q, h1, h2, h3 0⟩

theorem mem_asLab {es : List BElem} {i : Instr} (h : .instr i ∈ es.map asLab) : ∃ j, .instr j ∈ es ∧ j.name = i.name ∧ j.opcode = i.opcode ∧ j.loc = i.loc := by
  obtain ⟨e, he, h⟩ := List.mem_map.1 h
  cases e with
  | instr j =>
    refine ⟨j, he, ?_⟩
    simp only [asLab] at h
    split at h <;> (cases h; exact ⟨rfl, rfl, rfl⟩)
  | _ => cases h

theorem marker_asLab (e : BElem) : markerOf (asLab e) = markerOf e := by
  cases e with
  | instr i => simp only [asLab]; split <;> rfl
  | _ => rfl

/-- arguments of the elements of a graph that can be compared -/
def NoLabE : BElem → Prop
  | .instr i => ∀ l, i.arg ≠ .label l
  | .label _ => False
  | _ => True

theorem corr_asLab {P : Platform} {key : Arg → κ} {a b : CFG} (ha : IndexOK a) (hb : IndexOK b) {x y : BElem} (hx : NoLabE x) (hy : NoLabE y) :
    Corr P key (numberOf a) (numberOf b) (asLab x) (asLab y) ↔ CorrespondsG P key a b x y := by
  have hlab : ∀ i : Instr, (∃ l, i.arg = .block l ∧ asLab (.instr i) = .instr { i with arg := .label l }) ∨
      (¬ isBlockArg i.arg ∧ asLab (.instr i) = .instr i) := by
    intro i
    by_cases h : isBlockArg i.arg
    · obtain ⟨l, hl⟩ := h
      exact .inl ⟨l, hl, by simp only [asLab, hl]⟩
    · refine .inr ⟨h, ?_⟩
      simp only [asLab]
      split
      · rename_i l hl; exact absurd ⟨l, hl⟩ h
      · rfl
  cases x with
  | label l => cases hx
  | instr i =>
    cases y with
    | label l => cases hy
    | instr j =>
      rcases hlab i with ⟨l, hl, e1⟩ | ⟨hl, e1⟩ <;> rcases hlab j with ⟨m, hm, e2⟩ | ⟨hm, e2⟩
      · rw [e1, e2]
        simp only [Corr, CorrespondsG, Arg.label.injEq, hl, hm, Arg.block.injEq, numberOf_iff ha, numberOf_iff hb]
        constructor
        · rintro ⟨h1, h2, ⟨_, _, n, rfl, rfl, h3, h4⟩ | ⟨h3, _⟩⟩
          · exact ⟨h1, h2, .inl ⟨_, _, n, rfl, rfl, h3, h4⟩⟩
          · exact absurd ⟨l, rfl⟩ h3
        · rintro ⟨h1, h2, ⟨_, _, n, rfl, rfl, h3, h4⟩ | ⟨h3, _⟩⟩
          · exact ⟨h1, h2, .inl ⟨_, _, n, rfl, rfl, h3, h4⟩⟩
          · exact absurd ⟨l, rfl⟩ h3
      · rw [e1, e2]
        simp only [Corr, CorrespondsG]
        constructor
        · rintro ⟨h1, h2, ⟨_, m', n, _, h3, _⟩ | ⟨h3, _⟩⟩
          · exact absurd h3 (hy m')
          · exact absurd ⟨l, rfl⟩ h3
        · rintro ⟨h1, h2, ⟨_, m', n, _, h3, _⟩ | ⟨h3, _⟩⟩
          · exact absurd ⟨m', h3⟩ hm
          · exact absurd ⟨l, hl⟩ h3
      · rw [e1, e2]
        simp only [Corr, CorrespondsG]
        constructor
        · rintro ⟨h1, h2, ⟨m', _, n, h3, _⟩ | ⟨_, h3, _⟩⟩
          · exact absurd h3 (hx m')
          · exact absurd ⟨m, rfl⟩ h3
        · rintro ⟨h1, h2, ⟨m', _, n, h3, _⟩ | ⟨_, h3, _⟩⟩
          · exact absurd ⟨m', h3⟩ hl
          · exact absurd ⟨m, hm⟩ h3
      · rw [e1, e2]
        simp only [Corr, CorrespondsG]
        constructor
        · rintro ⟨h1, h2, ⟨m', _, n, h3, _⟩ | ⟨_, _, h3⟩⟩
          · exact absurd h3 (hx m')
          · exact ⟨h1, h2, .inr ⟨hl, hm, h3⟩⟩
        · rintro ⟨h1, h2, ⟨m', _, n, h3, _⟩ | ⟨_, _, h3⟩⟩
          · exact absurd ⟨m', h3⟩ hl
          · refine ⟨h1, h2, .inr ⟨?_, ?_, h3⟩⟩
            · rintro ⟨l, h⟩; exact hx l h
            · rintro ⟨l, h⟩; exact hy l h
    | _ => rcases hlab i with ⟨l, hl, e1⟩ | ⟨hl, e1⟩ <;> (rw [e1]; exact Iff.rfl)
  | tryBegin t =>
    cases y with
    | label l => cases hy
    | tryBegin u => simp only [asLab, Corr, CorrespondsG, numberOf_iff ha, numberOf_iff hb]
    | instr j => rcases hlab j with ⟨l, hl, e1⟩ | ⟨hl, e1⟩ <;> (rw [e1]; exact Iff.rfl)
    | _ => exact Iff.rfl
  | setLineno n =>
    cases y with
    | label l => cases hy
    | instr j => rcases hlab j with ⟨l, hl, e1⟩ | ⟨hl, e1⟩ <;> (rw [e1]; exact Iff.rfl)
    | _ => exact Iff.rfl
  | tryEnd n =>
    cases y with
    | label l => cases hy
    | instr j => rcases hlab j with ⟨l, hl, e1⟩ | ⟨hl, e1⟩ <;> (rw [e1]; exact Iff.rfl)
    | _ => exact Iff.rfl

end Verif
