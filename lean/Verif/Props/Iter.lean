import Verif.Spec.Iter
import Verif.Proofs.CFG
import Verif.Instances.Py311
/-
C40: iterating a container yields everything iff its content is legal; otherwise it stops at the first offending
element with the documented exception.
-/
namespace Verif
open Spec

theorem regionOpen_nil : ¬ regionOpen [] := by
  rintro ⟨a, t, b, h, _⟩
  simp at h

theorem regionOpen_snoc (p : List (Option BElem)) (x : Option BElem) :
    regionOpen (p ++ [x]) ↔ (∃ t, x = some (.tryBegin t)) ∨ (regionOpen p ∧ ∀ id, x ≠ some (.tryEnd id)) := by
  constructor
  · rintro ⟨a, t, b, h, hb⟩
    rcases List.eq_nil_or_concat b with rfl | ⟨b', y, rfl⟩
    · have := List.append_inj' h rfl
      simp only [List.cons.injEq, and_true] at this
      exact .inl ⟨t, this.2⟩
    · have h' : p ++ [x] = (a ++ some (.tryBegin t) :: b') ++ [y] := by rw [h]; simp
      have := List.append_inj' h' rfl
      simp only [List.cons.injEq, and_true] at this
      refine .inr ⟨⟨a, t, b', this.1, fun id hm => hb id (by simp [hm])⟩, fun id hx => hb id ?_⟩
      rw [← this.2, hx]; simp
  · rintro (⟨t, rfl⟩ | ⟨⟨a, t, b, rfl, hb⟩, hx⟩)
    · exact ⟨p, t, [], rfl, by simp⟩
    · refine ⟨a, t, b ++ [x], by simp, fun id hm => ?_⟩
      rcases List.mem_append.1 hm with h | h
      · exact hb id h
      · exact hx id (List.mem_singleton.1 h).symm

/-- the elements of `es` are legal after `p` -/
def LegalAfter (p es : List (Option BElem)) : Prop := ∀ pre x post, es = pre ++ x :: post → ¬ Misplaced (p ++ pre) x

theorem LegalAfter.tail {p : List (Option BElem)} {x : Option BElem} {r : List (Option BElem)} (h : LegalAfter p (x :: r)) :
    ¬ Misplaced p x ∧ LegalAfter (p ++ [x]) r :=
  ⟨by simpa using h [] x r rfl, fun pre y post he => by simpa using h (x :: pre) y post (by rw [he]; rfl)⟩

theorem iterAny_spec (es tail : List (Option BElem)) (p : List (Option BElem)) (seen : Bool) (hs : seen = true ↔ regionOpen p)
    (hl : LegalAfter p es) :
    ∃ ys : List BElem, ∃ s', es = ys.map some ∧ (s' = true ↔ regionOpen (p ++ es)) ∧
      iterAny seen (es ++ tail) = (ys ++ (iterAny s' tail).1, (iterAny s' tail).2) := by
  induction es generalizing p seen with
  | nil => exact ⟨[], seen, rfl, by simpa using hs, by simp⟩
  | cons x r ih =>
    obtain ⟨h1, h2⟩ := hl.tail
    have hcons : ∀ s1 : Bool, (s1 = true ↔ regionOpen (p ++ [x])) → (∀ y, x = some y →
        iterAny seen (x :: (r ++ tail)) = (y :: (iterAny s1 (r ++ tail)).1, (iterAny s1 (r ++ tail)).2)) →
        ∃ ys : List BElem, ∃ s', x :: r = ys.map some ∧ (s' = true ↔ regionOpen (p ++ x :: r)) ∧
        iterAny seen (x :: r ++ tail) = (ys ++ (iterAny s' tail).1, (iterAny s' tail).2) := by
      intro s1 hs1 heq
      obtain ⟨ys, s', e1, e2, e3⟩ := ih (p ++ [x]) s1 hs1 h2
      cases x with
      | none => exact absurd (.inl rfl) h1
      | some y =>
        refine ⟨y :: ys, s', by rw [e1]; rfl, by simpa using e2, ?_⟩
        rw [List.cons_append, heq y rfl, e3]; rfl
    cases x with
    | none => exact absurd (.inl rfl) h1
    | some y =>
      cases y with
      | tryBegin t =>
        have hso : seen = false := by
          cases seen with
          | false => rfl
          | true => exact absurd (.inr ⟨⟨t, rfl⟩, hs.1 rfl⟩) h1
        subst hso
        refine hcons true (by rw [regionOpen_snoc]; simp) (fun y hy => ?_)
        cases hy; rfl
      | tryEnd id =>
        refine hcons false (by rw [regionOpen_snoc]; simp) (fun y hy => ?_)
        cases hy; rfl
      | instr i =>
        refine hcons seen (by rw [regionOpen_snoc]; simp [hs]) (fun y hy => ?_)
        cases hy; rfl
      | label l =>
        refine hcons seen (by rw [regionOpen_snoc]; simp [hs]) (fun y hy => ?_)
        cases hy; rfl
      | setLineno n =>
        refine hcons seen (by rw [regionOpen_snoc]; simp [hs]) (fun y hy => ?_)
        cases hy; rfl

/-- C40, Bytecode: iterating yields all the elements iff the content is legal. -/
theorem C40_bytecode_ok (es : List (Option BElem)) (hi : Iterable es) :
    ∃ ys, es = ys.map some ∧ iterAny false es = (ys, .ok ()) := by
  obtain ⟨ys, s', h1, _, h3⟩ := iterAny_spec es [] [] false (by simp [regionOpen_nil]) (fun pre x post h => by simpa using hi pre x post h)
  refine ⟨ys, h1, ?_⟩
  rw [List.append_nil] at h3
  rw [h3]; simp [iterAny]

/-- C40, Bytecode: otherwise there is a first offending element; the elements before it are yielded, then ValueError is
raised for a foreign object and RuntimeError for a nested TryBegin. -/
theorem C40_bytecode_error (pre post : List (Option BElem)) (x : Option BElem) (hi : Iterable pre) (hx : Misplaced pre x) :
    ∃ ys, pre = ys.map some ∧
      iterAny false (pre ++ x :: post) = (ys, .error (if x = none then .valueError else .runtimeError)) := by
  obtain ⟨ys, s', h1, h2, h3⟩ := iterAny_spec pre (x :: post) [] false (by simp [regionOpen_nil]) (fun pre x post h => by simpa using hi pre x post h)
  refine ⟨ys, h1, ?_⟩
  rw [h3]
  rcases hx with rfl | ⟨⟨t, rfl⟩, hr⟩
  · simp [iterAny]
  · rw [h2.2 (by simpa using hr)]; simp [iterAny]

/-- Content that is not legal has a first offending element. -/
theorem C40_bytecode_first (es : List (Option BElem)) (hi : ¬ Iterable es) :
    ∃ pre x post, es = pre ++ x :: post ∧ Iterable pre ∧ Misplaced pre x := by
  induction es using List.reverseRecOn with
  | nil => exact absurd (fun pre x post h => by simp at h) hi
  | append_singleton es y ih =>
    by_cases h : Iterable es
    · refine ⟨es, y, [], rfl, h, ?_⟩
      refine Classical.byContradiction fun hm => hi ?_
      intro pre x post he
      rcases List.eq_nil_or_concat post with rfl | ⟨post', z, rfl⟩
      · have := List.append_inj' he rfl
        simp only [List.cons.injEq, and_true] at this
        rw [← this.1, ← this.2]; exact hm
      · have he' : es ++ [y] = (pre ++ x :: post') ++ [z] := by rw [he]; simp
        exact h pre x post' (List.append_inj' he' rfl).1
    · obtain ⟨pre, x, post, he, h1, h2⟩ := ih h
      exact ⟨pre, x, post ++ [y], by rw [he]; simp, h1, h2⟩

/-- C40, Bytecode, in one sentence: iteration runs to its end iff the content is legal. -/
theorem C40_bytecode_iff (es : List (Option BElem)) : (iterAny false es).2 = .ok () ↔ Iterable es := by
  constructor
  · intro h
    refine Classical.byContradiction fun hi => ?_
    obtain ⟨pre, x, post, rfl, h1, h2⟩ := C40_bytecode_first es hi
    obtain ⟨ys, _, h3⟩ := C40_bytecode_error pre post x h1 h2
    rw [h3] at h; cases h
  · intro h
    obtain ⟨ys, _, h3⟩ := C40_bytecode_ok es h
    rw [h3]

/-- The constructor and the iteration differ: `Bytecode([...])` accepts nested TryBegin and refuses only foreign objects. -/
theorem C40_constructor (es : List (Option BElem)) : bytecodeInit es = .ok es ↔ none ∉ es := by
  unfold bytecodeInit
  constructor
  · intro h hm
    rw [if_pos (List.any_eq_true.2 ⟨none, hm, rfl⟩)] at h; cases h
  · intro h
    rw [if_neg]
    rw [List.any_eq_true]
    rintro ⟨x, hx, hn⟩
    cases x with
    | none => exact h hx
    | some _ => cases hn

/-- C40, ConcreteBytecode. -/
theorem C40_concrete (es : List CElem) (tail : List (Option CElem)) (ht : tail = [] ∨ ∃ r, tail = none :: r) :
    iterConcrete (es.map some ++ tail) = (es, if tail = [] then .ok () else .error .valueError) := by
  induction es with
  | nil =>
    rcases ht with rfl | ⟨r, rfl⟩
    · rfl
    · simp [iterConcrete]
  | cons e r ih => simp [iterConcrete, ih]

theorem blkCheckAny_ok {P : Platform} {x : BlkObj} {post : List BlkObj} (h : ¬ MisplacedBlk P x post) :
    ∃ e, x = .elem e ∧ blkCheckAny P x post = .ok e := by
  unfold MisplacedBlk at h
  simp only [not_or, not_exists, not_and] at h
  obtain ⟨h1, h2, h3, h4⟩ := h
  cases x with
  | foreign => exact absurd rfl h1
  | tryLabel t => exact absurd rfl (h2 t)
  | elem e =>
    refine ⟨e, rfl, ?_⟩
    cases e with
    | label l => exact absurd rfl (h3 l)
    | instr i =>
      unfold blkCheckAny
      simp only
      split
      · rename_i hj
        obtain ⟨h5, h6⟩ := h4 i rfl hj
        rw [if_neg, if_neg]
        · intro hb
          refine h6 fun b hb' => ?_
          rw [hb'] at hb; cases hb
        · rw [List.any_eq_true]
          rintro ⟨y, hy, hyi⟩
          cases y with
          | foreign => cases hyi
          | tryLabel _ => cases hyi
          | elem e => cases e with
            | instr j => exact h5 j hy
            | _ => cases hyi
      · rfl
    | _ => rfl

theorem blkCheckAny_err {P : Platform} {x : BlkObj} {post : List BlkObj} (h : MisplacedBlk P x post) :
    blkCheckAny P x post = .error .valueError := by
  rcases h with rfl | ⟨t, rfl⟩ | ⟨l, rfl⟩ | ⟨i, rfl, hj, h⟩
  · rfl
  · rfl
  · rfl
  · unfold blkCheckAny
    simp only [hj, if_true]
    split
    · rfl
    · rename_i hn
      rcases h with ⟨j, hj'⟩ | h
      · exact absurd (List.any_eq_true.2 ⟨_, hj', rfl⟩) hn
      · rw [if_pos]
        cases ha : i.arg with
        | block b => exact absurd ha (h b)
        | _ => rfl

/-- C40, BasicBlock: legal content is yielded entirely. -/
theorem C40_block_ok (P : Platform) (es : List BlkObj) (hi : IterableBlk P es) :
    ∃ ys, es = ys.map .elem ∧ iterBlock P es = (ys, .ok ()) := by
  induction es with
  | nil => exact ⟨[], rfl, rfl⟩
  | cons x r ih =>
    obtain ⟨e, he, hc⟩ := blkCheckAny_ok (hi [] x r rfl)
    obtain ⟨ys, h1, h2⟩ := ih (fun pre y post h => hi (x :: pre) y post (by rw [h]; rfl))
    refine ⟨e :: ys, by rw [he, h1]; rfl, ?_⟩
    unfold iterBlock
    rw [hc]; simp only; rw [h2]

/-- C40, BasicBlock: otherwise ValueError is raised at the first offending element after yielding the ones before. -/
theorem C40_block_error (P : Platform) (pre post : List BlkObj) (x : BlkObj)
    (hi : ∀ p y q, pre = p ++ y :: q → ¬ MisplacedBlk P y (q ++ x :: post)) (hx : MisplacedBlk P x post) :
    ∃ ys, pre = ys.map .elem ∧ iterBlock P (pre ++ x :: post) = (ys, .error .valueError) := by
  induction pre with
  | nil =>
    refine ⟨[], rfl, ?_⟩
    show iterBlock P (x :: post) = _
    unfold iterBlock
    rw [blkCheckAny_err hx]
  | cons y r ih =>
    obtain ⟨e, he, hc⟩ := blkCheckAny_ok (hi [] y r rfl)
    obtain ⟨ys, h1, h2⟩ := ih (fun p z q h => hi (y :: p) z q (by rw [h]; rfl))
    refine ⟨e :: ys, by rw [he, h1]; rfl, ?_⟩
    rw [List.cons_append]
    unfold iterBlock
    rw [hc]; simp only; rw [h2]

/-- C40, BasicBlock: iteration runs to its end iff the content is legal. -/
theorem C40_block_iff (P : Platform) (es : List BlkObj) : (iterBlock P es).2 = .ok () ↔ IterableBlk P es := by
  constructor
  · induction es with
    | nil => intro _ pre x post h; simp at h
    | cons e r ih =>
      intro h
      unfold iterBlock at h
      cases hc : blkCheckAny P e r with
      | error x => rw [hc] at h; cases h
      | ok y =>
        rw [hc] at h
        intro pre x post he
        cases pre with
        | nil =>
          simp only [List.nil_append, List.cons.injEq] at he
          intro hm
          rw [← he.1, ← he.2] at hm
          rw [blkCheckAny_err hm] at hc; cases hc
        | cons p ps =>
          simp only [List.cons_append, List.cons.injEq] at he
          exact ih h ps x post he.2
  · intro h
    obtain ⟨ys, _, h2⟩ := C40_block_ok P es h
    rw [h2]

/-! Concrete cases. -/

/-- two regions one after the other: legal -/
example : Iterable [some (.tryBegin ⟨0, 0, false, none⟩), some (.instr ⟨"NOP", 9, .unset, none⟩), some (.tryEnd 0),
    some (.tryBegin ⟨1, 0, true, none⟩), some (.tryEnd 1), some (.label 0)] :=
  (C40_bytecode_iff _).1 (by decide)

/-- a region opened inside another: not legal, the NOP is still yielded -/
example : iterAny false [some (.tryBegin ⟨0, 0, false, none⟩), some (.instr ⟨"NOP", 9, .unset, none⟩),
    some (.tryBegin ⟨1, 0, true, none⟩), none] =
    ([.tryBegin ⟨0, 0, false, none⟩, .instr ⟨"NOP", 9, .unset, none⟩], .error .runtimeError) := by decide

example : IterableBlk Py311.platform [.elem (.instr ⟨"JUMP_FORWARD", 110, .block 3, none⟩), .elem (.tryEnd 0)] :=
  (C40_block_iff _ _).1 (by decide +kernel)

example : ¬ IterableBlk Py311.platform [.elem (.instr ⟨"JUMP_FORWARD", 110, .block 3, none⟩), .elem (.instr ⟨"NOP", 9, .unset, none⟩)] := by
  rw [← C40_block_iff]; decide +kernel

end Verif
