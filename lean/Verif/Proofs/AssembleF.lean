import Verif.Proofs.AssembleE
import Verif.Props.LinearSize
/-
The rules of assembly only depend on the resolved code and the try markers.
-/
namespace Verif
open Spec

theorem labelAt_isSome {l : Nat} : ∀ {es : List BElem}, BElem.label l ∈ es → (labelAt l es).isSome = true := by
  intro es
  induction es with
  | nil => simp
  | cons e r ih =>
    intro h
    cases e with
    | label l' =>
      simp only [labelAt]
      by_cases hl : l' = l
      · simp [hl]
      · rcases List.mem_cons.1 h with h | h
        · cases h; exact absurd rfl hl
        · have := ih h
          cases hr : labelAt l r with
          | none => rw [hr] at this; cases this
          | some x => simp
    | instr i =>
      have := ih (by simpa using h)
      simp only [labelAt]
      cases hr : labelAt l r with
      | none => rw [hr] at this; cases this
      | some x => simp
    | _ => exact ih (by simpa using h)

theorem labelAt_mem {l k : Nat} {es : List BElem} (h : labelAt l es = some k) : BElem.label l ∈ es := by
  by_cases hm : BElem.label l ∈ es
  · exact hm
  · rw [labelAt_none hm] at h; cases h

/-- The label is after the first `instrCount pre + 1` instructions iff it is in what follows. -/
theorem labelAt_split {pre post : List BElem} {i : Instr} {l t : Nat} (h : labelAt l (pre ++ .instr i :: post) = some t) :
    BElem.label l ∈ post ↔ instrCount pre < t := by
  rw [labelAt_append] at h
  simp only [labelAt] at h
  constructor
  · intro hm
    have := labelAt_isSome hm
    cases hp : labelAt l post with
    | none => rw [hp] at this; cases this
    | some x => rw [hp] at h; simp at h; omega
  · intro ht
    cases hp : labelAt l post with
    | none =>
      rw [hp] at h
      simp only [Option.map_none, Option.none_or] at h
      have := labelAt_le h
      omega
    | some x => exact labelAt_mem hp

theorem labelAt_near {pre post : List BElem} {i : Instr} {l t : Nat} (h : labelAt l (pre ++ .instr i :: post) = some t) :
    t ≤ instrCount pre + 1 ↔ ∀ mid post', post = mid ++ .label l :: post' → ∀ j, BElem.instr j ∉ mid := by
  rw [labelAt_append] at h
  simp only [labelAt] at h
  constructor
  · rintro ht mid post' rfl j hj
    rw [labelAt_append] at h
    obtain ⟨x, hx⟩ : ∃ x, labelAt l (BElem.label l :: post') = some x := by
      have := labelAt_isSome (l := l) (es := BElem.label l :: post') (by simp)
      cases hx : labelAt l (BElem.label l :: post') with
      | none => rw [hx] at this; cases this
      | some x => exact ⟨x, rfl⟩
    rw [hx] at h
    simp at h
    have : 0 < instrCount mid := List.countP_pos_iff.2 ⟨_, hj, rfl⟩
    omega
  · intro hm
    cases hp : labelAt l post with
    | none =>
      rw [hp] at h
      simp only [Option.map_none, Option.none_or] at h
      have := labelAt_le h
      omega
    | some x =>
      rw [hp] at h
      simp at h
      -- split at the last occurrence
      obtain ⟨mid, post', e, hno⟩ : ∃ mid post', post = mid ++ .label l :: post' ∧ BElem.label l ∉ post' := by
        have := labelAt_mem hp
        clear hp h hm
        induction post with
        | nil => simp at this
        | cons e r ih =>
          by_cases hr : BElem.label l ∈ r
          · obtain ⟨mid, post', e1, e2⟩ := ih hr
            exact ⟨e :: mid, post', by rw [e1]; rfl, e2⟩
          · rcases List.mem_cons.1 this with h | h
            · exact ⟨[], r, by rw [h]; rfl, hr⟩
            · exact absurd h hr
      have h0 := hm mid post' e
      have : instrCount mid = 0 := List.countP_eq_zero.2 (fun a ha => by
        cases a with
        | instr j => exact absurd ha (h0 j)
        | _ => simp [BElem.isInstr])
      rw [e, labelAt_append] at hp
      simp only [labelAt, labelAt_none hno] at hp
      simp at hp
      omega

/-- Instructions of a code with their rank. -/
def ranked : Nat → List CodeItem → List (Nat × String × Nat × ArgRef)
  | _, [] => []
  | k, .line _ :: r => ranked k r
  | k, .op m o a _ :: r => (k, m, o, a) :: ranked (k + 1) r

theorem ranked_append (a b : List CodeItem) : ∀ k, ∃ n, ranked k (a ++ b) = ranked k a ++ ranked n b ∧ n = k + (ranked k a).length := by
  induction a with
  | nil => intro k; exact ⟨k, rfl, rfl⟩
  | cons x r ih =>
    intro k
    cases x with
    | line n => exact ih k
    | op m o a l =>
      obtain ⟨n, h1, h2⟩ := ih (k + 1)
      refine ⟨n, ?_, ?_⟩
      · simp only [List.cons_append, ranked, h1]
      · simp only [ranked, List.length_cons]; omega

theorem ranked_count (f g : Nat → Option Nat) (es : List BElem) : ∀ k, (ranked k (resolved f g es)).length = instrCount es := by
  induction es with
  | nil => intro k; rfl
  | cons e r ih =>
    intro k
    cases e with
    | instr i =>
      show (ranked k (_ :: resolved f g r)).length = _
      rw [ranked, List.length_cons, ih, instrCount, instrCount, List.countP_cons]
      simp [BElem.isInstr]
    | setLineno n =>
      show (ranked k (_ :: resolved f g r)).length = _
      rw [ranked, ih]
      simp [instrCount, BElem.isInstr]
    | _ =>
      show (ranked k (resolved f g r)).length = _
      rw [ih]
      simp [instrCount, BElem.isInstr]

theorem ranked_mem {f g : Nat → Option Nat} {es : List BElem} {k : Nat} {x : Nat × String × Nat × ArgRef} :
    x ∈ ranked k (resolved f g es) ↔ ∃ pre i post, es = pre ++ .instr i :: post ∧
      x = (k + instrCount pre, i.name, i.opcode, argRef f g i.arg) := by
  induction es generalizing k with
  | nil => simp [resolved, ranked]
  | cons e r ih =>
    constructor
    · intro h
      cases e with
      | instr i =>
        have h : x ∈ ranked k (_ :: resolved f g r) := h
        rw [ranked, List.mem_cons] at h
        rcases h with rfl | h
        · exact ⟨[], i, r, rfl, by simp [instrCount]⟩
        · obtain ⟨pre, j, post, e, rfl⟩ := ih.1 h
          refine ⟨.instr i :: pre, j, post, by rw [e]; rfl, ?_⟩
          simp only [instrCount, List.countP_cons, BElem.isInstr, if_true, Prod.mk.injEq, and_true]
          omega
      | setLineno n =>
        obtain ⟨pre, j, post, e, rfl⟩ := ih.1 (show x ∈ ranked k (resolved f g r) from h)
        exact ⟨.setLineno n :: pre, j, post, by rw [e]; rfl, by simp [instrCount, BElem.isInstr]⟩
      | label n =>
        obtain ⟨pre, j, post, e, rfl⟩ := ih.1 (show x ∈ ranked k (resolved f g r) from h)
        exact ⟨.label n :: pre, j, post, by rw [e]; rfl, by simp [instrCount, BElem.isInstr]⟩
      | tryBegin n =>
        obtain ⟨pre, j, post, e, rfl⟩ := ih.1 (show x ∈ ranked k (resolved f g r) from h)
        exact ⟨.tryBegin n :: pre, j, post, by rw [e]; rfl, by simp [instrCount, BElem.isInstr]⟩
      | tryEnd n =>
        obtain ⟨pre, j, post, e, rfl⟩ := ih.1 (show x ∈ ranked k (resolved f g r) from h)
        exact ⟨.tryEnd n :: pre, j, post, by rw [e]; rfl, by simp [instrCount, BElem.isInstr]⟩
    · rintro ⟨pre, j, post, e1, rfl⟩
      rw [e1, resolved_append]
      obtain ⟨n, h1, h2⟩ := ranked_append (resolved f g pre) (resolved f g (.instr j :: post)) k
      rw [h1, h2, ranked_count]
      refine List.mem_append.2 (.inr ?_)
      show _ ∈ ranked _ (_ :: resolved f g post)
      rw [ranked]
      simp

/-- The rules on jumps, on the resolved code. -/
def JumpRules (P : Platform) (its : List CodeItem) : Prop :=
  ∀ k m o a, (k, m, o, a) ∈ ranked 0 its → P.hasJump o = true →
    ∃ t, a = .target t ∧ (isForwardRelJump P m o = true → k < t) ∧ (isBackwardRelJump P m o = true → t ≤ k + 1)

theorem jumpRules_of {P : Platform} {b : Bytecode} (h : Assemblable P b) : JumpRules P (codeB b) := by
  intro k m o a hx hj
  obtain ⟨pre, i, post, e, he⟩ := ranked_mem.1 hx
  simp only [Prod.mk.injEq, Nat.zero_add] at he
  obtain ⟨rfl, rfl, rfl, rfl⟩ := he
  obtain ⟨l, hl, hm⟩ := h.jumps i (by rw [e]; simp) hj
  have := labelAt_isSome hm
  cases ht : labelAt l b.elems with
  | none => rw [ht] at this; cases this
  | some t =>
    refine ⟨t, by simp [argRef, hl, ht], fun hf => ?_, fun hb => ?_⟩
    · rw [e] at ht
      exact (labelAt_split ht).1 (h.forward pre i post l e hl hf)
    · rw [e] at ht
      exact (labelAt_near ht).2 (fun mid post' e' => h.backward pre i mid l post' (by rw [e, e']; simp) hl hb)

theorem wellTried_count {es : List BElem} {o : Option Nat} {seen : List Nat} {any : Bool} (h : WellTried o seen any es) {t t' : TryB}
    (ht : BElem.tryBegin t ∈ es) (ht' : BElem.tryBegin t' ∈ es) (hid : t.id = t'.id) : t = t' := by
  induction es generalizing o seen any with
  | nil => simp at ht
  | cons e r ih =>
    cases e with
    | tryBegin u =>
      obtain ⟨_, _, h3⟩ := h
      have hs : ∀ v, BElem.tryBegin v ∈ r → v.id ≠ u.id := fun v hv e => by
        obtain ⟨a, c, hac⟩ := List.append_of_mem hv
        have : ∀ (es : List BElem) o (seen : List Nat) any, WellTried o seen any es → ∀ v, BElem.tryBegin v ∈ es → v.id ∉ seen := by
          intro es
          induction es with
          | nil => simp
          | cons e r ih =>
            intro o seen any h v hv
            cases e with
            | tryBegin w =>
              obtain ⟨_, h2, h3⟩ := h
              rcases List.mem_cons.1 hv with hv | hv
              · cases hv; exact h2
              · intro hm; exact ih _ _ _ h3 v hv (List.mem_cons_of_mem _ hm)
            | tryEnd w => exact ih _ _ _ h.2.2 v (by simpa using hv)
            | instr w => exact ih _ _ _ h v (by simpa using hv)
            | label w => exact ih _ _ _ h v (by simpa using hv)
            | setLineno w => exact ih _ _ _ h v (by simpa using hv)
        exact this _ _ _ _ h3 v hv (by rw [e]; simp)
      rcases List.mem_cons.1 ht with h1 | h1 <;> rcases List.mem_cons.1 ht' with h2 | h2
      · cases h1; cases h2; rfl
      · cases h1; exact absurd hid.symm (hs _ h2)
      · cases h2; exact absurd hid (hs _ h1)
      · exact ih h3 h1 h2
    | tryEnd w => exact ih h.2.2 (by simpa using ht) (by simpa using ht')
    | instr w => exact ih h (by simpa using ht) (by simpa using ht')
    | label w => exact ih h (by simpa using ht) (by simpa using ht')
    | setLineno w => exact ih h (by simpa using ht) (by simpa using ht')

/-- A TryEnd comes between two TryBegin. -/
theorem wellTried_nested {pre : List BElem} : ∀ {o : Option Nat} {seen : List Nat} {any : Bool} {t t' : TryB} {mid post : List BElem},
    WellTried o seen any (pre ++ .tryBegin t :: mid ++ .tryBegin t' :: post) → ∃ id, .tryEnd id ∈ mid := by
  have key : ∀ (mid : List BElem) (n : Nat) (seen : List Nat) (any : Bool) (t' : TryB) (post : List BElem),
      WellTried (some n) seen any (mid ++ .tryBegin t' :: post) → ∃ id, .tryEnd id ∈ mid := by
    intro mid
    induction mid with
    | nil => intro n seen any t' post h; cases h.1
    | cons e r ih =>
      intro n seen any t' post h
      cases e with
      | tryBegin u => cases h.1
      | tryEnd u => exact ⟨u, by simp⟩
      | instr u => obtain ⟨id, hi⟩ := ih _ _ _ _ _ h; exact ⟨id, by simp [hi]⟩
      | label u => obtain ⟨id, hi⟩ := ih _ _ _ _ _ h; exact ⟨id, by simp [hi]⟩
      | setLineno u => obtain ⟨id, hi⟩ := ih _ _ _ _ _ h; exact ⟨id, by simp [hi]⟩
  induction pre with
  | nil => intro o seen any t t' mid post h; exact key _ _ _ _ _ _ h.2.2
  | cons e r ih =>
    intro o seen any t t' mid post h
    cases e with
    | tryBegin u => exact ih h.2.2
    | tryEnd u => exact ih h.2.2
    | instr u => exact ih h
    | label u => exact ih h
    | setLineno u => exact ih h

/-- A TryEnd comes after its TryBegin. -/
theorem wellTried_ends {pre : List BElem} : ∀ {o : Option Nat} {seen : List Nat} {any : Bool} {id : Nat} {post : List BElem},
    WellTried o seen any (pre ++ .tryEnd id :: post) → o = some id ∨ ∃ t, .tryBegin t ∈ pre ∧ t.id = id := by
  induction pre with
  | nil => intro o seen any id post h; exact .inl h.1
  | cons e r ih =>
    intro o seen any id post h
    cases e with
    | tryBegin u =>
      rcases ih h.2.2 with e | ⟨t, ht, he⟩
      · exact .inr ⟨u, by simp, Option.some.inj e⟩
      · exact .inr ⟨t, by simp [ht], he⟩
    | tryEnd u =>
      rcases ih h.2.2 with e | ⟨t, ht, he⟩
      · cases e
      · exact .inr ⟨t, by simp [ht], he⟩
    | instr u => rcases ih h with e | ⟨t, ht, he⟩; exact .inl e; exact .inr ⟨t, by simp [ht], he⟩
    | label u => rcases ih h with e | ⟨t, ht, he⟩; exact .inl e; exact .inr ⟨t, by simp [ht], he⟩
    | setLineno u => rcases ih h with e | ⟨t, ht, he⟩; exact .inl e; exact .inr ⟨t, by simp [ht], he⟩

/-- Some instruction comes after a TryBegin. -/
theorem noEmpty_after {pre : List BElem} : ∀ {o : Option Nat} {seen : List Nat} {any : Bool} {e : Bool} {t : TryB} {post : List BElem},
    WellTried o seen any (pre ++ .tryBegin t :: post) → NoEmptyTry e (pre ++ .tryBegin t :: post) → ∃ i, .instr i ∈ post := by
  have key : ∀ (post : List BElem) (n : Nat) (seen : List Nat) (any : Bool), WellTried (some n) seen any post → NoEmptyTry true post →
      ∃ i, .instr i ∈ post := by
    intro post
    induction post with
    | nil => intro n seen any h; cases h
    | cons e r ih =>
      intro n seen any h h'
      cases e with
      | tryBegin u => cases h.1
      | tryEnd u => cases h'.1
      | instr u => exact ⟨u, by simp⟩
      | label u => obtain ⟨i, hi⟩ := ih _ _ _ h h'; exact ⟨i, by simp [hi]⟩
      | setLineno u => obtain ⟨i, hi⟩ := ih _ _ _ h h'; exact ⟨i, by simp [hi]⟩
  induction pre with
  | nil => intro o seen any e t post h h'; exact key _ _ _ _ h.2.2 h'
  | cons e r ih =>
    intro o seen any e' t post h h'
    cases e with
    | tryBegin u => exact ih h.2.2 h'
    | tryEnd u => exact ih h.2.2 h'.2
    | instr u => exact ih h h'
    | label u => exact ih h h'
    | setLineno u => exact ih h h'

section
variable {P : Platform} {b b' : Bytecode}

theorem assemblable_same (hl : LabelsOnly b) (hc : codeB b' = codeB b) (ha : b'.attrs = b.attrs)
    (hlost : ∀ m o loc, CodeItem.op m o .lost loc ∉ codeB b) (hw : WellTried none [] false b'.elems) (he : NoEmptyTry false b'.elems)
    (ht : ∀ t, .tryBegin t ∈ b'.elems → t.depth ≠ none ∧ .label t.target ∈ b'.elems) (h : Assemblable P b) : Assemblable P b' := by
  have hjr := jumpRules_of h
  rw [← hc] at hjr
  have hjr' : ∀ pre i post, b'.elems = pre ++ .instr i :: post → P.hasJump i.opcode = true → ∃ l t, i.arg = .label l ∧
      labelAt l b'.elems = some t ∧ (isForwardRelJump P i.name i.opcode = true → instrCount pre < t) ∧
      (isBackwardRelJump P i.name i.opcode = true → t ≤ instrCount pre + 1) := by
    intro pre i post e hj
    obtain ⟨t, h1, h2, h3⟩ := hjr _ _ _ _ (ranked_mem.2 ⟨pre, i, post, e, rfl⟩) hj
    rw [Nat.zero_add] at h2 h3
    cases hia : i.arg with
    | label l =>
      rw [hia] at h1
      simp only [argRef] at h1
      cases hll : labelAt l b'.elems with
      | none => rw [hll] at h1; cases h1
      | some x =>
        rw [hll] at h1
        simp only [ArgRef.target.injEq] at h1
        subst h1
        exact ⟨l, x, rfl, hll, h2, h3⟩
    | _ => rw [hia] at h1; cases h1
  have hdir : ∀ i, .instr i ∈ b'.elems → isForwardRelJump P i.name i.opcode = true ∨ isBackwardRelJump P i.name i.opcode = true →
      P.hasJump i.opcode = true := by
    intro i _ hd
    rcases hd with hd | hd
    · unfold isForwardRelJump at hd; simp only [Platform.hasJump, Platform.HASJREL, Bool.and_eq_true] at hd ⊢; simp [hd.1]
    · unfold isBackwardRelJump at hd; simp only [Platform.hasJump, Platform.HASJREL, Bool.and_eq_true] at hd ⊢; simp [hd.1]
  refine ⟨by rw [ha]; exact h.line, ?_, ?_, ?_, ?_, ?_, ?_, ?_, ?_, ?_⟩
  · intro pre t mid t' post e
    rw [e] at hw
    exact wellTried_nested hw
  · intro pre t post e
    obtain ⟨h1, h2⟩ := ht t (by rw [e]; simp)
    rw [e] at hw he
    exact ⟨h1, h2, noEmpty_after hw he⟩
  · intro pre id post e
    rw [e] at hw
    rcases wellTried_ends hw with e | h
    · cases e
    · exact h
  · intro i hi hj
    obtain ⟨pre, post, e⟩ := List.append_of_mem hi
    obtain ⟨l, t, h1, h2, _⟩ := hjr' pre i post e hj
    exact ⟨l, h1, labelAt_mem h2⟩
  · intro pre i post l e hil hf
    obtain ⟨l', t, h1, h2, h3, _⟩ := hjr' pre i post e (hdir i (by rw [e]; simp) (.inl hf))
    rw [hil, Arg.label.injEq] at h1
    subst h1
    rw [e] at h2
    exact (labelAt_split h2).2 (h3 hf)
  · intro pre i mid l post e hil hf
    have e' : b'.elems = pre ++ .instr i :: (mid ++ .label l :: post) := by rw [e]; simp
    obtain ⟨l', t, h1, h2, _, h3⟩ := hjr' pre i _ e' (hdir i (by rw [e]; simp) (.inr hf))
    rw [hil, Arg.label.injEq] at h1
    subst h1
    rw [e'] at h2
    exact (labelAt_near h2).1 (h3 hf) mid post rfl
  · intro i n hi hk hn
    obtain ⟨j, hj, h1, h2, h3, h4, _⟩ := item_instr hl hc hlost hi
    rw [ha]
    refine h.cells j n hj (by rw [h2]; exact hk) ?_
    rcases h4 with h4 | ⟨⟨l, h4⟩, _⟩
    · rw [h4]; exact hn
    · rw [hn] at h4; cases h4
  · intro i n hi hk hn
    obtain ⟨j, hj, h1, h2, h3, h4, _⟩ := item_instr hl hc hlost hi
    rw [ha]
    refine h.frees j n hj (by rw [h2]; exact hk) ?_
    rcases h4 with h4 | ⟨⟨l, h4⟩, _⟩
    · rw [h4]; exact hn
    · rw [hn] at h4; cases h4
  · intro i hi hd
    obtain ⟨j, hj, h1, h2, h3, h4, _⟩ := item_instr hl hc hlost hi
    obtain ⟨x, y, hxy⟩ := h.duals j hj (by rw [h2]; exact hd)
    rcases h4 with h4 | ⟨_, l, h4⟩
    · exact ⟨x, y, by rw [← h4]; exact hxy⟩
    · rw [hxy] at h4; cases h4

/-- Room of a line of the resolved code. -/
def roomItem (P : Platform) : CodeItem → Nat
  | .op _ o _ _ => 2 + P.cacheEntries o
  | .line _ => 0

theorem room_items (P : Platform) (f g : Nat → Option Nat) (es : List BElem) : (es.map (room P)).sum = ((resolved f g es).map (roomItem P)).sum := by
  induction es with
  | nil => rfl
  | cons e r ih =>
    rw [List.map_cons, List.sum_cons, ih]
    cases e with
    | instr i => show _ = ((_ :: resolved f g r).map _).sum; rw [List.map_cons, List.sum_cons]; rfl
    | setLineno i => show _ = ((_ :: resolved f g r).map _).sum; rw [List.map_cons, List.sum_cons]; rfl
    | _ => show 0 + _ = ((resolved f g r).map _).sum; rw [Nat.zero_add]

def jumpItem : CodeItem → Bool
  | .op _ _ (.target _) _ => true
  | .op _ _ .lost _ => true
  | _ => false

theorem wellMade_same (hl : LabelsOnly b) (hc : codeB b' = codeB b) (ha : b'.attrs = b.attrs) (hn : b'.argnames = b.argnames)
    (hlost : ∀ m o loc, CodeItem.op m o .lost loc ∉ codeB b) (hw : WellTried none [] false b'.elems) (h : WellMade P b) : WellMade P b' := by
  have hv := valid_same hl hc hlost (fun i hi => (h.valid i hi).1)
  refine ⟨fun i hi => ⟨hv i hi, ?_⟩, ?_, ?_, ?_, ?_⟩
  · obtain ⟨j, hj, h1, _⟩ := item_instr hl hc hlost hi
    rw [← h1]; exact (h.valid j hj).2
  · intro i v hi hk hx
    obtain ⟨j, hj, h1, h2, h3, h4, _⟩ := item_instr hl hc hlost hi
    rcases h4 with h4 | ⟨⟨l, h4⟩, _⟩
    · exact h.compare j v hj (by rw [h2]; exact hk) (by rw [h4]; exact hx)
    · rw [hx] at h4; cases h4
  · intro i v hi hop hx
    obtain ⟨j, hj, h1, h2, h3, h4, _⟩ := item_instr hl hc hlost hi
    rcases h4 with h4 | ⟨⟨l, h4⟩, _⟩
    · exact h.intrinsic j v hj (by rw [h2]; exact hop) (by rw [h4]; exact hx)
    · rcases hx with hx | hx <;> rw [hx] at h4 <;> cases h4
  · intro t t' ht ht' hid
    exact wellTried_count hw ht ht' hid
  · have := h.size
    rw [room_items P (fun l => labelAt l b'.elems) (fun _ => none), ha, hn]
    rw [room_items P (fun l => labelAt l b.elems) (fun _ => none)] at this
    show 8 * ((codeB b').map _).sum + _ + _ + _ ≤ _
    rw [hc]; exact this

theorem jumpCount_items (hl : LabelsOnly b) : jumpCount b.elems = (codeB b).countP jumpItem := by
  have : ∀ es : List BElem, (∀ i, BElem.instr i ∈ es → ∀ x, i.arg ≠ .block x) → ∀ f : Nat → Option Nat,
      jumpCount es = (resolved f (fun _ => none) es).countP jumpItem := by
    intro es
    induction es with
    | nil => intro _ f; rfl
    | cons e r ih =>
      intro hb f
      have ih := ih (fun i hi => hb i (by simp [hi])) f
      cases e with
      | instr i =>
        have hbi := hb i (by simp)
        show _ = (_ :: resolved f (fun _ => none) r).countP jumpItem
        rw [List.countP_cons, ← ih]
        unfold jumpCount
        rw [List.countP_cons]
        congr 1
        cases hia : i.arg with
        | block x => exact absurd hia (hbi x)
        | label l =>
          cases hf : f l <;> simp [BElem.jumps, argRef, hia, hf, jumpItem]
        | _ => simp [BElem.jumps, argRef, jumpItem, hia]
      | setLineno n =>
        show _ = (_ :: resolved f (fun _ => none) r).countP jumpItem
        rw [List.countP_cons, ← ih]
        simp [jumpCount, BElem.jumps, jumpItem]
      | _ =>
        show _ = (resolved f (fun _ => none) r).countP jumpItem
        rw [← ih]
        simp [jumpCount, BElem.jumps]
  exact this b.elems hl _

end
end Verif
