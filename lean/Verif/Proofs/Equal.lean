import Verif.Spec.Equal
import Verif.Proofs.CFG
/- Proofs for C37. -/
namespace Verif
open Spec

theorem atomEq_iff {a b : Atom} : (a = b ∨ ∃ v, atomInt a = some v ∧ atomInt b = some v) ↔ a.pyNorm = b.pyNorm := by
  rcases a with (_|_)|_|_|_|_|_ <;> rcases b with (_|_)|_|_|_|_|_ <;> simp [atomInt, Atom.pyNorm] <;> grind

theorem tupleEq_iff (l : List Atom) : ∀ m, List.Forall₂ (fun a b => a = b ∨ ∃ v, atomInt a = some v ∧ atomInt b = some v) l m ↔
    l.map Atom.pyNorm = m.map Atom.pyNorm := by
  induction l with
  | nil => intro m; cases m <;> simp
  | cons a l ih =>
    intro m
    cases m with
    | nil => simp
    | cons b m =>
      rw [List.forall₂_cons, ih, atomEq_iff]
      simp

/-- Python's equality, against the normal forms the model compares. -/
theorem pyEq_iff {x y : Arg} : PyEq x y ↔ x.pyNorm = y.pyNorm := by
  unfold PyEq
  rcases x with _|_|(_|_)|_|_|_|_|_|_|_|_|_|_ <;> rcases y with _|_|(_|_)|_|_|_|_|_|_|_|_|_|_ <;> simp [intOf, Arg.pyNorm, tupleEq_iff] <;> grind

variable {κ : Type}

/-- place of the last occurrence, `off` places before the list -/
def lastPl (l off : Nat) : List BElem → Option Nat
  | [] => none
  | .label l' :: r => (lastPl l off r).or (if l' = l then some off else none)
  | .instr _ :: r => lastPl l (off + 1) r
  | .setLineno _ :: r => lastPl l (off + 1) r
  | _ :: r => lastPl l off r

theorem places_cons (e : BElem) (r : List BElem) :
    places (e :: r) = places r + (match e with | .instr _ => 1 | .setLineno _ => 1 | _ => 0) := by
  cases e <;> simp [places]

theorem lastPl_none (l off : Nat) (es : List BElem) : lastPl l off es = none ↔ .label l ∉ es := by
  induction es generalizing off with
  | nil => simp [lastPl]
  | cons e r ih =>
    cases e with
    | label l' =>
      by_cases h : l' = l
      · simp [lastPl, h]
      · have h' : ¬ l = l' := fun x => h x.symm
        simp [lastPl, ih, h, h']
    | _ => simp [lastPl, ih]

theorem lastPl_shift (l off : Nat) (es : List BElem) (n : Nat) :
    lastPl l off es = some n ↔ ∃ pre post, es = pre ++ .label l :: post ∧ .label l ∉ post ∧ n = off + places pre := by
  induction es generalizing off with
  | nil => simp [lastPl]
  | cons e r ih =>
    have key : (∃ pre post, e :: r = pre ++ .label l :: post ∧ .label l ∉ post ∧ n = off + places pre) ↔
        (e = .label l ∧ .label l ∉ r ∧ n = off) ∨
        (∃ pre post, r = pre ++ .label l :: post ∧ .label l ∉ post ∧ n = off + places (e :: pre)) := by
      constructor
      · rintro ⟨pre, post, h1, h2, h3⟩
        cases pre with
        | nil =>
          simp only [List.nil_append, List.cons.injEq] at h1
          exact .inl ⟨h1.1, h1.2 ▸ h2, by simpa [places] using h3⟩
        | cons p pre =>
          simp only [List.cons_append, List.cons.injEq] at h1
          exact .inr ⟨pre, post, h1.2, h2, h1.1 ▸ h3⟩
      · rintro (⟨rfl, h2, h3⟩ | ⟨pre, post, h1, h2, h3⟩)
        · exact ⟨[], r, rfl, h2, by simpa [places] using h3⟩
        · exact ⟨e :: pre, post, by rw [h1]; rfl, h2, h3⟩
    rw [key]
    cases e with
    | label l' =>
      simp only [lastPl]
      cases hr : lastPl l off r with
      | none =>
        have hn := (lastPl_none l off r).1 hr
        simp only [Option.none_or]
        constructor
        · intro h
          split at h
          · rename_i he; subst he; exact .inl ⟨rfl, hn, by simpa using h.symm⟩
          · cases h
        · rintro (⟨h1, _, h3⟩ | ⟨pre, post, h1, _⟩)
          · cases h1; simp [h3]
          · exact absurd (h1 ▸ by simp) hn
      | some m =>
        simp only [Option.some_or]
        have hm : .label l ∈ r := by
          refine Classical.byContradiction fun h => ?_
          rw [(lastPl_none l off r).2 h] at hr; cases hr
        rw [← hr, ih]
        simp only [places_cons, Nat.add_zero]
        constructor
        · exact .inr
        · rintro (⟨_, h, _⟩ | h)
          · exact absurd hm h
          · exact h
    | instr i =>
      simp only [lastPl, ih, places_cons, reduceCtorEq, false_and, false_or]
      constructor <;> rintro ⟨p, q, h1, h2, h3⟩ <;> exact ⟨p, q, h1, h2, by omega⟩
    | setLineno i =>
      simp only [lastPl, ih, places_cons, reduceCtorEq, false_and, false_or]
      constructor <;> rintro ⟨p, q, h1, h2, h3⟩ <;> exact ⟨p, q, h1, h2, by omega⟩
    | tryBegin i => simp only [lastPl, ih, places_cons, reduceCtorEq, false_and, false_or, Nat.add_zero]
    | tryEnd i => simp only [lastPl, ih, places_cons, reduceCtorEq, false_and, false_or, Nat.add_zero]

theorem lastPl_lands (l n : Nat) (es : List BElem) : lastPl l 0 es = some n ↔ LandsAt es l n := by
  rw [lastPl_shift]; simp [LandsAt]

/-- the flat item of an element, labels not resolved -/
def itemOf (P : Platform) (key : Arg → κ) (index : Nat) (tries : List Nat) : BElem → FlatItem κ
  | .label _ => .label index
  | .tryBegin t => .tryBegin ((setDefault tries t.id).idxOf t.id) t.target t.lasti
  | .tryEnd id => .tryEnd (tries.idxOf id)
  | .setLineno n => .setLineno n
  | .instr i => match i.arg with
    | .label l => .jump i.loc i.name l
    | _ => .instr (i.cmpKey P key)

def triesOf (tries : List Nat) : BElem → List Nat
  | .tryBegin t => setDefault tries t.id
  | _ => tries

def placeStep : BElem → Nat
  | .instr _ => 1 | .setLineno _ => 1 | _ => 0

def labelStep (labels : Nat → Option Nat) (off : Nat) : BElem → (Nat → Option Nat)
  | .label l => upd labels l (some off)
  | _ => labels

def seenStep (seen : Bool) : BElem → Bool
  | .tryBegin _ => true
  | .tryEnd _ => false
  | _ => seen

theorem flatLoop_cons {P : Platform} {key : Arg → κ} {seen : Bool} {index offset : Nat} {labels : Nat → Option Nat}
    {tries : List Nat} {e : BElem} {r : List BElem} {q : List (FlatItem κ) × (Nat → Option Nat)}
    (h : flatLoop P key seen index offset labels tries (e :: r) = .ok q) :
    ∃ ir, q.1 = itemOf P key index tries e :: ir ∧
      flatLoop P key (seenStep seen e) (index + 1) (offset + placeStep e) (labelStep labels offset e) (triesOf tries e) r = .ok (ir, q.2) ∧
      (∀ id, e = .tryEnd id → id ∈ tries) ∧ (∀ t, e = .tryBegin t → seen = false) := by
  cases e with
  | label l =>
    unfold flatLoop at h
    obtain ⟨p, h1, h2⟩ := except_bind_ok h
    cases h2
    exact ⟨p.1, rfl, h1, by simp, by simp⟩
  | setLineno l =>
    unfold flatLoop at h
    obtain ⟨p, h1, h2⟩ := except_bind_ok h
    cases h2
    exact ⟨p.1, rfl, h1, by simp, by simp⟩
  | tryBegin t =>
    unfold flatLoop at h
    split at h
    · cases h
    · rename_i hs
      obtain ⟨p, h1, h2⟩ := except_bind_ok h
      cases h2
      exact ⟨p.1, rfl, h1, by simp, fun _ _ => by simpa using hs⟩
  | tryEnd id =>
    unfold flatLoop at h
    split at h
    · rename_i hm
      obtain ⟨p, h1, h2⟩ := except_bind_ok h
      cases h2
      exact ⟨p.1, rfl, h1, fun _ he => by cases he; exact hm, by simp⟩
    · cases h
  | instr i =>
    unfold flatLoop at h
    obtain ⟨p, h1, h2⟩ := except_bind_ok h
    refine ⟨p.1, ?_, ?_, by simp, by simp⟩
    · simp only [itemOf]
      split at h2
      · rename_i he; cases h2; simp [he]
      · rename_i hne; cases h2
        simp only
    · split at h2 <;> (cases h2; exact h1)

theorem flatLoop_labels {P : Platform} {key : Arg → κ} (es : List BElem) {seen : Bool} {index offset : Nat} {labels : Nat → Option Nat}
    {tries : List Nat} {q : List (FlatItem κ) × (Nat → Option Nat)}
    (h : flatLoop P key seen index offset labels tries es = .ok q) (l : Nat) : q.2 l = (lastPl l offset es).or (labels l) := by
  induction es generalizing seen index offset labels tries q with
  | nil => cases h; simp [lastPl]
  | cons e r ih =>
    obtain ⟨ir, _, h2, _⟩ := flatLoop_cons h
    have := ih h2
    simp only at this
    rw [this]
    cases e with
    | label l' =>
      simp only [lastPl, labelStep, placeStep, Nat.add_zero, upd]
      cases lastPl l offset r with
      | some _ => simp
      | none =>
        by_cases h : l' = l
        · simp [h]
        · have h' : ¬ l = l' := fun x => h x.symm
          simp [h, h']
    | _ => simp [lastPl, labelStep, placeStep]

theorem flatAll_cons {labels : Nat → Option Nat} {x : FlatItem κ} {r ys : List (FlatItem κ)} (h : flatAll labels (x :: r) = .ok ys) :
    ∃ y zs, ys = y :: zs ∧ flatResolve labels x = .ok y ∧ flatAll labels r = .ok zs := by
  unfold flatAll at h
  obtain ⟨y, h1, h⟩ := except_bind_ok h
  obtain ⟨zs, h2, h⟩ := except_bind_ok h
  cases h
  exact ⟨y, zs, rfl, h1, h2⟩

/-- correspondence in terms of resolved labels -/
def Corr (P : Platform) (key : Arg → κ) (la lb : Nat → Option Nat) : BElem → BElem → Prop
  | .label _, .label _ => True
  | .setLineno n, .setLineno m => n = m
  | .instr i, .instr j => i.name = j.name ∧ i.loc = j.loc ∧
      ((∃ l m n, i.arg = .label l ∧ j.arg = .label m ∧ la l = some n ∧ lb m = some n) ∨
       (¬ isLabelArg i.arg ∧ ¬ isLabelArg j.arg ∧ EqArg P key i.opcode i.arg j.arg))
  | .tryBegin t, .tryBegin u => t.lasti = u.lasti ∧ ∃ n, la t.target = some n ∧ lb u.target = some n
  | .tryEnd _, .tryEnd _ => True
  | _, _ => False

def NamesOK (P : Platform) (es : List BElem) : Prop := ∀ i, .instr i ∈ es → P.opmap i.name = some i.opcode

def markPair (x y : BElem) : List (Nat × Nat) :=
  match markerOf x, markerOf y with
  | some s, some t => [(s, t)]
  | _, _ => []

def markPairs : List BElem → List BElem → List (Nat × Nat)
  | x :: a, y :: b => markPair x y ++ markPairs a b
  | _, _ => []

/-- same equality pattern on both sides -/
def Biject (R : List (Nat × Nat)) : Prop := ∀ p ∈ R, ∀ q ∈ R, (p.1 = q.1 ↔ p.2 = q.2)

theorem Biject.sub {R S : List (Nat × Nat)} (h : Biject R) (hs : ∀ p ∈ S, p ∈ R) : Biject S :=
  fun p hp q hq => h p (hs p hp) q (hs q hq)

theorem Biject.congr {R S : List (Nat × Nat)} (hs : ∀ p, p ∈ S ↔ p ∈ R) : Biject R ↔ Biject S :=
  ⟨fun h => h.sub fun p hp => (hs p).1 hp, fun h => h.sub fun p hp => (hs p).2 hp⟩

theorem resolve_notlabel {labels : Nat → Option Nat} {i : Instr} {P : Platform} {key : Arg → κ} {y : FlatItem κ} {idx : Nat} {tries : List Nat}
    (hn : ¬ isLabelArg i.arg) (h : flatResolve labels (itemOf P key idx tries (.instr i)) = .ok y) : y = .instr (i.cmpKey P key) := by
  simp only [itemOf] at h
  split at h
  · rename_i l he; exact absurd ⟨l, he⟩ hn
  · simp only [flatResolve] at h; cases h; rfl

theorem resolve_label {labels : Nat → Option Nat} {i : Instr} {P : Platform} {key : Arg → κ} {y : FlatItem κ} {idx : Nat} {tries : List Nat} {l : Nat}
    (hn : i.arg = .label l) (h : flatResolve labels (itemOf P key idx tries (.instr i)) = .ok y) :
    ∃ n, labels l = some n ∧ y = .jump i.loc i.name n := by
  unfold itemOf at h
  simp only [hn] at h
  unfold flatResolve at h
  simp only at h
  cases hl : labels l with
  | none => rw [hl] at h; cases h
  | some n => rw [hl] at h; cases h; exact ⟨n, rfl, rfl⟩

theorem resolve_try {labels : Nat → Option Nat} {t : TryB} {P : Platform} {key : Arg → κ} {y : FlatItem κ} {idx : Nat} {tries : List Nat}
    (h : flatResolve labels (itemOf P key idx tries (.tryBegin t)) = .ok y) :
    ∃ n, labels t.target = some n ∧ y = .tryBegin ((setDefault tries t.id).idxOf t.id) n t.lasti := by
  unfold itemOf at h
  unfold flatResolve at h
  simp only at h
  cases hl : labels t.target with
  | none => rw [hl] at h; cases h
  | some n => rw [hl] at h; cases h; exact ⟨n, rfl, rfl⟩

theorem instr_item {P : Platform} {key : Arg → κ} {la lb : Nat → Option Nat} {i j : Instr} {idx : Nat} {ta tb : List Nat} {ya yb : FlatItem κ}
    (hi : P.opmap i.name = some i.opcode) (hj : P.opmap j.name = some j.opcode)
    (h1 : flatResolve la (itemOf P key idx ta (.instr i)) = .ok ya) (h2 : flatResolve lb (itemOf P key idx tb (.instr j)) = .ok yb) :
    ya = yb ↔ Corr P key la lb (.instr i) (.instr j) := by
  simp only [Corr]
  by_cases hli : isLabelArg i.arg
  · obtain ⟨l, hl⟩ := hli
    obtain ⟨n, hn, rfl⟩ := resolve_label hl h1
    by_cases hlj : isLabelArg j.arg
    · obtain ⟨m, hm⟩ := hlj
      obtain ⟨n', hn', rfl⟩ := resolve_label hm h2
      simp only [FlatItem.jump.injEq, hl, hm, Arg.label.injEq]
      constructor
      · rintro ⟨a, b, c⟩
        exact ⟨b, a, .inl ⟨l, m, n, rfl, rfl, hn, c ▸ hn'⟩⟩
      · rintro ⟨a, b, ⟨_, _, k, rfl, rfl, c, d⟩ | ⟨c, _⟩⟩
        · rw [hn] at c; rw [hn'] at d; cases c; cases d; exact ⟨b, a, rfl⟩
        · exact absurd ⟨_, rfl⟩ c
    · have := resolve_notlabel hlj h2
      subst this
      constructor
      · intro h; cases h
      · rintro ⟨a, b, ⟨_, m, _, _, c, _⟩ | ⟨c, _⟩⟩
        · exact absurd ⟨m, c⟩ hlj
        · exact absurd ⟨_, hl⟩ c
  · have := resolve_notlabel hli h1
    subst this
    by_cases hlj : isLabelArg j.arg
    · obtain ⟨m, hm⟩ := hlj
      obtain ⟨n', hn', rfl⟩ := resolve_label hm h2
      constructor
      · intro h; cases h
      · rintro ⟨a, b, ⟨l, _, _, c, _, _⟩ | ⟨_, c, _⟩⟩
        · exact absurd ⟨l, c⟩ hli
        · exact absurd ⟨_, hm⟩ c
    · have := resolve_notlabel hlj h2
      subst this
      simp only [FlatItem.instr.injEq, Instr.cmpKey, Prod.mk.injEq, EqArg]
      constructor
      · rintro ⟨a, b, c⟩
        refine ⟨b, a, .inr ⟨hli, hlj, ?_⟩⟩
        have ho : i.opcode = j.opcode := by rw [b, hj] at hi; exact (Option.some.inj hi).symm
        rw [← ho] at c
        split at c
        · rename_i hc; rw [if_pos hc]; exact Sum.inr.inj c
        · rename_i hc; rw [if_neg hc]; exact pyEq_iff.2 (Sum.inl.inj c)
      · rintro ⟨b, a, ⟨l, _, _, c, _⟩ | ⟨_, _, c⟩⟩
        · exact absurd ⟨l, c⟩ hli
        · have ho : i.opcode = j.opcode := by rw [b, hj] at hi; exact (Option.some.inj hi).symm
          refine ⟨a, b, ?_⟩
          rw [← ho]
          split at c
          · rename_i hc; rw [if_pos hc, if_pos hc, c]
          · rename_i hc; rw [if_neg hc, if_neg hc, pyEq_iff.1 c]

theorem idxOf_ne (u x : Nat) (l : List Nat) (h : u ≠ x) : (u :: l).idxOf x = l.idxOf x + 1 := by
  have hb : (u == x) = false := beq_false_of_ne h
  rw [List.idxOf_cons, hb]; rfl

theorem nodup_inj {α : Type} {f : α → Nat} {R : List α} (h : (R.map f).Nodup) : ∀ p ∈ R, ∀ q ∈ R, f p = f q → p = q := by
  induction R with
  | nil => simp
  | cons r R ih =>
    simp only [List.map_cons, List.nodup_cons] at h
    intro p hp q hq he
    rcases List.mem_cons.1 hp with rfl | hp' <;> rcases List.mem_cons.1 hq with rfl | hq'
    · rfl
    · exact absurd (List.mem_map.2 ⟨q, hq', he.symm⟩) h.1
    · exact absurd (List.mem_map.2 ⟨p, hp', he⟩) h.1
    · exact ih h.2 p hp' q hq' he

/-- two ordinals in the columns of a relation -/
theorem idx_pair {R : List (Nat × Nat)} (ha : (R.map (·.1)).Nodup) (hb : (R.map (·.2)).Nodup) {x y : Nat}
    (hx : x ∈ R.map (·.1)) (hy : y ∈ R.map (·.2)) : (R.map (·.1)).idxOf x = (R.map (·.2)).idxOf y ↔ (x, y) ∈ R := by
  induction R with
  | nil => simp at hx
  | cons p R ih =>
    obtain ⟨u, v⟩ := p
    simp only [List.map_cons, List.nodup_cons] at ha hb
    simp only [List.map_cons, List.mem_cons] at hx hy ⊢
    by_cases hxu : u = x
    · subst hxu
      by_cases hyv : v = y
      · subst hyv; simp
      · rw [List.idxOf_cons_self, idxOf_ne _ _ _ hyv]
        constructor
        · intro h; omega
        · rintro (h | h)
          · cases h; exact absurd rfl hyv
          · exact absurd (List.mem_map.2 ⟨_, h, rfl⟩) ha.1
    · rw [idxOf_ne _ _ _ hxu]
      by_cases hyv : v = y
      · subst hyv
        rw [List.idxOf_cons_self]
        constructor
        · intro h; omega
        · rintro (h | h)
          · cases h; exact absurd rfl hxu
          · exact absurd (List.mem_map.2 ⟨_, h, rfl⟩) hb.1
      · rw [idxOf_ne _ _ _ hyv]
        have := ih ha.2 hb.2 (hx.resolve_left (fun h => hxu h.symm)) (hy.resolve_left (fun h => hyv h.symm))
        simp only [Nat.add_right_cancel_iff, this, Prod.mk.injEq]
        constructor
        · exact .inr
        · rintro (h | h)
          · exact absurd h.1.symm hxu
          · exact h

theorem biject_of_nodup {R : List (Nat × Nat)} (ha : (R.map (·.1)).Nodup) (hb : (R.map (·.2)).Nodup) : Biject R := by
  intro p hp q hq
  exact ⟨fun h => by rw [nodup_inj ha p hp q hq h], fun h => by rw [nodup_inj hb p hp q hq h]⟩

theorem setDefault_pair {R : List (Nat × Nat)} (ha : (R.map (·.1)).Nodup) (hb : (R.map (·.2)).Nodup) (x y : Nat) :
    (setDefault (R.map (·.1)) x).idxOf x = (setDefault (R.map (·.2)) y).idxOf y ↔ Biject (R ++ [(x, y)]) := by
  have hbi := biject_of_nodup ha hb
  have one : ∀ L : List Nat, ∀ z, z ∉ L → (L ++ [z]).idxOf z = L.length := by
    intro L z hz
    rw [List.idxOf_append]; simp [hz]
  unfold setDefault
  by_cases hx : x ∈ R.map (·.1)
  · rw [if_pos hx]
    have lx := List.idxOf_lt_length_of_mem hx
    by_cases hy : y ∈ R.map (·.2)
    · rw [if_pos hy, idx_pair ha hb hx hy]
      constructor
      · intro h
        exact hbi.sub fun p hp => by
          rcases List.mem_append.1 hp with hp | hp
          · exact hp
          · rw [List.mem_singleton.1 hp]; exact h
      · intro h
        obtain ⟨p, hp, rfl⟩ := List.mem_map.1 hx
        have := (h p (by simp [hp]) (p.1, y) (by simp)).1 rfl
        simp only at this
        rw [← this]; exact hp
    · rw [if_neg hy, one _ _ hy]
      constructor
      · intro h; simp only [List.length_map] at h lx; omega
      · intro h
        obtain ⟨p, hp, rfl⟩ := List.mem_map.1 hx
        have := (h p (by simp [hp]) (p.1, y) (by simp)).1 rfl
        exact absurd (List.mem_map.2 ⟨p, hp, this⟩) hy
  · rw [if_neg hx, one _ _ hx]
    by_cases hy : y ∈ R.map (·.2)
    · rw [if_pos hy]
      have ly := List.idxOf_lt_length_of_mem hy
      constructor
      · intro h; simp only [List.length_map] at h ly; omega
      · intro h
        obtain ⟨p, hp, rfl⟩ := List.mem_map.1 hy
        have := (h p (by simp [hp]) (x, p.2) (by simp)).2 rfl
        exact absurd (List.mem_map.2 ⟨p, hp, this⟩) hx
    · rw [if_neg hy, one _ _ hy]
      simp only [List.length_map, true_iff]
      refine biject_of_nodup ?_ ?_
      · rw [List.map_append, List.nodup_append]
        refine ⟨ha, by simp, ?_⟩
        rintro u hu v hv rfl
        simp only [List.map_cons, List.map_nil, List.mem_singleton] at hv
        exact hx (hv ▸ hu)
      · rw [List.map_append, List.nodup_append]
        refine ⟨hb, by simp, ?_⟩
        rintro u hu v hv rfl
        simp only [List.map_cons, List.map_nil, List.mem_singleton] at hv
        exact hy (hv ▸ hu)

/-- the relation after one pair of markers that agree -/
theorem setDefault_next {R : List (Nat × Nat)} (ha : (R.map (·.1)).Nodup) (hb : (R.map (·.2)).Nodup) (x y : Nat)
    (h : Biject (R ++ [(x, y)])) : ∃ R' : List (Nat × Nat), (R'.map (·.1)).Nodup ∧ (R'.map (·.2)).Nodup ∧ setDefault (R.map (·.1)) x = R'.map (·.1) ∧
      setDefault (R.map (·.2)) y = R'.map (·.2) ∧ ∀ p, p ∈ R' ↔ p ∈ R ++ [(x, y)] := by
  by_cases hm : (x, y) ∈ R
  · refine ⟨R, ha, hb, ?_, ?_, ?_⟩
    · unfold setDefault; rw [if_pos (List.mem_map.2 ⟨_, hm, rfl⟩)]
    · unfold setDefault; rw [if_pos (List.mem_map.2 ⟨_, hm, rfl⟩)]
    · intro p; simp only [List.mem_append, List.mem_singleton]
      exact ⟨.inl, fun hp => hp.elim id fun hp => hp ▸ hm⟩
  · have hx : x ∉ R.map (·.1) := by
      intro hx
      obtain ⟨p, hp, rfl⟩ := List.mem_map.1 hx
      have := (h p (by simp [hp]) (p.1, y) (by simp)).1 rfl
      exact hm (by rw [show y = p.2 from this.symm]; exact hp)
    have hy : y ∉ R.map (·.2) := by
      intro hy
      obtain ⟨p, hp, rfl⟩ := List.mem_map.1 hy
      have := (h p (by simp [hp]) (x, p.2) (by simp)).2 rfl
      exact hm (by rw [show x = p.1 from this.symm]; exact hp)
    refine ⟨R ++ [(x, y)], ?_, ?_, ?_, ?_, fun p => Iff.rfl⟩
    · rw [List.map_append, List.nodup_append]
      refine ⟨ha, by simp, ?_⟩
      rintro u hu v hv rfl
      simp only [List.map_cons, List.map_nil, List.mem_singleton] at hv
      exact hx (hv ▸ hu)
    · rw [List.map_append, List.nodup_append]
      refine ⟨hb, by simp, ?_⟩
      rintro u hu v hv rfl
      simp only [List.map_cons, List.map_nil, List.mem_singleton] at hv
      exact hy (hv ▸ hu)
    · unfold setDefault; rw [if_neg hx]; simp
    · unfold setDefault; rw [if_neg hy]; simp

/-- the elements of `_flat` before the labels are resolved -/
def items (P : Platform) (key : Arg → κ) (idx : Nat) (tries : List Nat) : List BElem → List (FlatItem κ)
  | [] => []
  | e :: r => itemOf P key idx tries e :: items P key (idx + 1) (triesOf tries e) r

/-- every TryEnd comes after its TryBegin -/
def Ended (tries : List Nat) : List BElem → Prop
  | [] => True
  | e :: r => (∀ id, e = .tryEnd id → id ∈ tries) ∧ Ended (triesOf tries e) r

theorem flatLoop_items {P : Platform} {key : Arg → κ} (es : List BElem) {seen : Bool} {index offset : Nat} {labels : Nat → Option Nat}
    {tries : List Nat} {q : List (FlatItem κ) × (Nat → Option Nat)} (h : flatLoop P key seen index offset labels tries es = .ok q) :
    q.1 = items P key index tries es ∧ Ended tries es := by
  induction es generalizing seen index offset labels tries q with
  | nil => cases h; exact ⟨rfl, trivial⟩
  | cons e r ih =>
    obtain ⟨ir, h1, h2, h3, _⟩ := flatLoop_cons h
    obtain ⟨i1, i2⟩ := ih h2
    exact ⟨by rw [h1, items, ← i1], h3, i2⟩

theorem items_core {P : Platform} {key : Arg → κ} (la lb : Nat → Option Nat) (a b : List BElem) (na : NamesOK P a) (nb : NamesOK P b)
    (idx : Nat) (R : List (Nat × Nat)) (ha : (R.map (·.1)).Nodup) (hb : (R.map (·.2)).Nodup)
    {fa fb : List (FlatItem κ)} (g1 : Ended (R.map (·.1)) a) (g2 : Ended (R.map (·.2)) b)
    (h3 : flatAll la (items P key idx (R.map (·.1)) a) = .ok fa) (h4 : flatAll lb (items P key idx (R.map (·.2)) b) = .ok fb) :
    fa = fb ↔ (List.Forall₂ (Corr P key la lb) a b ∧ Biject (R ++ markPairs a b)) := by
  induction a generalizing b idx R fa fb with
  | nil =>
    cases h3
    cases b with
    | nil =>
      cases h4
      simp [markPairs, biject_of_nodup ha hb]
    | cons y b =>
      obtain ⟨_, _, rfl, _⟩ := flatAll_cons h4
      exact ⟨fun h => (by cases h), fun h => (by cases h.1)⟩
  | cons x a ih =>
    obtain ⟨t1, g1⟩ := g1
    obtain ⟨xa, za, rfl, p1, q1⟩ := flatAll_cons h3
    cases b with
    | nil => cases h4; exact ⟨fun h => (by cases h), fun h => (by cases h.1)⟩
    | cons y b =>
      obtain ⟨t2, g2⟩ := g2
      obtain ⟨xb, zb, rfl, p2, q2⟩ := flatAll_cons h4
      have na' : NamesOK P a := fun i hi => na i (List.mem_cons_of_mem _ hi)
      have nb' : NamesOK P b := fun i hi => nb i (List.mem_cons_of_mem _ hi)
      rw [List.cons.injEq, List.forall₂_cons]
      -- elements that are not markers
      have plain : (xa = xb ↔ Corr P key la lb x y) → triesOf (R.map (·.1)) x = R.map (·.1) → triesOf (R.map (·.2)) y = R.map (·.2) →
          (Corr P key la lb x y → markPair x y = []) →
          ((xa = xb ∧ za = zb) ↔ ((Corr P key la lb x y ∧ List.Forall₂ (Corr P key la lb) a b) ∧ Biject (R ++ markPairs (x :: a) (y :: b)))) := by
        intro hc tx ty hm
        rw [tx] at g1 q1; rw [ty] at g2 q2
        have := ih b na' nb' (idx + 1) R ha hb g1 g2 q1 q2
        rw [hc, this]
        constructor
        · rintro ⟨c, d, e⟩
          exact ⟨⟨c, d⟩, by simp only [markPairs, hm c, List.nil_append]; exact e⟩
        · rintro ⟨⟨c, d⟩, e⟩
          refine ⟨c, d, ?_⟩
          simpa only [markPairs, hm c, List.nil_append] using e
      -- elements of different kinds
      have diff : xa ≠ xb → ¬ Corr P key la lb x y →
          ((xa = xb ∧ za = zb) ↔ ((Corr P key la lb x y ∧ List.Forall₂ (Corr P key la lb) a b) ∧ Biject (R ++ markPairs (x :: a) (y :: b)))) :=
        fun h h' => ⟨fun hh => absurd hh.1 h, fun hh => absurd hh.1.1 h'⟩
      -- markers
      have mark : ∀ s t, markerOf x = some s → markerOf y = some t → triesOf (R.map (·.1)) x = setDefault (R.map (·.1)) s →
          triesOf (R.map (·.2)) y = setDefault (R.map (·.2)) t →
          (xa = xb ↔ (Corr P key la lb x y ∧ (setDefault (R.map (·.1)) s).idxOf s = (setDefault (R.map (·.2)) t).idxOf t)) →
          ((xa = xb ∧ za = zb) ↔ ((Corr P key la lb x y ∧ List.Forall₂ (Corr P key la lb) a b) ∧ Biject (R ++ markPairs (x :: a) (y :: b)))) := by
        intro s t ms mt tx ty hc
        rw [tx] at g1 q1; rw [ty] at g2 q2
        have hmp : markPairs (x :: a) (y :: b) = (s, t) :: markPairs a b := by simp [markPairs, markPair, ms, mt]
        rw [hc, setDefault_pair ha hb, hmp]
        have next : ∀ hbj : Biject (R ++ [(s, t)]), za = zb ↔ List.Forall₂ (Corr P key la lb) a b ∧ Biject (R ++ (s, t) :: markPairs a b) := by
          intro hbj
          obtain ⟨R', r1, r2, r3, r4, r5⟩ := setDefault_next ha hb s t hbj
          rw [r3] at g1 q1; rw [r4] at g2 q2
          rw [ih b na' nb' (idx + 1) R' r1 r2 g1 g2 q1 q2]
          rw [Biject.congr (R := R' ++ markPairs a b) (S := R ++ (s, t) :: markPairs a b)]
          intro p
          simp only [List.mem_append, r5, List.mem_cons, List.mem_singleton, List.not_mem_nil, or_false]
          grind
        constructor
        · rintro ⟨⟨c, d⟩, e⟩
          have := (next d).1 e
          exact ⟨⟨c, this.1⟩, this.2⟩
        · rintro ⟨⟨c, d⟩, e⟩
          have hb' : Biject (R ++ [(s, t)]) := e.sub fun p hp => by
            simp only [List.mem_append, List.mem_cons, List.mem_singleton, List.not_mem_nil, or_false] at hp ⊢
            grind
          exact ⟨⟨c, hb'⟩, (next hb').2 ⟨d, e⟩⟩
      have kind : ∀ (lab : Nat → Option Nat) (tr : List Nat) (e : BElem) (w : FlatItem κ), flatResolve lab (itemOf P key idx tr e) = .ok w →
          match e with
          | .label _ => w = .label idx
          | .setLineno n => w = .setLineno n
          | .tryEnd id => w = .tryEnd (tr.idxOf id)
          | .tryBegin t => ∃ n, lab t.target = some n ∧ w = .tryBegin ((setDefault tr t.id).idxOf t.id) n t.lasti
          | .instr _ => (∃ k, w = .instr k) ∨ ∃ l n k, w = .jump l n k := by
        intro lab tr e w hw
        cases e with
        | label l => cases hw; rfl
        | setLineno l => cases hw; rfl
        | tryEnd l => cases hw; rfl
        | tryBegin t => exact resolve_try hw
        | instr i =>
          by_cases hl : isLabelArg i.arg
          · obtain ⟨l, hl⟩ := hl
            obtain ⟨n, _, h⟩ := resolve_label hl hw
            exact .inr ⟨_, _, _, h⟩
          · exact .inl ⟨_, resolve_notlabel hl hw⟩
      have k1 := kind _ _ _ _ p1
      have k2 := kind _ _ _ _ p2
      cases x with
      | label l =>
        cases y with
        | label m => exact plain (by rw [k1, k2]; simp [Corr]) rfl rfl (fun _ => rfl)
        | _ => exact diff (by simp only at k1 k2; grind) (by simp [Corr])
      | setLineno l =>
        cases y with
        | setLineno m => exact plain (by rw [k1, k2]; simp [Corr]) rfl rfl (fun _ => rfl)
        | _ => exact diff (by simp only at k1 k2; grind) (by simp [Corr])
      | instr i =>
        cases y with
        | instr j =>
          exact plain (instr_item (na i List.mem_cons_self) (nb j List.mem_cons_self) p1 p2) rfl rfl (fun _ => rfl)
        | _ => exact diff (by simp only at k1 k2; grind) (by simp [Corr])
      | tryEnd s =>
        cases y with
        | tryEnd t =>
          have ms := t1 s rfl
          have mt := t2 t rfl
          refine mark s t rfl rfl ?_ ?_ ?_
          · simp only [triesOf, setDefault]; rw [if_pos ms]
          · simp only [triesOf, setDefault]; rw [if_pos mt]
          · simp only at k1 k2
            rw [k1, k2]
            simp only [Corr, true_and, FlatItem.tryEnd.injEq, setDefault]
            rw [if_pos ms, if_pos mt]
        | _ => exact diff (by simp only at k1 k2; grind) (by simp [Corr])
      | tryBegin t =>
        cases y with
        | tryBegin u =>
          obtain ⟨n, hn, k1⟩ := k1
          obtain ⟨m, hm, k2⟩ := k2
          refine mark t.id u.id rfl rfl rfl rfl ?_
          rw [k1, k2]
          simp only [Corr, FlatItem.tryBegin.injEq, hn, hm]
          constructor
          · rintro ⟨c, d, e⟩; exact ⟨⟨e, n, rfl, d ▸ rfl⟩, c⟩
          · rintro ⟨⟨c, k, d, e⟩, f⟩; cases d; cases e; exact ⟨f, rfl, c⟩
        | _ => exact diff (by simp only at k1 k2; grind) (by simp [Corr])

theorem flat_core {P : Platform} {key : Arg → κ} (la lb : Nat → Option Nat) (a b : List BElem) (na : NamesOK P a) (nb : NamesOK P b)
    (idx : Nat) (R : List (Nat × Nat)) (ha : (R.map (·.1)).Nodup) (hb : (R.map (·.2)).Nodup)
    {sa sb : Bool} {oa ob : Nat} {l1 l2 : Nat → Option Nat} {ra rb : List (FlatItem κ) × (Nat → Option Nat)} {fa fb : List (FlatItem κ)}
    (h1 : flatLoop P key sa idx oa l1 (R.map (·.1)) a = .ok ra) (h2 : flatLoop P key sb idx ob l2 (R.map (·.2)) b = .ok rb)
    (h3 : flatAll la ra.1 = .ok fa) (h4 : flatAll lb rb.1 = .ok fb) :
    fa = fb ↔ (List.Forall₂ (Corr P key la lb) a b ∧ Biject (R ++ markPairs a b)) := by
  obtain ⟨e1, g1⟩ := flatLoop_items _ h1
  obtain ⟨e2, g2⟩ := flatLoop_items _ h2
  rw [e1] at h3
  rw [e2] at h4
  exact items_core la lb a b na nb idx R ha hb g1 g2 h3 h4

end Verif
