import Verif.Model.Legalize
import Verif.Spec.Legalize
import Verif.Spec.Location
import Verif.Proofs.Resolve
/-
Lemmas about `legalize`.
-/
namespace Verif
open Spec

variable {α : Type} [Lined α]

/-- The current line after an instruction. -/
def lgCur (set_ : Option Nat) (cur : Nat) (loc : Option Loc) : Nat :=
  match set_ with
  | some _ => cur
  | none => (loc.bind (·.lineno)).getD cur

/-- State of the loop after an element. -/
def lgStep (blk : Bool) (s : Option Nat × Nat) (e : α) : Option Nat × Nat :=
  match Lined.view e with
  | .setLineno n => (some n, if blk then n else s.2)
  | .other => s
  | .instr loc => (s.1, lgCur s.1 s.2 loc)

def lgAfter (blk : Bool) (s : Option Nat × Nat) (es : List α) : Option Nat × Nat := es.foldl (lgStep blk) s

def lgLoc (s : Option Nat × Nat) (loc : Option Loc) : Loc :=
  match s.1 with
  | some n => Loc.line (some n)
  | none => loc.getD (Loc.line (some s.2))

def lgElem (s : Option Nat × Nat) (e : α) : α :=
  match Lined.view e with
  | .instr loc => Lined.put e (some (lgLoc s loc))
  | _ => e

def lgKeep (e : α) : Bool := match Lined.view e with | .setLineno _ => false | _ => true

theorem setLineno_val {py311 : Bool} {loc : Option Loc} {n : Nat} {o : Option Loc}
    (h : setLineno py311 loc (.val (some (n : Int))) = .ok o) : o = some (Loc.line (some n)) := by
  unfold setLineno at h
  split at h
  · cases h
  · simp only at h
    unfold Loc.make at h
    simp only [checkLocation] at h
    have hn : ¬ ((n : Int) < 0) := by omega
    split at h
    · simp only [hn, if_false, bind, Except.bind, Except.map, pure, Except.pure, Option.isSome_none, Bool.or_self,
        Bool.false_eq_true] at h
      cases h; rfl
    · split at h
      · cases h
      · cases h; rfl

theorem legalizeInstr_ok {py311 : Bool} {set_ : Option Nat} {cur : Nat} {loc : Option Loc} {o : Option Loc} {c : Nat}
    (h : legalizeInstr py311 set_ cur loc = .ok (o, c)) :
    o = some (lgLoc (set_, cur) loc) ∧ c = lgCur set_ cur loc := by
  unfold legalizeInstr at h
  cases set_ with
  | some n =>
    simp only at h
    cases hs : setLineno py311 loc (.val (some (n : Int))) with
    | error e => rw [hs] at h; cases h
    | ok x =>
      rw [hs] at h
      simp only [Except.map, Except.ok.injEq, Prod.mk.injEq] at h
      rw [← h.1, ← h.2]
      exact ⟨setLineno_val hs, rfl⟩
  | none =>
    cases loc with
    | none =>
      simp only at h
      cases hs : setLineno py311 none (.val (some (cur : Int))) with
      | error e => rw [hs] at h; cases h
      | ok x =>
        rw [hs] at h
        simp only [Except.map, Except.ok.injEq, Prod.mk.injEq] at h
        rw [← h.1, ← h.2]
        exact ⟨setLineno_val hs, rfl⟩
    | some l =>
      simp only [Except.ok.injEq, Prod.mk.injEq] at h
      rw [← h.1, ← h.2]
      exact ⟨rfl, rfl⟩

/-- The loop computes, position by position, the element for the state reached. -/
theorem legalizeLoop_ok {py311 blk : Bool} {es : List α} : ∀ {set_ : Option Nat} {cur : Nat} {out : List α} {c : Nat},
    legalizeLoop py311 blk set_ cur es = .ok (out, c) →
    out.length = (es.filter lgKeep).length ∧ c = (lgAfter blk (set_, cur) es).2 ∧
    ∀ pre e post, es = pre ++ e :: post → lgKeep e = true →
      out[(pre.filter lgKeep).length]? = some (lgElem (lgAfter blk (set_, cur) pre) e) := by
  induction es with
  | nil =>
    intro set_ cur out c h
    simp only [legalizeLoop, Except.ok.injEq, Prod.mk.injEq] at h
    obtain ⟨rfl, rfl⟩ := h
    refine ⟨rfl, rfl, ?_⟩
    intro pre e post he
    simp at he
  | cons a r ih =>
    intro set_ cur out c h
    unfold legalizeLoop at h
    cases hv : Lined.view a with
    | setLineno n =>
      simp only [hv] at h
      have ⟨h1, h2, h3⟩ := ih h
      have hk : lgKeep a = false := by simp [lgKeep, hv]
      have hs : lgStep blk (set_, cur) a = (some n, if blk then n else cur) := by simp [lgStep, hv]
      refine ⟨by simpa [hk] using h1, by rw [h2]; simp [lgAfter, hs], ?_⟩
      intro pre e post he hke
      cases pre with
      | nil =>
        simp only [List.nil_append, List.cons.injEq] at he
        rw [← he.1, hk] at hke
        cases hke
      | cons b pre =>
        simp only [List.cons_append, List.cons.injEq] at he
        obtain ⟨rfl, he⟩ := he
        have := h3 pre e post he hke
        simp only [hk, List.filter_cons, Bool.false_eq_true, if_false, lgAfter, List.foldl_cons, hs]
        exact this
    | other =>
      simp only [hv] at h
      obtain ⟨⟨r', c'⟩, hr, ho⟩ := except_bind_ok h
      simp only [pure, Except.pure, Except.ok.injEq, Prod.mk.injEq] at ho
      obtain ⟨rfl, rfl⟩ := ho
      have ⟨h1, h2, h3⟩ := ih hr
      have hk : lgKeep a = true := by simp [lgKeep, hv]
      have hs : lgStep blk (set_, cur) a = (set_, cur) := by simp [lgStep, hv]
      refine ⟨by simpa [hk] using h1, by rw [h2]; simp [lgAfter, hs], ?_⟩
      intro pre e post he hke
      cases pre with
      | nil =>
        simp only [List.nil_append, List.cons.injEq] at he
        obtain ⟨rfl, _⟩ := he
        simp [lgElem, hv]
      | cons b pre =>
        simp only [List.cons_append, List.cons.injEq] at he
        obtain ⟨rfl, he⟩ := he
        have := h3 pre e post he hke
        simp only [hk, List.filter_cons, if_true, lgAfter, List.foldl_cons, hs, List.length_cons,
          List.getElem?_cons_succ]
        exact this
    | instr loc =>
      simp only [hv] at h
      obtain ⟨⟨l, cur'⟩, hl, h⟩ := except_bind_ok h
      obtain ⟨⟨r', c'⟩, hr, ho⟩ := except_bind_ok h
      simp only [pure, Except.pure, Except.ok.injEq, Prod.mk.injEq] at ho
      obtain ⟨rfl, rfl⟩ := ho
      have ⟨hl1, hl2⟩ := legalizeInstr_ok hl
      have ⟨h1, h2, h3⟩ := ih hr
      have hk : lgKeep a = true := by simp [lgKeep, hv]
      have hs : lgStep blk (set_, cur) a = (set_, cur') := by
        simp only [lgStep, hv, hl2]
      refine ⟨by simpa [hk] using h1, by rw [h2]; simp [lgAfter, hs], ?_⟩
      intro pre e post he hke
      cases pre with
      | nil =>
        simp only [List.nil_append, List.cons.injEq] at he
        obtain ⟨rfl, _⟩ := he
        simp [lgElem, hv, hl1, lgAfter]
      | cons b pre =>
        simp only [List.cons_append, List.cons.injEq] at he
        obtain ⟨rfl, he⟩ := he
        have := h3 pre e post he hke
        simp only [hk, List.filter_cons, if_true, lgAfter, List.foldl_cons, hs, List.length_cons,
          List.getElem?_cons_succ]
        exact this

/-- The last SetLineno is the state's. -/
theorem lgAfter_fst (blk : Bool) (es : List α) : ∀ (s : Option Nat × Nat),
    (lgAfter blk s es).1 =
      ((es.filterMap (fun e => match Lined.view e with | .setLineno n => some n | _ => none)).getLast?.or s.1) := by
  induction es with
  | nil => intro s; simp [lgAfter]
  | cons a r ih =>
    intro s
    have h0 : lgAfter blk s (a :: r) = lgAfter blk (lgStep blk s a) r := rfl
    rw [h0, ih]
    cases hv : Lined.view a with
    | setLineno n =>
      rw [List.filterMap_cons_some (b := n) (by simp [hv]), List.getLast?_cons]
      simp only [lgStep, hv]
      cases (r.filterMap (fun e => match Lined.view e with | .setLineno n => some n | _ => none)).getLast? <;> rfl
    | other => rw [List.filterMap_cons_none (by simp [hv])]; simp [lgStep, hv]
    | instr l => rw [List.filterMap_cons_none (by simp [hv])]; simp [lgStep, hv]

/-- While no SetLineno was met, the current line is the last one carried by an instruction. -/
theorem lgAfter_snd (blk : Bool) (es : List α) : ∀ (cur : Nat), (lgAfter blk (none, cur) es).1 = none →
    (lgAfter blk (none, cur) es).2 =
      (es.filterMap (fun e => match Lined.view e with | .instr l => l.bind (·.lineno) | _ => none)).getLast?.getD cur := by
  induction es with
  | nil => intro s _; simp [lgAfter]
  | cons a r ih =>
    intro cur
    have h0 : lgAfter blk (none, cur) (a :: r) = lgAfter blk (lgStep blk (none, cur) a) r := rfl
    rw [h0]
    cases hv : Lined.view a with
    | setLineno n =>
      intro h
      rw [lgAfter_fst] at h
      simp [lgStep, hv] at h
    | other =>
      intro h
      simp only [lgStep, hv] at h ⊢
      rw [ih cur h, List.filterMap_cons_none (by simp [hv])]
    | instr l =>
      intro h
      simp only [lgStep, hv, lgCur] at h ⊢
      rw [ih _ h]
      cases hl : l.bind (·.lineno) with
      | none => rw [List.filterMap_cons_none (by simp [hv, hl])]; simp
      | some n =>
        rw [List.filterMap_cons_some (b := n) (by simp [hv, hl]), List.getLast?_cons]
        simp only [Option.getD_some]

end Verif

namespace Verif
open Spec
variable {α : Type} [Lined α]

/-- Elements the loop leaves alone. -/
def lgStable (e : α) : Prop :=
  match Lined.view e with
  | .setLineno _ => False
  | .other => True
  | .instr loc => loc.isSome = true

/-- `put` and `view` agree. -/
class LawfulLined (α : Type) [Lined α] : Prop where
  put_self : ∀ (e : α) loc, Lined.view e = .instr loc → Lined.put e loc = e
  view_put : ∀ (e : α) loc l, Lined.view e = .instr loc → Lined.view (Lined.put e l) = .instr l

instance : LawfulLined BElem where
  put_self := by
    intro e loc h
    cases e <;> simp_all [Lined.view, Lined.put]
    subst h; rfl
  view_put := by
    intro e loc l h
    cases e <;> simp_all [Lined.view, Lined.put]

instance : LawfulLined CElem where
  put_self := by
    intro e loc h
    cases e <;> simp_all [Lined.view, Lined.put]
    subst h; rfl
  view_put := by
    intro e loc l h
    cases e <;> simp_all [Lined.view, Lined.put]

theorem legalizeLoop_stable [LawfulLined α] {py311 blk : Bool} {es : List α} :
    ∀ {set_ : Option Nat} {cur : Nat} {out : List α} {c : Nat},
    legalizeLoop py311 blk set_ cur es = .ok (out, c) → ∀ e ∈ out, lgStable e := by
  induction es with
  | nil =>
    intro set_ cur out c h e he
    simp only [legalizeLoop, Except.ok.injEq, Prod.mk.injEq] at h
    rw [← h.1] at he
    cases he
  | cons a r ih =>
    intro set_ cur out c h
    unfold legalizeLoop at h
    cases hv : Lined.view a with
    | setLineno n => simp only [hv] at h; exact ih h
    | other =>
      simp only [hv] at h
      obtain ⟨⟨r', c'⟩, hr, ho⟩ := except_bind_ok h
      simp only [pure, Except.pure, Except.ok.injEq, Prod.mk.injEq] at ho
      obtain ⟨rfl, rfl⟩ := ho
      intro e he
      rcases List.mem_cons.1 he with rfl | he
      · simp [lgStable, hv]
      · exact ih hr e he
    | instr loc =>
      simp only [hv] at h
      obtain ⟨⟨l, cur'⟩, hl, h⟩ := except_bind_ok h
      obtain ⟨⟨r', c'⟩, hr, ho⟩ := except_bind_ok h
      simp only [pure, Except.pure, Except.ok.injEq, Prod.mk.injEq] at ho
      obtain ⟨rfl, rfl⟩ := ho
      intro e he
      rcases List.mem_cons.1 he with rfl | he
      · have hl1 := (legalizeInstr_ok hl).1
        simp only [lgStable, LawfulLined.view_put a loc l hv]
        rw [hl1]; rfl
      · exact ih hr e he

theorem legalizeLoop_id [LawfulLined α] (py311 blk : Bool) {es : List α} : (∀ e ∈ es, lgStable e) → ∀ (cur : Nat),
    ∃ c, legalizeLoop py311 blk none cur es = .ok (es, c) := by
  induction es with
  | nil => intro _ cur; exact ⟨cur, rfl⟩
  | cons a r ih =>
    intro h cur
    have ha := h a (by simp)
    unfold legalizeLoop
    cases hv : Lined.view a with
    | setLineno n => simp [lgStable, hv] at ha
    | other =>
      obtain ⟨c, hc⟩ := ih (fun e he => h e (by simp [he])) cur
      exact ⟨c, by simp [hc, bind, Except.bind, pure, Except.pure]⟩
    | instr loc =>
      simp only [lgStable, hv] at ha
      obtain ⟨l, rfl⟩ := Option.isSome_iff_exists.1 ha
      obtain ⟨c, hc⟩ := ih (fun e he => h e (by simp [he])) (l.lineno.getD cur)
      exact ⟨c, by simp [legalizeInstr, hc, bind, Except.bind, pure, Except.pure, LawfulLined.put_self a _ hv]⟩

/-- A line the location constructor accepts. -/
def lineOK (py311 : Bool) (n : Nat) : Prop := py311 = true ∨ 1 ≤ n

theorem setLineno_lineOK {py311 : Bool} {loc : Option Loc} {n : Nat} (h : lineOK py311 n) :
    setLineno py311 loc (.val (some (n : Int))) =
      if detailedLoc loc then .error .runtimeError else .ok (some (Loc.line (some n))) := by
  unfold setLineno
  split
  · rfl
  · simp only [Loc.make, checkLocation]
    have hn : ¬ ((n : Int) < 0) := by omega
    rcases h with rfl | h
    · simp only [if_true, hn, if_false]
      rfl
    · have hn' : ¬ ((n : Int) < 1) := by omega
      cases py311 <;> simp only [if_true, hn, hn', if_false, Bool.false_eq_true] <;> rfl

/-- Every line in the elements is acceptable. -/
def lgLinesOK (py311 : Bool) (e : α) : Prop :=
  match Lined.view e with
  | .setLineno n => lineOK py311 n
  | .other => True
  | .instr loc => ∀ n, loc.bind (·.lineno) = some n → lineOK py311 n

def lgIsSet (e : α) : Bool := match Lined.view e with | .setLineno _ => true | _ => false
def lgDetailed (e : α) : Bool := match Lined.view e with | .instr loc => detailedLoc loc | _ => false

theorem legalizeLoop_total (py311 blk : Bool) {es : List α} : (∀ e ∈ es, lgLinesOK py311 e) →
    ∀ (set_ : Option Nat) (cur : Nat), (∀ n, set_ = some n → lineOK py311 n) → lineOK py311 cur →
    ((∃ o, legalizeLoop py311 blk set_ cur es = .ok o) ∧
      ∀ pre e post, es = pre ++ e :: post → lgDetailed e = true → set_ = none ∧ ∀ x ∈ pre, lgIsSet x = false) ∨
    (legalizeLoop py311 blk set_ cur es = .error .runtimeError ∧
      ∃ pre e post, es = pre ++ e :: post ∧ lgDetailed e = true ∧ (set_.isSome ∨ ∃ x ∈ pre, lgIsSet x = true)) := by
  induction es with
  | nil => intro _ set_ cur _ _; left; exact ⟨⟨_, rfl⟩, by intro pre e post h; simp at h⟩
  | cons a r ih =>
    intro h set_ cur hs hc
    have ha := h a (by simp)
    have hr := ih (fun e he => h e (by simp [he]))
    unfold legalizeLoop
    cases hv : Lined.view a with
    | setLineno n =>
      simp only [lgLinesOK, hv] at ha
      have hset : lgIsSet a = true := by simp [lgIsSet, hv]
      have hdet : lgDetailed a = false := by simp [lgDetailed, hv]
      rcases hr (some n) (if blk then n else cur) (by intro m hm; cases hm; exact ha) (by split <;> assumption) with
        ⟨h1, h2⟩ | ⟨h1, pre, e, post, he, hd, hx⟩
      · left
        refine ⟨h1, ?_⟩
        intro pre e post he hd
        cases pre with
        | nil => simp only [List.nil_append, List.cons.injEq] at he; rw [← he.1, hdet] at hd; cases hd
        | cons b pre =>
          simp only [List.cons_append, List.cons.injEq] at he
          have := (h2 pre e post he.2 hd).1
          cases this
      · right
        exact ⟨h1, a :: pre, e, post, by simp [he], hd, .inr ⟨a, by simp, hset⟩⟩
    | other =>
      have hset : lgIsSet a = false := by simp [lgIsSet, hv]
      have hdet : lgDetailed a = false := by simp [lgDetailed, hv]
      rcases hr set_ cur hs hc with ⟨⟨o, ho⟩, h2⟩ | ⟨h1, pre, e, post, he, hd, hx⟩
      · left
        refine ⟨⟨(a :: o.1, o.2), by simp [ho, bind, Except.bind, pure, Except.pure]⟩, ?_⟩
        intro pre e post he hd
        cases pre with
        | nil => simp only [List.nil_append, List.cons.injEq] at he; rw [← he.1, hdet] at hd; cases hd
        | cons b pre =>
          simp only [List.cons_append, List.cons.injEq] at he
          obtain ⟨rfl, he⟩ := he
          have ⟨x1, x2⟩ := h2 pre e post he hd
          refine ⟨x1, ?_⟩
          intro x hx
          rcases List.mem_cons.1 hx with rfl | hx
          · exact hset
          · exact x2 x hx
      · right
        refine ⟨by simp [h1, bind, Except.bind], a :: pre, e, post, by simp [he], hd, ?_⟩
        rcases hx with hx | ⟨x, hx, hx'⟩
        · exact .inl hx
        · exact .inr ⟨x, by simp [hx], hx'⟩
    | instr loc =>
      have hset : lgIsSet a = false := by simp [lgIsSet, hv]
      simp only [lgLinesOK, hv] at ha
      by_cases hbad : set_.isSome ∧ detailedLoc loc = true
      · right
        obtain ⟨n, rfl⟩ := Option.isSome_iff_exists.1 hbad.1
        refine ⟨?_, [], a, r, rfl, by simp [lgDetailed, hv, hbad.2], .inl rfl⟩
        simp [legalizeInstr, setLineno_lineOK (hs n rfl), hbad.2, Except.map, bind, Except.bind]
      · have hI : ∃ l, legalizeInstr py311 set_ cur loc = .ok (l, lgCur set_ cur loc) := by
          unfold legalizeInstr
          cases set_ with
          | some n =>
            have : detailedLoc loc = false := by simpa using hbad
            simp [setLineno_lineOK (hs n rfl), this, Except.map, lgCur]
          | none =>
            cases loc with
            | none => simp [setLineno_lineOK hc, detailedLoc, Except.map, lgCur]
            | some l => simp [lgCur]
        obtain ⟨l, hI⟩ := hI
        have hc' : lineOK py311 (lgCur set_ cur loc) := by
          unfold lgCur
          split
          · exact hc
          · cases hl : loc.bind (·.lineno) with
            | none => exact hc
            | some n => exact ha n hl
        rcases hr set_ _ hs hc' with ⟨⟨o, ho⟩, h2⟩ | ⟨h1, pre, e, post, he, hd, hx⟩
        · left
          refine ⟨⟨(Lined.put a l :: o.1, o.2), by simp [hI, ho, bind, Except.bind, pure, Except.pure]⟩, ?_⟩
          intro pre e post he hd
          cases pre with
          | nil =>
            simp only [List.nil_append, List.cons.injEq] at he
            obtain ⟨rfl, _⟩ := he
            simp only [lgDetailed, hv] at hd
            refine ⟨?_, by simp⟩
            cases set_ with
            | none => rfl
            | some n => exact absurd ⟨rfl, hd⟩ hbad
          | cons b pre =>
            simp only [List.cons_append, List.cons.injEq] at he
            obtain ⟨rfl, he⟩ := he
            have ⟨x1, x2⟩ := h2 pre e post he hd
            refine ⟨x1, ?_⟩
            intro x hx
            rcases List.mem_cons.1 hx with rfl | hx
            · exact hset
            · exact x2 x hx
        · right
          refine ⟨by simp [hI, h1, bind, Except.bind], a :: pre, e, post, by simp [he], hd, ?_⟩
          rcases hx with hx | ⟨x, hx, hx'⟩
          · exact .inl hx
          · exact .inr ⟨x, by simp [hx], hx'⟩

end Verif
