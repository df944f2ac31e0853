import Verif.Proofs.Format
/-
The text of one element determines it, for C57.
-/
namespace Verif
open Spec

/-- The names given to labels or blocks: a prefix and a position. -/
def nameOf (pfx : Text) (ref : Nat → Option Nat) (x : Nat) : Option Text := (ref x).map (fun k => pfx ++ decimal k)

theorem labelNames_eq (l : Nat) : ∀ (es : List BElem) (k : Nat) (f : Nat → Option Text),
    labelNames k f es l = ((lastAt l k es).map (fun k => (txt "label_instr") ++ decimal k)).or (f l) := by
  generalize hg : (fun k => (txt "label_instr") ++ decimal k) = g
  have hg' : ∀ k, (txt "label_instr") ++ decimal k = g k := fun k => by rw [← hg]
  intro es
  induction es with
  | nil => intro k f; simp only [labelNames, lastAt, Option.map_none, Option.none_or]
  | cons e r ih =>
    intro k f
    have other : ∀ e : BElem, (∀ m, e ≠ .label m) → labelNames k f (e :: r) = labelNames (k + 1) f r := by
      intro e he
      cases e with
      | label m => exact absurd rfl (he m)
      | _ => simp only [labelNames]
    by_cases hl : ∃ m, e = .label m
    · obtain ⟨m, rfl⟩ := hl
      simp only [labelNames, lastAt, ih, upd, hg']
      cases lastAt l (k + 1) r with
      | some j => simp only [Option.some_or, Option.map_some]
      | none =>
        by_cases h : l = m
        · subst h; simp only [Option.none_or, Option.map_none, if_true, Option.map_some, Option.some_or]
        · rw [if_neg h, if_neg (fun hh => h (by injection hh with hh; exact hh.symm))]
          simp only [Option.none_or, Option.map_none]
    · rw [other e (fun m hm => hl ⟨m, hm⟩), ih]
      simp only [lastAt]
      rw [if_neg (fun hm => hl ⟨l, hm⟩), Option.or_none]

theorem blockNames_eq (b : Nat) : ∀ (bs : List Nat) (k : Nat) (f : Nat → Option Text),
    blockNames k f bs b = ((lastBlock b k bs).map (fun k => (txt "block") ++ decimal k)).or (f b) := by
  generalize hg : (fun k => (txt "block") ++ decimal k) = g
  have hg' : ∀ k, (txt "block") ++ decimal k = g k := fun k => by rw [← hg]
  intro bs
  induction bs with
  | nil => intro k f; simp only [blockNames, lastBlock, Option.map_none, Option.none_or]
  | cons m r ih =>
    intro k f
    simp only [blockNames, lastBlock, ih, upd, hg']
    cases lastBlock b (k + 1) r with
    | some j => simp only [Option.some_or, Option.map_some]
    | none =>
      by_cases h : b = m
      · subst h; simp only [Option.none_or, Option.map_none, if_true, Option.map_some, Option.some_or]
      · rw [if_neg h, if_neg (fun hh => h hh.symm)]
        simp only [Option.none_or, Option.map_none]

theorem labelNames_nameOf (es : List BElem) :
    labelNames 0 (fun _ => none) es = nameOf (txt "label_instr") (fun l => lastAt l 0 es) := by
  funext l; rw [labelNames_eq]; simp only [nameOf, Option.or_none]

theorem blockNames_nameOf (bs : List Nat) :
    blockNames 1 (fun _ => none) bs = nameOf (txt "block") (fun b => lastBlock b 1 bs) := by
  funext l; rw [blockNames_eq]; simp only [nameOf, Option.or_none]

theorem nameOf_none (pfx : Text) : (fun _ => none : Nat → Option Text) = nameOf pfx (fun _ => none) := rfl

/-- The prefixes used. -/
def Prefix (pfx : Text) : Prop := pfx = (txt "label_instr") ∨ pfx = (txt "block")

theorem Prefix.no {pfx : Text} (h : Prefix pfx) {c : Char} (hc : c = '>' ∨ c = '\n') : c ∉ pfx := by
  rcases h with rfl | rfl <;> rcases hc with rfl | rfl <;> decide

theorem Prefix.head {pfx : Text} (h : Prefix pfx) : ∃ c r, pfx = c :: r ∧ c ≠ 'e' := by
  rcases h with rfl | rfl
  · exact ⟨'l', (txt "abel_instr"), by decide, by decide⟩
  · exact ⟨'b', (txt "lock"), by decide, by decide⟩

theorem errLabel_head : ∃ r, (txt "<error: unknown label>") = '<' :: 'e' :: r := ⟨(txt "rror: unknown label>"), by decide⟩
theorem errBlock_head : ∃ r, (txt "<error: unknown block>") = '<' :: 'e' :: r := ⟨(txt "rror: unknown block>"), by decide⟩

theorem refText_inj {pfx err : Text} {A B : Nat → Option Nat} {x y : Nat} {R S : Text} (hp : Prefix pfx)
    (he : ∃ r, err = '<' :: 'e' :: r) (h : refText (nameOf pfx A) err x ++ R = refText (nameOf pfx B) err y ++ S) :
    A x = B y ∧ R = S := by
  obtain ⟨r, rfl⟩ := he
  obtain ⟨c, q, hq, hc⟩ := hp.head
  simp only [refText, nameOf] at h
  cases hA : A x with
  | none =>
    cases hB : B y with
    | none =>
      simp only [hA, hB, Option.map_none] at h
      exact ⟨rfl, List.append_cancel_left h⟩
    | some j =>
      simp only [hA, hB, Option.map_none, Option.map_some, hq, List.cons_append, List.cons.injEq] at h
      exact absurd h.2.1.symm hc
  | some k =>
    cases hB : B y with
    | none =>
      simp only [hA, hB, Option.map_none, Option.map_some, hq, List.cons_append, List.cons.injEq] at h
      exact absurd h.2.1 hc
    | some j =>
      simp only [hA, hB, Option.map_some, List.append_assoc, List.cons_append, List.cons.injEq, List.nil_append, true_and] at h
      have h1 := List.append_cancel_left h
      obtain ⟨h2, h3⟩ := sep_inj (decimal_ne (by decide)) (decimal_ne (by decide)) h1
      exact ⟨by rw [decimal_inj h2], h3⟩

theorem refText_line {pfx err : Text} {A : Nat → Option Nat} {x : Nat} (hp : Prefix pfx) (he : '\n' ∉ err) :
    '\n' ∉ refText (nameOf pfx A) err x := by
  simp only [refText, nameOf]
  cases A x with
  | none => simpa using he
  | some k =>
    simp only [Option.map_some, List.mem_cons, List.mem_append, List.not_mem_nil, or_false, not_or]
    exact ⟨by decide, ⟨hp.no (.inr rfl), decimal_ne (by decide)⟩, by decide⟩

theorem opName_no {n : String} (h : OpName n) {c : Char} (hc : c.isUpper = false ∧ c.isDigit = false ∧ c ≠ '_') :
    c ∉ n.toList := fun hm => by
  rcases h.2 c hm with h1 | h1 | h1
  · rw [hc.1] at h1; exact absurd h1 (by decide)
  · rw [hc.2.1] at h1; exact absurd h1 (by decide)
  · exact hc.2.2 h1

theorem opName_head {n : String} (h : OpName n) : ∃ c r, n.toList = c :: r ∧ (c.isUpper ∨ c.isDigit ∨ c = '_') := by
  obtain ⟨c, r, hcr⟩ := List.exists_cons_of_ne_nil h.1
  exact ⟨c, r, hcr, h.2 c (by rw [hcr]; simp)⟩

/-- The text of the argument, when there is one. -/
def argText (repr : Arg → Text) (L B : Nat → Option Nat) : Arg → Text
  | .unset => []
  | .label l => refText (nameOf (txt "label_instr") L) (txt "<error: unknown label>") l
  | .block b => refText (nameOf (txt "block") B) (txt "<error: unknown block>") b
  | a => repr a

theorem formatInstr_eq (repr : Arg → Text) (L B : Nat → Option Nat) (n : String) (a : Arg) :
    formatInstr repr (nameOf (txt "label_instr") L) (nameOf (txt "block") B) n a =
      if a = .unset then n.toList else n.toList ++ ' ' :: argText repr L B a := by
  cases a <;> simp [formatInstr, argText]

theorem ref_prefix {pfx err : Text} {A : Nat → Option Nat} {x : Nat} :
    ('<' :: pfx) <+: refText (nameOf pfx A) err x ∨ refText (nameOf pfx A) err x = err := by
  simp only [refText, nameOf]
  cases A x with
  | none => exact .inr rfl
  | some k => exact .inl ⟨decimal k ++ ['>'], by simp⟩

theorem label_text {L : Nat → Option Nat} {l : Nat} :
    (txt "<label_") <+: argText (fun _ => []) L L (.label l) ∨ (txt "<error") <+: argText (fun _ => []) L L (.label l) := by
  simp only [argText]
  rcases ref_prefix (pfx := (txt "label_instr")) (err := (txt "<error: unknown label>")) (A := L) (x := l) with h | h
  · exact .inl (List.IsPrefix.trans ⟨(txt "instr"), by decide⟩ h)
  · exact .inr (by rw [h]; exact ⟨(txt ": unknown label>"), by decide⟩)

theorem block_text {L : Nat → Option Nat} {l : Nat} :
    (txt "<block") <+: argText (fun _ => []) L L (.block l) ∨ (txt "<error") <+: argText (fun _ => []) L L (.block l) := by
  simp only [argText]
  rcases ref_prefix (pfx := (txt "block")) (err := (txt "<error: unknown block>")) (A := L) (x := l) with h | h
  · exact .inl (List.IsPrefix.trans ⟨[], by decide⟩ h)
  · exact .inr (by rw [h]; exact ⟨(txt ": unknown block>"), by decide⟩)

theorem argText_plain {repr : Arg → Text} {L B : Nat → Option Nat} {a : Arg} (h : Plain a) : argText repr L B a = repr a := by
  cases a <;> simp_all [argText, Plain]

theorem label_block {L B : Nat → Option Nat} {l b : Nat} {r1 r2 : Arg → Text} {B1 L1 : Nat → Option Nat}
    (h : argText r1 L B1 (.label l) = argText r2 L1 B (.block b)) : False := by
  simp only [argText, refText, nameOf] at h
  cases hL : L l with
  | none =>
    cases hB : B b with
    | none => simp only [hL, hB, Option.map_none] at h; exact absurd h (by decide)
    | some k =>
      simp only [hL, hB, Option.map_none, Option.map_some] at h
      have h1 := (List.cons.inj h).2
      have h2 : 'e' = 'b' := (List.cons.inj h1).1
      exact absurd h2 (by decide)
  | some j =>
    cases hB : B b with
    | none =>
      simp only [hL, hB, Option.map_none, Option.map_some] at h
      have h1 := (List.cons.inj h).2
      have h2 : 'l' = 'e' := (List.cons.inj h1).1
      exact absurd h2 (by decide)
    | some k =>
      simp only [hL, hB, Option.map_some] at h
      have h1 := (List.cons.inj h).2
      have h2 : 'l' = 'b' := (List.cons.inj h1).1
      exact absurd h2 (by decide)

theorem argText_inj {repr : Arg → Text} {LA LB BA BB : Nat → Option Nat} {as : List Arg} (hr : ReprOK repr as) {a b : Arg}
    (ha : a ∈ as) (hb : b ∈ as) (ha' : a ≠ .unset) (hb' : b ≠ .unset) (h : argText repr LA BA a = argText repr LB BB b) :
    SameArg LA LB BA BB a b := by
  have hlp : ∀ {x : Arg} {l : Nat} {L B : Nat → Option Nat}, x ∈ as → Plain x → argText repr L B (.label l) = repr x → False := by
    intro x l L B hx hp hh
    have h1 := hr.text x hx hp
    have h2 := label_text (L := L) (l := l)
    have h3 : argText (fun _ => []) L L (.label l) = repr x := by rw [← hh]; rfl
    rw [h3] at h2
    rcases h2 with h2 | h2
    · exact h1.1 h2
    · exact h1.2.2 h2
  have hbp : ∀ {x : Arg} {l : Nat} {L B : Nat → Option Nat}, x ∈ as → Plain x → argText repr L B (.block l) = repr x → False := by
    intro x l L B hx hp hh
    have h1 := hr.text x hx hp
    have h2 := block_text (L := B) (l := l)
    have h3 : argText (fun _ => []) B B (.block l) = repr x := by rw [← hh]; rfl
    rw [h3] at h2
    rcases h2 with h2 | h2
    · exact h1.2.1 h2
    · exact h1.2.2 h2
  by_cases hpa : Plain a
  · by_cases hpb : Plain b
    · rw [argText_plain hpa, argText_plain hpb] at h
      have := hr.inj a ha b hb hpa hpb h
      subst this
      cases a <;> simp_all [SameArg, Plain]
    · exfalso
      rw [argText_plain hpa] at h
      cases b with
      | label l => exact hlp ha hpa h.symm
      | block l => exact hbp ha hpa h.symm
      | unset => exact hb' rfl
      | _ => exact hpb trivial
  · by_cases hpb : Plain b
    · exfalso
      rw [argText_plain hpb] at h
      cases a with
      | label l => exact hlp hb hpb h
      | block l => exact hbp hb hpb h
      | unset => exact ha' rfl
      | _ => exact hpa trivial
    · cases a with
      | label l =>
        cases b with
        | label m =>
          simp only [argText] at h
          exact (refText_inj (R := []) (S := []) (.inl rfl) errLabel_head (by rw [h])).1
        | block m => exact (label_block h).elim
        | unset => exact absurd rfl hb'
        | _ => exact absurd trivial hpb
      | block l =>
        cases b with
        | block m =>
          simp only [argText] at h
          exact (refText_inj (R := []) (S := []) (.inr rfl) errBlock_head (by rw [h])).1
        | label m => exact (label_block h.symm).elim
        | unset => exact absurd rfl hb'
        | _ => exact absurd trivial hpb
      | unset => exact absurd rfl ha'
      | _ => exact absurd trivial hpa

theorem formatInstr_inj {repr : Arg → Text} {LA LB BA BB : Nat → Option Nat} {as : List Arg} (hr : ReprOK repr as) {a b : Arg}
    (ha : a ∈ as) (hb : b ∈ as) {n m : String} (hn : OpName n) (hm : OpName m)
    (h : formatInstr repr (nameOf (txt "label_instr") LA) (nameOf (txt "block") BA) n a =
      formatInstr repr (nameOf (txt "label_instr") LB) (nameOf (txt "block") BB) m b) :
    n = m ∧ SameArg LA LB BA BB a b := by
  rw [formatInstr_eq, formatInstr_eq] at h
  have hsp : ∀ {k : String}, OpName k → ' ' ∉ k.toList := fun hk => opName_no hk (by decide)
  by_cases h1 : a = .unset
  · by_cases h2 : b = .unset
    · rw [if_pos h1, if_pos h2] at h
      subst h1; subst h2
      exact ⟨String.toList_inj.mp h, rfl⟩
    · rw [if_pos h1, if_neg h2] at h
      exact absurd (by rw [h]; simp) (hsp hn)
  · by_cases h2 : b = .unset
    · rw [if_neg h1, if_pos h2] at h
      exact absurd (by rw [← h]; simp) (hsp hm)
    · rw [if_neg h1, if_neg h2] at h
      obtain ⟨h3, h4⟩ := sep_inj (hsp hn) (hsp hm) h
      exact ⟨String.toList_inj.mp h3, argText_inj hr ha hb h1 h2 h4⟩

theorem formatInstr_line {repr : Arg → Text} {L B : Nat → Option Nat} {as : List Arg} (hr : ReprOK repr as) {a : Arg} (ha : a ∈ as)
    {n : String} (hn : OpName n) :
    '\n' ∉ formatInstr repr (nameOf (txt "label_instr") L) (nameOf (txt "block") B) n a := by
  rw [formatInstr_eq]
  have h1 : '\n' ∉ n.toList := opName_no hn (by decide)
  split
  · exact h1
  · rename_i h2
    simp only [List.mem_append, List.mem_cons, not_or]
    refine ⟨h1, by decide, ?_⟩
    by_cases hp : Plain a
    · rw [argText_plain hp]; exact hr.line a ha hp
    · cases a with
      | label l => exact refText_line (.inl rfl) (by decide)
      | block l => exact refText_line (.inr rfl) (by decide)
      | unset => exact absurd rfl h2
      | _ => exact absurd trivial hp

theorem formatInstr_head {repr : Arg → Text} {L B : Nat → Option Nat} {a : Arg} {n : String} (hn : OpName n) :
    ∃ c r, formatInstr repr (nameOf (txt "label_instr") L) (nameOf (txt "block") B) n a = c :: r ∧
      (c.isUpper ∨ c.isDigit ∨ c = '_') := by
  rw [formatInstr_eq]
  obtain ⟨c, r, h, hc⟩ := opName_head hn
  split
  · exact ⟨c, r, h, hc⟩
  · exact ⟨c, _, by rw [h]; rfl, hc⟩

/-- The text of the line of a TryBegin, the number of TryBegin before being given. -/
def beginText (pfx : Text) (T : Nat → Option Nat) (n : Nat) (t : TryB) : Text :=
  (txt "TryBegin ") ++ decimal n ++ (txt " -> ") ++ refText (nameOf pfx T) (txt "<error: unknown label>") t.target ++
    (txt " [") ++ decimal (t.depth.getD 0) ++ (txt "]") ++ (if t.lasti then (txt " last_i") else [])

/-- The text of the line of a TryEnd. -/
def endText (ids : List Nat) (id : Nat) : Text :=
  (txt "TryEnd (") ++ (if id ∈ ids then decimal (ids.idxOf id) else (txt "<unknwon>")) ++ (txt ")")

theorem beginText_head (pfx : Text) (T : Nat → Option Nat) (n : Nat) (t : TryB) : ∃ r, beginText pfx T n t = 'T' :: r := by
  have e : (txt "TryBegin ") = 'T' :: (txt "ryBegin ") := by decide
  exact ⟨_, by simp only [beginText, e, List.cons_append]; rfl⟩

theorem endText_head (ids : List Nat) (id : Nat) : ∃ r, endText ids id = 'T' :: r := by
  have e : (txt "TryEnd (") = 'T' :: (txt "ryEnd (") := by decide
  exact ⟨_, by simp only [endText, e, List.cons_append]; rfl⟩

theorem beginText_inj {pfx : Text} (hp : Prefix pfx) {TA TB : Nat → Option Nat} {n : Nat} {s t : TryB}
    (h : beginText pfx TA n s = beginText pfx TB n t) :
    TA s.target = TB t.target ∧ s.lasti = t.lasti ∧ s.depth.getD 0 = t.depth.getD 0 := by
  simp only [beginText, List.append_assoc] at h
  have h1 := List.append_cancel_left (List.append_cancel_left (List.append_cancel_left h))
  obtain ⟨h2, h3⟩ := refText_inj hp errLabel_head h1
  have h4 := List.append_cancel_left h3
  have e : (txt "]") = [']'] := by decide
  simp only [e, List.cons_append, List.nil_append] at h4
  obtain ⟨h5, h6⟩ := sep_inj (decimal_ne (by decide)) (decimal_ne (by decide)) h4
  refine ⟨h2, ?_, decimal_inj h5⟩
  cases hs : s.lasti <;> cases ht : t.lasti <;> simp [hs, ht] at h6 <;> rfl

theorem endText_inj {ia ib : List Nat} {s t : Nat} (h : endText ia s = endText ib t) : numberIn s ia = numberIn t ib := by
  simp only [endText, List.append_assoc] at h
  have h1 := List.append_cancel_left h
  have h2 := List.append_cancel_right h1
  simp only [numberIn]
  have hd : ∀ n, decimal n ≠ (txt "<unknwon>") := fun n hn => by
    have : '<' ∈ decimal n := by rw [hn]; decide
    exact decimal_ne (by decide) this
  by_cases hs : s ∈ ia
  · by_cases ht : t ∈ ib
    · rw [if_pos hs, if_pos ht] at h2 ⊢
      rw [decimal_inj h2]
    · rw [if_pos hs, if_neg ht] at h2
      exact absurd h2 (hd _)
  · by_cases ht : t ∈ ib
    · rw [if_neg hs, if_pos ht] at h2
      exact absurd h2.symm (hd _)
    · rw [if_neg hs, if_neg ht]

/-- The text of the line of an element. -/
def bodyText (repr : Arg → Text) (L B : Nat → Option Nat) (pfx : Text) (T : Nat → Option Nat) (ids : List Nat) : BElem → Text
  | .instr i => formatInstr repr (nameOf (txt "label_instr") L) (nameOf (txt "block") B) i.name i.arg
  | .tryBegin t => beginText pfx T ids.length t
  | .tryEnd id => endText ids id
  | _ => []

/-- The elements that have a line of their own. -/
def Printed (as : List Arg) : BElem → Prop
  | .instr i => OpName i.name ∧ i.arg ∈ as
  | .tryBegin _ => True
  | .tryEnd _ => True
  | _ => False

theorem bodyText_cap {repr : Arg → Text} {L B T : Nat → Option Nat} {pfx : Text} {ids : List Nat} {as : List Arg} {e : BElem}
    (h : Printed as e) : ∃ c r, bodyText repr L B pfx T ids e = c :: r ∧ (c.isUpper ∨ c.isDigit ∨ c = '_') := by
  cases e with
  | instr i => exact formatInstr_head h.1
  | tryBegin t =>
    obtain ⟨r, hr⟩ := beginText_head pfx T ids.length t
    exact ⟨'T', r, hr, by decide⟩
  | tryEnd t =>
    obtain ⟨r, hr⟩ := endText_head ids t
    exact ⟨'T', r, hr, by decide⟩
  | label l => exact absurd h (by simp [Printed])
  | setLineno l => exact absurd h (by simp [Printed])

theorem bodyText_head {repr : Arg → Text} {L B T : Nat → Option Nat} {pfx : Text} {ids : List Nat} {as : List Arg} {e : BElem}
    (h : Printed as e) : Head (bodyText repr L B pfx T ids e) := by
  obtain ⟨c, r, h1, h2⟩ := bodyText_cap (repr := repr) (L := L) (B := B) (T := T) (pfx := pfx) (ids := ids) h
  exact ⟨c, r, h1, upper_ne h2 (by decide)⟩

theorem bodyText_line {repr : Arg → Text} {L B T : Nat → Option Nat} {pfx : Text} (hp : Prefix pfx) {ids : List Nat} {as : List Arg}
    (hr : ReprOK repr as) {e : BElem} (h : Printed as e) : '\n' ∉ bodyText repr L B pfx T ids e := by
  have hnl : ∀ n, '\n' ∉ decimal n := fun n => decimal_ne (by decide)
  cases e with
  | instr i => exact formatInstr_line hr h.2 h.1
  | tryBegin t =>
    simp only [bodyText, beginText, List.mem_append, not_or]
    exact ⟨⟨⟨⟨⟨⟨⟨by decide, hnl _⟩, by decide⟩, refText_line hp (by decide)⟩, by decide⟩, hnl _⟩, by decide⟩,
      by split <;> decide⟩
  | tryEnd t =>
    simp only [bodyText, endText, List.mem_append, not_or]
    exact ⟨⟨by decide, by split; exact hnl _; decide⟩, by decide⟩
  | label l => exact absurd h (by simp [Printed])
  | setLineno l => exact absurd h (by simp [Printed])

theorem begin_ne_end {pfx : Text} {T : Nat → Option Nat} {n : Nat} {t : TryB} {ids : List Nat} {s : Nat}
    (h : beginText pfx T n t = endText ids s) : False := by
  have h1 := congrArg (fun x => x[3]?) h
  simp [beginText, endText] at h1

theorem begin_ne_instr {pfx : Text} {T : Nat → Option Nat} {n : Nat} {t : TryB} {repr : Arg → Text} {L B : Nat → Option Nat} {a : Arg}
    {m : String} (hm : OpName m)
    (h : beginText pfx T n t = formatInstr repr (nameOf (txt "label_instr") L) (nameOf (txt "block") B) m a) : False := by
  have hr : 'r' ∉ m.toList := opName_no hm (by decide)
  have hs : ' ' ∉ m.toList := opName_no hm (by decide)
  rw [formatInstr_eq] at h
  have e : beginText pfx T n t = (txt "TryBegin") ++ ' ' :: (decimal n ++ (txt " -> ") ++ refText (nameOf pfx T) (txt "<error: unknown label>") t.target ++
    (txt " [") ++ decimal (t.depth.getD 0) ++ (txt "]") ++ (if t.lasti then (txt " last_i") else [])) := by
    simp [beginText]
  rw [e] at h
  by_cases ha : a = .unset
  · rw [if_pos ha] at h
    exact hs (by rw [← h]; simp)
  · rw [if_neg ha] at h
    obtain ⟨h1, _⟩ := sep_inj (by decide) hs h
    exact hr (by rw [← h1]; decide)

theorem end_ne_instr {ids : List Nat} {s : Nat} {repr : Arg → Text} {L B : Nat → Option Nat} {a : Arg} {m : String} (hm : OpName m)
    (h : endText ids s = formatInstr repr (nameOf (txt "label_instr") L) (nameOf (txt "block") B) m a) : False := by
  have hr : 'r' ∉ m.toList := opName_no hm (by decide)
  have hs : ' ' ∉ m.toList := opName_no hm (by decide)
  rw [formatInstr_eq] at h
  have e : endText ids s = (txt "TryEnd") ++ ' ' :: ((txt "(") ++ (if s ∈ ids then decimal (ids.idxOf s) else (txt "<unknwon>")) ++ (txt ")")) := by
    simp [endText]
  rw [e] at h
  by_cases ha : a = .unset
  · rw [if_pos ha] at h
    exact hs (by rw [← h]; simp)
  · rw [if_neg ha] at h
    obtain ⟨h1, _⟩ := sep_inj (by decide) hs h
    exact hr (by rw [← h1]; decide)

theorem bodyText_inj {repr : Arg → Text} {LA LB BA BB TA TB : Nat → Option Nat} {pfx : Text} (hp : Prefix pfx) {ia ib : List Nat}
    (hi : ia.length = ib.length) {as : List Arg} (hr : ReprOK repr as) {e f : BElem} (he : Printed as e) (hf : Printed as f)
    (h : bodyText repr LA BA pfx TA ia e = bodyText repr LB BB pfx TB ib f) : SameElem LA LB BA BB TA TB ia ib e f := by
  cases e with
  | label l => exact absurd he (by simp [Printed])
  | setLineno l => exact absurd he (by simp [Printed])
  | instr i =>
    cases f with
    | label l => exact absurd hf (by simp [Printed])
    | setLineno l => exact absurd hf (by simp [Printed])
    | instr j => exact formatInstr_inj hr he.2 hf.2 he.1 hf.1 h
    | tryBegin t => exact (begin_ne_instr he.1 h.symm).elim
    | tryEnd t => exact (end_ne_instr he.1 h.symm).elim
  | tryBegin s =>
    cases f with
    | label l => exact absurd hf (by simp [Printed])
    | setLineno l => exact absurd hf (by simp [Printed])
    | instr j => exact (begin_ne_instr hf.1 h).elim
    | tryBegin t => simp only [bodyText, hi] at h; exact beginText_inj hp h
    | tryEnd t => exact (begin_ne_end h).elim
  | tryEnd s =>
    cases f with
    | label l => exact absurd hf (by simp [Printed])
    | setLineno l => exact absurd hf (by simp [Printed])
    | instr j => exact (end_ne_instr hf.1 h).elim
    | tryBegin t => exact (begin_ne_end h.symm).elim
    | tryEnd t => exact endText_inj h

end Verif
