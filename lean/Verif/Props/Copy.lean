import Verif.Model.Copy
import Verif.Props.Instr
import Verif.Props.ConcreteInstr
/-
C38: copies and slices.
-/
namespace Verif
open Spec

/-- The lists of an object exist. -/
def BcObj.Live (h : Store) (o : BcObj) : Prop := ∀ f ∈ BcObj.fields o.concrete, o.refs f < h.next

/-- The user-visible content of an object: its class, its attributes and its elements. -/
def SameContent (h : Store) (o : BcObj) (h' : Store) (o' : BcObj) (fs : List Field) : Prop :=
  o'.concrete = o.concrete ∧ o'.sc = o.sc ∧ ∀ f ∈ fs, o'.read h' f = o.read h f

theorem alloc_old (h : Store) (v : List Val) (x : Nat) (hx : x < h.next) : (h.alloc v).1.cells x = h.cells x := by
  simp only [Store.alloc, upd]
  rw [if_neg (by omega)]

theorem allocFields_spec (l : List (Field × List Val)) (hn : (l.map (·.1)).Nodup) (h : Store) (refs : Field → Nat) :
    let r := allocFields h refs l
    h.next ≤ r.1.next ∧ (∀ x < h.next, r.1.cells x = h.cells x) ∧
    (∀ f, f ∉ l.map (·.1) → r.2 f = refs f) ∧
    (∀ f v, (f, v) ∈ l → h.next ≤ r.2 f ∧ r.2 f < r.1.next ∧ r.1.cells (r.2 f) = v) := by
  induction l generalizing h refs with
  | nil => simp [allocFields]
  | cons p l ih =>
    obtain ⟨f, v⟩ := p
    simp only [List.map_cons, List.nodup_cons] at hn
    have := ih hn.2 (h.alloc v).1 (setRef refs f (h.alloc v).2)
    simp only [allocFields] at this ⊢
    obtain ⟨h1, h2, h3, h4⟩ := this
    have hnext : (h.alloc v).1.next = h.next + 1 := rfl
    have hx : (h.alloc v).2 = h.next := rfl
    refine ⟨by omega, fun x hlt => by rw [h2 x (by omega)]; exact alloc_old h v x hlt, fun g hg => ?_, fun g w hm => ?_⟩
    · simp only [List.map_cons, List.mem_cons, not_or] at hg
      rw [h3 g hg.2]; simp [setRef, hg.1]
    · rcases List.mem_cons.1 hm with he | hm
      · cases he
        rw [h3 f hn.1]
        simp only [setRef, if_true]
        refine ⟨by omega, by omega, ?_⟩
        rw [h2 _ (by omega)]
        simp [Store.alloc, upd]
      · have := h4 g w hm
        exact ⟨by omega, this.2⟩

/-- giving the attributes of `o` to a new object -/
theorem copyAttr_spec (h : Store) (o : BcObj) (hcv : o.refs .cellvars < h.next) (hfv : o.refs .freevars < h.next)
    (elems : List Val) (h1 : Store) (n : BcObj) (a1 : h.next ≤ h1.next) (a2 : ∀ x < h.next, h1.cells x = h.cells x)
    (hn : n.concrete = o.concrete) (he : h.next ≤ n.refs .elems ∧ n.refs .elems < h1.next ∧ h1.cells (n.refs .elems) = elems)
    (hx : o.concrete = true → h.next ≤ n.refs .excTable ∧ n.refs .excTable < h1.next ∧ h1.cells (n.refs .excTable) = []) :
    let r := BcObj.copyAttrFrom h1 n o
    r.2.concrete = o.concrete ∧ r.2.sc = o.sc ∧ (∀ x < h.next, r.1.cells x = h.cells x) ∧ h.next ≤ r.1.next ∧
    r.2.read r.1 .elems = elems ∧ r.2.read r.1 .cellvars = o.read h .cellvars ∧ r.2.read r.1 .freevars = o.read h .freevars ∧
    (∀ f ∈ [Field.elems, .cellvars, .freevars], h.next ≤ r.2.refs f ∧ r.2.refs f < r.1.next) ∧
    (o.concrete = false → r.2.refs .argnames = o.refs .argnames) ∧
    (o.concrete = true → r.2.refs .consts = o.refs .consts ∧ r.2.refs .names = o.refs .names ∧ r.2.refs .varnames = o.refs .varnames ∧
      r.2.read r.1 .excTable = [] ∧ h.next ≤ r.2.refs .excTable ∧ r.2.refs .excTable < r.1.next) := by
  have b := allocFields_spec [(.cellvars, h1.cells (o.refs .cellvars)), (.freevars, h1.cells (o.refs .freevars))] (by simp) h1 n.refs
  unfold BcObj.copyAttrFrom BcObj.read
  simp only at b ⊢
  generalize allocFields h1 n.refs [(.cellvars, h1.cells (o.refs .cellvars)), (.freevars, h1.cells (o.refs .freevars))] = s at b ⊢
  obtain ⟨b1, b2, b3, b4⟩ := b
  have c := b4 .cellvars _ List.mem_cons_self
  have f := b4 .freevars _ (List.mem_cons_of_mem _ List.mem_cons_self)
  have e2 := b3 .elems (by simp)
  have x2 := b3 .excTable (by simp)
  have rf : ∀ g, g ∈ [Field.elems, .cellvars, .freevars, .excTable] → (if o.concrete = true then setRef (setRef (setRef s.2 .consts (o.refs .consts)) .names (o.refs .names)) .varnames (o.refs .varnames)
      else setRef s.2 .argnames (o.refs .argnames)) g = s.2 g := by
    intro g hg
    simp only [List.mem_cons, List.not_mem_nil, or_false] at hg
    rcases hg with rfl | rfl | rfl | rfl <;> split <;> rfl
  refine ⟨hn, trivial, fun x hx => (b2 x (by omega)).trans (a2 x hx), by omega, ?_, ?_, ?_, ?_, fun hc => ?_, fun hc => ?_⟩
  · rw [rf _ (by simp), e2, b2 _ he.2.1]; exact he.2.2
  · rw [rf _ (by simp), c.2.2]; exact a2 _ hcv
  · rw [rf _ (by simp), f.2.2]; exact a2 _ hfv
  · intro g hg
    simp only [List.mem_cons, List.not_mem_nil, or_false] at hg
    rcases hg with rfl | rfl | rfl
    · rw [rf _ (by simp), e2]; omega
    · rw [rf _ (by simp)]; omega
    · rw [rf _ (by simp)]; omega
  · rw [if_neg (by simp [hc])]; rfl
  · have hx := hx hc
    refine ⟨by rw [if_pos hc]; rfl, by rw [if_pos hc]; rfl, by rw [if_pos hc]; rfl, ?_, ?_, ?_⟩
    · rw [rf _ (by simp), x2, b2 _ hx.2.1]; exact hx.2.2
    · rw [rf _ (by simp), x2]; omega
    · rw [rf _ (by simp), x2]; omega

/-- what a fresh object built from `elems` and then given the attributes of `o` looks like -/
theorem make_spec (h : Store) (o : BcObj) (hl : o.Live h) (elems : List Val) :
    let r := BcObj.copyAttrFrom (BcObj.init h o.concrete elems).1 (BcObj.init h o.concrete elems).2 o
    r.2.concrete = o.concrete ∧ r.2.sc = o.sc ∧ (∀ x < h.next, r.1.cells x = h.cells x) ∧ h.next ≤ r.1.next ∧
    r.2.read r.1 .elems = elems ∧ r.2.read r.1 .cellvars = o.read h .cellvars ∧ r.2.read r.1 .freevars = o.read h .freevars ∧
    (∀ f ∈ [Field.elems, .cellvars, .freevars], h.next ≤ r.2.refs f ∧ r.2.refs f < r.1.next) ∧
    (o.concrete = false → r.2.refs .argnames = o.refs .argnames) ∧
    (o.concrete = true → r.2.refs .consts = o.refs .consts ∧ r.2.refs .names = o.refs .names ∧ r.2.refs .varnames = o.refs .varnames ∧
      r.2.read r.1 .excTable = [] ∧ h.next ≤ r.2.refs .excTable ∧ r.2.refs .excTable < r.1.next) := by
  obtain ⟨conc, sc, refs⟩ := o
  have hcv : refs .cellvars < h.next := hl .cellvars (by cases conc <;> simp [BcObj.fields])
  have hfv : refs .freevars < h.next := hl .freevars (by cases conc <;> simp [BcObj.fields])
  cases conc with
  | false =>
    obtain ⟨a1, a2, a3, a4⟩ := allocFields_spec [(.elems, elems), (.cellvars, []), (.freevars, []), (.argnames, [])] (by simp) h (fun _ => 0)
    exact copyAttr_spec h _ hcv hfv elems _ _ a1 a2 rfl (a4 .elems elems (by simp)) (fun h => by cases h)
  | true =>
    obtain ⟨a1, a2, a3, a4⟩ := allocFields_spec [(.elems, elems), (.cellvars, []), (.freevars, []), (.consts, []), (.names, []), (.varnames, []), (.excTable, [])] (by simp) h (fun _ => 0)
    exact copyAttr_spec h _ hcv hfv elems _ _ a1 a2 rfl (a4 .elems elems (by simp)) (fun _ => a4 .excTable [] (by simp))

/-- C38, Bytecode: `copy()` and `[start:stop]` keep the class, all the attributes and the (selected) elements; the
original is left as it was. -/
theorem C38_bytecode (h : Store) (o : BcObj) (hl : o.Live h) (hc : o.concrete = false) :
    SameContent h o (o.copy h).1 (o.copy h).2 [.elems, .cellvars, .freevars, .argnames] ∧
    SameContent h o (o.copy h).1 o [.elems, .cellvars, .freevars, .argnames] := by
  obtain ⟨m1, m2, m3, m4, m5, m6, m7, m8, m9, _⟩ := make_spec h o hl (h.cells (o.refs .elems))
  have hf : BcObj.fields o.concrete = [.elems, .cellvars, .freevars, .argnames] := by rw [hc]; rfl
  refine ⟨⟨m1, m2, fun f hf' => ?_⟩, rfl, rfl, fun f hf' => m3 _ (hl f (by rw [hf]; exact hf'))⟩
  simp only [List.mem_cons, List.not_mem_nil, or_false] at hf'
  rcases hf' with rfl | rfl | rfl | rfl
  · exact m5
  · exact m6
  · exact m7
  · show (o.copy h).1.cells ((o.copy h).2.refs .argnames) = _
    exact (congrArg _ (m9 hc)).trans (m3 _ (hl .argnames (by rw [hf]; simp)))

/-- C38, ConcreteBytecode: the same but for the exception table, which is lost (`C38_concrete_false`). -/
theorem C38_concrete (h : Store) (o : BcObj) (hl : o.Live h) (hc : o.concrete = true) :
    SameContent h o (o.copy h).1 (o.copy h).2 [.elems, .cellvars, .freevars, .consts, .names, .varnames] ∧
    SameContent h o (o.copy h).1 o [.elems, .cellvars, .freevars, .consts, .names, .varnames, .excTable] ∧
    (o.copy h).2.read (o.copy h).1 .excTable = [] := by
  obtain ⟨m1, m2, m3, m4, m5, m6, m7, m8, _, m9⟩ := make_spec h o hl (h.cells (o.refs .elems))
  obtain ⟨n1, n2, n3, n4, _⟩ := m9 hc
  have hf : BcObj.fields o.concrete = [.elems, .cellvars, .freevars, .consts, .names, .varnames, .excTable] := by rw [hc]; rfl
  refine ⟨⟨m1, m2, fun f hf' => ?_⟩, ⟨rfl, rfl, fun f hf' => m3 _ (hl f (by rw [hf]; exact hf'))⟩, n4⟩
  simp only [List.mem_cons, List.not_mem_nil, or_false] at hf'
  rcases hf' with rfl | rfl | rfl | rfl | rfl | rfl
  · exact m5
  · exact m6
  · exact m7
  · exact (congrArg _ n1).trans (m3 _ (hl .consts (by rw [hf]; simp)))
  · exact (congrArg _ n2).trans (m3 _ (hl .names (by rw [hf]; simp)))
  · exact (congrArg _ n3).trans (m3 _ (hl .varnames (by rw [hf]; simp)))

/-- C38, slices: the elements are those selected, the attributes those of the original (but for the exception table of
a ConcreteBytecode). -/
theorem C38_slice (h : Store) (o : BcObj) (hl : o.Live h) (start stop : Nat) :
    (o.slice h start stop).2.concrete = o.concrete ∧ (o.slice h start stop).2.sc = o.sc ∧
    (o.slice h start stop).2.read (o.slice h start stop).1 .elems = ((o.read h .elems).take stop).drop start ∧
    ∀ f ∈ BcObj.fields o.concrete, f ≠ .elems → f ≠ .excTable →
      (o.slice h start stop).2.read (o.slice h start stop).1 f = o.read h f := by
  obtain ⟨m1, m2, m3, m4, m5, m6, m7, m8, m8', m9⟩ := make_spec h o hl (((h.cells (o.refs .elems)).take stop).drop start)
  refine ⟨m1, m2, m5, fun f hf he hx => ?_⟩
  have hlf := hl f hf
  cases hc : o.concrete with
  | false =>
    rw [hc] at hf
    simp only [BcObj.fields, Bool.false_eq_true, if_false, List.mem_cons, List.not_mem_nil, or_false] at hf
    rcases hf with rfl | rfl | rfl | rfl
    · exact absurd rfl he
    · exact m6
    · exact m7
    · exact (congrArg _ (m8' hc)).trans (m3 _ hlf)
  | true =>
    obtain ⟨n1, n2, n3, n4, _⟩ := m9 hc
    rw [hc] at hf
    simp only [BcObj.fields, if_true, List.mem_cons, List.not_mem_nil, or_false] at hf
    rcases hf with rfl | rfl | rfl | rfl | rfl | rfl | rfl
    · exact absurd rfl he
    · exact m6
    · exact m7
    · exact (congrArg _ n1).trans (m3 _ hlf)
    · exact (congrArg _ n2).trans (m3 _ hlf)
    · exact (congrArg _ n3).trans (m3 _ hlf)
    · exact absurd rfl hx

/-- C38 is false for ConcreteBytecode: the copy has no exception table. -/
theorem C38_concrete_false : ∃ (h : Store) (o : BcObj), o.concrete = true ∧ o.Live h ∧ (o.copy h).2.read (o.copy h).1 .excTable ≠ o.read h .excTable := by
  refine ⟨⟨fun x => if x = 6 then [.exc ⟨0, 4, 10, 0, true⟩] else [], 7⟩, ⟨true, Scalars.default, fun
    | .elems => 0 | .cellvars => 1 | .freevars => 2 | .consts => 3 | .names => 4 | .varnames => 5 | .excTable => 6 | .argnames => 0⟩, rfl, ?_, by decide⟩
  intro f hf
  cases f <;> decide

/-- The attributes whose list the copy shares with the original. -/
def shared : Field → Bool
  | .argnames | .consts | .names | .varnames => true
  | _ => false

/-- An edit that leaves the shared lists alone (replacing them by new lists is fine). -/
def Edit.private : Edit → Prop
  | .mutate f _ => shared f = false ∧ f ∈ BcObj.fields true
  | _ => True

/-- A copy is independent of the original for all later edits of the copy that do not mutate a shared list: whatever
the edits, the original keeps its content. -/
theorem C38_independent (h : Store) (o : BcObj) (hl : o.Live h) (es : List Edit)
    (hp : ∀ e ∈ es, e.private) (hx : o.concrete = false → ∀ e ∈ es, ∀ v, e ≠ .mutate .excTable v) :
    SameContent h o (es.foldl BcObj.edit (o.copy h)).1 o (BcObj.fields o.concrete) := by
  obtain ⟨m1, m2, m3, m4, m5, m6, m7, m8, m8', m9⟩ := make_spec h o hl (h.cells (o.refs .elems))
  have inv : ∀ (es : List Edit) (s : Store × BcObj), (∀ e ∈ es, e.private) → (o.concrete = false → ∀ e ∈ es, ∀ v, e ≠ .mutate .excTable v) →
      h.next ≤ s.1.next → (∀ x < h.next, s.1.cells x = h.cells x) →
      (∀ f ∈ [Field.elems, .cellvars, .freevars], h.next ≤ s.2.refs f) → (o.concrete = true → h.next ≤ s.2.refs .excTable) →
      ∀ x < h.next, (es.foldl BcObj.edit s).1.cells x = h.cells x := by
    intro es
    induction es with
    | nil => intro s _ _ _ h2 _ _; exact h2
    | cons e r ih =>
      intro s hp hx h1 h2 h3 h4
      refine ih _ (fun e' he => hp e' (List.mem_cons_of_mem _ he)) (fun hc e' he => hx hc e' (List.mem_cons_of_mem _ he)) ?_ ?_ ?_ ?_
      · cases e <;> simp only [BcObj.edit, Store.alloc] <;> omega
      · intro x hxl
        cases e with
        | mutate f v =>
          have hpf := hp _ List.mem_cons_self
          have hfr : h.next ≤ s.2.refs f := by
            cases f with
            | elems => exact h3 _ (by simp)
            | cellvars => exact h3 _ (by simp)
            | freevars => exact h3 _ (by simp)
            | excTable =>
              cases hc : o.concrete with
              | true => exact h4 hc
              | false => exact absurd rfl (hx hc _ List.mem_cons_self v)
            | argnames => exact absurd hpf.1 (by decide)
            | consts => exact absurd hpf.1 (by decide)
            | names => exact absurd hpf.1 (by decide)
            | varnames => exact absurd hpf.1 (by decide)
          simp only [BcObj.edit, upd]
          rw [if_neg (by omega)]; exact h2 x hxl
        | assign f v => simp only [BcObj.edit]; rw [alloc_old _ _ _ (by omega)]; exact h2 x hxl
        | scalars _ => exact h2 x hxl
      · intro f hf
        cases e with
        | mutate _ _ => exact h3 f hf
        | assign g v =>
          simp only [BcObj.edit, setRef]
          split
          · exact h1
          · exact h3 f hf
        | scalars _ => exact h3 f hf
      · intro hc
        cases e with
        | mutate _ _ => exact h4 hc
        | assign g v =>
          simp only [BcObj.edit, setRef]
          split
          · exact h1
          · exact h4 hc
        | scalars _ => exact h4 hc
  refine ⟨rfl, rfl, fun f hf => ?_⟩
  exact inv es _ hp hx m4 m3 (fun f hf => (m8 f hf).1) (fun hc => (m9 hc).2.2.2.2.1) _ (hl f hf)

/-- … and it is not for a shared list: appending to `argnames` of a copy changes the original. -/
theorem C38_independent_false : ∃ (h : Store) (o : BcObj) (v : List Val), o.concrete = false ∧ o.Live h ∧
    o.read (BcObj.edit (o.copy h) (.mutate .argnames v)).1 .argnames ≠ o.read h .argnames := by
  refine ⟨⟨fun _ => [], 4⟩, ⟨false, Scalars.default, fun | .elems => 0 | .cellvars => 1 | .freevars => 2 | _ => 3⟩, [.arg (.str "x")], rfl, ?_, by decide⟩
  intro f hf
  cases f <;> decide

/-- C38, `ConcreteInstr.copy()`: the copy of a valid instruction exists and compares equal (name, argument, location),
but the number of redundant EXTENDED_ARG prefixes is forgotten. -/
theorem C38_concrete_instr_copy (P : Platform) (s : CInstr) (hv : ValidCInstr P s) :
    s.copy P = .ok { s with ext := none, size := sizeFor s.arg none } := by
  obtain ⟨v1, v2, v3, v4, v5, v6, _⟩ := hv
  obtain ⟨n, op, a, l, e, z⟩ := s
  simp only at v1 v2 v3 v4 v5
  have hchk : CInstr.checkArg P op (CArg.ofOpt a) = .ok a := by
    unfold CInstr.checkArg
    cases a with
    | none =>
      simp only [CArg.ofOpt]
      cases hh : P.hasArg op with
      | true => exact absurd (v3 hh) (by simp)
      | false => simp
    | some a =>
      have := v5 a rfl
      have hc : checkArgInt (.int (a : Int)) = .ok a := by
        unfold checkArgInt; simp only; rw [if_pos (by omega)]; simp
      simp only [CArg.ofOpt]
      cases hh : P.hasArg op with
      | true => simp [hc, Except.map]
      | false =>
        by_cases h0 : op = 0
        · simp [h0, hc, Except.map]
        · exact absurd (v4 hh h0) (by simp)
  have hsz : computeSize a none = sizeFor a none := by
    rcases set_spec P ⟨"", 0, none, none, none, 0⟩ (some n) (CArg.ofOpt a) with ⟨_, _, _, _, _, h2⟩ | ⟨e, he⟩
    · have := (h2 (by simp)).size_eq
      unfold CInstr.set_ lookupName at this
      simp only [v1] at this
      rw [if_neg (by omega)] at this
      simpa only [hchk] using this
    · unfold CInstr.set_ lookupName at he
      simp only [v1] at he
      rw [if_neg (by omega)] at he
      simp only [hchk] at he
      simp at he
  unfold CInstr.copy CInstr.make CInstr.set_ lookupName CInstr.argVal
  simp only [v1]
  rw [if_neg (by omega)]
  simp only [hchk, bind, Except.bind, hsz]
  cases l <;> simp [initLocation, pure, Except.pure]

/-- … so the size is kept exactly when the instruction is not larger than needed. -/
theorem C38_concrete_instr_size (P : Platform) (s : CInstr) (hv : ValidCInstr P s) :
    (∃ c, s.copy P = .ok c ∧ c.size = s.size) ↔ s.size = sizeFor s.arg none := by
  rw [C38_concrete_instr_copy P s hv]
  constructor
  · rintro ⟨c, hc, h⟩; cases hc; exact h.symm
  · intro h; exact ⟨_, rfl, h.symm⟩

/-- C38 is false for `ConcreteInstr` read from code with a redundant EXTENDED_ARG: the copy is smaller. -/
theorem C38_concrete_instr_false : ∃ s c, CInstr.make Py311.platform (some "LOAD_CONST") (.int 1) .unset none (some 1) = .ok s ∧
    s.copy Py311.platform = .ok c ∧ s.size = 4 ∧ c.size = 2 :=
  ⟨⟨"LOAD_CONST", 100, some 1, none, some 1, 4⟩, ⟨"LOAD_CONST", 100, some 1, none, none, 2⟩, by decide +kernel, by decide +kernel, rfl, rfl⟩

/-- Concrete case: a Bytecode of one element with an argument name, copied then changed in every private way. -/
example : ∃ (h : Store) (o : BcObj), o.concrete = false ∧ o.Live h ∧ o.read h .elems = [.elem (.label 0)] ∧
    (o.copy h).2.read (BcObj.edit (o.copy h) (.mutate .elems [])).1 .elems = [] ∧
    o.read (BcObj.edit (o.copy h) (.mutate .elems [])).1 .elems = [.elem (.label 0)] := by
  refine ⟨⟨fun x => if x = 0 then [.elem (.label 0)] else [.arg (.str "x")], 4⟩,
    ⟨false, Scalars.default, fun | .elems => 0 | .cellvars => 1 | .freevars => 2 | _ => 3⟩, rfl, ?_, by decide, by decide, by decide⟩
  intro f hf
  cases f <;> decide

end Verif
