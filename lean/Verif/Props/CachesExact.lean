import Verif.Props.ConvertEx
import Verif.Proofs.AssembleC
import Verif.Spec.CachesGiven
/-
C19, exact version: with CACHE instructions written by hand.
-/
namespace Verif
open Spec
section
variable {κ : Type} [DecidableEq κ]
variable {P : Platform} {key : Arg → κ}

theorem make_name {n : String} {a : CArg} {loc : Option Loc} {ci : CInstr} (h : CInstr.make P (some n) a .unset loc = .ok ci) :
    ci.name = n ∧ P.opmap n = some ci.opcode := by
  unfold CInstr.make CInstr.set_ at h
  cases hl : lookupName P (some n) with
  | error e => rw [hl] at h; simp [bind, Except.bind] at h
  | ok p =>
    obtain ⟨n', op⟩ := p
    obtain ⟨h1, h2, h3⟩ := lookupName_ok hl
    simp only [Option.some.injEq] at h1; subst h1
    rw [hl] at h
    simp only at h
    cases hc : CInstr.checkArg P op a with
    | error e => rw [hc] at h; simp [bind, Except.bind] at h
    | ok a' =>
      rw [hc] at h
      simp only at h
      obtain ⟨_, _, h⟩ := except_bind_ok h
      obtain ⟨_, _, h⟩ := except_bind_ok h
      simp only [pure, Except.pure, Except.ok.injEq] at h
      subst h
      exact ⟨rfl, h2⟩

theorem set_name {ci ci' : CInstr} {a : CArg} (h : ci.set_ P (some ci.name) a = (ci', .ok ())) :
    ci'.name = ci.name ∧ P.opmap ci'.name = some ci'.opcode := by
  unfold CInstr.set_ at h
  cases hl : lookupName P (some ci.name) with
  | error e => rw [hl] at h; simp at h
  | ok p =>
    obtain ⟨n', op⟩ := p
    obtain ⟨h1, h2, h3⟩ := lookupName_ok hl
    simp only [Option.some.injEq] at h1; subst h1
    rw [hl] at h
    simp only at h
    cases hc : CInstr.checkArg P op a with
    | error e => rw [hc] at h; simp at h
    | ok a' =>
      rw [hc] at h
      simp only [Prod.mk.injEq, and_true] at h
      subst h
      exact ⟨rfl, h2⟩

/-- Names, with the opcodes right. -/
def Named (P : Platform) (l : List CInstr) (ns : List String) : Prop :=
  l.map (·.name) = ns ∧ ∀ ci ∈ l, P.opmap ci.name = some ci.opcode

theorem Named.app {l l' : List CInstr} {ns ns' : List String} (h : Named P l ns) (h' : Named P l' ns') : Named P (l ++ l') (ns ++ ns') := by
  refine ⟨by rw [List.map_append, h.1, h'.1], fun ci hci => ?_⟩
  rcases List.mem_append.1 hci with h1 | h1
  · exact h.2 ci h1
  · exact h'.2 ci h1

theorem Named.set {l : List CInstr} {ns : List String} (h : Named P l ns) {k : Nat} {ci ci' : CInstr} (hk : l[k]? = some ci)
    (hn : ci'.name = ci.name) (ho : P.opmap ci'.name = some ci'.opcode) : Named P (l.set k ci') ns := by
  constructor
  · rw [← h.1, List.map_set, hn]
    apply List.ext_getElem?
    intro m
    rw [List.getElem?_set]
    split
    · rename_i hm
      subst hm
      have hlt := (List.getElem?_eq_some_iff.1 hk).1
      simp only [List.getElem?_map, hk, List.length_map, hlt, if_true, Option.map_some]
    · rfl
  · intro x hx
    rcases List.mem_or_eq_of_mem_set hx with h1 | h1
    · exact h.2 x h1
    · rw [h1]; exact ho

theorem Named.setArg {l out : List CInstr} {ns : List String} (h : Named P l ns) {k : Nat} {a : CArg} (hs : setArgAt P l k a = .ok out) :
    Named P out ns := by
  unfold setArgAt at hs
  split at hs
  · simp at hs
  · rename_i ci hk
    simp only at hs
    obtain ⟨u, hu, hs⟩ := except_bind_ok hs
    simp only [pure, Except.pure, Except.ok.injEq] at hs
    subst hs
    obtain ⟨h1, h2⟩ := set_name (ci' := (ci.set_ P (some ci.name) a).1) (a := a) (Prod.ext rfl (by simpa using hu))
    exact h.set hk h1 h2

theorem fold_keep {α β : Type} {Q : α → Prop} {f : α → β → Py α} (hf : ∀ a b a', Q a → f a b = .ok a' → Q a') (l : List β) (a a' : α) (hq : Q a)
    (h : l.foldlM f a = .ok a') : Q a' := by
  induction l generalizing a with
  | nil => simp only [List.foldlM_nil, pure, Except.pure, Except.ok.injEq] at h; subst h; exact hq
  | cons b l ih =>
    rw [List.foldlM_cons] at h
    obtain ⟨a1, h1, h⟩ := except_bind_ok h
    exact ih a1 (hf _ _ _ hq h1) h

theorem Named.fixCells {A : Attrs} {st : Conv} {out : List CInstr} {ns : List String} (h : Named P st.instrs ns) (hs : fixCells P A st = .ok out) :
    Named P out ns := by
  unfold Verif.fixCells at hs
  have free : ∀ (l l' : List CInstr), Named P l ns → st.freeInstrs.foldlM (fun instrs index => do
      match instrs[index]? with
      | none => throw PyErr.indexError
      | some ci => setArgAt P instrs index (.int (ci.arg.getD 0 + freeOffset P A st.tabs.varnames : Nat))) l = .ok l' → Named P l' ns := by
    intro l l' hl hf
    refine fold_keep (Q := fun l => Named P l ns) ?_ _ _ _ hl hf
    intro a b a' hq hf
    split at hf
    · simp [throw, throwThe, MonadExceptOf.throw] at hf
    · exact hq.setArg hf
  split at hs
  · obtain ⟨l1, h1, hs⟩ := except_bind_ok hs
    refine free _ _ ?_ hs
    refine fold_keep (Q := fun l => Named P l ns) ?_ _ _ _ h h1
    intro a b a' hq hf
    split at hf
    · simp [throw, throwThe, MonadExceptOf.throw] at hf
    · split at hf
      · simp [throw, throwThe, MonadExceptOf.throw] at hf
      · exact hq.setArg hf
  · obtain ⟨l1, h1, hs⟩ := except_bind_ok hs
    simp only [pure, Except.pure, Except.ok.injEq] at h1
    subst h1
    exact free _ _ h hs

theorem Named.jumpLoop {labels jumps : List (Nat × Nat)} {n : Nat} {l out : List CInstr} {ns : List String} (h : Named P l ns)
    (hs : jumpLoop P labels jumps n l = .ok out) : Named P out ns := by
  induction n generalizing l with
  | zero => simp [Verif.jumpLoop] at hs
  | succ n ih =>
    unfold Verif.jumpLoop at hs
    obtain ⟨⟨l', m⟩, h1, hs⟩ := except_bind_ok hs
    have hl' : Named P l' ns := by
      unfold jumpPass at h1
      have := fold_keep (Q := fun s : List CInstr × Bool => Named P s.1 ns) ?_ _ _ _ h h1
      · exact this
      · intro a b a' hq hf
        unfold jumpStep at hf
        obtain ⟨ti, _, hf⟩ := except_bind_ok hf
        split at hf
        · rename_i target own ci _ _ hk
          simp only at hf
          obtain ⟨u, hu, hf⟩ := except_bind_ok hf
          simp only [pure, Except.pure, Except.ok.injEq] at hf
          subst hf
          obtain ⟨e1, e2⟩ := set_name (ci' := (ci.set_ P (some ci.name) (.int (jumpArg P ci target own))).1)
            (a := .int (jumpArg P ci target own)) (Prod.ext rfl (by simpa using hu))
          exact hq.set hk e1 e2
        · simp at hf
    simp only at hs
    split at hs
    · exact ih hl' hs
    · simp only [pure, Except.pure, Except.ok.injEq] at hs
      subst hs; exact hl'

theorem mkCaches_named {n : Nat} {loc : Option Loc} {cs : List CInstr} (h : mkCaches P n loc = .ok cs) :
    Named P cs (List.replicate n "CACHE") := by
  induction n generalizing cs with
  | zero => simp only [mkCaches, List.replicate_zero, List.mapM_nil, pure, Except.pure, Except.ok.injEq] at h; subst h; exact ⟨rfl, by simp⟩
  | succ n ih =>
    unfold mkCaches at h
    rw [List.replicate_succ, List.mapM_cons] at h
    obtain ⟨ci, h1, h⟩ := except_bind_ok h
    obtain ⟨cs', h2, h⟩ := except_bind_ok h
    simp only [pure, Except.pure, Except.ok.injEq] at h
    subst h
    obtain ⟨e1, e2⟩ := make_name h1
    have := ih h2
    refine ⟨by rw [List.map_cons, this.1, e1, List.replicate_succ], ?_⟩
    intro x hx
    rcases List.mem_cons.1 hx with rfl | hx
    · rw [e1]; exact e2
    · exact this.2 x hx

theorem cacheStep_auto {st st' : Conv} {ns : List String} (h : st.cacheStep P false = .ok st') (hn : Named P st.instrs ns) (hm : st.seenManual = false) :
    Named P st'.instrs (ns ++ List.replicate st.required "CACHE") ∧ st'.required = 0 ∧ st'.seenManual = false := by
  unfold Conv.cacheStep at h
  simp only [Bool.false_eq_true, if_false] at h
  split at h
  · rename_i h0
    simp only [Except.ok.injEq] at h; subst h
    rw [h0]; simpa using ⟨hn, hm⟩
  · rw [if_neg (by simp [hm])] at h
    obtain ⟨cs, h1, h⟩ := except_bind_ok h
    simp only [pure, Except.pure, Except.ok.injEq] at h
    subst h
    exact ⟨hn.app (mkCaches_named h1), rfl, rfl⟩

theorem push_named (h11 : P.py311 = true) {st st' : Conv} {ns : List String} {n : String} {a : CArg} {j : Option Nat}
    (h : st.push P n a j = .ok st') (hn : Named P st.instrs ns) :
    Named P st'.instrs (ns ++ [n]) ∧ st'.required = entriesOf P n ∧ st'.seenManual = false := by
  unfold Conv.push at h
  obtain ⟨ci, hci, h⟩ := except_bind_ok h
  simp only [pure, Except.pure, Except.ok.injEq] at h
  subst h
  obtain ⟨e1, e2⟩ := make_name hci
  refine ⟨hn.app ⟨by simp [e1], by intro x hx; simp at hx; subst hx; rw [e1]; exact e2⟩, ?_, by simp [h11]⟩
  simp [h11, CInstr.useCacheOpcodes, entriesOf, e2]

/-- What an element that is not an instruction leaves. -/
theorem elem_other {A : Attrs} {st st' : Conv} {e : BElem} (he : ∀ i, e ≠ .instr i) (h : st.elem P key A e = .ok st') :
    st'.instrs = st.instrs ∧ st'.required = st.required ∧ st'.seenManual = st.seenManual := by
  cases e with
  | label l => simp only [Conv.elem, Except.ok.injEq] at h; subst h; simp
  | setLineno l => simp only [Conv.elem, Except.ok.injEq] at h; subst h; simp
  | tryBegin t =>
    simp only [Conv.elem] at h
    split at h
    · simp at h
    · simp only [Except.ok.injEq] at h; subst h; simp
  | tryEnd id =>
    simp only [Conv.elem] at h
    split at h
    · simp only [Except.ok.injEq] at h; subst h; simp
    · simp at h
  | instr i => exact absurd rfl (he i)

theorem elem_instr (hP : P.WF) (h11 : P.py311 = true) {A : Attrs} {st st' : Conv} {i : Instr} {ns : List String}
    (h : st.elem P key A (.instr i) = .ok st') (hn : Named P st.instrs ns) :
    (Named P st'.instrs (ns ++ [i.name]) ∧ st'.required = entriesOf P i.name ∧ st'.seenManual = false) ∨
    ∃ n1 n2, P.dualSingles i.opcode = some (n1, n2) ∧ Named P st'.instrs (ns ++ [n1, n2]) ∧ st'.required = 0 ∧ st'.seenManual = false := by
  simp only [Conv.elem] at h
  obtain ⟨⟨T, enc⟩, henc, h⟩ := except_bind_ok h
  cases enc with
  | plain a => exact .inl (push_named h11 h hn)
  | jump a => exact .inl (push_named h11 h hn)
  | cell a => exact .inl (push_named h11 h hn)
  | free a => exact .inl (push_named h11 h hn)
  | split n1 i1 n2 i2 =>
    right
    simp only at h
    obtain ⟨ci, hci, h⟩ := except_bind_ok h
    obtain ⟨e1, e2⟩ := make_name hci
    obtain ⟨p1, p2, p3⟩ := push_named h11 (ns := ns ++ [n1]) h
      (hn.app ⟨by simp [e1], by intro x hx; simp at hx; subst hx; rw [e1]; exact e2⟩)
    have hs := (encode_split henc).1
    refine ⟨n1, n2, hs, by simpa using p1, ?_, p3⟩
    rw [p2]
    obtain ⟨o, ho, _⟩ := hP.dual_single _ _ _ hs n2 (.inr rfl)
    simp [entriesOf, ho, hP.dual_cache _ _ _ hs n2 (.inr rfl) o ho]

theorem cache_not_dual (hP : P.WF) (h11 : P.py311 = true) {i : Instr} (hv : ValidInstr P i) (hi : i.name = "CACHE") : P.dualSingles i.opcode = none := by
  have h0 : i.opcode = 0 := by
    have := hv.name_op
    rw [hi, (hP.cache h11).1] at this
    simpa using this.symm
  cases hd : P.dualSingles i.opcode with
  | none => rfl
  | some p =>
    have hdu : P.dual i.opcode = true := by simp [Platform.dual, hd]
    have hl := hP.dual_local _ hdu
    have := hP.operand_arg _ _ hv.name_op hv.base (by simp [hl])
    rw [h0, hP.zero] at this
    simp at this

theorem fold_laid (hP : P.WF) (h11 : P.py311 = true) {A : Attrs} (es : List BElem) (hv : ∀ i, .instr i ∈ es → ValidInstr P i)
    (st s1 s2 : Conv) (ns : List String) (hn : Named P st.instrs ns) (hm : st.seenManual = false)
    (h1 : es.foldlM (Conv.step P key A) st = .ok s1) (h2 : s1.cacheStep P false = .ok s2) :
    (st.required = 0 ∧ NoCacheFirst es ∧ ∃ ms, Named P s2.instrs (ns ++ ms) ∧ Laid P es ms) ∨
    (st.required ≠ 0 ∧ ∃ ms, (NoCacheFirst es ∧ Named P s2.instrs (ns ++ List.replicate st.required "CACHE" ++ ms) ∧ Laid P es ms) ∨
      ∃ i es', es = .instr i :: es' ∧ i.name = "CACHE" ∧ NoCacheFirst es' ∧ Named P s2.instrs (ns ++ "CACHE" :: ms) ∧ Laid P es' ms) := by
  induction es generalizing st ns with
  | nil =>
    simp only [List.foldlM_nil, pure, Except.pure, Except.ok.injEq] at h1
    subst h1
    obtain ⟨p1, _, _⟩ := cacheStep_auto h2 hn hm
    have hno : NoCacheFirst [] := by intro i es' h; simp at h
    by_cases h0 : st.required = 0
    · exact .inl ⟨h0, hno, [], by rw [h0] at p1; simpa using p1, .nil⟩
    · exact .inr ⟨h0, [], .inl ⟨hno, by simpa using p1, .nil⟩⟩
  | cons e es ih =>
    have ih := ih (fun i hi => hv i (by simp [hi]))
    rw [List.foldlM_cons] at h1
    obtain ⟨sa, ha, h1'⟩ := except_bind_ok h1
    clear h1
    unfold Conv.step at ha
    obtain ⟨sb, hb, ha⟩ := except_bind_ok ha
    cases hc : e.isCache with
    | true =>
      cases e with
      | instr i =>
        have hi : i.name = "CACHE" := by simpa [BElem.isCache] using hc
        rw [hc] at hb
        unfold Conv.cacheStep at hb
        simp only [if_true] at hb
        split at hb
        · simp at hb
        · rename_i h0
          simp only [Except.ok.injEq] at hb
          have hnb : Named P sb.instrs ns := by subst hb; exact hn
          rcases elem_instr hP h11 ha hnb with ⟨p1, p2, p3⟩ | ⟨n1, n2, hd, _⟩
          · have hr : sa.required = 0 := by rw [p2, hi]; simp [entriesOf, (hP.cache h11).1, hP.cache_zero]
            rcases ih sa _ p1 p3 h1' with ⟨_, q1, ms, q2, q3⟩ | ⟨q, _⟩
            · refine .inr ⟨h0, ms, .inr ⟨i, es, rfl, hi, q1, ?_, q3⟩⟩
              rw [hi] at q2
              simpa using q2
            · exact absurd hr q
          · rw [cache_not_dual hP h11 (hv i (by simp)) hi] at hd
            simp at hd
      | _ => simp [BElem.isCache] at hc
    | false =>
      have hno : NoCacheFirst (e :: es) := by
        intro i es' h
        simp only [List.cons.injEq] at h
        obtain ⟨rfl, _⟩ := h
        simpa [BElem.isCache] using hc
      rw [hc] at hb
      obtain ⟨p1, p2, p3⟩ := cacheStep_auto hb hn hm
      suffices ∃ ms, Named P s2.instrs (ns ++ List.replicate st.required "CACHE" ++ ms) ∧ Laid P (e :: es) ms by
        obtain ⟨ms, r1, r2⟩ := this
        by_cases h0 : st.required = 0
        · rw [h0] at r1
          exact .inl ⟨h0, hno, ms, by simpa using r1, r2⟩
        · exact .inr ⟨h0, ms, .inl ⟨hno, r1, r2⟩⟩
      by_cases hinstr : ∃ j, e = .instr j
      · obtain ⟨j, rfl⟩ := hinstr
        have hj : j.name ≠ "CACHE" := by simpa [BElem.isCache] using hc
        rcases elem_instr hP h11 ha p1 with ⟨q1, q2, q3⟩ | ⟨n1, n2, hd, q1, q2, q3⟩
        · rcases ih sa _ q1 q3 h1' with ⟨r0, r1, ms, r2, r3⟩ | ⟨r0, ms, ⟨r1, r2, r3⟩ | ⟨i, es', rfl, r1, r2, r3, r4⟩⟩
          · refine ⟨j.name :: ([] ++ ms), by simpa using r2, ?_⟩
            have := Laid.auto (P := P) j es ms hj r1 r3
            rw [q2] at r0
            rwa [r0] at this
          · refine ⟨_, ?_, Laid.auto (P := P) j es ms hj r1 r3⟩
            rw [q2] at r2
            simpa using r2
          · refine ⟨_, ?_, Laid.manual j i es' ms hj r1 (by rw [← q2]; omega) r2 r4⟩
            simpa using r3
        · rcases ih sa _ q1 q3 h1' with ⟨_, r1, ms, r2, r3⟩ | ⟨r0, _⟩
          · exact ⟨_, by simpa using r2, Laid.pair j n1 n2 es ms hj hd r1 r3⟩
          · exact absurd q2 r0
      · have he : ∀ i, e ≠ .instr i := fun i hi => hinstr ⟨i, hi⟩
        obtain ⟨q1, q2, q3⟩ := elem_other he ha
        rcases ih sa _ (by rw [q1]; exact p1) (by rw [q3]; exact p3) h1' with ⟨_, r1, ms, r2, r3⟩ | ⟨r0, _⟩
        · exact ⟨ms, r2, .other e es ms he r3⟩
        · rw [q2, p2] at r0; simp at r0

/-! ### The layout -/

/-- `CachesOK` on the names. -/
def LayNames (P : Platform) : Nat → List String → Prop
  | 0, [] => True
  | _ + 1, [] => False
  | 0, n :: r => n ≠ "CACHE" ∧ LayNames P (entriesOf P n) r
  | k + 1, n :: r => n = "CACHE" ∧ LayNames P k r

theorem cachesOK_names {l : List CInstr} {ns : List String} (h : Named P l ns) (k : Nat) : CachesOK P k l ↔ LayNames P k ns := by
  induction l generalizing ns k with
  | nil => obtain ⟨rfl, _⟩ := h; cases k <;> simp [CachesOK, LayNames]
  | cons ci l ih =>
    obtain ⟨rfl, h2⟩ := h
    have ih := fun k => ih (ns := l.map (·.name)) ⟨rfl, fun x hx => h2 x (by simp [hx])⟩ k
    have e : entriesOf P ci.name = cachesOf P ci := by simp [entriesOf, cachesOf, h2 ci (by simp)]
    cases k with
    | zero => simp only [List.map_cons, CachesOK, LayNames, ih, e]
    | succ k => simp only [List.map_cons, CachesOK, LayNames, ih]

theorem layNames_replicate (k : Nat) (ns : List String) : LayNames P k (List.replicate k "CACHE" ++ ns) ↔ LayNames P 0 ns := by
  induction k with
  | zero => simp
  | succ k ih => rw [List.replicate_succ, List.cons_append]; simp [LayNames, ih]

theorem laid_first {es : List BElem} {ns : List String} (hP : P.WF) (h : Laid P es ns) : (∀ n r, ns = n :: r → n ≠ "CACHE") ∧ NoCacheFirst es := by
  induction h with
  | nil => exact ⟨by simp, by intro i es' h; simp at h⟩
  | other e es ns he _ ih => exact ⟨ih.1, by intro i es' h; simp only [List.cons.injEq] at h; exact absurd h.1 (he i)⟩
  | auto j es ns hj _ _ ih =>
    exact ⟨by intro n r h; simp only [List.cons.injEq] at h; rw [← h.1]; exact hj,
      by intro i es' h; simp only [List.cons.injEq, BElem.instr.injEq] at h; rw [← h.1]; exact hj⟩
  | manual j i es ns hj _ _ _ _ ih =>
    exact ⟨by intro n r h; simp only [List.cons.injEq] at h; rw [← h.1]; exact hj,
      by intro i es' h; simp only [List.cons.injEq, BElem.instr.injEq] at h; rw [← h.1]; exact hj⟩
  | pair j n1 n2 es ns hj hd _ _ ih =>
    exact ⟨by intro n r h; simp only [List.cons.injEq] at h; rw [← h.1]; exact (split_names hd).1,
      by intro i es' h; simp only [List.cons.injEq, BElem.instr.injEq] at h; rw [← h.1]; exact hj⟩

theorem oneEntry_cons {e : BElem} {es : List BElem} (h : NoCacheFirst es) : OneEntryEach P (e :: es) ↔ OneEntryEach P es := by
  constructor
  · intro ho es1 j i es2 he hi
    exact ho (e :: es1) j i es2 (by rw [he]; rfl) hi
  · intro ho es1 j i es2 he hi
    cases es1 with
    | nil => simp only [List.nil_append, List.cons.injEq] at he; exact absurd hi (h i es2 he.2)
    | cons x es1 => simp only [List.cons_append, List.cons.injEq] at he; exact ho es1 j i es2 he.2 hi

theorem laid_ok (hP : P.WF) (h11 : P.py311 = true) {es : List BElem} {ns : List String} (h : Laid P es ns) : LayNames P 0 ns ↔ OneEntryEach P es := by
  induction h with
  | nil => simp [LayNames, OneEntryEach]
  | other e es ns he hl ih => rw [ih, oneEntry_cons (laid_first hP hl).2]
  | auto j es ns hj hno hl ih =>
    rw [oneEntry_cons hno, ← ih]
    simp [LayNames, hj, layNames_replicate]
  | manual j i es ns hj hi hpos hno hl ih =>
    have h1 : OneEntryEach P (.instr j :: .instr i :: es) ↔ entriesOf P j.name = 1 ∧ OneEntryEach P (.instr i :: es) := by
      constructor
      · intro ho
        refine ⟨ho [] j i es rfl hi, fun es1 j' i' es2 he hi' => ho (.instr j :: es1) j' i' es2 (by rw [he]; rfl) hi'⟩
      · rintro ⟨h1, ho⟩ es1 j' i' es2 he hi'
        cases es1 with
        | nil =>
          simp only [List.nil_append, List.cons.injEq, BElem.instr.injEq] at he
          rw [← he.1]; exact h1
        | cons x es1 => simp only [List.cons_append, List.cons.injEq] at he; exact ho es1 j' i' es2 he.2 hi'
    rw [h1, oneEntry_cons hno, ← ih]
    simp only [LayNames, hj, ne_eq, not_false_eq_true, true_and]
    obtain ⟨k, hk⟩ : ∃ k, entriesOf P j.name = k + 1 := ⟨entriesOf P j.name - 1, by omega⟩
    rw [hk]
    simp only [LayNames, true_and, Nat.add_eq_right]
    cases k with
    | zero => simp
    | succ k =>
      simp only [Nat.add_eq_zero_iff, Nat.succ_ne_self, and_false, false_and, iff_false]
      cases ns with
      | nil => simp [LayNames]
      | cons n r => intro hx; exact (laid_first hP hl).1 n r rfl hx.1
  | pair j n1 n2 es ns hj hd hno hl ih =>
    rw [oneEntry_cons hno, ← ih]
    obtain ⟨o1, p1, _⟩ := hP.dual_single _ _ _ hd n1 (.inl rfl)
    obtain ⟨o2, p2, _⟩ := hP.dual_single _ _ _ hd n2 (.inr rfl)
    have e1 : entriesOf P n1 = 0 := by simp [entriesOf, p1, hP.dual_cache _ _ _ hd n1 (.inl rfl) o1 p1]
    have e2 : entriesOf P n2 = 0 := by simp [entriesOf, p2, hP.dual_cache _ _ _ hd n2 (.inr rfl) o2 p2]
    simp [LayNames, e1, e2, (split_names hd).1, (split_names hd).2]

theorem toConcrete_named (hP : P.WF) (h11 : P.py311 = true) {b : Bytecode} {c : Concrete} {passes : Nat}
    (hv : ∀ i, .instr i ∈ b.elems → ValidInstr P i) (h : toConcrete P key passes b = .ok c) :
    ∃ ns, Named P (instrsOf c.elems) ns ∧ Laid P b.elems ns := by
  unfold toConcrete at h
  obtain ⟨st, hst, h⟩ := except_bind_ok h
  obtain ⟨out, hout, h⟩ := except_bind_ok h
  obtain ⟨tab, htab, h⟩ := except_bind_ok h
  simp only [pure, Except.pure, Except.ok.injEq] at h
  subst h
  unfold concreteInstructions at hst
  obtain ⟨loc, hloc, hst⟩ := except_bind_ok hst
  obtain ⟨u, hit, hst⟩ := except_bind_ok hst
  obtain ⟨vs, hvs, hst⟩ := except_bind_ok hst
  obtain ⟨s1, h1, hst⟩ := except_bind_ok hst
  obtain ⟨s2, h2, hst⟩ := except_bind_ok hst
  obtain ⟨l, h3, hst⟩ := except_bind_ok hst
  simp only [pure, Except.pure, Except.ok.injEq] at hst
  subst hst
  rcases fold_laid hP h11 b.elems hv _ s1 s2 [] ⟨rfl, by simp [Conv.init]⟩ rfl h1 h2 with ⟨_, _, ms, q1, q2⟩ | ⟨q, _⟩
  · rw [List.nil_append] at q1
    refine ⟨ms, ?_, q2⟩
    rw [instrsOf_map]
    exact (q1.fixCells h3).jumpLoop hout
  · exact absurd rfl q

/-- **C19 (exact, what is emitted, 3.11+).** -/
theorem C19_exact (hP : P.WF) (h11 : P.py311 = true) {b : Bytecode} {c : Concrete} {passes : Nat}
    (hv : ∀ i, .instr i ∈ b.elems → ValidInstr P i) (h : toConcrete P key passes b = .ok c) :
    Laid P b.elems ((instrsOf c.elems).map (·.name)) := by
  obtain ⟨ns, h1, h2⟩ := toConcrete_named hP h11 hv h
  rw [h1.1]; exact h2

/-- **C19 (exact, when it is right, 3.11+).** The result has the CACHE entries CPython requires iff every CACHE written by
hand follows an instruction that requires exactly one. -/
theorem C19_right_iff (hP : P.WF) (h11 : P.py311 = true) {b : Bytecode} {c : Concrete} {passes : Nat}
    (hv : ∀ i, .instr i ∈ b.elems → ValidInstr P i) (h : toConcrete P key passes b = .ok c) :
    CachesOK P 0 (instrsOf c.elems) ↔ OneEntryEach P b.elems := by
  obtain ⟨ns, h1, h2⟩ := toConcrete_named hP h11 hv h
  rw [cachesOK_names h1, laid_ok hP h11 h2]

/-! ### Refusals -/

/-- The Bytecode without its CACHE instructions. -/
def Bytecode.noCaches (b : Bytecode) : Bytecode := { b with elems := b.elems.filter (fun e => !e.isCache) }

theorem iter_noCaches (es : List BElem) (s : Bool) : (iterElems s (es.filter (fun e => !e.isCache))).2 = (iterElems s es).2 := by
  induction es generalizing s with
  | nil => rfl
  | cons e es ih =>
    cases e with
    | instr i =>
      rw [List.filter_cons]
      split
      · simp [iterElems, ih]
      · simp [iterElems, ih]
    | label l => rw [List.filter_cons_of_pos (by simp [BElem.isCache])]; simp [iterElems, ih]
    | setLineno l => rw [List.filter_cons_of_pos (by simp [BElem.isCache])]; simp [iterElems, ih]
    | tryBegin t =>
      simp only [List.filter_cons, BElem.isCache, Bool.not_false, if_true, iterElems]
      split
      · rfl
      · exact ih _
    | tryEnd t => rw [List.filter_cons_of_pos (by simp [BElem.isCache])]; simp [iterElems, ih]

theorem prepass_noCaches (hP : P.WF) (h11 : P.py311 = true) (es : List BElem) (hv : ∀ i, .instr i ∈ es → ValidInstr P i) (vs : List String) :
    prepass P vs (es.filter (fun e => !e.isCache)) = prepass P vs es := by
  unfold prepass
  split
  · induction es generalizing vs with
    | nil => rfl
    | cons e es ih =>
      have ih := fun vs => ih (fun i hi => hv i (by simp [hi])) vs
      rw [List.filter_cons]
      split
      · rw [List.foldlM_cons, List.foldlM_cons]
        congr 1
        funext x
        exact ih x
      · rename_i hc
        rw [List.foldlM_cons, ih]
        cases e with
        | instr i =>
          have hi : i.name = "CACHE" := by simpa [BElem.isCache] using hc
          have := cache_not_dual hP h11 (hv i (by simp)) hi
          simp [prepassElem, Platform.dual, this, bind, Except.bind]
        | _ => simp [BElem.isCache] at hc
  · rfl

theorem make_locs {n : String} {a : CArg} {l1 : Option Loc} {ci : CInstr} (h : CInstr.make P (some n) a .unset l1 = .ok ci) (l2 : Option Loc) :
    ∃ ci', CInstr.make P (some n) a .unset l2 = .ok ci' := by
  unfold CInstr.make at h ⊢
  simp only at h ⊢
  obtain ⟨u, hu, h⟩ := except_bind_ok h
  rw [hu]
  simp only [bind, Except.bind, initLocation]
  cases l2 <;> exact ⟨_, rfl⟩

theorem cacheStep_alike (hP : P.WF) (h11 : P.py311 = true) (st : Conv) (hm : st.seenManual = false) :
    ∃ st', st.cacheStep P false = .ok st' ∧ st'.tabs = st.tabs ∧ st'.blocks = st.blocks ∧ st'.seenManual = false := by
  unfold Conv.cacheStep
  simp only [Bool.false_eq_true, if_false]
  split
  · exact ⟨st, rfl, rfl, rfl, hm⟩
  · rw [if_neg (by simp [hm])]
    have : ∀ n loc, ∃ cs, mkCaches P n loc = .ok cs := by
      intro n loc
      unfold mkCaches
      apply mapM_total
      intro x _
      obtain ⟨l, hl⟩ : ∃ l : Loc, True := ⟨Loc.line none, trivial⟩
      have h1 := mkCaches_ok hP h11 1 l
      unfold mkCaches at h1
      simp only [List.replicate_one, List.mapM_cons, List.mapM_nil] at h1
      obtain ⟨ci, hci, _⟩ := except_bind_ok h1
      exact make_locs hci loc
    obtain ⟨cs, hcs⟩ := this st.required ((st.instrs.getLast?).bind (·.loc))
    rw [hcs]
    exact ⟨_, rfl, rfl, rfl, rfl⟩

/-- Two states of the converter from which the same elements are accepted. -/
structure ConvLike (s t : Conv) : Prop where
  tabs : s.tabs = t.tabs
  blocks : s.blocks.map (·.1.id) = t.blocks.map (·.1.id)
  seen1 : s.seenManual = false
  seen2 : t.seenManual = false

theorem any_ids {l l' : List (TryB × ExcEntry)} (h : l.map (·.1.id) = l'.map (·.1.id)) (k : Nat) : l.any (·.1.id == k) = l'.any (·.1.id == k) := by
  have : ∀ l : List (TryB × ExcEntry), l.any (·.1.id == k) = (l.map (·.1.id)).any (· == k) := by
    intro l; rw [List.any_map]; rfl
  rw [this, this, h]

theorem setBlock_ids {l l' : List (TryB × ExcEntry)} (h : l.map (·.1.id) = l'.map (·.1.id)) (t : TryB) (e e' : ExcEntry) :
    (setBlock l t e).map (·.1.id) = (setBlock l' t e').map (·.1.id) := by
  have keep : ∀ (l : List (TryB × ExcEntry)) (e : ExcEntry), (l.map (fun p => if p.1.id == t.id then (p.1, e) else p)).map (·.1.id) = l.map (·.1.id) := by
    intro l e
    rw [List.map_map]
    apply List.map_congr_left
    intro p _
    simp only [Function.comp]
    split <;> rfl
  unfold setBlock
  rw [any_ids h]
  split
  · rw [keep, keep, h]
  · simp [h]

theorem push_alike (h11 : P.py311 = true) {s t t' : Conv} (ha : ConvLike s t) {n : String} {a : CArg} {j j' : Option Nat} (h : t.push P n a j' = .ok t') :
    ∃ s', s.push P n a j = .ok s' ∧ ConvLike s' t' := by
  unfold Conv.push at h
  obtain ⟨ci, hci, h⟩ := except_bind_ok h
  simp only [pure, Except.pure, Except.ok.injEq] at h
  subst h
  obtain ⟨ci', hci'⟩ := make_locs hci (some s.loc)
  unfold Conv.push
  rw [hci']
  exact ⟨_, rfl, ⟨ha.tabs, ha.blocks, by simp [h11], by simp [h11]⟩⟩

theorem alike_cells {s t : Conv} (h : ConvLike s t) {l l' : List Nat} : ConvLike { s with cellInstrs := l } { t with cellInstrs := l' } := ⟨h.1, h.2, h.3, h.4⟩
theorem alike_frees {s t : Conv} (h : ConvLike s t) {l l' : List Nat} : ConvLike { s with freeInstrs := l } { t with freeInstrs := l' } := ⟨h.1, h.2, h.3, h.4⟩
theorem alike_instrs {s t : Conv} (h : ConvLike s t) {l l' : List CInstr} : ConvLike { s with instrs := l } { t with instrs := l' } := ⟨h.1, h.2, h.3, h.4⟩

theorem elem_alike (h11 : P.py311 = true) {A : Attrs} {s t t' : Conv} (ha : ConvLike s t) {e : BElem} (h : t.elem P key A e = .ok t') :
    ∃ s', s.elem P key A e = .ok s' ∧ ConvLike s' t' := by
  cases e with
  | label l => simp only [Conv.elem, Except.ok.injEq] at h ⊢; subst h; exact ⟨_, rfl, ⟨ha.tabs, ha.blocks, ha.seen1, ha.seen2⟩⟩
  | setLineno l => simp only [Conv.elem, Except.ok.injEq] at h ⊢; subst h; exact ⟨_, rfl, ⟨ha.tabs, ha.blocks, ha.seen1, ha.seen2⟩⟩
  | tryBegin tb =>
    simp only [Conv.elem] at h ⊢
    cases hd : tb.depth with
    | none => rw [hd] at h; simp at h
    | some d =>
      rw [hd] at h
      simp only [Except.ok.injEq] at h ⊢
      subst h
      exact ⟨_, rfl, ⟨ha.tabs, setBlock_ids ha.blocks _ _ _, ha.seen1, ha.seen2⟩⟩
  | tryEnd id =>
    simp only [Conv.elem] at h ⊢
    rw [any_ids ha.blocks]
    split at h
    · rename_i hx
      rw [if_pos hx]
      simp only [Except.ok.injEq] at h ⊢
      subst h
      refine ⟨_, rfl, ⟨ha.tabs, ?_, ha.seen1, ha.seen2⟩⟩
      have keep : ∀ (l : List (TryB × ExcEntry)) (n : Int), (l.map (fun p => if p.1.id == id then (p.1, { p.2 with stop := n }) else p)).map (·.1.id) = l.map (·.1.id) := by
        intro l n
        rw [List.map_map]
        apply List.map_congr_left
        intro p _
        simp only [Function.comp]
        split <;> rfl
      rw [keep, keep, ha.blocks]
    · simp at h
  | instr i =>
    simp only [Conv.elem] at h ⊢
    obtain ⟨⟨T, enc⟩, henc, h⟩ := except_bind_ok h
    have henc' : encodeOperand P key A s.tabs i = .ok (T, enc) := by rw [ha.tabs]; exact henc
    rw [henc']
    have ha' : ConvLike { { s with loc := i.loc.getD s.loc } with tabs := T } { { t with loc := i.loc.getD t.loc } with tabs := T } :=
      ⟨rfl, ha.blocks, ha.seen1, ha.seen2⟩
    simp only [bind, Except.bind]
    cases enc with
    | plain a => exact push_alike h11 ha' h
    | jump a => exact push_alike h11 ha' h
    | cell a =>
      simp only at h ⊢
      exact push_alike h11 (alike_cells ha') h
    | free a =>
      simp only at h ⊢
      exact push_alike h11 (alike_frees ha') h
    | split n1 i1 n2 i2 =>
      simp only at h ⊢
      obtain ⟨ci, hci, h⟩ := except_bind_ok h
      obtain ⟨ci', hci'⟩ := make_locs hci (some (i.loc.getD s.loc))
      rw [hci']
      exact push_alike h11 (alike_instrs ha') h

theorem cache_elem (hP : P.WF) (h11 : P.py311 = true) {A : Attrs} (s : Conv) {i : Instr} (hv : ValidInstr P i) (hi : i.name = "CACHE") :
    ∃ s', s.elem P key A (.instr i) = .ok s' ∧ s'.tabs = s.tabs ∧ s'.blocks = s.blocks ∧ s'.seenManual = false := by
  have h0 : i.opcode = 0 := by
    have := hv.name_op
    rw [hi, (hP.cache h11).1] at this
    simpa using this.symm
  have harg : i.arg = .unset := by
    have := hv.arg_ok.present
    rw [h0, hP.zero] at this
    simpa using this
  have hk := hP.operand_arg _ _ hv.name_op hv.base
  rw [h0, hP.zero] at hk
  have hk : (P.hasconst 0 || P.haslocal 0 || P.hasname 0 || P.hasfree 0 || P.hascompare 0 || P.hasjrel 0 || P.hasjabs 0) = false := by
    revert hk; cases (P.hasconst 0 || P.haslocal 0 || P.hasname 0 || P.hasfree 0 || P.hascompare 0 || P.hasjrel 0 || P.hasjabs 0) <;> simp
  have hint : (P.intrinsic1 0 || P.intrinsic2 0) = false := by
    cases hx : (P.intrinsic1 0 || P.intrinsic2 0) with
    | false => rfl
    | true => have := (hP.intr_plain 0 hx).1; rw [hP.zero] at this; simp at this
  simp only [Bool.or_eq_false_iff] at hk hint
  obtain ⟨⟨⟨⟨⟨⟨k1, k2⟩, k3⟩, k4⟩, k5⟩, k6⟩, k7⟩ := hk
  have henc : encodeOperand P key A s.tabs i = .ok (s.tabs, .plain .unset) := by
    unfold encodeOperand
    rw [harg, h0]
    simp [k1, k2, k3, k4, k5, hint, encodeInt, bind, Except.bind, pure, Except.pure]
  simp only [Conv.elem]
  rw [henc]
  simp only [bind, Except.bind]
  obtain ⟨ci, hci⟩ : ∃ ci, CInstr.make P (some i.name) .unset .unset (some (i.loc.getD s.loc)) = .ok ci := by
    unfold CInstr.make CInstr.set_ lookupName
    have hb := (hP.cache h11).2
    simp [hi, (hP.cache h11).1, CInstr.checkArg, hP.zero, initLocation, bind, Except.bind, pure, Except.pure, hb, show ¬ P.minInstrumented ≤ 0 by omega]
  unfold Conv.push
  simp only
  rw [hci]
  exact ⟨_, rfl, rfl, rfl, by simp [h11]⟩

theorem fold_alike (hP : P.WF) (h11 : P.py311 = true) {A : Attrs} (es : List BElem) (hv : ∀ i, .instr i ∈ es → ValidInstr P i)
    (s t t' : Conv) (ha : ConvLike s t) (h : (es.filter (fun e => !e.isCache)).foldlM (Conv.step P key A) t = .ok t') :
    es.foldlM (Conv.step P key A) s = .error .runtimeError ∨ ∃ s', es.foldlM (Conv.step P key A) s = .ok s' ∧ ConvLike s' t' := by
  induction es generalizing s t with
  | nil => simp only [List.filter_nil, List.foldlM_nil, pure, Except.pure, Except.ok.injEq] at h; subst h; exact .inr ⟨s, rfl, ha⟩
  | cons e es ih =>
    have ih := ih (fun i hi => hv i (by simp [hi]))
    rw [List.foldlM_cons]
    rw [List.filter_cons] at h
    cases hc : e.isCache with
    | true =>
      rw [if_neg (by simp [hc])] at h
      cases e with
      | instr i =>
        have hi : i.name = "CACHE" := by simpa [BElem.isCache] using hc
        unfold Conv.step Conv.cacheStep
        simp only [hc, if_true]
        split
        · exact .inl rfl
        · obtain ⟨s', e1, e2, e3, e4⟩ := cache_elem (key := key) (A := A) hP h11 { s with seenManual := true, required := s.required - 1 } (hv i (by simp)) hi
          simp only [bind, Except.bind]
          rw [e1]
          exact ih s' t ⟨by rw [e2]; exact ha.tabs, by rw [e3]; exact ha.blocks, e4, ha.seen2⟩ h
      | _ => simp [BElem.isCache] at hc
    | false =>
      rw [if_pos (by simp [hc]), List.foldlM_cons] at h
      obtain ⟨t1, h1, h⟩ := except_bind_ok h
      unfold Conv.step at h1
      obtain ⟨t0, h0, h1⟩ := except_bind_ok h1
      rw [hc] at h0
      obtain ⟨t0', p1, p2, p3, p4⟩ := cacheStep_alike hP h11 t ha.seen2
      rw [h0] at p1; cases p1
      obtain ⟨s0, q1, q2, q3, q4⟩ := cacheStep_alike hP h11 s ha.seen1
      obtain ⟨s1, r1, r2⟩ := elem_alike h11 (s := s0) ⟨by rw [q2, p2]; exact ha.tabs, by rw [q3, p3]; exact ha.blocks, q4, p4⟩ h1
      unfold Conv.step
      rw [hc, q1]
      simp only [bind, Except.bind]
      rw [r1]
      exact ih s1 t1 r2 h

/-- **C19 (refusals, 3.11+).** A CACHE written by hand anywhere but directly after an instruction that requires entries makes
the conversion of a Bytecode that is otherwise accepted raise RuntimeError. In particular two in a row are refused,
even after an instruction that requires two. -/
theorem C19_misplaced (hP : P.WF) (h11 : P.py311 = true) {b : Bytecode} {c : Concrete} {passes : Nat}
    (hv : ∀ i, .instr i ∈ b.elems → ValidInstr P i) (h : toConcrete P key passes b.noCaches = .ok c)
    (es1 es2 : List BElem) (i : Instr) (he : b.elems = es1 ++ .instr i :: es2) (hi : i.name = "CACHE")
    (hbad : ∀ es0 j, es1 = es0 ++ [.instr j] → entriesOf P j.name = 0) (passes' : Nat) :
    toConcrete P key passes' b = .error .runtimeError := by
  unfold toConcrete at h
  obtain ⟨st, hst, h⟩ := except_bind_ok h
  unfold concreteInstructions at hst
  obtain ⟨loc, hloc, hst⟩ := except_bind_ok hst
  obtain ⟨u, hit, hst⟩ := except_bind_ok hst
  obtain ⟨vs, hvs, hst⟩ := except_bind_ok hst
  obtain ⟨s1, h1, hst⟩ := except_bind_ok hst
  have hit' : (iterElems false b.elems).2 = .ok u := by rw [← hit]; exact (iter_noCaches _ _).symm
  have hvs' : prepass P b.argnames b.elems = .ok vs := by rw [← hvs]; exact (prepass_noCaches hP h11 _ hv _).symm
  rcases fold_alike hP h11 b.elems hv (Conv.init b.attrs vs loc) _ s1 ⟨rfl, rfl, rfl, rfl⟩ h1 with hr | ⟨s', hs', _⟩
  · unfold toConcrete concreteInstructions
    rw [show Loc.make P.py311 (some b.attrs.firstLineno) none none none = .ok loc from hloc, hit', hvs']
    have hr : b.elems.foldlM (Conv.step P key b.attrs) (Conv.init b.attrs vs loc) = .error .runtimeError := hr
    simp only [bind, Except.bind, hr]
  · exfalso
    rw [he] at hs'
    obtain ⟨es0, j, e1, op, e2, e3⟩ := conv_manual hP h11 _ _ _ (by simp [BElem.isCache, hi]) hs' rfl
    have := hbad es0 j e1
    simp [entriesOf, h11, e2] at this
    omega

/-! ### Examples -/

/-- LOAD_GLOBAL gets its five entries, FOR_ITER … of 3.11; one CACHE written after COMPARE_OP (two entries): accepted, wrong; UNPACK_SEQUENCE (one entry): accepted, right. -/
def cacheGood : Bytecode := ⟨Attrs.default, [], [ins Py311.platform "LOAD_GLOBAL" (.tuple [.bool false, .str "x"]), .label 0,
  ins Py311.platform "UNPACK_SEQUENCE" (.int 2), ins Py311.platform "CACHE", ins Py311.platform "BINARY_OP" (.int 0), ins Py311.platform "RETURN_VALUE"]⟩

example : ∃ c, toConcrete Py311.platform (id : Arg → Arg) 10 cacheGood = .ok c ∧ CachesOK Py311.platform 0 (instrsOf c.elems) ∧
    (instrsOf c.elems).map (·.name) = ["LOAD_GLOBAL", "CACHE", "CACHE", "CACHE", "CACHE", "CACHE", "UNPACK_SEQUENCE", "CACHE", "BINARY_OP", "CACHE", "RETURN_VALUE"] := by
  have hok : (match toConcrete Py311.platform (id : Arg → Arg) 10 cacheGood with
    | .ok c => decide (CachesOK Py311.platform 0 (instrsOf c.elems) ∧
        (instrsOf c.elems).map (·.name) = ["LOAD_GLOBAL", "CACHE", "CACHE", "CACHE", "CACHE", "CACHE", "UNPACK_SEQUENCE", "CACHE", "BINARY_OP", "CACHE", "RETURN_VALUE"])
    | .error _ => false) = true := by decide +kernel
  cases h : toConcrete Py311.platform (id : Arg → Arg) 10 cacheGood with
  | error e => rw [h] at hok; simp at hok
  | ok c => rw [h] at hok; exact ⟨c, rfl, of_decide_eq_true hok⟩

/-- CACHE after a label. -/
def cacheBad : Bytecode := ⟨Attrs.default, [], [ins Py311.platform "UNPACK_SEQUENCE" (.int 2), .label 0, ins Py311.platform "CACHE",
  ins Py311.platform "BINARY_OP" (.int 0), ins Py311.platform "RETURN_VALUE"]⟩

example : toConcrete Py311.platform (id : Arg → Arg) 10 cacheBad = .error .runtimeError := by
  have hok : (toConcrete Py311.platform (id : Arg → Arg) 10 cacheBad.noCaches).isOk = true := by decide +kernel
  cases h : toConcrete Py311.platform (id : Arg → Arg) 10 cacheBad.noCaches with
  | error e => rw [h] at hok; simp [Except.isOk, Except.toBool] at hok
  | ok c =>
    refine C19_misplaced Py311.wf (by decide) (made_valid Py311.wf (by decide +kernel)) h
      [ins Py311.platform "UNPACK_SEQUENCE" (.int 2), .label 0] _ ⟨"CACHE", 0, .unset, none⟩ rfl rfl ?_ 10
    intro es0 j hj
    have := congrArg List.getLast? hj
    simp at this

end
end Verif
