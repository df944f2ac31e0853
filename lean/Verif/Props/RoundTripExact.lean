import Verif.Proofs.DecodeVoid
import Verif.Props.ReadFree
import Verif.Spec.LostRegions
/-
C22, C23 (exact): the handlers `to_bytecode` reads, and the round trip through concrete bytecode.
-/
namespace Verif
open Spec

section
variable {κ : Type} [DecidableEq κ] {P : Platform} {key : Arg → κ} {b : Bytecode} {c : Concrete} {es : List CElem} {prune : Bool}

theorem toBytecode_nodup {conserve : Bool} (h : toBytecode P prune conserve c = .ok b) : (c.excTable.map (·.start)).Nodup := by
  unfold toBytecode at h
  obtain ⟨es, _, h⟩ := except_bind_ok h
  simp only at h
  obtain ⟨_, ha, h⟩ := except_bind_ok h
  unfold pyAssert at ha
  split at ha
  · rename_i hx; simpa using hx
  · simp at ha

/-- **C22 (handlers, exact).** With `conserve_exception_block_stackdepth=True`, the handlers of the result are those of the
concrete code without the entries that start inside an instruction (on its opcode, after EXTENDED_ARG prefixes): these are
lost. -/
theorem C22_handlers_exact (hP : P.WF) (hv : ∀ ci, .instr ci ∈ c.elems → ValidCInstr P ci)
    (h : toBytecode P prune true c = .ok b) (hes : removeExtendedArgs P 0 none c.elems = .ok es) (hT : TableAny P { c with elems := es }) :
    (programB P key b).map (fun o => o.handler) = (programC P key (withoutLost P { c with elems := es })).map (fun o => o.handler) := by
  have hnd := toBytecode_nodup h
  obtain ⟨es', d, h1, h2, h3, h4, h5⟩ := toBytecode_ok h
  rw [hes] at h1; cases h1
  have hve := removeExtendedArgs_valid P _ hv _ _ _ hes
  unfold programB programC
  rw [h5]
  refine loop_void (c := c) hP (withoutLost P { c with elems := es }) (starts P 0 es) ?_ hnd hT.disjoint hT.inside
    (fun e he _ => hT.target_ e he) es hve _ _ _ d h2 (fun k _ => Iff.rfl) ?_ _ ?_ _ _ ?_
  · intro e
    simp only [withoutLost, startsAtInstr, List.mem_filter, decide_eq_true_eq]
  · intro e he; right; exact hT.stop_ e he
  · intro k hk e he m hm
    obtain ⟨n, hn, hkn⟩ := h4 k hk
    rw [he] at hkn
    simp only [Option.map_some, Option.getD_some] at hkn
    obtain ⟨_, m', g1, g2⟩ := (loop_labels hP es hve _ _ _ d h2 0 n).1 hn
    rw [hkn] at hm ⊢
    rw [g2 m hm]
    simpa using g1
  · refine ⟨?_, ?_, by simp, ?_⟩
    · intro k e he hl
      obtain ⟨_, j, _, hj⟩ := hl
      simp; omega
    · intro k e he _
      obtain ⟨j, _, hj⟩ := hT.stop_ e (List.mem_of_getElem? he)
      simp; omega
    · intro k e he hl g1
      obtain ⟨_, j, _, hj⟩ := hl
      omega

/-! ### The operations of a code and of the same code with another table -/

theorem opsC_plain (c c' : Concrete) (he : c'.elems = c.elems) (hx : ∀ (d : Option Nat) ci, expandC P key c' d ci = expandC P key c d ci)
    (es : List CElem) (line cur : Nat) :
    List.Forall₂ (fun o' o => plainOp o' = plainOp o ∧ ∃ off, o'.handler = handlerAt P c' off ∧ o.handler = handlerAt P c off)
      (opsC P key c' line cur es) (opsC P key c line cur es) := by
  induction es generalizing line cur with
  | nil => exact .nil
  | cons e es ih =>
    cases e with
    | setLineno l => exact ih _ _
    | instr ci =>
      simp only [opsC]
      refine append_forall₂ ?_ (ih _ _)
      rw [he, hx]
      generalize expandC P key c _ ci = l
      induction l with
      | nil => exact .nil
      | cons p l ih => exact .cons ⟨rfl, _, rfl, rfl⟩ ih

/-- The covering entry is unique, so that dropping entries keeps a handler or drops it. -/
theorem handler_filter {c : Concrete} (hd : c.excTable.Pairwise (fun e f => e.stop < f.start ∨ f.stop < e.start)) (off : Nat) :
    KeptOrLost (handlerAt P (withoutLost P c) off) (handlerAt P c off) := by
  unfold KeptOrLost handlerAt
  cases hf : (withoutLost P c).excTable.find? (fun e => decide (e.start ≤ (off : Int)) && decide ((off : Int) ≤ e.stop)) with
  | none => right; rfl
  | some e =>
    left
    have hm := List.mem_of_find?_eq_some hf
    have hp := List.find?_some hf
    simp only [Bool.and_eq_true, decide_eq_true_eq] at hp
    have hm' : e ∈ c.excTable := (List.mem_filter.1 hm).1
    have : c.excTable.find? (fun e => decide (e.start ≤ (off : Int)) && decide ((off : Int) ≤ e.stop)) = some e := by
      cases hg : c.excTable.find? (fun e => decide (e.start ≤ (off : Int)) && decide ((off : Int) ≤ e.stop)) with
      | none =>
        rw [List.find?_eq_none] at hg
        have := hg e hm'
        simp at this; omega
      | some f =>
        have hq := List.find?_some hg
        simp only [Bool.and_eq_true, decide_eq_true_eq] at hq
        obtain ⟨j, hj⟩ := List.getElem?_of_mem (List.mem_of_find?_eq_some hg)
        obtain ⟨k, hk⟩ := List.getElem?_of_mem hm'
        have := entry_unique hd hj hk (x := (off : Int)) hq hp
        subst this
        rw [hj] at hk; cases hk; rfl
    rw [this]
    rfl

/-! ### The table of a converted Bytecode -/

variable {T : Tabs} {M : List Cell}

theorem regs_stop_ge (M : List Cell) (n : Nat) (cur : Option (Nat × TryB)) (hc : ∀ p, cur = some p → p.1 ≤ n) :
    ∀ p ∈ regs P n cur M, p.2.start - 1 ≤ p.2.stop := by
  induction M generalizing n cur with
  | nil => simp [regs]
  | cons d M ih =>
    unfold regs
    cases hd : d.e with
    | tryBegin t => exact ih n (some (n, t)) (by rintro p ⟨rfl⟩; exact Nat.le_refl _)
    | tryEnd id =>
      cases cur with
      | none => exact ih n none (by simp)
      | some p =>
        intro q hq
        rcases List.mem_cons.1 hq with rfl | hq
        · have := hc _ rfl; simp only; omega
        · exact ih n none (by simp) q hq
    | instr i => exact ih _ cur (fun p hp => by have := hc p hp; omega)
    | label i => exact ih _ cur (fun p hp => by have := hc p hp; omega)
    | setLineno i => exact ih _ cur (fun p hp => by have := hc p hp; omega)

/-- What the table of the result is made of. -/
theorem Final.entriesAny (h : Final P key b c T M) (hw : WellTried none [] false b.elems) :
    (regs P 0 none M).mapM (resolveEntry P (labelsOf P 0 [] M) (code P M)) = .ok c.excTable ∧
    ∀ p ∈ regs P 0 none M, ∀ e, resolveEntry P (labelsOf P 0 [] M) (code P M) p = .ok e → 0 ≤ p.2.start ∧ 0 ≤ p.2.stop ∧
      ∃ s t : Nat, e.start = s ∧ e.stop = t ∧ (instrOffsets P 0 (code P M))[p.2.start.toNat]? = some s ∧
        (instrOffsets P 0 (code P M))[p.2.stop.toNat]? = some t ∧ (opAt P e.target 0 0 c.elems).isSome = true := by
  have hw' : WellTried none [] false (M.map (·.e)) := by rw [h.lay.elems]; exact hw
  have hbl := (blocks_regs (P := P) M 0 [] false [] (by simp)).1 hw'
  rw [List.nil_append] at hbl
  have htab := h.table
  rw [hbl] at htab
  have hrange := regs_range h.code_pos M (fun d hd => hd) 0 none [] false (by simp) (by simp) hw'
  refine ⟨htab, ?_⟩
  intro p hp e hpe
  obtain ⟨r1, r2, r3, r4, r5⟩ := hrange p hp
  unfold resolveEntry at hpe
  obtain ⟨s, hs, hpe⟩ := except_bind_ok hpe
  obtain ⟨t, ht, hpe⟩ := except_bind_ok hpe
  obtain ⟨ti, hti, hpe⟩ := except_bind_ok hpe
  obtain ⟨htl, k', hk1, hk2⟩ := h.label hti
  rw [labelOffsets_get P _ code_size, if_pos (by omega)] at hpe
  simp only [pure, Except.pure, Except.ok.injEq, Nat.zero_add] at hpe
  subst hpe
  exact ⟨r1, r2, s, t, rfl, rfl, pyGet_ok hs r1, pyGet_ok ht r2, by simp only; rw [hk2]; rfl⟩

theorem Final.tableAny (h : Final P key b c T M) (hw : WellTried none [] false b.elems) : TableAny P c := by
  obtain ⟨htab, hres⟩ := h.entriesAny hw
  have hw' : WellTried none [] false (M.map (·.e)) := by rw [h.lay.elems]; exact hw
  have hdis := regs_disjoint (P := P) M 0 none [] false (by simp) hw'
  have hstop := regs_stop_ge (P := P) M 0 none (by simp)
  have hpair : c.excTable.Pairwise (fun e f => e.stop < f.start ∧ e.stop ≤ f.stop) := by
    refine mapM_pairwise _ _ htab hdis ?_
    intro p hp q hq e f hpq hpe hqf
    obtain ⟨r1, r2, s, t, e1, e2, e3, e4, _⟩ := hres p hp e hpe
    obtain ⟨r1', r2', s', t', f1, f2, f3, f4, _⟩ := hres q hq f hqf
    have h1 := offset_mono code_size f3 e4
    have h2 := offset_mono code_size e4 f4
    have h3 := hstop q hq
    have hn : ¬ s' ≤ t := by rw [h1]; omega
    have hm : t ≤ t' := by rw [h2]; omega
    rw [e2, f1, f2]; omega
  refine ⟨?_, hpair.imp (fun h => .inl h.1), ?_, ?_⟩
  · intro e he
    obtain ⟨p, hp, hpe⟩ := mapM_mem _ _ htab e he
    obtain ⟨_, _, s, t, e1, e2, e3, e4, _⟩ := hres p hp e hpe
    refine ⟨t, ?_, e2⟩
    rw [h.elems, opcodeOffsets_code _ code_size]
    exact List.mem_of_getElem? e4
  · intro f hf e he
    obtain ⟨j, hj⟩ := List.getElem?_of_mem hf
    obtain ⟨k, hk⟩ := List.getElem?_of_mem he
    obtain ⟨hjl, hj'⟩ := List.getElem?_eq_some_iff.1 hj
    obtain ⟨hkl, hk'⟩ := List.getElem?_eq_some_iff.1 hk
    rw [List.pairwise_iff_getElem] at hpair
    rcases Nat.lt_trichotomy j k with hlt | rfl | hlt
    · have := hpair j k hjl hkl hlt; rw [hj', hk'] at this; omega
    · rw [hj'] at hk'; subst hk'; omega
    · have := hpair k j hkl hjl hlt; rw [hj', hk'] at this; omega
  · intro e he
    obtain ⟨p, hp, hpe⟩ := mapM_mem _ _ htab e he
    obtain ⟨_, _, s, t, _, _, _, _, h6⟩ := hres p hp e hpe
    exact h6

theorem forall₂_map_eq {α β γ : Type} {R : α → β → Prop} {f : α → γ} {g : β → γ} (hR : ∀ a b, R a b → f a = g b) {x : List α} {y : List β}
    (h : List.Forall₂ R x y) : x.map f = y.map g := by
  induction h with
  | nil => rfl
  | cons h _ ih => simp [hR _ _ h, ih]

theorem forall₂_of_maps {α β γ δ : Type} {R : γ → δ → Prop} {f : α → γ} {g : β → δ} {x : List α} {y : List β}
    (h : List.Forall₂ (fun a b => R (f a) (g b)) x y) : List.Forall₂ R (x.map f) (y.map g) := by
  induction h with
  | nil => exact .nil
  | cons h _ ih => exact .cons h ih

theorem forall₂_imp {α β : Type} {R S : α → β → Prop} (hRS : ∀ a b, R a b → S a b) {x : List α} {y : List β} (h : List.Forall₂ R x y) : List.Forall₂ S x y := by
  induction h with
  | nil => exact .nil
  | cons h _ ih => exact .cons (hRS _ _ h) ih

/-- **C23 (exact, operations).** `to_concrete_bytecode` then `to_bytecode` keeps every operation but for the free variables
of 3.13 in instructions on local variables (`ReadAs`). Excluded: the operands of C21. -/
theorem C23_read {b' : Bytecode} {passes : Nat} {conserve : Bool} (hP : P.WF) (hcache : ∀ e ∈ b.elems, e.isCache = false) (hv : ∀ i, .instr i ∈ b.elems → ValidInstr P i)
    (h : toConcrete P key passes b = .ok c) (h' : toBytecode P prune conserve c = .ok b')
    (hok : ∀ i, .instr i ∈ b.elems → OperandOK P c.varnames i) :
    List.Forall₂ (ReadAs P c) (programB P key b') (programB P key b) := by
  obtain ⟨hr, hvc⟩ := convert_remove hP hcache hv h
  obtain ⟨T, M, hF⟩ := toConcrete_Final hP hcache hv h
  have hread := C22_read (key := key) hP hvc h' hr (hF.program_valid hok)
  have hops : (programC P key c).map plainOp = (programB P key b).map plainOp := by
    unfold plainOp
    apply ext_of_maps (fun x : String × Operand κ × Loc => (x.1, x.2.1)) (fun x => x.2.2) (fun _ => ())
    · rintro ⟨a, b, c⟩ ⟨a', b', c'⟩ h1 h2 _; simp_all
    · rw [List.map_map, List.map_map]; exact hF.view_operand hok
    · rw [List.map_map, List.map_map]; exact hF.view_loc
    · have := congrArg List.length (hF.view_operand hok)
      simp only [List.length_map] at this
      simp only [List.map_const', List.length_map, this]
  -- replace the right-hand side by operations with the same name, operand and location
  have key' : ∀ (x y y' : List (Op κ)), List.Forall₂ (ReadAs P c) x y → y.map plainOp = y'.map plainOp → List.Forall₂ (ReadAs P c) x y' := by
    intro x y y' hxy
    induction hxy generalizing y' with
    | nil => intro he; cases y' with
      | nil => exact .nil
      | cons => simp at he
    | cons hab _ ih =>
      intro he
      cases y' with
      | nil => simp at he
      | cons z y' =>
        simp only [List.map_cons, List.cons.injEq] at he
        refine .cons ?_ (ih _ he.2)
        obtain ⟨e1, e2⟩ := he
        simp only [plainOp, Prod.mk.injEq] at e1
        obtain ⟨q1, q2, q3⟩ := e1
        exact ⟨q1 ▸ hab.name, q3 ▸ hab.loc, by rw [← q1, ← q2]; exact hab.same, by rw [← q1, ← q2]; exact hab.free⟩
  exact key' _ _ _ hread hops

/-- **C23 (exact, handlers).** With `conserve_exception_block_stackdepth=True`, each operation keeps its handler or loses it; and
the handlers are those of the concrete code without the regions that start inside an instruction. Regions may be empty (but not before the first
instruction). -/
theorem C23_handlers {b' : Bytecode} {passes : Nat} (hP : P.WF) (hcache : ∀ e ∈ b.elems, e.isCache = false) (hv : ∀ i, .instr i ∈ b.elems → ValidInstr P i)
    (h : toConcrete P key passes b = .ok c) (h' : toBytecode P prune true c = .ok b') (hw : WellTried none [] false b.elems) :
    (programB P key b').map (fun o => o.handler) = (programC P key (withoutLost P c)).map (fun o => o.handler) ∧
    List.Forall₂ KeptOrLost ((programB P key b').map (fun o => o.handler)) ((programB P key b).map (fun o => o.handler)) := by
  obtain ⟨hr, hvc⟩ := convert_remove hP hcache hv h
  obtain ⟨T, M, hF⟩ := toConcrete_Final hP hcache hv h
  have hT := hF.tableAny hw
  have h1 := C22_handlers_exact (key := key) hP hvc h' hr hT
  refine ⟨h1, ?_⟩
  rw [h1, ← hF.view_handler hw (toConcrete_depths h)]
  refine forall₂_of_maps (forall₂_imp ?_ (opsC_plain c (withoutLost P c) rfl (fun _ _ => rfl) c.elems _ _))
  rintro o' o ⟨_, off, e1, e2⟩
  rw [e1, e2]
  exact handler_filter hT.disjoint off

/-! ### When every handler is kept -/

theorem regs_from (M : List Cell) (n : Nat) (cur : Option (Nat × TryB)) :
    ∀ p ∈ regs P n cur M, (∃ s t, cur = some (s, t) ∧ p.2.start = (s : Int)) ∨ (n : Int) ≤ p.2.start := by
  induction M generalizing n cur with
  | nil => simp [regs]
  | cons d M ih =>
    intro p hp
    have step : ∀ m, n ≤ m → p ∈ regs P m cur M → (∃ s t, cur = some (s, t) ∧ p.2.start = (s : Int)) ∨ (n : Int) ≤ p.2.start := by
      intro m hm hp
      rcases ih m cur p hp with h | h
      · exact .inl h
      · right; omega
    unfold regs at hp
    cases hd : d.e with
    | tryBegin t =>
      rw [hd] at hp
      rcases ih n (some (n, t)) p hp with ⟨s, t', h1, h2⟩ | h
      · simp only [Option.some.injEq, Prod.mk.injEq] at h1; right; omega
      · exact .inr h
    | tryEnd id =>
      rw [hd] at hp
      cases cur with
      | none =>
        rcases ih n none p hp with ⟨s, t', h1, h2⟩ | h
        · simp at h1
        · exact .inr h
      | some q =>
        obtain ⟨s, t⟩ := q
        rcases List.mem_cons.1 hp with rfl | hp
        · exact .inl ⟨s, t, rfl, rfl⟩
        · rcases ih n none p hp with ⟨s, t', h1, h2⟩ | h
          · simp at h1
          · exact .inr h
    | instr i => rw [hd] at hp; exact step _ (by omega) hp
    | label i => rw [hd] at hp; exact step _ (by omega) hp
    | setLineno i => rw [hd] at hp; exact step _ (by omega) hp

/-- A region that is not empty starts with an operation. -/
theorem regs_head {M0 : List Cell} (hM0 : ∀ d ∈ M0, ∀ i, d.e = .instr i → ∃ ci r, d.code P = ci :: r ∧ ci.name ≠ "CACHE") (M : List Cell) (hsub : ∀ d ∈ M, d ∈ M0)
    (n : Nat) (cur : Option (Nat × TryB)) (hc : ∀ p, cur = some p → p.1 ≤ n) :
    ∀ p ∈ regs P n cur M, (n : Int) ≤ p.2.start → p.2.start ≤ p.2.stop → ∃ ci, (code P M)[p.2.start.toNat - n]? = some ci ∧ ci.name ≠ "CACHE" := by
  induction M generalizing n cur with
  | nil => simp [regs]
  | cons d M ih =>
    have ih := ih (fun x hx => hsub x (by simp [hx]))
    have hcode : code P (d :: M) = d.code P ++ code P M := by simp [code]
    intro p hp h1 h2
    have later : p.2.start.toNat ≥ n + (d.code P).length → (∃ ci, (code P M)[p.2.start.toNat - (n + (d.code P).length)]? = some ci ∧ ci.name ≠ "CACHE") →
        ∃ ci, (code P (d :: M))[p.2.start.toNat - n]? = some ci ∧ ci.name ≠ "CACHE" := by
      rintro hge ⟨ci, g1, g2⟩
      refine ⟨ci, ?_, g2⟩
      rw [hcode, List.getElem?_append_right (by omega), ← g1]
      congr 1; omega
    unfold regs at hp
    cases hd : d.e with
    | tryBegin t =>
      rw [hd] at hp
      have h0 : d.code P = [] := by simp [Cell.code, hd]
      exact later (by rw [h0]; simp; omega) (by rw [h0]; exact ih n (some (n, t)) (by rintro q ⟨rfl⟩; exact Nat.le_refl _) p hp h1 h2)
    | tryEnd id =>
      rw [hd] at hp
      have h0 : d.code P = [] := by simp [Cell.code, hd]
      cases cur with
      | none => exact later (by rw [h0]; simp; omega) (by rw [h0]; exact ih n none (by simp) p hp h1 h2)
      | some q =>
        obtain ⟨s, t⟩ := q
        rcases List.mem_cons.1 hp with rfl | hp
        · have := hc _ rfl
          simp only at h1 h2; omega
        · exact later (by rw [h0]; simp; omega) (by rw [h0]; exact ih n none (by simp) p hp h1 h2)
    | instr i =>
      rw [hd] at hp
      obtain ⟨ci, r, hcd, hn⟩ := hM0 d (hsub d (by simp)) i hd
      by_cases hge : ((n + (d.code P).length : Nat) : Int) ≤ p.2.start
      · exact later (by omega) (ih _ cur (fun q hq => by have := hc q hq; omega) p hp hge h2)
      · rcases regs_from M _ cur p hp with ⟨s, t, e1, e2⟩ | h
        · have := hc _ e1
          refine ⟨ci, ?_, hn⟩
          rw [show p.2.start.toNat - n = 0 by omega, hcode, hcd]; rfl
        · exact absurd h hge
    | label i =>
      rw [hd] at hp
      have h0 : d.code P = [] := by simp [Cell.code, hd]
      simp only [h0, List.length_nil, Nat.add_zero] at hp
      exact later (by rw [h0]; simp; omega) (by rw [h0]; exact ih n cur hc p hp h1 h2)
    | setLineno i =>
      rw [hd] at hp
      have h0 : d.code P = [] := by simp [Cell.code, hd]
      simp only [h0, List.length_nil, Nat.add_zero] at hp
      exact later (by rw [h0]; simp; omega) (by rw [h0]; exact ih n cur hc p hp h1 h2)

theorem opsC_handler_at (c c' : Concrete) (he : c'.elems = c.elems) (hx : ∀ (d : Option Nat) ci, expandC P key c' d ci = expandC P key c d ci)
    (l : List CInstr) (h2 : ∀ i ∈ l, 2 ≤ i.size) (line cur : Nat)
    (heq : (opsC P key c' line cur (l.map .instr)).map (fun o => o.handler) = (opsC P key c line cur (l.map .instr)).map (fun o => o.handler))
    (j : Nat) (ci : CInstr) (hj : l[j]? = some ci) (hn : ci.name ≠ "CACHE") (s : Nat) (hs : (opcodeOffsets P cur (l.map .instr))[j]? = some s) :
    handlerAt P c' s = handlerAt P c s := by
  induction l generalizing line cur j with
  | nil => simp at hj
  | cons x l ih =>
    simp only [List.map_cons, opsC, List.map_append, List.map_map] at heq
    rw [he, hx] at heq
    have hsplit := List.append_inj heq (by simp)
    rw [List.map_cons, opcodeOffsets] at hs
    cases j with
    | zero =>
      simp only [List.getElem?_cons_zero, Option.some.injEq] at hj hs
      subst hj
      have hne : expandC P key c ((x.getJumpTarget P cur).bind (fun t => opAt P t 0 0 c.elems)) x ≠ [] := by
        unfold expandC
        rw [if_neg hn]
        split
        · split <;> simp
        · simp
      obtain ⟨q, r, hq⟩ := List.exists_cons_of_ne_nil hne
      have h1 := hsplit.1
      rw [hq] at h1
      simp only [List.map_cons, Function.comp_def, List.cons.injEq] at h1
      rw [← hs]; exact h1.1
    | succ j =>
      exact ih (fun i hi => h2 i (by simp [hi])) _ _ hsplit.2 j (by simpa using hj) (by simpa using hs)

theorem find?_filter_of {α : Type} (p q : α → Bool) (l : List α) (h : ∀ e ∈ l, p e = true → q e = true) : (l.filter q).find? p = l.find? p := by
  induction l with
  | nil => rfl
  | cons e l ih =>
    have ih := ih (fun x hx => h x (by simp [hx]))
    cases hc : p e with
    | true => rw [List.filter_cons_of_pos (h e (by simp) hc), List.find?_cons_of_pos hc, List.find?_cons_of_pos hc]
    | false =>
      rw [List.find?_cons_of_neg (by simp [hc]), ← ih, List.filter_cons]
      split
      · rw [List.find?_cons_of_neg (by simp [hc])]
      · rfl

/-- **C23 (exact, when every handler is kept).** Every operation keeps its handler iff every region that is not empty starts
with an instruction without EXTENDED_ARG. -/
theorem C23_handlers_iff {b' : Bytecode} {passes : Nat} (hP : P.WF) (hcache : ∀ e ∈ b.elems, e.isCache = false) (hv : ∀ i, .instr i ∈ b.elems → ValidInstr P i)
    (h : toConcrete P key passes b = .ok c) (h' : toBytecode P prune true c = .ok b') (hw : WellTried none [] false b.elems) :
    (programB P key b').map (fun o => o.handler) = (programB P key b).map (fun o => o.handler) ↔
      ∀ e ∈ c.excTable, e.start ≤ e.stop → ∃ k ∈ starts P 0 c.elems, e.start = (k : Int) := by
  have h1 := (C23_handlers (key := key) hP hcache hv h h' hw).1
  obtain ⟨T, M, hF⟩ := toConcrete_Final hP hcache hv h
  have hT := hF.tableAny hw
  rw [h1, ← hF.view_handler hw (toConcrete_depths h)]
  constructor
  · intro heq e he hle
    apply Classical.byContradiction
    intro hno
    obtain ⟨htab, hres⟩ := hF.entriesAny hw
    obtain ⟨p, hp, hpe⟩ := mapM_mem _ _ htab e he
    obtain ⟨r1, r2, s, t, e1, e2, e3, e4, e5⟩ := hres p hp e hpe
    have hle' : p.2.start ≤ p.2.stop := by
      have := (offset_mono code_size e3 e4).1 (by omega); omega
    obtain ⟨ci, g1, g2⟩ := regs_head (M0 := M) (by
      intro d hd i hi
      obtain ⟨_, hn, _⟩ := hF.mem hd hi
      rcases hF.shape hd hi with ⟨a, _, hc⟩ | ⟨n1, i1, n2, i2, _, hs, hc⟩
      · exact ⟨_, _, hc, hn⟩
      · exact ⟨_, _, hc, (split_names hs).1⟩) M (fun d hd => hd) 0 none (by simp) p hp (by simpa using r1) hle'
    rw [← opcodeOffsets_code _ code_size] at e3
    have hat := opsC_handler_at (key := key) c (withoutLost P c) rfl (fun _ _ => rfl) (code P M) code_size c.attrs.firstLineno 0
      (by
        have := heq
        unfold programC at this
        rw [show (withoutLost P c).elems = c.elems from rfl, hF.elems] at this
        exact this) _ ci (by simpa using g1) g2 s e3
    -- the entry covers its start
    have hcov : handlerAt P c s ≠ none := by
      unfold handlerAt
      cases hg : c.excTable.find? (fun e => decide (e.start ≤ (s : Int)) && decide ((s : Int) ≤ e.stop)) with
      | none =>
        rw [List.find?_eq_none] at hg
        have := hg e he
        simp at this; omega
      | some f =>
        have hf := hT.target_ f (List.mem_of_find?_eq_some hg)
        obtain ⟨m, hm⟩ := Option.isSome_iff_exists.1 hf
        simp [hm]
    rw [← hat] at hcov
    apply hcov
    unfold handlerAt
    have : (withoutLost P c).excTable.find? (fun e => decide (e.start ≤ (s : Int)) && decide ((s : Int) ≤ e.stop)) = none := by
      rw [List.find?_eq_none]
      intro f hf
      obtain ⟨f1, f2⟩ := List.mem_filter.1 hf
      intro hcf
      simp only [Bool.and_eq_true, decide_eq_true_eq] at hcf
      obtain ⟨j, hj⟩ := List.getElem?_of_mem f1
      obtain ⟨k, hk⟩ := List.getElem?_of_mem he
      have := entry_unique hT.disjoint hj hk (x := (s : Int)) hcf (by omega)
      subst this
      rw [hj] at hk; cases hk
      exact hno (by simpa [startsAtInstr] using f2)
    rw [this]
  · intro hall
    refine forall₂_map_eq ?_ (opsC_plain (key := key) c (withoutLost P c) rfl (fun _ _ => rfl) c.elems _ _)
    rintro o' o ⟨_, off, e1, e2⟩
    rw [e1, e2]
    unfold handlerAt
    have : (withoutLost P c).excTable.find? (fun e => decide (e.start ≤ (off : Int)) && decide ((off : Int) ≤ e.stop)) =
        c.excTable.find? (fun e => decide (e.start ≤ (off : Int)) && decide ((off : Int) ≤ e.stop)) := by
      refine find?_filter_of _ _ _ ?_
      intro e he hc
      simp only [Bool.and_eq_true, decide_eq_true_eq] at hc
      simpa [startsAtInstr] using hall e he (by omega)
    rw [this]
    rfl

end
end Verif

namespace Verif
open Spec
/-! ### Examples -/

/-- Three regions: one kept, an empty one, one that starts with an instruction needing EXTENDED_ARG. -/
def lostEx : Bytecode := ⟨Attrs.default, [], [ins Py311.platform "NOP", .tryBegin ⟨0, 9, true, some 1⟩, ins Py311.platform "NOP", ins Py311.platform "NOP", .tryEnd 0,
  ins Py311.platform "NOP", .tryBegin ⟨1, 9, true, some 1⟩, .tryEnd 1, ins Py311.platform "NOP",
  .tryBegin ⟨2, 9, false, some 0⟩, ins Py311.platform "BUILD_LIST" (.int 300), ins Py311.platform "NOP", .tryEnd 2,
  .label 9, ins Py311.platform "RETURN_VALUE"]⟩

example : (∀ e ∈ lostEx.elems, e.isCache = false) ∧ (∀ i, .instr i ∈ lostEx.elems → ValidInstr Py311.platform i) ∧ WellTried none [] false lostEx.elems ∧
    (programB Py311.platform (id : Arg → Arg) lostEx).map (·.handler) =
      [none, some ⟨7, true, 1⟩, some ⟨7, true, 1⟩, none, none, some ⟨7, false, 0⟩, some ⟨7, false, 0⟩, none] ∧
    (roundTrip Py311.platform lostEx).map (fun b => (programB Py311.platform (id : Arg → Arg) b).map (·.handler)) =
      some [none, some ⟨7, true, 1⟩, some ⟨7, true, 1⟩, none, none, none, none, none] :=
  ⟨noCache_spec (by decide +kernel), made_valid Py311.wf (by decide +kernel), by decide +kernel, by decide +kernel, by decide +kernel⟩

/-- An empty region directly before another one: both entries start at the same offset, and `to_bytecode` fails with
AssertionError. -/
theorem C23_same_start_false : ∃ (b : Bytecode) (c : Concrete), (∀ e ∈ b.elems, e.isCache = false) ∧ (∀ i, .instr i ∈ b.elems → ValidInstr Py311.platform i) ∧
    WellTried none [] false b.elems ∧ (iterElems false b.elems).2 = .ok () ∧ toConcrete Py311.platform (id : Arg → Arg) 10 b = .ok c ∧
    toBytecode Py311.platform true true c = .error .assertionError := by
  let b : Bytecode := ⟨Attrs.default, [], [ins Py311.platform "NOP", .tryBegin ⟨0, 9, true, some 1⟩, .tryEnd 0,
    .tryBegin ⟨1, 9, true, some 1⟩, ins Py311.platform "NOP", .tryEnd 1, .label 9, ins Py311.platform "RETURN_VALUE"]⟩
  have hok : (toConcrete Py311.platform (id : Arg → Arg) 10 b).isOk = true := by decide +kernel
  cases h : toConcrete Py311.platform (id : Arg → Arg) 10 b with
  | error e => rw [h] at hok; simp [Except.isOk, Except.toBool] at hok
  | ok c =>
    have hx : (match toConcrete Py311.platform (id : Arg → Arg) 10 b with
      | .ok c => (match toBytecode Py311.platform true true c with | .error e => decide (e = .assertionError) | .ok _ => false)
      | .error _ => false) = true := by decide +kernel
    rw [h] at hx
    simp only at hx
    refine ⟨b, c, noCache_spec (by decide +kernel), made_valid Py311.wf (by decide +kernel), by decide +kernel, by decide +kernel, h, ?_⟩
    cases h' : toBytecode Py311.platform true true c with
    | ok _ => rw [h'] at hx; simp at hx
    | error e => rw [h'] at hx; simp at hx; rw [hx]

end Verif
