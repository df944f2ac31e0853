import Verif.Proofs.KeptLocs
import Verif.Proofs.CodeRegions
import Verif.Props.WellFormed
import Verif.Props.Determined
import Verif.Props.RoundTripTotal
import Verif.Props.SmallTables
/-
Writing again what was read from a code object the library wrote.
-/
namespace Verif
open Spec
section
variable {κ : Type} [DecidableEq κ] {P : Platform} {key : Arg → κ} {b b2 : Bytecode} {c c2 : Concrete} {co : Code} {T T' : Tabs} {M M' : List Cell}

theorem codeCellvars_idem (h11 : P.py311 = true) (vs cs : List String) : codeCellvars P vs (codeCellvars P vs cs) = codeCellvars P vs cs := by
  unfold codeCellvars
  rw [if_pos h11, if_pos h11]
  congr 1
  · apply List.filter_congr
    intro x hx
    have : x ∈ vs := by simpa using hx
    simp [this]
  · rw [List.filter_append]
    have : (vs.eraseDups.filter (· ∈ cs)).filter (· ∉ vs) = [] := by
      rw [List.filter_eq_nil_iff]
      intro x hx
      have : x ∈ vs := by simpa using (List.mem_filter.1 hx).1
      simp [this]
    rw [this, List.filter_filter]
    simp

/-- The same bytes and the same tables: the same code object. -/
theorem emit_again (h11 : P.py311 = true) {is is2 : List CInstr} {ls : List Loc} (he : c.elems = is.map .instr) (he2 : c2.elems = is2.map .instr)
    (hbare : is2.map bareC = is.map bareC) (hl : is.map (·.loc) = ls.map some) (hl2 : is2.map (·.loc) = (ls.map keptLoc).map some) (ha : Apart ls)
    (hA : { c2.attrs with docstring := none } = (tablesOf co).attrs) (h1 : c2.consts = c.consts) (h2 : c2.names = c.names) (h3 : c2.varnames = c.varnames)
    (h4 : c2.excTable = c.excTable) {n : Int} (h : c.emit P n = .ok co) : c2.emit P n = .ok co := by
  unfold Concrete.emit at h ⊢
  simp only [h11, if_true] at h ⊢
  obtain ⟨table, htab, h⟩ := except_bind_ok h
  obtain ⟨exc, hexc, h⟩ := except_bind_ok h
  simp only [pure, Except.pure, Except.ok.injEq] at h
  have hco : (tablesOf co).attrs = { c.attrs with docstring := none, cellvars := codeCellvars P c.varnames c.attrs.cellvars } := by rw [← h]; rfl
  rw [hco] at hA
  simp only [Attrs.mk.injEq, true_and] at hA
  obtain ⟨a1, a2, a3, a4, a5, a6, a7, a8, a9, a10⟩ := hA
  have hcode : (assembleCode P c2.attrs.firstLineno c2.elems).1 = (assembleCode P c.attrs.firstLineno c.elems).1 := by
    show (assembleCodeLoop P 0 (normalizeLineno c2.attrs.firstLineno c2.elems)).1 = (assembleCodeLoop P 0 (normalizeLineno c.attrs.firstLineno c.elems)).1
    rw [assembleCodeLoop_bytes, assembleCodeLoop_bytes, he, he2, instrsOf_instrs, instrsOf_instrs]
    have : ∀ l : List CInstr, l.flatMap (CInstr.assemble P) = (l.map bareC).flatMap (CInstr.assemble P) := by
      intro l; rw [List.flatMap_map]; rfl
    rw [this is2, this is, hbare]
  obtain ⟨z1, z2⟩ := assembleCodeLoop_sizes P c.elems c.attrs.firstLineno 0
  obtain ⟨y1, y2⟩ := assembleCodeLoop_sizes P c2.elems c2.attrs.firstLineno 0
  rw [he, instrsOf_instrs] at z1 z2
  rw [he2, instrsOf_instrs] at y1 y2
  have hsz : is2.map (·.size) = is.map (·.size) := by
    have := congrArg (List.map (·.size)) hbare
    simpa [bareC, Function.comp_def] using this
  have htab2 : assembleLocations c2.attrs.firstLineno (assembleCode P c2.attrs.firstLineno c2.elems).2 = .ok table := by
    rw [show c2.attrs.firstLineno = c.attrs.firstLineno from a4] at y1 y2 ⊢
    refine assembleLocations_kept (ls := ls) ?_ ?_ ?_ ha htab
    · rw [he]; exact z2.trans hl
    · rw [he2]; exact y2.trans hl2
    · rw [he, he2]; exact y1.trans (hsz.trans z1.symm)
  rw [htab2, h4, hexc, h1, h2, h3, hcode]
  simp only [bind, Except.bind, pure, Except.pure, Except.ok.injEq]
  rw [← h, a1, a2, a3, a4, a5, a6, a7, a8, a9, a10, codeCellvars_idem h11]

/-! ### The tables -/

omit [DecidableEq κ] in
theorem fromCode_cells (hP : P.WF) (h11 : P.py311 = true) (hok : CodeOK P co) (hd : ∀ f ∈ fetched P co, P.dual f.opcode = false) {conserve : Bool}
    (h : Bytecode.fromCode P co true conserve = .ok b) : ∀ i, .instr i ∈ b.elems → P.haslocal i.opcode = true → ∀ n, i.arg = .cell n → n ∉ co.varnames := by
  obtain ⟨js, g1, _, hR, _⟩ := readFrom_of (key := (id : Arg → Arg)) hP h11 hok
  have ht : toBytecode P true conserve (readOf co js) = .ok b := by
    unfold Bytecode.fromCode at h; rw [g1] at h; exact h
  have hnd := noDual_of hP h11 hok hd h
  intro i hi hloc n hn
  obtain ⟨f, hf, h1, j, hj, h2, h3, off, arg, h4, h5⟩ := hR.instr hP h11 ht hi
  cases hx : j.getJumpTarget P off with
  | some t => rw [hx] at h5; rw [hn] at h5; cases h5
  | none =>
    rw [hx] at h5
    simp only at h5
    unfold decodeOperand at h4
    have hK := kinds_excl hP i.opcode
    cases ha : j.arg with
    | none =>
      rw [ha] at h4
      simp only at h4
      rw [h2, hloc] at h4
      simp at h4
    | some a =>
      rw [ha] at h4
      simp only at h4
      unfold decodeArg at h4
      rw [h2, if_neg (by rw [(hK.local_ hloc).2.2.2.1]; simp), if_pos hloc, if_neg (by rw [hnd i hi]; simp)] at h4
      obtain ⟨x, hx, h4⟩ := except_bind_ok h4
      simp only [pure, Except.pure, Except.ok.injEq] at h4
      have hm := List.mem_of_getElem? (argIdx_ok hx)
      rw [← h4, hn] at h5
      have : x = .cell n := by cases x <;> simp only [Atom.toArg] at h5 <;> cases h5; rfl
      subst this
      unfold localsLookup at hm
      split at hm
      · unfold cellsLookup at hm
        rw [if_pos h11] at hm
        simp [readOf] at hm
        exact hm.2
      · simp at hm

theorem setDocstring_head (l : List Arg) : setDocstring (setDocstring none l) l = setDocstring none l := by
  cases l with
  | nil => rfl
  | cons x r =>
    cases x <;> try rfl
    rename_i k; cases k <;> rfl

theorem firsts_head {α : Type} (key : α → κ) {l r : List α} {d : α} (h : firsts key l = d :: r) : firsts key (d :: l) = firsts key l := by
  cases l with
  | nil => cases h
  | cons x l =>
    simp only [firsts, List.cons.injEq] at h ⊢
    obtain ⟨rfl, h⟩ := h
    refine ⟨rfl, ?_⟩
    simp

/-- The constants, when the docstring is what Python takes for one. -/
theorem consts_again {doc : Option Arg} {l l' : List Arg} (hdoc : doc = none ∨ (∃ s, doc = some (.str s)) ∨ doc = some (.other 0))
    (hk : l'.map key = l.map key) (hs : ∀ v ∈ l', v ∈ firsts key (doc.toList ++ l)) :
    firsts key ((setDocstring none (firsts key (doc.toList ++ l))).toList ++ l') = firsts key (doc.toList ++ l) := by
  have hh : ∀ d, setDocstring none (firsts key (doc.toList ++ l)) = some d → ∃ r, firsts key (doc.toList ++ l) = d :: r := by
    intro d hd
    generalize firsts key (doc.toList ++ l) = m at hd
    cases m with
    | nil => cases hd
    | cons x r =>
      refine ⟨r, ?_⟩
      unfold setDocstring at hd
      grind
  cases hq : setDocstring none (firsts key (doc.toList ++ l)) with
  | none =>
    have hn : doc = none := by
      rcases hdoc with rfl | ⟨s, rfl⟩ | rfl
      · rfl
      · simp [firsts, setDocstring] at hq
      · simp [firsts, setDocstring] at hq
    subst hn
    exact firsts_same key _ _ (by simpa using hk) (by simpa using hs)
  | some d =>
    obtain ⟨r, hr⟩ := hh d hq
    rcases Option.eq_none_or_eq_some doc with rfl | ⟨e, rfl⟩
    · simp only [Option.toList_none, List.nil_append, Option.toList_some, List.singleton_append] at hr hs ⊢
      rw [← firsts_head key hr]
      refine firsts_same key _ _ (by simp [hk]) ?_
      intro v hv
      rw [firsts_head key hr]
      rcases List.mem_cons.1 hv with rfl | hv
      · rw [hr]; simp
      · exact hs v hv
    · have : d = e := by
        simp only [Option.toList_some, List.singleton_append, firsts, List.cons.injEq] at hr
        exact hr.1.symm
      subst this
      refine firsts_same key _ _ (by simp [hk]) ?_
      intro v hv
      simp only [Option.toList_some, List.singleton_append, List.mem_cons] at hv
      rcases hv with rfl | hv
      · rw [hr]; simp
      · exact hs v hv

/-- The variables, when there are no more argument names than arguments. -/
theorem varnames_again {args u : List String} {k : Nat} (hk : args.length ≤ k) (hn : u.Nodup) :
    (args ++ u.filter (fun n => decide (n ∉ args))).take k ++ u.filter (fun n => decide (n ∉ (args ++ u.filter (fun n => decide (n ∉ args))).take k)) =
      args ++ u.filter (fun n => decide (n ∉ args)) := by
  rw [List.take_append, List.take_of_length_le hk, List.append_assoc]
  congr 1
  have h1 : u.filter (fun n => decide (n ∉ args ++ (u.filter (fun n => decide (n ∉ args))).take (k - args.length))) =
      (u.filter (fun n => decide (n ∉ args))).filter (fun n => decide (n ∉ (u.filter (fun n => decide (n ∉ args))).take (k - args.length))) := by
    rw [List.filter_filter]
    apply List.filter_congr
    intro x _
    simp only [List.mem_append, not_or, Bool.decide_and]
    rw [Bool.and_comm]
  rw [h1]
  have hw := hn.filter (fun n => decide (n ∉ args))
  generalize u.filter (fun n => decide (n ∉ args)) = w at hw
  generalize k - args.length = j
  have : w.filter (fun n => decide (n ∉ w.take j)) = w.drop j := by
    have hd := List.take_append_drop j w
    have e : w.filter (fun n => decide (n ∉ w.take j)) = (w.take j ++ w.drop j).filter (fun n => decide (n ∉ w.take j)) := by rw [hd]
    rw [e, List.filter_append]
    rw [← hd, List.nodup_append] at hw
    have q1 : (w.take j).filter (fun n => decide (n ∉ w.take j)) = [] := by
      rw [List.filter_eq_nil_iff]; intro x hx; simp [hx]
    have q2 : (w.drop j).filter (fun n => decide (n ∉ w.take j)) = w.drop j := by
      rw [List.filter_eq_self]
      intro x hx
      have := fun hy => hw.2.2 x hy x hx rfl
      simpa using this
    rw [q1, q2]; rfl
  rw [this, List.take_append_drop]

theorem flatMap_replicate_map {α β γ : Type} (f : β → γ) (g : α → Nat) (v : α → β) (l : List α) :
    (l.flatMap (fun a => List.replicate (g a) (v a))).map f = l.flatMap (fun a => List.replicate (g a) (f (v a))) := by
  rw [List.map_flatMap]; simp

theorem firsts_mem {α : Type} (key : α → κ) {l : List α} {x : α} (h : x ∈ l) : key x ∈ (firsts key l).map key := by
  induction l with
  | nil => cases h
  | cons y l ih =>
    rw [firsts, List.map_cons]
    by_cases hx : key x = key y
    · simp [hx]
    · rcases List.mem_cons.1 h with rfl | h
      · exact absurd rfl hx
      · obtain ⟨z, hz, e⟩ := List.mem_map.1 (ih h)
        refine List.mem_cons_of_mem _ (List.mem_map.2 ⟨z, List.mem_filter.2 ⟨hz, ?_⟩, e⟩)
        simpa [e] using hx

omit [DecidableEq κ] in
theorem emit_nargs {n : Int} (he : c.emit P n = .ok co) : nargs (tablesOf co).attrs = nargs c.attrs := by
  unfold Concrete.emit at he
  simp only at he
  obtain ⟨table, _, he⟩ := except_bind_ok he
  obtain ⟨exc, _, he⟩ := except_bind_ok he
  simp only [pure, Except.pure, Except.ok.injEq] at he
  subst he; rfl

/-- What is read from a code object written from `b` (with its depths), converted again, is written as the same code object. -/
theorem written_again (hP : P.WF) (h11 : P.py311 = true) {passes passes2 : Nat} (hc : toConcrete P key passes b = .ok c) (hc2 : toConcrete P key passes2 b2 = .ok c2)
    (hcache : ∀ e ∈ b.elems, e.isCache = false) (hv : ∀ i, .instr i ∈ b.elems → ValidInstr P i) (hw : WellTried none [] false b.elems)
    (hd : ∀ i, .instr i ∈ b.elems → P.dual i.opcode = false) (hok : ∀ i, .instr i ∈ b.elems → OperandOK P c.varnames i)
    (hcell : ∀ i, .instr i ∈ b.elems → P.haslocal i.opcode = true → ∀ n, i.arg = .cell n → n ∉ c.varnames)
    (hargs : b.argnames.Nodup) (hcells : b.attrs.cellvars.Nodup) (hfrees : b.attrs.freevars.Nodup) (hn : b.argnames.length ≤ nargs b.attrs)
    (hdoc : b.attrs.docstring = none ∨ (∃ s, b.attrs.docstring = some (.str s)) ∨ b.attrs.docstring = some (.other 0))
    (hapart : Apart ((programB P key b).map (·.loc))) {n : Int} (he : c.emit P n = .ok co) (hco : CodeOK P co)
    (hb2 : Bytecode.fromCode P co true true = .ok b2) : c2.emit P n = .ok co := by
  obtain ⟨T, M, hF⟩ := toConcrete_Final hP hcache hv hc
  obtain ⟨q1, q2, q3⟩ := emit_tables he
  obtain ⟨bx, r1, _, r3, r4, r5, r6, r7, _, r9⟩ := fromCode_parts hP h11 key hco true
  rw [hb2] at r1
  cases r1
  have hcache2 : ∀ e ∈ b2.elems, e.isCache = false := by
    intro e he
    cases e with
    | instr i => simpa [BElem.isCache] using (r4 i he).2.2
    | _ => rfl
  have hv2 : ∀ i, .instr i ∈ b2.elems → ValidInstr P i := fun i hi => (r4 i hi).1
  obtain ⟨T2, M2, hF2⟩ := toConcrete_Final hP hcache2 hv2 hc2
  have hokco : ∀ i, .instr i ∈ b.elems → OperandOK P co.varnames i := by rw [q3]; exact hok
  have hpc := (convert_emit_program hP h11 hcache hv hw hc he hokco).1
  have hprog : programB P key b2 = (programB P key b).map (Op.mapLoc keptLoc) := by rw [r3 rfl, hpc]
  have hbare : (programB P key b2).map Op.bare = (programB P key b).map Op.bare := by rw [hprog, bare_mapLoc]
  have hE := emitted P hP h11 c (code P M) (fun i => i.loc.getD (Loc.line none)) hF.elems (hF.layout h11) hF.readable
    (by intro i hi; obtain ⟨l, hl⟩ := (hF.plain i hi).2.1; rw [hl]; rfl) n co he
  have hdf : ∀ f ∈ fetched P co, P.dual f.opcode = false := by
    intro f hf
    rw [hE.fetch_] at hf
    obtain ⟨ci, hci, ho⟩ := fetchedOf_opcode hf
    rcases hF.opcodes hd hci with hx | ⟨i, hi, hx⟩
    · rw [← ho, (cache_iff hP h11 (hF.readable ci hci).valid).1 hx]; exact dual_zero hP h11
    · rw [← ho, hx]; exact hd i hi
  have hd2 := noDual_of hP h11 hco hdf hb2
  obtain ⟨u1, u2, u3, u4, u5, u6, u7⟩ := fromCode_uses hP h11 hco hdf hb2
  obtain ⟨t1, t2, t3⟩ := C17_exact hP hv hc
  obtain ⟨s1, s2, s3⟩ := C17_exact hP hv2 hc2
  -- constants
  have hdoc2 : b2.attrs.docstring = setDocstring none co.consts := by
    obtain ⟨js, g1, _, _, _⟩ := readFrom_of (key := (id : Arg → Arg)) hP h11 hco
    have ht : toBytecode P true true (readOf co js) = .ok b2 := by
      have h := hb2; unfold Bytecode.fromCode at h; rw [g1] at h; exact h
    obtain ⟨es', d, _, _, _, _, h5⟩ := toBytecode_ok ht
    rw [h5]
    exact setDocstring_head co.consts
  have hok2 : ∀ i, .instr i ∈ b2.elems → OperandOK P c2.varnames i := fun i hi =>
    ⟨fun hcm v hx => compare_back hP h11 hco true hb2 i hi hcm v hx, fun hx => by rw [hd2 i hi] at hx; cases hx⟩
  have e1 : c2.consts = c.consts := by
    have hk : (usesOf (constUse P) b2.elems).map key = (usesOf (constUse P) b.elems).map key := by
      rw [uses_consts hP hcache hd, uses_consts hP hcache2 hd2, hbare]
    rw [s1, hdoc2, q1, t1]
    refine consts_again hdoc hk ?_
    intro v hv
    rw [← t1, ← q1]
    exact u1 v (by simp [hv])
  have e2 : c2.names = c.names := by
    rw [s2, t2, uses_names (key := key) hP hcache hv hd, uses_names (key := key) hP hcache2 hv2 hd2, hbare]
  have e3 : c2.varnames = c.varnames := by
    have hsub : ∀ n ∈ usesOf (localUse P) b.elems, n ∈ c.varnames := by
      intro n hn
      rw [t3, dualUses_nil hd]
      have hm : n ∈ firsts id ((if P.py313 then [] else []) ++ usesOf (localUse P) b.elems) := by
        have := firsts_mem (id : String → String) (l := (if P.py313 then [] else []) ++ usesOf (localUse P) b.elems) (x := n) (by simp [hn])
        simpa using this
      by_cases hx : n ∈ b.argnames
      · simp [hx]
      · refine List.mem_append_right _ (List.mem_filter.2 ⟨hm, by simpa using hx⟩)
    have hu : usesOf (localUse P) b2.elems = usesOf (localUse P) b.elems := by
      rw [uses_locals (key := key) hP hcache hv hd c.varnames hsub hcell,
        uses_locals (key := key) hP hcache2 hv2 hd2 c.varnames (by rw [← q3]; exact u3) (by rw [← q3]; exact fromCode_cells hP h11 hco hdf hb2), hbare]
    rw [dualUses_nil hd] at t3
    rw [dualUses_nil hd2, hu, r9] at s3
    have hna : nargs (tablesOf co).attrs = nargs b.attrs := by
      have hx := emit_nargs he
      rw [hF.attrs] at hx
      exact hx
    rw [hna, q3] at s3
    rw [s3, t3]
    refine varnames_again hn ?_
    have := firsts_nodup (id : String → String) ((if P.py313 then [] else []) ++ usesOf (localUse P) b.elems)
    simpa using this
  have hfs : frameSlots c2.varnames c2.attrs.cellvars c2.attrs.freevars = frameSlots c.varnames c.attrs.cellvars c.attrs.freevars := by
    rw [← hE.slots_, hF2.attrs, e3, u6, u7, q3]
  have hS : SameOps P key c c2 := by
    obtain ⟨n1, n2, n3⟩ := nameTable_nodup hP hv hc hargs
    have hnd : (frameSlots c.varnames c.attrs.cellvars c.attrs.freevars).Nodup := by
      rw [hF.attrs]; exact frameSlots_nodup n3 hcells hfrees
    refine ⟨?_, e1, e2, ?_, ?_, n1, n2, ?_, ?_, hF.program_valid hok⟩
    · rw [hF.program hok hw (toConcrete_depths hc), hF2.program hok2 r6 (toConcrete_depths hc2), hbare]
    · unfold localSlots; rw [hfs, e3]
    · unfold derefSlots; rw [if_pos h11, if_pos h11, hfs]
    · unfold localSlots
      split
      · exact hnd
      · exact List.Nodup.map (fun a b h => by cases h; rfl) n3
    · unfold derefSlots
      rw [if_pos h11]
      exact hnd
  have hcode := same_code h11 hc hc2 hF hF2 hok hok2 hd hd2 hS
  have hreg : regionsB P b2 = regionsB P b := by
    rw [fromCode_regions hP h11 hco (emit_sorted hP h11 hF hw he) hb2, emit_regions hP h11 hc hF hw he]
  have htab := same_table hF hF2 hw r6 (toConcrete_depths hc) (toConcrete_depths hc2) hcode hreg
  refine emit_again (ls := (programB P key b).flatMap (fun o => List.replicate (1 + nCaches P o.name) o.loc)) h11 hF.elems hF2.elems hcode ?_ ?_ ?_ ?_ e1 e2 e3 htab he
  · rw [hF.code_locs hd, flatMap_replicate_map]
  · rw [hF2.code_locs hd2, flatMap_replicate_map, flatMap_replicate_map, hprog, List.flatMap_map]
    rfl
  · intro l hl l' hl'
    obtain ⟨o, ho, hx⟩ := List.mem_flatMap.1 hl
    obtain ⟨o', ho', hx'⟩ := List.mem_flatMap.1 hl'
    rw [List.mem_replicate] at hx hx'
    rw [hx.2, hx'.2]
    exact hapart _ (List.mem_map_of_mem ho) _ (List.mem_map_of_mem ho')
  · rw [hF2.attrs, r7]
end
end Verif
