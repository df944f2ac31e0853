import Verif.Proofs.Again
import Verif.Props.Determined
import Verif.Props.SizeEx
/-
C74: what the library wrote, it writes again.
-/
namespace Verif
open Spec
section
variable {κ : Type} [DecidableEq κ] {P : Platform} {key : Arg → κ} {b b2 : Bytecode} {co co' : Code} {eff eff' : Instr → Bool → Py (Int × Int)}
  {passes : Nat} {stacksize : Option Int} {depths : Bool}

/-- What is assembled: the Bytecode, or the one of the graph with its depths. -/
theorem toCode_either (h : b.toCode P key eff passes stacksize depths = .ok co) :
    ∃ b' c n, toConcrete P key passes b' = .ok c ∧ c.emit P n = .ok co ∧ (b' = b ∨ b.sized P eff depths = .ok (n, b')) := by
  unfold Bytecode.toCode at h
  split at h
  · obtain ⟨r, hr, h⟩ := except_bind_ok h
    obtain ⟨c, hc, h⟩ := except_bind_ok h
    exact ⟨r.2, c, r.1, hc, h, .inr hr⟩
  · split at h
    · obtain ⟨c, hc, h⟩ := except_bind_ok h
      exact ⟨b, c, _, hc, h, .inl rfl⟩
    · obtain ⟨r, hr, h⟩ := except_bind_ok h
      obtain ⟨c, hc, h⟩ := except_bind_ok h
      exact ⟨r.2, c, r.1, hc, h, .inr hr⟩

/-- **C74.** On 3.11+, a code object `to_code` wrote, whatever its options, is a fixed point: what
`from_code(conserve_exception_block_stackdepth=True)` reads from it is written by `to_code`, with its stack size and the depths read, as the same
code object: same bytes, same tables in the same order, same table of locations, same exception table, same attributes. -/
theorem C74_fixed_point (hP : P.WF) (h11 : P.py311 = true) (hcache : ∀ e ∈ b.elems, e.isCache = false) (hv : ∀ i, .instr i ∈ b.elems → ValidInstr P i)
    (hl : LabelsOnly b) (hw : WellTried none [] false b.elems) (hne : NoEmptyTry false b.elems) (hs : Sound P key b)
    (hok : ∀ i, .instr i ∈ b.elems → OperandOK P co.varnames i) (hfree : P.py313 = true → ∀ n ∈ co.freevars, n ∉ co.varnames)
    (hd : ∀ i, .instr i ∈ b.elems → P.dual i.opcode = false)
    (hcell : ∀ i, .instr i ∈ b.elems → P.haslocal i.opcode = true → ∀ n, i.arg = .cell n → n ∉ co.varnames)
    (hargs : b.argnames.Nodup) (hcells : b.attrs.cellvars.Nodup) (hfrees : b.attrs.freevars.Nodup) (hn : b.argnames.length ≤ nargs b.attrs)
    (hdoc : b.attrs.docstring = none ∨ (∃ s, b.attrs.docstring = some (.str s)) ∨ b.attrs.docstring = some (.other 0))
    (hapart : Apart ((programB P key (zeroDepths b)).map (·.loc)))
    (h : b.toCode P key eff passes stacksize depths = .ok co) (hstart : StartsPlain P co)
    (hsize : 8 * co.code.length + co.varnames.length + co.cellvars.length + co.freevars.length ≤ 2147483647) :
    ∃ b2, Bytecode.fromCode P co true true = .ok b2 ∧ ∀ m, jumpExtArgs P co < m → b2.toCode P key eff' m (some co.stacksize) false = .ok co := by
  have hco := C66_well_formed hP h11 hcache hv hl hw hne hs hok hfree h hstart
  have hre := C66_rewritable hP h11 hcache hv hl hw hne hok h hsize
  obtain ⟨b2, co2, hb2, ht2⟩ := C62_round_trip_total hP h11 key eff' hco hre (Nat.lt_succ_self _) co.stacksize
  refine ⟨b2, hb2, fun m hm => ?_⟩
  obtain ⟨hval, hlo, hwt⟩ := C51_usable hP h11 hco true hb2
  have hcache2 : ∀ e ∈ b2.elems, e.isCache = false := by
    intro e he
    cases e with
    | instr i => simpa [BElem.isCache] using (hval i he).2.2
    | _ => rfl
  suffices hsame : co2 = co by
    subst hsame
    exact C70_passes hP hcache2 (fun i hi => (hval i hi).1) hlo hwt ht2 m hm
  obtain ⟨b', c, n, hc, he, hb'⟩ := toCode_either h
  have hst : co.stacksize = n := by
    have he := he
    unfold Concrete.emit at he
    simp only at he
    obtain ⟨table, _, he⟩ := except_bind_ok he
    obtain ⟨exc, _, he⟩ := except_bind_ok he
    simp only [pure, Except.pure, Except.ok.injEq] at he
    subst he; rfl
  obtain ⟨_, _, q3⟩ := emit_tables he
  rw [q3] at hok hcell
  unfold Bytecode.toCode at ht2
  simp only [Bool.and_false, Bool.false_eq_true, if_false] at ht2
  obtain ⟨c2, hc2, he2⟩ := except_bind_ok ht2
  have key' : c2.emit P n = .ok co := by
    rcases hb' with rfl | hb'
    · refine written_again hP h11 hc hc2 hcache hv hw hd hok hcell hargs hcells hfrees hn hdoc ?_ he hco hb2
      rw [← program_same hP key b' b' hv hl hv hl (toConcrete_depths hc) rfl rfl rfl, List.map_map] at hapart
      exact hapart
    · obtain ⟨h1, h2, h3, h4, h5, h6, _⟩ := sized_spec hl hw hb'
      have hv' := valid_same hl h1 h6 hv
      have hit : ∀ i, .instr i ∈ b'.elems → ∃ j, .instr j ∈ b.elems ∧ j.opcode = i.opcode ∧ (j.arg = i.arg ∨ ∃ l, i.arg = .label l) := by
        intro i hi
        obtain ⟨j, a1, _, a2, _, a3, a4⟩ := item_instr hl h1 h6 hi
        refine ⟨j, a1, a2, ?_⟩
        rcases a3 with a3 | a3
        · exact .inl a3
        · exact .inr a3.1
      refine written_again hP h11 hc hc2 (noCache_same hl h1 h6 hcache) hv' h5 ?_ (operandOK_same hl h1 h6 hok) ?_ (h4 ▸ hargs)
        (h3 ▸ hcells) (h3 ▸ hfrees) (h3 ▸ h4 ▸ hn) (h3 ▸ hdoc) ?_ he hco hb2
      · intro i hi
        obtain ⟨j, hj, hjo, _⟩ := hit i hi
        rw [← hjo]; exact hd j hj
      · intro i hi hx n hn
        obtain ⟨j, hj, hjo, hja⟩ := hit i hi
        rcases hja with hja | ⟨l, hl⟩
        · exact hcell j hj (by rw [hjo]; exact hx) n (by rw [hja]; exact hn)
        · rw [hl] at hn; cases hn
      · rw [← program_same hP key b b' hv hl hv' (fun i hi x => ?_) (toConcrete_depths hc) h1 h2 (by rw [h3]), List.map_map] at hapart
        · exact hapart
        · obtain ⟨_, _, _, _, _, _, hx⟩ := item_instr hl h1 h6 hi
          exact hx x
  rw [hst, key'] at he2
  exact (Except.ok.inj he2).symm

/-! ### Code objects -/

theorem opAtUnit_bound (t : Int) (len : Nat) (fs : List Fetched) (hpos : ∀ f ∈ fs, 0 < opCount P (nameOf P f.opcode) f.opcode) (h : ∃ f ∈ fs, t = f.first) :
    ∀ n k, opAtUnit P t len n fs = some k → k < n + (fs.map (fun f => opCount P (nameOf P f.opcode) f.opcode)).sum := by
  induction fs with
  | nil => obtain ⟨_, hf, _⟩ := h; cases hf
  | cons f fs ih =>
    intro n k hk
    unfold opAtUnit at hk
    have := hpos f (by simp)
    split at hk
    · cases hk
      simp only [List.map_cons, List.sum_cons]; omega
    · rename_i hx
      have := ih (fun g hg => hpos g (by simp [hg])) (by
        obtain ⟨g, hg, e⟩ := h
        rcases List.mem_cons.1 hg with rfl | hg
        · exact absurd e hx
        · exact ⟨g, hg, e⟩) _ _ hk
      simp only [List.map_cons, List.sum_cons]; omega

omit [DecidableEq κ] in
theorem operandC_dest {c : Concrete} {dest : Option Nat} {i : CInstr} {t : Nat} (h : operandC P key c dest i = .jump t) : dest = some t := by
  unfold operandC at h
  split at h
  · cases dest with
    | none => cases h
    | some x => cases h; rfl
  · cases ha : i.arg with
    | none => rw [ha] at h; cases h
    | some a =>
      rw [ha] at h
      simp only at h
      have hs : ∀ (l : List Slot) k, (slotAt l k : Operand κ) ≠ .jump t := by
        intro l k; unfold slotAt; split <;> simp
      have hn : ∀ (l : List String) k (f : String → Operand κ), (∀ n, f n ≠ .jump t) → nameAt l k f ≠ .jump t := by
        intro l k f hf; unfold nameAt; split <;> simp_all
      repeat' split at h
      all_goals first
        | cases h
        | exact absurd h (hs _ _)
        | exact absurd h (hn _ _ _ (by simp))

omit [DecidableEq κ] in
theorem expandC_jumps {c : Concrete} {dest : Option Nat} {i : CInstr} {t : Nat} {p : String × Operand κ} (hp : p ∈ expandC P key c dest i)
    (hp2 : p.2 = .jump t) : dest = some t := by
  unfold expandC at hp
  split at hp
  · cases hp
  · split at hp
    · have hs : ∀ (l : List Slot) k, (slotAt l k : Operand κ) ≠ .jump t := by
        intro l k; unfold slotAt; split <;> simp
      split at hp
      · simp only [List.mem_cons, List.not_mem_nil, or_false] at hp
        rcases hp with rfl | rfl
        · exact absurd hp2 (hs _ _)
        · exact absurd hp2 (hs _ _)
      · simp only [List.mem_cons, List.not_mem_nil, or_false] at hp
        rcases hp with rfl | rfl <;> cases hp2
    · simp only [List.mem_cons, List.not_mem_nil, or_false] at hp
      subst hp
      exact operandC_dest hp2

theorem fromCode_sound (hP : P.WF) (h11 : P.py311 = true) (hok : CodeOK P co) (hre : Rewritable P co) {conserve : Bool}
    (hb : Bytecode.fromCode P co true conserve = .ok b) : Sound P key b := by
  obtain ⟨bx, r1, r2, _, r4, _⟩ := fromCode_parts hP h11 key hok conserve
  rw [hb] at r1; cases r1
  obtain ⟨js, g1, _, hR, _⟩ := readFrom_of (key := (id : Arg → Arg)) hP h11 hok
  have ht : toBytecode P true conserve (readOf co js) = .ok b := by
    have h := hb; unfold Bytecode.fromCode at h; rw [g1] at h; exact h
  have hnames : ∀ f ∈ fetched P co, nameOf P f.opcode ≠ "CACHE" := by
    intro f hf; rw [hR.fetch_] at hf; exact (fetched_named hP h11 hR.readable hf).1
  have hpos : ∀ f ∈ fetched P co, 0 < opCount P (nameOf P f.opcode) f.opcode := by
    intro f hf
    unfold opCount
    rw [if_neg (hnames f hf)]
    split <;> omega
  have hlen : ((programCode P key co).map Op.noDepth).length = 0 + ((fetched P co).map (fun f => opCount P (nameOf P f.opcode) f.opcode)).sum := by
    rw [List.length_map, programCode_length, Nat.zero_add]
  refine ⟨?_, ?_, ?_, ?_, ?_⟩
  · rw [r2, hlen]
    intro o ho t hx
    obtain ⟨o, hoo, rfl⟩ := List.mem_map.1 ho
    replace ho := hoo
    have hx : o.operand = .jump t := hx
    unfold programCode at ho
    simp only at ho
    obtain ⟨f, hf, ho⟩ := List.mem_flatMap.1 ho
    obtain ⟨p, hp, rfl⟩ := List.mem_map.1 ho
    have hp2 : p.2 = .jump t := hx
    have hdest : ((jumpUnit P f).bind (fun t => opAtUnit P t (co.code.length / 2) 0 (fetched P co))) = some t := expandC_jumps hp hp2
    obtain ⟨u, hu, hq⟩ := Option.bind_eq_some_iff.1 hdest
    exact opAtUnit_bound u _ _ hpos (hok.jumps f hf u hu) _ _ hq
  · rw [r2, hlen]
    intro o ho x hx
    obtain ⟨o, hoo, rfl⟩ := List.mem_map.1 ho
    replace ho := hoo
    unfold programCode at ho
    simp only at ho
    obtain ⟨f, hf, ho⟩ := List.mem_flatMap.1 ho
    obtain ⟨p, hp, rfl⟩ := List.mem_map.1 ho
    simp only [Op.noDepth, Option.map_eq_some_iff] at hx
    obtain ⟨y, hy, rfl⟩ := hx
    unfold handlerOfUnit at hy
    split at hy
    · cases hy
    · rename_i r hr
      obtain ⟨t, hq, rfl⟩ := Option.map_eq_some_iff.1 hy
      obtain ⟨g, hg, e⟩ := (hok.region r (List.mem_of_find?_eq_some hr)).2.2.2
      exact opAtUnit_bound _ _ _ hpos ⟨g, hg, by rw [e]⟩ _ _ hq
  · rw [r2]
    intro o ho hc hl
    obtain ⟨o, hoo, rfl⟩ := List.mem_map.1 ho
    replace ho := hoo
    obtain ⟨u, hu⟩ := programCode_loc o ho
    have hc : o.loc.col = none := hc
    have hl : o.loc.lineno = some 0 := hl
    rw [hu] at hc hl
    unfold locOfUnit at hc hl
    cases hx : ((readLocs co.firstlineno co.linetable).getD [])[u]? with
    | none => rw [hx] at hl; cases hl
    | some p =>
      rw [hx] at hc hl
      have hm := List.mem_of_getElem? hx
      have hv := hok.positions p hm
      simp only [Option.map_eq_none_iff, Option.map_eq_some_iff] at hc hl
      obtain ⟨n, hn, hz⟩ := hl
      have he := hre.columns p hm hc
      rw [hn] at he
      have := hv.endLine n he
      omega
  · intro i hi
    obtain ⟨f, hf, h1, j, hj, h2, h3, off, arg, h4, h5⟩ := hR.instr hP h11 ht hi
    have hch : P.intrinsic1 i.opcode = true ∨ P.intrinsic2 i.opcode = true → (∀ l, i.arg ≠ .label l) →
        ∃ a, (if P.intrinsic1 i.opcode then intr1Enum a else intr2Enum a) = .ok i.arg := by
      intro hc hlab
      obtain ⟨k0, k1⟩ := hP.intr_plain i.opcode (by simpa using hc)
      simp only [Bool.or_eq_false_iff] at k1
      obtain ⟨⟨⟨⟨⟨k1, k2⟩, k3⟩, k4⟩, k5⟩, k6⟩ := k1
      cases hx : j.getJumpTarget P off with
      | some t => rw [hx] at h5; exact absurd h5 (hlab _)
      | none =>
        rw [hx] at h5
        simp only at h5
        unfold decodeOperand at h4
        have hsome : ∃ a, j.arg = some a := by
          cases ha : j.arg with
          | some a => exact ⟨a, rfl⟩
          | none =>
            rw [ha] at h4
            simp only at h4
            rw [if_pos (by rw [h2]; rcases hc with hc | hc <;> simp [hc])] at h4
            cases h4
        obtain ⟨a, ha⟩ := hsome
        rw [ha] at h4
        simp only at h4
        unfold decodeArg at h4
        simp only [h2, k1, k2, k3, k4, k5, k6, Bool.false_eq_true, if_false] at h4
        rw [h5]
        refine ⟨a, ?_⟩
        by_cases hi1 : P.intrinsic1 i.opcode = true
        · simpa [hi1] using h4
        · have hi2 : P.intrinsic2 i.opcode = true := by simpa [hi1] using hc
          simpa [hi1, hi2] using h4
    refine ⟨fun hi1 v hv => ?_, fun hi2 v hv => ?_⟩
    · obtain ⟨a, ha⟩ := hch (.inl hi1) (by rw [hv]; simp)
      rw [if_pos hi1, hv] at ha
      unfold intr1Enum at ha
      split at ha
      · cases ha; assumption
      · cases ha
    · obtain ⟨a, ha⟩ := hch (.inr hi2) (by rw [hv]; simp)
      have hi1 : P.intrinsic1 i.opcode = false := by
        cases h : P.intrinsic1 i.opcode with
        | false => rfl
        | true => rw [hP.intr_disjoint _ h] at hi2; cases hi2
      rw [if_neg (by rw [hi1]; simp), hv] at ha
      unfold intr2Enum at ha
      split at ha
      · cases ha; assumption
      · cases ha
  · intro v hv
    obtain ⟨es', d, _, _, _, _, h5⟩ := toBytecode_ok ht
    rw [h5] at hv
    exact hok.consts v (docstring_mem v (by rw [Option.mem_toList]; exact hv))

/-- **C74 (code objects of the compiler).** Reading a code object of 3.11+ and writing it, whatever the options, gives a code object that reading and
writing again, with its stack size and its depths, does not change: the second round trip is the identity. -/
theorem C74_second (hP : P.WF) (h11 : P.py311 = true) (hok : CodeOK P co) (hre : Rewritable P co) (hd : ∀ f ∈ fetched P co, P.dual f.opcode = false)
    (hvars : co.varnames.Nodup) (hcells : co.cellvars.Nodup) (hfrees : co.freevars.Nodup) {conserve : Bool}
    (hb : Bytecode.fromCode P co true conserve = .ok b) (h : b.toCode P key eff passes stacksize depths = .ok co') (hstart : StartsPlain P co')
    (hsize : 8 * co'.code.length + co'.varnames.length + co'.cellvars.length + co'.freevars.length ≤ 2147483647) :
    ∃ b2, Bytecode.fromCode P co' true true = .ok b2 ∧ ∀ m, jumpExtArgs P co' < m → b2.toCode P key eff' m (some co'.stacksize) false = .ok co' := by
  obtain ⟨hval, hlo, hwt⟩ := C51_usable hP h11 hok conserve hb
  have hcache : ∀ e ∈ b.elems, e.isCache = false := by
    intro e he
    cases e with
    | instr i => simpa [BElem.isCache] using (hval i he).2.2
    | _ => rfl
  have hv : ∀ i, .instr i ∈ b.elems → ValidInstr P i := fun i hi => (hval i hi).1
  have hnd := noDual_of hP h11 hok hd hb
  obtain ⟨_, r1, r2, _, _, _, _, r7, _, r9⟩ := fromCode_parts hP h11 key hok conserve
  rw [hb] at r1; cases r1
  obtain ⟨_, r1, _, _, hne, _⟩ := C62_rules hP h11 hok hre conserve
  rw [hb] at r1; cases r1
  obtain ⟨_, _, _, _, u5, u6, u7⟩ := fromCode_uses hP h11 hok hd hb
  obtain ⟨_, _, _, _, t5, _⟩ := C71_tables hP h11 hok hd hb h
  have hna : nargs b.attrs = nargs (tablesOf co).attrs := by rw [← r7]; rfl
  obtain ⟨b', c, n, hc, he, _, e2, _, e3, e4, _⟩ := toCode_source hcache hv hlo hwt h
  refine C74_fixed_point hP h11 hcache hv hlo hwt hne (fromCode_sound hP h11 hok hre hb)
    (fun i hi => ⟨fun hcm v hx => compare_back hP h11 hok conserve hb i hi hcm v hx, fun hx => by rw [hnd i hi] at hx; cases hx⟩)
    ?_ hnd (fun i hi hx n hn hm => fromCode_cells hP h11 hok hd hb i hi hx n hn (t5 n hm)) (u5.sublist.nodup hvars) (by rw [u6]; exact hcells)
    (by rw [u7]; exact hfrees) (by rw [r9, hna]; simp only [List.length_take]; omega) ?_ ?_ h hstart hsize
  · intro h13 n hn hm
    have hfv : co'.freevars = co.freevars := by
      unfold Concrete.emit at he
      simp only at he
      obtain ⟨table, _, he⟩ := except_bind_ok he
      obtain ⟨exc, _, he⟩ := except_bind_ok he
      simp only [pure, Except.pure, Except.ok.injEq] at he
      rw [← he]
      show c.attrs.freevars = _
      obtain ⟨T, M, hF⟩ := toConcrete_Final hP e3 e4 hc
      rw [hF.attrs, e2, u7]
    exact hok.apart h13 n (hfv ▸ hn) (t5 n hm)
  · obtain ⟨js, g1, _, _, _⟩ := readFrom_of (key := (id : Arg → Arg)) hP h11 hok
    have ht : toBytecode P true conserve (readOf co js) = .ok b := by
      have h := hb; unfold Bytecode.fromCode at h; rw [g1] at h; exact h
    obtain ⟨es', d, _, _, _, _, h5⟩ := toBytecode_ok ht
    rw [h5]
    show setDocstring (setDocstring none co.consts) co.consts = none ∨ (∃ s, setDocstring (setDocstring none co.consts) co.consts = some (.str s)) ∨
      setDocstring (setDocstring none co.consts) co.consts = some (.other 0)
    rw [setDocstring_head]
    unfold setDocstring
    split <;> simp
  · rw [r2]
    intro l hl l' hl' _ heq
    have hk : ∀ l ∈ ((programCode P key co).map Op.noDepth).map (·.loc), keptLoc l = l := by
      intro l hl
      obtain ⟨o, ho, rfl⟩ := List.mem_map.1 hl
      obtain ⟨o, hoo, rfl⟩ := List.mem_map.1 ho
      exact kept_of_columns hok hre.columns o hoo
    rw [hk l hl, hk l' hl'] at heq
    exact heq
end

/-- The example of C48 with its depths and its argument counted. -/
def againEx : Bytecode := { toCodeExSized with attrs := { toCodeExSized.attrs with argcount := 1 } }

def againExCode : Code := { toCodeExCode with argcount := 1 }

theorem againEx_code : againEx.toCode Py311.platform (id : Arg → Arg) eff311 10 (some 5) false = .ok againExCode := by
  have h : ((toConcrete Py311.platform (id : Arg → Arg) 10 againEx).toOption.bind (fun c => (c.emit Py311.platform 5).toOption)) = some againExCode := by
    decide +kernel
  show (toConcrete Py311.platform (id : Arg → Arg) 10 againEx >>= fun c => c.emit Py311.platform 5) = _
  cases hc : toConcrete Py311.platform (id : Arg → Arg) 10 againEx with
  | error e => rw [hc] at h; cases h
  | ok c => rw [hc] at h; exact toOption_ok h

/-- Reading its code object and writing it again gives the same one. -/
example : ∃ b2, Bytecode.fromCode Py311.platform againExCode true true = .ok b2 ∧ ∀ m, 0 < m →
    b2.toCode Py311.platform (id : Arg → Arg) eff311 m (some againExCode.stacksize) false = .ok againExCode := by
  have hc := noCache_spec (es := againEx.elems) (by decide +kernel)
  have hv := made_valid Py311.wf (es := againEx.elems) (by decide +kernel)
  have hs : Sound Py311.platform (id : Arg → Arg) againEx := sound_of (by decide +kernel)
  have hp : StartsPlain Py311.platform againExCode := by unfold StartsPlain; decide +kernel
  have : ∀ i, .instr i ∈ againEx.elems → (∀ v, i.arg = .compare v → v ≤ 5) ∧ Py311.platform.dual i.opcode = false ∧ ∀ n, i.arg ≠ .cell n := by
    have h1 : againEx.elems.all (fun e => match e with
      | .instr i => (match i.arg with | .compare v => decide (v ≤ 5) | .cell _ => false | _ => true) && !Py311.platform.dual i.opcode
      | _ => true) = true := by decide +kernel
    intro i hi
    have h2 := List.all_eq_true.1 h1 _ hi
    simp only [Bool.and_eq_true, Bool.not_eq_true'] at h2
    refine ⟨fun v hx => ?_, h2.2, fun n hx => ?_⟩
    · have := h2.1
      rw [hx] at this
      simpa using this
    · have := h2.1
      rw [hx] at this
      cases this
  obtain ⟨b2, h1, h2⟩ := C74_fixed_point (eff' := eff311) Py311.wf (by decide) hc hv (labelsOnly_of (by decide +kernel)) (by decide +kernel) (by decide +kernel)
    hs (fun i hi => ⟨fun _ v hx => .inl ((this i hi).1 v hx), fun hx => by rw [(this i hi).2.1] at hx; cases hx⟩) (fun h => absurd h (by decide))
    (fun i hi => (this i hi).2.1) (fun i hi _ n hx => absurd hx ((this i hi).2.2 n)) (by decide) (by decide) (by decide) (by decide) (.inr (.inl ⟨"doc", rfl⟩))
    (by unfold Apart; decide +kernel) againEx_code hp (by decide)
  exact ⟨b2, h1, fun m hm => h2 m (by
    have : jumpExtArgs Py311.platform againExCode = 0 := by decide +kernel
    omega)⟩

/-- A code object with a constant and a name nobody uses, and an EXTENDED_ARG for nothing. -/
def looseCode : Code where
  argcount := 1
  posonlyargcount := 0
  kwonlyargcount := 0
  nlocals := 2
  stacksize := 5
  flags := 3
  code := [151, 0, 124, 0, 144, 0, 114, 2, 100, 2, 83, 0, 100, 1, 83, 0]
  consts := [.str "doc", .int 3, .int 7, .int 4]
  names := ["unused"]
  varnames := ["a", "b"]
  filename := "f.py"
  name := "f"
  qualname := "f"
  firstlineno := 1
  linetable := [128, 0, 216, 2, 4, 212, 4, 8, 200, 9, 200, 9]
  exctable := []
  freevars := []
  cellvars := []

/-- The first round trip of `looseCode` drops them, the second is the identity. -/
example : ∃ b co', Bytecode.fromCode Py311.platform looseCode = .ok b ∧ b.toCode Py311.platform (id : Arg → Arg) eff311 10 (some 5) false = .ok co' ∧
    co' ≠ looseCode ∧ co'.code.length < looseCode.code.length ∧
    ∃ b2, Bytecode.fromCode Py311.platform co' true true = .ok b2 ∧
      b2.toCode Py311.platform (id : Arg → Arg) eff311 10 (some co'.stacksize) false = .ok co' := by
  obtain ⟨b, hb, h1⟩ := any_ok (x := Bytecode.fromCode Py311.platform looseCode)
    (p := fun b => (b.toCode Py311.platform (id : Arg → Arg) eff311 10 (some 5) false).toOption.any (fun co' =>
      decide (co' ≠ looseCode) && decide (co'.code.length < looseCode.code.length) && decide (regions co' = []) &&
      decide (8 * co'.code.length + co'.varnames.length + co'.cellvars.length + co'.freevars.length ≤ 2147483647) &&
      decide (jumpExtArgs Py311.platform co' < 10))) (by decide +kernel)
  obtain ⟨co', h, h2⟩ := any_ok h1
  simp only [Bool.and_eq_true, decide_eq_true_eq] at h2
  obtain ⟨⟨⟨⟨k1, k2⟩, k3⟩, k4⟩, k5⟩ := h2
  obtain ⟨b2, hb2, h3⟩ := C74_second (eff' := eff311) Py311.wf (by decide) (codeOK_of (by decide +kernel)) (rewritable_of (by decide +kernel))
    (by decide +kernel) (by decide) (by decide) (by decide) hb h (by intro r hr; rw [k3] at hr; cases hr) k4
  exact ⟨b, co', hb, h, k1, k2, b2, hb2, h3 10 k5⟩

/-- Two instructions the code object cannot tell apart: line 2 without an end, and line 2 to line 2. -/
def mergeEx : Bytecode where
  attrs := { toCodeExSized.attrs with cellvars := [], freevars := [] }
  argnames := []
  elems := [ins Py311.platform "RESUME" (.int 0) (some ⟨some 1, some 1, none, none⟩), ins Py311.platform "LOAD_CONST" (.str "doc") (some ⟨some 2, none, none, none⟩),
    ins Py311.platform "RETURN_VALUE" .unset (some ⟨some 2, some 2, none, none⟩)]

/-- **C74 for any locations is false.** Two neighbours whose locations differ only by what the code object does not keep have an entry each in the
first table and one entry in the second. -/
theorem C74_any_locations_statement_false : ∃ co b2 co2, mergeEx.toCode Py311.platform (id : Arg → Arg) eff311 10 (some 5) false = .ok co ∧
    Bytecode.fromCode Py311.platform co true true = .ok b2 ∧ b2.toCode Py311.platform (id : Arg → Arg) eff311 10 (some co.stacksize) false = .ok co2 ∧
    co2.linetable.length < co.linetable.length := by
  obtain ⟨co, h1, hp⟩ := any_ok (x := mergeEx.toCode Py311.platform (id : Arg → Arg) eff311 10 (some 5) false)
    (p := fun co => (Bytecode.fromCode Py311.platform co true true).toOption.any (fun b2 =>
      (b2.toCode Py311.platform (id : Arg → Arg) eff311 10 (some co.stacksize) false).toOption.any (fun co2 => decide (co2.linetable.length < co.linetable.length))))
    (by decide +kernel)
  obtain ⟨b2, h2, hp⟩ := any_ok hp
  obtain ⟨co2, h3, hp⟩ := any_ok hp
  exact ⟨co, b2, co2, h1, h2, h3, by simpa using hp⟩

end Verif
