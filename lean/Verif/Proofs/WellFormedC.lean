import Verif.Proofs.WellFormedB
/-
The code object `to_code` writes is well formed: all together.
-/
namespace Verif
open Spec
section
variable {κ : Type} [DecidableEq κ]
variable {P : Platform} {key : Arg → κ} {b : Bytecode} {c : Concrete} {T : Tabs} {M : List Cell} {co : Code}

theorem jumpUnit_hasJump {f : Fetched} {t : Int} (h : jumpUnit P f = some t) : P.hasJump f.opcode = true := by
  unfold jumpUnit at h
  simp only at h
  unfold Platform.hasJump
  split at h
  · rename_i hx; simp [isForwardRelJump] at hx; simp_all [Platform.HASJREL]
  · split at h
    · rename_i hx; simp [isBackwardRelJump] at hx; simp_all [Platform.HASJREL]
    · split at h
      · rename_i hx; simp [isAbsJump] at hx; simp_all [Platform.HASJABS]
      · cases h

theorem pairwise_apart {l : List Region} (h : l.Pairwise (fun r s => r.start + r.size ≤ s.start ∨ s.start + s.size ≤ r.start)) {a b : Region}
    (ha : a ∈ l) (hb : b ∈ l) (hne : a ≠ b) : a.start + a.size ≤ b.start ∨ b.start + b.size ≤ a.start := by
  induction h with
  | nil => simp at ha
  | cons hx _ ih =>
    rcases List.mem_cons.1 ha with rfl | ha' <;> rcases List.mem_cons.1 hb with rfl | hb'
    · exact absurd rfl hne
    · exact hx b hb'
    · exact (hx a ha').symm
    · exact ih ha' hb'

theorem Final.codeOK (h : Final P key b c T M) (h11 : P.py311 = true) (hw : WellTried none [] false b.elems) (hne : NoEmptyTry false b.elems)
    (hdep : ∀ t, .tryBegin t ∈ b.elems → t.depth.isSome = true) {n : Int} (he : c.emit P n = .ok co)
    (hok : ∀ i, .instr i ∈ b.elems → OperandOK P c.varnames i)
    (hcon : ∀ v ∈ c.consts, v ≠ .unset ∧ (∀ l, v ≠ .label l) ∧ ∀ b, v ≠ .block b)
    (hintr : ∀ i, .instr i ∈ b.elems → (P.intrinsic1 i.opcode = true → ∀ v, i.arg = .intr1 v → v ≤ 11) ∧
      (P.intrinsic2 i.opcode = true → ∀ v, i.arg = .intr2 v → v ≤ 4))
    (hprog : ∀ o ∈ programB P key b, (∀ t, o.operand = .jump t → t < (programB P key b).length) ∧
      (∀ x, o.handler = some x → x.target < (programB P key b).length) ∧ (o.loc.col = none → o.loc.lineno ≠ some 0))
    (hstart : ∀ r ∈ regions co, ∀ f ∈ fetched P co, r.start = f.unit → f.first = f.unit)
    (hapart : P.py313 = true → ∀ n ∈ co.freevars, n ∉ co.varnames) : CodeOK P co := by
  have hP := h.wf
  have hg : ∀ i ∈ code P M, i.loc = some ((fun i : CInstr => i.loc.getD (Loc.line none)) i) := by
    intro i hi
    obtain ⟨l, hl⟩ := (h.plain i hi).2.1
    simp [hl]
  have E := emitted P hP h11 c (code P M) _ h.elems (h.layout h11) h.readable hg n co he
  have hpc : programCode P key co = (programB P key b).map (Op.mapLoc keptLoc) := by
    rw [emit_program P hP h11 key c (code P M) _ h.elems (h.layout h11) h.readable hg n co he, h.program hok hw hdep, mapLoc_eq]
  have hlen : (programCode P key co).length = (programB P key b).length := by rw [hpc, List.length_map]
  have hinv : ∀ o ∈ programCode P key co, o.operand ≠ .invalid := by
    intro o ho
    rw [emit_program P hP h11 key c (code P M) _ h.elems (h.layout h11) h.readable hg n co he] at ho
    obtain ⟨o', ho', rfl⟩ := List.mem_map.1 ho
    exact h.program_valid hok o' ho'
  have hfc : ∀ f ∈ fetched P co, nameOf P f.opcode ≠ "CACHE" := by
    intro f hf
    rw [E.fetch_] at hf
    obtain ⟨ci, hci, e1, e2, _⟩ := fetchedOf_mem _ _ f hf
    have hv := (h.instrs_valid ci hci).1
    rw [← e1, nameOf_valid hP hv]
    exact fun hx => e2 ((cache_iff hP h11 hv).1 hx)
  -- an operation number below the number of operations is that of an instruction
  have htgt : ∀ (t : Int) k, opAtUnit P t (co.code.length / 2) 0 (fetched P co) = some k → k < (programB P key b).length → ∃ f ∈ fetched P co, t = f.first := by
    intro t k hk hlt
    rcases opAtUnit_total P t _ _ _ _ hk with hx | hx
    · exact hx
    · have := programCode_length (P := P) (key := key) (co := co)
      omega
  have hentry := h.entry_cells h11 hw hne
  have hreg : ∀ r ∈ regions co, ∃ e ∈ c.excTable, r = regionOf e := by
    intro r hr
    rw [E.regions_] at hr
    obtain ⟨e, hem, hre⟩ := List.mem_map.1 hr
    exact ⟨e, hem, hre.symm⟩
  have hstart' : ∀ e ∈ c.excTable, ∃ f ∈ fetched P co, e.start = (f.unit : Nat) ∧ f.first = f.unit := by
    intro e hem
    obtain ⟨⟨f, hf, hx⟩, _⟩ := hentry e hem
    rw [← E.fetch_] at hf
    refine ⟨f, hf, hx, hstart (regionOf e) (by rw [E.regions_]; exact List.mem_map_of_mem hem) f hf ?_⟩
    simp only [regionOf]; omega
  have hT : TableOK P c := h.tableOK hw hne (by
    intro e hem
    obtain ⟨f, hf, hx, hu⟩ := hstart' e hem
    rw [E.fetch_] at hf
    refine ⟨f.first, ?_, by rw [hx, hu]⟩
    rw [h.elems]
    exact fetched_start h11 _ 0 f hf)
  have hdisj : (regions co).Pairwise (fun r s => r.start + r.size ≤ s.start ∨ s.start + s.size ≤ r.start) := by
    rw [E.regions_, List.pairwise_map]
    refine List.Pairwise.imp_of_mem ?_ hT.disjoint
    intro e e' hem hem' hx
    obtain ⟨v1, v2, _⟩ := E.entries_ e hem
    obtain ⟨w1, w2, _⟩ := E.entries_ e' hem'
    simp only [regionOf]
    omega
  have hslots : localSlots P (tablesOf co) = localSlots P c := by
    unfold localSlots
    show (if P.py313 then frameSlots co.varnames co.cellvars co.freevars else co.varnames.map .named) = _
    rw [E.slots_, E.varnames_]
  constructor
  · rw [E.code_]; exact wellCoded_layout P hP (h.layout h11) h.readable (h.cache_zero h11)
  · intro p hp
    rw [E.locs_] at hp
    obtain ⟨ci, hci, hp⟩ := List.mem_flatMap.1 hp
    rw [(List.mem_replicate.1 hp).2]
    have hci' := hci
    simp only [code, List.mem_flatMap] at hci
    obtain ⟨d, hd, hcd⟩ := hci
    have hl := cell_loc d ci hcd
    rw [hl]
    simp only [Option.getD_some]
    cases hi : d.e with
    | instr i =>
      obtain ⟨_, hn, _⟩ := h.mem hd hi
      obtain ⟨o, ho, hx⟩ := h.lay.op_loc hP (fun l => labelPos P l 0 b.elems) none d hd i hi hn
      refine posOf_valid ((h.instrs_valid ci hci').1.loc_ok _ hl) ?_
      rw [← hx]
      exact (hprog o ho).2.2
    | _ => simp [Cell.code, hi] at hcd
  · intro f hf t ht
    have hj := jumpUnit_hasJump ht
    obtain ⟨p, hp, ho⟩ := programCode_fetched (key := key) hf (hfc f hf)
    have hnv := hinv _ ho
    unfold expandC at hp
    rw [if_neg (hfc f hf)] at hp
    simp only [not_dual hP ((kinds_excl hP f.opcode).jump hj).2.1, List.mem_singleton] at hp
    rw [hp] at hnv ho
    simp only [operandC, hj, if_true, ht, Option.bind_some] at hnv ho
    cases hk : opAtUnit P t (co.code.length / 2) 0 (fetched P co) with
    | none => rw [hk] at hnv; simp [jumpOr] at hnv
    | some k =>
      rw [hk] at ho
      refine htgt t k hk ?_
      rw [hpc] at ho
      obtain ⟨o', ho', hx⟩ := List.mem_map.1 ho
      have : o'.operand = .jump k := congrArg Op.operand hx
      exact (hprog o' ho').1 k this
  · exact programCode_invalid hinv
  · intro f hf hc
    rw [E.fetch_] at hf
    obtain ⟨k1, k2, k3, k4, k5⟩ := (kinds_excl hP f.opcode).compare hc
    obtain ⟨i, dest, ci, q1, q2, q3, q4, q5, q6, q7, q8⟩ := h.fetched_instr h11 hok hf (.inl k3)
    unfold expandC expandB at q8
    rw [if_neg q7, if_neg (by rw [q4]; exact q7), q3, q2, not_dual hP k3] at q8
    simp only [List.cons.injEq, and_true, Prod.mk.injEq] at q8
    have hA := (h.valid i q1).arg_ok.compare (by rw [q2]; exact hc)
    obtain ⟨v, hv⟩ := hA
    have := q8.2
    unfold operandC operandB at this
    obtain ⟨a, ha⟩ := Option.isSome_iff_exists.1 (q6.arg_required (hP.operand_arg _ _ q6.name_op q6.base (by rw [q3]; simp [hc])))
    rw [ha] at q5
    simp only [q3, k1, k2, k3, k4, k5, hc, ha, hv, Bool.or_self, Bool.false_eq_true, if_false, if_true, Operand.compare.injEq] at this
    rw [q5]
    simp only [Option.getD_some]
    rw [this]
    exact (hok i q1).compare (by rw [q2]; exact hc) v hv
  · intro f hf
    rw [E.fetch_] at hf
    have hkey : P.intrinsic1 f.opcode = true ∨ P.intrinsic2 f.opcode = true → (P.intrinsic1 f.opcode = true → f.arg ≤ 11) ∧ (P.intrinsic2 f.opcode = true → f.arg ≤ 4) := by
      intro hc
      obtain ⟨k0, k1⟩ := hP.intr_plain f.opcode (by simpa using hc)
      simp only [Bool.or_eq_false_iff] at k1
      obtain ⟨⟨⟨⟨⟨k1, k2⟩, k3⟩, k4⟩, k5⟩, k6⟩ := k1
      obtain ⟨i, dest, ci, q1, q2, q3, q4, q5, q6, q7, q8⟩ := h.fetched_instr h11 hok hf (.inl k3)
      unfold expandC expandB at q8
      rw [if_neg q7, if_neg (by rw [q4]; exact q7), q3, q2, not_dual hP k3] at q8
      simp only [List.cons.injEq, and_true, Prod.mk.injEq] at q8
      have this := q8.2
      unfold operandC operandB at this
      obtain ⟨a, ha⟩ := Option.isSome_iff_exists.1 (q6.arg_required (by rw [q3]; exact k0))
      rw [ha] at q5
      have hA := (h.valid i q1).arg_ok
      have hi' : (P.intrinsic1 f.opcode || P.intrinsic2 f.opcode) = true := by simpa using hc
      simp only [q3, k1, k2, k3, k4, k5, k6, ha, hi', Bool.or_self, Bool.false_eq_true, if_false, if_true] at this
      have hfa : f.arg = a := by rw [q5]; rfl
      rw [hfa]
      constructor
      · intro h1
        obtain ⟨v, hv⟩ := hA.intr1 (by rw [q2]; exact h1)
        simp only [hv, Operand.intrinsic.injEq] at this
        rw [this]; exact (hintr i q1).1 (by rw [q2]; exact h1) v hv
      · intro h1
        obtain ⟨v, hv⟩ := hA.intr2 (by rw [q2]; exact h1)
        simp only [hv, Operand.intrinsic.injEq] at this
        rw [this]; exact (hintr i q1).2 (by rw [q2]; exact h1) v hv
    by_cases hc : P.intrinsic1 f.opcode = true ∨ P.intrinsic2 f.opcode = true
    · exact hkey hc
    · exact ⟨fun x => absurd (.inl x) hc, fun x => absurd (.inr x) hc⟩
  · intro f hf hd k hk
    rw [E.fetch_] at hf
    obtain ⟨i, dest, ci, q1, q2, q3, q4, q5, q6, q7, q8⟩ := h.fetched_instr h11 hok hf (.inr hd)
    rw [hslots]
    have hA := (h.valid i q1).arg_ok.dual (by rw [q2]; exact hd)
    obtain ⟨x, y, hxy, hx, hy⟩ := hA
    obtain ⟨a, ha⟩ := Option.isSome_iff_exists.1 (q6.arg_required (hP.operand_arg _ _ q6.name_op q6.base (by rw [q3]; simp [hP.dual_local _ hd])))
    have hfa : f.arg = a := by rw [q5, ha]; rfl
    obtain ⟨⟨n1, n2⟩, hds⟩ := Option.isSome_iff_exists.1 (show (P.dualSingles f.opcode).isSome = true from hd)
    unfold expandC expandB at q8
    rw [if_neg q7, if_neg (by rw [q4]; exact q7), q3, q2, hds, ha, hxy] at q8
    simp only [List.cons.injEq, and_true, Prod.mk.injEq, true_and] at q8
    have hslot : ∀ (k : Nat) (z : Atom), ((∃ n, z = .str n) ∨ ∃ n, z = .cell n) → (slotAt (localSlots P c) k : Operand κ) = slotOf z →
        ∃ n, (localSlots P c)[k]? = some (.named n) := by
      intro k z hz e
      unfold slotAt at e
      rcases hz with ⟨n, rfl⟩ | ⟨n, rfl⟩ <;>
        (simp only [slotOf] at e
         split at e
         · rename_i s hs; cases e; exact ⟨n, hs⟩
         · cases e)
    rw [hfa] at hk
    simp only [List.mem_cons, List.not_mem_nil, or_false] at hk
    rcases hk with rfl | rfl
    · exact hslot _ x hx q8.1
    · exact hslot _ y hy q8.2
  · exact hapart
  · rw [E.consts_]; exact hcon
  · intro r hr
    obtain ⟨e, hem, rfl⟩ := hreg r hr
    obtain ⟨v1, v2, v3, v4⟩ := E.entries_ e hem
    obtain ⟨f, hf, hx, hu⟩ := hstart' e hem
    have hpos := hT.nonempty e hem
    have hsz : 0 < (regionOf e).size := by simp only [regionOf]; omega
    refine ⟨hsz, ⟨f, hf, by simp only [regionOf]; omega⟩, ?_, ?_⟩
    · rcases (hentry e hem).2 with ⟨g, hg, hy⟩ | hy
      · left; rw [← E.fetch_] at hg; exact ⟨g, hg, by simp only [regionOf]; omega⟩
      · right; rw [E.units_]; simp only [regionOf]; omega
    · obtain ⟨p, hp, ho⟩ := programCode_fetched (key := key) hf (hfc f hf)
      have hfind : (regions co).find? (fun e => e.start ≤ f.unit && f.unit < e.start + e.size) = some (regionOf e) := by
        cases hq : (regions co).find? (fun e => e.start ≤ f.unit && f.unit < e.start + e.size) with
        | none =>
          have := List.find?_eq_none.1 hq (regionOf e) hr
          simp only [Bool.and_eq_true, decide_eq_true_eq] at this
          exact absurd ⟨by simp only [regionOf]; omega, by simp only [regionOf] at hsz ⊢; omega⟩ this
        | some r' =>
          have h1 := List.find?_some hq
          have h2 := List.mem_of_find?_eq_some hq
          simp only [Bool.and_eq_true, decide_eq_true_eq] at h1
          congr 1
          by_contra hne'
          have := pairwise_apart hdisj h2 hr hne'
          simp only [regionOf] at this hsz h1
          omega
      have hopt := hT.target_ e hem
      rw [h.elems, ← opAtUnit_fetched P hP h11 e.target (code P M) h.readable 0 0, ← E.fetch_, Nat.zero_add, ← E.units_] at hopt
      obtain ⟨k, hk⟩ := Option.isSome_iff_exists.1 hopt
      have hke : ((regionOf e).target : Int) = e.target := by simp only [regionOf]; omega
      obtain ⟨g, hg, hgx⟩ := htgt e.target k hk (by
        rw [hpc] at ho
        obtain ⟨o', ho', hy⟩ := List.mem_map.1 ho
        have hh : o'.handler = handlerOfUnit P co (fetched P co) f.unit := congrArg Op.handler hy
        unfold handlerOfUnit at hh
        rw [show readRegions co.exctable.length co.exctable = regions co from rfl, hfind] at hh
        simp only [hke, hk, Option.map_some] at hh
        exact (hprog o' ho').2.1 _ hh)
      exact ⟨g, hg, by omega⟩
  · exact hdisj

end
end Verif
