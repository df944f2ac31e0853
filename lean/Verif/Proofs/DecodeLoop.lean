import Verif.Proofs.Decode
/-
The loop of `to_bytecode`: labels, operations, locations.
-/
namespace Verif
open Spec

section
variable {κ : Type} [DecidableEq κ] {P : Platform} {key : Arg → κ} {c : Concrete}

theorem instr_make_loc {name : Option String} {arg : Arg} {l : Loc} {i : Instr} (h : Instr.make P name arg .unset (some l) = .ok i) :
    i.loc = some l := by
  unfold Instr.make at h
  simp only [initLocation] at h
  obtain ⟨_, _, h⟩ := except_bind_ok h
  obtain ⟨x, hx, h⟩ := except_bind_ok h
  simp only [Except.ok.injEq] at hx
  simp only [pure, Except.pure, Except.ok.injEq] at h
  subst hx; subst h; rfl

theorem decodeInstr_ok (hP : P.WF) {prune : Bool} {off lineno : Nat} {ci : CInstr} {main : List BElem} (hv : ValidCInstr P ci)
    (h : decodeInstr P c prune off lineno ci = .ok main) :
    (ci.name = "CACHE" ∧ prune = true ∧ main = []) ∨
    ∃ i, main = [.instr i] ∧ ValidInstr P i ∧ i.name = ci.name ∧ i.opcode = ci.opcode ∧
      i.loc = some (ci.loc.getD (Loc.line (some lineno))) ∧
      ∃ arg, decodeOperand P c ci = .ok arg ∧ i.arg = match ci.getJumpTarget P off with | some t => .label t.toNat | none => arg := by
  unfold decodeInstr at h
  simp only at h
  split at h
  · rename_i hp
    simp only [Bool.and_eq_true, beq_iff_eq] at hp
    obtain ⟨_, _, h⟩ := except_bind_ok h
    simp only [pure, Except.pure, Except.ok.injEq] at h
    exact .inl ⟨hp.2, hp.1, h.symm⟩
  · right
    obtain ⟨arg, h1, h⟩ := except_bind_ok h
    obtain ⟨loc, h2, h⟩ := except_bind_ok h
    obtain ⟨i, h3, h⟩ := except_bind_ok h
    simp only [pure, Except.pure, Except.ok.injEq] at h
    have hl : loc = ci.loc.getD (Loc.line (some lineno)) ∧ Coherent loc := by
      unfold instrLoc at h2
      cases hc : ci.loc with
      | some l => rw [hc] at h2; simp only [Except.ok.injEq] at h2; subst h2; exact ⟨rfl, hv.loc_ok _ hc⟩
      | none =>
        rw [hc] at h2
        have := Loc.make_line h2
        rw [this.1]
        exact ⟨rfl, coherent_line _⟩
    obtain ⟨hvi, hn, ha⟩ := C10_constructed_valid P hP _ _ _ _ (fun l hl' => by cases hl'; exact hl.2) _ h3
    simp only [Option.some.injEq] at hn
    refine ⟨i, h.symm, hvi, hn, ?_, by rw [instr_make_loc h3, hl.1], arg, h1, ha⟩
    have := hvi.name_op
    rw [hn, hv.name_op] at this
    exact (Option.some.inj this).symm

/-- Labels and try markers: elements that are not instructions. -/
def isMarker : BElem → Bool
  | .instr _ => false
  | .label _ => false
  | .setLineno _ => false
  | _ => true

theorem mkTry_marker {conserve : Bool} {k : Nat} : ∀ e ∈ mkTry c conserve k, isMarker e = true := by
  intro e he
  unfold mkTry at he
  split at he
  · simp only [List.mem_singleton] at he; subst he; rfl
  · simp at he

theorem close_marker {conserve : Bool} (l tbs : List Nat) : ∀ e ∈ (closeEntries c conserve tbs l).1, isMarker e = true := by
  induction l generalizing tbs with
  | nil => simp [closeEntries]
  | cons k l ih =>
    intro e he
    unfold closeEntries at he
    split at he
    · simp only [List.mem_cons] at he
      rcases he with rfl | he
      · rfl
      · exact ih _ e he
    · simp only [List.mem_append, List.mem_cons] at he
      rcases he with he | rfl | he
      · exact mkTry_marker e he
      · rfl
      · exact ih _ e he

theorem open_marker {conserve : Bool} (tbs : List Nat) (off : Nat) : ∀ e ∈ (openEntry c conserve tbs off).1, isMarker e = true := by
  intro e he
  unfold openEntry at he
  split at he
  · split at he
    · simp at he
    · exact mkTry_marker e he
  · simp at he

theorem labelPos_marker (l n : Nat) (ms r : List BElem) (hm : ∀ e ∈ ms, isMarker e = true) : labelPos P l n (ms ++ r) = labelPos P l n r := by
  induction ms with
  | nil => rfl
  | cons e ms ih =>
    have he := hm e (by simp)
    rw [List.cons_append]
    cases e with
    | instr i => simp [isMarker] at he
    | label i => simp [isMarker] at he
    | setLineno i => simp [isMarker] at he
    | tryBegin t => exact ih (fun x hx => hm x (by simp [hx]))
    | tryEnd t => exact ih (fun x hx => hm x (by simp [hx]))

/-- What one iteration of the loop does. -/
theorem loop_cons {prune conserve : Bool} {targets : List Int} {off : Nat} {tbs : List Nat} {lineno : Nat} {ci : CInstr}
    {r : List (Nat × CInstr)} {d : Dec} (h : decodeLoop P c prune conserve targets off tbs ((lineno, ci) :: r) = .ok d) (h2 : 2 ≤ ci.size) :
    ∃ main d', decodeInstr P c prune off lineno ci = .ok main ∧
      decodeLoop P c prune conserve targets (off + ci.units P)
        (closeEntries c conserve (openEntry c conserve tbs off).2 (exEnd c (off + ci.units P - P.unit)).reverse).2 r = .ok d' ∧
      d.elems = (if (off : Int) ∈ targets then [.label off] else []) ++ ((openEntry c conserve tbs off).1 ++ (main ++
        ((closeEntries c conserve (openEntry c conserve tbs off).2 (exEnd c (off + ci.units P - P.unit)).reverse).1 ++ d'.elems))) ∧
      d.labels = (if (off : Int) ∈ targets then [off] else []) ++ d'.labels ∧
      d.jumps = (if main.isEmpty then [] else (ci.getJumpTarget P off).toList) ++ d'.jumps ∧ d.tbs = d'.tbs := by
  have hu := units_pos P ci h2
  have e1 : off + (ci.units P - P.unit) = off + ci.units P - P.unit := by omega
  have e2 : off + ci.units P - P.unit + P.unit = off + ci.units P := by omega
  unfold decodeLoop at h
  simp only at h
  rw [e1] at h
  obtain ⟨main, h1, h⟩ := except_bind_ok h
  rw [e2] at h
  obtain ⟨d', h2, h⟩ := except_bind_ok h
  simp only [pure, Except.pure, Except.ok.injEq] at h
  refine ⟨main, d', h1, h2, ?_⟩
  subst h
  simp [List.append_assoc]

theorem valid_size {ci : CInstr} (h : ValidCInstr P ci) : 2 ≤ ci.size := by rw [h.size_eq]; simp [sizeFor]

/-- The labels: where they are, and what they count. -/
theorem loop_labels (hP : P.WF) {prune conserve : Bool} {targets : List Int} (es : List CElem) (hv : ∀ ci, .instr ci ∈ es → ValidCInstr P ci)
    (line off : Nat) (tbs : List Nat) (d : Dec)
    (h : decodeLoop P c prune conserve targets off tbs (normalizeLineno line es) = .ok d) (n t : Nat) :
    (t ∈ d.labels → off ≤ t ∧ ∃ m, labelPos P t n d.elems = some m ∧ ∀ k, opAt P t off n es = some k → k = m) ∧
    (t ∉ d.labels → labelPos P t n d.elems = none) := by
  induction es generalizing line off tbs d n with
  | nil =>
    simp only [normalizeLineno, decodeLoop, Except.ok.injEq] at h
    subst h
    simp [labelPos]
  | cons e es ih =>
    cases e with
    | setLineno l =>
      rw [normalizeLineno] at h
      have := ih (fun ci hci => hv ci (by simp [hci])) l off tbs d h n
      exact this
    | instr ci =>
      rw [normalizeLineno] at h
      have hci := hv ci (by simp)
      obtain ⟨main, d', h1, h2, h3, h4, _⟩ := loop_cons h (valid_size hci)
      have hmain : ∀ r, labelPos P t n (main ++ r) = labelPos P t (n + opCount P ci.name ci.opcode) r := by
        intro r
        rcases decodeInstr_ok hP hci h1 with ⟨hn, _, rfl⟩ | ⟨i, rfl, _, hn, ho, _⟩
        · simp [opCount, hn]
        · simp [labelPos, hn, ho]
      have ih' := ih (fun ci hci => hv ci (by simp [hci])) _ _ _ d' h2 (n + opCount P ci.name ci.opcode)
      have hrest : ∀ r, labelPos P t n ((openEntry c conserve tbs off).1 ++ (main ++ ((closeEntries c conserve (openEntry c conserve tbs off).2 (exEnd c (off + ci.units P - P.unit)).reverse).1 ++ r)))
          = labelPos P t (n + opCount P ci.name ci.opcode) r := by
        intro r
        rw [labelPos_marker _ _ _ _ (open_marker _ _), hmain, labelPos_marker _ _ _ _ (close_marker _ _)]
      have hu := units_pos P ci (valid_size hci)
      have hp := unit_pos P
      rw [h3, h4]
      by_cases hT : (off : Int) ∈ targets
      · simp only [hT, if_true, List.cons_append, List.nil_append, List.mem_cons, labelPos, hrest]
        constructor
        · intro ht
          by_cases hd : t ∈ d'.labels
          · obtain ⟨g1, m, g2, g3⟩ := ih'.1 hd
            refine ⟨by omega, m, by rw [g2], ?_⟩
            intro k hk
            rw [opAt, if_neg (by omega), width_units] at hk
            exact g3 k hk
          · have : t = off := by rcases ht with h | h; exact h; exact absurd h hd
            subst this
            rw [ih'.2 hd]
            refine ⟨Nat.le_refl _, n, by simp, ?_⟩
            intro k hk
            rw [opAt, if_pos rfl] at hk
            split at hk <;> simp at hk
            exact hk.symm
        · intro ht
          simp only [not_or] at ht
          rw [ih'.2 ht.2]
          simp only
          rw [if_neg (fun h => ht.1 h.symm)]
      · simp only [hT, if_false, List.nil_append, hrest]
        constructor
        · intro hd
          obtain ⟨g1, m, g2, g3⟩ := ih'.1 hd
          refine ⟨by omega, m, g2, ?_⟩
          intro k hk
          rw [opAt, if_neg (by omega), width_units] at hk
          exact g3 k hk
        · exact ih'.2

/-! ### Operations without handlers -/

/-- An operation without its handler. -/
def plainOp (o : Op κ) : String × Operand κ × Loc := (o.name, o.operand, o.loc)

theorem opsB_tr (tgt : Nat → Option Nat) (l : List BElem) (loc : Loc) (tr tr' : Option TryB) :
    (opsB P key tgt loc tr l).map plainOp = (opsB P key tgt loc tr' l).map plainOp := by
  induction l generalizing loc tr tr' with
  | nil => rfl
  | cons e l ih =>
    cases e with
    | instr i => simp only [opsB, List.map_append, List.map_map]; rw [ih _ tr tr']; rfl
    | label i => exact ih _ _ _
    | setLineno i => exact ih _ _ _
    | tryBegin t => exact ih _ _ _
    | tryEnd t => exact ih _ _ _

theorem opsB_marker (tgt : Nat → Option Nat) (ms r : List BElem) (hm : ∀ e ∈ ms, isMarker e = true) (loc : Loc) (tr : Option TryB) :
    (opsB P key tgt loc tr (ms ++ r)).map plainOp = (opsB P key tgt loc none r).map plainOp := by
  induction ms generalizing tr with
  | nil => exact opsB_tr _ _ _ _ _
  | cons e ms ih =>
    have he := hm e (by simp)
    rw [List.cons_append]
    cases e with
    | instr i => simp [isMarker] at he
    | label i => simp [isMarker] at he
    | setLineno i => simp [isMarker] at he
    | tryBegin t => rw [opsB]; exact ih (fun x hx => hm x (by simp [hx])) _
    | tryEnd t => rw [opsB]; exact ih (fun x hx => hm x (by simp [hx])) _

/-- The loop keeps operations and locations. -/
theorem loop_ops (hP : P.WF) (c' : Concrete) (hc' : ∀ (dest : Option Nat) ci, expandC P key c' dest ci = expandC P key c dest ci)
    {prune conserve : Bool} {targets : List Int} (es : List CElem) (hf : ∀ ci, .instr ci ∈ es → ci.name ≠ "CACHE" → SlotsRead P c ci)
    (hv : ∀ ci, .instr ci ∈ es → ValidCInstr P ci) (line off : Nat) (tbs : List Nat) (d : Dec)
    (h : decodeLoop P c prune conserve targets off tbs (normalizeLineno line es) = .ok d)
    (tgt : Nat → Option Nat) (htgt : ∀ t ∈ d.jumps, ∀ k, opAt P t 0 0 c'.elems = some k → tgt t.toNat = some k)
    (hok : ∀ o ∈ opsC P key c' line off es, o.operand ≠ .invalid) (loc : Loc) (tr : Option TryB) :
    (opsB P key tgt loc tr d.elems).map plainOp = (opsC P key c' line off es).map plainOp := by
  induction es generalizing line off tbs d loc tr with
  | nil =>
    simp only [normalizeLineno, decodeLoop, Except.ok.injEq] at h
    subst h; rfl
  | cons e es ih =>
    cases e with
    | setLineno l =>
      rw [normalizeLineno] at h
      exact ih (fun ci hci => hf ci (by simp [hci])) (fun ci hci => hv ci (by simp [hci])) l off tbs d h htgt (by simpa [opsC] using hok) loc tr
    | instr ci =>
      rw [normalizeLineno] at h
      have hci := hv ci (by simp)
      obtain ⟨main, d', h1, h2, h3, _, h5, _⟩ := loop_cons h (valid_size hci)
      rw [h3]
      have hlab : ∀ r, (opsB P key tgt loc tr ((if (off : Int) ∈ targets then [BElem.label off] else []) ++ r)).map plainOp
          = (opsB P key tgt loc tr r).map plainOp := by
        intro r; split <;> rfl
      rw [hlab, opsB_marker _ _ _ (open_marker _ _)]
      simp only [opsC] at hok ⊢
      have ih' := fun loc tr => ih (fun ci hci => hf ci (by simp [hci])) (fun ci hci => hv ci (by simp [hci])) _ _ _ d' h2
        (fun t ht => htgt t (by rw [h5]; simp [ht])) (by
          intro o ho; exact hok o (by rw [List.mem_append]; right; rw [width_units]; exact ho)) loc tr
      rw [List.map_append, List.map_map]
      rcases decodeInstr_ok hP hci h1 with ⟨hn, _, rfl⟩ | ⟨i, rfl, hvi, hn, ho, hl, arg, ha, hia⟩
      · rw [List.nil_append, opsB_marker _ _ _ (close_marker _ _), ih', width_units]
        simp [expandC, hn, locLine?]
      · rw [List.singleton_append, opsB, List.map_append, opsB_marker _ _ _ (close_marker _ _), ih', width_units, List.map_map]
        have hx : expandB P key tgt i = expandC P key c' ((ci.getJumpTarget P off).bind (fun t => opAt P t 0 0 c'.elems)) ci := by
          rw [hc']
          by_cases hcc : ci.name = "CACHE"
          · simp [expandB, expandC, hn, hcc]
          apply decode_expand hP (hf ci (by simp) hcc) hci ha hn ho hia
          intro t ht
          rw [ht]
          simp only [Option.bind_some]
          cases hat : opAt P t 0 0 c'.elems with
          | some k => exact htgt t (by rw [h5, ht]; simp) k hat
          | none =>
            exfalso
            have hj := target_hasJump ht
            have hds := not_dual hP (((kinds_excl hP ci.opcode).jump hj).2.1)
            refine hok ⟨ci.name, .invalid, _, _⟩ (List.mem_append.2 (.inl (List.mem_map.2 ⟨(ci.name, .invalid), ?_, rfl⟩))) rfl
            rw [ht]
            simp [expandC, hcc, hds, operandC, hj, hat, jumpOr]
        rw [hx, hl]
        simp [plainOp, Function.comp_def, locLine?]

end
end Verif
