import Verif.Proofs.AssembleF
import Verif.Props.Assemblable
import Verif.Props.ToCode
import Verif.Proofs.DepthsSet
/-
C59: when `to_code` succeeds.
-/
namespace Verif
open Spec
section
variable {κ : Type} [DecidableEq κ] {P : Platform} {key : Arg → κ} {b : Bytecode}

theorem noCache_of (hw : WellMade P b) : ∀ e ∈ b.elems, e.isCache = false := by
  intro e he
  cases e with
  | instr i => simpa [BElem.isCache] using (hw.valid i he).2
  | _ => rfl

/-- **C59.** With a stack size and no depths to compute, exactly the Bytecode that follow the rules, with locations the
table of 3.11 can hold, are written. -/
theorem C59_written_iff_rules (hP : P.WF) (eff : Instr → Bool → Py (Int × Int)) (hw : WellMade P b)
    (ht : P.py311 = true → WellTried none [] false b.elems ∧ NoEmptyTry false b.elems) {passes : Nat} (hp : 3 * jumpCount b.elems < passes)
    {depths : Bool} (hd : P.py311 = false ∨ depths = false) (n : Int) :
    (∃ co, b.toCode P key eff passes (some n) depths = .ok co) ↔
      Assemblable P b ∧ (P.py311 = true → ∀ i l, .instr i ∈ b.elems → i.loc = some l → ¬ Unencodable l) := by
  have hd' : (P.py311 && depths) = false := by rcases hd with hd | hd <;> simp [hd]
  unfold Bytecode.toCode
  simp only [hd', Bool.false_eq_true, if_false]
  constructor
  · rintro ⟨co, h⟩
    obtain ⟨c, hc, h⟩ := except_bind_ok h
    obtain ⟨T, M, hF⟩ := toConcrete_Final hP (noCache_of hw) (fun i hi => (hw.valid i hi).1) hc
    exact ⟨toConcrete_rules hP hw hc, (hF.emit_iff ht n).1 ⟨co, h⟩⟩
  · rintro ⟨ha, hl⟩
    obtain ⟨c, hc⟩ := toConcrete_total hP key hw ha hp
    obtain ⟨T, M, hF⟩ := toConcrete_Final hP (noCache_of hw) (fun i hi => (hw.valid i hi).1) hc
    exact bind_total hc ((hF.emit_iff ht n).2 hl)

/-- The target of a TryBegin is a label of the code, or `from_bytecode` fails. -/
theorem from_targets {g : CFG} (h : fromBytecode P b = .ok g) {t : TryB} (ht : .tryBegin t ∈ b.elems) : .label t.target ∈ b.elems := by
  unfold fromBytecode at h
  obtain ⟨_, _, h⟩ := except_bind_ok h
  obtain ⟨starts, hst, h⟩ := except_bind_ok h
  unfold blockStarts at hst
  obtain ⟨x, hx⟩ := mapM_ok_each hst (x := t.target) (List.mem_filterMap.2 ⟨_, ht, rfl⟩)
  cases hl : labelIndex t.target b.elems with
  | none => rw [hl] at hx; cases hx
  | some k => exact List.mem_of_getElem? (labelIndex_some hl).1

theorem zero_wellTried {es : List BElem} : ∀ {o : Option Nat} {seen : List Nat} {any : Bool}, WellTried o seen any es →
    WellTried o seen any (es.map zeroDepth) := by
  induction es with
  | nil => intro o seen any h; exact h
  | cons e r ih =>
    intro o seen any h
    cases e with
    | tryBegin t => exact ⟨h.1, h.2.1, ih h.2.2⟩
    | tryEnd t => exact ⟨h.1, h.2.1, ih h.2.2⟩
    | instr t => exact ih h
    | label t => exact ih h
    | setLineno t => exact ih h

theorem zero_noEmpty {es : List BElem} : ∀ {e : Bool}, NoEmptyTry e es → NoEmptyTry e (es.map zeroDepth) := by
  induction es with
  | nil => intro e h; exact h
  | cons e r ih =>
    intro o h
    cases e with
    | tryBegin t => exact ih h
    | tryEnd t => exact ⟨h.1, ih h.2⟩
    | instr t => exact ih h
    | label t => exact ih h
    | setLineno t => exact ih h

theorem zero_label {l : Nat} : BElem.label l ∈ (zeroDepths b).elems ↔ BElem.label l ∈ b.elems := by
  show BElem.label l ∈ b.elems.map zeroDepth ↔ _
  rw [List.mem_map]
  constructor
  · rintro ⟨e, he, h⟩
    cases e with
    | label x => rw [← h]; exact he
    | _ => cases h
  · intro h; exact ⟨_, h, rfl⟩

theorem sized_tries {eff : Instr → Bool → Py (Int × Int)} {b' : Bytecode} {n : Int} (hl : LabelsOnly b)
    (hw : WellTried none [] false b.elems) (he : NoEmptyTry false b.elems) (h : b.sized P eff true = .ok (n, b')) :
    NoEmptyTry false b'.elems ∧ (∀ t, .tryBegin t ∈ b'.elems → t.depth ≠ none ∧ .label t.target ∈ b'.elems) := by
  obtain ⟨_, _, _, _, _, _, g, g', hg, hg', hx⟩ := sized_spec hl hw h
  have hd := computeStacksize_only hg'
  obtain ⟨_, _, _, a4, _⟩ := C26_from P b g hl hg
  obtain ⟨f1, f2, f3⟩ := from_tries hw hg
  have hn' : g'.blocks.Nodup := by rw [hd.blocks]; exact a4
  have ho' : Ordered (allCode g') := ordered_marks (marks_only hd).symm f1
  refine ⟨to_noEmpty ho' (ne_only hd (from_noEmpty hw he hg)) hx, fun t ht => ?_⟩
  obtain ⟨h1, h2⟩ := to_begins hn' (computeStacksize_depths (from_noTryAfter hg) hg') hx t ht
  refine ⟨h1, ?_⟩
  cases hl : labelAt t.target b'.elems with
  | none => rw [hl] at h2; cases h2
  | some k => exact labelAt_mem hl

theorem default_rules (hP : P.WF) (eff : Instr → Bool → Py (Int × Int)) (hw : WellMade P b) (hl : LabelsOnly b)
    (ht : WellTried none [] false b.elems) (he : NoEmptyTry false b.elems) {passes : Nat} (hp : 3 * jumpCount b.elems < passes)
    (stacksize : Option Int) (h11 : P.py311 = true ∨ stacksize = none) :
    (∃ co, b.toCode P key eff passes stacksize true = .ok co) ↔
      (∃ r, b.sized P eff true = .ok r) ∧ Assemblable P (zeroDepths b) ∧
      (P.py311 = true → ∀ i l, .instr i ∈ b.elems → i.loc = some l → ¬ Unencodable l) := by
  have hzl : LabelsOnly (zeroDepths b) := fun i hi => hl i (zero_instr.1 hi)
  -- what the analysis keeps
  have common : ∀ n b', b.sized P eff true = .ok (n, b') → WellMade P b' ∧ WellTried none [] false b'.elems ∧ NoEmptyTry false b'.elems ∧
      jumpCount b'.elems = jumpCount b.elems ∧ (Assemblable P b' ↔ Assemblable P (zeroDepths b)) ∧
      ((∀ i l, .instr i ∈ b'.elems → i.loc = some l → ¬ Unencodable l) ↔ ∀ i l, .instr i ∈ b.elems → i.loc = some l → ¬ Unencodable l) := by
    intro n b' hs
    obtain ⟨s1, s2, s3, s4, s5, s6, g, g', hg, _⟩ := sized_spec hl ht hs
    obtain ⟨y1, y2⟩ := sized_tries hl ht he hs
    have hl' : LabelsOnly b' := fun i hi => by
      obtain ⟨_, _, _, _, _, _, h⟩ := item_instr hl s1 s6 hi
      exact h
    have s6' : ∀ m o loc, CodeItem.op m o .lost loc ∉ codeB b' := by rw [s1]; exact s6
    refine ⟨wellMade_same hl s1 s3 s4 s6 s5 hw, s5, y1, ?_, ⟨fun h => ?_, fun h => ?_⟩, ⟨fun h i l hi hil => ?_, fun h i l hi hil => ?_⟩⟩
    · rw [jumpCount_items hl', jumpCount_items hl, s1]
    · refine assemblable_same hl' ((zero_code b).trans s1.symm) s3.symm s6' (zero_wellTried ht) (zero_noEmpty he) (fun t h' => ⟨?_, ?_⟩) h
      · rw [zero_depth h']; simp
      · rw [zero_label]
        obtain ⟨e, h1, h2⟩ := List.mem_map.1 h'
        cases e with
        | tryBegin u =>
          cases h2
          exact (from_targets hg h1 : BElem.label u.target ∈ b.elems)
        | _ => cases h2
    · exact assemblable_same hzl (s1.trans (zero_code b).symm) s3 (by rw [zero_code]; exact s6) s5 y1 y2 h
    · obtain ⟨j, hj, _, _, h3, _⟩ := item_instr hl' s1.symm s6' hi
      exact h j l hj (by rw [h3]; exact hil)
    · obtain ⟨j, hj, _, _, h3, _⟩ := item_instr hl s1 s6 hi
      exact h j l hj (by rw [h3]; exact hil)
  have hcode : b.toCode P key eff passes stacksize true =
      (b.sized P eff true >>= fun r => toConcrete P key passes r.2 >>= fun c => c.emit P r.1) := by
    unfold Bytecode.toCode
    rcases h11 with h11 | h11
    · simp only [h11, Bool.and_true, if_true]
    · rw [h11]
      simp only [ite_self]
  rw [hcode]
  constructor
  · rintro ⟨co, h⟩
    obtain ⟨⟨n, b'⟩, hs, h⟩ := except_bind_ok h
    obtain ⟨c, hc, h⟩ := except_bind_ok h
    obtain ⟨c1, c2, c3, c4, c5, c6⟩ := common n b' hs
    obtain ⟨T, M, hF⟩ := toConcrete_Final hP (noCache_of c1) (fun i hi => (c1.valid i hi).1) hc
    exact ⟨⟨_, hs⟩, c5.1 (toConcrete_rules hP c1 hc), fun h11 => c6.1 ((hF.emit_iff (fun _ => ⟨c2, c3⟩) n).1 ⟨co, h⟩ h11)⟩
  · rintro ⟨⟨⟨n, b'⟩, hs⟩, ha, hu⟩
    obtain ⟨c1, c2, c3, c4, c5, c6⟩ := common n b' hs
    obtain ⟨c, hc⟩ := toConcrete_total hP key c1 (c5.2 ha) (by rw [c4]; exact hp)
    obtain ⟨T, M, hF⟩ := toConcrete_Final hP (noCache_of c1) (fun i hi => (c1.valid i hi).1) hc
    exact bind_total hs (bind_total hc ((hF.emit_iff (fun _ => ⟨c2, c3⟩) n).2 (fun h => c6.2 (hu h))))

/-- **C59**, default options on 3.11+: the code is written iff the stack analysis succeeds, the rules are followed (the depths of the
handlers need not be set, they are computed) and the table of 3.11 can hold the locations. -/
theorem C59_default_iff_rules (hP : P.WF) (h11 : P.py311 = true) (eff : Instr → Bool → Py (Int × Int)) (hw : WellMade P b) (hl : LabelsOnly b)
    (ht : WellTried none [] false b.elems) (he : NoEmptyTry false b.elems) {passes : Nat} (hp : 3 * jumpCount b.elems < passes)
    (stacksize : Option Int) :
    (∃ co, b.toCode P key eff passes stacksize true = .ok co) ↔
      (∃ r, b.sized P eff true = .ok r) ∧ Assemblable P (zeroDepths b) ∧ (∀ i l, .instr i ∈ b.elems → i.loc = some l → ¬ Unencodable l) := by
  rw [default_rules hP eff hw hl ht he hp stacksize (.inl h11)]
  simp only [h11, true_implies]

/-- **C59**, default options before 3.11, where any location can be written: the code is written iff the stack analysis succeeds and the
rules are followed. -/
theorem C59_default_before_311 (hP : P.WF) (h11 : P.py311 = false) (eff : Instr → Bool → Py (Int × Int)) (hw : WellMade P b) (hl : LabelsOnly b)
    (ht : WellTried none [] false b.elems) (he : NoEmptyTry false b.elems) {passes : Nat} (hp : 3 * jumpCount b.elems < passes) :
    (∃ co, b.toCode P key eff passes none true = .ok co) ↔ (∃ r, b.sized P eff true = .ok r) ∧ Assemblable P (zeroDepths b) := by
  rw [default_rules hP eff hw hl ht he hp none (.inr rfl)]
  simp [h11]

end
end Verif
