import Verif.Proofs.StackMapTotal
import Verif.Props.StackTotalEx
import Verif.Props.LinearTry
import Verif.Props.StackMapEx
/-
C61 with exception handlers: graphs with a stack map that shows that nothing underflows.
-/
namespace Verif
open Spec
section
variable {κ : Type} [DecidableEq κ] {P : Platform} {key : Arg → κ} {eff : Instr → Bool → Py (Int × Int)}

theorem mInv_init {c : CFG} {M : StackMap} {d0 : Int} (hM : M.Valid P eff c d0) : MInv ⟨P, eff, c⟩ M SizeSt.init := by
  refine ⟨?_, ?_, ?_, by intro u hu; cases hu⟩
  · intro τ
    have := hM.bound τ
    simp only [SizeSt.init]
    omega
  · intro τ hl
    have := hM.bound τ
    unfold Locked at hl
    simp only [SizeSt.init] at hl
    omega
  · intro Y f hf; cases hf

/-- **C61, with handlers.** On 3.11+, on a graph that follows the rules and has a stack map that shows that no instruction
underflows and that no region is met inside another, `compute_stacksize` succeeds. (Without a
stack map a reported underflow need not be one: see C31.) -/
theorem C61_handlers (heff : ∀ i j, eff i j ≠ .error .outOfFuel) {c : CFG} (h311 : P.py311 = true) (hZ : Sizeable P eff c)
    (M : StackMap) (hM : M.Valid P eff c (initialSize P c.attrs.flags)) (hS : M.Safe P eff c) (hu : UniqueTry c) (depths : Bool) :
    ∃ r, c.computeStacksize P eff depths = .ok r := by
  cases h : c.computeStacksize P eff depths with
  | ok r => exact ⟨r, rfl⟩
  | error e =>
    exfalso
    have hre : e = .runtimeError ∨ e = .assertionError := by
      rcases C61_reasons heff hZ depths h with h1 | ⟨h1, _⟩
      · exact .inl h1
      · exact .inr h1
    unfold CFG.computeStacksize at h
    split at h
    · cases h
    · rename_i b r hbl
      dsimp only at h
      have hb : c.blocks.head? = some b := by rw [hbl]; rfl
      obtain ⟨he, hbef⟩ := hM.first b hb
      have hpre : VPre ⟨P, eff, c⟩ M (initialSize P c.attrs.flags) 0 b (initialSize P c.attrs.flags) 0 0 none none SizeSt.init := by
        refine ⟨Int.le_refl _, mInv_init hM, ⟨_, none, none, he, by simp only [pushed], rfl, RegOK.none, .inr (.inl rfl), Known.none _, ?_, fun _ => rfl⟩,
          ?_, ?_⟩
        · intro _; right; omega
        · intro Z hZ; rw [hbef] at hZ; cases hZ
        · intro _ Z hZ; cases hZ
      have hv := visit_T (env := ⟨P, eff, c⟩) hM hZ hS hu h311 (c.blocks.length + 1) _ _ _ _ _ _ _ _ hpre (fun h => absurd rfl h)
      cases hvis : visit ⟨P, eff, c⟩ (c.blocks.length + 1) b (initialSize P c.attrs.flags) 0 0 none none SizeSt.init with
      | error e' =>
        rw [hvis] at h hv
        simp only [bind, Except.bind, Except.error.injEq] at h
        subst h
        rcases hre with h1 | h1
        · exact hv.1 h1
        · exact hv.2 h1
      | ok r =>
        obtain ⟨m, st⟩ := r
        have hA := analysed h311 hM hu hb hvis
        have hR := visit_reason (env := ⟨P, eff, c⟩) hZ (c.blocks.length + 1) b (initialSize P c.attrs.flags) 0 0 none none SizeSt.init
          (by simp [hbl]) ⟨by intro t ht; simp [SizeSt.init] at ht, by intro _ b; simp [SizeSt.init]⟩ (fun t ht => by cases ht)
          (fun _ => ⟨initialSize_nonneg _ _, Int.le_refl _⟩)
        rw [hvis] at hR
        have hR : RInv ⟨P, eff, c⟩ st := hR
        rw [hvis] at h
        obtain ⟨ids, hi⟩ := deadTries_total (env := ⟨P, eff, c⟩) hZ st c.blocks (fun b hb => hb)
        simp only [hi, bind, Except.bind] at h
        split at h
        · have : ∀ (ts : List TryB) (c1 : CFG), (∀ t ∈ ts, BElem.tryBegin t ∈ allCode c) → ∃ c2, assignDepths ⟨P, eff, c⟩ st c1 ts = .ok c2 := by
            intro ts
            induction ts with
            | nil => intro c1 _; exact ⟨c1, rfl⟩
            | cons t r ih =>
              intro c1 h
              unfold assignDepths
              rw [if_pos (hZ.rules.handlers t (h t (by simp)))]
              have h0 : 0 ≤ st.excStart t.target := Int.le_trans (hS.base t.target) (hA.inv.low t.target)
              simp only [pyAssert, h0, decide_true, if_true, bind, Except.bind]
              exact ih _ (fun x hx => h x (by simp [hx]))
          obtain ⟨c2, h2⟩ := this st.tries (ids.foldl (fun c id => c.setDepth id 32768) c) hR.tries
          rw [h2] at h
          cases h
        · cases h

/-- **C61, `to_code` with handlers.** On 3.11+, a Bytecode that follows the rules, whose instructions have a stack effect, and
whose graph has such a map, is compiled by `to_code`. -/
theorem C61_to_code_handlers (hP : P.WF) (h11 : P.py311 = true) (heff : ∀ i j, eff i j ≠ .error .outOfFuel) (hf : TargetFree eff) {b : Bytecode}
    (hw : WellMade P b) (hl : LabelsOnly b) (ht : WellTried none [] false b.elems) (he : NoEmptyTry false b.elems)
    (ha : Assemblable P (zeroDepths b)) (hloc : ∀ i l, .instr i ∈ b.elems → i.loc = some l → ¬ Unencodable l)
    (hdef : ∀ i, BElem.instr i ∈ b.elems → ∀ j, ∃ e, eff i j = .ok e) {g : CFG} (hg : fromBytecode P b = .ok g)
    (M : StackMap) (hM : M.Valid P eff g (initialSize P b.attrs.flags)) (hS : M.Safe P eff g)
    {passes : Nat} (hp : 3 * jumpCount b.elems < passes) (stacksize : Option Int) :
    ∃ co, b.toCode P key eff passes stacksize true = .ok co := by
  have hv : ∀ i, BElem.instr i ∈ b.elems → ArgOK P i.opcode i.arg := fun i hi => (hw.valid i hi).1.arg_ok
  cases h : b.toCode P key eff passes stacksize true with
  | ok co => exact ⟨co, rfl⟩
  | error e =>
    exfalso
    obtain ⟨c, hc, hr⟩ := to_code_error hP h11 hw hl ht he ha hloc hp h
    rw [hg] at hc; cases hc
    have hZ := from_sizeable hf hl hv ht hdef hg
    have hat : g.attrs = b.attrs := (C26_from P b g hl hg).2.1
    rw [← hat] at hM
    obtain ⟨r, h1⟩ := C61_handlers heff h11 hZ M hM hS (uniqueTry_ordered (from_tries ht hg).1) true
    rw [hr] at h1; cases h1

end

/-! ### Example -/

def StackMap.safeFromB (M : StackMap) (P : Platform) (eff : Instr → Bool → Py (Int × Int)) : List BElem → Int → InTry → Bool
  | [], _, _ => true
  | .instr i :: l, d, r =>
    (!P.hasJump i.opcode || match eff i true with | .ok e => decide (0 ≤ d + e.1) | _ => true) &&
    ((P.hasJump i.opcode && isUncondJump i.name) || match eff i false with
      | .ok e => decide (0 ≤ d + e.1) && (isFinal i.name || StackMap.safeFromB M P eff l (d + e.1 + e.2) (M.touch (d + e.1 + e.2) r))
      | _ => true)
  | .tryBegin t :: l, d, r => r.isNone && StackMap.safeFromB M P eff l d (some (t, decide (d = M.base t.target)))
  | .tryEnd id :: l, d, r => StackMap.safeFromB M P eff l d (closeTry r id)
  | .setLineno _ :: l, d, r => StackMap.safeFromB M P eff l d r
  | .label _ :: l, d, r => StackMap.safeFromB M P eff l d r

theorem safeFrom_of {M : StackMap} {P : Platform} {eff : Instr → Bool → Py (Int × Int)} : ∀ {es : List BElem} {d : Int} {r : InTry},
    StackMap.safeFromB M P eff es d r = true → M.SafeFrom P eff es d r := by
  intro es
  induction es with
  | nil => intro d r _; trivial
  | cons x l ih =>
    intro d r h
    cases x with
    | label n => exact ih h
    | setLineno n => exact ih h
    | tryEnd n => exact ih h
    | tryBegin t =>
      simp only [StackMap.safeFromB, Bool.and_eq_true, Option.isNone_iff_eq_none] at h
      exact ⟨h.1, ih h.2⟩
    | instr i =>
      simp only [StackMap.safeFromB, Bool.and_eq_true] at h
      refine ⟨?_, ?_⟩
      · intro hj e he
        have := h.1
        rw [hj, he] at this
        simpa using this
      · intro hj e he
        have := h.2
        rw [hj, he] at this
        simp only [Bool.false_or, Bool.and_eq_true, decide_eq_true_eq] at this
        refine ⟨this.1, fun hf => ih ?_⟩
        have h2 := this.2
        rw [hf] at h2
        simpa using h2

theorem safe_of {M : StackMap} {P : Platform} {eff : Instr → Bool → Py (Int × Int)} {c : CFG}
    (h : c.blocks.all (fun b => match M.entry b with | none => true | some (d, r) => StackMap.safeFromB M P eff (c.heap b).elems d r) = true)
    (hb : ∀ n, 0 ≤ M.base n) : M.Safe P eff c := by
  refine ⟨?_, hb⟩
  intro b hb d r he
  have := List.all_eq_true.1 h b hb
  rw [he] at this
  exact safeFrom_of this

/-- The loop in a try block of C29 is compiled. -/
example : ∃ co, tryLoopCode.toCode Py311.platform (id : Arg → Arg) eff311 = .ok co := by
  have hw : WellMade Py311.platform tryLoopCode := wellMade_spec Py311.wf (by decide +kernel)
  have hw0 : WellMade Py311.platform (zeroDepths tryLoopCode) := wellMade_spec Py311.wf (by decide +kernel)
  obtain ⟨g, hg⟩ : ∃ g, fromBytecode Py311.platform tryLoopCode = .ok g := by
    have h : (fromBytecode Py311.platform tryLoopCode).toOption.isSome = true := by decide +kernel
    cases hc : fromBytecode Py311.platform tryLoopCode with
    | error e => rw [hc] at h; cases h
    | ok c => exact ⟨c, rfl⟩
  have hl : LabelsOnly tryLoopCode := labelsOnly_of (by decide +kernel)
  refine C61_to_code_handlers (passes := 10) Py311.wf (by decide) (fun i j => effOf_ne _ _ _ (.inr rfl) i j) (effOf_targetFree _ _) hw
    hl (by decide +kernel) (by decide +kernel) (rules_of Py311.wf hw0 (passes := 10) (by decide +kernel) (by decide +kernel))
    (locs_none (by decide +kernel)) (fun i hi j => (effs_of (by decide +kernel) i hi j).imp fun _ h => h.1) hg tryLoopMap ?_ ?_ (by decide +kernel) none
  · refine valid_of ?_ (by intro n; unfold tryLoopMap; simp only; split <;> omega)
    have h : (fromBytecode Py311.platform tryLoopCode).toOption.any
      (fun g => StackMap.validB tryLoopMap Py311.platform eff311 g 0) = true := by decide +kernel
    rw [hg] at h
    exact h
  · refine safe_of ?_ (by intro n; unfold tryLoopMap; simp only; split <;> omega)
    have h : (fromBytecode Py311.platform tryLoopCode).toOption.any
      (fun c => c.blocks.all (fun b => match tryLoopMap.entry b with
        | none => true
        | some (d, r) => StackMap.safeFromB tryLoopMap Py311.platform eff311 (c.heap b).elems d r)) = true := by decide +kernel
    rw [hg] at h
    exact h

end Verif
