import Verif.Proofs.NoTryGraph
import Verif.Props.StackSize
import Verif.Props.ToCode
/-
C55: the stack size of a `Bytecode` without exception handlers, as `compute_stacksize` returns it and `to_code` writes it, in
terms of the executions of the list of its instructions.
-/
namespace Verif
open Spec

theorem labelAt_le {l k : Nat} : ∀ {es : List BElem}, labelAt l es = some k → k ≤ instrCount es := by
  intro es
  induction es generalizing k with
  | nil => intro h; cases h
  | cons e es ih =>
    intro h
    have hc : instrCount (e :: es) = instrCount es + (if e.isInstr then 1 else 0) := by
      unfold instrCount
      rw [List.countP_cons]
    cases e with
    | label l' =>
      simp only [labelAt] at h
      cases hx : labelAt l es with
      | none =>
        rw [hx] at h
        simp only [Option.none_or] at h
        split at h
        · cases h; omega
        · cases h
      | some m =>
        rw [hx] at h
        simp only [Option.some_or, Option.some.injEq] at h
        have := ih hx
        omega
    | instr i =>
      simp only [labelAt, Option.map_eq_some_iff] at h
      obtain ⟨m, hm, rfl⟩ := h
      have := ih hm
      simp only [BElem.isInstr, if_true] at hc
      omega
    | _ =>
      simp only [labelAt] at h
      have := ih h
      omega

section
variable {P : Platform} {eff : Instr → Bool → Py (Int × Int)} {b : Bytecode}

theorem lonPath_le {d0 : Int} {x : LConfig} (h : LOnPath P eff b d0 x) {k : Nat} (hk : x.pos = some k) : k ≤ (instrsB b).length := by
  cases h with
  | refl => cases hk; omega
  | tail _ hs =>
    obtain ⟨e, hs⟩ := hs
    cases hs with
    | go h1 _ _ =>
      have := (List.getElem?_eq_some_iff.1 h1).1
      cases hk
      omega
    | jump h1 _ _ h4 _ =>
      cases hk
      unfold instrsB
      rw [instrsE_length]
      exact labelAt_le h4
    | stop _ _ _ _ => cases hk

/-- Each instruction is always met with the same number of values on the stack: then the depths are bounded. -/
theorem lconsistent_bounded {d0 : Int}
    (hcons : ∀ k a s, LOnPath P eff b d0 ⟨some k, a⟩ → LOnPath P eff b d0 ⟨some k, s⟩ → a = s) :
    ∃ B, ∀ x, LOnPath P eff b d0 x → x.depth ≤ B := by
  have h1 : ∀ N, ∃ B, ∀ k, k < N → ∀ d, LOnPath P eff b d0 ⟨some k, d⟩ →
      d ≤ B ∧ ∀ ins e, (instrsB b)[k]? = some ins → eff ins false = .ok e → d + e.1 + e.2 ≤ B := by
    intro N
    induction N with
    | zero => exact ⟨0, fun k hk => by omega⟩
    | succ N ih =>
      obtain ⟨B, hB⟩ := ih
      by_cases hex : ∃ d, LOnPath P eff b d0 ⟨some N, d⟩
      · obtain ⟨d, hd⟩ := hex
        have hE : ∃ E : Int, ∀ ins e, (instrsB b)[N]? = some ins → eff ins false = .ok e → d + e.1 + e.2 ≤ E := by
          cases hi : (instrsB b)[N]? with
          | none => exact ⟨0, fun _ _ h => by cases h⟩
          | some ins =>
            cases he : eff ins false with
            | error x =>
              refine ⟨0, fun i e h1 h2 => ?_⟩
              cases h1; rw [he] at h2; cases h2
            | ok e =>
              refine ⟨d + e.1 + e.2, fun i e' h1 h2 => ?_⟩
              cases h1; rw [he] at h2; cases h2; omega
        obtain ⟨E, hE⟩ := hE
        refine ⟨max B (max d E), fun k hk d' hd' => ?_⟩
        by_cases hkN : k = N
        · subst hkN
          have : d' = d := hcons _ _ _ hd' hd
          subst this
          refine ⟨by omega, fun ins e g1 g2 => ?_⟩
          have := hE ins e g1 g2
          omega
        · obtain ⟨g1, g2⟩ := hB k (by omega) d' hd'
          refine ⟨by omega, fun ins e g3 g4 => ?_⟩
          have := g2 ins e g3 g4
          omega
      · refine ⟨B, fun k hk d' hd' => ?_⟩
        by_cases hkN : k = N
        · subst hkN; exact absurd ⟨d', hd'⟩ hex
        · exact hB k (by omega) d' hd'
  obtain ⟨B, hB⟩ := h1 ((instrsB b).length + 1)
  refine ⟨B, fun x hx => ?_⟩
  obtain ⟨p, d⟩ := x
  cases p with
  | some k =>
    have := lonPath_le hx rfl
    exact (hB k (by omega) d hx).1
  | none =>
    cases hx with
    | tail hp hs =>
      obtain ⟨e, hs⟩ := hs
      cases hs with
      | stop g1 g2 g3 g4 =>
        have := lonPath_le hp rfl
        exact (hB _ (by omega) _ hp).2 _ _ g1 g4

/-- What the size of the graph says of the list. -/
theorem graph_linear {c c' : CFG} {depths : Bool} {n : Int} (hre : ∀ i j, eff i j ≠ .error .runtimeError) (hf : TargetFree eff)
    (hl : LabelsOnly b) (hno : ∀ t, BElem.tryBegin t ∉ b.elems) (hg : fromBytecode P b = .ok c)
    (h : c.computeStacksize P eff depths = .ok (n, c')) :
    let d0 := initialSize P b.attrs.flags
    ((∃ B, ∀ x, LOnPath P eff b d0 x → x.depth ≤ B) → ∀ x, LOnPath P eff b d0 x → x.depth ≤ n ∨ x.depth = d0) ∧
    (0 < n → ∃ x, LOnPath P eff b d0 x ∧ x.depth = n) ∧
    ((∀ k a s, LOnPath P eff b d0 ⟨some k, a⟩ → LOnPath P eff b d0 ⟨some k, s⟩ → a = s) → ¬ LUnderflows P eff b d0) := by
  obtain ⟨m, B⟩ := bridge_of hl hg
  have hat : c.attrs = b.attrs := (C26_from P b c hl hg).2.1
  have hnt := from_noTry hno hg
  have hne := from_nextNe B hg
  intro d0
  refine ⟨?_, ?_, ?_⟩
  · rintro ⟨X, hX⟩ x hx
    have := C29_partial P eff hre c c' depths n hnt hne
      ⟨X, fun y hy => hX _ (by rw [hat] at hy; exact (onPath_toL hf B hy).2)⟩ h
    rw [hat] at this
    obtain ⟨y, hy⟩ := onPath_toG hf B hx
    rw [← hy.depth]
    exact this y hy.path
  · intro hn
    obtain ⟨y, h1, h2⟩ := C30_attained P eff hre c c' depths n hnt h hn
    rw [hat] at h1
    exact ⟨_, (onPath_toL hf B h1).2, h2⟩
  · intro hcons
    rw [underflows_iff hf B]
    have := C31_consistent_partial P eff hre c c' depths n hnt hne (by
      intro X a s ha hs
      rw [hat] at ha hs
      exact hcons _ _ _ (onPath_toL hf B ha).2 (onPath_toL hf B hs).2) h
    rwa [hat] at this
end

section
variable {κ : Type} [DecidableEq κ]

theorem emit_stacksize {P : Platform} {c : Concrete} {n : Int} {co : Code} (h : c.emit P n = .ok co) : co.stacksize = n := by
  unfold Concrete.emit at h
  obtain ⟨_, _, h⟩ := except_bind_ok h
  obtain ⟨_, _, h⟩ := except_bind_ok h
  simp only [pure, Except.pure, Except.ok.injEq] at h
  subst h; rfl

/-- The stack size `to_code` writes is that of the graph. -/
theorem toCode_size {P : Platform} {key : Arg → κ} {eff : Instr → Bool → Py (Int × Int)} {b : Bytecode} {passes : Nat} {stacksize : Option Int}
    {depths : Bool} {co : Code} (hs : stacksize = none ∨ P.py311 = true ∧ depths = true) (h : b.toCode P key eff passes stacksize depths = .ok co) :
    ∃ g g', fromBytecode P b = .ok g ∧ g.computeStacksize P eff depths = .ok (co.stacksize, g') := by
  have key : ∀ {n : Int} {b' : Bytecode}, b.sized P eff depths = .ok (n, b') → co.stacksize = n →
      ∃ g g', fromBytecode P b = .ok g ∧ g.computeStacksize P eff depths = .ok (co.stacksize, g') := by
    intro n b' h hn
    unfold Bytecode.sized at h
    obtain ⟨g, hg, h⟩ := except_bind_ok h
    obtain ⟨⟨m, g'⟩, hg', h⟩ := except_bind_ok h
    obtain ⟨x, hx, h⟩ := except_bind_ok h
    simp only [pure, Except.pure, Except.ok.injEq, Prod.mk.injEq] at h
    obtain ⟨rfl, rfl⟩ := h
    exact ⟨g, g', hg, by rw [hn]; exact hg'⟩
  unfold Bytecode.toCode at h
  split at h
  · obtain ⟨⟨n, b'⟩, h1, h⟩ := except_bind_ok h
    obtain ⟨c, _, h⟩ := except_bind_ok h
    exact key h1 (emit_stacksize h)
  · rename_i hc
    split at h
    · rcases hs with hs | ⟨h1, h2⟩
      · cases hs
      · simp [h1, h2] at hc
    · obtain ⟨⟨n, b'⟩, h1, h⟩ := except_bind_ok h
      obtain ⟨c, _, h⟩ := except_bind_ok h
      exact key h1 (emit_stacksize h)

/-- **C55 (partial).** Without exception handlers: when `to_code` succeeds, computing the stack size, and each instruction is
always met with the same number of values on the stack (as in compiled code), then, along every execution of the list of
instructions, of any length, jumps taken or not: the number of values never exceeds `co_stacksize` (the one value a
generator is started with before 3.13 apart); no instruction pops more values than there are; and `co_stacksize` is
reached. Missing: exception handlers. -/
theorem C55_to_code_partial (P : Platform) (key : Arg → κ) (eff : Instr → Bool → Py (Int × Int)) (hre : ∀ i j, eff i j ≠ .error .runtimeError)
    (hf : TargetFree eff) (b : Bytecode) (hl : LabelsOnly b) (hno : ∀ t, BElem.tryBegin t ∉ b.elems) (passes : Nat) (stacksize : Option Int)
    (depths : Bool) (hs : stacksize = none ∨ P.py311 = true ∧ depths = true)
    (hcons : ∀ k a s, LOnPath P eff b (initialSize P b.attrs.flags) ⟨some k, a⟩ → LOnPath P eff b (initialSize P b.attrs.flags) ⟨some k, s⟩ → a = s)
    (co : Code) (h : b.toCode P key eff passes stacksize depths = .ok co) :
    (∀ x, LOnPath P eff b (initialSize P b.attrs.flags) x → x.depth ≤ co.stacksize ∨ x.depth = initialSize P b.attrs.flags) ∧
    ¬ LUnderflows P eff b (initialSize P b.attrs.flags) ∧
    (0 < co.stacksize → ∃ x, LOnPath P eff b (initialSize P b.attrs.flags) x ∧ x.depth = co.stacksize) := by
  obtain ⟨g, g', h1, h2⟩ := toCode_size hs h
  obtain ⟨r1, r2, r3⟩ := graph_linear hre hf hl hno h1 h2
  exact ⟨r1 (lconsistent_bounded hcons), r3 hcons, r2⟩

/-- **C55 (partial), `compute_stacksize`.** The same for the value `compute_stacksize` returns; bounded depths are enough for it to
suffice; and a RuntimeError is a real underflow, whatever the depths. -/
theorem C55_compute_partial (P : Platform) (eff : Instr → Bool → Py (Int × Int)) (hre : ∀ i j, eff i j ≠ .error .runtimeError)
    (hf : TargetFree eff) (b : Bytecode) (hl : LabelsOnly b) (hno : ∀ t, BElem.tryBegin t ∉ b.elems) (n : Int)
    (h : b.computeStacksize P eff = .ok n) :
    ((∃ B, ∀ x, LOnPath P eff b (initialSize P b.attrs.flags) x → x.depth ≤ B) →
      ∀ x, LOnPath P eff b (initialSize P b.attrs.flags) x → x.depth ≤ n ∨ x.depth = initialSize P b.attrs.flags) ∧
    (0 < n → ∃ x, LOnPath P eff b (initialSize P b.attrs.flags) x ∧ x.depth = n) ∧
    ((∀ k a s, LOnPath P eff b (initialSize P b.attrs.flags) ⟨some k, a⟩ → LOnPath P eff b (initialSize P b.attrs.flags) ⟨some k, s⟩ → a = s) →
      ¬ LUnderflows P eff b (initialSize P b.attrs.flags)) := by
  unfold Bytecode.computeStacksize at h
  obtain ⟨g, hg, h⟩ := except_bind_ok h
  obtain ⟨⟨m, g'⟩, hg', h⟩ := except_bind_ok h
  simp only [pure, Except.pure, Except.ok.injEq] at h
  subst h
  exact graph_linear hre hf hl hno hg hg'

end

/-! ### RuntimeError -/

theorem iter_noTry {es : List BElem} (h : ∀ t, BElem.tryBegin t ∉ es) : (iterElems false es).2 = .ok () := by
  induction es with
  | nil => rfl
  | cons e es ih =>
    have ih := ih (fun t ht => h t (by simp [ht]))
    cases e with
    | tryBegin t => exact absurd (by simp) (h t)
    | _ => simp only [iterElems]; exact ih

/-- No RuntimeError. -/
def Quiet {α : Type} (x : Py α) : Prop := x ≠ .error .runtimeError

theorem Quiet.bind {α β : Type} {x : Py α} {f : α → Py β} (hx : Quiet x) (hf : ∀ a, x = .ok a → Quiet (f a)) : Quiet (x >>= f) := by
  intro h
  cases hx' : x with
  | error e =>
    rw [hx'] at h
    simp only [Bind.bind, Except.bind, Except.error.injEq] at h
    exact hx (by rw [hx', h])
  | ok a =>
    rw [hx'] at h
    exact hf a hx' h

theorem quiet_mapM {α β : Type} {f : α → Py β} (hf : ∀ a, Quiet (f a)) (l : List α) : Quiet (l.mapM f) := by
  induction l with
  | nil => intro h; simp [pure, Except.pure] at h
  | cons a l ih =>
    rw [List.mapM_cons]
    refine (hf a).bind fun _ _ => ih.bind fun _ _ => ?_
    intro h; cases h

theorem from_quiet {P : Platform} {b : Bytecode} (hno : ∀ t, BElem.tryBegin t ∉ b.elems) : Quiet (fromBytecode P b) := by
  have hcopy : ∀ (s : FromSt) (e : BElem), Quiet (s.copyElem e) := by
    intro s e
    unfold FromSt.copyElem
    repeat' split
    all_goals (intro h; cases h)
  have hleave : ∀ (s : FromSt) (i : Instr) (t : TryB) (nid : Nat), Quiet (s.leave P b.elems i t nid) := by
    intro s i t nid
    unfold FromSt.leave
    repeat' split
    all_goals (intro h; cases h)
  have hbridge : ∀ (s : FromSt) (temp : Bool) (i : Instr) (e : BElem), Quiet (s.bridge P b.elems temp i e) := by
    intro s temp i e
    unfold FromSt.bridge
    repeat' split
    any_goals (intro h; cases h; done)
    all_goals
      refine (hleave _ _ _ _).bind fun _ _ => ?_
      intro h; cases h
  have henter : ∀ (s : FromSt) (k : Nat) (st : Bool) (e : BElem), Quiet (s.enter P k st e) := by
    intro s k st e
    unfold FromSt.enter
    dsimp only
    repeat' split
    all_goals (intro h; cases h)
  have hstep : ∀ (s : FromSt) (starts : List Nat) (k : Nat) (e : BElem), Quiet (s.step P b.elems starts k e) := by
    intro s starts k e
    unfold FromSt.step
    refine (henter _ _ _ _).bind fun _ _ => ?_
    dsimp only
    split
    · split
      · refine (hbridge _ _ _ _).bind fun _ _ => ?_
        split
        · intro h; cases h
        · exact hcopy _ _
      · exact hcopy _ _
    · exact hcopy _ _
  have hloop : ∀ (r : List BElem) (s : FromSt) (starts : List Nat) (k : Nat), Quiet (fromLoop P b.elems starts k s r) := by
    intro r
    induction r with
    | nil => intro s starts k h; cases h
    | cons e r ih =>
      intro s starts k
      unfold fromLoop
      exact (hstep _ _ _ _).bind fun _ _ => ih _ _ _
  have happly : ∀ (labels : Nat → Option Nat) (ends : List (Nat × List Nat)) (bs : List Blk), Quiet (applyEnds labels bs ends) := by
    intro labels ends
    induction ends with
    | nil => intro bs h; cases h
    | cons x r ih =>
      intro bs
      obtain ⟨l, ids⟩ := x
      unfold applyEnds
      split
      · intro h; cases h
      · exact ih _
  unfold fromBytecode
  rw [iter_noTry hno]
  refine Quiet.bind (by intro h; cases h) fun _ _ => ?_
  refine Quiet.bind ?_ fun _ _ => ?_
  · unfold blockStarts
    refine quiet_mapM ?_ _
    intro l
    split <;> (intro h; cases h)
  refine (hloop _ _ _ _).bind fun _ _ => ?_
  refine (happly _ _ _).bind fun _ _ => ?_
  refine Quiet.bind ?_ fun _ _ => ?_
  · refine quiet_mapM ?_ _
    intro x
    refine Quiet.bind ?_ fun _ _ => ?_
    · refine quiet_mapM ?_ _
      intro e
      unfold toBlockElem
      repeat' split
      all_goals (intro h; cases h)
    · intro h; cases h
  · intro h; cases h

/-- **C55 (a raised error is real).** Without exception handlers, when `compute_stacksize` raises RuntimeError, some instruction
of the list, on some execution from the first one, pops more values than there are. -/
theorem C55_raises (P : Platform) (eff : Instr → Bool → Py (Int × Int)) (hre : ∀ i j, eff i j ≠ .error .runtimeError)
    (hf : TargetFree eff) (b : Bytecode) (hl : LabelsOnly b) (hno : ∀ t, BElem.tryBegin t ∉ b.elems)
    (h : b.computeStacksize P eff = .error .runtimeError) : LUnderflows P eff b (initialSize P b.attrs.flags) := by
  unfold Bytecode.computeStacksize at h
  cases hg : fromBytecode P b with
  | error e =>
    rw [hg] at h
    simp only [Bind.bind, Except.bind, Except.error.injEq] at h
    subst h
    exact absurd hg (from_quiet hno)
  | ok c =>
    rw [hg] at h
    obtain ⟨m, B⟩ := bridge_of hl hg
    have hat : c.attrs = b.attrs := (C26_from P b c hl hg).2.1
    rw [underflows_iff hf B, ← hat]
    refine C31_raises P eff hre c true (from_noTry hno hg) ?_
    cases hc : c.computeStacksize P eff with
    | error e =>
      simp only [Bind.bind, Except.bind, hc, Except.error.injEq] at h
      rw [h]
    | ok r => simp only [Bind.bind, Except.bind, hc] at h; cases h

end Verif
