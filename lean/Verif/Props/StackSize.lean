import Verif.Proofs.StackFuel
import Verif.Model.StackEffect
import Verif.Props.CFG
import Verif.Instances.Py310
/-
C29 (never too small), C30 (attained), C31 (underflow), C32 (termination): `compute_stacksize`.
-/
namespace Verif
open Spec

theorem blkIter_fgood (P : Platform) (es : List BElem) : FGood (fun _ => True) (blkIter P es) := by
  induction es with
  | nil => trivial
  | cons x r ih =>
    unfold blkIter
    have hck : FGood (fun _ => True) (blkCheck P x r) := by
      unfold blkCheck
      repeat' split
      all_goals first | trivial | (intro h; cases h)
    exact FGood.bind hck fun _ _ => ih

theorem deadTries_fgood (env : SizeEnv) (st : SizeSt) (bs : List Nat) : FGood (fun _ => True) (deadTries env st bs) := by
  induction bs with
  | nil => trivial
  | cons b r ih =>
    unfold deadTries
    split
    · refine FGood.bind (blkIter_fgood _ _) fun _ _ => ?_
      exact FGood.bind ih fun _ _ => trivial
    · exact ih

theorem assignDepths_fgood (env : SizeEnv) (st : SizeSt) (ts : List TryB) : ∀ c, FGood (fun _ => True) (assignDepths env st c ts) := by
  induction ts with
  | nil => intro c; trivial
  | cons t r ih =>
    intro c
    unfold assignDepths
    split
    · have : FGood (fun _ => True) (pyAssert (decide (0 ≤ st.excStart t.target))) := by
        unfold pyAssert
        split
        · trivial
        · intro h; cases h
      exact FGood.bind this fun _ _ => ih _
    · intro h; cases h

/-- **C32.** `compute_stacksize` terminates on every CFG, with or without exception handlers, whatever the loops and the
effects: the analyses in progress are never nested more deeply than the number of blocks plus one (the fuel the model
gives), each being a pass over the elements of one block. -/
theorem C32_terminates (P : Platform) (eff : Instr → Bool → Py (Int × Int)) (heff : ∀ i j, eff i j ≠ .error .outOfFuel)
    (c : CFG) (depths : Bool) : c.computeStacksize P eff depths ≠ .error .outOfFuel := by
  have : FGood (fun _ => True) (c.computeStacksize P eff depths) := by
    unfold CFG.computeStacksize
    split
    · trivial
    · refine FGood.bind (visit_fgood (env := ⟨P, eff, c⟩) heff _ [] List.nodup_nil (by simp) (by simp) _ _ _ _ _ _ _ rfl) ?_
      rintro ⟨m, st⟩ _
      refine FGood.bind (deadTries_fgood _ _ _) fun ids _ => ?_
      split
      · exact FGood.bind (assignDepths_fgood _ _ _ _) fun _ _ => trivial
      · trivial
  intro h
  rw [h] at this
  exact this rfl

theorem withHandlers_const {c : CFG} {st : SizeSt} {m : Int} (h : st.excMax = fun _ => -32768) (hm : 0 ≤ m) :
    withHandlers c st m = m := by
  unfold withHandlers
  rw [h]
  generalize c.blocks = bs
  induction bs with
  | nil => rfl
  | cons b r ih =>
    rw [List.foldl_cons]
    have : max m ((fun _ => -32768 : Nat → Int) b) = m := by
      show max m (-32768) = m
      omega
    rw [this]
    exact ih

/-- The analysis behind a result. -/
theorem compute_visit {P : Platform} {eff : Instr → Bool → Py (Int × Int)} {c c' : CFG} {depths : Bool} {n : Int} {b : Nat}
    (hb : c.blocks.head? = some b) (h : c.computeStacksize P eff depths = .ok (n, c')) :
    ∃ m st, visit ⟨P, eff, c⟩ (c.blocks.length + 1) b (initialSize P c.attrs.flags) 0 0 none none SizeSt.init = .ok (m, st) ∧
      n = withHandlers c st m := by
  unfold CFG.computeStacksize at h
  split at h
  · rename_i he; rw [he] at hb; cases hb
  · rename_i b' r he
    rw [he] at hb
    simp only [List.head?_cons, Option.some.injEq] at hb
    subst hb
    obtain ⟨⟨m, st⟩, hv, h⟩ := except_bind_ok h
    obtain ⟨ids, _, h⟩ := except_bind_ok h
    refine ⟨m, st, hv, ?_⟩
    split at h
    · obtain ⟨c2, _, h⟩ := except_bind_ok h
      simp only [pure, Except.pure, Except.ok.injEq, Prod.mk.injEq] at h
      exact h.1.symm
    · simp only [pure, Except.pure, Except.ok.injEq, Prod.mk.injEq] at h
      exact h.1.symm

theorem spre_init {env : SizeEnv} {d0 : Int} {b : Nat} (hb : env.c.blocks.head? = some b) :
    SPre env d0 SizeSt.init ⟨b, some 0, d0⟩ :=
  ⟨⟨b, hb, .refl _⟩, (by intro Z hZ; cases hZ), (by rintro Y t ⟨h, hm⟩; cases hm)⟩

/-- The result of a successful computation, for a relation `R` that loops respect. -/
theorem compute_closed {P : Platform} {eff : Instr → Bool → Py (Int × Int)} {c c' : CFG} {depths : Bool} {n : Int}
    (R : Int → Int → Prop) (hno : NoTry c) (hre : ∀ i j, eff i j ≠ .error .runtimeError)
    (hrefl : ∀ a, R a a)
    (hskip : P.py311 = false → ∀ X a s, OnPath P eff c (initialSize P c.attrs.flags) ⟨X, some 0, a⟩ →
      OnPath P eff c (initialSize P c.attrs.flags) ⟨X, some 0, s⟩ → s ≤ a → R a s)
    (hcut : ∀ X a s, OnPath P eff c (initialSize P c.attrs.flags) ⟨X, some 0, a⟩ →
      Star (Step P eff c) ⟨X, some 0, a⟩ ⟨X, some 0, s⟩ → R a s)
    (h : c.computeStacksize P eff depths = .ok (n, c')) :
    (c.blocks = [] ∧ n = 0) ∨ (0 ≤ n ∧ (n = 0 ∨ Att ⟨P, eff, c⟩ (initialSize P c.attrs.flags) n) ∧ ∃ st : SizeSt,
      (∀ Y t, Vis st Y t → closedFrom ⟨P, eff, c⟩ (Cov R st) n (c.heap Y).next (c.heap Y).elems t) ∧
      ∀ b, c.blocks.head? = some b → Cov R st b (initialSize P c.attrs.flags)) := by
  cases hb : c.blocks.head? with
  | none =>
    left
    rw [List.head?_eq_none_iff] at hb
    refine ⟨hb, ?_⟩
    unfold CFG.computeStacksize at h
    rw [hb] at h
    simp only [Except.ok.injEq, Prod.mk.injEq] at h
    exact h.1.symm
  | some b =>
    right
    obtain ⟨m, st, hv, hn⟩ := compute_visit hb h
    have hg := visit_good (env := ⟨P, eff, c⟩) (R := R) hno hre hrefl hskip hcut (c.blocks.length + 1) b
      (initialSize P c.attrs.flags) 0 0 SizeSt.init (spre_init hb)
    rw [hv] at hg
    obtain ⟨g1, _, g3⟩ := hg
    have hm : 0 ≤ m := g1.le
    have : n = m := by rw [hn, withHandlers_const (by rw [g1.exc]; rfl) hm]
    subst this
    refine ⟨hm, g1.att, st, ?_, ?_⟩
    · intro Y t hvis
      rcases g1.closed Y t hvis with h | h
      · obtain ⟨_, hm⟩ := h; cases hm
      · exact h
    · intro b' hb'
      simp only [Option.some.injEq] at hb'
      subst hb'
      exact g3

/-- **C29 (partial).** Without exception handlers: if `compute_stacksize` returns `n`, then along every execution path,
of any length, jumps taken or not, the number of values on the stack is at most `n` (or is the one value a generator
is started with before 3.13), provided the depths along paths are bounded at all.
Missing: exception handlers (`C29_handlers_false` shows the statement false for some graphs with handlers), graphs where a
block falls through into an empty block that itself goes on to another (`C29_statement_false`). -/
theorem C29_partial (P : Platform) (eff : Instr → Bool → Py (Int × Int)) (hre : ∀ i j, eff i j ≠ .error .runtimeError)
    (c c' : CFG) (depths : Bool) (n : Int) (hno : NoTry c)
    (hne : ∀ b k, (c.heap b).next = some k → (c.heap k).elems ≠ [] ∨ (c.heap k).next = none)
    (hbound : ∃ B, ∀ x, OnPath P eff c (initialSize P c.attrs.flags) x → x.depth ≤ B)
    (h : c.computeStacksize P eff depths = .ok (n, c')) :
    ∀ x, OnPath P eff c (initialSize P c.attrs.flags) x → x.depth ≤ n ∨ x.depth = initialSize P c.attrs.flags := by
  have hcut : ∀ X a s, OnPath P eff c (initialSize P c.attrs.flags) ⟨X, some 0, a⟩ →
      Star (Step P eff c) ⟨X, some 0, a⟩ ⟨X, some 0, s⟩ → s ≤ a := by
    intro X a s hr hl
    apply Classical.byContradiction
    intro hlt
    obtain ⟨B, hB⟩ := hbound
    have hk : s = a + (s - a) := by omega
    rw [hk] at hl
    have := hB _ (loop_unbounded hr hl (B - a + 1).toNat)
    simp only at this
    have h1 : ((B - a + 1).toNat : Int) * (s - a) ≥ ((B - a + 1).toNat : Int) * 1 :=
      Int.mul_le_mul_of_nonneg_left (by omega) (by omega)
    omega
  have hc := compute_closed (fun a b => b ≤ a) hno hre (fun _ => Int.le_refl _) (fun _ _ _ _ _ _ hle => hle) hcut h
  rcases hc with ⟨hb, _⟩ | ⟨_, _, st, hcl, hen⟩
  · rintro x ⟨b, hb', _⟩
    rw [hb] at hb'; cases hb'
  · rintro x hx
    have hx' := hx
    obtain ⟨b, hb, hst⟩ := hx
    induction hst with
    | refl => exact .inr rfl
    | tail hpre hstep ih =>
      rename_i y z
      rcases hstep with ⟨e, hex⟩ | hmv
      · obtain ⟨h1, d, h2, _, h4⟩ := path_exec (env := ⟨P, eff, c⟩) (R := fun a b => b ≤ a) (m := n) hne
          (fun _ _ _ h => by omega) (fun _ _ _ h1 h2 => by omega) hcl hen ⟨b, hb, hpre⟩ hex
        left
        omega
      · have := ih ⟨b, hb, hpre⟩
        cases hmv with
        | skip _ _ => exact this
        | next _ => exact this

/-- When the code is not a generator the bound is `n` itself. -/
theorem C29_no_generator_partial (P : Platform) (eff : Instr → Bool → Py (Int × Int)) (hre : ∀ i j, eff i j ≠ .error .runtimeError)
    (c c' : CFG) (depths : Bool) (n : Int) (hno : NoTry c) (hgen : initialSize P c.attrs.flags = 0)
    (hne : ∀ b k, (c.heap b).next = some k → (c.heap k).elems ≠ [] ∨ (c.heap k).next = none)
    (hbound : ∃ B, ∀ x, OnPath P eff c 0 x → x.depth ≤ B)
    (h : c.computeStacksize P eff depths = .ok (n, c')) :
    ∀ x, OnPath P eff c 0 x → x.depth ≤ n := by
  intro x hx
  have hn : 0 ≤ n := by
    rcases compute_closed (fun _ _ => True) hno hre (fun _ => trivial) (fun _ _ _ _ _ _ _ => trivial)
      (fun _ _ _ _ _ => trivial) h with h | h
    · omega
    · exact h.1
  have := C29_partial P eff hre c c' depths n hno hne (by rw [hgen]; exact hbound) h x (by rw [hgen]; exact hx)
  rw [hgen] at this
  omega

/-- **C30.** Without exception handlers the computed size is not an overestimate: if it is positive, some execution
path really has that number of values on the stack. -/
theorem C30_attained (P : Platform) (eff : Instr → Bool → Py (Int × Int)) (hre : ∀ i j, eff i j ≠ .error .runtimeError)
    (c c' : CFG) (depths : Bool) (n : Int) (hno : NoTry c) (h : c.computeStacksize P eff depths = .ok (n, c')) (hn : 0 < n) :
    ∃ x, OnPath P eff c (initialSize P c.attrs.flags) x ∧ x.depth = n := by
  have hc := compute_closed (fun _ _ => True) hno hre (fun _ => trivial) (fun _ _ _ _ _ _ _ => trivial)
    (fun _ _ _ _ _ => trivial) h
  rcases hc with ⟨_, h0⟩ | ⟨_, hatt, _⟩
  · omega
  · rcases hatt with h0 | h
    · omega
    · exact h

/-- **C31 (a raised error is real).** Without exception handlers: if `compute_stacksize` raises RuntimeError, some
instruction on some execution path pops more values than there are. -/
theorem C31_raises (P : Platform) (eff : Instr → Bool → Py (Int × Int)) (hre : ∀ i j, eff i j ≠ .error .runtimeError)
    (c : CFG) (depths : Bool) (hno : NoTry c) (h : c.computeStacksize P eff depths = .error .runtimeError) :
    Underflows P eff c (initialSize P c.attrs.flags) := by
  unfold CFG.computeStacksize at h
  split at h
  · cases h
  · rename_i b r hbl
    have hg := visit_good (env := ⟨P, eff, c⟩) (R := fun _ _ => True) (d0 := initialSize P c.attrs.flags) hno hre
      (fun _ => trivial) (fun _ _ _ _ _ _ _ => trivial) (fun _ _ _ _ _ => trivial) (c.blocks.length + 1) b
      (initialSize P c.attrs.flags) 0 0 SizeSt.init (spre_init (by rw [hbl]; rfl))
    cases hv : visit ⟨P, eff, c⟩ (c.blocks.length + 1) b (initialSize P c.attrs.flags) 0 0 none none SizeSt.init with
    | error e =>
      rw [hv] at hg
      simp only [hv, bind, Except.bind, Except.error.injEq] at h
      exact hg h
    | ok p =>
      obtain ⟨m, st⟩ := p
      simp only [hv, bind, Except.bind] at h
      exfalso
      have hiter : ∀ es, blkIter P es ≠ .error .runtimeError := by
        intro es
        induction es with
        | nil => intro h; cases h
        | cons x r ih =>
          unfold blkIter
          cases hx : blkCheck P x r with
          | ok u => exact ih
          | error e =>
            intro he
            simp only [bind, Except.bind, Except.error.injEq] at he
            subst he
            unfold blkCheck at hx
            repeat' split at hx
            all_goals cases hx
      have hdead : ∀ bs, deadTries ⟨P, eff, c⟩ st bs ≠ .error .runtimeError := by
        intro bs
        induction bs with
        | nil => intro h; cases h
        | cons x r ih =>
          unfold deadTries
          split
          · simp only [bind, Except.bind]
            cases hx : blkIter P (c.heap x).elems with
            | error e =>
              intro he
              simp only [Except.error.injEq] at he
              subst he
              exact hiter _ hx
            | ok u =>
              simp only
              cases hy : deadTries ⟨P, eff, c⟩ st r with
              | error e =>
                intro he
                simp only [Except.error.injEq] at he
                subst he
                exact ih hy
              | ok ids => intro he; cases he
          · exact ih
      have hass : ∀ ts c', assignDepths ⟨P, eff, c⟩ st c' ts ≠ .error .runtimeError := by
        intro ts
        induction ts with
        | nil => intro c' h; cases h
        | cons t r ih =>
          intro c'
          unfold assignDepths
          split
          · unfold pyAssert
            split
            · exact ih _
            · intro h; cases h
          · intro h; cases h
      cases hd : deadTries ⟨P, eff, c⟩ st c.blocks with
      | error e =>
        rw [hd] at h
        simp only [Except.error.injEq] at h
        subst h
        exact hdead _ hd
      | ok ids =>
        rw [hd] at h
        simp only at h
        split at h
        · split at h
          · rename_i hx
            simp only [Except.error.injEq] at h
            subst h
            exact hass _ _ hx
          · cases h
        · cases h

/-- **C31 (partial: no underflow after success).** Without exception handlers, if `compute_stacksize` succeeds then no
execution path pops from an empty stack, provided that no path comes back to the start of a block with fewer values
than it had there before, and either Python is 3.11+ or all paths to a block enter it with the same depth.
Missing: loops that shrink the stack (`C31_statement_false`), exception handlers. -/
theorem C31_partial (P : Platform) (eff : Instr → Bool → Py (Int × Int)) (hre : ∀ i j, eff i j ≠ .error .runtimeError)
    (c c' : CFG) (depths : Bool) (n : Int) (hno : NoTry c)
    (hne : ∀ b k, (c.heap b).next = some k → (c.heap k).elems ≠ [] ∨ (c.heap k).next = none)
    (hloop : ∀ X a s, OnPath P eff c (initialSize P c.attrs.flags) ⟨X, some 0, a⟩ →
      Star (Step P eff c) ⟨X, some 0, a⟩ ⟨X, some 0, s⟩ → a ≤ s)
    (hver : P.py311 = true ∨ ∀ X a s, OnPath P eff c (initialSize P c.attrs.flags) ⟨X, some 0, a⟩ →
      OnPath P eff c (initialSize P c.attrs.flags) ⟨X, some 0, s⟩ → a = s)
    (h : c.computeStacksize P eff depths = .ok (n, c')) :
    ¬ Underflows P eff c (initialSize P c.attrs.flags) := by
  have hc := compute_closed (fun a b => a ≤ b) hno hre (fun _ => Int.le_refl _) (by
    intro hp X a s ha hs _
    rcases hver with hv | hv
    · rw [hv] at hp; cases hp
    · have := hv X a s ha hs
      omega) hloop h
  rintro ⟨x, e, y, hx, hex, hneg⟩
  rcases hc with ⟨hb, _⟩ | ⟨_, _, st, hcl, hen⟩
  · obtain ⟨b, hb', _⟩ := hx
    rw [hb] at hb'; cases hb'
  · obtain ⟨_, d, h2, h3, _⟩ := path_exec (env := ⟨P, eff, c⟩) (R := fun a b => a ≤ b) (m := n) hne
      (fun _ _ _ h => by omega) (fun _ _ _ h1 h2 => by omega) hcl hen hx hex
    omega

/-- The usual situation: all paths to a block enter it with the same depth. Then, on every version, success means that
no path underflows. -/
theorem C31_consistent_partial (P : Platform) (eff : Instr → Bool → Py (Int × Int)) (hre : ∀ i j, eff i j ≠ .error .runtimeError)
    (c c' : CFG) (depths : Bool) (n : Int) (hno : NoTry c)
    (hne : ∀ b k, (c.heap b).next = some k → (c.heap k).elems ≠ [] ∨ (c.heap k).next = none)
    (hcons : ∀ X a s, OnPath P eff c (initialSize P c.attrs.flags) ⟨X, some 0, a⟩ →
      OnPath P eff c (initialSize P c.attrs.flags) ⟨X, some 0, s⟩ → a = s)
    (h : c.computeStacksize P eff depths = .ok (n, c')) :
    ¬ Underflows P eff c (initialSize P c.attrs.flags) := by
  refine C31_partial P eff hre c c' depths n hno hne ?_ (.inr hcons) h
  rintro X a s ⟨b, hb, hst⟩ hl
  have := hcons X a s ⟨b, hb, hst⟩ ⟨b, hb, hst.trans hl⟩
  omega

/-- The effects of the library never raise RuntimeError. -/
theorem effOf_ne (P : Platform) (check : Bool) (e : PyErr) (he : e = .runtimeError ∨ e = .outOfFuel) (i : Instr) (j : Bool) :
    effOf P check i j ≠ .error e := by
  have h1 : ∀ a : Arg, effectInt a ≠ .error e := by
    intro a
    unfold effectInt
    repeat' split
    all_goals (intro h; rcases he with rfl | rfl <;> cases h)
  have h2 : i.effectArg P ≠ .error e := by
    unfold Instr.effectArg
    repeat' split
    all_goals (intro h; rcases he with rfl | rfl <;> cases h)
  have h3 : ∀ jj, i.stackEffect P jj ≠ .error e := by
    intro jj
    unfold Instr.stackEffect
    cases hx : i.effectArg P with
    | error e' =>
      intro h
      simp only [bind, Except.bind, Except.error.injEq] at h
      subst h
      exact h2 hx
    | ok a =>
      simp only [bind, Except.bind]
      split
      · intro h; cases h
      · intro h; rcases he with rfl | rfl <;> cases h
  unfold effOf
  split
  · unfold Instr.prePost
    cases hx : i.stackEffect P (some j) with
    | error e' =>
      intro h
      simp only [bind, Except.bind, Except.error.injEq] at h
      subst h
      exact h3 _ hx
    | ok eff =>
      simp only [bind, Except.bind]
      split
      · intro h; cases h
      · split
        · rename_i r hr
          intro h
          subst h
          unfold dynamicEffect at hr
          have hb : ∀ (f : Int → Int × Int), (do let a ← effectInt i.arg; return f a : Py (Int × Int)) ≠ .error e := by
            intro f h
            cases ha : effectInt i.arg with
            | error e' =>
              rw [ha] at h
              simp only [bind, Except.bind, Except.error.injEq] at h
              subst h
              exact h1 _ ha
            | ok a => rw [ha] at h; cases h
          split at hr
          all_goals try simp only [Option.some.injEq] at hr
          all_goals first
            | exact hb _ hr
            | cases hr
            | skip
          · split at hr
            · exact hb _ hr
            · cases hr
          · split at hr
            · cases hr
            · cases hr
        · intro h; cases h
  · cases hx : i.stackEffect P (some j) with
    | error e' =>
      intro h
      simp only [bind, Except.bind, Except.error.injEq] at h
      subst h
      exact h3 _ hx
    | ok eff => intro h; cases h

end Verif
