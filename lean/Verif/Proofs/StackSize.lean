import Verif.Model.StackSize
import Verif.Spec.StackPaths
import Verif.Proofs.Resolve
/-
Invariants of the stack size analysis on graphs without exception handlers.
-/
namespace Verif
open Spec

theorem Spec.Star.trans {α : Type} {R : α → α → Prop} {a b c : α} (h1 : Star R a b) (h2 : Star R b c) : Star R a c := by
  induction h2 with
  | refl => exact h1
  | tail _ hr ih => exact .tail ih hr

/-- Sizes with which a block was entered. -/
def Vis (st : SizeSt) (b : Nat) (s : Int) : Prop := ∃ h, (s, h) ∈ st.starts b

/-- Covered: entered with a related size. -/
def Cov (R : Int → Int → Prop) (st : SizeSt) (b : Nat) (s : Int) : Prop := ∃ s', Vis st b s' ∧ R s' s

/-- From a point of a block on: jumps and fall-through are covered, sizes are at most `m`, no underflow. -/
def closedFrom (env : SizeEnv) (C : Nat → Int → Prop) (m : Int) (next : Option Nat) : List BElem → Int → Prop
  | [], d => ∀ n, next = some n → (env.c.heap n).elems ≠ [] → C n d
  | .instr i :: r, d =>
    (env.P.hasJump i.opcode = true → ∀ t e, i.arg = .block t → env.eff i true = .ok e →
      0 ≤ d + e.1 ∧ d + e.1 + e.2 ≤ m ∧ C t (d + e.1 + e.2)) ∧
    ((env.P.hasJump i.opcode && isUncondJump i.name) = false → ∀ e, env.eff i false = .ok e →
      0 ≤ d + e.1 ∧ d + e.1 + e.2 ≤ m ∧ (isFinal i.name = false → closedFrom env C m next r (d + e.1 + e.2)))
  | _ :: r, d => closedFrom env C m next r d

theorem closedFrom_mono {env : SizeEnv} {C C' : Nat → Int → Prop} {m m' : Int} {next : Option Nat} {es : List BElem}
    (hC : ∀ b d, C b d → C' b d) (hm : m ≤ m') : ∀ {d : Int}, closedFrom env C m next es d → closedFrom env C' m' next es d := by
  induction es with
  | nil => intro d h n hn hne; exact hC _ _ (h n hn hne)
  | cons x r ih =>
    intro d h
    cases x with
    | instr i =>
      refine ⟨?_, ?_⟩
      · intro hj t e ht he
        obtain ⟨h1, h2, h3⟩ := h.1 hj t e ht he
        exact ⟨h1, by omega, hC _ _ h3⟩
      · intro hj e he
        obtain ⟨h1, h2, h3⟩ := h.2 hj e he
        exact ⟨h1, by omega, fun hf => ih (h3 hf)⟩
    | label l => exact ih h
    | setLineno n => exact ih h
    | tryBegin t => exact ih h
    | tryEnd t => exact ih h

/-- Depth reached by some path. -/
def Att (env : SizeEnv) (d0 m : Int) : Prop := ∃ x, OnPath env.P env.eff env.c d0 x ∧ x.depth = m

structure SPre (env : SizeEnv) (d0 : Int) (st : SizeSt) (x : Config) : Prop where
  reach : OnPath env.P env.eff env.c d0 x
  seen : ∀ Z ∈ st.seen, ∃ z, Vis st Z z ∧ OnPath env.P env.eff env.c d0 ⟨Z, some 0, z⟩ ∧ Star (Step env.P env.eff env.c) ⟨Z, some 0, z⟩ x
  vreach : ∀ Y t, Vis st Y t → OnPath env.P env.eff env.c d0 ⟨Y, some 0, t⟩

structure SPost (env : SizeEnv) (R : Int → Int → Prop) (d0 : Int) (st : SizeSt) (mx m : Int) (st' : SizeSt) : Prop where
  mono : ∀ Y t, Vis st Y t → Vis st' Y t
  vreach : ∀ Y t, Vis st' Y t → OnPath env.P env.eff env.c d0 ⟨Y, some 0, t⟩
  le : mx ≤ m
  closed : ∀ Y t, Vis st' Y t → Vis st Y t ∨ closedFrom env (Cov R st') m (env.c.heap Y).next (env.c.heap Y).elems t
  att : m = mx ∨ Att env d0 m
  exc : st'.excMax = st.excMax

theorem SPost.refl {env : SizeEnv} {R : Int → Int → Prop} {d0 : Int} {st : SizeSt} {mx : Int}
    (h : ∀ Y t, Vis st Y t → OnPath env.P env.eff env.c d0 ⟨Y, some 0, t⟩) : SPost env R d0 st mx mx st :=
  ⟨fun _ _ h => h, h, Int.le_refl _, fun _ _ h => .inl h, .inl rfl, rfl⟩

theorem Cov.mono {R : Int → Int → Prop} {st st' : SizeSt} (h : ∀ Y t, Vis st Y t → Vis st' Y t) {b : Nat} {s : Int}
    (hc : Cov R st b s) : Cov R st' b s := by
  obtain ⟨s', h1, h2⟩ := hc
  exact ⟨s', h _ _ h1, h2⟩

theorem SPost.trans {env : SizeEnv} {R : Int → Int → Prop} {d0 : Int} {st st1 st2 : SizeSt} {mx m1 m2 mx2 : Int}
    (h1 : SPost env R d0 st mx m1 st1) (h2 : SPost env R d0 st1 mx2 m2 st2) (hle : m1 ≤ mx2)
    (hatt : mx2 = mx ∨ Att env d0 mx2) : SPost env R d0 st mx m2 st2 := by
  refine ⟨fun Y t h => h2.mono _ _ (h1.mono _ _ h), h2.vreach, by have := h1.le; have := h2.le; omega, ?_, ?_,
    h2.exc.trans h1.exc⟩
  · intro Y t hv
    rcases h2.closed Y t hv with h | h
    · rcases h1.closed Y t h with h | h
      · exact .inl h
      · exact .inr (closedFrom_mono (fun b d hc => hc.mono h2.mono) (by have := h2.le; omega) h)
    · exact .inr h
  · rcases h2.att with h | h
    · rw [h]; exact hatt
    · exact .inr h

/-- Result of an analysis started at `x` with maximum `mx`. -/
def SGood (env : SizeEnv) (R : Int → Int → Prop) (d0 : Int) (st : SizeSt) (mx : Int) (seen : List Nat) (Q : Int → SizeSt → Prop) :
    Py (Int × SizeSt) → Prop
  | .ok (m, st') => SPost env R d0 st mx m st' ∧ st'.seen = seen ∧ Q m st'
  | .error e => e = .runtimeError → Underflows env.P env.eff env.c d0

/-- What is assumed of the recursive analysis. -/
def RecOK (env : SizeEnv) (R : Int → Int → Prop) (d0 : Int) (rec : Visit) : Prop :=
  ∀ X s mx mn st, SPre env d0 st ⟨X, some 0, s⟩ →
    SGood env R d0 st mx st.seen (fun _ st' => Cov R st' X s) (rec X s mx mn none none st)

theorem SizeLoc.update_ok {s s' : SizeLoc} {e : Int × Int} (h : s.update e = .ok s') :
    0 ≤ s.size + e.1 ∧ s'.size = s.size + e.1 + e.2 ∧ s'.max = Max.max s.max s'.size ∧ s'.cur = s.cur := by
  unfold SizeLoc.update at h
  split at h
  · cases h
  · simp only [Except.ok.injEq] at h
    subst h
    exact ⟨by omega, rfl, rfl, rfl⟩

theorem SizeLoc.update_err {s : SizeLoc} {e : Int × Int} {x : PyErr} (h : s.update e = .error x) : s.size + e.1 < 0 := by
  unfold SizeLoc.update at h
  split at h
  · assumption
  · cases h

theorem SPre.step {env : SizeEnv} {d0 : Int} {st : SizeSt} {x y : Config} (h : SPre env d0 st x)
    (hs : Step env.P env.eff env.c x y) : SPre env d0 st y := by
  obtain ⟨b, hb, hst⟩ := h.reach
  refine ⟨⟨b, hb, .tail hst hs⟩, ?_, h.vreach⟩
  intro Z hZ
  obtain ⟨z, h1, h2, h3⟩ := h.seen Z hZ
  exact ⟨z, h1, h2, .tail h3 hs⟩

/-- The precondition after a nested analysis. -/
theorem SPre.after {env : SizeEnv} {R : Int → Int → Prop} {d0 : Int} {st st' : SizeSt} {x : Config} {mx m : Int}
    (h : SPre env d0 st x) (hp : SPost env R d0 st mx m st') (hs : st'.seen = st.seen) : SPre env d0 st' x := by
  refine ⟨h.reach, ?_, hp.vreach⟩
  intro Z hZ
  rw [hs] at hZ
  obtain ⟨z, h1, h2, h3⟩ := h.seen Z hZ
  exact ⟨z, hp.mono _ _ h1, h2, h3⟩

theorem findTry_none {c : CFG} (h : NoTry c) (id : Nat) : c.findTry id = none := by
  unfold CFG.findTry
  rw [List.findSome?_eq_none_iff]
  intro x hx
  rw [List.mem_flatMap] at hx
  obtain ⟨b, _, hb⟩ := hx
  cases x with
  | tryBegin t => exact absurd hb (h b t)
  | _ => rfl

theorem SGood.leave {env : SizeEnv} {R : Int → Int → Prop} {d0 : Int} {st st' : SizeSt} {mx m : Int} {b : Nat} {s : SizeLoc}
    {seen : List Nat} {Q : Int → SizeSt → Prop} (hp : SPost env R d0 st mx m st') (hm : s.max = m)
    (hseen : st'.seen.erase b = seen) (hQ : Q m { st' with seen := st'.seen.erase b }) :
    SGood env R d0 st mx seen Q (leaveBlock b s st') := by
  subst hm
  exact ⟨⟨hp.mono, hp.vreach, hp.le, hp.closed, hp.att, hp.exc⟩, hseen, hQ⟩

theorem SGood.imp {env : SizeEnv} {R : Int → Int → Prop} {d0 : Int} {st : SizeSt} {mx : Int} {seen : List Nat}
    {Q Q' : Int → SizeSt → Prop} {r : Py (Int × SizeSt)} (hg : SGood env R d0 st mx seen Q r)
    (h : ∀ m st', Q m st' → Q' m st') : SGood env R d0 st mx seen Q' r := by
  cases r with
  | error e => exact hg
  | ok p => exact ⟨hg.1, hg.2.1, h _ _ hg.2.2⟩

theorem runElems_good {env : SizeEnv} {R : Int → Int → Prop} {d0 : Int} {rec : Visit} (hrec : RecOK env R d0 rec)
    (hno : NoTry env.c) (hre : ∀ i j, env.eff i j ≠ .error .runtimeError) (b : Nat) :
    ∀ (es pre : List BElem) (s : SizeLoc) (st : SizeSt), (env.c.heap b).elems = pre ++ es → s.cur = none →
    SPre env d0 st ⟨b, some pre.length, s.size⟩ →
    SGood env R d0 st s.max (st.seen.erase b)
      (fun m st' => closedFrom env (Cov R st') m (env.c.heap b).next es s.size) (runElems env rec b es s st) := by
  intro es
  induction es with
  | nil =>
    intro pre s st hel hcur hpre
    unfold runElems runEnd
    have hlen : pre.length = (env.c.heap b).elems.length := by rw [hel]; simp
    cases hn : (env.c.heap b).next with
    | none =>
      exact SGood.leave (SPost.refl hpre.vreach) rfl rfl (by intro n hn _; cases hn)
    | some n =>
      by_cases hempty : (env.c.heap n).elems.isEmpty = true
      · simp only [hempty, if_true]
        refine SGood.leave (SPost.refl hpre.vreach) rfl rfl ?_
        intro n' hn' hne
        simp only [Option.some.injEq] at hn'
        subst hn'
        exact absurd (List.isEmpty_iff.1 hempty) hne
      simp only [hempty, Bool.false_eq_true, if_false, hcur]
      have hstep : Step env.P env.eff env.c ⟨b, some pre.length, s.size⟩ ⟨n, some 0, s.size⟩ := by
        rw [hlen]; exact .inr (.next hn)
      have hr := hrec n s.size s.max s.min st (hpre.step hstep)
      cases hx : rec n s.size s.max s.min none none st with
      | error e =>
        rw [hx] at hr
        exact hr
      | ok p =>
        obtain ⟨m, st'⟩ := p
        rw [hx] at hr
        obtain ⟨h1, h2, h3⟩ := hr
        refine SGood.leave (m := m) h1 rfl (by rw [h2]) ?_
        intro n' hn' _
        simp only [Option.some.injEq] at hn'
        subst hn'
        exact h3
  | cons x r ih =>
    intro pre s st hel hcur hpre
    have hx : (env.c.heap b).elems[pre.length]? = some x := by
      rw [hel, List.getElem?_append_right (Nat.le_refl _)]; simp
    have hel' : (env.c.heap b).elems = (pre ++ [x]) ++ r := by simp [hel]
    have hlen' : (pre ++ [x]).length = pre.length + 1 := by simp
    unfold runElems
    cases hck : blkCheck env.P x r with
    | error e =>
      simp only [bind, Except.bind]
      intro he
      subst he
      unfold blkCheck at hck
      repeat' split at hck
      all_goals cases hck
    | ok u =>
      simp only [bind, Except.bind]
      cases x with
      | label l => intro he; cases he
      | tryBegin t => exact absurd (by rw [hel]; simp) (hno b t)
      | setLineno n =>
        have hstep : Step env.P env.eff env.c ⟨b, some pre.length, s.size⟩ ⟨b, some (pre ++ [BElem.setLineno n]).length, s.size⟩ := by
          rw [hlen']; exact .inr (.skip hx rfl)
        exact ih _ s st hel' hcur (hpre.step hstep)
      | tryEnd t =>
        have hstep : Step env.P env.eff env.c ⟨b, some pre.length, s.size⟩ ⟨b, some (pre ++ [BElem.tryEnd t]).length, s.size⟩ := by
          rw [hlen']; exact .inr (.skip hx rfl)
        simp only [hcur]
        exact ih _ s st hel' hcur (hpre.step hstep)
      | instr i =>
        simp only
        -- the part for the jump not taken, from any intermediate state
        have hfall : ∀ (s1 : SizeLoc) (st1 : SizeSt), SPost env R d0 st s.max s1.max st1 → st1.seen = st.seen → s1.size = s.size →
            s1.cur = none →
            (env.P.hasJump i.opcode && isUncondJump i.name) = false →
            SGood env R d0 st s.max (st.seen.erase b) (fun m st' => (∀ Y t, Cov R st1 Y t → Cov R st' Y t) ∧ s1.max ≤ m ∧
              ∀ e, env.eff i false = .ok e → 0 ≤ s.size + e.1 ∧ s.size + e.1 + e.2 ≤ m ∧
                (isFinal i.name = false → closedFrom env (Cov R st') m (env.c.heap b).next r (s.size + e.1 + e.2)))
              (do
                let e ← env.eff i false
                let s ← s1.update e
                if isFinal i.name then do
                  let st ← finalTryEnd env rec s r st1
                  leaveBlock b s st
                else runElems env rec b r s st1) := by
          intro s1 st1 hp hseen hsize hcur1 hnu
          cases he : env.eff i false with
          | error e =>
            intro hr
            subst hr
            exact absurd he (hre i false)
          | ok e =>
            simp only [bind, Except.bind]
            have hpre1 := hpre.after hp hseen
            cases hu : s1.update e with
            | error e' =>
              intro _
              have := SizeLoc.update_err hu
              rw [hsize] at this
              by_cases hf : isFinal i.name = true
              · exact ⟨_, e, _, hpre.reach, .stop hx hf hnu he, this⟩
              · exact ⟨_, e, _, hpre.reach, .go hx (by simpa using hf) he, this⟩
            | ok s2 =>
              obtain ⟨u1, u2, u3, u4⟩ := SizeLoc.update_ok hu
              rw [hsize] at u1 u2
              simp only
              by_cases hf : isFinal i.name = true
              · rw [if_pos hf]
                unfold finalTryEnd
                have hstep : Step env.P env.eff env.c ⟨b, some pre.length, s.size⟩ ⟨b, none, s.size + e.1 + e.2⟩ :=
                  .inl ⟨_, .stop hx hf hnu he⟩
                cases htr : trailingTryEnd r with
                | some id =>
                  simp only [findTry_none hno]
                  intro h; cases h
                | none =>
                  simp only
                  have hp2 : SPost env R d0 st s.max s2.max st1 := by
                    refine hp.trans (SPost.refl hpre1.vreach) (by omega) ?_
                    rw [u3]
                    by_cases hle : s2.size ≤ s1.max
                    · rw [Int.max_eq_left hle]; exact hp.att
                    · rw [Int.max_eq_right (by omega)]
                      exact .inr ⟨_, (hpre.step hstep).reach, u2.symm⟩
                  refine SGood.leave hp2 rfl (by rw [hseen]) ⟨fun Y t h => h, by omega, ?_⟩
                  intro e2 he2
                  simp only [Except.ok.injEq] at he2
                  subst he2
                  refine ⟨u1, by rw [← u2, u3]; exact Int.le_max_right _ _, fun h => by rw [hf] at h; cases h⟩
              · have hf' : isFinal i.name = false := by simpa using hf
                rw [if_neg hf]
                have hstep : Step env.P env.eff env.c ⟨b, some pre.length, s.size⟩ ⟨b, some (pre ++ [BElem.instr i]).length, s.size + e.1 + e.2⟩ := by
                  rw [hlen']; exact .inl ⟨_, .go hx hf' he⟩
                have hg := ih (pre ++ [.instr i]) s2 st1 hel' (by rw [u4, hcur1]) (by rw [u2]; exact hpre1.step hstep)
                cases hres : runElems env rec b r s2 st1 with
                | error e' => rw [hres] at hg; exact hg
                | ok p =>
                  obtain ⟨m, st'⟩ := p
                  rw [hres] at hg
                  obtain ⟨g1, g2, g3⟩ := hg
                  refine ⟨hp.trans g1 (by omega) ?_, by rw [g2, hseen], ?_⟩
                  · rw [u3]
                    by_cases hle : s2.size ≤ s1.max
                    · rw [Int.max_eq_left hle]; exact hp.att
                    · rw [Int.max_eq_right (by omega)]
                      exact .inr ⟨_, (hpre.step hstep).reach, u2.symm⟩
                  · have := g1.le
                    refine ⟨fun Y t h => h.mono g1.mono, by omega, ?_⟩
                    intro e2 he2
                    simp only [Except.ok.injEq] at he2
                    subst he2
                    refine ⟨u1, by omega, fun _ => ?_⟩
                    rw [u2] at g3
                    exact g3
        by_cases hj : env.P.hasJump i.opcode = true
        · rw [if_pos hj]
          unfold jumpTaken
          cases he : env.eff i true with
          | error e =>
            intro hr
            subst hr
            exact absurd he (hre i true)
          | ok e =>
            simp only [bind, Except.bind]
            cases hu : s.update e with
            | error e' =>
              intro hr
              have hneg := SizeLoc.update_err hu
              unfold blkCheck at hck
              simp only [hj, if_true] at hck
              split at hck
              · cases hck
              · split at hck
                · cases hck
                · rename_i hblk
                  unfold Arg.asBlock at hblk
                  split at hblk
                  · rename_i t ht
                    exact ⟨_, e, _, hpre.reach, .jump hx hj ht he, hneg⟩
                  · simp at hblk
            | ok tk =>
              obtain ⟨u1, u2, u3, u4⟩ := SizeLoc.update_ok hu
              simp only
              cases ht : i.arg.asBlock with
              | none => intro h; cases h
              | some t =>
                have harg : i.arg = .block t := by
                  unfold Arg.asBlock at ht
                  split at ht
                  · rename_i h2
                    simp only [Option.some.injEq] at ht
                    rw [h2, ht]
                  · cases ht
                simp only [hcur, ite_self]
                have hstep : Step env.P env.eff env.c ⟨b, some pre.length, s.size⟩ ⟨t, some 0, s.size + e.1 + e.2⟩ :=
                  .inl ⟨_, .jump hx hj harg he⟩
                have hpret := hpre.step hstep
                have hr := hrec t tk.size tk.max tk.min st (by rw [u2]; exact hpret)
                cases hres : rec t tk.size tk.max tk.min none none st with
                | error e' =>
                  rw [hres] at hr
                  exact hr
                | ok p =>
                  obtain ⟨m, st1⟩ := p
                  rw [hres] at hr
                  obtain ⟨h1, h2, h3⟩ := hr
                  simp only [pure, Except.pure]
                  have hmle := h1.le
                  have hmax : Max.max s.max m = m := Int.max_eq_right (by omega)
                  rw [hmax]
                  have hp : SPost env R d0 st s.max m st1 := by
                    refine ⟨h1.mono, h1.vreach, by omega, h1.closed, ?_, h1.exc⟩
                    rcases h1.att with ha | ha
                    · rw [ha, u3]
                      by_cases hle : tk.size ≤ s.max
                      · rw [Int.max_eq_left hle]; exact .inl rfl
                      · rw [Int.max_eq_right (by omega)]
                        exact .inr ⟨_, hpret.reach, u2.symm⟩
                    · exact .inr ha
                  have hjump : ∀ t' e', i.arg = .block t' → env.eff i true = .ok e' →
                      0 ≤ s.size + e'.1 ∧ s.size + e'.1 + e'.2 ≤ m ∧ Cov R st1 t' (s.size + e'.1 + e'.2) := by
                    intro t' e' ht' he'
                    rw [harg] at ht'
                    rw [he] at he'
                    simp only [Arg.block.injEq, Except.ok.injEq] at ht' he'
                    subst ht' he'
                    rw [u2] at h3
                    exact ⟨u1, by omega, h3⟩
                  by_cases hun : isUncondJump i.name = true
                  · rw [if_pos hun]
                    have : uncondTryEnd env rec { s with max := m, cur := none } r st1 = .ok st1 := by
                      unfold uncondTryEnd
                      cases trailingTryEnd r <;> rfl
                    rw [this]
                    refine SGood.leave hp rfl (by rw [h2]) ⟨?_, ?_⟩
                    · intro _ t' e' ht' he'
                      exact hjump t' e' ht' he'
                    · intro hc
                      rw [hj, hun] at hc
                      cases hc
                  · rw [if_neg hun]
                    have hun' : isUncondJump i.name = false := by simpa using hun
                    have hg := hfall { s with max := m, cur := none } st1 hp h2 rfl rfl (by simp [hun'])
                    refine hg.imp ?_
                    intro m' st' hQ
                    refine ⟨?_, ?_⟩
                    · intro _ t' e' ht' he'
                      obtain ⟨q1, q2, q3⟩ := hjump t' e' ht' he'
                      have := hQ.2.1
                      simp only at this
                      exact ⟨q1, by omega, hQ.1 _ _ q3⟩
                    · intro _ e' he'
                      exact hQ.2.2 e' he'
        · rw [if_neg hj]
          have hj' : env.P.hasJump i.opcode = false := by simpa using hj
          have hg := hfall s st (SPost.refl hpre.vreach) rfl rfl hcur (by simp [hj'])
          refine hg.imp ?_
          intro m' st' hQ
          refine ⟨?_, ?_⟩
          · intro h; exact absurd h hj
          · intro _ e' he'
            exact hQ.2.2 e' he'

/-- Sizes recorded by entering a block. -/
theorem Vis_upd {st : SizeSt} {b : Nat} {s : Int} {h : Option Bool} {seen : List Nat} {Y : Nat} {t : Int} :
    Vis { st with seen := seen, starts := upd st.starts b ((s, h) :: st.starts b) } Y t ↔ (Y = b ∧ t = s) ∨ Vis st Y t := by
  unfold Vis
  simp only [upd]
  by_cases hY : Y = b
  · subst hY
    simp only [if_true, true_and]
    constructor
    · rintro ⟨h', hm⟩
      rcases List.mem_cons.1 hm with hm | hm
      · simp only [Prod.mk.injEq] at hm
        exact .inl hm.1
      · exact .inr ⟨h', hm⟩
    · rintro (rfl | ⟨h', hm⟩)
      · exact ⟨h, by simp⟩
      · exact ⟨h', by simp [hm]⟩
  · simp only [hY, if_false, false_and, false_or]

/-- The analysis of a block, on graphs without handlers. -/
theorem visit_good {env : SizeEnv} {R : Int → Int → Prop} {d0 : Int}
    (hno : NoTry env.c) (hre : ∀ i j, env.eff i j ≠ .error .runtimeError)
    (hrefl : ∀ a, R a a)
    (hskip : env.P.py311 = false → ∀ X a s, OnPath env.P env.eff env.c d0 ⟨X, some 0, a⟩ →
      OnPath env.P env.eff env.c d0 ⟨X, some 0, s⟩ → s ≤ a → R a s)
    (hcut : ∀ X a s, OnPath env.P env.eff env.c d0 ⟨X, some 0, a⟩ →
      Star (Step env.P env.eff env.c) ⟨X, some 0, a⟩ ⟨X, some 0, s⟩ → R a s) :
    ∀ fuel, RecOK env R d0 (visit env fuel) := by
  intro fuel
  induction fuel with
  | zero =>
    intro X s mx mn st hpre h
    cases h
  | succ fuel ih =>
    intro X s mx mn st hpre
    unfold visit
    by_cases h1 : X ∈ st.seen
    · rw [if_pos h1]
      obtain ⟨z, z1, z2, z3⟩ := hpre.seen X h1
      exact ⟨SPost.refl hpre.vreach, rfl, z, z1, hcut X z s z2 z3⟩
    · rw [if_neg h1]
      by_cases h2 : X ∉ env.c.blocks
      · rw [if_pos h2]; intro h; cases h
      · rw [if_neg h2]
        by_cases h3 : relevantSize env.P (st.starts X) (s, none) = true
        · simp only [h3, Bool.not_true, Bool.false_eq_true, if_false, enterHandler, bind, Except.bind]
          have hpre1 : SPre env d0 { st with seen := X :: st.seen, starts := upd st.starts X ((s, none) :: st.starts X) }
              ⟨X, some ([] : List BElem).length, s⟩ := by
            refine ⟨hpre.reach, ?_, ?_⟩
            · intro Z hZ
              rcases List.mem_cons.1 hZ with hZ | hZ
              · subst hZ
                exact ⟨s, Vis_upd.2 (.inl ⟨rfl, rfl⟩), hpre.reach, .refl _⟩
              · obtain ⟨z, z1, z2, z3⟩ := hpre.seen Z hZ
                exact ⟨z, Vis_upd.2 (.inr z1), z2, z3⟩
            · intro Y t hv
              rcases Vis_upd.1 hv with ⟨rfl, rfl⟩ | hv
              · exact hpre.reach
              · exact hpre.vreach Y t hv
          have hg := runElems_good ih hno hre X (env.c.heap X).elems [] ⟨s, mx, mn, none⟩ _ rfl rfl hpre1
          cases hres : runElems env (visit env fuel) X (env.c.heap X).elems ⟨s, mx, mn, none⟩
            { st with seen := X :: st.seen, starts := upd st.starts X ((s, none) :: st.starts X) } with
          | error e => rw [hres] at hg; exact hg
          | ok p =>
            obtain ⟨m, st'⟩ := p
            rw [hres] at hg
            obtain ⟨g1, g2, g3⟩ := hg
            refine ⟨⟨?_, g1.vreach, g1.le, ?_, g1.att, g1.exc⟩, by simp [g2], s, ?_, hrefl s⟩
            · intro Y t hv
              exact g1.mono Y t (Vis_upd.2 (.inr hv))
            · intro Y t hv
              rcases g1.closed Y t hv with h | h
              · rcases Vis_upd.1 h with ⟨rfl, rfl⟩ | h
                · exact .inr g3
                · exact .inl h
              · exact .inr h
            · exact g1.mono X s (Vis_upd.2 (.inl ⟨rfl, rfl⟩))
        · simp only [h3, Bool.not_false, if_true]
          refine ⟨SPost.refl hpre.vreach, rfl, ?_⟩
          unfold relevantSize at h3
          by_cases hp : env.P.py311 = true
          · rw [if_pos hp] at h3
            simp only [decide_eq_true_eq, Classical.not_not] at h3
            exact ⟨s, ⟨_, h3⟩, hrefl s⟩
          · rw [if_neg hp] at h3
            simp only [List.all_eq_true, decide_eq_true_eq, Classical.not_forall] at h3
            obtain ⟨⟨g, h⟩, hm, hlt⟩ := h3
            have hv : Vis st X g := ⟨h, hm⟩
            exact ⟨g, hv, hskip (by simpa using hp) X g s (hpre.vreach X g hv) hpre.reach (by simp only at hlt; omega)⟩

theorem drop_cons_of_getElem? {α : Type} {l : List α} {i : Nat} {x : α} (h : l[i]? = some x) :
    l.drop i = x :: l.drop (i + 1) := by
  obtain ⟨hi, hx⟩ := List.getElem?_eq_some_iff.1 h
  rw [List.drop_eq_getElem_cons hi, hx]

/-- The invariant of paths, once every block entered is closed. -/
theorem path_closed {env : SizeEnv} {R : Int → Int → Prop} {d0 m : Int} {st : SizeSt}
    (hne : ∀ b n, (env.c.heap b).next = some n → (env.c.heap n).elems ≠ [] ∨ (env.c.heap n).next = none)
    (hshift : ∀ a b k, R a b → R (a + k) (b + k)) (htrans : ∀ a b c, R a b → R b c → R a c)
    (hclosed : ∀ Y t, Vis st Y t → closedFrom env (Cov R st) m (env.c.heap Y).next (env.c.heap Y).elems t)
    (hentry : ∀ b, env.c.blocks.head? = some b → Cov R st b d0) {x : Config} (hx : OnPath env.P env.eff env.c d0 x) :
    (∀ i, x.pos = some i → ∃ d, R d x.depth ∧ closedFrom env (Cov R st) m (env.c.heap x.blk).next ((env.c.heap x.blk).elems.drop i) d) := by
  obtain ⟨b, hb, hst⟩ := hx
  induction hst with
  | refl =>
    intro i hi
    simp only [Option.some.injEq] at hi
    subst hi
    obtain ⟨s, h1, h2⟩ := hentry b hb
    exact ⟨s, h2, by simpa using hclosed b s h1⟩
  | tail hpre hstep ih =>
    rcases hstep with ⟨e, hex⟩ | hmv
    · cases hex with
      | @go b' i d ins e hel hf he =>
        intro j hj
        simp only [Option.some.injEq] at hj
        subst hj
        obtain ⟨d', hR, hcl⟩ := ih i rfl
        rw [drop_cons_of_getElem? hel] at hcl
        have hnu : (env.P.hasJump ins.opcode && isUncondJump ins.name) = false := by
          have : isUncondJump ins.name = false := by
            unfold isFinal at hf
            simp only [Bool.or_eq_false_iff] at hf
            exact hf.2
          simp [this]
        obtain ⟨_, _, h3⟩ := hcl.2 hnu e he
        refine ⟨d' + e.1 + e.2, ?_, h3 hf⟩
        have := hshift _ _ (e.1 + e.2) hR
        simpa [Int.add_assoc] using this
      | @jump b' i d ins e t hel hj ht he =>
        intro j hj'
        simp only [Option.some.injEq] at hj'
        subst hj'
        obtain ⟨d', hR, hcl⟩ := ih i rfl
        rw [drop_cons_of_getElem? hel] at hcl
        obtain ⟨_, _, s, h1, h2⟩ := hcl.1 hj t e ht he
        refine ⟨s, htrans _ _ _ h2 ?_, by simpa using hclosed t s h1⟩
        have := hshift _ _ (e.1 + e.2) hR
        simpa [Int.add_assoc] using this
      | stop _ _ _ _ => intro j hj; cases hj
    · cases hmv with
      | @skip b' i d x hel hni =>
        intro j hj
        simp only [Option.some.injEq] at hj
        subst hj
        obtain ⟨d', hR, hcl⟩ := ih i rfl
        rw [drop_cons_of_getElem? hel] at hcl
        refine ⟨d', hR, ?_⟩
        cases x with
        | instr i => cases hni
        | _ => exact hcl
      | @next b' d n hn =>
        intro j hj
        simp only [Option.some.injEq] at hj
        subst hj
        obtain ⟨d', hR, hcl⟩ := ih _ rfl
        rw [List.drop_eq_nil_of_le (Nat.le_refl _)] at hcl
        by_cases hnn : (env.c.heap n).elems = []
        · refine ⟨d', hR, ?_⟩
          rcases hne _ _ hn with h | h
          · exact absurd hnn h
          · rw [hnn]
            intro k hk
            rw [h] at hk; cases hk
        · obtain ⟨s, h1, h2⟩ := hcl n hn hnn
          exact ⟨s, htrans _ _ _ h2 hR, by simpa using hclosed n s h1⟩

/-- What one executed instruction on a path satisfies. -/
theorem path_exec {env : SizeEnv} {R : Int → Int → Prop} {d0 m : Int} {st : SizeSt}
    (hne : ∀ b n, (env.c.heap b).next = some n → (env.c.heap n).elems ≠ [] ∨ (env.c.heap n).next = none)
    (hshift : ∀ a b k, R a b → R (a + k) (b + k)) (htrans : ∀ a b c, R a b → R b c → R a c)
    (hclosed : ∀ Y t, Vis st Y t → closedFrom env (Cov R st) m (env.c.heap Y).next (env.c.heap Y).elems t)
    (hentry : ∀ b, env.c.blocks.head? = some b → Cov R st b d0) {x y : Config} {e : Int × Int}
    (hx : OnPath env.P env.eff env.c d0 x) (he : Exec env.P env.eff env.c x e y) :
    y.depth = x.depth + e.1 + e.2 ∧ ∃ d, R d x.depth ∧ 0 ≤ d + e.1 ∧ d + e.1 + e.2 ≤ m := by
  have hcl := path_closed hne hshift htrans hclosed hentry hx
  cases he with
  | @go b' i d ins e hel hf he =>
    obtain ⟨d', hR, hcl⟩ := hcl i rfl
    rw [drop_cons_of_getElem? hel] at hcl
    have hnu : (env.P.hasJump ins.opcode && isUncondJump ins.name) = false := by
      have : isUncondJump ins.name = false := by
        unfold isFinal at hf
        simp only [Bool.or_eq_false_iff] at hf
        exact hf.2
      simp [this]
    obtain ⟨h1, h2, _⟩ := hcl.2 hnu e he
    exact ⟨rfl, d', hR, h1, h2⟩
  | @jump b' i d ins e t hel hj ht he =>
    obtain ⟨d', hR, hcl⟩ := hcl i rfl
    rw [drop_cons_of_getElem? hel] at hcl
    obtain ⟨h1, h2, _⟩ := hcl.1 hj t e ht he
    exact ⟨rfl, d', hR, h1, h2⟩
  | @stop b' i d ins e hel hf hnu he =>
    obtain ⟨d', hR, hcl⟩ := hcl i rfl
    rw [drop_cons_of_getElem? hel] at hcl
    obtain ⟨h1, h2, _⟩ := hcl.2 hnu e he
    exact ⟨rfl, d', hR, h1, h2⟩

/-- Moving a configuration up or down. -/
def Spec.Config.shift (x : Config) (k : Int) : Config := ⟨x.blk, x.pos, x.depth + k⟩

theorem Step.shift {P : Platform} {eff : Instr → Bool → Py (Int × Int)} {c : CFG} {x y : Config} (h : Step P eff c x y) (k : Int) :
    Step P eff c (x.shift k) (y.shift k) := by
  rcases h with ⟨e, h⟩ | h
  · left
    refine ⟨e, ?_⟩
    have e2 : ∀ d : Int, d + e.1 + e.2 + k = d + k + e.1 + e.2 := by intro d; omega
    cases h with
    | go h1 h2 h3 =>
      simp only [Spec.Config.shift, e2]
      exact .go h1 h2 h3
    | jump h1 h2 h3 h4 =>
      simp only [Spec.Config.shift, e2]
      exact .jump h1 h2 h3 h4
    | stop h1 h2 h3 h4 =>
      simp only [Spec.Config.shift, e2]
      exact .stop h1 h2 h3 h4
  · right
    cases h with
    | skip h1 h2 => exact .skip h1 h2
    | next h => exact .next h

theorem Star.shift {P : Platform} {eff : Instr → Bool → Py (Int × Int)} {c : CFG} {x y : Config} (h : Star (Step P eff c) x y)
    (k : Int) : Star (Step P eff c) (x.shift k) (y.shift k) := by
  induction h with
  | refl => exact .refl _
  | tail _ hs ih => exact .tail ih (Step.shift hs k)

/-- A loop that grows the stack can be repeated. -/
theorem loop_unbounded {P : Platform} {eff : Instr → Bool → Py (Int × Int)} {c : CFG} {d0 a k : Int} {X : Nat}
    (hr : OnPath P eff c d0 ⟨X, some 0, a⟩) (hl : Star (Step P eff c) ⟨X, some 0, a⟩ ⟨X, some 0, a + k⟩) (n : Nat) :
    OnPath P eff c d0 ⟨X, some 0, a + n * k⟩ := by
  induction n with
  | zero => simpa using hr
  | succ n ih =>
    obtain ⟨b, hb, hst⟩ := ih
    refine ⟨b, hb, hst.trans ?_⟩
    have := Star.shift hl (n * k)
    simp only [Spec.Config.shift] at this
    have e1 : a + k + n * k = a + (n + 1 : Nat) * k := by
      rw [Int.natCast_add, Int.add_mul]; simp; omega
    rw [e1] at this
    exact this

end Verif
