import Verif.Proofs.StackSize
import Verif.Proofs.Encode
import Verif.Spec.StackMap
/-
The stack size analysis on graphs with a stack map (3.11 and later).
Every analysis of a block has an offset `k ≥ 0`: what it believes to be on the stack in excess of the map. The ones with
offset 0 are the real ones; those with a positive offset come from regions whose end was met before their smallest depth.
Offsets never decrease from an analysis to the nested ones.
-/
namespace Verif
open Spec

theorem nextEnd_eq (l : List BElem) : trailingTryEnd l = nextEnd l := by
  unfold trailingTryEnd
  induction l with
  | nil => rfl
  | cons x r ih => cases x <;> simp [nextEnd, ih]

/-- Objects pushed when a handler is entered. -/
def pushed : Option Bool → Int
  | none => 0
  | some l => 1 + (if l then 1 else 0)

/-- The block was entered with the depth of the map. -/
def Real (M : StackMap) (st : SizeSt) (b : Nat) : Prop :=
  ∃ s h d r, (s, h) ∈ st.starts b ∧ M.entry b = some (d, r) ∧ s + pushed h = d

/-- The handler was analysed with the depth of the map. -/
def Locked (M : StackMap) (st : SizeSt) (τ : Nat) : Prop := st.excStart τ = M.base τ

/-- What an offset-0 analysis establishes about the rest of a block. -/
def closedM (env : SizeEnv) (M : StackMap) (N : Int) (st : SizeSt) (next : Option Nat) : List BElem → Int → InTry → Prop
  | [], _, _ => ∀ n, next = some n → (env.c.heap n).elems ≠ [] → Real M st n
  | .instr i :: l, d, r =>
    (env.P.hasJump i.opcode = true → ∀ t e, i.arg = .block t → env.eff i true = .ok e →
      0 ≤ d + e.1 ∧ d + e.1 + e.2 ≤ N ∧ Real M st t ∧
      (isUncondJump i.name = true → ∀ u, r = some (u, true) → nextEnd l = some u.id → Locked M st u.target)) ∧
    ((env.P.hasJump i.opcode && isUncondJump i.name) = false → ∀ e, env.eff i false = .ok e →
      0 ≤ d + e.1 ∧ d + e.1 + e.2 ≤ N ∧
      (isFinal i.name = true → ∀ u, M.touch (d + e.1 + e.2) r = some (u, true) → nextEnd l = some u.id → Locked M st u.target) ∧
      (isFinal i.name = false → closedM env M N st next l (d + e.1 + e.2) (M.touch (d + e.1 + e.2) r)))
  | .tryBegin t :: l, d, _ => t ∈ st.tries ∧ closedM env M N st next l d (some (t, decide (d = M.base t.target)))
  | .tryEnd id :: l, d, r =>
    (∀ u, r = some (u, true) → u.id = id → Locked M st u.target) ∧ closedM env M N st next l d (closeTry r id)
  | _ :: l, d, r => closedM env M N st next l d r

/-- The TryBegin of the region has been met. -/
def Known (st : SizeSt) (r : InTry) : Prop := ∀ u f, r = some (u, f) → u ∈ st.tries

/-- The whole block. -/
def ClosedM (env : SizeEnv) (M : StackMap) (N : Int) (st : SizeSt) (b : Nat) : Prop :=
  ∃ d r, M.entry b = some (d, r) ∧ d ≤ N ∧ Known st r ∧ closedM env M N st (env.c.heap b).next (env.c.heap b).elems d r

/-- Later states know at least as much. -/
structure MMono (M : StackMap) (st st' : SizeSt) : Prop where
  starts : ∀ Y f, f ∈ st.starts Y → f ∈ st'.starts Y
  tries : ∀ t, t ∈ st.tries → t ∈ st'.tries
  lock : ∀ τ, Locked M st τ → Locked M st' τ

theorem MMono.refl (M : StackMap) (st : SizeSt) : MMono M st st := ⟨fun _ _ h => h, fun _ h => h, fun _ h => h⟩

theorem MMono.trans {M : StackMap} {a b c : SizeSt} (h1 : MMono M a b) (h2 : MMono M b c) : MMono M a c :=
  ⟨fun Y f h => h2.starts Y f (h1.starts Y f h), fun t h => h2.tries t (h1.tries t h), fun τ h => h2.lock τ (h1.lock τ h)⟩

theorem MMono.real {M : StackMap} {st st' : SizeSt} (h : MMono M st st') {b : Nat} (hr : Real M st b) : Real M st' b := by
  obtain ⟨s, f, d, r, h1, h2, h3⟩ := hr
  exact ⟨s, f, d, r, h.starts _ _ h1, h2, h3⟩

theorem closedM_mono {env : SizeEnv} {M : StackMap} {N : Int} {st st' : SizeSt} (h : MMono M st st') {next : Option Nat}
    {es : List BElem} : ∀ {d : Int} {r : InTry}, closedM env M N st next es d r → closedM env M N st' next es d r := by
  induction es with
  | nil => intro d r hc n hn hne; exact h.real (hc n hn hne)
  | cons x l ih =>
    intro d r hc
    cases x with
    | instr i =>
      refine ⟨?_, ?_⟩
      · intro hj t e ht he
        obtain ⟨h0, h1, h2, h3⟩ := hc.1 hj t e ht he
        exact ⟨h0, h1, h.real h2, fun hu u hr hn => h.lock _ (h3 hu u hr hn)⟩
      · intro hj e he
        obtain ⟨h0, h1, h2, h3⟩ := hc.2 hj e he
        exact ⟨h0, h1, fun hf u hr hn => h.lock _ (h2 hf u hr hn), fun hf => ih (h3 hf)⟩
    | label n => exact ih hc
    | setLineno n => exact ih hc
    | tryBegin t => exact ⟨h.tries _ hc.1, ih hc.2⟩
    | tryEnd t => exact ⟨fun u hr hn => h.lock _ (hc.1 u hr hn), ih hc.2⟩

theorem ClosedM.mono {env : SizeEnv} {M : StackMap} {N : Int} {st st' : SizeSt} (h : MMono M st st') {b : Nat}
    (hc : ClosedM env M N st b) : ClosedM env M N st' b := by
  obtain ⟨d, r, h1, h2, h3, h4⟩ := hc
  exact ⟨d, r, h1, h2, fun u f hu => h.tries u (h3 u f hu), closedM_mono h h4⟩

theorem Known.mono {M : StackMap} {st st' : SizeSt} {r : InTry} (h : Known st r) (hm : MMono M st st') : Known st' r :=
  fun u f hu => hm.tries u (h u f hu)

theorem Known.none (st : SizeSt) : Known st none := by intro u f hu; cases hu

theorem Known.touch {M : StackMap} {st : SizeSt} {r : InTry} {d : Int} (h : Known st r) : Known st (M.touch d r) := by
  intro u f hu
  cases r with
  | none => cases hu
  | some p =>
    simp only [StackMap.touch, Option.map_some, Option.some.injEq, Prod.mk.injEq] at hu
    obtain ⟨rfl, _⟩ := hu
    exact h p.1 p.2 rfl

/-- Invariant of the storage. -/
structure MInv (env : SizeEnv) (M : StackMap) (st : SizeSt) : Prop where
  low : ∀ τ, M.base τ ≤ st.excStart τ
  lockReal : ∀ τ, Locked M st τ → Real M st τ
  blocks : ∀ Y f, f ∈ st.starts Y → Y ∈ env.c.blocks
  tries : ∀ u ∈ st.tries, env.c.findTry u.id = some u ∧ M.Handler u

/-- The handlers not in progress that are final have a size at most `N`. -/
def Fut (M : StackMap) (N : Int) (A : List Nat) (st : SizeSt) : Prop :=
  ∀ τ, τ ∉ A → Locked M st τ → st.excMax τ ≤ N

/-- Effect of an analysis of offset `k`. -/
structure MPost (env : SizeEnv) (M : StackMap) (N k : Int) (A : List Nat) (cond : Prop) (st st' : SizeSt) : Prop where
  inv : MInv env M st'
  mono : MMono M st st'
  lockMax : ∀ τ, Locked M st τ → st'.excMax τ = st.excMax τ
  noReal : 0 < k → ∀ Y, Real M st' Y → Real M st Y
  noLock : 0 < k → ∀ τ, Locked M st' τ → Locked M st τ
  closed : cond → Fut M N A st' → ∀ Y, Real M st' Y → Real M st Y ∨ ClosedM env M N st' Y

theorem MPost.refl {env : SizeEnv} {M : StackMap} {N k : Int} {A : List Nat} {cond : Prop} {st : SizeSt} (h : MInv env M st) :
    MPost env M N k A cond st st :=
  ⟨h, MMono.refl M st, fun _ _ => rfl, fun _ _ h => h, fun _ _ h => h, fun _ _ _ h => .inl h⟩

theorem MPost.fut {env : SizeEnv} {M : StackMap} {N k : Int} {A : List Nat} {cond : Prop} {st st' : SizeSt}
    (h : MPost env M N k A cond st st') (hf : Fut M N A st') : Fut M N A st := by
  intro τ hτ hl
  rw [← h.lockMax τ hl]
  exact hf τ hτ (h.mono.lock τ hl)

theorem Fut.weaken {M : StackMap} {N : Int} {A B : List Nat} {st : SizeSt} (h : Fut M N A st) (hs : ∀ x ∈ A, x ∈ B) :
    Fut M N B st := fun τ hτ hl => h τ (fun hA => hτ (hs τ hA)) hl

theorem MPost.trans {env : SizeEnv} {M : StackMap} {N k : Int} {A : List Nat} {cond : Prop} {st st1 st2 : SizeSt}
    (h1 : MPost env M N k A cond st st1) (h2 : MPost env M N k A cond st1 st2) : MPost env M N k A cond st st2 := by
  refine ⟨h2.inv, h1.mono.trans h2.mono, ?_, ?_, ?_, ?_⟩
  · intro τ hl
    rw [h2.lockMax τ (h1.mono.lock τ hl), h1.lockMax τ hl]
  · intro hk Y hY; exact h1.noReal hk Y (h2.noReal hk Y hY)
  · intro hk Y hY; exact h1.noLock hk Y (h2.noLock hk Y hY)
  · intro hc hf Y hY
    rcases h2.closed hc hf Y hY with h | h
    · rcases h1.closed hc (h2.fut hf) Y h with h | h
      · exact .inl h
      · exact .inr (h.mono h2.mono)
    · exact .inr h

theorem MPost.weaken {env : SizeEnv} {M : StackMap} {N k k' : Int} {A A' : List Nat} {cond cond' : Prop} {st st' : SizeSt}
    (h : MPost env M N k' A' cond' st st') (hk : k ≤ k') (hc : cond → cond') (hA : ∀ x ∈ A, x ∈ A') :
    MPost env M N k A cond st st' :=
  ⟨h.inv, h.mono, h.lockMax, fun h0 => h.noReal (by omega), fun h0 => h.noLock (by omega),
    fun hcond hf => h.closed (hc hcond) (hf.weaken hA)⟩

theorem MPost.spurious {env : SizeEnv} {M : StackMap} {N k k' : Int} {A A' : List Nat} {cond cond' : Prop} {st st' : SizeSt}
    (h : MPost env M N k' A' cond' st st') (h0 : 0 < k') : MPost env M N k A cond st st' :=
  ⟨h.inv, h.mono, h.lockMax, fun _ => h.noReal h0, fun _ => h.noLock h0, fun _ _ Y hY => .inl (h.noReal h0 Y hY)⟩

/-- The region carried by an analysis of offset `k`, with smallest size `mn`. -/
def RegOK (env : SizeEnv) (M : StackMap) (k mn : Int) (r : InTry) : Prop :=
  ∀ u f, r = some (u, f) → M.base u.target + k ≤ mn ∧ (f = true ↔ mn = M.base u.target + k) ∧ M.Handler u ∧
    env.c.findTry u.id = some u

/-- How a block is entered. -/
def EnterOK (env : SizeEnv) (M : StackMap) (b : Nat) (r' r : InTry) : Prop :=
  r' = r ∨ (M.joins b = true ∧ closeLead r (env.c.heap b).elems = none ∧ M.EndIn b r)

structure VPre (env : SizeEnv) (M : StackMap) (N k : Int) (X : Nat) (size mx mn : Int) (h : Option Bool) (pend : Option TryB)
    (st : SizeSt) : Prop where
  nonneg : 0 ≤ k
  inv : MInv env M st
  entry : ∃ d r' r, M.entry X = some (d, r') ∧ size + pushed h = d + k ∧ pend = r.map Prod.fst ∧ RegOK env M k mn r ∧
    (X ∈ st.seen ∨ EnterOK env M X r' r) ∧ Known st r ∧ (h = none → size ≤ mx ∨ size ≤ N + k) ∧ (h ≠ none → r = none)
  before : ∀ Z ∈ M.before X, Z ∈ st.seen
  seen : k = 0 → ∀ Z ∈ st.seen, Real M st Z

/-- What is assumed of the nested analyses. -/
def RecM (env : SizeEnv) (M : StackMap) (N : Int) (rec : Visit) : Prop :=
  ∀ X size mx mn h pend st k m st', VPre env M N k X size mx mn h pend st → rec X size mx mn h pend st = .ok (m, st') →
    MPost env M N k (X :: st.seen) (m ≤ N) st st' ∧ st'.seen = st.seen ∧ mx ≤ m ∧ (k = 0 → Real M st' X) ∧
    (X ∈ st.seen → st' = st)

theorem SizeLoc.update_min {s s' : SizeLoc} {e : Int × Int} (h : s.update e = .ok s') : s'.min = Min.min s.min s'.size := by
  unfold SizeLoc.update at h
  split at h
  · cases h
  · simp only [Except.ok.injEq] at h
    subst h
    rfl

/-- The handler of a region that ends. -/
theorem handlerUsage_M {env : SizeEnv} {M : StackMap} {N k : Int} {rec : Visit} (hrec : RecM env M N rec) (hk : 0 ≤ k)
    {s : SizeLoc} {t : TryB} {f : Bool} {st st' : SizeSt} (hreg : RegOK env M k s.min (some (t, f))) (hinv : MInv env M st)
    (hbefore : ∀ Z ∈ M.before t.target, Z ∈ st.seen) (hseen : k = 0 → ∀ Z ∈ st.seen, Real M st Z)
    (h : handlerUsage env rec s t.target t.lasti st = .ok st') :
    MPost env M N k st.seen True st st' ∧ st'.seen = st.seen ∧ (k = 0 → f = true → Locked M st' t.target) := by
  obtain ⟨r1, r2, r3, r4⟩ := hreg t f rfl
  unfold handlerUsage at h
  split at h
  swap
  · cases h
  split at h
  · rename_i hlt
    obtain ⟨⟨m, st1⟩, hv, h⟩ := except_bind_ok h
    simp only [pure, Except.pure, Except.ok.injEq] at h
    have hpre : VPre env M N (s.min - M.base t.target) t.target s.min s.max s.min (some t.lasti) none st := by
      refine ⟨by omega, hinv, ⟨_, none, none, r3, ?_, rfl, ?_, .inr (.inl rfl), Known.none _, ?_, fun _ => rfl⟩, hbefore, ?_⟩
      · simp only [pushed]; omega
      · intro u f hu; cases hu
      · intro hh; cases hh
      · intro h0; exact hseen (by omega)
    obtain ⟨p1, p2, p3, p4, p5⟩ := hrec _ _ _ _ _ _ _ _ _ _ hpre hv
    have hnl : ¬ Locked M st t.target := by unfold Locked; omega
    have hmono1 : MMono M st1 st' := by
      subst h
      refine ⟨fun _ _ h => h, fun _ h => h, ?_⟩
      intro τ hl
      unfold Locked at hl ⊢
      simp only [upd]
      split
      · rename_i hτ
        subst hτ
        rcases Int.lt_or_le 0 (s.min - M.base t.target) with h0 | h0
        · exact absurd (p1.noLock h0 _ hl) hnl
        · omega
      · exact hl
    have hreal : ∀ Y, Real M st' Y ↔ Real M st1 Y := by subst h; intro Y; rfl
    refine ⟨⟨⟨?_, ?_, ?_, ?_⟩, p1.mono.trans hmono1, ?_, ?_, ?_, ?_⟩, ?_, ?_⟩
    · intro τ
      subst h
      simp only [upd]
      split
      · rename_i hτ; subst hτ; omega
      · exact p1.inv.low τ
    · intro τ hl
      rw [hreal]
      by_cases hτ : τ = t.target
      · subst hτ
        refine p4 ?_
        subst h
        unfold Locked at hl
        simp only [upd, if_true] at hl
        omega
      · refine p1.inv.lockReal τ ?_
        subst h
        unfold Locked at hl ⊢
        simpa only [upd, hτ, if_false] using hl
    · subst h
      exact p1.inv.blocks
    · subst h
      exact p1.inv.tries
    · intro τ hl
      have hτ : τ ≠ t.target := fun e => hnl (e ▸ hl)
      subst h
      simp only [upd, hτ, if_false]
      exact p1.lockMax τ hl
    · intro h0 Y hY
      exact p1.noReal (by omega) Y ((hreal Y).1 hY)
    · intro h0 τ hl
      by_cases hτ : τ = t.target
      · subst hτ
        exfalso
        subst h
        unfold Locked at hl
        simp only [upd, if_true] at hl
        omega
      · refine p1.noLock (by omega) τ ?_
        subst h
        unfold Locked at hl ⊢
        simpa only [upd, hτ, if_false] using hl
    · intro _ hf Y hY
      rw [hreal] at hY
      by_cases h0 : 0 < s.min - M.base t.target
      · exact .inl (p1.noReal h0 Y hY)
      · by_cases hin : t.target ∈ st.seen
        · rw [p5 hin] at hY
          exact .inl hY
        · have hlock : Locked M st' t.target := by
            subst h
            unfold Locked
            simp only [upd, if_true]
            omega
          have hm : m ≤ N := by
            have := hf t.target hin hlock
            subst h
            simpa only [upd, if_true] using this
          have hfut : Fut M N (t.target :: st.seen) st1 := by
            intro τ hτ hl
            have hne : τ ≠ t.target := fun e => hτ (by simp [e])
            have := hf τ (fun h => hτ (List.mem_cons_of_mem _ h)) (hmono1.lock τ hl)
            subst h
            simpa only [upd, hne, if_false] using this
          rcases p1.closed hm hfut Y hY with h | h
          · exact .inl h
          · exact .inr (h.mono hmono1)
    · subst h; exact p2
    · intro h0 hf
      subst h
      unfold Locked
      simp only [upd, if_true]
      have := r2.1 hf
      omega
  · rename_i hlt
    simp only [Except.ok.injEq] at h
    subst h
    refine ⟨MPost.refl hinv, rfl, ?_⟩
    intro h0 hf
    have := r2.1 hf
    have := hinv.low t.target
    unfold Locked
    omega

/-- Shape of the local state of an analysis of offset `k`. -/
structure LocOK (env : SizeEnv) (M : StackMap) (N k : Int) (s : SizeLoc) (d : Int) (r : InTry) : Prop where
  size : s.size = d + k
  cur : s.cur = r.map Prod.fst
  reg : RegOK env M k s.min r
  max : s.size ≤ s.max ∨ s.size ≤ N + k

theorem RegOK.touch {env : SizeEnv} {M : StackMap} {k mn d size : Int} {r : InTry} (h : RegOK env M k mn r) (hs : size = d + k)
    (hlow : M.Low d r) : RegOK env M k (Min.min mn size) (M.touch d r) := by
  intro u f hu
  cases r with
  | none => cases hu
  | some p =>
    obtain ⟨u0, f0⟩ := p
    simp only [StackMap.touch, Option.map_some, Option.some.injEq, Prod.mk.injEq] at hu
    obtain ⟨rfl, rfl⟩ := hu
    obtain ⟨h1, h2, h3, h4⟩ := h u0 f0 rfl
    have := hlow _ rfl
    simp only at this
    refine ⟨by omega, ?_, h3, h4⟩
    simp only [Bool.or_eq_true, decide_eq_true_eq, h2]
    omega

theorem LocOK.update {env : SizeEnv} {M : StackMap} {N k : Int} {s s' : SizeLoc} {d : Int} {r : InTry} {e : Int × Int}
    (h : LocOK env M N k s d r) (hu : s.update e = .ok s') (hlow : M.Low (d + e.1 + e.2) r) :
    LocOK env M N k s' (d + e.1 + e.2) (M.touch (d + e.1 + e.2) r) := by
  obtain ⟨u1, u2, u3, u4⟩ := SizeLoc.update_ok hu
  have hs : s'.size = d + e.1 + e.2 + k := by rw [u2, h.size]; omega
  refine ⟨hs, ?_, ?_, .inl (by omega)⟩
  · rw [u4, h.cur]
    cases r <;> rfl
  · rw [SizeLoc.update_min hu]
    exact h.reg.touch hs hlow

theorem RegOK.none {env : SizeEnv} {M : StackMap} {k mn : Int} : RegOK env M k mn none := by intro u f hu; cases hu

theorem handler_before {M : StackMap} {b : Nat} {r : InTry} {seen : List Nat} (h : M.EndIn b r)
    (hsub : ∀ Z, Z = b ∨ Z ∈ M.before b → Z ∈ seen) {p : TryB × Bool} (hp : r = some p) :
    ∀ Z ∈ M.before p.1.target, Z ∈ seen := fun Z hZ => hsub Z (h p hp Z hZ)

/-- Entering a block from another. -/
theorem Enters.pre {env : SizeEnv} {M : StackMap} {N k : Int} {b n : Nat} {size mx mn d : Int} {r : InTry} {st : SizeSt}
    (hE : M.Enters env.c b d r n) (hk : 0 ≤ k) (hinv : MInv env M st) (hsub : ∀ Z, Z = b ∨ Z ∈ M.before b → Z ∈ st.seen)
    (hseen : k = 0 → ∀ Z ∈ st.seen, Real M st Z) (hsize : size = d + k) (hreg : RegOK env M k mn r)
    (hmax : size ≤ mx ∨ size ≤ N + k) (hkn : Known st r) :
    VPre env M N k n size mx mn none (r.map Prod.fst) st := by
  obtain ⟨h1, r', h2, h3⟩ := hE
  refine ⟨hk, hinv, ⟨d, r', r, h2, by simp only [pushed]; omega, rfl, hreg, ?_, hkn, fun _ => hmax, fun hc => absurd rfl hc⟩,
    fun Z hZ => hsub Z (h1 Z hZ), hseen⟩
  rcases h3 with h3 | h3 | h3
  · exact .inr (.inl h3)
  · exact .inl (hsub n h3)
  · exact .inr (.inr h3)

/-- Result of a nested analysis, seen from block `b`. -/
theorem rec_post {env : SizeEnv} {M : StackMap} {N k : Int} {st st1 : SizeSt} {X : Nat} {m m' : Int}
    (p : MPost env M N k (X :: st.seen) (m ≤ N) st st1) (hm : m ≤ m') : MPost env M N k st.seen (m' ≤ N) st st1 :=
  p.weaken (Int.le_refl _) (fun h => by omega) (fun x hx => List.mem_cons_of_mem _ hx)

/-- Leaving the block does not change what is known. -/
theorem leave_real {M : StackMap} {st : SizeSt} {seen : List Nat} {Y : Nat} :
    Real M { st with seen := seen } Y ↔ Real M st Y := Iff.rfl

theorem MPost.leave {env : SizeEnv} {M : StackMap} {N k : Int} {A : List Nat} {cond : Prop} {st st' : SizeSt} (seen : List Nat)
    (h : MPost env M N k A cond st st') : MPost env M N k A cond st { st' with seen := seen } := by
  have hm : MMono M st' { st' with seen := seen } := ⟨fun _ _ h => h, fun _ h => h, fun _ h => h⟩
  refine ⟨⟨h.inv.low, h.inv.lockReal, h.inv.blocks, h.inv.tries⟩, h.mono.trans hm, h.lockMax, h.noReal, h.noLock, ?_⟩
  intro hc hf Y hY
  rcases h.closed hc hf Y hY with h | h
  · exact .inl h
  · exact .inr (h.mono hm)

theorem MPost.enter {env : SizeEnv} {M : StackMap} {N k : Int} {A : List Nat} {cond : Prop} {st st' : SizeSt} (tries : List TryB)
    (ht : ∀ t, t ∈ st.tries → t ∈ tries)
    (h : MPost env M N k A cond { st with tries := tries } st') : MPost env M N k A cond st st' :=
  ⟨h.inv, ⟨h.mono.starts, fun t h2 => h.mono.tries t (ht t h2), h.mono.lock⟩, h.lockMax, h.noReal, h.noLock, h.closed⟩

theorem findTry_unique {c : CFG} (hu : UniqueTry c) {b : Nat} (hb : b ∈ c.blocks) {t : TryB}
    (ht : BElem.tryBegin t ∈ (c.heap b).elems) : c.findTry t.id = some t := by
  unfold CFG.findTry
  cases hf : (c.blocks.flatMap (fun b => (c.heap b).elems)).findSome? (fun
    | .tryBegin t' => if t'.id = t.id then some t' else none
    | _ => none) with
  | none =>
    rw [List.findSome?_eq_none_iff] at hf
    have := hf (.tryBegin t) (List.mem_flatMap.2 ⟨b, hb, ht⟩)
    simp at this
  | some t' =>
    obtain ⟨x, hx, hxe⟩ := List.exists_of_findSome?_eq_some hf
    obtain ⟨b', hb', hm⟩ := List.mem_flatMap.1 hx
    cases x with
    | tryBegin t2 =>
      simp only at hxe
      split at hxe
      · rename_i hid
        simp only [Option.some.injEq] at hxe
        subst hxe
        rw [hu b' hb' b hb t2 t hm ht hid]
      · cases hxe
    | _ => cases hxe

/-- After an instruction whose jump is not taken. -/
theorem final_M {env : SizeEnv} {M : StackMap} {N k : Int} {rec : Visit} (hrec : RecM env M N rec) (hk : 0 ≤ k) {b : Nat}
    {l : List BElem} {s : SizeLoc} {st st' : SizeSt} {d : Int} {r : InTry}
    (hloc : ∀ p, r = some p → (nextEnd l).isSome → RegOK env M k s.min r)
    (hown : ∀ id, nextEnd l = some id → ∃ p, r = some p ∧ p.1.id = id)
    (hend : (nextEnd l).isSome → M.EndIn b r)
    (hinv : MInv env M st) (hsub : ∀ Z, Z = b ∨ Z ∈ M.before b → Z ∈ st.seen)
    (hseen : k = 0 → ∀ Z ∈ st.seen, Real M st Z) (h : finalTryEnd env rec s l st = .ok st') :
    MPost env M N k st.seen True st st' ∧ st'.seen = st.seen ∧
      (k = 0 → ∀ u, r = some (u, true) → nextEnd l = some u.id → Locked M st' u.target) := by
  unfold finalTryEnd at h
  rw [nextEnd_eq] at h
  cases hn : nextEnd l with
  | none =>
    simp only [hn, Except.ok.injEq] at h
    subst h
    exact ⟨MPost.refl hinv, rfl, fun _ u _ hu => by cases hu⟩
  | some id =>
    obtain ⟨⟨u, f⟩, hr, hid⟩ := hown id hn
    have hreg := hloc _ hr (by rw [hn]; rfl)
    rw [hr] at hreg
    obtain ⟨_, _, _, hfind⟩ := hreg u f rfl
    simp only at hid
    subst hid
    simp only [hn, hfind] at h
    obtain ⟨p1, p2, p3⟩ := handlerUsage_M hrec hk hreg hinv
      (handler_before (hend (by rw [hn]; rfl)) hsub hr) hseen h
    refine ⟨p1, p2, ?_⟩
    intro h0 u' hu' _
    rw [hr] at hu'
    simp only [Option.some.injEq, Prod.mk.injEq] at hu'
    obtain ⟨rfl, rfl⟩ := hu'
    exact p3 h0 rfl

theorem uncond_M {env : SizeEnv} {M : StackMap} {N k : Int} {rec : Visit} (hrec : RecM env M N rec) (hk : 0 ≤ k) {b : Nat}
    {l : List BElem} {s : SizeLoc} {st st' : SizeSt} {r : InTry} (hcur : s.cur = r.map Prod.fst) (hreg : RegOK env M k s.min r)
    (hend : (nextEnd l).isSome → M.EndIn b r)
    (hinv : MInv env M st) (hsub : ∀ Z, Z = b ∨ Z ∈ M.before b → Z ∈ st.seen)
    (hseen : k = 0 → ∀ Z ∈ st.seen, Real M st Z) (h : uncondTryEnd env rec s l st = .ok st') :
    MPost env M N k st.seen True st st' ∧ st'.seen = st.seen ∧
      (k = 0 → ∀ u, r = some (u, true) → nextEnd l = some u.id → Locked M st' u.target) := by
  unfold uncondTryEnd at h
  rw [nextEnd_eq, hcur] at h
  cases hn : nextEnd l with
  | none =>
    simp only [hn, Except.ok.injEq] at h
    subst h
    exact ⟨MPost.refl hinv, rfl, fun _ u _ hu => by cases hu⟩
  | some id =>
    cases hr : r with
    | none =>
      simp only [hn, hr, Option.map_none, Except.ok.injEq] at h
      subst h
      exact ⟨MPost.refl hinv, rfl, fun _ u hu => by cases hu⟩
    | some p =>
      obtain ⟨u, f⟩ := p
      simp only [hn, hr, Option.map_some] at h
      split at h
      · rename_i hid
        obtain ⟨p1, p2, p3⟩ := handlerUsage_M hrec hk (by rw [← hr]; exact hreg) hinv
          (handler_before (hend (by rw [hn]; rfl)) hsub hr) hseen h
        refine ⟨p1, p2, ?_⟩
        intro h0 u' hu' _
        simp only [Option.some.injEq, Prod.mk.injEq] at hu'
        obtain ⟨rfl, rfl⟩ := hu'
        exact p3 h0 rfl
      · rename_i hid
        simp only [Except.ok.injEq] at h
        subst h
        refine ⟨MPost.refl hinv, rfl, ?_⟩
        intro h0 u' hu' hn'
        simp only [Option.some.injEq, Prod.mk.injEq] at hu' hn'
        exact absurd (by rw [hn', hu'.1]) hid

/-- What the analysis of the rest of a block gives. -/
def RunM (env : SizeEnv) (M : StackMap) (N k : Int) (b : Nat) (st : SizeSt) (mx : Int) (Q : SizeSt → Prop) (m : Int) (st' : SizeSt) : Prop :=
  MPost env M N k st.seen (m ≤ N) st st' ∧ st'.seen = st.seen.erase b ∧ mx ≤ m ∧
    (k = 0 → m ≤ N → Fut M N st.seen st' → Q st')

theorem runElems_M {env : SizeEnv} {M : StackMap} {N k : Int} {rec : Visit} (hrec : RecM env M N rec) (hk : 0 ≤ k) {b : Nat}
    (hb : b ∈ env.c.blocks) (hu : UniqueTry env.c) :
    ∀ (es : List BElem) (s : SizeLoc) (st : SizeSt) (d : Int) (r : InTry) (q : Option TryB) (m : Int) (st' : SizeSt),
    (∀ x ∈ es, x ∈ (env.c.heap b).elems) →
    M.Describes env.P env.eff env.c b es d r q → LocOK env M N k s d r → Known st r → MInv env M st →
    (∀ Z, Z = b ∨ Z ∈ M.before b → Z ∈ st.seen) → (k = 0 → ∀ Z ∈ st.seen, Real M st Z) →
    runElems env rec b es s st = .ok (m, st') →
    RunM env M N k b st s.max (fun st' => closedM env M N st' (env.c.heap b).next es d r) m st' := by
  intro es
  induction es with
  | nil =>
    intro s st d r q m st' _ hD hloc hkn hinv hsub hseen h
    unfold runElems runEnd at h
    cases hn : (env.c.heap b).next with
    | none =>
      simp only [hn, leaveBlock, Except.ok.injEq, Prod.mk.injEq] at h
      obtain ⟨rfl, rfl⟩ := h
      exact ⟨(MPost.refl hinv).leave _, rfl, Int.le_refl _, fun _ _ _ n hn => by cases hn⟩
    | some n =>
      obtain ⟨hne, hE⟩ := hD n hn
      have hne' : (env.c.heap n).elems.isEmpty = false := by
        cases hel : (env.c.heap n).elems with
        | nil => exact absurd hel hne
        | cons _ _ => rfl
      simp only [hn, hne', Bool.false_eq_true, if_false] at h
      obtain ⟨⟨m1, st1⟩, hv, h⟩ := except_bind_ok h
      simp only [leaveBlock, Except.ok.injEq, Prod.mk.injEq] at h
      obtain ⟨rfl, rfl⟩ := h
      rw [hloc.cur] at hv
      obtain ⟨p1, p2, p3, p4, _⟩ := hrec _ _ _ _ _ _ _ _ _ _
        (Enters.pre hE hk hinv hsub hseen hloc.size hloc.reg hloc.max hkn) hv
      refine ⟨(rec_post p1 (Int.le_refl _)).leave _, by simp only [p2], p3, ?_⟩
      intro h0 _ _ n' hn' _
      simp only [Option.some.injEq] at hn'
      subst hn'
      exact p4 h0
  | cons x l ih =>
    intro s st d r q m st' hmem hD hloc hkn hinv hsub hseen h
    have hmem' : ∀ x ∈ l, x ∈ (env.c.heap b).elems := fun x hx => hmem x (List.mem_cons_of_mem _ hx)
    unfold runElems at h
    obtain ⟨_, hck, h⟩ := except_bind_ok h
    cases x with
    | label n => cases h
    | setLineno n => exact ih s st d r q m st' hmem' hD hloc hkn hinv hsub hseen h
    | tryBegin t =>
      obtain ⟨_, has, h⟩ := except_bind_ok h
      obtain ⟨hh, hlow, hD⟩ := hD
      have hst : MInv env M { st with tries := st.tries ++ [t] } := by
        refine ⟨hinv.low, hinv.lockReal, hinv.blocks, ?_⟩
        intro u hu'
        rcases List.mem_append.1 hu' with hu' | hu'
        · exact hinv.tries u hu'
        · simp only [List.mem_singleton] at hu'
          subst hu'
          exact ⟨findTry_unique hu hb (hmem _ (by simp)), hh⟩
      have hkn' : Known { st with tries := st.tries ++ [t] } (some (t, decide (d = M.base t.target))) := by
        intro u f huf
        simp only [Option.some.injEq, Prod.mk.injEq] at huf
        obtain ⟨rfl, _⟩ := huf
        simp
      have hloc' : LocOK env M N k { s with cur := some t, min := s.size } d (some (t, decide (d = M.base t.target))) := by
        refine ⟨hloc.size, rfl, ?_, hloc.max⟩
        intro u f huf
        simp only [Option.some.injEq, Prod.mk.injEq] at huf
        obtain ⟨rfl, rfl⟩ := huf
        have := hloc.size
        refine ⟨by simp only; omega, ?_, hh, findTry_unique hu hb (hmem _ (by simp))⟩
        simp only [decide_eq_true_eq]
        omega
      have hg := ih _ _ d _ _ m st' hmem' hD hloc' hkn' hst hsub hseen h
      obtain ⟨g1, g2, g3, g4⟩ := hg
      have g1' : MPost env M N k st.seen (m ≤ N) st st' := g1.enter (st.tries ++ [t]) (fun t h => by simp [h])
      refine ⟨g1', g2, g3, ?_⟩
      intro h0 hm hf
      exact ⟨g1.mono.tries t (by simp), g4 h0 hm hf⟩
    | tryEnd id =>
      obtain ⟨hend, hD⟩ := hD
      simp only at h
      rw [hloc.cur] at h
      cases hr : r with
      | none =>
        simp only [hr, Option.map_none] at h
        rw [hr] at hD hloc
        have hg := ih s st d none _ m st' hmem' hD hloc (Known.none _) hinv hsub hseen h
        obtain ⟨g1, g2, g3, g4⟩ := hg
        exact ⟨g1, g2, g3, fun h0 hm hf => ⟨fun u hu => (by cases hu), g4 h0 hm hf⟩⟩
      | some p =>
        obtain ⟨u, f⟩ := p
        simp only [hr, Option.map_some] at h
        split at h
        · rename_i hid
          obtain ⟨st1, hv, h⟩ := except_bind_ok h
          have hreg := hloc.reg
          rw [hr] at hreg
          obtain ⟨p1, p2, p3⟩ := handlerUsage_M hrec hk hreg hinv
            (handler_before (hend _ hr hid) hsub hr) hseen hv
          have hcl : closeTry r id = none := by rw [hr]; simp [closeTry, hid]
          rw [hcl] at hD
          have hloc' : LocOK env M N k { s with cur := none } d none := ⟨hloc.size, rfl, RegOK.none, hloc.max⟩
          obtain ⟨g1, g2, g3, g4⟩ := ih _ st1 d none _ m st' hmem' hD hloc' (Known.none _) p1.inv (by rw [p2]; exact hsub)
            (by rw [p2]; exact fun h0 Z hZ => p1.mono.real (hseen h0 Z hZ)) h
          rw [p2] at g1 g2 g4
          refine ⟨(p1.weaken (Int.le_refl _) (fun _ => trivial) (fun x hx => hx)).trans g1, g2, g3, ?_⟩
          intro h0 hm hf
          refine ⟨?_, ?_⟩
          · intro u' hu' _
            simp only [Option.some.injEq, Prod.mk.injEq] at hu'
            obtain ⟨rfl, rfl⟩ := hu'
            exact g1.mono.lock _ (p3 h0 rfl)
          · have : closeTry (some (u, f)) id = none := by rw [← hr]; exact hcl
            rw [this]
            exact g4 h0 hm hf
        · rename_i hid
          have hcl : closeTry r id = r := by rw [hr]; simp [closeTry, hid]
          rw [hcl] at hD
          obtain ⟨g1, g2, g3, g4⟩ := ih s st d r _ m st' hmem' hD hloc hkn hinv hsub hseen h
          refine ⟨g1, g2, g3, ?_⟩
          intro h0 hm hf
          refine ⟨?_, ?_⟩
          · intro u' hu' hid'
            simp only [Option.some.injEq, Prod.mk.injEq] at hu'
            exact absurd (hu'.1 ▸ hid') hid
          · have : closeTry (some (u, f)) id = r := by rw [← hr]; exact hcl
            rw [this]
            exact g4 h0 hm hf
    | instr i =>
      obtain ⟨hsame, hown, hend, hjmp, hfallD⟩ := hD
      simp only at h
      -- the part for the jump not taken
      have hfall : ∀ (s1 : SizeLoc) (st1 : SizeSt), LocOK env M N k s1 d r → Known st1 r → MInv env M st1 → st1.seen = st.seen →
          (k = 0 → ∀ Z ∈ st1.seen, Real M st1 Z) → (env.P.hasJump i.opcode && isUncondJump i.name) = false →
          (do
            let e ← env.eff i false
            let s ← s1.update e
            if isFinal i.name then do
              let st ← finalTryEnd env rec s l st1
              leaveBlock b s st
            else runElems env rec b l s st1) = .ok (m, st') →
          RunM env M N k b st1 s1.max (fun st' => ∀ e, env.eff i false = .ok e →
            0 ≤ d + e.1 ∧ d + e.1 + e.2 ≤ N ∧
            (isFinal i.name = true → ∀ u, M.touch (d + e.1 + e.2) r = some (u, true) → nextEnd l = some u.id → Locked M st' u.target) ∧
            (isFinal i.name = false → closedM env M N st' (env.c.heap b).next l (d + e.1 + e.2) (M.touch (d + e.1 + e.2) r))) m st' := by
        intro s1 st1 hloc1 hkn1 hinv1 hseen1 hsr hnu h
        obtain ⟨e, he, h⟩ := except_bind_ok h
        obtain ⟨s2, hup, h⟩ := except_bind_ok h
        obtain ⟨u1, u2, u3, u4⟩ := SizeLoc.update_ok hup
        have hmin := SizeLoc.update_min hup
        have hs2 : s2.size = d + e.1 + e.2 + k := by rw [u2, hloc1.size]; omega
        have h0e : k = 0 → 0 ≤ d + e.1 := by intro h0; have := hloc1.size; omega
        obtain ⟨hF, hNF⟩ := hfallD hnu e he
        have hsub1 : ∀ Z, Z = b ∨ Z ∈ M.before b → Z ∈ st1.seen := by rw [hseen1]; exact hsub
        by_cases hfin : isFinal i.name = true
        · rw [if_pos hfin] at h
          obtain ⟨st2, hv, h⟩ := except_bind_ok h
          simp only [leaveBlock, Except.ok.injEq, Prod.mk.injEq] at h
          obtain ⟨rfl, rfl⟩ := h
          have hreg2 : ∀ p, M.touch (d + e.1 + e.2) r = some p → (nextEnd l).isSome →
              RegOK env M k s2.min (M.touch (d + e.1 + e.2) r) := by
            intro p _ hsome
            rw [hmin]
            exact hloc1.reg.touch hs2 (hF hfin hsome)
          have hown2 : ∀ id, nextEnd l = some id → ∃ p, M.touch (d + e.1 + e.2) r = some p ∧ p.1.id = id := by
            intro id hid
            obtain ⟨p, hp, hpid⟩ := hown hfin id hid
            exact ⟨(p.1, p.2 || decide (d + e.1 + e.2 = M.base p.1.target)), by rw [hp]; rfl, hpid⟩
          have hend2 : (nextEnd l).isSome → M.EndIn b (M.touch (d + e.1 + e.2) r) := by
            intro hsome p hp
            cases r with
            | none => cases hp
            | some p0 =>
              simp only [StackMap.touch, Option.map_some, Option.some.injEq] at hp
              subst hp
              exact hend hfin hsome p0 rfl
          obtain ⟨p1, p2, p3⟩ := final_M hrec hk (d := d) hreg2 hown2 hend2 hinv1 hsub1 hsr hv
          refine ⟨(p1.weaken (Int.le_refl _) (fun _ => trivial) (fun x hx => hx)).leave _, by simp only [p2], by omega, ?_⟩
          intro h0 hm _ e2 he2
          rw [he] at he2
          simp only [Except.ok.injEq] at he2
          subst he2
          refine ⟨h0e h0, by omega, fun _ u hu hn => p3 h0 u hu hn, fun hc => ?_⟩
          rw [hfin] at hc; cases hc
        · rw [if_neg hfin] at h
          have hfin' : isFinal i.name = false := by simpa using hfin
          obtain ⟨hlow, hDl⟩ := hNF hfin'
          obtain ⟨g1, g2, g3, g4⟩ := ih s2 st1 _ _ q m st' hmem' hDl (hloc1.update hup hlow) hkn1.touch hinv1 hsub1 hsr h
          refine ⟨g1, g2, by omega, ?_⟩
          intro h0 hm hf e2 he2
          rw [he] at he2
          simp only [Except.ok.injEq] at he2
          subst he2
          refine ⟨h0e h0, by omega, fun hc => ?_, fun _ => g4 h0 hm hf⟩
          rw [hfin'] at hc; cases hc
      by_cases hj : env.P.hasJump i.opcode = true
      · rw [if_pos hj] at h
        obtain ⟨⟨s1, st1⟩, hjt, h⟩ := except_bind_ok h
        unfold jumpTaken at hjt
        obtain ⟨e, he, hjt⟩ := except_bind_ok hjt
        obtain ⟨tk, hup, hjt⟩ := except_bind_ok hjt
        cases ht : i.arg.asBlock with
        | none => rw [ht] at hjt; cases hjt
        | some t =>
          have harg : i.arg = .block t := by
            unfold Arg.asBlock at ht
            split at ht
            · rename_i h2
              simp only [Option.some.injEq] at ht
              rw [h2, ht]
            · cases ht
          rw [ht] at hjt
          simp only at hjt
          obtain ⟨⟨m1, st1'⟩, hv, hjt⟩ := except_bind_ok hjt
          simp only [pure, Except.pure, Except.ok.injEq, Prod.mk.injEq] at hjt
          obtain ⟨rfl, rfl⟩ := hjt
          obtain ⟨hlow, hE⟩ := hjmp hj t e harg he
          obtain ⟨u1, u2, u3, u4⟩ := SizeLoc.update_ok hup
          have hmin := SizeLoc.update_min hup
          have htk : tk.size = d + e.1 + e.2 + k := by rw [u2, hloc.size]; omega
          rw [nextEnd_eq] at hv
          have hpend : (if (isFinal i.name && (nextEnd l).isSome) = true then none else s.cur) =
              (if (isFinal i.name && (nextEnd l).isSome) = true then none else M.touch (d + e.1 + e.2) r : InTry).map Prod.fst := by
            split
            · rfl
            · rw [hloc.cur]
              cases r <;> rfl
          rw [hpend] at hv
          have hreg : RegOK env M k tk.min (if (isFinal i.name && (nextEnd l).isSome) = true then none else M.touch (d + e.1 + e.2) r) := by
            split
            · exact RegOK.none
            · rename_i hc
              rw [if_neg hc] at hlow
              rw [hmin]
              refine hloc.reg.touch htk ?_
              intro p hp
              exact hlow (p.1, p.2 || decide (d + e.1 + e.2 = M.base p.1.target)) (by rw [hp]; rfl)
          obtain ⟨p1, p2, p3, p4, _⟩ := hrec _ _ _ _ _ _ _ _ _ _
            (Enters.pre hE hk hinv hsub hseen htk hreg (.inl (by omega)) (by split; exact Known.none _; exact hkn.touch)) hv
          have hmax : Max.max s.max m1 = m1 := Int.max_eq_right (by omega)
          rw [hmax] at h
          have hloc1 : LocOK env M N k { s with max := m1 } d r := by
            refine ⟨hloc.size, hloc.cur, hloc.reg, ?_⟩
            rcases hloc.max with h | h
            · left; simp only; omega
            · exact .inr h
          have hsr1 : k = 0 → ∀ Z ∈ st1'.seen, Real M st1' Z := by
            rw [p2]; exact fun h0 Z hZ => p1.mono.real (hseen h0 Z hZ)
          have hjump : ∀ st2, MMono M st1' st2 → k = 0 → m1 ≤ N → ∀ t' e', i.arg = .block t' → env.eff i true = .ok e' →
              0 ≤ d + e'.1 ∧ d + e'.1 + e'.2 ≤ N ∧ Real M st2 t' := by
            intro st2 hmo h0 hm t' e' ht' he'
            rw [harg] at ht'
            rw [he] at he'
            simp only [Arg.block.injEq, Except.ok.injEq] at ht' he'
            subst ht' he'
            have := hloc.size
            exact ⟨by omega, by omega, hmo.real (p4 h0)⟩
          by_cases hun : isUncondJump i.name = true
          · rw [if_pos hun] at h
            obtain ⟨st2, hv2, h⟩ := except_bind_ok h
            simp only [leaveBlock, Except.ok.injEq, Prod.mk.injEq] at h
            obtain ⟨rfl, rfl⟩ := h
            have hfin : isFinal i.name = true := by unfold isFinal; rw [hun]; simp
            obtain ⟨g1, g2, g3⟩ := uncond_M hrec hk (b := b) hloc1.cur hloc1.reg (hend hfin) p1.inv
              (by rw [p2]; exact hsub) hsr1 hv2
            rw [p2] at g1 g2
            refine ⟨((rec_post p1 (Int.le_refl _)).trans (g1.weaken (Int.le_refl _) (fun _ => trivial) (fun x hx => hx))).leave _,
              by simp only [g2], by omega, ?_⟩
            intro h0 hm hf
            refine ⟨?_, ?_⟩
            · intro _ t' e' ht' he'
              obtain ⟨q0, q1, q2⟩ := hjump st2 g1.mono h0 hm t' e' ht' he'
              exact ⟨q0, q1, q2, fun _ u hu hn => g3 h0 u hu hn⟩
            · intro hc
              rw [hj, hun] at hc
              cases hc
          · rw [if_neg hun] at h
            have hun' : isUncondJump i.name = false := by simpa using hun
            obtain ⟨g1, g2, g3, g4⟩ := hfall _ st1' hloc1 (hkn.mono p1.mono) p1.inv p2 hsr1 (by simp [hun']) h
            rw [p2] at g1 g2 g4
            simp only at g3
            refine ⟨(rec_post p1 (by omega)).trans g1, g2, by omega, ?_⟩
            intro h0 hm hf
            refine ⟨?_, ?_⟩
            · intro _ t' e' ht' he'
              obtain ⟨q0, q1, q2⟩ := hjump st' g1.mono h0 (by omega) t' e' ht' he'
              exact ⟨q0, q1, q2, fun hc => absurd hc hun⟩
            · intro _
              exact g4 h0 hm hf
      · rw [if_neg hj] at h
        have hj' : env.P.hasJump i.opcode = false := by simpa using hj
        obtain ⟨g1, g2, g3, g4⟩ := hfall s st hloc hkn hinv rfl hseen (by simp [hj']) h
        refine ⟨g1, g2, g3, ?_⟩
        intro h0 hm hf
        exact ⟨fun hc => absurd hc hj, fun _ => g4 h0 hm hf⟩

/-- A block that starts by closing the region it is entered from. -/
theorem runLead_M {env : SizeEnv} {M : StackMap} {N k : Int} {rec : Visit} (hrec : RecM env M N rec) (hk : 0 ≤ k) {b : Nat}
    (hb : b ∈ env.c.blocks) (hu : UniqueTry env.c) (r : InTry) (hend : M.EndIn b r) :
    ∀ (es : List BElem) (s : SizeLoc) (st : SizeSt) (d : Int) (q : Option TryB) (m : Int) (st' : SizeSt),
    (∀ x ∈ es, x ∈ (env.c.heap b).elems) → closeLead r es = none →
    M.Describes env.P env.eff env.c b es d none q → LocOK env M N k s d r → Known st r → MInv env M st →
    (∀ Z, Z = b ∨ Z ∈ M.before b → Z ∈ st.seen) → (k = 0 → ∀ Z ∈ st.seen, Real M st Z) →
    runElems env rec b es s st = .ok (m, st') →
    RunM env M N k b st s.max (fun st' => closedM env M N st' (env.c.heap b).next es d none) m st' := by
  cases hr : r with
  | none =>
    intro es s st d q m st' hmem _ hD hloc hkn hinv hsub hseen h
    exact runElems_M hrec hk hb hu es s st d none q m st' hmem hD hloc hkn hinv hsub hseen h
  | some p =>
    obtain ⟨u, f⟩ := p
    intro es
    induction es with
    | nil =>
      intro s st d q m st' hmem hlead
      cases hlead
    | cons x l ih =>
      intro s st d q m st' hmem hlead hD hloc hkn hinv hsub hseen h
      have hmem' : ∀ x ∈ l, x ∈ (env.c.heap b).elems := fun x hx => hmem x (List.mem_cons_of_mem _ hx)
      unfold runElems at h
      obtain ⟨_, hck, h⟩ := except_bind_ok h
      cases x with
      | label n => cases h
      | instr i => cases hlead
      | tryBegin t => cases hlead
      | setLineno n => exact ih s st d q m st' hmem' hlead hD hloc hkn hinv hsub hseen h
      | tryEnd id =>
        simp only [hloc.cur, Option.map_some] at h
        split at h
        · rename_i hid
          obtain ⟨st1, hv, h⟩ := except_bind_ok h
          obtain ⟨p1, p2, p3⟩ := handlerUsage_M hrec hk hloc.reg hinv
            (handler_before hend hsub hr) hseen hv
          have hloc' : LocOK env M N k { s with cur := none } d none := ⟨hloc.size, rfl, RegOK.none, hloc.max⟩
          obtain ⟨g1, g2, g3, g4⟩ := runElems_M hrec hk hb hu l _ st1 d none _ m st' hmem' hD.2 hloc' (Known.none _) p1.inv
            (by rw [p2]; exact hsub)
            (by rw [p2]; exact fun h0 Z hZ => p1.mono.real (hseen h0 Z hZ)) h
          rw [p2] at g1 g2 g4
          exact ⟨(p1.weaken (Int.le_refl _) (fun _ => trivial) (fun x hx => hx)).trans g1, g2, g3,
            fun h0 hm hf => ⟨fun u' hu' => (by cases hu'), g4 h0 hm hf⟩⟩
        · rename_i hid
          have hcl : closeTry (some (u, f)) id = some (u, f) := by simp [closeTry, hid]
          have hlead' : closeLead (some (u, f)) l = none := by
            have : closeLead (closeTry (some (u, f)) id) l = none := hlead
            rwa [hcl] at this
          obtain ⟨g1, g2, g3, g4⟩ := ih s st d _ m st' hmem' hlead' hD.2 hloc hkn hinv hsub hseen h
          exact ⟨g1, g2, g3, fun h0 hm hf => ⟨fun u' hu' => (by cases hu'), g4 h0 hm hf⟩⟩

theorem real_upd {M : StackMap} {st : SizeSt} {b : Nat} {s : Int} {h : Option Bool} {seen : List Nat} {Y : Nat} :
    Real M { st with seen := seen, starts := upd st.starts b ((s, h) :: st.starts b) } Y ↔
      (Y = b ∧ ∃ d r, M.entry b = some (d, r) ∧ s + pushed h = d) ∨ Real M st Y := by
  unfold Real
  simp only [upd]
  by_cases hY : Y = b
  · subst hY
    simp only [if_true, true_and]
    constructor
    · rintro ⟨s', h', d, r, hm, he, hd⟩
      rcases List.mem_cons.1 hm with hm | hm
      · simp only [Prod.mk.injEq] at hm
        obtain ⟨rfl, rfl⟩ := hm
        exact .inl ⟨d, r, he, hd⟩
      · exact .inr ⟨s', h', d, r, hm, he, hd⟩
    · rintro (⟨d, r, he, hd⟩ | ⟨s', h', d, r, hm, he, hd⟩)
      · exact ⟨s, h, d, r, by simp, he, hd⟩
      · exact ⟨s', h', d, r, by simp [hm], he, hd⟩
  · simp only [hY, if_false, false_and, false_or]

/-- The analysis of a block of a graph with a stack map. -/
theorem visit_M {env : SizeEnv} {M : StackMap} {N d0 : Int} (hM : M.Valid env.P env.eff env.c d0) (hu : UniqueTry env.c)
    (h311 : env.P.py311 = true) : ∀ fuel, RecM env M N (visit env fuel) := by
  intro fuel
  induction fuel with
  | zero =>
    intro X size mx mn h pend st k m st' _ hv
    cases hv
  | succ fuel ih =>
    intro X size mx mn h pend st k m st' hpre hv
    unfold visit at hv
    by_cases hin : X ∈ st.seen
    · rw [if_pos hin] at hv
      simp only [Except.ok.injEq, Prod.mk.injEq] at hv
      obtain ⟨rfl, rfl⟩ := hv
      exact ⟨MPost.refl hpre.inv, rfl, Int.le_refl _, fun h0 => hpre.seen h0 X hin, fun _ => rfl⟩
    rw [if_neg hin] at hv
    by_cases hb : X ∈ env.c.blocks
    swap
    · rw [if_pos hb] at hv; cases hv
    rw [if_neg (by simpa using hb)] at hv
    obtain ⟨d, r', r, he, hsz, hpend, hreg, hent, hkn, hmax, hnone⟩ := hpre.entry
    have hk := hpre.nonneg
    by_cases hrel : relevantSize env.P (st.starts X) (size, h) = true
    swap
    · simp only [hrel, Bool.not_false, if_true, Except.ok.injEq, Prod.mk.injEq] at hv
      obtain ⟨rfl, rfl⟩ := hv
      refine ⟨MPost.refl hpre.inv, rfl, Int.le_refl _, ?_, fun hc => absurd hc hin⟩
      intro h0
      unfold relevantSize at hrel
      rw [if_pos h311] at hrel
      simp only [decide_eq_true_eq, Classical.not_not] at hrel
      exact ⟨size, h, d, r', hrel, he, by omega⟩
    simp only [hrel, Bool.not_true, Bool.false_eq_true, if_false] at hv
    obtain ⟨s, hs, hv⟩ := except_bind_ok hv
    have hloc : LocOK env M N k s d r ∧ mx ≤ s.max := by
      unfold enterHandler at hs
      cases h with
      | none =>
        simp only [Except.ok.injEq] at hs
        subst hs
        simp only [pushed] at hsz
        exact ⟨⟨by simp only; omega, hpend, hreg, hmax rfl⟩, Int.le_refl _⟩
      | some l =>
        obtain ⟨u1, u2, u3, u4⟩ := SizeLoc.update_ok hs
        have hmin := SizeLoc.update_min hs
        simp only [pushed] at hsz
        simp only at u1 u2 u3 u4 hmin
        have hs2 : s.size = d + k := by
          rw [u2]
          omega
        refine ⟨⟨hs2, by rw [u4, hpend], ?_, .inl (by omega)⟩, by omega⟩
        rw [hnone (by simp)]
        exact RegOK.none
    obtain ⟨hloc, hmx⟩ := hloc
    obtain ⟨hjoin, _, hD⟩ := hM.block X hb d r' he
    have hinv0 : MInv env M { st with seen := X :: st.seen, starts := upd st.starts X ((size, h) :: st.starts X) } := by
      refine ⟨hpre.inv.low, ?_, ?_, hpre.inv.tries⟩
      · intro τ hl
        exact real_upd.2 (.inr (hpre.inv.lockReal τ hl))
      · intro Y f hf
        simp only [upd] at hf
        split at hf
        · rename_i hY; rw [hY]; exact hb
        · exact hpre.inv.blocks Y f hf
    have hsub0 : ∀ Z, Z = X ∨ Z ∈ M.before X → Z ∈ X :: st.seen := by
      rintro Z (rfl | hZ)
      · simp
      · exact List.mem_cons_of_mem _ (hpre.before Z hZ)
    have hseen0 : k = 0 → ∀ Z ∈ X :: st.seen,
        Real M { st with seen := X :: st.seen, starts := upd st.starts X ((size, h) :: st.starts X) } Z := by
      intro h0 Z hZ
      rw [real_upd]
      rcases List.mem_cons.1 hZ with rfl | hZ
      · exact .inl ⟨rfl, d, r', he, by omega⟩
      · exact .inr (hpre.seen h0 Z hZ)
    have hrun : RunM env M N k X { st with seen := X :: st.seen, starts := upd st.starts X ((size, h) :: st.starts X) } s.max
        (fun st' => closedM env M N st' (env.c.heap X).next (env.c.heap X).elems d r') m st' := by
      rcases hent with hc | hent
      · exact absurd hc hin
      · rcases hent with rfl | ⟨j1, j2, j3⟩
        · exact runElems_M ih hk hb hu _ _ _ _ _ _ _ _ (fun x hx => hx) hD hloc hkn hinv0 hsub0 hseen0 hv
        · have := hjoin j1
          subst this
          exact runLead_M ih hk hb hu r j3 _ _ _ _ _ _ _ (fun x hx => hx) j2 hD hloc hkn hinv0 hsub0 hseen0 hv
    obtain ⟨g1, g2, g3, g4⟩ := hrun
    simp only at g1 g2 g4
    have hmono0 : MMono M st { st with seen := X :: st.seen, starts := upd st.starts X ((size, h) :: st.starts X) } := by
      refine ⟨?_, fun _ h => h, fun _ h => h⟩
      intro Y f hf
      simp only [upd]
      split
      · rename_i hY; subst hY; exact List.mem_cons_of_mem _ hf
      · exact hf
    refine ⟨⟨g1.inv, hmono0.trans g1.mono, g1.lockMax, ?_, g1.noLock, ?_⟩, by simp [g2], by omega, ?_, fun hc => absurd hc hin⟩
    · intro h0 Y hY
      rcases real_upd.1 (g1.noReal h0 Y hY) with ⟨_, d', r2, he', hd'⟩ | h
      · rw [he] at he'
        simp only [Option.some.injEq, Prod.mk.injEq] at he'
        omega
      · exact h
    · intro hm hf Y hY
      rcases g1.closed hm hf Y hY with h2 | h2
      · rcases real_upd.1 h2 with ⟨rfl, d', r2, he', hd'⟩ | h2
        · right
          rw [he] at he'
          simp only [Option.some.injEq, Prod.mk.injEq] at he'
          have h0 : k = 0 := by omega
          refine ⟨d, r', he, ?_, ?_, g4 h0 hm hf⟩
          · have := hloc.size
            rcases hloc.max with h | h <;> omega
          rcases hent with hc | rfl | ⟨j1, _, _⟩
          · exact absurd hc hin
          · exact fun u f hu => g1.mono.tries u (hkn u f hu)
          · rw [hjoin j1]; exact Known.none _
        · exact .inl h2
      · exact .inr h2
    · intro h0
      exact g1.mono.real (hseen0 h0 X (by simp))

end Verif
