import Verif.Spec.RegionFlow
import Verif.Proofs.GraphRules
import Verif.Proofs.StackMap
import Verif.Props.StackSize
/-
The errors the stack size analysis can raise on a graph that follows the rules.
-/
namespace Verif
open Spec

/-- Only errors satisfying `E`, and a property of the result. -/
def EGood {α : Type} (E : PyErr → Prop) (Q : α → Prop) : Py α → Prop
  | .ok a => Q a
  | .error e => E e

theorem EGood.bind {α β : Type} {E : PyErr → Prop} {Q : α → Prop} {Q' : β → Prop} {x : Py α} {f : α → Py β} (hx : EGood E Q x)
    (hf : ∀ a, Q a → EGood E Q' (f a)) : EGood E Q' (x >>= f) := by
  cases x with
  | ok a => exact hf a hx
  | error e => exact hx

/-- The errors allowed. -/
def Reason (P : Platform) (eff : Instr → Bool → Py (Int × Int)) (c : CFG) (e : PyErr) : Prop :=
  e = .runtimeError ∨ e = .outOfFuel ∨ (e = .assertionError ∧ (NestedFlow P c ∨ (¬ PushesPos eff c ∧ ∃ t, BElem.tryBegin t ∈ allCode c)))

/-- Storage: the TryBegin met are in the graph, the depths are not negative. -/
structure RInv (env : SizeEnv) (st : SizeSt) : Prop where
  tries : ∀ t ∈ st.tries, BElem.tryBegin t ∈ allCode env.c
  exc : PushesPos env.eff env.c → ∀ b, 0 ≤ st.excStart b

/-- The local state at a point. -/
structure RLoc (env : SizeEnv) (b i : Nat) (s : SizeLoc) : Prop where
  cur : ∀ t, s.cur = some t → BElem.tryBegin t ∈ allCode env.c ∧ Inside env.P env.c t b i
  pos : PushesPos env.eff env.c → 0 ≤ s.size ∧ 0 ≤ s.min

def RecR (env : SizeEnv) (rec : Visit) : Prop :=
  ∀ X size mx mn h pend st, X ∈ env.c.blocks → RInv env st → (∀ t, pend = some t → BElem.tryBegin t ∈ allCode env.c ∧ Inside env.P env.c t X 0) →
    (PushesPos env.eff env.c → 0 ≤ size ∧ 0 ≤ mn) →
    EGood (Reason env.P env.eff env.c) (fun p => RInv env p.2) (rec X size mx mn h pend st)

theorem mem_allCode {c : CFG} {b : Nat} {x : BElem} (hb : b ∈ c.blocks) (hx : x ∈ (c.heap b).elems) : x ∈ allCode c :=
  List.mem_flatMap.2 ⟨b, hb, hx⟩

theorem update_reason {env : SizeEnv} {b i j : Nat} {s : SizeLoc} {ins : Instr} {jmp : Bool} {e : Int × Int} (hi : BElem.instr ins ∈ allCode env.c)
    (he : env.eff ins jmp = .ok e) (hs : RLoc env b i s) :
    EGood (Reason env.P env.eff env.c) (fun s' => s'.cur = s.cur ∧ (PushesPos env.eff env.c → 0 ≤ s'.size ∧ 0 ≤ s'.min)) (s.update e) := by
  unfold SizeLoc.update
  split
  · exact .inl rfl
  · rename_i h
    refine ⟨rfl, fun hp => ?_⟩
    have h1 := hs.pos hp
    have h2 := hp ins jmp e hi he
    simp only
    omega

theorem handlerUsage_reason {env : SizeEnv} (hS : Sizeable env.P env.eff env.c) {rec : Visit} (hrec : RecR env rec) {s : SizeLoc}
    (hs : PushesPos env.eff env.c → 0 ≤ s.size ∧ 0 ≤ s.min) {t : TryB} (ht : BElem.tryBegin t ∈ allCode env.c) {st : SizeSt} (hst : RInv env st) :
    EGood (Reason env.P env.eff env.c) (RInv env) (handlerUsage env rec s t.target t.lasti st) := by
  unfold handlerUsage
  rw [if_pos (hS.rules.handlers t ht)]
  split
  · refine EGood.bind (hrec _ _ _ _ _ _ _ (hS.rules.handlers t ht) hst (fun t ht => by cases ht) (fun hp => ⟨(hs hp).2, (hs hp).2⟩)) ?_
    rintro ⟨m, st'⟩ h
    refine ⟨h.tries, fun hp b => ?_⟩
    simp only [upd]
    split
    · exact (hs hp).2
    · exact h.exc hp b
  · exact hst

theorem findTry_mem {c : CFG} {id : Nat} {t : TryB} (h : c.findTry id = some t) : BElem.tryBegin t ∈ allCode c ∧ t.id = id := by
  unfold CFG.findTry at h
  obtain ⟨x, hx, h⟩ := List.exists_of_findSome?_eq_some h
  cases x with
  | tryBegin u =>
    simp only at h
    split at h
    · cases h; exact ⟨hx, by assumption⟩
    · cases h
  | _ => cases h

theorem findTry_some {c : CFG} {t : TryB} (h : BElem.tryBegin t ∈ allCode c) : ∃ u, c.findTry t.id = some u := by
  cases hf : c.findTry t.id with
  | some u => exact ⟨u, rfl⟩
  | none =>
    unfold CFG.findTry at hf
    rw [List.findSome?_eq_none_iff] at hf
    have := hf _ h
    simp at this

theorem nextEnd_mem {l : List BElem} {id : Nat} (h : trailingTryEnd l = some id) : BElem.tryEnd id ∈ l := by
  unfold trailingTryEnd at h
  obtain ⟨x, hx, h⟩ := List.exists_of_findSome?_eq_some h
  cases x with
  | tryEnd u => cases h; exact hx
  | _ => cases h

theorem finalTryEnd_reason {env : SizeEnv} (hS : Sizeable env.P env.eff env.c) {rec : Visit} (hrec : RecR env rec) {s : SizeLoc}
    (hs : PushesPos env.eff env.c → 0 ≤ s.size ∧ 0 ≤ s.min) {r : List BElem} (hr : ∀ x ∈ r, x ∈ allCode env.c) {st : SizeSt} (hst : RInv env st) :
    EGood (Reason env.P env.eff env.c) (RInv env) (finalTryEnd env rec s r st) := by
  unfold finalTryEnd
  split
  · exact hst
  · rename_i id htr
    obtain ⟨t, ht, rfl⟩ := hS.ends id (hr _ (nextEnd_mem htr))
    obtain ⟨u, hu⟩ := findTry_some ht
    rw [hu]
    exact handlerUsage_reason hS hrec hs (findTry_mem hu).1 hst

theorem uncondTryEnd_reason {env : SizeEnv} (hS : Sizeable env.P env.eff env.c) {rec : Visit} (hrec : RecR env rec) {s : SizeLoc}
    (hs : PushesPos env.eff env.c → 0 ≤ s.size ∧ 0 ≤ s.min) (hc : ∀ t, s.cur = some t → BElem.tryBegin t ∈ allCode env.c) {r : List BElem} {st : SizeSt} (hst : RInv env st) :
    EGood (Reason env.P env.eff env.c) (RInv env) (uncondTryEnd env rec s r st) := by
  unfold uncondTryEnd
  split
  · rename_i id t _ hcur
    split
    · exact handlerUsage_reason hS hrec hs (hc t hcur) hst
    · exact hst
  · exact hst

theorem blkIter_suffix {P : Platform} : ∀ (a : List BElem) {x : BElem} {r : List BElem}, blkIter P (a ++ x :: r) = .ok () → blkCheck P x r = .ok ()
  | [], x, r, h => by
    simp only [List.nil_append, blkIter] at h
    obtain ⟨⟨⟩, h1, _⟩ := except_bind_ok h
    exact h1
  | y :: a, x, r, h => by
    simp only [List.cons_append, blkIter] at h
    obtain ⟨⟨⟩, _, h2⟩ := except_bind_ok h
    exact blkIter_suffix a h2

theorem Spec.Sizeable.iter {P : Platform} {eff : Instr → Bool → Py (Int × Int)} {c : CFG} (hS : Sizeable P eff c) {b : Nat} (hb : b ∈ c.blocks) :
    blkIter P (c.heap b).elems = .ok () :=
  blkIter_of (hS.rules.labels b hb) (fun a i r e hj => by
    obtain ⟨h1, k, _, h2⟩ := hS.rules.jumps b hb a i r e hj
    exact ⟨h1, k, h2⟩)

theorem runElems_reason {env : SizeEnv} (hS : Sizeable env.P env.eff env.c) {rec : Visit} (hrec : RecR env rec) {b : Nat} (hb : b ∈ env.c.blocks) :
    ∀ (es pre : List BElem) (s : SizeLoc) (st : SizeSt), (env.c.heap b).elems = pre ++ es → RLoc env b pre.length s → RInv env st →
    EGood (Reason env.P env.eff env.c) (fun p => RInv env p.2) (runElems env rec b es s st) := by
  intro es
  induction es with
  | nil =>
    intro pre s st hel hs hst
    unfold runElems runEnd
    split
    · exact ⟨hst.tries, hst.exc⟩
    · rename_i n hn
      split
      · exact ⟨hst.tries, hst.exc⟩
      · refine EGood.bind (hrec _ _ _ _ _ _ _ (hS.next b hb n hn) hst ?_ hs.pos) ?_
        · intro t ht
          obtain ⟨h1, h2⟩ := hs.cur t ht
          exact ⟨h1, .next h2 (by rw [hel]; simp) hn⟩
        · rintro ⟨m, st'⟩ h
          exact ⟨h.tries, h.exc⟩
  | cons x r ih =>
    intro pre s st hel hs hst
    have hx : (env.c.heap b).elems[pre.length]? = some x := by
      rw [hel, List.getElem?_append_right (Nat.le_refl _)]; simp
    have hdrop : (env.c.heap b).elems.drop (pre.length + 1) = r := by rw [hel]; simp
    have hel' : (env.c.heap b).elems = (pre ++ [x]) ++ r := by simp [hel]
    have hlen : (pre ++ [x]).length = pre.length + 1 := by simp
    have hmem : x ∈ allCode env.c := mem_allCode hb (by rw [hel]; simp)
    have hrm : ∀ y ∈ r, y ∈ allCode env.c := fun y hy => mem_allCode hb (by rw [hel]; simp [hy])
    have hck : blkCheck env.P x r = .ok () := blkIter_suffix pre (by rw [← hel]; exact hS.iter hb)
    have hmark : x.isInstr = false → (∀ t, s.cur = some t → x ≠ .tryEnd t.id) → RLoc env b (pre ++ [x]).length s := by
      intro hi hne
      refine ⟨fun t ht => ?_, hs.pos⟩
      obtain ⟨h1, h2⟩ := hs.cur t ht
      rw [hlen]
      exact ⟨h1, .mark h2 hx hi (hne t ht)⟩
    unfold runElems
    rw [hck]
    simp only [bind, Except.bind]
    cases x with
    | label l => simp [blkCheck] at hck
    | setLineno n => exact ih _ s st hel' (hmark rfl (fun t _ h => by cases h)) hst
    | tryBegin t =>
      cases hcur : s.cur with
      | some u =>
        right; right
        exact ⟨rfl, .inl ⟨u, b, pre.length, t, (hs.cur u hcur).2, hx⟩⟩
      | none =>
        simp only [pyAssert, Option.isNone_none, if_true]
        refine ih _ _ _ hel' ⟨?_, fun hp => ⟨(hs.pos hp).1, (hs.pos hp).1⟩⟩ ⟨?_, hst.exc⟩
        · intro u hu
          cases hu
          rw [hlen]
          exact ⟨hmem, .start hb hx⟩
        · intro u hu
          rcases List.mem_append.1 hu with h | h
          · exact hst.tries u h
          · simp only [List.mem_singleton] at h; subst h; exact hmem
    | tryEnd id =>
      simp only
      cases hcur : s.cur with
      | none => exact ih _ s st hel' (hmark rfl (fun t ht => by rw [hcur] at ht; cases ht)) hst
      | some t =>
        simp only
        split
        · have := EGood.bind (Q' := fun p => RInv env p.2) (f := fun st => runElems env rec b r { s with cur := none } st)
            (handlerUsage_reason hS hrec hs.pos (hs.cur t hcur).1 hst) (fun st1 h1 => ih (pre ++ [.tryEnd id]) _ st1 hel'
              ⟨(fun t ht => by cases ht), hs.pos⟩ h1)
          exact this
        · rename_i hne
          refine ih _ s st hel' (hmark rfl (fun u hu h => ?_)) hst
          rw [hcur] at hu
          cases hu
          cases h
          exact hne rfl
    | instr i =>
      have hfall : ∀ (s1 : SizeLoc) (st1 : SizeSt), RLoc env b pre.length s1 → RInv env st1 → (env.P.hasJump i.opcode && isUncondJump i.name) = false →
          EGood (Reason env.P env.eff env.c) (fun p => RInv env p.2) (do
            let e ← env.eff i false
            let s ← s1.update e
            if isFinal i.name then do
              let st ← finalTryEnd env rec s r st1
              leaveBlock b s st
            else runElems env rec b r s st1) := by
        intro s1 st1 h1 h2 hnu
        obtain ⟨e, he⟩ := hS.fall i hmem hnu
        refine EGood.bind (Q := fun x => x = e) (by rw [he]; rfl) fun x hx' => ?_
        subst hx'
        refine EGood.bind (update_reason (j := 0) hmem he h1) fun s2 ⟨hc, hp⟩ => ?_
        split
        · refine EGood.bind (finalTryEnd_reason hS hrec hp hrm h2) fun st2 h3 => ?_
          exact ⟨h3.tries, h3.exc⟩
        · rename_i hf
          refine ih (pre ++ [.instr i]) s2 st1 hel' ⟨fun t ht => ?_, hp⟩ h2
          obtain ⟨g1, g2⟩ := h1.cur t (by rw [← hc]; exact ht)
          rw [hlen]
          exact ⟨g1, .go g2 hx (by simpa using hf)⟩
      simp only
      split
      · rename_i hj
        obtain ⟨_, k, hk, harg⟩ := hS.rules.jumps b hb pre i r hel hj
        have hjt : EGood (Reason env.P env.eff env.c) (fun p => RLoc env b pre.length p.1 ∧ RInv env p.2) (jumpTaken env rec i r s st) := by
          unfold jumpTaken
          obtain ⟨e, he⟩ := hS.jump i hmem hj
          refine EGood.bind (Q := fun x => x = e) (by rw [he]; rfl) fun x hx' => ?_
          subst hx'
          refine EGood.bind (update_reason (j := 0) hmem he hs) fun s1 ⟨hc, hp⟩ => ?_
          rw [harg]
          simp only [Arg.asBlock]
          refine EGood.bind (hrec _ _ _ _ _ _ _ hk hst ?_ hp) ?_
          · intro t ht
            split at ht
            · cases ht
            · rename_i hcond
              obtain ⟨g1, g2⟩ := hs.cur t ht
              refine ⟨g1, .jump g2 hx hj harg (fun hf => ?_)⟩
              rw [hdrop, ← nextEnd_eq]
              simpa [hf] using hcond
          · rintro ⟨m, st'⟩ h
            exact ⟨⟨hs.cur, hs.pos⟩, h⟩
        refine EGood.bind hjt ?_
        rintro ⟨s1, st1⟩ ⟨h1, h2⟩
        simp only at h1 h2 ⊢
        split
        · refine EGood.bind (uncondTryEnd_reason hS hrec h1.pos (fun t ht => (h1.cur t ht).1) h2) fun st2 h3 => ?_
          exact ⟨h3.tries, h3.exc⟩
        · rename_i hun
          exact hfall s1 st1 h1 h2 (by simp [hun])
      · rename_i hj
        exact hfall s st hs hst (by simp [hj])

theorem push_reason {env : SizeEnv} {X : Nat} {size mx mn : Int} {pend : Option TryB} (k : Int) (hk : 0 ≤ k)
    (hp : ∀ t, pend = some t → BElem.tryBegin t ∈ allCode env.c ∧ Inside env.P env.c t X 0)
    (hpos : PushesPos env.eff env.c → 0 ≤ size ∧ 0 ≤ mn) :
    EGood (Reason env.P env.eff env.c) (fun s' => RLoc env X 0 s') (SizeLoc.update ⟨size, mx, mn, pend⟩ (0, k)) := by
  unfold SizeLoc.update
  split
  · exact .inl rfl
  · refine ⟨hp, fun h => ?_⟩
    have := hpos h
    simp only
    omega

theorem visit_reason {env : SizeEnv} (hS : Sizeable env.P env.eff env.c) : ∀ fuel, RecR env (visit env fuel) := by
  intro fuel
  induction fuel with
  | zero => intro X size mx mn h pend st _ _ _ _; exact .inr (.inl rfl)
  | succ fuel ih =>
    intro X size mx mn h pend st hX hst hp hpos
    unfold visit
    split
    · exact hst
    · split
      · exact hst
      · have h1 : EGood (Reason env.P env.eff env.c) (fun s' => RLoc env X 0 s') (enterHandler h ⟨size, mx, mn, pend⟩) := by
          unfold enterHandler
          split
          · exact ⟨hp, hpos⟩
          · exact push_reason _ (by split <;> omega) hp hpos
        refine EGood.bind h1 fun s' hs' => ?_
        exact runElems_reason hS ih hX _ [] _ _ rfl hs' ⟨hst.tries, hst.exc⟩

theorem deadTries_total {env : SizeEnv} (hS : Sizeable env.P env.eff env.c) (st : SizeSt) : ∀ bs : List Nat, (∀ b ∈ bs, b ∈ env.c.blocks) →
    ∃ ids, deadTries env st bs = .ok ids
  | [], _ => ⟨[], rfl⟩
  | b :: r, h => by
    obtain ⟨ids, hi⟩ := deadTries_total hS st r (fun x hx => h x (by simp [hx]))
    unfold deadTries
    split
    · rw [hS.iter (h b (by simp)), hi]
      exact ⟨_, rfl⟩
    · exact ⟨ids, hi⟩

theorem assignDepths_reason {env : SizeEnv} (hS : Sizeable env.P env.eff env.c) {st : SizeSt} (hst : RInv env st) : ∀ (ts : List TryB) (c : CFG),
    (∀ t ∈ ts, BElem.tryBegin t ∈ allCode env.c) → EGood (Reason env.P env.eff env.c) (fun _ => True) (assignDepths env st c ts)
  | [], _, _ => trivial
  | t :: r, c, h => by
    unfold assignDepths
    rw [if_pos (hS.rules.handlers t (h t (by simp)))]
    have h1 : EGood (Reason env.P env.eff env.c) (fun _ => True) (pyAssert (decide (0 ≤ st.excStart t.target))) := by
      unfold pyAssert
      split
      · trivial
      · rename_i hn
        refine .inr (.inr ⟨rfl, .inr ⟨fun hp => hn ?_, t, h t (by simp)⟩⟩)
        simpa using hst.exc hp t.target
    exact EGood.bind h1 fun _ _ => assignDepths_reason hS hst r _ (fun x hx => h x (by simp [hx]))

theorem initialSize_nonneg (P : Platform) (flags : Nat) : 0 ≤ initialSize P flags := by
  unfold initialSize; split <;> omega

/-- The errors of `compute_stacksize`. -/
theorem computeStacksize_reason {P : Platform} {eff : Instr → Bool → Py (Int × Int)} {c : CFG} (hS : Sizeable P eff c) (depths : Bool) :
    EGood (Reason P eff c) (fun _ => True) (c.computeStacksize P eff depths) := by
  unfold CFG.computeStacksize
  split
  · trivial
  · rename_i b r hbl
    have hv := visit_reason (env := ⟨P, eff, c⟩) hS (c.blocks.length + 1) b (initialSize P c.attrs.flags) 0 0 none none SizeSt.init
      (by simp [hbl]) ⟨by intro t ht; simp [SizeSt.init] at ht, by intro _ b; simp [SizeSt.init]⟩ (fun t ht => by cases ht) (fun _ => ⟨initialSize_nonneg _ _, Int.le_refl _⟩)
    refine EGood.bind hv ?_
    rintro ⟨m, st⟩ hst
    obtain ⟨ids, hi⟩ := deadTries_total (env := ⟨P, eff, c⟩) hS st c.blocks (fun b hb => hb)
    simp only
    rw [hi]
    simp only [bind, Except.bind]
    split
    · have := EGood.bind (Q' := fun _ => True) (f := fun c2 => (pure (withHandlers c st m, c2) : Py (Int × CFG)))
        (assignDepths_reason (env := ⟨P, eff, c⟩) hS hst st.tries (ids.foldl (fun c id => c.setDepth id 32768) c) hst.tries) (fun _ _ => trivial)
      exact this
    · trivial

end Verif
