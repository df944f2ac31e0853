import Verif.Proofs.CfgTryMain
/-
The result of `to_bytecode` delimits its regions properly.
-/
namespace Verif
open Spec

/-- `WellTried`, read from left to right: the region open, the TryBegin met, whether an instruction was met. -/
def wtStep (s : Option Nat × List Nat × Bool) : BElem → Option (Option Nat × List Nat × Bool)
  | .tryBegin t => if s.1 = none ∧ t.id ∉ s.2.1 then some (some t.id, t.id :: s.2.1, s.2.2) else none
  | .tryEnd id => if s.1 = some id ∧ s.2.2 = true then some (none, s.2.1, s.2.2) else none
  | .instr _ => some (s.1, s.2.1, true)
  | .label _ => some s
  | .setLineno _ => some s

def wtRun (s : Option Nat × List Nat × Bool) (es : List BElem) : Option (Option Nat × List Nat × Bool) := es.foldlM wtStep s

theorem wtRun_nil (s : Option Nat × List Nat × Bool) : wtRun s [] = some s := rfl

theorem wtRun_cons (s : Option Nat × List Nat × Bool) (e : BElem) (r : List BElem) : wtRun s (e :: r) = (wtStep s e).bind (fun s => wtRun s r) := by
  unfold wtRun
  rw [List.foldlM_cons]; rfl

theorem wtRun_append (s : Option Nat × List Nat × Bool) (a b : List BElem) : wtRun s (a ++ b) = (wtRun s a).bind (fun s => wtRun s b) := by
  unfold wtRun
  rw [List.foldlM_append]; rfl

theorem wtRun_snoc (s : Option Nat × List Nat × Bool) (a : List BElem) (e : BElem) : wtRun s (a ++ [e]) = (wtRun s a).bind (fun s => wtStep s e) := by
  rw [wtRun_append]
  congr 1
  funext x
  rw [wtRun_cons]
  cases wtStep x e <;> rfl

theorem wellTried_run {es : List BElem} : ∀ {s s' : Option Nat × List Nat × Bool}, wtRun s es = some s' → s'.1 = none → WellTried s.1 s.2.1 s.2.2 es := by
  induction es with
  | nil =>
    intro s s' h hn
    rw [wtRun_nil] at h
    simp only [Option.some.injEq] at h
    subst h; exact hn
  | cons e r ih =>
    intro s s' h hn
    rw [wtRun_cons] at h
    obtain ⟨s1, h1, h⟩ := Option.bind_eq_some_iff.1 h
    have ih := ih h hn
    cases e with
    | tryBegin t =>
      simp only [wtStep] at h1
      split at h1
      · rename_i hc
        simp only [Option.some.injEq] at h1
        subst h1
        exact ⟨hc.1, hc.2, ih⟩
      · cases h1
    | tryEnd t =>
      simp only [wtStep] at h1
      split at h1
      · rename_i hc
        simp only [Option.some.injEq] at h1
        subst h1
        exact ⟨hc.1, hc.2, ih⟩
      · cases h1
    | instr i => simp only [wtStep, Option.some.injEq] at h1; subst h1; exact ih
    | label i => simp only [wtStep, Option.some.injEq] at h1; subst h1; exact ih
    | setLineno i => simp only [wtStep, Option.some.injEq] at h1; subst h1; exact ih

theorem wtRun_marks {b : List BElem} (h : MarksOnly b) (s : Option Nat × List Nat × Bool) : wtRun s b = some s := by
  induction b with
  | nil => rfl
  | cons e r ih =>
    have ih := ih (fun x hx => h x (by simp [hx]))
    rw [wtRun_cons]
    rcases h e (by simp) with ⟨l, rfl⟩ | ⟨l, rfl⟩
    · exact ih
    · exact ih

theorem wtRun_depth (id : Nat) (d : Option Nat) (es : List BElem) : ∀ s, wtRun s (setTryDepth id d es) = wtRun s es := by
  induction es with
  | nil => intro s; rfl
  | cons e r ih =>
    intro s
    have e0 : setTryDepth id d (e :: r) = setTryDepth id d [e] ++ setTryDepth id d r := setTryDepth_append id d [e] r
    cases e with
    | tryBegin t =>
      have e1 : setTryDepth id d [.tryBegin t] = [.tryBegin (if t.id = id then { t with depth := d } else t)] := by
        simp only [setTryDepth, List.map_cons, List.map_nil]
        split <;> rfl
      rw [e0, e1, List.singleton_append, wtRun_cons, wtRun_cons]
      have : wtStep s (.tryBegin (if t.id = id then { t with depth := d } else t)) = wtStep s (.tryBegin t) := by
        simp only [wtStep]
        split <;> rfl
      rw [this]
      congr 1
      funext s
      exact ih s
    | _ =>
      rw [e0]
      show wtRun s (_ :: setTryDepth id d r) = _
      rw [wtRun_cons, wtRun_cons]
      congr 1
      funext s
      exact ih s

/-- The output so far delimits its regions. -/
structure WInv (s : ToSt) (g : List BElem) (o : Option Nat) (seen : List Nat) (any : Bool) : Prop where
  run : wtRun (none, [], false) s.out = some (o, seen, any)
  sub : ∀ x ∈ seen, x ∈ begins g
  any : 0 < instrCount g → any = true
  own : ∀ u, stW nextId none g = some u → ∃ bid, s.tries u.id = some (u, bid) ∧ o = some bid
  none_ : stW nextId none g = none → o = none

theorem instrCount_snoc (g : List BElem) (e : BElem) : instrCount (g ++ [e]) = instrCount g + if e.isInstr then 1 else 0 := by
  rw [instrCount_append]
  simp only [instrCount, List.countP_cons, List.countP_nil]
  omega

theorem wstep {s s' : ToSt} {g : List BElem} {e : BElem} {o : Option Nat} {seen : List Nat} {any : Bool} (k : KInv s g)
    (h : WInv s g o seen any) (ho : Ordered (g ++ [e])) (hr : s.step e = .ok s') : ∃ o' seen' any', WInv s' (g ++ [e]) o' seen' any' := by
  have hog := ordered_prefix ho
  cases e with
  | label l =>
    simp only [ToSt.step, Except.ok.injEq] at hr
    subst hr
    have e1 : stW nextId none (g ++ [.label l]) = stW nextId none g := by rw [stW_snoc]; rfl
    refine ⟨o, seen, any, ?_, ?_, ?_, by rw [e1]; exact h.own, by rw [e1]; exact h.none_⟩
    · show wtRun _ (s.out ++ [.label l]) = _
      rw [wtRun_snoc, h.run]; rfl
    · intro x hx; rw [begins_append, List.mem_append]; exact .inl (h.sub x hx)
    · rw [instrCount_snoc]; exact h.any
  | setLineno l =>
    simp only [ToSt.step, Except.ok.injEq] at hr
    subst hr
    have e1 : stW nextId none (g ++ [.setLineno l]) = stW nextId none g := by rw [stW_snoc]; rfl
    refine ⟨o, seen, any, ?_, ?_, ?_, by rw [e1]; exact h.own, by rw [e1]; exact h.none_⟩
    · show wtRun _ (s.out ++ [.setLineno l]) = _
      rw [wtRun_snoc, h.run]; rfl
    · intro x hx; rw [begins_append, List.mem_append]; exact .inl (h.sub x hx)
    · rw [instrCount_snoc]; exact h.any
  | instr l =>
    simp only [ToSt.step, Except.ok.injEq] at hr
    subst hr
    have e1 : stW nextId none (g ++ [.instr l]) = stW nextId none g := by rw [stW_snoc]; rfl
    refine ⟨o, seen, true, ?_, ?_, fun _ => rfl, by rw [e1]; exact h.own, by rw [e1]; exact h.none_⟩
    · show wtRun _ (s.out ++ [.instr l]) = _
      rw [wtRun_snoc, h.run]; rfl
    · intro x hx; rw [begins_append, List.mem_append]; exact .inl (h.sub x hx)
  | tryEnd id =>
    simp only [ToSt.step] at hr
    split at hr
    · rename_i hs
      simp only [Except.ok.injEq] at hr
      subst hr
      have hm := (k.seen id).1 hs
      have e1 : stW nextId none (g ++ [.tryEnd id]) = stW nextId none g := by
        rw [stW_snoc]
        show (if (stW nextId none g).map (·.id) = some id then none else stW nextId none g) = _
        rw [if_neg]
        intro hh
        cases hst : stW nextId none g with
        | none => rw [hst] at hh; cases hh
        | some u =>
          rw [hst] at hh
          exact ended_not_open hog.nodup hog.bef hm hst (by simpa using hh)
      refine ⟨o, seen, any, h.run, ?_, ?_, by rw [e1]; exact h.own, by rw [e1]; exact h.none_⟩
      · intro x hx; rw [begins_append, List.mem_append]; exact .inl (h.sub x hx)
      · rw [instrCount_snoc]; exact h.any
    · rename_i hs
      have hm : BElem.tryEnd id ∉ g := fun hh => hs ((k.seen id).2 hh)
      have hbf := ho.bef g id [] rfl
      have hop := open_of_begun hog.tidy (.inl hbf.1) hm
      have e1 : stW nextId none (g ++ [.tryEnd id]) = none := by
        rw [stW_snoc]
        show (if (stW nextId none g).map (·.id) = some id then none else stW nextId none g) = _
        rw [if_pos hop]
      cases hst : stW nextId none g with
      | none => rw [hst] at hop; cases hop
      | some u =>
        rw [hst] at hop
        simp only [Option.map_some, Option.some.injEq] at hop
        obtain ⟨bid, hb, hob⟩ := h.own u hst
        rw [hop] at hb
        rw [hb] at hr
        simp only [Except.ok.injEq] at hr
        subst hr
        refine ⟨none, seen, any, ?_, ?_, ?_, (by rw [e1]; intro u hu; cases hu), fun _ => rfl⟩
        · show wtRun _ (s.out ++ [.tryEnd bid]) = _
          rw [wtRun_snoc, h.run]
          simp [wtStep, hob, h.any hbf.2]
        · intro x hx; rw [begins_append, List.mem_append]; exact .inl (h.sub x hx)
        · rw [instrCount_snoc]; exact h.any
  | tryBegin t =>
    have ht : stW nextId none g = none := ((tidy_append _ _ _).1 ho.tidy).2.1 t rfl
    have hn : s.nested t = .ok s := by
      unfold ToSt.nested
      rw [k.tb ht]
    have e1 : stW nextId none (g ++ [.tryBegin t]) = some t := by rw [stW_snoc]; rfl
    have htid : t.id ∉ begins g := by
      have := ho.nodup
      rw [begins_append, List.nodup_append] at this
      intro hh
      exact this.2.2 t.id hh t.id (by simp [begins]) rfl
    have hfresh : ∃ o' seen' any', WInv (s.freshTry t) (g ++ [.tryBegin t]) o' seen' any' := by
      refine ⟨some t.id, t.id :: seen, any, ?_, ?_, ?_, ?_, (by rw [e1]; intro hh; cases hh)⟩
      · show wtRun _ (s.out ++ [.tryBegin t]) = _
        rw [wtRun_snoc, h.run]
        have hns : t.id ∉ seen := fun hh => htid (h.sub _ hh)
        simp [wtStep, h.none_ ht, hns]
      · intro x hx
        rw [begins_append, List.mem_append]
        rcases List.mem_cons.1 hx with rfl | hx
        · exact .inr (by simp [begins])
        · exact .inl (h.sub x hx)
      · rw [instrCount_snoc]; exact h.any
      · intro u hu
        rw [e1] at hu
        simp only [Option.some.injEq] at hu
        subst hu
        exact ⟨t.id, by simp [ToSt.freshTry, upd], rfl⟩
    simp only [ToSt.step, hn] at hr
    change (match s.lastTE with
      | some (entry, bid, pos) => if entry.target = t.target ∧ entry.lasti = t.lasti then s.fuse t entry bid pos else pure (s.freshTry t)
      | none => pure (s.freshTry t)) = Except.ok s' at hr
    split at hr
    · rename_i entry bid pos hl
      split at hr
      · unfold ToSt.fuse at hr
        obtain ⟨d, _, hr⟩ := except_bind_ok hr
        cases pos with
        | none => cases hr
        | some p =>
          simp only [Except.ok.injEq] at hr
          subst hr
          obtain ⟨a, b, h1, h2, h3, h4⟩ := k.te _ _ _ hl
          have hout : (setTryDepth bid d s.out).eraseIdx p = setTryDepth bid d a ++ b := by
            have hl : (setTryDepth bid d a).length = p := by rw [← h2]; simp [setTryDepth]
            have hx : setTryDepth bid d (BElem.tryEnd bid :: b) = BElem.tryEnd bid :: b := by
              have := setTryDepth_append bid d [.tryEnd bid] b
              rw [setTryDepth_plain h3] at this
              exact this
            rw [h1, setTryDepth_append, hx, List.eraseIdx_append_of_length_le (by omega), hl, Nat.sub_self]
            rfl
          have hrun := h.run
          rw [h1, wtRun_append] at hrun
          obtain ⟨⟨o1, seen1, any1⟩, ha, hrun⟩ := Option.bind_eq_some_iff.1 hrun
          rw [wtRun_cons] at hrun
          obtain ⟨⟨o2, seen2, any2⟩, hb, hrun⟩ := Option.bind_eq_some_iff.1 hrun
          rw [wtRun_marks h3] at hrun
          simp only [Option.some.injEq, Prod.mk.injEq] at hrun
          obtain ⟨rfl, rfl, rfl⟩ := hrun
          simp only [wtStep] at hb
          split at hb
          · rename_i hc
            simp only [Option.some.injEq, Prod.mk.injEq] at hb
            obtain ⟨rfl, rfl, rfl⟩ := hb
            refine ⟨some bid, seen1, any1, ?_, ?_, ?_, ?_, (by rw [e1]; intro hh; cases hh)⟩
            · show wtRun _ ((setTryDepth bid d s.out).eraseIdx p) = _
              rw [hout, wtRun_append, wtRun_depth, ha]
              simp only [Option.bind_some]
              rw [wtRun_marks h3, hc.1]
            · intro x hx; rw [begins_append, List.mem_append]; exact .inl (h.sub x hx)
            · rw [instrCount_snoc]; exact h.any
            · intro u hu
              rw [e1] at hu
              simp only [Option.some.injEq] at hu
              subst hu
              exact ⟨bid, by simp [upd], rfl⟩
          · cases hb
      · simp only [pure, Except.pure, Except.ok.injEq] at hr
        subst hr; exact hfresh
    · simp only [pure, Except.pure, Except.ok.injEq] at hr
      subst hr; exact hfresh

theorem wrun (es : List BElem) : ∀ {s s' : ToSt} {g : List BElem} {o : Option Nat} {seen : List Nat} {any : Bool}, KInv s g → WInv s g o seen any →
    Ordered (g ++ es) → s.run es = .ok s' → ∃ o' seen' any', WInv s' (g ++ es) o' seen' any' := by
  induction es with
  | nil =>
    intro s s' g o seen any _ h _ hr
    simp only [ToSt.run, Except.ok.injEq] at hr
    subst hr
    rw [List.append_nil]; exact ⟨o, seen, any, h⟩
  | cons e r ih =>
    intro s s' g o seen any k h ho hr
    unfold ToSt.run at hr
    obtain ⟨s1, h1, hr⟩ := except_bind_ok hr
    have e0 : g ++ e :: r = (g ++ [e]) ++ r := by simp
    rw [e0] at ho ⊢
    have hp := ordered_prefix ho
    obtain ⟨o1, seen1, any1, w1⟩ := wstep k h hp h1
    exact ih (kstep k hp h1) w1 ho hr

theorem wloop {heap : Nat → Blk} {used : List Nat} (bs : List Nat) : ∀ {s s' : ToSt} {g : List BElem} {o : Option Nat} {seen : List Nat} {any : Bool},
    KInv s g → WInv s g o seen any → Ordered (g ++ bs.flatMap (fun b => (heap b).elems)) → toLoop heap used s bs = .ok s' →
    ∃ o' seen' any', WInv s' (g ++ bs.flatMap (fun b => (heap b).elems)) o' seen' any' := by
  induction bs with
  | nil =>
    intro s s' g o seen any _ h _ hr
    simp only [toLoop, Except.ok.injEq] at hr
    subst hr
    rw [List.flatMap_nil, List.append_nil]; exact ⟨o, seen, any, h⟩
  | cons b r ih =>
    intro s s' g o seen any k h ho hr
    unfold toLoop at hr
    obtain ⟨s1, h1, hr⟩ := except_bind_ok hr
    have k0 : KInv (if b ∈ used then { s with out := s.out ++ [.label b] } else s) g := by
      split
      · exact k.plain (fun x hx => .inl ⟨b, by simpa using hx⟩)
      · exact k
    have h0 : WInv (if b ∈ used then { s with out := s.out ++ [.label b] } else s) g o seen any := by
      split
      · refine ⟨?_, h.sub, h.any, h.own, h.none_⟩
        show wtRun _ (s.out ++ [.label b]) = _
        rw [wtRun_snoc, h.run]; rfl
      · exact h
    rw [List.flatMap_cons, ← List.append_assoc] at ho ⊢
    have hp := ordered_prefix ho
    obtain ⟨o1, seen1, any1, w1⟩ := wrun _ k0 h0 hp h1
    exact ih (krun _ k0 hp h1) w1 ho hr

theorem toLabel_wt {labelled : List Nat} : ∀ {es es' : List BElem}, es.mapM (toLabelElem labelled) = .ok es' → ∀ s, wtRun s es' = wtRun s es := by
  intro es
  induction es with
  | nil =>
    intro es' h s
    simp only [List.mapM_nil, pure, Except.pure, Except.ok.injEq] at h
    subst h; rfl
  | cons x r ih =>
    intro es' h s
    rw [List.mapM_cons] at h
    obtain ⟨y, hy, h⟩ := except_bind_ok h
    obtain ⟨ys, hys, h⟩ := except_bind_ok h
    simp only [pure, Except.pure, Except.ok.injEq] at h
    subst h
    have key : wtStep s y = wtStep s x := by
      unfold toLabelElem at hy
      repeat' split at hy
      all_goals first
        | (cases hy; done)
        | (simp only [Except.ok.injEq] at hy; subst hy; rfl)
    rw [wtRun_cons, wtRun_cons, key]
    congr 1
    funext s
    exact ih hys s

theorem to_well {P : Platform} {c : CFG} {bc : Bytecode} (ho : Ordered (allCode c)) (hs0 : stW nextId none (allCode c) = none)
    (h : c.toBytecode P = .ok bc) : WellTried none [] false bc.elems := by
  unfold CFG.toBytecode at h
  obtain ⟨used, hu, h⟩ := except_bind_ok h
  obtain ⟨s, hs, h⟩ := except_bind_ok h
  obtain ⟨es, hes, h⟩ := except_bind_ok h
  simp only [pure, Except.pure, Except.ok.injEq] at h
  subst h
  have hi : WInv ⟨[], fun _ => none, [], none, none⟩ [] none [] false :=
    ⟨rfl, (fun x hx => by cases hx), (fun hh => by simp [instrCount] at hh), (fun u hu => by cases hu), fun _ => rfl⟩
  obtain ⟨o, seen, any, w⟩ := wloop c.blocks kInv_init hi (by rw [List.nil_append]; exact ho) hs
  rw [List.nil_append] at w
  refine wellTried_run (s := (none, [], false)) (s' := (o, seen, any)) ?_ (w.none_ hs0)
  show wtRun _ es = _
  rw [toLabel_wt hes]
  exact w.run

end Verif
