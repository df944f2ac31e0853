import Verif.Proofs.CfgToTotal
import Verif.Spec.GraphRules
/-
`to_bytecode` of a graph succeeds exactly when the blocks follow the rules.
-/
namespace Verif
open Spec

/-! ### Ordered markers -/

theorem ot_tidy {es : List BElem} : ∀ {o : Option Nat} {seen : List Nat} {any : Bool} {c : Option TryB}, OrderedTries o seen any es →
    c.map (·.id) = o → Tidy c es := by
  induction es with
  | nil => intro o seen any c _ _; trivial
  | cons e r ih =>
    intro o seen any c h hc
    cases e with
    | tryBegin t =>
      obtain ⟨h1, _, h3⟩ := h
      subst h1
      refine ⟨fun _ _ => ?_, ih h3 rfl⟩
      cases c with
      | none => rfl
      | some x => cases hc
    | tryEnd id =>
      obtain ⟨_, _, h3⟩ := h
      refine ⟨(fun _ h => by cases h), ih h3 ?_⟩
      show (if c.map (·.id) = some id then none else c).map (·.id) = _
      rw [hc]
      split
      · rfl
      · exact hc
    | instr i => exact ⟨(fun _ h => by cases h), ih (h : OrderedTries o seen true r) hc⟩
    | label i => exact ⟨(fun _ h => by cases h), ih (h : OrderedTries o seen any r) hc⟩
    | setLineno i => exact ⟨(fun _ h => by cases h), ih (h : OrderedTries o seen any r) hc⟩

theorem ot_nodup {es : List BElem} : ∀ {o : Option Nat} {seen : List Nat} {any : Bool}, OrderedTries o seen any es →
    (begins es).Nodup ∧ ∀ x ∈ begins es, x ∉ seen := by
  induction es with
  | nil => intro o seen any _; exact ⟨List.nodup_nil, fun x h => by cases h⟩
  | cons e r ih =>
    intro o seen any h
    cases e with
    | tryBegin t =>
      obtain ⟨_, h2, h3⟩ := h
      obtain ⟨a, b⟩ := ih h3
      have e : begins (.tryBegin t :: r) = t.id :: begins r := rfl
      rw [e]
      refine ⟨List.nodup_cons.2 ⟨fun hm => b _ hm (by simp), a⟩, ?_⟩
      intro x hx
      rcases List.mem_cons.1 hx with rfl | hx
      · exact h2
      · exact fun hs => b x hx (by simp [hs])
    | tryEnd id => exact ih h.2.2
    | instr i => exact ih (h : OrderedTries o seen true r)
    | label i => exact ih (h : OrderedTries o seen any r)
    | setLineno i => exact ih (h : OrderedTries o seen any r)

theorem ot_bef {n : Nat} {b : List BElem} : ∀ {a : List BElem} {o : Option Nat} {seen : List Nat} {any : Bool}, OrderedTries o seen any (a ++ .tryEnd n :: b) →
    (n ∈ begins a ∨ n ∈ seen) ∧ (0 < instrCount a ∨ any = true) := by
  intro a
  induction a with
  | nil => intro o seen any h; exact ⟨.inr h.1, .inr h.2.1⟩
  | cons e r ih =>
    intro o seen any h
    cases e with
    | tryBegin t =>
      obtain ⟨_, _, h3⟩ := h
      obtain ⟨x, y⟩ := ih h3
      have e : begins (.tryBegin t :: r) = t.id :: begins r := rfl
      rw [e]
      have e' : instrCount (.tryBegin t :: r) = instrCount r := by simp [instrCount, BElem.isInstr]
      rw [e']
      refine ⟨?_, y⟩
      rcases x with x | x
      · exact .inl (by simp [x])
      · rcases List.mem_cons.1 x with rfl | x
        · exact .inl (by simp)
        · exact .inr x
    | tryEnd id =>
      have e' : instrCount (.tryEnd id :: r) = instrCount r := by simp [instrCount, BElem.isInstr]
      rw [e']
      exact ih h.2.2
    | instr i =>
      have e' : instrCount (.instr i :: r) = instrCount r + 1 := List.countP_cons_of_pos rfl
      rw [e']
      obtain ⟨x, y⟩ := ih (h : OrderedTries o seen true (r ++ .tryEnd n :: b))
      exact ⟨x, .inl (by omega)⟩
    | label i =>
      have e' : instrCount (.label i :: r) = instrCount r := by simp [instrCount, BElem.isInstr]
      rw [e']
      exact ih (h : OrderedTries o seen any (r ++ .tryEnd n :: b))
    | setLineno i =>
      have e' : instrCount (.setLineno i :: r) = instrCount r := by simp [instrCount, BElem.isInstr]
      rw [e']
      exact ih (h : OrderedTries o seen any (r ++ .tryEnd n :: b))

theorem ordered_of {es : List BElem} (h : OrderedTries none [] false es) : Ordered es := by
  refine ⟨ot_tidy h rfl, (ot_nodup h).1, ?_⟩
  intro a n b hab
  subst hab
  obtain ⟨x, y⟩ := ot_bef h
  simpa using And.intro x y

/-! ### The blocks -/

theorem blkIter_of {P : Platform} {es : List BElem} (h1 : ∀ l, BElem.label l ∉ es)
    (h2 : ∀ a i r, es = a ++ BElem.instr i :: r → P.hasJump i.opcode = true → instrCount r = 0 ∧ ∃ k, i.arg = .block k) : blkIter P es = .ok () := by
  induction es with
  | nil => rfl
  | cons e r ih =>
    have hr := ih (fun l hl => h1 l (by simp [hl])) (fun a i q e' hj => h2 (e :: a) i q (by rw [e']; rfl) hj)
    unfold blkIter
    rw [hr]
    have : blkCheck P e r = .ok () := by
      cases e with
      | label l => exact absurd (by simp) (h1 l)
      | instr i =>
        unfold blkCheck
        simp only
        split
        · rename_i hji
          obtain ⟨h0, k, hk⟩ := h2 [] i r rfl hji
          have hany : r.any BElem.isInstr = false := by
            rw [List.any_eq_false]
            intro x hx
            simpa using List.countP_eq_zero.1 h0 x hx
          simp [hany, hk, Arg.asBlock]
        · rfl
      | _ => rfl
    rw [this]; rfl

theorem blkIter_arg {P : Platform} {i : Instr} {q : List BElem} (hj : P.hasJump i.opcode = true) : ∀ {p : List BElem},
    blkIter P (p ++ .instr i :: q) = .ok () → ∃ k, i.arg = .block k := by
  intro p
  induction p with
  | nil =>
    intro h
    simp only [List.nil_append, blkIter] at h
    obtain ⟨⟨⟩, h1, _⟩ := except_bind_ok h
    simp only [blkCheck, hj, if_true] at h1
    split at h1
    · cases h1
    · cases ha : i.arg with
      | block k => exact ⟨k, rfl⟩
      | _ => simp [ha, Arg.asBlock] at h1
  | cons x p ih =>
    intro h
    simp only [List.cons_append, blkIter] at h
    obtain ⟨_, _, h⟩ := except_bind_ok h
    exact ih h

/-! ### Every handler reaches the output -/

structure Kept (s : ToSt) (g : List BElem) : Prop where
  out : ∀ t, BElem.tryBegin t ∈ g → ∃ u, BElem.tryBegin u ∈ s.out ∧ u.target = t.target
  tries : ∀ id t bid, s.tries id = some (t, bid) → BElem.tryBegin t ∈ g
  te : ∀ t bid p, s.lastTE = some (t, bid, p) → BElem.tryBegin t ∈ g

theorem Kept.plain {s : ToSt} {g : List BElem} (h : Kept s g) (e : BElem) : Kept { s with out := s.out ++ [e] } g :=
  ⟨fun t ht => by
    obtain ⟨u, hu, e⟩ := h.out t ht
    exact ⟨u, List.mem_append.2 (.inl hu), e⟩, h.tries, h.te⟩

theorem Kept.extend {s : ToSt} {g : List BElem} (h : Kept s g) {e : BElem} (he : ∀ t, e = .tryBegin t → ∃ u, BElem.tryBegin u ∈ s.out ∧ u.target = t.target) :
    Kept s (g ++ [e]) := by
  refine ⟨?_, fun id t b x => List.mem_append.2 (.inl (h.tries id t b x)), fun t b p x => List.mem_append.2 (.inl (h.te t b p x))⟩
  intro t ht
  rcases List.mem_append.1 ht with ht | ht
  · exact h.out t ht
  · rw [List.mem_singleton] at ht
    exact he t ht.symm

theorem setTryDepth_mem {id : Nat} {d : Option Nat} {es : List BElem} {t : TryB} (h : BElem.tryBegin t ∈ es) :
    ∃ u, BElem.tryBegin u ∈ setTryDepth id d es ∧ u.target = t.target := by
  refine ⟨if t.id = id then { t with depth := d } else t, List.mem_map.2 ⟨_, h, ?_⟩, ?_⟩
  · simp only; split <;> rfl
  · split <;> rfl

theorem kept_step {s s' : ToSt} {g : List BElem} {e : BElem} (k : KInv s g) (y : Kept s g) (ho : Ordered (g ++ [e])) (hr : s.step e = .ok s') :
    Kept s' (g ++ [e]) := by
  cases e with
  | label l =>
    simp only [ToSt.step, Except.ok.injEq] at hr
    subst hr; exact (y.plain _).extend (fun _ h => by cases h)
  | setLineno l =>
    simp only [ToSt.step, Except.ok.injEq] at hr
    subst hr; exact (y.plain _).extend (fun _ h => by cases h)
  | instr i =>
    simp only [ToSt.step, Except.ok.injEq] at hr
    subst hr
    have := (y.plain (.instr i)).extend (e := .instr i) (fun _ h => by cases h)
    exact ⟨this.out, this.tries, (fun _ _ _ h => by cases h)⟩
  | tryEnd id =>
    simp only [ToSt.step] at hr
    split at hr
    · simp only [Except.ok.injEq] at hr
      subst hr; exact y.extend (fun _ h => by cases h)
    · split at hr
      · cases hr
      · rename_i t bid ht
        simp only [Except.ok.injEq] at hr
        subst hr
        have := (y.plain (.tryEnd bid)).extend (e := .tryEnd id) (fun _ h => by cases h)
        refine ⟨this.out, this.tries, ?_⟩
        intro t' b' p' hp
        simp only [Option.some.injEq, Prod.mk.injEq] at hp
        rw [← hp.1]
        exact List.mem_append.2 (.inl (y.tries _ _ _ ht))
  | tryBegin t =>
    have ht : stW nextId none g = none := ((tidy_append _ _ _).1 ho.tidy).2.1 t rfl
    have hn : s.nested t = .ok s := by
      unfold ToSt.nested
      rw [k.tb ht]
    have hfresh : Kept (s.freshTry t) (g ++ [.tryBegin t]) := by
      have h0 := (y.plain (.tryBegin t)).extend (e := .tryBegin t) (fun u h => by cases h; exact ⟨t, by simp, rfl⟩)
      refine ⟨h0.out, ?_, (fun _ _ _ h => by cases h)⟩
      intro id t' bid h
      simp only [ToSt.freshTry, upd] at h
      split at h
      · simp only [Option.some.injEq, Prod.mk.injEq] at h
        rw [← h.1]; simp
      · exact h0.tries _ _ _ h
    simp only [ToSt.step, hn] at hr
    change (match s.lastTE with
      | some (entry, bid, pos) => if entry.target = t.target ∧ entry.lasti = t.lasti then s.fuse t entry bid pos else pure (s.freshTry t)
      | none => pure (s.freshTry t)) = Except.ok s' at hr
    split at hr
    · rename_i entry bid pos hl
      split at hr
      · rename_i hc
        unfold ToSt.fuse at hr
        obtain ⟨d, _, hr⟩ := except_bind_ok hr
        cases pos with
        | none => cases hr
        | some p =>
          simp only [Except.ok.injEq] at hr
          subst hr
          obtain ⟨a, b, h1, h2, _, _⟩ := k.te _ _ _ hl
          have hkeep : ∀ u, BElem.tryBegin u ∈ s.out → ∃ v, BElem.tryBegin v ∈ (setTryDepth bid d s.out).eraseIdx p ∧ v.target = u.target := by
            intro u hu
            have e0 : (setTryDepth bid d s.out).eraseIdx p = setTryDepth bid d a ++ setTryDepth bid d b := by
              rw [h1, setTryDepth_append, List.eraseIdx_append_of_length_le (by rw [← h2]; simp [setTryDepth])]
              have : p - (setTryDepth bid d a).length = 0 := by rw [← h2]; simp [setTryDepth]
              rw [this]; rfl
            rw [e0]
            rw [h1] at hu
            rcases List.mem_append.1 hu with hu | hu
            · obtain ⟨v, hv, e⟩ := setTryDepth_mem (id := bid) (d := d) hu
              exact ⟨v, List.mem_append.2 (.inl hv), e⟩
            · rcases List.mem_cons.1 hu with hu | hu
              · cases hu
              · obtain ⟨v, hv, e⟩ := setTryDepth_mem (id := bid) (d := d) hu
                exact ⟨v, List.mem_append.2 (.inr hv), e⟩
          refine ⟨?_, ?_, ?_⟩
          · intro u hu
            rcases List.mem_append.1 hu with hu | hu
            · obtain ⟨v, hv, e⟩ := y.out u hu
              obtain ⟨w, hw, e'⟩ := hkeep v hv
              exact ⟨w, hw, e'.trans e⟩
            · rw [List.mem_singleton] at hu
              cases hu
              obtain ⟨v, hv, e⟩ := y.out entry (y.te _ _ _ hl)
              obtain ⟨w, hw, e'⟩ := hkeep v hv
              exact ⟨w, hw, e'.trans (e.trans hc.1)⟩
          · intro id t' b' h
            simp only [upd] at h
            split at h
            · simp only [Option.some.injEq, Prod.mk.injEq] at h
              rw [← h.1]; simp
            · exact List.mem_append.2 (.inl (y.tries _ _ _ h))
          · intro t' b' p' h
            simp only [Option.some.injEq, Prod.mk.injEq] at h
            rw [← h.1]; exact List.mem_append.2 (.inl (y.te _ _ _ hl))
      · simp only [pure, Except.pure, Except.ok.injEq] at hr
        subst hr; exact hfresh
    · simp only [pure, Except.pure, Except.ok.injEq] at hr
      subst hr; exact hfresh

theorem kept_run (es : List BElem) : ∀ {s s' : ToSt} {g : List BElem}, KInv s g → Kept s g → Ordered (g ++ es) → s.run es = .ok s' → Kept s' (g ++ es) := by
  induction es with
  | nil =>
    intro s s' g _ h _ hr
    simp only [ToSt.run, Except.ok.injEq] at hr
    subst hr
    rw [List.append_nil]; exact h
  | cons e r ih =>
    intro s s' g k h ho hr
    unfold ToSt.run at hr
    obtain ⟨s1, h1, hr⟩ := except_bind_ok hr
    have e0 : g ++ e :: r = (g ++ [e]) ++ r := by simp
    rw [e0] at ho ⊢
    exact ih (kstep k (ordered_prefix ho) h1) (kept_step k h (ordered_prefix ho) h1) ho hr

theorem kept_loop {heap : Nat → Blk} {used : List Nat} (bs : List Nat) : ∀ {s s' : ToSt} {g : List BElem}, KInv s g → Kept s g →
    Ordered (g ++ bs.flatMap (fun b => (heap b).elems)) → toLoop heap used s bs = .ok s' → Kept s' (g ++ bs.flatMap (fun b => (heap b).elems)) := by
  induction bs with
  | nil =>
    intro s s' g _ h _ hr
    simp only [toLoop, Except.ok.injEq] at hr
    subst hr
    rw [List.flatMap_nil, List.append_nil]; exact h
  | cons b r ih =>
    intro s s' g k h ho hr
    rw [List.flatMap_cons, ← List.append_assoc] at ho ⊢
    unfold toLoop at hr
    obtain ⟨s1, h1, hr⟩ := except_bind_ok hr
    have hp : MarksOnly [BElem.label b] := fun x hx => .inl ⟨b, by simpa using hx⟩
    have hk : KInv (if b ∈ used then { s with out := s.out ++ [.label b] } else s) g := by
      split
      · exact k.plain hp
      · exact k
    have hy : Kept (if b ∈ used then { s with out := s.out ++ [.label b] } else s) g := by
      split
      · exact h.plain _
      · exact h
    exact ih (krun _ hk (ordered_prefix ho) h1) (kept_run _ hk hy (ordered_prefix ho) h1) ho hr

/-- What a graph that was written looks like. -/
theorem to_rules {P : Platform} {c : CFG} {bc : Bytecode} (ho : Ordered (allCode c)) (h : c.toBytecode P = .ok bc) : GraphRules P c := by
  unfold CFG.toBytecode at h
  obtain ⟨used, hu, h⟩ := except_bind_ok h
  obtain ⟨s, hs, h⟩ := except_bind_ok h
  obtain ⟨es, hes, h⟩ := except_bind_ok h
  have hit := usedBlocks_iter hu
  have inv := toLoop_ok c.blocks (⟨rfl, fun t b p hp => by cases hp⟩ : TInv ⟨[], fun _ => none, [], none, none⟩ []) hs
  rw [List.nil_append] at inv
  have kp := kept_loop c.blocks kInv_init (⟨(fun _ h => by cases h), (fun _ _ _ h => by cases h), (fun _ _ _ h => by cases h)⟩ : Kept _ []) (by rw [List.nil_append]; exact ho) hs
  rw [List.nil_append] at kp
  refine ⟨fun b hb => blkIter_noLabel (hit b hb), ?_, ?_⟩
  · intro b hb a i r e hj
    have hb' := hit b hb
    rw [e] at hb'
    refine ⟨blkIter_last hj hb', ?_⟩
    obtain ⟨k, hk⟩ := blkIter_arg hj hb'
    refine ⟨k, ?_, hk⟩
    have hm : BElem.instr i ∈ s.out := by
      have h1 : BElem.instr i ∈ skelOf c.heap used c.blocks := by
        refine List.mem_flatMap.2 ⟨b, hb, List.mem_append.2 (.inr ?_)⟩
        exact List.mem_filter.2 ⟨by rw [e]; simp, rfl⟩
      rw [← inv.skel] at h1
      exact (List.mem_filter.1 h1).1
    obtain ⟨x, hx⟩ := mapM_ok_each hes hm
    simp only [toLabelElem, hk] at hx
    split at hx
    · rename_i hm; exact (List.mem_filter.1 hm).1
    · cases hx
  · intro t ht
    obtain ⟨u, hu', e⟩ := kp.out t ht
    obtain ⟨x, hx⟩ := mapM_ok_each hes hu'
    simp only [toLabelElem] at hx
    split at hx
    · rename_i hm; rw [← e]; exact (List.mem_filter.1 hm).1
    · cases hx

/-- The converse. -/
theorem rules_to {P : Platform} {c : CFG} (hv : ∀ i, BElem.instr i ∈ allCode c → ArgOK P i.opcode i.arg) (ho : Ordered (allCode c))
    (hd : ∀ t u, BElem.tryBegin t ∈ allCode c → BElem.tryBegin u ∈ allCode c → t.depth = none → u.depth = none) (hr : GraphRules P c) :
    ∃ bc, c.toBytecode P = .ok bc := by
  refine to_total ?_ ?_ ?_ hr.handlers ho hd
  · intro b hb
    refine blkIter_of (hr.labels b hb) (fun a i r e hj => ?_)
    obtain ⟨h1, k, _, h2⟩ := hr.jumps b hb a i r e hj
    exact ⟨h1, k, h2⟩
  · intro b hb
    unfold blkGetJump
    cases hi : lastInstr (c.heap b).elems with
    | none => exact ⟨_, rfl⟩
    | some i =>
      simp only
      split
      · rename_i hj
        have hm : BElem.instr i ∈ (c.heap b).elems := by
          unfold lastInstr at hi
          obtain ⟨e, he, hx⟩ := List.exists_of_findSome?_eq_some hi
          cases e with
          | instr j => cases hx; exact List.mem_reverse.1 he
          | _ => cases hx
        obtain ⟨a, r, e⟩ := List.append_of_mem hm
        obtain ⟨_, k, _, hk⟩ := hr.jumps b hb a i r e hj
        rw [hk]; exact ⟨_, rfl⟩
      · exact ⟨_, rfl⟩
  · intro i k hi ha
    have hj := argOK_jump (hv i hi) (.inr ⟨k, ha⟩)
    refine ⟨hj, ?_⟩
    obtain ⟨b, hb, hm⟩ := List.mem_flatMap.1 hi
    obtain ⟨a, r, e⟩ := List.append_of_mem hm
    obtain ⟨_, k', hk', hx⟩ := hr.jumps b hb a i r e hj
    rw [ha] at hx
    cases hx
    exact hk'

end Verif
