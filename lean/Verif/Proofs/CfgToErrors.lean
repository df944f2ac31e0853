import Verif.Proofs.CfgErrors
import Verif.Proofs.CfgToTotal
/-
The exceptions of `to_bytecode` of a graph (C78).
-/
namespace Verif
open Spec

/-- What the loop of `to_bytecode` knows of the elements `g` it has seen. -/
structure TEInv (g : List BElem) (s : ToSt) : Prop where
  tries : ∀ t, .tryBegin t ∈ g → (s.tries t.id).isSome = true
  known : ∀ id t bid, s.tries id = some (t, bid) → .tryBegin t ∈ g
  seen : ∀ id ∈ s.seen, .tryEnd id ∈ g
  tb : ∀ t bid, s.lastTB = some (t, bid) → ∃ pre mid, g = pre ++ .tryBegin t :: mid ∧ ∀ id, .tryEnd id ∈ mid → .tryEnd id ∈ pre
  te : ∀ t bid pos, s.lastTE = some (t, bid, pos) → .tryBegin t ∈ g ∧
    ∃ id pre mid, g = pre ++ .tryEnd id :: mid ∧ (∀ i, .instr i ∉ mid) ∧ (pos = none → ∃ u, .tryBegin u ∈ mid)

theorem teInv_init : TEInv [] ⟨[], fun _ => none, [], none, none⟩ :=
  ⟨(fun _ h => by cases h), (fun _ _ _ h => by cases h), (fun _ h => by cases h), (fun _ _ h => by cases h), (fun _ _ _ h => by cases h)⟩

theorem TEInv.out {g : List BElem} {s : ToSt} (h : TEInv g s) (o : List BElem) : TEInv g { s with out := o } := ⟨h.tries, h.known, h.seen, h.tb, h.te⟩

/-- An element that is not a marker nor an instruction. -/
theorem TEInv.other {g : List BElem} {s : ToSt} {e : BElem} (h : TEInv g s) (h1 : ∀ t, e ≠ .tryBegin t) (h2 : ∀ id, e = .tryEnd id → id ∈ s.seen) (h3 : ∀ i, e ≠ .instr i) :
    TEInv (g ++ [e]) s := by
  refine ⟨fun t ht => ?_, fun id t bid hx => by simp [h.known id t bid hx], fun id hid => by simp [h.seen id hid], fun t bid hx => ?_, fun t bid pos hx => ?_⟩
  · rcases List.mem_append.1 ht with ht | ht
    · exact h.tries t ht
    · exact absurd (List.mem_singleton.1 ht).symm (h1 t)
  · obtain ⟨pre, mid, hg, hm⟩ := h.tb t bid hx
    refine ⟨pre, mid ++ [e], by rw [hg]; simp, fun id hid => ?_⟩
    rcases List.mem_append.1 hid with hid | hid
    · exact hm id hid
    · have hs := h.seen id (h2 id (List.mem_singleton.1 hid).symm)
      rw [hg] at hs
      rcases List.mem_append.1 hs with hs | hs
      · exact hs
      · rcases List.mem_cons.1 hs with hs | hs
        · cases hs
        · exact hm id hs
  · obtain ⟨hb, id, pre, mid, hg, hm, hp⟩ := h.te t bid pos hx
    refine ⟨by simp [hb], id, pre, mid ++ [e], by rw [hg]; simp, fun i hi => ?_, fun hp' => ?_⟩
    · rcases List.mem_append.1 hi with hi | hi
      · exact hm i hi
      · exact h3 i (List.mem_singleton.1 hi).symm
    · obtain ⟨u, hu⟩ := hp hp'
      exact ⟨u, by simp [hu]⟩

theorem nested_fields {s s' : ToSt} {t : TryB} (hr : s.nested t = .ok s') :
    s'.tries = s.tries ∧ s'.seen = s.seen ∧ s'.lastTB = s.lastTB ∧ s'.lastTE = s.lastTE ∧ ∃ id d, s'.out = s.out ∨ s'.out = setTryDepth id d s.out := by
  unfold ToSt.nested at hr
  split at hr
  · simp only [Except.ok.injEq] at hr
    subst hr; exact ⟨rfl, rfl, rfl, rfl, 0, none, .inl rfl⟩
  · obtain ⟨_, _, hr⟩ := except_bind_ok hr
    obtain ⟨_, _, hr⟩ := except_bind_ok hr
    cases hr
    exact ⟨rfl, rfl, rfl, rfl, _, _, .inr rfl⟩

theorem TEInv.begun {g : List BElem} {s : ToSt} {t : TryB} (h : TEInv g s) {s' : ToSt} {bid : Nat} (h1 : s'.tries = upd s.tries t.id (some (t, bid)))
    (h2 : s'.seen = s.seen) (h3 : s'.lastTB = s.lastTB ∨ ∃ n, s'.lastTB = some (t, n))
    (h4 : s'.lastTE = none ∨ ∃ e b p, s.lastTE = some (e, b, p) ∧ s'.lastTE = some (e, b, none)) : TEInv (g ++ [.tryBegin t]) s' := by
  refine ⟨fun u hu => ?_, fun id u n hx => ?_, fun id hid => ?_, fun u n hx => ?_, fun u n pos hx => ?_⟩
  · rw [h1]; unfold upd
    split
    · rfl
    · rename_i hne
      rcases List.mem_append.1 hu with hu | hu
      · exact h.tries u hu
      · cases List.mem_singleton.1 hu; exact absurd rfl hne
  · rw [h1] at hx; unfold upd at hx
    split at hx
    · cases hx; simp
    · simp [h.known id u n hx]
  · rw [h2] at hid; simp [h.seen id hid]
  · rcases h3 with h3 | ⟨m, h3⟩
    · obtain ⟨pre, mid, hg, hm⟩ := h.tb u n (by rw [← h3]; exact hx)
      refine ⟨pre, mid ++ [.tryBegin t], by rw [hg]; simp, fun id hid => ?_⟩
      rcases List.mem_append.1 hid with hid | hid
      · exact hm id hid
      · cases List.mem_singleton.1 hid
    · rw [h3] at hx; cases hx
      exact ⟨g, [], rfl, fun id hid => by cases hid⟩
  · rcases h4 with h4 | ⟨e, b, p, h4, h5⟩
    · rw [h4] at hx; cases hx
    · rw [h5] at hx; cases hx
      obtain ⟨hb, id, pre, mid, hg, hm, _⟩ := h.te u n p h4
      refine ⟨by simp [hb], id, pre, mid ++ [.tryBegin t], by rw [hg]; simp, fun i hi => ?_, fun _ => ⟨t, by simp⟩⟩
      rcases List.mem_append.1 hi with hi | hi
      · exact hm i hi
      · cases List.mem_singleton.1 hi

theorem tostep_inv {G g : List BElem} {s s' : ToSt} {e : BElem} (h : TEInv g s) (y : OutSrc G s) (he : e ∈ G) (hr : s.step e = .ok s') :
    TEInv (g ++ [e]) s' ∧ OutSrc G s' := by
  cases e with
  | label l =>
    simp only [ToSt.step, Except.ok.injEq] at hr
    subst hr
    exact ⟨(h.other (fun _ hx => by cases hx) (fun _ hx => by cases hx) (fun _ hx => by cases hx)).out _, y.plain (fun _ hx => by cases hx) (fun _ hx => by cases hx)⟩
  | setLineno l =>
    simp only [ToSt.step, Except.ok.injEq] at hr
    subst hr
    exact ⟨(h.other (fun _ hx => by cases hx) (fun _ hx => by cases hx) (fun _ hx => by cases hx)).out _, y.plain (fun _ hx => by cases hx) (fun _ hx => by cases hx)⟩
  | instr i =>
    simp only [ToSt.step, Except.ok.injEq] at hr
    subst hr
    have y' := y.plain (e := .instr i) (fun j hx => by cases hx; exact he) (fun _ hx => by cases hx)
    refine ⟨⟨fun t ht => ?_, fun id t bid hx => by simp [h.known id t bid hx], fun id hid => by simp [h.seen id hid], fun t bid hx => ?_, fun t bid pos hx => by cases hx⟩,
      ⟨y'.instr, y'.begin_, y'.tries, fun t bid pos hx => by cases hx⟩⟩
    · rcases List.mem_append.1 ht with ht | ht
      · exact h.tries t ht
      · cases List.mem_singleton.1 ht
    · obtain ⟨pre, mid, hg, hm⟩ := h.tb t bid hx
      refine ⟨pre, mid ++ [.instr i], by rw [hg]; simp, fun id hid => ?_⟩
      rcases List.mem_append.1 hid with hid | hid
      · exact hm id hid
      · cases List.mem_singleton.1 hid
  | tryEnd id =>
    simp only [ToSt.step] at hr
    split at hr
    · rename_i hs
      simp only [Except.ok.injEq] at hr
      subst hr
      exact ⟨h.other (fun _ hx => by cases hx) (fun _ hx => by cases hx; exact hs) (fun _ hx => by cases hx), y⟩
    · split at hr
      · cases hr
      · rename_i t bid ht
        simp only [Except.ok.injEq] at hr
        subst hr
        have y' := y.plain (e := .tryEnd bid) (fun j hx => by cases hx) (fun _ hx => by cases hx)
        refine ⟨⟨fun u hu => ?_, (fun id t bid hx => by simp [h.known id t bid hx]), fun id' hid => ?_, (fun t bid hx => by cases hx), fun u n pos hx => ?_⟩,
          ⟨y'.instr, y'.begin_, y'.tries, fun u n pos hx => ?_⟩⟩
        · rcases List.mem_append.1 hu with hu | hu
          · exact h.tries u hu
          · cases List.mem_singleton.1 hu
        · rcases List.mem_cons.1 hid with rfl | hid
          · simp
          · simp [h.seen id' hid]
        · cases hx
          exact ⟨by simp [h.known id t bid ht], id, g, [], rfl, (fun i hi => by cases hi), fun hx => by cases hx⟩
        · cases hx
          exact y.tries id t bid ht
  | tryBegin t =>
    simp only [ToSt.step] at hr
    obtain ⟨s1, h1, hr⟩ := except_bind_ok hr
    obtain ⟨n1, n2, n3, n4, id, d, n5⟩ := nested_fields h1
    have hE : TEInv g s1 := ⟨by rw [n1]; exact h.tries, by rw [n1]; exact h.known, by rw [n2]; exact h.seen, by rw [n3]; exact h.tb, by rw [n4]; exact h.te⟩
    have hO : OutSrc G s1 := by
      refine ⟨?_, ?_, by rw [n1]; exact y.tries, by rw [n4]; exact y.te⟩
      · rcases n5 with n5 | n5
        · rw [n5]; exact y.instr
        · rw [n5]; exact (y.set (id := id) (d := d) (fun e he => he)).1
      · rcases n5 with n5 | n5
        · rw [n5]; exact y.begin_
        · rw [n5]; exact (y.set (id := id) (d := d) (fun e he => he)).2
    have hfresh : TEInv (g ++ [.tryBegin t]) (s1.freshTry t) ∧ OutSrc G (s1.freshTry t) := by
      refine ⟨hE.begun (bid := t.id) rfl rfl (.inr ⟨_, rfl⟩) (.inl rfl), ?_⟩
      have y' := hO.plain (e := .tryBegin t) (fun j hx => by cases hx) (fun u hx => by cases hx; exact he)
      refine ⟨y'.instr, y'.begin_, fun id u bid hx => ?_, fun u bid pos hx => by cases hx⟩
      simp only [ToSt.freshTry, upd] at hx
      split at hx
      · cases hx; exact he
      · exact hO.tries _ _ _ hx
    split at hr
    · rename_i entry bid pos hte
      split at hr
      · unfold ToSt.fuse at hr
        obtain ⟨d', h2, hr⟩ := except_bind_ok hr
        split at hr
        · cases hr
        · rename_i p _
          simp only [Except.ok.injEq] at hr
          subst hr
          refine ⟨hE.begun (bid := bid) rfl rfl (.inl rfl) (.inr ⟨entry, bid, some p, hte, rfl⟩), ?_⟩
          have ys := hO.set (id := bid) (d := d') (es := (setTryDepth bid d' s1.out).eraseIdx p) (fun e he => List.mem_of_mem_eraseIdx he)
          refine ⟨ys.1, ys.2, fun id u n hx => ?_, fun u n pos hx => ?_⟩
          · simp only [upd] at hx
            split at hx
            · cases hx; exact he
            · exact hO.tries _ _ _ hx
          · cases hx
            exact hO.te _ _ _ hte
      · simp only [pure, Except.pure, Except.ok.injEq] at hr
        subst hr; exact hfresh
    · simp only [pure, Except.pure, Except.ok.injEq] at hr
      subst hr; exact hfresh

theorem pyAssert_err {b : Bool} {x : PyErr} (h : pyAssert b = .error x) : x = .assertionError ∧ b = false := by
  unfold pyAssert at h
  cases b with
  | true => cases h
  | false => cases h; exact ⟨rfl, rfl⟩

theorem tostep_err {P : Platform} {c : CFG} {g post : List BElem} {s : ToSt} {e : BElem} {x : PyErr} (h : TEInv g s) (hg : allCode c = g ++ e :: post)
    (hr : s.step e = .error x) : WrongBlocks P c x := by
  cases e with
  | label l => cases hr
  | setLineno l => cases hr
  | instr i => cases hr
  | tryEnd id =>
    simp only [ToSt.step] at hr
    split at hr
    · cases hr
    · split at hr
      · rename_i hn
        cases hr
        refine .end_ hg (fun t ht e => ?_)
        have := h.tries t ht
        rw [e, hn] at this
        cases this
      · cases hr
  | tryBegin t =>
    simp only [ToSt.step] at hr
    rcases except_bind_err hr with hr | ⟨s1, h1, hr⟩
    · unfold ToSt.nested at hr
      split at hr
      · cases hr
      · rename_i ct bid hb
        obtain ⟨pre, mid, hp, hm⟩ := h.tb ct bid hb
        rcases except_bind_err hr with hr | ⟨_, _, hr⟩
        · obtain ⟨rfl, hf⟩ := pyAssert_err hr
          refine .nested (by rw [hg, hp]) hm (.inl fun e => ?_)
          simp [e] at hf
        · rcases except_bind_err hr with hr | ⟨_, _, hr⟩
          · obtain ⟨rfl, hf⟩ := pyAssert_err hr
            refine .nested (by rw [hg, hp]) hm (.inr fun e => ?_)
            simp [e] at hf
          · cases hr
    · obtain ⟨n1, n2, n3, n4, _⟩ := nested_fields h1
      split at hr
      · rename_i entry bid pos hte
        rw [n4] at hte
        obtain ⟨hb, id, pre, mid, hp, hm, hpos⟩ := h.te entry bid pos hte
        split at hr
        · unfold ToSt.fuse at hr
          rcases except_bind_err hr with hr | ⟨d, _, hr⟩
          · unfold fusedDepth at hr
            split at hr
            · cases hr
            · rename_i d hd1 hd2
              cases hr
              obtain ⟨p1, q1, hpq⟩ := List.append_of_mem hb
              exact .depths (t := entry) (t' := t) (pre := p1) (mid := q1) (post := post) (by rw [hg, hpq]) (by assumption) (by simp [*])
            · cases hr
          · split at hr
            · cases hr
              obtain ⟨u, hu⟩ := hpos rfl
              obtain ⟨m1, m2, hmm⟩ := List.append_of_mem hu
              refine .twice (pre := pre) (id := id) (mid := m1) (t := u) (mid' := m2) (t' := t) (post := post) (by rw [hg, hp, hmm]; simp)
                (fun i hi => hm i (by rw [hmm]; simp [hi])) (fun i hi => hm i (by rw [hmm]; simp [hi]))
            · cases hr
        · cases hr
      · cases hr

theorem torun_err {P : Platform} {c : CFG} (es : List BElem) : ∀ {g post : List BElem} {s : ToSt} {x : PyErr}, TEInv g s → OutSrc (allCode c) s → allCode c = g ++ es ++ post →
    s.run es = .error x → WrongBlocks P c x := by
  induction es with
  | nil => intro g post s x _ _ _ hr; cases hr
  | cons e es ih =>
    intro g post s x h y hg hr
    unfold ToSt.run at hr
    rcases except_bind_err hr with hr | ⟨s1, h1, hr⟩
    · exact tostep_err (post := es ++ post) h (by rw [hg]; simp) hr
    · obtain ⟨k, y'⟩ := tostep_inv h y (by rw [hg]; simp) h1
      exact ih (g := g ++ [e]) (post := post) k y' (by rw [hg]; simp) hr

theorem torun_inv {G : List BElem} (es : List BElem) : ∀ {g : List BElem} {s s' : ToSt}, TEInv g s → OutSrc G s → (∀ e ∈ es, e ∈ G) →
    s.run es = .ok s' → TEInv (g ++ es) s' ∧ OutSrc G s' := by
  induction es with
  | nil => intro g s s' h y _ hr; cases hr; exact ⟨by rw [List.append_nil]; exact h, y⟩
  | cons e es ih =>
    intro g s s' h y he hr
    unfold ToSt.run at hr
    obtain ⟨s1, h1, hr⟩ := except_bind_ok hr
    obtain ⟨k, y'⟩ := tostep_inv h y (he e (by simp)) h1
    have := ih k y' (fun x hx => he x (by simp [hx])) hr
    exact ⟨by rw [show g ++ e :: es = g ++ [e] ++ es by simp]; exact this.1, this.2⟩

theorem toLoop_err {P : Platform} {c : CFG} {used : List Nat} (bs : List Nat) : ∀ {g : List BElem} {s : ToSt} {x : PyErr}, TEInv g s → OutSrc (allCode c) s →
    allCode c = g ++ bs.flatMap (fun b => (c.heap b).elems) → toLoop c.heap used s bs = .error x → WrongBlocks P c x := by
  induction bs with
  | nil => intro g s x _ _ _ hr; cases hr
  | cons b bs ih =>
    intro g s x h y hg hr
    unfold toLoop at hr
    have h' : TEInv g (if b ∈ used then { s with out := s.out ++ [.label b] } else s) := by
      split
      · exact h.out _
      · exact h
    have y' : OutSrc (allCode c) (if b ∈ used then { s with out := s.out ++ [.label b] } else s) := by
      split
      · exact y.plain (fun _ hx => by cases hx) (fun _ hx => by cases hx)
      · exact y
    rw [List.flatMap_cons, ← List.append_assoc] at hg
    rcases except_bind_err hr with hr | ⟨s1, h1, hr⟩
    · exact torun_err (c := c) _ h' y' hg hr
    · obtain ⟨k, y2⟩ := torun_inv _ h' y' (fun e he => by rw [hg]; simp [he]) h1
      exact ih k y2 hg hr

theorem toLoop_src {c : CFG} {used : List Nat} (bs : List Nat) : ∀ {g : List BElem} {s s' : ToSt}, TEInv g s → OutSrc (allCode c) s →
    allCode c = g ++ bs.flatMap (fun b => (c.heap b).elems) → toLoop c.heap used s bs = .ok s' → OutSrc (allCode c) s' := by
  induction bs with
  | nil => intro g s s' _ y _ hr; cases hr; exact y
  | cons b bs ih =>
    intro g s s' h y hg hr
    unfold toLoop at hr
    have h' : TEInv g (if b ∈ used then { s with out := s.out ++ [.label b] } else s) := by
      split
      · exact h.out _
      · exact h
    have y' : OutSrc (allCode c) (if b ∈ used then { s with out := s.out ++ [.label b] } else s) := by
      split
      · exact y.plain (fun _ hx => by cases hx) (fun _ hx => by cases hx)
      · exact y
    rw [List.flatMap_cons, ← List.append_assoc] at hg
    obtain ⟨s1, h1, hr⟩ := except_bind_ok hr
    obtain ⟨k, y2⟩ := torun_inv _ h' y' (fun e he => by rw [hg]; simp [he]) h1
    exact ih k y2 hg hr

theorem blkIter_err {P : Platform} {c : CFG} {b : Nat} {x : PyErr} {j : Option Nat} (hb : b ∈ c.blocks) (hj : blkGetJump P (c.heap b).elems = .ok j) : ∀ (es pre : List BElem),
    (c.heap b).elems = pre ++ es → blkIter P es = .error x → WrongBlocks P c x := by
  intro es
  induction es with
  | nil => intro pre _ hr; cases hr
  | cons e es ih =>
    intro pre he hr
    unfold blkIter at hr
    rcases except_bind_err hr with hr | ⟨_, _, hr⟩
    · unfold blkCheck at hr
      split at hr
      · rename_i l _
        cases hr
        exact .label (l := l) hb (by rw [he]; simp)
      · rename_i i _
        split at hr
        · rename_i hjmp
          split at hr
          · rename_i ha
            cases hr
            obtain ⟨y, hy, hyi⟩ := List.any_eq_true.1 ha
            cases y with
            | instr j' => exact .early hb he hjmp hy
            | _ => cases hyi
          · rename_i ha
            split at hr
            · rename_i hn
              exfalso
              have h0 : instrCount es = 0 := List.countP_eq_zero.2 (fun y hy hy' => ha (List.any_eq_true.2 ⟨y, hy, hy'⟩))
              unfold blkGetJump at hj
              rw [he, lastInstr_append_instr pre i es h0] at hj
              simp only [hjmp, if_true] at hj
              split at hj
              · rename_i hx; rw [hx] at hn; cases hn
              · cases hj
            · cases hr
        · cases hr
      · cases hr
    · exact ih (pre ++ [e]) (by rw [he]; simp) hr

theorem usedBlocks_err {P : Platform} {c : CFG} {x : PyErr} : ∀ (bs : List Nat), (∀ b ∈ bs, b ∈ c.blocks) → usedBlocks P c.heap bs = .error x → WrongBlocks P c x := by
  intro bs
  induction bs with
  | nil => intro _ hr; cases hr
  | cons b bs ih =>
    intro hb hr
    unfold usedBlocks at hr
    rcases except_bind_err hr with hr | ⟨j, hj, hr⟩
    · unfold blkGetJump at hr
      split at hr
      · cases hr
      · rename_i i hi
        split at hr
        · rename_i hjmp
          split at hr
          · cases hr
          · rename_i hn
            cases hr
            obtain ⟨a, ha, hx⟩ := List.exists_of_findSome?_eq_some hi
            refine .target (hb b (by simp)) (i := i) ?_ hjmp (fun k hk => ?_)
            · cases a with
              | instr j => simp only [Option.some.injEq] at hx; subst hx; exact List.mem_reverse.1 ha
              | _ => simp at hx
            · rw [hk] at hn; cases hn
        · cases hr
    · rcases except_bind_err hr with hr | ⟨_, h2, hr⟩
      · exact blkIter_err (hb b (by simp)) hj _ [] rfl hr
      · rcases except_bind_err hr with hr | ⟨_, _, hr⟩
        · exact ih (fun b' hb' => hb b' (by simp [hb'])) hr
        · cases hr

/-- Every exception of `to_bytecode` names a mistake. -/
theorem to_err {P : Platform} {c : CFG} {x : PyErr} (hv : ∀ i, .instr i ∈ allCode c → ArgOK P i.opcode i.arg)
    (hr : c.toBytecode P = .error x) : WrongBlocks P c x := by
  unfold CFG.toBytecode at hr
  rcases except_bind_err hr with hr | ⟨used, hu, hr⟩
  · exact usedBlocks_err c.blocks (fun b hb => hb) hr
  rcases except_bind_err hr with hr | ⟨s, hs, hr⟩
  · exact toLoop_err c.blocks teInv_init (outSrcInit _) rfl hr
  have y := toLoop_src c.blocks teInv_init (outSrcInit _) rfl hs
  rcases except_bind_err hr with hr | ⟨_, _, hr⟩
  · obtain ⟨e, he, hr⟩ := mapM_err hr
    cases e with
    | instr i =>
      simp only [toLabelElem] at hr
      split at hr
      · rename_i k ha
        split at hr
        · cases hr
        · rename_i hk
          cases hr
          have hm := y.instr i he
          refine .jump hm ha (fun hkb => hk ?_)
          have h1 := argOK_jump (hv i hm) (.inr ⟨k, ha⟩)
          obtain ⟨b, hbm, hib⟩ := List.mem_flatMap.1 hm
          obtain ⟨⟨j, hj1, hj2⟩, _⟩ := usedBlocks_mem hu b hbm
          have hku : k ∈ used := by
            refine hj2 k ?_
            obtain ⟨p, q, hpq⟩ := List.append_of_mem hib
            have h0 : instrCount q = 0 := by
              have := usedBlocks_iter hu b hbm
              rw [hpq] at this
              exact blkIter_last h1 this
            unfold blkGetJump at hj1
            rw [hpq, lastInstr_append_instr p i q h0] at hj1
            simp only [h1, if_true, ha, Arg.asBlock, Except.ok.injEq] at hj1
            exact hj1.symm
          exact List.mem_filter.2 ⟨hkb, by simp [hku]⟩
      · cases hr
    | tryBegin t =>
      simp only [toLabelElem] at hr
      split at hr
      · cases hr
      · rename_i hk
        cases hr
        obtain ⟨u, hu', e⟩ := y.begin_ t he
        refine .handler hu' (fun hkb => hk ?_)
        obtain ⟨b, hbm, htb⟩ := List.mem_flatMap.1 hu'
        have h1 := (usedBlocks_mem hu b hbm).2 u htb
        rw [e] at h1 hkb
        exact List.mem_filter.2 ⟨hkb, by simp [h1]⟩
    | label l => cases hr
    | setLineno l => cases hr
    | tryEnd l => cases hr
  · cases hr

end Verif
