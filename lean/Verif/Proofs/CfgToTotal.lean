import Verif.Proofs.CfgTotal
import Verif.Proofs.DepthsSet
import Verif.Proofs.Sized
/-
When `to_bytecode` of a graph succeeds.
-/
namespace Verif
open Spec

/-! ### The blocks used -/

theorem usedBlocks_total {P : Platform} {heap : Nat → Blk} : ∀ (bs : List Nat), (∀ b ∈ bs, blkIter P (heap b).elems = .ok ()) →
    (∀ b ∈ bs, ∃ j, blkGetJump P (heap b).elems = .ok j) → ∃ u, usedBlocks P heap bs = .ok u := by
  intro bs
  induction bs with
  | nil => intro _ _; exact ⟨_, rfl⟩
  | cons b r ih =>
    intro h1 h2
    unfold usedBlocks
    obtain ⟨j, hj⟩ := h2 b (by simp)
    obtain ⟨u, hu⟩ := ih (fun b hb => h1 b (by simp [hb])) (fun b hb => h2 b (by simp [hb]))
    exact bind_total hj (bind_total (h1 b (by simp)) (bind_total hu ⟨_, rfl⟩))

theorem usedBlocks_mem {P : Platform} {heap : Nat → Blk} : ∀ {bs u : List Nat}, usedBlocks P heap bs = .ok u → ∀ b ∈ bs,
    (∃ j, blkGetJump P (heap b).elems = .ok j ∧ ∀ k, j = some k → k ∈ u) ∧ ∀ t, BElem.tryBegin t ∈ (heap b).elems → t.target ∈ u := by
  intro bs
  induction bs with
  | nil => intro u _ b hb; cases hb
  | cons x r ih =>
    intro u h b hb
    unfold usedBlocks at h
    obtain ⟨j, h1, h⟩ := except_bind_ok h
    obtain ⟨⟨⟩, h2, h⟩ := except_bind_ok h
    obtain ⟨u', h3, h⟩ := except_bind_ok h
    simp only [pure, Except.pure, Except.ok.injEq] at h
    subst h
    rcases List.mem_cons.1 hb with rfl | hb
    · refine ⟨⟨j, h1, ?_⟩, ?_⟩
      · rintro k rfl; simp
      · intro t ht
        refine List.mem_append.2 (.inl (List.mem_append.2 (.inr (List.mem_filterMap.2 ⟨_, ht, rfl⟩))))
    · obtain ⟨⟨j', a, a'⟩, c⟩ := ih h3 b hb
      exact ⟨⟨j', a, fun k hk => List.mem_append.2 (.inr (a' k hk))⟩, fun t ht => List.mem_append.2 (.inr (c t ht))⟩

/-! ### Where the elements of the output come from -/

structure OutSrc (G : List BElem) (s : ToSt) : Prop where
  instr : ∀ i, BElem.instr i ∈ s.out → BElem.instr i ∈ G
  begin_ : ∀ t, BElem.tryBegin t ∈ s.out → ∃ u, BElem.tryBegin u ∈ G ∧ u.target = t.target
  tries : ∀ id t bid, s.tries id = some (t, bid) → BElem.tryBegin t ∈ G
  te : ∀ t bid p, s.lastTE = some (t, bid, p) → BElem.tryBegin t ∈ G

theorem outSrcInit (G : List BElem) : OutSrc G ⟨[], fun _ => none, [], none, none⟩ :=
  ⟨(fun _ h => by cases h), (fun _ h => by cases h), (fun _ _ _ h => by cases h), (fun _ _ _ h => by cases h)⟩

section
variable {G : List BElem} {s s' : ToSt}

theorem OutSrc.plain (h : OutSrc G s) {e : BElem} (h1 : ∀ i, e = .instr i → BElem.instr i ∈ G)
    (h2 : ∀ t, e = .tryBegin t → BElem.tryBegin t ∈ G) : OutSrc G { s with out := s.out ++ [e] } := by
  refine ⟨?_, ?_, h.tries, h.te⟩
  · intro i hi
    rcases List.mem_append.1 hi with hi | hi
    · exact h.instr i hi
    · rw [List.mem_singleton] at hi; exact h1 i hi.symm
  · intro t ht
    rcases List.mem_append.1 ht with ht | ht
    · exact h.begin_ t ht
    · rw [List.mem_singleton] at ht; exact ⟨t, h2 t ht.symm, rfl⟩

theorem setTryDepth_instr {id : Nat} {d : Option Nat} {es : List BElem} {i : Instr} (h : BElem.instr i ∈ setTryDepth id d es) : BElem.instr i ∈ es := by
  unfold setTryDepth at h
  obtain ⟨e, he, hx⟩ := List.mem_map.1 h
  cases e with
  | tryBegin t => simp only at hx; split at hx <;> cases hx
  | instr j => cases hx; exact he
  | _ => cases hx

theorem OutSrc.set (h : OutSrc G s) {id : Nat} {d : Option Nat} {es : List BElem} (he : ∀ e ∈ es, e ∈ setTryDepth id d s.out) :
    (∀ i, BElem.instr i ∈ es → BElem.instr i ∈ G) ∧ ∀ t, BElem.tryBegin t ∈ es → ∃ u, BElem.tryBegin u ∈ G ∧ u.target = t.target := by
  refine ⟨fun i hi => h.instr i (setTryDepth_instr (he _ hi)), fun t ht => ?_⟩
  obtain ⟨v, hv, _, h1, _⟩ := mem_setTryDepth (he _ ht)
  obtain ⟨u, hu, e⟩ := h.begin_ v hv
  exact ⟨u, hu, by rw [e, h1]⟩

/-- One element goes through, keeping the invariant. -/
theorem tostep_total {g : List BElem} {e : BElem} (k : KInv s g) (y : OutSrc G s) (ho : Ordered (g ++ [e])) (he : e ∈ G)
    (hd : ∀ t u, BElem.tryBegin t ∈ G → BElem.tryBegin u ∈ G → t.depth = none → u.depth = none) : ∃ s', s.step e = .ok s' ∧ OutSrc G s' := by
  have hog : Ordered g := ordered_prefix ho
  cases e with
  | label l => exact ⟨_, rfl, y.plain (fun _ h => by cases h) (fun _ h => by cases h)⟩
  | setLineno l => exact ⟨_, rfl, y.plain (fun _ h => by cases h) (fun _ h => by cases h)⟩
  | instr i =>
    refine ⟨_, rfl, ?_⟩
    have := y.plain (e := .instr i) (fun _ h => by cases h; exact he) (fun _ h => by cases h)
    exact ⟨this.instr, this.begin_, this.tries, (fun _ _ _ h => by cases h)⟩
  | tryEnd id =>
    simp only [ToSt.step]
    by_cases hs : id ∈ s.seen
    · rw [if_pos hs]; exact ⟨s, rfl, y⟩
    · rw [if_neg hs]
      have hm : BElem.tryEnd id ∉ g := fun hh => hs ((k.seen id).2 hh)
      have hop := open_of_begun hog.tidy (.inl (ho.bef g id [] rfl).1) hm
      cases hst : stW nextId none g with
      | none => rw [hst] at hop; cases hop
      | some u =>
        rw [hst] at hop
        simp only [Option.map_some, Option.some.injEq] at hop
        obtain ⟨bid, hb⟩ := k.tries u hst
        rw [hop] at hb
        rw [hb]
        refine ⟨_, rfl, ?_⟩
        have := y.plain (e := .tryEnd bid) (fun _ h => by cases h) (fun _ h => by cases h)
        refine ⟨this.instr, this.begin_, this.tries, ?_⟩
        intro t b p hp
        simp only [Option.some.injEq, Prod.mk.injEq] at hp
        rw [← hp.1]; exact y.tries _ _ _ hb
  | tryBegin t =>
    have ht : stW nextId none g = none := ((tidy_append _ _ _).1 ho.tidy).2.1 t rfl
    have hn : s.nested t = .ok s := by
      unfold ToSt.nested
      rw [k.tb ht]
    have hfresh : OutSrc G (s.freshTry t) := by
      have := y.plain (e := .tryBegin t) (fun _ h => by cases h) (fun _ h => by cases h; exact he)
      refine ⟨this.instr, this.begin_, ?_, (fun _ _ _ h => by cases h)⟩
      intro id t' bid h
      simp only [ToSt.freshTry, upd] at h
      split at h
      · simp only [Option.some.injEq, Prod.mk.injEq] at h
        rw [← h.1]; exact he
      · exact y.tries _ _ _ h
    simp only [ToSt.step, hn]
    change ∃ s', (match s.lastTE with
      | some (entry, bid, pos) => if entry.target = t.target ∧ entry.lasti = t.lasti then s.fuse t entry bid pos else pure (s.freshTry t)
      | none => pure (s.freshTry t)) = Except.ok s' ∧ _
    split
    · rename_i entry bid pos hl
      split
      · unfold ToSt.fuse
        have hent := y.te _ _ _ hl
        obtain ⟨d, hfd⟩ : ∃ d, fusedDepth entry.depth t.depth = .ok d := by
          cases ha : entry.depth with
          | none => rw [hd _ _ hent he ha]; exact ⟨_, rfl⟩
          | some a => exact ⟨_, rfl⟩
        rw [hfd]
        cases pos with
        | none => exact absurd ht (k.te' _ _ hl)
        | some p =>
          refine ⟨_, rfl, ?_⟩
          obtain ⟨a1, a2⟩ := y.set (id := bid) (d := d) (es := (setTryDepth bid d s.out).eraseIdx p) (fun e h => List.mem_of_mem_eraseIdx h)
          refine ⟨a1, a2, ?_, ?_⟩
          · intro id t' b' h
            simp only [upd] at h
            split at h
            · simp only [Option.some.injEq, Prod.mk.injEq] at h
              rw [← h.1]; exact he
            · exact y.tries _ _ _ h
          · intro t' b' p' h
            simp only [Option.some.injEq, Prod.mk.injEq] at h
            rw [← h.1]; exact hent
      · exact ⟨_, rfl, hfresh⟩
    · exact ⟨_, rfl, hfresh⟩

theorem torun_total (hd : ∀ t u, BElem.tryBegin t ∈ G → BElem.tryBegin u ∈ G → t.depth = none → u.depth = none) (es : List BElem) :
    ∀ {s : ToSt} {g : List BElem}, KInv s g → OutSrc G s → Ordered (g ++ es) → (∀ e ∈ es, e ∈ G) →
      ∃ s', s.run es = .ok s' ∧ OutSrc G s' := by
  induction es with
  | nil => intro s g _ y _ _; exact ⟨s, rfl, y⟩
  | cons e r ih =>
    intro s g k y ho he
    have e0 : g ++ e :: r = (g ++ [e]) ++ r := by simp
    rw [e0] at ho
    obtain ⟨s1, h1, y1⟩ := tostep_total k y (ordered_prefix ho) (he e (by simp)) hd
    obtain ⟨s2, h2, y2⟩ := ih (kstep k (ordered_prefix ho) h1) y1 ho (fun e h => he e (by simp [h]))
    refine ⟨s2, ?_, y2⟩
    unfold ToSt.run
    rw [h1]; exact h2

theorem toLoop_total (hd : ∀ t u, BElem.tryBegin t ∈ G → BElem.tryBegin u ∈ G → t.depth = none → u.depth = none) {heap : Nat → Blk} {used : List Nat}
    (bs : List Nat) : ∀ {s : ToSt} {g : List BElem}, KInv s g → OutSrc G s → Ordered (g ++ bs.flatMap (fun b => (heap b).elems)) →
      (∀ b ∈ bs, ∀ e ∈ (heap b).elems, e ∈ G) → ∃ s', toLoop heap used s bs = .ok s' ∧ OutSrc G s' := by
  induction bs with
  | nil => intro s g _ y _ _; exact ⟨s, rfl, y⟩
  | cons b r ih =>
    intro s g k y ho he
    rw [List.flatMap_cons, ← List.append_assoc] at ho
    have hp : MarksOnly [BElem.label b] := fun x hx => .inl ⟨b, by simpa using hx⟩
    have hk : KInv (if b ∈ used then { s with out := s.out ++ [.label b] } else s) g := by
      split
      · exact k.plain hp
      · exact k
    have hy : OutSrc G (if b ∈ used then { s with out := s.out ++ [.label b] } else s) := by
      split
      · exact y.plain (fun _ h => by cases h) (fun _ h => by cases h)
      · exact y
    obtain ⟨s1, h1, y1⟩ := torun_total hd (heap b).elems hk hy (ordered_prefix ho) (he b (by simp))
    obtain ⟨s2, h2, y2⟩ := ih (krun _ hk (ordered_prefix ho) h1) y1 ho (fun b hb => he b (by simp [hb]))
    refine ⟨s2, ?_, y2⟩
    unfold toLoop
    dsimp only
    rw [h1]; exact h2

end

theorem blkIter_last {P : Platform} {i : Instr} {q : List BElem} (hj : P.hasJump i.opcode = true) : ∀ {p : List BElem},
    blkIter P (p ++ .instr i :: q) = .ok () → instrCount q = 0 := by
  intro p
  induction p with
  | nil =>
    intro h
    simp only [List.nil_append, blkIter] at h
    obtain ⟨⟨⟩, h1, _⟩ := except_bind_ok h
    simp only [blkCheck, hj, if_true] at h1
    split at h1
    · cases h1
    · rename_i hn
      refine List.countP_eq_zero.2 (fun x hx hx' => hn (List.any_eq_true.2 ⟨x, hx, hx'⟩))
  | cons x p ih =>
    intro h
    simp only [List.cons_append, blkIter] at h
    obtain ⟨_, _, h⟩ := except_bind_ok h
    exact ih h

/-- `to_bytecode` succeeds when the blocks can be read, only jumps have a block for argument, those blocks and those of the handlers
are in the graph, the regions are in order and all or none of the depths are set. -/
theorem to_total {P : Platform} {c : CFG} (hi : ∀ b ∈ c.blocks, blkIter P (c.heap b).elems = .ok ())
    (hj : ∀ b ∈ c.blocks, ∃ j, blkGetJump P (c.heap b).elems = .ok j)
    (hb : ∀ i k, BElem.instr i ∈ allCode c → i.arg = .block k → P.hasJump i.opcode = true ∧ k ∈ c.blocks)
    (ht : ∀ t, BElem.tryBegin t ∈ allCode c → t.target ∈ c.blocks) (ho : Ordered (allCode c))
    (hd : ∀ t u, BElem.tryBegin t ∈ allCode c → BElem.tryBegin u ∈ allCode c → t.depth = none → u.depth = none) :
    ∃ bc, c.toBytecode P = .ok bc := by
  unfold CFG.toBytecode
  obtain ⟨used, hu⟩ := usedBlocks_total c.blocks hi hj
  refine bind_total hu ?_
  obtain ⟨s, hs, y⟩ := toLoop_total (used := used) hd c.blocks kInv_init (outSrcInit (allCode c)) (by rw [List.nil_append]; exact ho)
    (fun b hb e he => List.mem_flatMap.2 ⟨b, hb, he⟩)
  refine bind_total hs ?_
  obtain ⟨es, hes⟩ := mapM_total (f := toLabelElem (c.blocks.filter (fun b => decide (b ∈ used)))) s.out (by
    intro x hx
    cases x with
    | instr i =>
      simp only [toLabelElem]
      cases ha : i.arg with
      | block k =>
        have hm := y.instr i hx
        obtain ⟨h1, h2⟩ := hb i k hm ha
        obtain ⟨b, hbm, hib⟩ := List.mem_flatMap.1 hm
        have hk : k ∈ used := by
          obtain ⟨⟨j, hj1, hj2⟩, _⟩ := usedBlocks_mem hu b hbm
          refine hj2 k ?_
          obtain ⟨p, q, hpq⟩ := List.append_of_mem hib
          have h0 : instrCount q = 0 := by
            have := hi b hbm
            rw [hpq] at this
            exact blkIter_last h1 this
          unfold blkGetJump at hj1
          rw [hpq, lastInstr_append_instr p i q h0] at hj1
          simp only [h1, if_true, ha, Arg.asBlock, Except.ok.injEq] at hj1
          exact hj1.symm
        simp only [List.mem_filter, decide_eq_true_eq, h2, hk, and_self, if_true]
        exact ⟨_, rfl⟩
      | _ => exact ⟨_, rfl⟩
    | tryBegin t =>
      obtain ⟨u, hu', e⟩ := y.begin_ t hx
      obtain ⟨b, hbm, htb⟩ := List.mem_flatMap.1 hu'
      have h1 := (usedBlocks_mem hu b hbm).2 u htb
      have h2 := ht u hu'
      rw [e] at h1 h2
      simp only [toLabelElem, List.mem_filter, decide_eq_true_eq, h1, h2, and_self, if_true]
      exact ⟨_, rfl⟩
    | _ => exact ⟨_, rfl⟩)
  exact bind_total hes ⟨_, rfl⟩

/-! ### The graphs of `from_bytecode` -/

/-- Only jumps take a label or a block. -/
theorem argOK_jump {P : Platform} {op : Nat} {a : Arg} (h : ArgOK P op a) (ha : (∃ l, a = .label l) ∨ ∃ b, a = .block b) : P.hasJump op = true := by
  have hne : a ≠ .unset := by rcases ha with ⟨l, rfl⟩ | ⟨l, rfl⟩ <;> simp
  have h1 := h.present.2 hne
  cases hj : P.hasJump op with
  | true => rfl
  | false =>
    exfalso
    have hfree : P.hasfree op = false := by
      cases hx : P.hasfree op with
      | false => rfl
      | true => rcases h.free hx with ⟨n, rfl⟩ | ⟨n, rfl⟩ <;> simp at ha
    have hflag : P.bitflag op = false := by
      cases hx : P.bitflag op with
      | false => rfl
      | true => obtain ⟨b, n, rfl⟩ := h.flag hx; simp at ha
    have hflag2 : P.bitflag2 op = false := by
      cases hx : P.bitflag2 op with
      | false => rfl
      | true => obtain ⟨b, c, n, rfl⟩ := h.flag2 hx; simp at ha
    have hname : P.hasname op = false := by
      cases hx : P.hasname op with
      | false => rfl
      | true => obtain ⟨n, rfl⟩ := h.name hx hflag hflag2; simp at ha
    have hdual : P.dual op = false := by
      cases hx : P.dual op with
      | false => rfl
      | true => obtain ⟨x, y, rfl, _⟩ := h.dual hx; simp at ha
    have hlocal : P.haslocal op = false := by
      cases hx : P.haslocal op with
      | false => rfl
      | true => rcases h.local_ hx hdual with ⟨n, rfl⟩ | ⟨_, ⟨n, rfl⟩ | ⟨n, rfl⟩⟩ <;> simp at ha
    have hconst : P.hasconst op = false := by
      cases hx : P.hasconst op with
      | false => rfl
      | true =>
        obtain ⟨a1, a2⟩ := h.const hx
        rcases ha with ⟨l, e⟩ | ⟨l, e⟩
        · exact absurd e (a1 l)
        · exact absurd e (a2 l)
    have hcmp : P.hascompare op = false := by
      cases hx : P.hascompare op with
      | false => rfl
      | true => obtain ⟨v, rfl⟩ := h.compare hx; simp at ha
    have hi1 : P.intrinsic1 op = false := by
      cases hx : P.intrinsic1 op with
      | false => rfl
      | true => obtain ⟨v, rfl⟩ := h.intr1 hx; simp at ha
    have hi2 : P.intrinsic2 op = false := by
      cases hx : P.intrinsic2 op with
      | false => rfl
      | true => obtain ⟨v, rfl⟩ := h.intr2 hx; simp at ha
    obtain ⟨v, hv, _⟩ := h.int (by simp [hj, hfree, hlocal, hname, hconst, hcmp, hi1, hi2]) h1
    rcases ha with ⟨l, rfl⟩ | ⟨l, rfl⟩ <;> simp [Arg.asInt] at hv

theorem from_src {P : Platform} {bc : Bytecode} {c : CFG} (hnb : LabelsOnly bc) (h : fromBytecode P bc = .ok c) :
    (∀ i, BElem.instr i ∈ allCode c → ∃ j, BElem.instr j ∈ bc.elems ∧ i.name = j.name ∧ i.opcode = j.opcode ∧ i.loc = j.loc ∧
      ((∃ k l, i.arg = .block k ∧ j.arg = .label l ∧ k ∈ c.blocks) ∨ (i.arg = j.arg ∧ ∀ l, j.arg ≠ .label l))) ∧
    (∀ t, BElem.tryBegin t ∈ allCode c → t.target ∈ c.blocks ∧ ∃ u, BElem.tryBegin u ∈ bc.elems ∧ (t.depth = none ∨ t.depth = u.depth)) := by
  unfold fromBytecode at h
  obtain ⟨_, _, h⟩ := except_bind_ok h
  obtain ⟨starts, hst, h⟩ := except_bind_ok h
  obtain ⟨s, hs, h⟩ := except_bind_ok h
  obtain ⟨bs1, h1, h⟩ := except_bind_ok h
  obtain ⟨bs, h2, h⟩ := except_bind_ok h
  simp only [pure, Except.pure, Except.ok.injEq] at h
  obtain ⟨st1, st2⟩ := blockStarts_ok hst
  have hst' : ∀ p ∈ starts, ∃ l, bc.elems[p]? = some (.label l) := fun p hp => by
    obtain ⟨l, hl⟩ := st1 p hp
    exact ⟨l, (labelIndex_some hl).1⟩
  have inv := fromLoop_ok hst' bc.elems [] _ s (fInv_init P bc.elems starts) rfl hs
  have src := srcInit.loop bc.elems (fun e he => he) hs
  have src1 := applyEnds_src (es := bc.elems) _ h1 (by
    intro b hb
    rcases List.mem_append.1 hb with hb | hb
    · exact src.done b hb
    · rw [List.mem_singleton] at hb; subst hb; exact src.cur)
  have hlen1 : bs1.length = s.done.length + 1 := by
    have := congrArg List.length (applyEnds_code _ h1)
    simpa using this
  have hlen2 : bs.length = bs1.length := by
    have := congrArg List.length (blocks_shape h2)
    simpa using this
  have eall : allCode c = bs.flatMap (·.elems) := by rw [← h]; exact allCode_ofBlocks _ _ _
  have hin : ∀ l k, s.labels l = some k → k ∈ c.blocks := by
    intro l k hk
    obtain ⟨p, _, _, hkl, _⟩ := inv.lab l k hk
    rw [← h]
    show k ∈ List.range bs.length
    rw [List.mem_range]; omega
  have hmem := (mapM_ok_mem (blocks_flat h2)).1
  rw [eall]
  constructor
  · intro i hi
    obtain ⟨e, he, hx⟩ := hmem _ hi
    obtain ⟨b, hb, he⟩ := List.mem_flatMap.1 he
    have hse := src1 b hb e he
    unfold toBlockElem at hx
    split at hx
    · rename_i j _
      split at hx
      · rename_i l hl
        split at hx
        · rename_i k hk
          simp only [Except.ok.injEq, BElem.instr.injEq] at hx
          subst hx
          exact ⟨j, hse, rfl, rfl, rfl, .inl ⟨k, l, rfl, hl, hin l k hk⟩⟩
        · cases hx
      · rename_i hne
        simp only [Except.ok.injEq, BElem.instr.injEq] at hx
        subst hx
        exact ⟨j, hse, rfl, rfl, rfl, .inr ⟨rfl, fun l hl => hne l hl⟩⟩
    · split at hx <;> cases hx
    · rename_i hn _
      simp only [Except.ok.injEq] at hx
      exact absurd hx (hn i)
  · intro t hi
    obtain ⟨e, he, hx⟩ := hmem _ hi
    obtain ⟨b, hb, he⟩ := List.mem_flatMap.1 he
    have hse := src1 b hb e he
    unfold toBlockElem at hx
    split at hx
    · repeat' split at hx
      all_goals cases hx
    · rename_i u
      split at hx
      · rename_i k hk
        simp only [Except.ok.injEq, BElem.tryBegin.injEq] at hx
        subst hx
        obtain ⟨v, hv, _, hd⟩ := hse
        exact ⟨hin _ k hk, v, hv, hd⟩
      · cases hx
    · rename_i hn
      simp only [Except.ok.injEq] at hx
      exact absurd hx (hn t)

theorem blkIter_erase (P : Platform) (es : List BElem) : blkIter P (es.map eraseD) = blkIter P es := by
  induction es with
  | nil => rfl
  | cons e r ih =>
    have h : (r.map eraseD).any BElem.isInstr = r.any BElem.isInstr := by
      rw [List.any_map]
      congr 1
      funext x
      cases x <;> rfl
    have : blkCheck P (eraseD e) (r.map eraseD) = blkCheck P e r := by
      cases e <;> simp only [eraseD, blkCheck, h]
    simp only [List.map_cons, blkIter, this, ih]

theorem lastInstr_erase (es : List BElem) : lastInstr (es.map eraseD) = lastInstr es := by
  unfold lastInstr
  rw [← List.map_reverse, List.findSome?_map]
  congr 1
  funext x
  cases x <;> rfl

/-- `to_bytecode` of the graph `from_bytecode` made, whatever the depths as long as all or none are set. -/
theorem from_to_total {P : Platform} {bc : Bytecode} {c c' : CFG} (hl : LabelsOnly bc) (hv : ∀ i, BElem.instr i ∈ bc.elems → ArgOK P i.opcode i.arg)
    (hw : WellTried none [] false bc.elems) (h : fromBytecode P bc = .ok c) (hd : DepthsOnly c c')
    (hdep : ∀ t u, BElem.tryBegin t ∈ allCode c' → BElem.tryBegin u ∈ allCode c' → t.depth = none → u.depth = none) :
    ∃ b', c'.toBytecode P = .ok b' := by
  have hjl : ∀ i, BElem.instr i ∈ bc.elems → P.hasJump i.opcode = true → ∃ l, i.arg = .label l := by
    intro i hi hj
    rcases (hv i hi).jump hj with h | ⟨b, h⟩
    · exact h
    · exact absurd h (hl i hi b)
  obtain ⟨x1, x2⟩ := from_src hl h
  have hit := C27_iterable P bc c hl hjl h
  have hinstr : ∀ i, BElem.instr i ∈ allCode c' → BElem.instr i ∈ allCode c := by
    intro i hi
    have : BElem.instr i ∈ (allCode c').map eraseD := List.mem_map.2 ⟨_, hi, rfl⟩
    rw [flatMap_erase hd] at this
    obtain ⟨e, he, hx⟩ := List.mem_map.1 this
    cases e <;> simp [eraseD] at hx
    subst hx; exact he
  refine to_total ?_ ?_ ?_ ?_ (ordered_marks (marks_only hd).symm (from_tries hw h).1) hdep
  · intro b hb
    rw [← blkIter_erase, hd.elems b, blkIter_erase]
    exact hit b (by rw [← hd.blocks]; exact hb)
  · intro b hb
    rw [hd.blocks] at hb
    unfold blkGetJump
    rw [← lastInstr_erase, hd.elems b, lastInstr_erase]
    cases hi : lastInstr (c.heap b).elems with
    | none => exact ⟨_, rfl⟩
    | some i =>
      simp only
      split
      · rename_i hj
        have hm : BElem.instr i ∈ allCode c := by
          refine List.mem_flatMap.2 ⟨b, hb, ?_⟩
          unfold lastInstr at hi
          obtain ⟨e, he, hx⟩ := List.exists_of_findSome?_eq_some hi
          cases e with
          | instr j => cases hx; exact List.mem_reverse.1 he
          | _ => cases hx
        obtain ⟨j, hj1, _, hj3, _, hj4⟩ := x1 i hm
        rcases hj4 with ⟨k, l, hk, _⟩ | ⟨_, hno⟩
        · rw [hk]; exact ⟨_, rfl⟩
        · obtain ⟨l, hl⟩ := hjl j hj1 (by rw [← hj3]; exact hj)
          exact absurd hl (hno l)
      · exact ⟨_, rfl⟩
  · intro i k hi ha
    obtain ⟨j, hj1, _, hj3, _, hj4⟩ := x1 i (hinstr i hi)
    rcases hj4 with ⟨k', l, hk, hl', hkb⟩ | ⟨he, _⟩
    · rw [ha] at hk
      cases hk
      rw [hj3, hd.blocks]
      exact ⟨argOK_jump (hv j hj1) (.inl ⟨l, hl'⟩), hkb⟩
    · exact absurd (he.symm.trans ha) (hl j hj1 k)
  · intro t ht
    have : eraseD (.tryBegin t) ∈ (allCode c').map eraseD := List.mem_map.2 ⟨_, ht, rfl⟩
    rw [flatMap_erase hd] at this
    obtain ⟨e, he, hx⟩ := List.mem_map.1 this
    cases e <;> simp [eraseD] at hx
    rename_i u
    have := (x2 u he).1
    rw [hd.blocks]
    rw [← hx.2.1]; exact this

end Verif
