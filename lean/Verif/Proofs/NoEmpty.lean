import Verif.Proofs.Sized
/-
No try region of the result of `from_bytecode` and `to_bytecode` is empty.
-/
namespace Verif
open Spec

/-! ### Walking through the graph -/

/-- Where a walk stands: outside, inside a region (holding an instruction or not, the pieces before included), or just after
one. -/
inductive Ne
  | out
  | ins (t : TryB) (full : Bool)
  | aft (t : TryB)

def neStep : Ne → BElem → Option Ne
  | .out, .tryBegin t => some (.ins t false)
  | .aft u, .tryBegin t => some (.ins t (decide (u.target = t.target ∧ u.lasti = t.lasti)))
  | .ins _ _, .tryBegin _ => none
  | .ins t f, .tryEnd id => if t.id = id then (if f then some (.aft t) else none) else some (.ins t f)
  | .out, .tryEnd _ => some .out
  | .aft u, .tryEnd _ => some (.aft u)
  | .ins t _, .instr _ => some (.ins t true)
  | _, .instr _ => some .out
  | q, .label _ => some q
  | q, .setLineno _ => some q

def neRun (q : Ne) (es : List BElem) : Option Ne := es.foldlM neStep q

theorem neRun_cons (q : Ne) (e : BElem) (r : List BElem) : neRun q (e :: r) = (neStep q e).bind (fun q => neRun q r) := by
  unfold neRun; rw [List.foldlM_cons]; rfl

theorem neRun_append (q : Ne) (a b : List BElem) : neRun q (a ++ b) = (neRun q a).bind (fun q => neRun q b) := by
  unfold neRun; rw [List.foldlM_append]; rfl

theorem neRun_snoc (q : Ne) (a : List BElem) (e : BElem) : neRun q (a ++ [e]) = (neRun q a).bind (fun q => neStep q e) := by
  rw [neRun_append]
  congr 1
  funext x
  rw [neRun_cons]
  cases neStep x e <;> rfl

def Ne.open_ : Ne → Option TryB
  | .ins t _ => some t
  | _ => none

theorem neStep_open {q r : Ne} {e : BElem} (h : neStep q e = some r) : r.open_ = nextId q.open_ e := by
  cases q <;> cases e <;> simp only [neStep] at h
  all_goals (repeat' split at h)
  all_goals first | (cases h; done) | (simp only [Option.some.injEq] at h; subst h)
  all_goals simp_all [Ne.open_, nextId]

theorem neRun_open {es : List BElem} : ∀ {q r : Ne}, neRun q es = some r → r.open_ = stW nextId q.open_ es := by
  induction es with
  | nil => intro q r h; simp only [neRun, List.foldlM_nil, pure, Option.some.injEq] at h; subst h; rfl
  | cons e es ih =>
    intro q r h
    rw [neRun_cons] at h
    obtain ⟨q1, h1, h⟩ := Option.bind_eq_some_iff.1 h
    rw [ih h, neStep_open h1]; rfl

/-- Whether a region was opened and no instruction met since. -/
def neFlag (e : Bool) : BElem → Bool
  | .tryBegin _ => true
  | .tryEnd _ => false
  | .instr _ => false
  | _ => e

def neE (e : Bool) (es : List BElem) : Bool := es.foldl neFlag e

theorem neE_snoc (e : Bool) (es : List BElem) (x : BElem) : neE e (es ++ [x]) = neFlag (neE e es) x := by
  simp [neE, List.foldl_append]

theorem neE_append (e : Bool) (a b : List BElem) : neE e (a ++ b) = neE (neE e a) b := by
  simp [neE, List.foldl_append]

theorem noEmpty_append {a b : List BElem} : ∀ {e : Bool}, NoEmptyTry e (a ++ b) ↔ NoEmptyTry e a ∧ NoEmptyTry (neE e a) b := by
  induction a with
  | nil => intro e; simp [NoEmptyTry, neE]
  | cons x a ih =>
    intro e
    cases x <;> simp [NoEmptyTry, ih, neE, neFlag, and_assoc]

/-! ### `from_bytecode` -/

structure NInv (s : FromSt) (pre : List BElem) : Prop where
  run : ∃ q, neRun .out s.flat = some q ∧ ∀ u f, q = .ins u f → neE false pre = false → f = true
  last : s.last ≠ none → neE false pre = false

theorem NInv.of {s s' : FromSt} {pre : List BElem} (h : NInv s pre) (hf : s'.flat = s.flat) (hl : s'.last = s.last) : NInv s' pre :=
  ⟨by rw [hf]; exact h.run, by rw [hl]; exact h.last⟩

/-- The open region is ended. -/
theorem NInv.end_ {es : List BElem} {s s' : FromSt} {pre : List BElem} {n nid : Nat} {t : TryB} {x : Nat} (k : HInv es s pre n) (h : NInv s pre)
    (ha : s.active = some t) (ht : s.tries t.id = some nid) (hf : s'.flat = s.flat ++ [.tryEnd nid]) (hfl : neE false pre = false) :
    (∃ u, neRun .out s'.flat = some (.aft u) ∧ u.target = t.target ∧ u.lasti = t.lasti) ∧ NInv s' (pre ++ [.tryEnd x]) := by
  obtain ⟨u, hu, hut, hu1, hu2⟩ := k.sts t ha
  rw [ht] at hut
  simp only [Option.some.injEq] at hut
  obtain ⟨q, hq, hqf⟩ := h.run
  have ho := neRun_open hq
  have ho : q.open_ = some u := ho.trans hu
  cases q with
  | out => cases ho
  | aft _ => cases ho
  | ins v f =>
    simp only [Ne.open_, Option.some.injEq] at ho
    subst ho
    have := hqf _ _ rfl hfl
    subst this
    have hr : neRun .out s'.flat = some (.aft v) := by
      rw [hf, neRun_snoc, hq]
      simp [neStep, hut]
    exact ⟨⟨v, hr, hu1, hu2⟩, ⟨_, hr, fun _ _ e => by cases e⟩, fun _ => by rw [neE_snoc]; rfl⟩

theorem nbridge {P : Platform} {es : List BElem} {s s' : FromSt} {pre : List BElem} {temp : Bool} {i : Instr} {e : BElem} {d : Bool}
    (hw : WellTried none [] false es) (k : HInv es s pre (pre.length + 1)) (h : NInv s pre) (hli : s.last = some i)
    (hp : pre = es.take pre.length) (hc : s.cur.elems = []) (hd : s.done ≠ [])
    (hr : s.bridge P es temp i e = .ok (s', d)) :
    (d = false → NInv s' pre) ∧ (d = true → NInv s' (pre ++ [e])) := by
  have hfl := h.last (by rw [hli]; simp)
  unfold FromSt.bridge at hr
  split at hr
  · cases hr
  · rename_i id t _ ha
    split at hr
    · rename_i nid ht
      simp only [Except.ok.injEq, Prod.mk.injEq] at hr
      obtain ⟨rfl, rfl⟩ := hr
      refine ⟨(fun h => by cases h), fun _ => ?_⟩
      exact (NInv.end_ (s' := { s.pushOld (.tryEnd nid) with active := none }) k h ha ht (flat_pushOld s _ hd hc) hfl).2
    · cases hr
  · rename_i t ha _
    split at hr
    · cases hr
    · rename_i nid ht
      obtain ⟨s1, h1, hr⟩ := except_bind_ok hr
      obtain ⟨k1, k2, k3, k4, k5⟩ := hleave hw k hp hc ha ht h1
      have hf1 : s1.flat = s.flat := by rw [flat_eq, flat_eq, k2, k3]
      have hl1 : s1.last = s.last := by
        unfold FromSt.leave at h1
        repeat' split at h1
        all_goals first | (cases h1; done) | (simp only [Except.ok.injEq] at h1; subst h1; first | rfl | (split <;> rfl))
      have n1 : NInv s1 pre := h.of hf1 hl1
      split at hr
      · simp only [pure, Except.pure, Except.ok.injEq, Prod.mk.injEq] at hr
        obtain ⟨rfl, rfl⟩ := hr
        refine ⟨fun _ => ?_, fun h => by cases h⟩
        obtain ⟨⟨u, hu, hu1, hu2⟩, _⟩ := NInv.end_ (x := 0) (s' := s1.pushOld (.tryEnd nid)) k1 n1 (by rw [k4]; exact ha) (by rw [k5]; exact ht)
          (flat_pushOld s1 _ (by rw [k3]; exact hd) (by rw [k2]; exact hc)) hfl
        refine ⟨⟨.ins ⟨s1.ids, t.target, t.lasti, none⟩ true, ?_, fun _ _ e _ => by cases e; rfl⟩, fun _ => hfl⟩
        have := flat_push (s1.pushOld (.tryEnd nid)) (.tryBegin ⟨s1.ids, t.target, t.lasti, none⟩)
        show neRun .out ((s1.pushOld (.tryEnd nid)).push (.tryBegin ⟨s1.ids, t.target, t.lasti, none⟩)).flat = _
        rw [this, neRun_snoc, hu]
        simp [neStep, hu1, hu2]
      · simp only [pure, Except.pure, Except.ok.injEq, Prod.mk.injEq] at hr
        obtain ⟨rfl, rfl⟩ := hr
        exact ⟨fun _ => n1, fun h => by cases h⟩
  · simp only [Except.ok.injEq, Prod.mk.injEq] at hr
    obtain ⟨rfl, rfl⟩ := hr
    exact ⟨fun _ => h, fun h => by cases h⟩

theorem ncopy {es : List BElem} {s s' : FromSt} {pre : List BElem} {e : BElem} {n : Nat}
    (hw : WellTried none [] false es) (hne : NoEmptyTry false es) (k : HInv es s pre n) (h : NInv s pre)
    (hp : pre = es.take pre.length) (he : es[pre.length]? = some e)
    (hr : s.copyElem e = .ok s') : NInv s' (pre ++ [e]) := by
  obtain ⟨q, hq, hqf⟩ := h.run
  have hlen : pre.length < es.length := (List.getElem?_eq_some_iff.1 he).1
  have hsp : es = pre ++ e :: es.drop (pre.length + 1) := by
    have h1 := List.take_append_drop pre.length es
    rw [List.drop_eq_getElem_cons hlen, ← hp] at h1
    have h2 : es[pre.length] = e := by
      rw [List.getElem?_eq_getElem hlen] at he
      simpa using he
    rw [h2] at h1
    exact h1.symm
  cases e with
  | label l =>
    simp only [FromSt.copyElem, Except.ok.injEq] at hr
    subst hr
    refine ⟨⟨q, hq, ?_⟩, fun h => absurd rfl h⟩
    rw [neE_snoc]; exact hqf
  | setLineno l =>
    simp only [FromSt.copyElem, Except.ok.injEq] at hr
    subst hr
    refine ⟨⟨q, ?_, ?_⟩, fun h => absurd rfl h⟩
    · show neRun .out (s.push (.setLineno l)).flat = _
      rw [flat_push, neRun_snoc, hq]
      cases q <;> rfl
    · rw [neE_snoc]; exact hqf
  | instr i =>
    simp only [FromSt.copyElem, Except.ok.injEq] at hr
    subst hr
    have hf : neRun .out (s.push (.instr i)).flat = (neStep q (.instr i)) := by
      rw [flat_push, neRun_snoc, hq]; rfl
    refine ⟨?_, fun _ => by rw [neE_snoc]; rfl⟩
    cases q with
    | out => exact ⟨_, hf, fun _ _ e => by cases e⟩
    | aft _ => exact ⟨_, hf, fun _ _ e => by cases e⟩
    | ins u f => exact ⟨_, hf, fun _ _ e _ => by cases e; rfl⟩
  | tryBegin t =>
    simp only [FromSt.copyElem] at hr
    split at hr
    · cases hr
    · rename_i hn
      simp only [Except.ok.injEq] at hr
      subst hr
      have ha : s.active = none := by
        cases ha : s.active with
        | none => rfl
        | some t => rw [ha] at hn; exact absurd rfl hn
      have ho := (neRun_open hq).trans (k.stn ha)
      have hf : neRun .out (s.push (.tryBegin { t with id := s.ids })).flat = neStep q (.tryBegin { t with id := s.ids }) := by
        rw [flat_push, neRun_snoc, hq]; rfl
      refine ⟨?_, fun h => absurd rfl h⟩
      have hv : neE false (pre ++ [.tryBegin t]) = true := by rw [neE_snoc]; rfl
      cases q with
      | out => exact ⟨_, hf, fun _ _ _ e => by rw [hv] at e; cases e⟩
      | aft _ => exact ⟨_, hf, fun _ _ _ e => by rw [hv] at e; cases e⟩
      | ins u f => cases ho
  | tryEnd id =>
    simp only [FromSt.copyElem] at hr
    split at hr
    · cases hr
    · rename_i nid ht
      simp only [Except.ok.injEq] at hr
      subst hr
      have ho := wellTried_end hw (c := none) rfl hsp
      rw [k.act] at ho
      have hfl : neE false pre = false := by
        rw [hsp, noEmpty_append] at hne
        exact hne.2.1
      cases ha : s.active with
      | none => rw [ha] at ho; cases ho
      | some t =>
        rw [ha] at ho
        simp only [Option.map_some, Option.some.injEq] at ho
        exact (NInv.end_ (s' := { s.push (.tryEnd nid) with active := none, inserted := false, last := none }) k h ha (by rw [ho]; exact ht)
          (flat_push s _) hfl).2

theorem enter_flat {P : Platform} {s s' : FromSt} {n : Nat} {st : Bool} {e : BElem} {o : Bool} (h : s.enter P n st e = .ok (s', o)) :
    s'.flat = s.flat ∧ s'.last = s.last := by
  have ho : ∀ c, (s.open_ c).flat = s.flat ∧ (s.open_ c).last = s.last := fun c => ⟨flat_open s c, rfl⟩
  unfold FromSt.enter at h
  split at h
  · dsimp only at h
    cases hd : decide (n ≠ 0) <;> cases hl : lastInstr s.cur.elems <;> rw [hd, hl] at h <;> dsimp only at h <;> cases e <;>
      simp only [Except.ok.injEq, Prod.mk.injEq] at h <;> obtain ⟨rfl, rfl⟩ := h <;> first | exact ⟨rfl, rfl⟩ | exact ho _
  · repeat' split at h
    all_goals first
      | (cases h; done)
      | (simp only [Except.ok.injEq, Prod.mk.injEq] at h; obtain ⟨rfl, rfl⟩ := h; first | exact ⟨rfl, rfl⟩ | exact ho _)

theorem nstep {P : Platform} {es : List BElem} {starts : List Nat} {s s' : FromSt} {pre : List BElem} {e : BElem}
    (hw : WellTried none [] false es) (hne : NoEmptyTry false es) (hf : FInv P es starts s pre pre.length) (k : HInv es s pre pre.length)
    (h : NInv s pre) (hp : pre = es.take pre.length) (he : es[pre.length]? = some e) (hst : ∀ p ∈ starts, ∃ l, labelIndex l es = some p)
    (hr : s.step P es starts pre.length e = .ok s') : NInv s' (pre ++ [e]) := by
  unfold FromSt.step at hr
  obtain ⟨⟨s1, o⟩, h1, hr⟩ := except_bind_ok hr
  obtain ⟨i1, i2⟩ := henter hw hf k hp he hst h1
  obtain ⟨f1, f2⟩ := enter_flat h1
  have n1 : NInv s1 pre := h.of f1 f2
  simp only at hr
  split at hr
  · rename_i ho
    obtain ⟨c1, c2, c3⟩ := i2 ho
    have i1 : HInv es { s1 with inserted := false } pre (pre.length + 1) := i1.of rfl rfl rfl rfl rfl rfl rfl
    have n1 : NInv { s1 with inserted := false } pre := n1.of rfl rfl
    split at hr
    · rename_i i hli
      obtain ⟨⟨s2, d⟩, h2, hr⟩ := except_bind_ok hr
      obtain ⟨j1, j2⟩ := hbridge hw i1 hp c1 c2 c3 h2
      obtain ⟨m1, m2⟩ := nbridge hw i1 n1 hli hp c1 c2 h2
      simp only at hr
      split at hr
      · rename_i hd
        simp only [pure, Except.pure, Except.ok.injEq] at hr
        subst hr
        exact m2 hd
      · rename_i hd
        have hd' : d = false := by simpa using hd
        exact ncopy hw hne (j1 hd') (m1 hd') hp he hr
    · exact ncopy hw hne i1 n1 hp he hr
  · exact ncopy hw hne i1 n1 hp he hr

theorem nloop {P : Platform} {es : List BElem} {starts : List Nat} (hw : WellTried none [] false es) (hne : NoEmptyTry false es)
    (hst : ∀ p ∈ starts, ∃ l, labelIndex l es = some p) (r : List BElem) :
    ∀ (pre : List BElem) (s s' : FromSt), FInv P es starts s pre pre.length → HInv es s pre pre.length → NInv s pre → es = pre ++ r →
      fromLoop P es starts pre.length s r = .ok s' → NInv s' es := by
  have hst' : ∀ p ∈ starts, ∃ l, es[p]? = some (.label l) := fun p hp => by
    obtain ⟨l, hl⟩ := hst p hp
    exact ⟨l, (labelIndex_some hl).1⟩
  induction r with
  | nil =>
    intro pre s s' _ _ h hes hr
    simp only [fromLoop, Except.ok.injEq] at hr
    subst hr
    rw [List.append_nil] at hes
    rw [hes]; exact h
  | cons e r ih =>
    intro pre s s' hf k h hes hr
    unfold fromLoop at hr
    obtain ⟨s1, h1, hr⟩ := except_bind_ok hr
    have hp : pre = es.take pre.length := by rw [hes]; simp
    have he : es[pre.length]? = some e := by rw [hes]; simp
    have k1 := step_ok hf hp he hst' h1
    have k2 := hstep hw hf k hp he hst h1
    have k3 := nstep hw hne hf k h hp he hst h1
    have hlen : (pre ++ [e]).length = pre.length + 1 := by simp
    rw [← hlen] at k1 k2 hr
    exact ih (pre ++ [e]) s1 s' k1 k2 k3 (by rw [hes]; simp) hr

/-! ### A TryEnd added early -/

theorem ne_early (n : Nat) (x y : List BElem) (hx : instrCount x = 0) : ∀ (t : TryB) (f : Bool), t.id = n →
    neRun (.ins t f) (x ++ .tryEnd n :: y) ≠ none →
    f = true ∧ neRun (.aft t) (x ++ .tryEnd n :: y) = neRun (.ins t f) (x ++ .tryEnd n :: y) := by
  induction x with
  | nil =>
    intro t f ht h
    rw [List.nil_append, neRun_cons, neRun_cons] at *
    cases f with
    | false => simp [neStep, ht] at h
    | true => exact ⟨rfl, by simp [neStep, ht]⟩
  | cons e r ih =>
    intro t f ht h
    have hr : instrCount r = 0 ∧ e.isInstr = false := by
      unfold instrCount at hx ⊢
      rw [List.countP_cons] at hx
      refine ⟨by omega, ?_⟩
      cases h : e.isInstr
      · rfl
      · rw [h] at hx; simp at hx
    rw [List.cons_append, neRun_cons, neRun_cons] at *
    cases e with
    | instr i => cases hr.2
    | tryBegin u => simp [neStep] at h
    | label l => exact ih hr.1 t f ht h
    | setLineno l => exact ih hr.1 t f ht h
    | tryEnd m =>
      by_cases hm : t.id = m
      · cases f with
        | false => simp [neStep, hm] at h
        | true => exact ⟨rfl, by simp [neStep, hm]⟩
      · have e1 : neStep (.ins t f) (.tryEnd m) = some (.ins t f) := by simp [neStep, hm]
        rw [e1] at h ⊢
        exact ih hr.1 t f ht h

theorem ne_insert {X Y : List BElem} {n : Nat} (ho : Ordered (X ++ Y)) (h : neRun .out (X ++ Y) ≠ none)
    (hn : BElem.tryEnd n ∈ X ∨ ∃ x y, Y = x ++ .tryEnd n :: y ∧ instrCount x = 0) : neRun .out (X ++ .tryEnd n :: Y) ≠ none := by
  have hXn : (begins X).Nodup := by
    have := ho.nodup; rw [begins_append] at this; exact (List.nodup_append.1 this).1
  have hXb : Bef X := by
    intro a m b hab
    exact ho.bef a m (b ++ Y) (by rw [hab]; simp)
  rw [neRun_append] at h ⊢
  cases hq : neRun .out X with
  | none => rw [hq] at h; exact absurd rfl h
  | some q =>
    rw [hq] at h
    simp only [Option.bind_some, neRun_cons] at h ⊢
    cases q with
    | out => exact h
    | aft u => exact h
    | ins t f =>
      by_cases hc : t.id = n
      · rcases hn with hn | ⟨x, y, rfl, hx⟩
        · exact absurd hc (ended_not_open hXn hXb hn (neRun_open hq).symm)
        · obtain ⟨hf, he⟩ := ne_early n x y hx t f hc h
          subst hf
          simp only [neStep, hc, if_true, Option.bind_some]
          rw [he]; exact h
      · simp only [neStep, hc, if_false, Option.bind_some]
        exact h

theorem neInsert {bs : List Blk} {R : List (Option (Nat × Bool))} {k n : Nat} {b : Blk} (h : GInv bs R) (hk : bs[k]? = some b)
    (he : Early bs k n) (hne : neRun .out (bs.flatMap (·.elems)) ≠ none) :
    neRun .out ((bs.set k ⟨.tryEnd n :: b.elems, b.next⟩).flatMap (·.elems)) ≠ none := by
  obtain ⟨f1, f2⟩ := set_flat (b' := ⟨.tryEnd n :: b.elems, b.next⟩) hk
  obtain ⟨_, h2⟩ := he
  rw [f2]
  refine ne_insert (X := (bs.take k).flatMap (·.elems)) (Y := b.elems ++ (bs.drop (k + 1)).flatMap (·.elems)) (by rw [← f1]; exact h.ord) (by rw [← f1]; exact hne) ?_
  rcases h2 with ⟨j, hj, b1, hb1, hm⟩ | ⟨b1, hb1, x, y, e, h0⟩
  · exact .inl (mem_take_flat hj hb1 hm)
  · rw [hk] at hb1
    simp only [Option.some.injEq] at hb1
    subst hb1
    exact .inr ⟨x, y ++ (bs.drop (k + 1)).flatMap (·.elems), by rw [e]; simp, h0⟩

theorem neInsertEnds {R : List (Option (Nat × Bool))} {k : Nat} (ids : List Nat) : ∀ {bs : List Blk} {b : Blk} (ex : List Nat), GInv bs R →
    bs[k]? = some b → (∀ n ∈ ids, Early bs k n) → neRun .out (bs.flatMap (·.elems)) ≠ none →
    neRun .out ((bs.set k ⟨Verif.insertEnds ex b.elems ids, b.next⟩).flatMap (·.elems)) ≠ none := by
  induction ids with
  | nil =>
    intro bs b ex h hk _ hne
    have : bs.set k ⟨Verif.insertEnds ex b.elems [], b.next⟩ = bs := by
      show bs.set k b = bs
      apply List.ext_getElem?
      intro i
      rw [List.getElem?_set]
      split
      · rename_i hi; subst hi
        rw [hk, if_pos (List.getElem?_eq_some_iff.1 hk).1]
      · rfl
    rw [this]; exact hne
  | cons i r ih =>
    intro bs b ex h hk he hne
    unfold Verif.insertEnds
    split
    · exact ih ex h hk (fun n hn => he n (by simp [hn])) hne
    · have h1 := h.insert hk (he i (by simp))
      have hp := pref_set (n := i) hk
      have hk1 : (bs.set k ⟨.tryEnd i :: b.elems, b.next⟩)[k]? = some ⟨.tryEnd i :: b.elems, b.next⟩ := by
        rw [List.getElem?_set, if_pos rfl, if_pos (List.getElem?_eq_some_iff.1 hk).1]
      have := ih (i :: ex) h1 hk1 (fun n hn => (he n (by simp [hn])).pref hp) (neInsert h hk (he i (by simp)) hne)
      rw [List.set_set] at this
      exact this

theorem neApplyEnds {R : List (Option (Nat × Bool))} {labels : Nat → Option Nat} (ends : List (Nat × List Nat)) : ∀ {bs bs' : List Blk}, GInv bs R →
    (∀ l k nid, labels l = some k → HasEnd ends l nid → Early bs k nid) → neRun .out (bs.flatMap (·.elems)) ≠ none →
    Verif.applyEnds labels bs ends = .ok bs' → neRun .out (bs'.flatMap (·.elems)) ≠ none := by
  induction ends with
  | nil =>
    intro bs bs' h _ hne hr
    simp only [Verif.applyEnds, Except.ok.injEq] at hr
    subst hr; exact hne
  | cons x r ih =>
    intro bs bs' h he hne hr
    obtain ⟨l, ids⟩ := x
    unfold Verif.applyEnds at hr
    split at hr
    · cases hr
    · rename_i k hk
      have hr' : ∀ l' k' nid, labels l' = some k' → HasEnd r l' nid → Early bs k' nid := by
        rintro l' k' nid hl ⟨ids', h1, h2⟩
        exact he l' k' nid hl ⟨ids', by simp [h1], h2⟩
      split at hr
      · rename_i b hb
        have hids := fun n hn => he l k n hk ⟨ids, by simp, hn⟩
        obtain ⟨g1, g2⟩ := GInv.insertEnds ids (leadingEnds b.elems) h hb hids
        exact ih g1 (fun l' k' nid hl hh => (hr' l' k' nid hl hh).pref g2) (neInsertEnds ids (leadingEnds b.elems) h hb hids hne) hr
      · exact ih h hr' hne hr

/-! ### Renaming targets, changing depths -/

/-- The same element, with another target. -/
def Renames (φ : Nat → Nat) (e e' : BElem) : Prop :=
  match e, e' with
  | .tryBegin t, .tryBegin u => u.id = t.id ∧ u.lasti = t.lasti ∧ u.target = φ t.target
  | .tryEnd a, .tryEnd b => a = b
  | .instr _, .instr _ => True
  | .label _, .label _ => True
  | .setLineno _, .setLineno _ => True
  | _, _ => False

def NeSim (φ : Nat → Nat) : Ne → Ne → Prop
  | .out, .out => True
  | .aft t, .aft u => u.lasti = t.lasti ∧ u.target = φ t.target
  | .ins t f, .ins u f' => u.id = t.id ∧ u.lasti = t.lasti ∧ u.target = φ t.target ∧ (f = true → f' = true)
  | _, _ => False

theorem neSim_step {φ : Nat → Nat} {q q' r : Ne} {e e' : BElem} (hs : NeSim φ q q') (he : Renames φ e e') (h : neStep q e = some r) :
    ∃ r', neStep q' e' = some r' ∧ NeSim φ r r' := by
  cases q <;> cases q' <;> first | (exact hs.elim) | skip
  all_goals cases e <;> cases e' <;> first | (exact he.elim) | skip
  all_goals simp only [NeSim, Renames] at hs he
  all_goals simp only [neStep] at h ⊢
  all_goals (repeat' split at h)
  all_goals first | (cases h; done) | (simp only [Option.some.injEq] at h; subst h)
  all_goals simp_all [NeSim]

theorem neSim_run {φ : Nat → Nat} {es es' : List BElem} (h : List.Forall₂ (Renames φ) es es') : ∀ {q q' : Ne}, NeSim φ q q' →
    neRun q es ≠ none → neRun q' es' ≠ none := by
  induction h with
  | nil => intro q q' _ h; simp [neRun]
  | cons hx _ ih =>
    intro q q' hs h
    rw [neRun_cons] at h ⊢
    cases hq : neStep q _ with
    | none => rw [hq] at h; exact absurd rfl h
    | some r =>
      rw [hq] at h
      obtain ⟨r', h1, h2⟩ := neSim_step hs hx hq
      rw [h1]
      exact ih h2 h

theorem toBlock_renames {labels : Nat → Option Nat} : ∀ {es es' : List BElem}, es.mapM (toBlockElem labels) = .ok es' →
    List.Forall₂ (Renames (fun l => (labels l).getD 0)) es es' := by
  intro es
  induction es with
  | nil =>
    intro es' h
    simp only [List.mapM_nil, pure, Except.pure, Except.ok.injEq] at h
    subst h; exact .nil
  | cons x r ih =>
    intro es' h
    rw [List.mapM_cons] at h
    obtain ⟨y, hy, h⟩ := except_bind_ok h
    obtain ⟨ys, hys, h⟩ := except_bind_ok h
    simp only [pure, Except.pure, Except.ok.injEq] at h
    subst h
    refine .cons ?_ (ih hys)
    cases x with
    | instr i =>
      simp only [toBlockElem] at hy
      repeat' split at hy
      all_goals first | (cases hy; done) | (simp only [Except.ok.injEq] at hy; subst hy; trivial)
    | tryBegin t =>
      simp only [toBlockElem] at hy
      split at hy
      · rename_i b hb
        simp only [Except.ok.injEq] at hy
        subst hy
        exact ⟨rfl, rfl, by simp [hb]⟩
      · cases hy
    | _ => simp only [toBlockElem, Except.ok.injEq] at hy; subst hy; first | trivial | rfl

theorem erase_renames : ∀ {es es' : List BElem}, es'.map eraseD = es.map eraseD → List.Forall₂ (Renames id) es es' := by
  intro es
  induction es with
  | nil => intro es' h; cases es' with
    | nil => exact .nil
    | cons _ _ => cases h
  | cons x r ih =>
    intro es' h
    cases es' with
    | nil => cases h
    | cons y s =>
      simp only [List.map_cons, List.cons.injEq] at h
      refine .cons ?_ (ih h.2)
      have h1 := h.1
      cases x <;> cases y <;> simp [eraseD] at h1 <;> simp [Renames, h1]

theorem ne_only {c c' : CFG} (h : DepthsOnly c c') (hn : neRun .out (allCode c) ≠ none) : neRun .out (allCode c') ≠ none :=
  neSim_run (erase_renames (flatMap_erase h)) (q := .out) (q' := .out) trivial hn

theorem from_noEmpty {P : Platform} {bc : Bytecode} {c : CFG} (hw : WellTried none [] false bc.elems) (hne : NoEmptyTry false bc.elems)
    (h : fromBytecode P bc = .ok c) : neRun .out (allCode c) ≠ none := by
  unfold fromBytecode at h
  obtain ⟨_, _, h⟩ := except_bind_ok h
  obtain ⟨starts, hst, h⟩ := except_bind_ok h
  obtain ⟨s, hs, h⟩ := except_bind_ok h
  obtain ⟨bs1, h1, h⟩ := except_bind_ok h
  obtain ⟨bs, h2, h⟩ := except_bind_ok h
  simp only [pure, Except.pure, Except.ok.injEq] at h
  obtain ⟨st1, st2⟩ := blockStarts_ok hst
  have hst' : ∀ p ∈ starts, ∃ l, bc.elems[p]? = some (.label l) := fun p hp => by
    obtain ⟨l, hl⟩ := st1 p hp
    exact ⟨l, (labelIndex_some hl).1⟩
  have inv := fromLoop_ok hst' bc.elems [] _ s (fInv_init P bc.elems starts) rfl hs
  have hin := hloop hw st1 bc.elems [] _ s (fInv_init P bc.elems starts) (hInv_init bc.elems) rfl hs
  have nin := nloop hw hne st1 bc.elems [] _ s (fInv_init P bc.elems starts) (hInv_init bc.elems)
    ⟨⟨.out, rfl, (fun _ _ e => by cases e)⟩, fun h => absurd rfl h⟩ rfl hs
  have g0 : GInv (s.done ++ [s.cur]) (outW nextS none bc.elems) := by
    refine ⟨hin.ord, hin.out, hin.stn ?_, ?_⟩
    · rw [← hin.act]; exact wellTried_final hw rfl
    · intro k b hb hk
      rw [List.length_append, List.length_singleton] at hk
      rw [List.getElem?_append_left (by omega)] at hb
      obtain ⟨_, i, g2, _⟩ := inv.shape k b hb
      exact lastInstr_pos g2
  obtain ⟨q, hq, _⟩ := nin.run
  have hq : neRun .out ((s.done ++ [s.cur]).flatMap (·.elems)) = some q := hq
  have n1 := neApplyEnds s.ends g0 hin.labs (by rw [hq]; simp) h1
  have eall : allCode c = bs.flatMap (·.elems) := by rw [← h]; exact allCode_ofBlocks _ _ _
  rw [eall]
  exact neSim_run (toBlock_renames (blocks_flat h2)) (q := .out) (q' := .out) trivial n1

/-! ### `to_bytecode` -/

structure YInv (s : ToSt) (q : Ne) : Prop where
  ne : NoEmptyTry false s.out
  full : ∀ t, q = .ins t true → neE false s.out = false
  aft : ∀ u, q = .aft u → ∃ t bid p, s.lastTE = some (t, bid, some p) ∧ t.target = u.target ∧ t.lasti = u.lasti

theorem neE_marks {b : List BElem} (h : MarksOnly b) : ∀ e, neE e b = e := by
  induction b with
  | nil => intro e; rfl
  | cons x b ih =>
    intro e
    have ih := ih (fun x hx => h x (by simp [hx]))
    rcases h x (by simp) with ⟨l, rfl⟩ | ⟨l, rfl⟩ <;> exact ih e

theorem noEmpty_marks {b : List BElem} (h : MarksOnly b) : ∀ e, NoEmptyTry e b := by
  induction b with
  | nil => intro e; trivial
  | cons x b ih =>
    intro e
    have ih := ih (fun x hx => h x (by simp [hx]))
    rcases h x (by simp) with ⟨l, rfl⟩ | ⟨l, rfl⟩ <;> exact ih e

theorem noEmpty_depth (id : Nat) (d : Option Nat) (es : List BElem) : ∀ e, (NoEmptyTry e (setTryDepth id d es) ↔ NoEmptyTry e es) ∧
    neE e (setTryDepth id d es) = neE e es := by
  induction es with
  | nil => intro e; exact ⟨.rfl, rfl⟩
  | cons x r ih =>
    intro e
    have e0 : setTryDepth id d (x :: r) = setTryDepth id d [x] ++ setTryDepth id d r := setTryDepth_append id d [x] r
    cases x with
    | tryBegin t =>
      have e1 : setTryDepth id d [.tryBegin t] = [.tryBegin (if t.id = id then { t with depth := d } else t)] := by
        simp only [setTryDepth, List.map_cons, List.map_nil]
        split <;> rfl
      rw [e0, e1]
      exact ih true
    | tryEnd t => exact ⟨and_congr_right (fun _ => (ih false).1), (ih false).2⟩
    | instr t => exact ih false
    | label t => exact ih e
    | setLineno t => exact ih e

theorem noEmpty_snoc {es : List BElem} {x : BElem} : NoEmptyTry false (es ++ [x]) ↔ NoEmptyTry false es ∧ ((∃ id, x = .tryEnd id) → neE false es = false) := by
  rw [noEmpty_append]
  cases x <;> simp [NoEmptyTry]

theorem ystep {s s' : ToSt} {g : List BElem} {e : BElem} {q r : Ne} (k : KInv s g) (h : YInv s q) (ho : Ordered (g ++ [e]))
    (hq : neRun .out g = some q) (hqr : neStep q e = some r) (hr : s.step e = .ok s') : YInv s' r := by
  have hog := ordered_prefix ho
  have hop := neRun_open hq
  have hop : q.open_ = stW nextId none g := hop
  cases e with
  | label l =>
    simp only [ToSt.step, Except.ok.injEq] at hr
    subst hr
    have : r = q := by cases q <;> simpa [neStep] using hqr.symm
    subst this
    exact ⟨noEmpty_snoc.2 ⟨h.ne, by simp⟩, (fun t ht => by rw [neE_snoc]; exact h.full t ht), h.aft⟩
  | setLineno l =>
    simp only [ToSt.step, Except.ok.injEq] at hr
    subst hr
    have : r = q := by cases q <;> simpa [neStep] using hqr.symm
    subst this
    exact ⟨noEmpty_snoc.2 ⟨h.ne, by simp⟩, (fun t ht => by rw [neE_snoc]; exact h.full t ht), h.aft⟩
  | instr i =>
    simp only [ToSt.step, Except.ok.injEq] at hr
    subst hr
    refine ⟨noEmpty_snoc.2 ⟨h.ne, by simp⟩, (fun t ht => by rw [neE_snoc]; rfl), ?_⟩
    intro u hu
    subst hu
    cases q <;> simp [neStep] at hqr
  | tryEnd id =>
    simp only [ToSt.step] at hr
    split at hr
    · rename_i hs
      simp only [Except.ok.injEq] at hr
      subst hr
      have hm := (k.seen id).1 hs
      have : r = q := by
        cases q with
        | out => simpa [neStep] using hqr.symm
        | aft _ => simpa [neStep] using hqr.symm
        | ins t f =>
          have hx : t.id ≠ id := ended_not_open hog.nodup hog.bef hm hop.symm
          simpa [neStep, hx] using hqr.symm
      subst this
      exact h
    · rename_i hs
      have hm : BElem.tryEnd id ∉ g := fun hh => hs ((k.seen id).2 hh)
      have hbf := ho.bef g id [] rfl
      have hopn := open_of_begun hog.tidy (.inl hbf.1) hm
      rw [← hop] at hopn
      cases q with
      | out => cases hopn
      | aft _ => cases hopn
      | ins t f =>
        simp only [Ne.open_, Option.map_some, Option.some.injEq] at hopn
        obtain ⟨bid, hb⟩ := k.tries t hop.symm
        rw [hopn] at hb
        rw [hb] at hr
        simp only [Except.ok.injEq] at hr
        subst hr
        simp only [neStep, hopn, if_true] at hqr
        cases f with
        | false => simp at hqr
        | true =>
          simp only [if_true, Option.some.injEq] at hqr
          subst hqr
          refine ⟨noEmpty_snoc.2 ⟨h.ne, fun _ => h.full t rfl⟩, (fun t ht => by cases ht), ?_⟩
          intro u hu
          cases hu
          exact ⟨_, _, _, rfl, rfl, rfl⟩
  | tryBegin t =>
    have ht : stW nextId none g = none := ((tidy_append _ _ _).1 ho.tidy).2.1 t rfl
    have hn : s.nested t = .ok s := by
      unfold ToSt.nested
      rw [k.tb ht]
    simp only [ToSt.step, hn] at hr
    change (match s.lastTE with
      | some (entry, bid, pos) => if entry.target = t.target ∧ entry.lasti = t.lasti then s.fuse t entry bid pos else pure (s.freshTry t)
      | none => pure (s.freshTry t)) = Except.ok s' at hr
    have hfresh : (∀ u, r ≠ .ins u true) → YInv (s.freshTry t) r := by
      intro hx
      refine ⟨noEmpty_snoc.2 ⟨h.ne, by simp⟩, (fun u hu => absurd hu (hx u)), ?_⟩
      intro u hu
      subst hu
      cases q <;> simp [neStep] at hqr
    have hfuse : ∀ entry bid pos, s.lastTE = some (entry, bid, pos) → s.fuse t entry bid pos = .ok s' → YInv s' r := by
      intro entry bid pos hl hr
      unfold ToSt.fuse at hr
      obtain ⟨d, _, hr⟩ := except_bind_ok hr
      cases pos with
      | none => cases hr
      | some p =>
        simp only [Except.ok.injEq] at hr
        subst hr
        obtain ⟨a, b, h1, h2, h3, h4⟩ := k.te _ _ _ hl
        have hout : (setTryDepth bid d s.out).eraseIdx p = setTryDepth bid d a ++ b := by
          have hl : (setTryDepth bid d a).length = p := by rw [← h2]; simp [setTryDepth]
          have hx : setTryDepth bid d (BElem.tryEnd bid :: b) = BElem.tryEnd bid :: b := by
            have := setTryDepth_append bid d [.tryEnd bid] b
            rw [setTryDepth_plain h3] at this
            exact this
          rw [h1, setTryDepth_append, hx, List.eraseIdx_append_of_length_le (by omega), hl, Nat.sub_self]
          rfl
        have hne := h.ne
        rw [h1, noEmpty_append] at hne
        refine ⟨?_, ?_, ?_⟩
        · show NoEmptyTry false ((setTryDepth bid d s.out).eraseIdx p)
          rw [hout, noEmpty_append]
          exact ⟨((noEmpty_depth bid d a false).1).2 hne.1, noEmpty_marks h3 _⟩
        · intro u _
          show neE false ((setTryDepth bid d s.out).eraseIdx p) = false
          rw [hout, neE_append, neE_marks h3, (noEmpty_depth bid d a false).2]
          exact hne.2.1
        · intro u hu
          subst hu
          cases q <;> simp [neStep] at hqr
    split at hr
    · rename_i entry bid pos hl
      split at hr
      · exact hfuse _ _ _ hl hr
      · rename_i hc
        simp only [pure, Except.pure, Except.ok.injEq] at hr
        subst hr
        apply hfresh
        intro u hu
        subst hu
        cases q with
        | out => simp [neStep] at hqr
        | ins _ _ => simp [neStep] at hqr
        | aft v =>
          obtain ⟨t0, b0, p0, e0, e1, e2⟩ := h.aft v rfl
          rw [hl] at e0
          simp only [Option.some.injEq, Prod.mk.injEq] at e0
          obtain ⟨rfl, _, _⟩ := e0
          simp only [neStep, Option.some.injEq, Ne.ins.injEq, decide_eq_true_eq] at hqr
          exact hc (by rw [e1, e2]; exact hqr.2)
    · rename_i hl
      simp only [pure, Except.pure, Except.ok.injEq] at hr
      subst hr
      apply hfresh
      intro u hu
      subst hu
      cases q with
      | out => simp [neStep] at hqr
      | ins _ _ => simp [neStep] at hqr
      | aft v =>
        obtain ⟨t0, b0, p0, e0, _⟩ := h.aft v rfl
        rw [hl] at e0; cases e0

theorem yrun (es : List BElem) : ∀ {s s' : ToSt} {g : List BElem} {q : Ne}, KInv s g → YInv s q → Ordered (g ++ es) → neRun .out g = some q →
    neRun .out (g ++ es) ≠ none → s.run es = .ok s' → ∃ q', neRun .out (g ++ es) = some q' ∧ YInv s' q' := by
  induction es with
  | nil =>
    intro s s' g q _ h _ hq _ hr
    simp only [ToSt.run, Except.ok.injEq] at hr
    subst hr
    rw [List.append_nil]; exact ⟨q, hq, h⟩
  | cons e r ih =>
    intro s s' g q k h ho hq hn hr
    unfold ToSt.run at hr
    obtain ⟨s1, h1, hr⟩ := except_bind_ok hr
    have e0 : g ++ e :: r = (g ++ [e]) ++ r := by simp
    rw [e0] at ho hn ⊢
    have hp := ordered_prefix ho
    have hs : neRun .out (g ++ [e]) = neStep q e := by rw [neRun_snoc, hq]; rfl
    cases hx : neStep q e with
    | none =>
      rw [neRun_append, hs, hx] at hn
      exact absurd rfl hn
    | some q1 =>
      exact ih (kstep k hp h1) (ystep k h hp hq hx h1) ho (by rw [hs, hx]) hn hr

theorem yloop {heap : Nat → Blk} {used : List Nat} (bs : List Nat) : ∀ {s s' : ToSt} {g : List BElem} {q : Ne},
    KInv s g → YInv s q → Ordered (g ++ bs.flatMap (fun b => (heap b).elems)) → neRun .out g = some q →
    neRun .out (g ++ bs.flatMap (fun b => (heap b).elems)) ≠ none → toLoop heap used s bs = .ok s' → NoEmptyTry false s'.out := by
  induction bs with
  | nil =>
    intro s s' g q _ h _ _ _ hr
    simp only [toLoop, Except.ok.injEq] at hr
    subst hr; exact h.ne
  | cons b r ih =>
    intro s s' g q k h ho hq hn hr
    unfold toLoop at hr
    obtain ⟨s1, h1, hr⟩ := except_bind_ok hr
    have k0 : KInv (if b ∈ used then { s with out := s.out ++ [.label b] } else s) g := by
      split
      · exact k.plain (fun x hx => .inl ⟨b, by simpa using hx⟩)
      · exact k
    have h0 : YInv (if b ∈ used then { s with out := s.out ++ [.label b] } else s) q := by
      split
      · exact ⟨noEmpty_snoc.2 ⟨h.ne, by simp⟩, (fun t ht => by rw [neE_snoc]; exact h.full t ht), h.aft⟩
      · exact h
    rw [List.flatMap_cons, ← List.append_assoc] at ho hn
    have hp := ordered_prefix ho
    have hn1 : neRun .out (g ++ (heap b).elems) ≠ none := by
      intro e
      rw [neRun_append _ (g ++ _), e] at hn
      exact hn rfl
    obtain ⟨q1, hq1, y1⟩ := yrun _ k0 h0 hp hq hn1 h1
    exact ih (krun _ k0 hp h1) y1 ho hq1 hn hr

theorem toLabel_noEmpty {labelled : List Nat} : ∀ {es es' : List BElem}, es.mapM (toLabelElem labelled) = .ok es' → ∀ e, NoEmptyTry e es' ↔ NoEmptyTry e es := by
  intro es
  induction es with
  | nil =>
    intro es' h e
    simp only [List.mapM_nil, pure, Except.pure, Except.ok.injEq] at h
    subst h; rfl
  | cons x r ih =>
    intro es' h e
    rw [List.mapM_cons] at h
    obtain ⟨y, hy, h⟩ := except_bind_ok h
    obtain ⟨ys, hys, h⟩ := except_bind_ok h
    simp only [pure, Except.pure, Except.ok.injEq] at h
    subst h
    have ih := ih hys
    unfold toLabelElem at hy
    split at hy
    · rename_i i
      have : ∃ j, y = .instr j := by
        repeat' split at hy
        all_goals first | (cases hy; done) | (simp only [Except.ok.injEq] at hy; exact ⟨_, hy.symm⟩)
      obtain ⟨j, rfl⟩ := this
      exact ih false
    · rename_i t
      split at hy
      · simp only [Except.ok.injEq] at hy; subst hy; exact ih true
      · cases hy
    · simp only [Except.ok.injEq] at hy
      subst hy
      cases x with
      | tryEnd id => exact and_congr_right (fun _ => ih false)
      | instr i => exact ih false
      | tryBegin i => exact ih true
      | label i => exact ih e
      | setLineno i => exact ih e

theorem to_noEmpty {P : Platform} {c : CFG} {bc : Bytecode} (ho : Ordered (allCode c)) (hn : neRun .out (allCode c) ≠ none)
    (h : c.toBytecode P = .ok bc) : NoEmptyTry false bc.elems := by
  unfold CFG.toBytecode at h
  obtain ⟨used, hu, h⟩ := except_bind_ok h
  obtain ⟨s, hs, h⟩ := except_bind_ok h
  obtain ⟨es, hes, h⟩ := except_bind_ok h
  simp only [pure, Except.pure, Except.ok.injEq] at h
  subst h
  have hi : YInv ⟨[], fun _ => none, [], none, none⟩ .out := ⟨trivial, (fun t ht => by cases ht), fun u hu => by cases hu⟩
  refine (toLabel_noEmpty hes false).2 ?_
  exact yloop c.blocks kInv_init hi (by rw [List.nil_append]; exact ho) rfl (by rw [List.nil_append]; exact hn) hs

end Verif
