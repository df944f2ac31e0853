import Verif.Props.GraphCode
import Verif.Props.ToCodeErrors
import Verif.Proofs.DepthsSet
import Verif.Spec.GraphCodeErrors
/-
C83: an exception of `ControlFlowGraph.to_code` names the mistake.
-/
namespace Verif
open Spec
section
variable {κ : Type} [DecidableEq κ]
variable {P : Platform} {key : Arg → κ} {eff : Instr → Bool → Py (Int × Int)} {c : CFG}

/-- The handlers of the TryBegin of the result are in the result. -/
theorem to_handlers {bc : Bytecode} (hnd : c.blocks.Nodup) (h : c.toBytecode P = .ok bc) :
    ∀ t, BElem.tryBegin t ∈ bc.elems → (labelAt t.target bc.elems).isSome = true := by
  unfold CFG.toBytecode at h
  obtain ⟨used, hu, h⟩ := except_bind_ok h
  obtain ⟨s, hs, h⟩ := except_bind_ok h
  obtain ⟨es, hes, h⟩ := except_bind_ok h
  simp only [pure, Except.pure, Except.ok.injEq] at h
  subst h
  have inv := toLoop_ok c.blocks (⟨rfl, fun t b p hp => by cases hp⟩ : TInv ⟨[], fun _ => none, [], none, none⟩ []) hs
  rw [List.nil_append] at inv
  have hno : ∀ k ∈ c.blocks, ∀ l, BElem.label l ∉ (c.heap k).elems := fun k hk => blkIter_noLabel (usedBlocks_iter hu k hk)
  intro t ht
  have ht := toLabel_try hes ht
  have hl := (toLabel_walk hes).2 t ht
  rw [List.mem_filter] at hl
  show (labelAt t.target es).isSome = true
  rw [labelAt_toLabel hes, ← labelAt_skel, inv.skel, labelAt_skelOf (of_decide_eq_true hl.2) hnd hno]
  have : ∀ l : List Nat, t.target ∈ l → (blockAt c.heap t.target l).isSome = true := by
    intro l
    induction l with
    | nil => intro h; cases h
    | cons x l ih =>
      intro h
      unfold blockAt
      split
      · rfl
      · rename_i hx
        rcases List.mem_cons.1 h with h | h
        · exact absurd h.symm hx
        · rw [Option.isSome_map]; exact ih h
  exact this _ hl.1

theorem ne_of_full {es : List BElem} : ∀ {q : Ne} {pre : List BElem} {seen : List Nat} {any : Bool}, WellTriedG (q.open_.map (·.id)) seen any es →
    (∀ t, q = .ins t false → ∃ pre' mid, pre = pre' ++ .tryBegin t :: mid ∧ .tryEnd t.id ∉ mid ∧ ∀ i, .instr i ∉ mid) →
    (∀ p t mid post, pre ++ es = p ++ .tryBegin t :: mid ++ .tryEnd t.id :: post → .tryEnd t.id ∉ mid → ∃ i, .instr i ∈ mid) →
    neRun q es ≠ none := by
  induction es with
  | nil => intro q pre seen any _ _ _; simp [neRun]
  | cons e es ih =>
    intro q pre seen any hw hq hf
    have hf' : ∀ p t mid post, (pre ++ [e]) ++ es = p ++ .tryBegin t :: mid ++ .tryEnd t.id :: post → .tryEnd t.id ∉ mid → ∃ i, .instr i ∈ mid := by
      intro p t mid post hx; exact hf p t mid post (by rw [← hx]; simp)
    rw [neRun_cons]
    have keep : ∀ t, q = .ins t false → (∀ i, e ≠ .instr i) → e ≠ .tryEnd t.id →
        ∃ pre' mid, pre ++ [e] = pre' ++ .tryBegin t :: mid ∧ .tryEnd t.id ∉ mid ∧ ∀ i, .instr i ∉ mid := by
      intro t h1 h2 h3
      obtain ⟨pre', mid, g1, g2, g3⟩ := hq t h1
      refine ⟨pre', mid ++ [e], by rw [g1]; simp, ?_, ?_⟩
      · simp only [List.mem_append, List.mem_singleton, not_or]
        exact ⟨g2, fun h => h3 h.symm⟩
      · intro i
        simp only [List.mem_append, List.mem_singleton, not_or]
        exact ⟨g3 i, fun h => h2 i h.symm⟩
    have go : ∀ q', neStep q e = some q' → ∀ s a, WellTriedG (q'.open_.map (·.id)) s a es →
        (∀ t, q' = .ins t false → ∃ pre' mid, pre ++ [e] = pre' ++ .tryBegin t :: mid ∧ .tryEnd t.id ∉ mid ∧ ∀ i, .instr i ∉ mid) →
        ((neStep q e).bind (fun q => neRun q es)) ≠ none := by
      intro q' h1 s a h2 h3
      rw [h1]
      exact ih h2 h3 hf'
    cases e with
    | tryBegin t =>
      simp only [WellTriedG] at hw
      obtain ⟨ho, _, hw⟩ := hw
      cases q with
      | out => exact go (.ins t false) rfl _ _ hw (fun u hu => by cases hu; exact ⟨pre, [], rfl, by simp, by simp⟩)
      | aft u =>
        refine go (.ins t _) rfl _ _ hw (fun v hv => ?_)
        simp only [Ne.ins.injEq] at hv
        rw [← hv.1]
        exact ⟨pre, [], rfl, by simp, by simp⟩
      | ins u f => simp [Ne.open_] at ho
    | tryEnd id =>
      simp only [WellTriedG] at hw
      obtain ⟨_, _, hw⟩ := hw
      cases q with
      | out => exact go .out rfl _ _ (by simpa [Ne.open_] using hw) (fun u hu => by cases hu)
      | aft u => exact go (.aft u) rfl _ _ (by simpa [Ne.open_] using hw) (fun u hu => by cases hu)
      | ins u f =>
        by_cases hid : u.id = id
        · cases f with
          | true => exact go (.aft u) (by simp [neStep, hid]) _ _ (by simpa [Ne.open_, hid] using hw) (fun v hv => by cases hv)
          | false =>
            exfalso
            obtain ⟨pre', mid, g1, g2, g3⟩ := hq u rfl
            obtain ⟨i, hi⟩ := hf pre' u mid es (by rw [g1, hid]) g2
            exact g3 i hi
        · refine go (.ins u f) (by simp [neStep, hid]) _ _ (by simpa [Ne.open_, hid] using hw) (fun v hv => ?_)
          refine keep v hv (by simp) ?_
          cases hv
          intro hx; cases hx; exact hid rfl
    | instr i =>
      simp only [WellTriedG] at hw
      cases q with
      | out => exact go .out rfl _ _ hw (fun u hu => by cases hu)
      | aft u => exact go .out rfl _ _ hw (fun u hu => by cases hu)
      | ins u f => exact go (.ins u true) rfl _ _ hw (fun u hu => by cases hu)
    | label l =>
      simp only [WellTriedG] at hw
      have hs : neStep q (.label l) = some q := by cases q <;> rfl
      exact go q hs _ _ hw (fun t ht => keep t ht (by simp) (by simp))
    | setLineno l =>
      simp only [WellTriedG] at hw
      have hs : neStep q (.setLineno l) = some q := by cases q <;> rfl
      exact go q hs _ _ hw (fun t ht => keep t ht (by simp) (by simp))

theorem blockAt_absent {heap : Nat → Blk} {k : Nat} {bs : List Nat} (h : blockAt heap k bs = none) : k ∉ bs := by
  induction bs with
  | nil => simp
  | cons x bs ih =>
    unfold blockAt at h
    split at h
    · cases h
    · rename_i hx
      simp only [Option.map_eq_none_iff] at h
      simp only [List.mem_cons, not_or]
      exact ⟨fun h => hx h.symm, ih h⟩

theorem blocksOnly_all (hb : BlocksOnly c) : ∀ i, BElem.instr i ∈ allCode c → ∀ x, i.arg ≠ .label x := by
  intro i hi
  obtain ⟨b, h1, h2⟩ := List.mem_flatMap.1 hi
  exact hb b h1 i h2

theorem blockJumps_items (hb : BlocksOnly c) : blockJumps c = (codeG c).countP jumpItem := by
  have : ∀ es : List BElem, (∀ i, BElem.instr i ∈ es → ∀ x, i.arg ≠ .label x) → ∀ f : Nat → Option Nat,
      es.countP (fun | .instr i => (match i.arg with | .block _ => true | _ => false) | _ => false) = (resolved (fun _ => none) f es).countP jumpItem := by
    intro es
    induction es with
    | nil => intro _ f; rfl
    | cons e r ih =>
      intro hb f
      have ih := ih (fun i hi => hb i (by simp [hi])) f
      cases e with
      | instr i =>
        have hbi := hb i (by simp)
        show _ = (_ :: resolved (fun _ => none) f r).countP jumpItem
        rw [List.countP_cons, List.countP_cons, ih]
        congr 1
        cases hia : i.arg with
        | label x => exact absurd hia (hbi x)
        | block l => cases hf : f l <;> simp [hia, argRef, hf, jumpItem]
        | _ => simp [hia, argRef, jumpItem]
      | setLineno l =>
        show _ = (_ :: resolved (fun _ => none) f r).countP jumpItem
        rw [List.countP_cons, List.countP_cons, ih]
        rfl
      | label l =>
        show _ = (resolved (fun _ => none) f r).countP jumpItem
        rw [List.countP_cons, ih]
        rfl
      | tryBegin l =>
        show _ = (resolved (fun _ => none) f r).countP jumpItem
        rw [List.countP_cons, ih]
        rfl
      | tryEnd l =>
        show _ = (resolved (fun _ => none) f r).countP jumpItem
        rw [List.countP_cons, ih]
        rfl
  exact this _ (blocksOnly_all hb) _

/-- **C83 (given stack size).** When `ControlFlowGraph.to_code` with a stack size raises an exception, the graph has one of the mistakes of C78, for which
`to_bytecode` raises it, or one of the mistakes of `WrongCode`. -/
theorem C83_given (hP : P.WF) (hw : WellMadeG P c) (hn : c.blocks.Nodup) (hb : BlocksOnly c) (ht : WellTriedG none [] false (allCode c)) (hf : FullTries c)
    {n : Int} {depths : Bool} {e : PyErr} (h : c.toCode P key eff (some n) depths = .error e) : WrongBlocks P c e ∨ WrongCode P c e := by
  unfold CFG.toCode at h
  simp only [bind, Except.bind] at h
  cases hbc : c.toBytecode P with
  | error e' =>
    rw [hbc] at h
    cases h
    exact .inl (C78_to_says (fun i hi => (hw.valid i hi).1.arg_ok) hbc)
  | ok b =>
    rw [hbc] at h
    simp only at h
    have hinstr : ∀ i, BElem.instr i ∈ b.elems → ∃ j, BElem.instr j ∈ allCode c ∧ i = { j with arg := argLab j.arg } := fun i hi => to_instr hbc hi
    obtain ⟨ho, hs⟩ := wellTriedG_ordered ht
    have hwb := to_well ho hs hbc
    obtain ⟨b1, b2, b3⟩ := C26_to P c b hn hb hbc
    have hne : NoEmptyTry false b.elems := to_noEmpty ho (ne_of_full (q := .out) (pre := []) ht (fun t ht => by cases ht) hf) hbc
    have hlb : LabelsOnly b := by
      intro i hi x hx
      obtain ⟨j, hj, rfl⟩ := hinstr i hi
      have hx' : argLab j.arg = .block x := hx
      cases ha : j.arg <;> rw [ha] at hx' <;> cases hx'
    have hplain : ∀ (a : Arg) x, argLab a = x → (∀ l, x ≠ .label l) → a = x := by
      intro a x hx hne
      cases a <;> simp only [argLab] at hx <;> first | exact hx | exact absurd hx.symm (hne _)
    have hm : WellMade P b := by
      refine ⟨?_, ?_, ?_, ?_, ?_⟩
      · intro i hi
        obtain ⟨j, hj, rfl⟩ := hinstr i hi
        exact ⟨valid_lab (hw.valid j hj).1, (hw.valid j hj).2⟩
      · intro i v hi hk hx
        obtain ⟨j, hj, rfl⟩ := hinstr i hi
        exact hw.compare j v hj hk (hplain _ _ hx (by simp))
      · intro i v hi hk hx
        obtain ⟨j, hj, rfl⟩ := hinstr i hi
        exact hw.intrinsic j v hj hk (hx.imp (fun h => hplain _ _ h (by simp)) (fun h => hplain _ _ h (by simp)))
      · intro t t' h1 h2 hid
        exact wellTried_count hwb h1 h2 hid
      · have := hw.size
        rw [room_items P (fun l => labelAt l b.elems) (fun _ => none), b2, b3]
        rw [room_items P (fun _ => none) (fun b => blockAt c.heap b c.blocks)] at this
        show 8 * ((codeB b).map _).sum + _ + _ + _ ≤ _
        rw [b1]; exact this
    -- a jump of the Bytecode and the jump it comes from
    have hjump : ∀ {pre post : List BElem} {i : Instr} {l : Nat}, b.elems = pre ++ .instr i :: post → i.arg = .label l →
        ∃ pre' j post' k, allCode c = pre' ++ .instr j :: post' ∧ j.name = i.name ∧ j.opcode = i.opcode ∧ instrCount pre' = instrCount pre ∧
          j.arg = .block k ∧ blockAt c.heap k c.blocks = labelAt l b.elems := by
      intro pre post i l h1 h2
      have hx : (0 + instrCount pre, i.name, i.opcode, argRef (fun l => labelAt l b.elems) (fun _ => none) i.arg) ∈ ranked 0 (codeB b) :=
        ranked_mem.2 ⟨pre, i, post, h1, rfl⟩
      rw [b1] at hx
      obtain ⟨pre', j, post', hc', hx⟩ := ranked_mem.1 hx
      simp only [Prod.mk.injEq] at hx
      obtain ⟨g1, g2, g3, g4⟩ := hx
      have hjm : BElem.instr j ∈ allCode c := by rw [hc']; simp
      rw [h2] at g4
      cases hj : j.arg with
      | block k =>
        refine ⟨pre', j, post', k, hc', g2.symm, g3.symm, by omega, hj, ?_⟩
        rw [hj] at g4
        simp only [argRef] at g4
        cases hl : labelAt l b.elems <;> cases hk : blockAt c.heap k c.blocks <;> simp [hl, hk] at g4
        · rfl
        · rw [g4]
      | label x => exact absurd hj (blocksOnly_all hb j hjm x)
      | _ => rw [hj] at g4; simp only [argRef] at g4; cases hl : labelAt l b.elems <;> simp [hl] at g4
    rcases C82_given hP hm (fun _ => ⟨hwb, hne⟩) (by simp) h with hx | ⟨h11, rfl, i, l, hi, hil, hu⟩
    · cases hx with
      | line h1 h2 => exact .inr (.line h1 (by rw [← b2]; exact h2))
      | cell h1 h2 h3 h4 =>
        obtain ⟨j, hj, rfl⟩ := hinstr _ h1
        exact .inr (.cell hj h2 (hplain _ _ h3 (by simp)) (by rw [← b2]; exact h4))
      | free h1 h2 h3 h4 =>
        obtain ⟨j, hj, rfl⟩ := hinstr _ h1
        exact .inr (.free hj h2 (hplain _ _ h3 (by simp)) (by rw [← b2]; exact h4))
      | @forward pre post i l h1 h2 h3 h4 h5 =>
        obtain ⟨pre', j, post', k, k1, k2, k3, k4, k5, k6⟩ := hjump h1 h2
        cases hl : labelAt l b.elems with
        | none =>
          have := labelAt_isSome (es := b.elems) (l := l) (by rw [h1]; simp [h4])
          rw [hl] at this; cases this
        | some t =>
          refine .inr (.forward k1 k5 (by rw [k2, k3]; exact h3) (k6.trans hl) ?_)
          rw [h1] at hl
          have := (not_congr (labelAt_split hl)).1 h5
          omega
      | @backward pre mid post i j0 l h1 h2 h3 h4 =>
        have h1' : b.elems = pre ++ .instr i :: (mid ++ .label l :: post) := by rw [h1]; simp
        obtain ⟨pre', j, post', k, k1, k2, k3, k4, k5, k6⟩ := hjump h1' h2
        cases hl : labelAt l b.elems with
        | none =>
          have := labelAt_isSome (es := b.elems) (l := l) (by rw [h1]; simp)
          rw [hl] at this; cases this
        | some t =>
          refine .inr (.backward k1 k5 (by rw [k2, k3]; exact h3) (k6.trans hl) ?_)
          rw [h1'] at hl
          have hfar : ¬ t ≤ instrCount pre + 1 := by
            intro hx
            exact (labelAt_near hl).1 hx mid post rfl j0 h4
          omega
      | @label i l h1 h2 h3 =>
        obtain ⟨pre, post, h1'⟩ := List.append_of_mem h1
        obtain ⟨pre', j, post', k, k1, k2, k3, k4, k5, k6⟩ := hjump h1' h2
        cases hl : labelAt l b.elems with
        | some t => exact absurd (labelAt_mem hl) h3
        | none => exact .inl (.jump (i := j) (by rw [k1]; simp) k5 (blockAt_absent (k6.trans hl)))
      | @handler t h1 h2 =>
        have := to_handlers hn hbc t h1
        cases hl : labelAt t.target b.elems with
        | none => rw [hl] at this; cases this
        | some k => exact absurd (labelAt_mem hl) h2
      | end_ h1 h2 =>
        rw [h1] at hwb
        rcases wellTried_ends hwb with hx | ⟨t, h3, h4⟩
        · cases hx
        · exact absurd h4 (h2 t h3)
      | last h1 h2 =>
        rw [h1] at hwb hne
        obtain ⟨i, hi⟩ := noEmpty_after hwb hne
        exact absurd hi (h2 i)
      | depth h1 h2 =>
        by_cases hd : ∃ t, BElem.tryBegin t ∈ allCode c ∧ t.depth = none
        · obtain ⟨t, g1, g2⟩ := hd
          exact .inr (.depth g1 g2)
        · exact absurd h2 (to_begins hn (fun t h1 h2 => hd ⟨t, h1, h2⟩) hbc _ h1).1
      | dual h1 h2 h3 =>
        obtain ⟨j, hj, rfl⟩ := hinstr _ h1
        refine .inr (.dual hj h2 (fun x y hx => h3 x y ?_))
        show argLab j.arg = _
        rw [hx]; rfl
      | block h1 h2 h3 => exact absurd h3 (hlb _ h1 _)
      | nested h1 h2 =>
        rw [h1] at hwb
        obtain ⟨id, hid⟩ := wellTried_nested hwb
        exact absurd hid (h2 id)
      | passes h1 =>
        refine .inr (.passes ?_)
        rw [jumpCount_items hlb, b1] at h1
        rw [blockJumps_items hb]
        exact h1
    · obtain ⟨j, hj, rfl⟩ := hinstr _ hi
      exact .inr (.location h11 hj hil hu)

/-! ### With a computed stack size -/

theorem wellTriedG_erase : ∀ (es : List BElem) (o : Option Nat) (sn : List Nat) (a : Bool), WellTriedG o sn a (es.map eraseD) ↔ WellTriedG o sn a es := by
  intro es
  induction es with
  | nil => intro o sn a; exact Iff.rfl
  | cons e es ih =>
    intro o sn a
    cases e <;> simp only [List.map_cons, eraseD, WellTriedG, ih]

theorem wellTriedG_only {c' : CFG} (hd : DepthsOnly c c') (h : WellTriedG none [] false (allCode c)) : WellTriedG none [] false (allCode c') := by
  rw [← wellTriedG_erase, flatMap_erase hd, wellTriedG_erase]; exact h

theorem instr_only {c' : CFG} (hd : DepthsOnly c c') {i : Instr} (hi : BElem.instr i ∈ allCode c') : BElem.instr i ∈ allCode c := by
  have : BElem.instr i ∈ (allCode c').map eraseD := List.mem_map.2 ⟨_, hi, rfl⟩
  rw [flatMap_erase hd] at this
  obtain ⟨e, he, hx⟩ := List.mem_map.1 this
  cases e <;> simp [eraseD] at hx
  subst hx; exact he

theorem DepthsOnly.symm {c c' : CFG} (h : DepthsOnly c c') : DepthsOnly c' c := ⟨h.attrs.symm, h.argnames.symm, h.blocks.symm, fun b => (h.elems b).symm⟩

theorem fullTries_only {c' : CFG} (hd : DepthsOnly c c') (h : FullTries c) : FullTries c' := by
  intro pre t mid post he hm
  have h1 : (allCode c).map eraseD = pre.map eraseD ++ .tryBegin { t with depth := none } :: mid.map eraseD ++ .tryEnd t.id :: post.map eraseD := by
    rw [← flatMap_erase hd, he]; simp [eraseD]
  obtain ⟨x, y, e1, h2, h3⟩ := List.map_eq_append_iff.1 h1
  obtain ⟨pre', z, e2, h4, h5⟩ := List.map_eq_append_iff.1 h2
  cases z with
  | nil => simp at h5
  | cons u mid' =>
    cases y with
    | nil => simp at h3
    | cons v post' =>
      simp only [List.map_cons, List.cons.injEq] at h3 h5
      cases u <;> simp only [eraseD, reduceCtorEq, false_and] at h5
      rename_i t'
      cases v <;> simp only [eraseD, reduceCtorEq, false_and] at h3
      rename_i id
      have hid : id = t.id := by simpa using h3.1
      have hti : t'.id = t.id := by
        have := h5.1
        simp only [BElem.tryBegin.injEq, TryB.mk.injEq] at this
        exact this.1
      subst e2
      obtain ⟨i, hi⟩ := h pre' t' mid' post' (by rw [e1, hid, hti]) (by
        intro hx
        apply hm
        have : BElem.tryEnd t.id ∈ mid.map eraseD := by rw [← h5.2, ← hti]; exact List.mem_map.2 ⟨_, hx, rfl⟩
        obtain ⟨e, he, hx⟩ := List.mem_map.1 this
        cases e <;> simp [eraseD] at hx
        subst hx; exact he)
      have : BElem.instr i ∈ mid.map eraseD := by rw [← h5.2]; exact List.mem_map.2 ⟨_, hi, rfl⟩
      obtain ⟨e, he, hx⟩ := List.mem_map.1 this
      cases e <;> simp [eraseD] at hx
      subst hx; exact ⟨_, he⟩

theorem room_erase (es : List BElem) : ((es.map eraseD).map (room P)) = es.map (room P) := by
  rw [List.map_map]
  apply List.map_congr_left
  intro e _
  cases e <;> rfl

theorem wellMadeG_only {c' : CFG} (hd : DepthsOnly c c') (h : WellMadeG P c) : WellMadeG P c' := by
  refine ⟨fun i hi => h.valid i (instr_only hd hi), fun i v hi => h.compare i v (instr_only hd hi), fun i v hi => h.intrinsic i v (instr_only hd hi), ?_⟩
  rw [← room_erase, flatMap_erase hd, room_erase, hd.attrs, hd.argnames]
  exact h.size

/-- The mistakes of `WrongCode` that a computation of the stack size does not change. -/
theorem wrongCode_only {c' : CFG} (hd : DepthsOnly c c') {e : PyErr} (h : WrongCode P c' e) : WrongCode P c e ∨ ∃ t, .tryBegin t ∈ allCode c' ∧ t.depth = none ∧ e = .assertionError := by
  have split : ∀ {pre post : List BElem} {i : Instr}, allCode c' = pre ++ .instr i :: post → ∃ pre' post', allCode c = pre' ++ .instr i :: post' ∧ instrCount pre' = instrCount pre := by
    intro pre post i he
    have h1 : (allCode c).map eraseD = pre.map eraseD ++ .instr i :: post.map eraseD := by
      rw [← flatMap_erase hd, he]; simp [eraseD]
    obtain ⟨x, y, e1, h2, h3⟩ := List.map_eq_append_iff.1 h1
    cases y with
    | nil => simp at h3
    | cons v post' =>
      simp only [List.map_cons, List.cons.injEq] at h3
      cases v <;> simp only [eraseD, reduceCtorEq, false_and] at h3
      rename_i j
      have hj : j = i := by simpa using h3.1
      subst hj
      have hc : ∀ l : List BElem, instrCount (l.map eraseD) = instrCount l := by
        intro l
        unfold instrCount
        rw [List.countP_map]
        apply List.countP_congr
        intro e _
        cases e <;> exact Iff.rfl
      exact ⟨x, post', e1, by rw [← hc x, h2, hc]⟩
  cases h with
  | line h1 h2 => exact .inl (.line h1 (by rw [← hd.attrs]; exact h2))
  | cell h1 h2 h3 h4 => exact .inl (.cell (instr_only hd h1) h2 h3 (by rw [← hd.attrs]; exact h4))
  | free h1 h2 h3 h4 => exact .inl (.free (instr_only hd h1) h2 h3 (by rw [← hd.attrs]; exact h4))
  | forward h1 h2 h3 h4 h5 =>
    obtain ⟨p, q, h6, h7⟩ := split h1
    exact .inl (.forward h6 h2 h3 (by rw [← hd.blocks, ← blockAt_only hd]; exact h4) (by rw [h7]; exact h5))
  | backward h1 h2 h3 h4 h5 =>
    obtain ⟨p, q, h6, h7⟩ := split h1
    exact .inl (.backward h6 h2 h3 (by rw [← hd.blocks, ← blockAt_only hd]; exact h4) (by rw [h7]; exact h5))
  | location h1 h2 h3 h4 => exact .inl (.location h1 (instr_only hd h2) h3 h4)
  | depth h1 h2 => exact .inr ⟨_, h1, h2, rfl⟩
  | dual h1 h2 h3 => exact .inl (.dual (instr_only hd h1) h2 h3)
  | passes h1 =>
    refine .inl (.passes ?_)
    have : blockJumps c = blockJumps c' := by
      unfold blockJumps
      have hx : ∀ l : List BElem, (l.map eraseD).countP (fun | .instr i => (match i.arg with | .block _ => true | _ => false) | _ => false) =
          l.countP (fun | .instr i => (match i.arg with | .block _ => true | _ => false) | _ => false) := by
        intro l
        rw [List.countP_map]
        apply List.countP_congr
        intro e _
        cases e <;> exact Iff.rfl
      refine (hx (allCode c)).symm.trans ?_
      rw [← flatMap_erase hd]
      exact hx _
    rw [this]; exact h1

/-- **C83 (computed stack size).** When `ControlFlowGraph.to_code` computes the stack size and raises an exception, `compute_stacksize` raises it, or the
graph it leaves, with the depths it has set, cannot be converted for one of the mistakes of C78, or has a TryBegin without depth, or the graph given has one of the mistakes of
`WrongCode`. -/
theorem C83_computed (hP : P.WF) (hw : WellMadeG P c) (hn : c.blocks.Nodup) (hb : BlocksOnly c) (ht : WellTriedG none [] false (allCode c)) (hf : FullTries c)
    {depths : Bool} {e : PyErr} (h : c.toCode P key eff none depths = .error e) :
    c.computeStacksize P eff depths = .error e ∨
    ∃ n c', c.computeStacksize P eff depths = .ok (n, c') ∧
      (WrongBlocks P c' e ∨ (∃ t, .tryBegin t ∈ allCode c' ∧ t.depth = none ∧ e = .assertionError) ∨ WrongCode P c e) := by
  cases hr : c.computeStacksize P eff depths with
  | error e' =>
    left
    unfold CFG.toCode at h
    simp only [bind, Except.bind, hr] at h
    cases h; rfl
  | ok r =>
    obtain ⟨n, c'⟩ := r
    right
    refine ⟨n, c', rfl, ?_⟩
    have hd := computeStacksize_only hr
    have h' : c'.toCode P key eff (some n) depths = .error e := by
      unfold CFG.toCode at h ⊢
      simp only [bind, Except.bind, hr] at h ⊢
      exact h
    rcases C83_given hP (wellMadeG_only hd hw) (by rw [hd.blocks]; exact hn) (blocksOnly_only hd hb) (wellTriedG_only hd ht) (fullTries_only hd hf) h' with hx | hx
    · exact .inl hx
    · rcases wrongCode_only hd hx with hx | hx
      · exact .inr (.inr hx)
      · exact .inr (.inl hx)

/-- **C83 (default options).** When every TryBegin of a block comes before its jumps and its instructions that end the control flow, no depth is missing: the
exception is raised by `compute_stacksize`, or for one of the mistakes of C78 in the graph with the depths, or for one of the mistakes of `WrongCode`. -/
theorem C83_default (hP : P.WF) (hw : WellMadeG P c) (hn : c.blocks.Nodup) (hb : BlocksOnly c) (ht : WellTriedG none [] false (allCode c)) (hf : FullTries c)
    (ha : ∀ b, NoTryAfter P (c.heap b).elems) {e : PyErr} (h : c.toCode P key eff none true = .error e) :
    c.computeStacksize P eff true = .error e ∨
    ∃ n c', c.computeStacksize P eff true = .ok (n, c') ∧ (∀ t, .tryBegin t ∈ allCode c' → t.depth ≠ none) ∧ (WrongBlocks P c' e ∨ WrongCode P c e) := by
  rcases C83_computed hP hw hn hb ht hf h with hx | ⟨n, c', h1, h2⟩
  · exact .inl hx
  · have hd := computeStacksize_depths ha h1
    refine .inr ⟨n, c', h1, hd, ?_⟩
    rcases h2 with h2 | ⟨t, h2, h3, _⟩ | h2
    · exact .inl h2
    · exact absurd h3 (hd t h2)
    · exact .inr h2

/-- **C83.** A graph without these mistakes is converted, when a stack size is given. -/
theorem C83_succeeds (hP : P.WF) (hw : WellMadeG P c) (hn : c.blocks.Nodup) (hb : BlocksOnly c) (ht : WellTriedG none [] false (allCode c)) (hf : FullTries c)
    (h : ∀ e, ¬ WrongBlocks P c e ∧ ¬ WrongCode P c e) (n : Int) (depths : Bool) : ∃ co, c.toCode P key eff (some n) depths = .ok co := by
  cases hr : c.toCode P key eff (some n) depths with
  | ok co => exact ⟨co, rfl⟩
  | error e =>
    rcases C83_given hP hw hn hb ht hf hr with hx | hx
    · exact absurd hx (h e).1
    · exact absurd hx (h e).2

/-- **C83.** Only four kinds of exception are raised when a stack size is given. -/
theorem C83_classes (hP : P.WF) (hw : WellMadeG P c) (hn : c.blocks.Nodup) (hb : BlocksOnly c) (ht : WellTriedG none [] false (allCode c)) (hf : FullTries c)
    {n : Int} {depths : Bool} {e : PyErr} (h : c.toCode P key eff (some n) depths = .error e) :
    e = .valueError ∨ e = .assertionError ∨ e = .keyError ∨ e = .runtimeError := by
  rcases C83_given hP hw hn hb ht hf h with hx | hx <;> cases hx <;> simp

end
end Verif
