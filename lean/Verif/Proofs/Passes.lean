import Verif.Proofs.Convert
/-
Jump resolution seen from the converter: number of passes, least layout.
-/
namespace Verif
open Spec

/-- Does not raise RuntimeError. -/
def NotRT {α : Type} (x : Py α) : Prop := x ≠ .error .runtimeError

theorem NotRT.ok {α : Type} (a : α) : NotRT (.ok a : Py α) := by simp [NotRT]
theorem NotRT.pure {α : Type} (a : α) : NotRT (Pure.pure a : Py α) := by simp [NotRT, Pure.pure, Except.pure]
theorem NotRT.bind {α β : Type} {x : Py α} {f : α → Py β} (hx : NotRT x) (hf : ∀ a, x = .ok a → NotRT (f a)) : NotRT (x >>= f) := by
  cases x with
  | ok a => exact hf a rfl
  | error e => intro h; apply hx; simpa [Bind.bind, Except.bind] using h
theorem NotRT.foldlM {α β : Type} {f : β → α → Py β} (h : ∀ b a, NotRT (f b a)) (l : List α) (b : β) : NotRT (l.foldlM f b) := by
  induction l generalizing b with
  | nil => exact .pure _
  | cons a l ih => rw [List.foldlM_cons]; exact .bind (h b a) (fun b' _ => ih b')
theorem NotRT.mapM {α β : Type} {f : α → Py β} (h : ∀ a, NotRT (f a)) (l : List α) : NotRT (l.mapM f) := by
  induction l with
  | nil => rw [List.mapM_nil]; exact .pure _
  | cons a l ih => rw [List.mapM_cons]; exact .bind (h a) (fun _ _ => .bind ih (fun _ _ => .pure _))

theorem lookupName_nrt (P : Platform) (n : Option String) : NotRT (lookupName P n) := by
  unfold NotRT lookupName; repeat' split
  all_goals simp
theorem checkArg_nrt (P : Platform) (op : Nat) (a : CArg) : NotRT (CInstr.checkArg P op a) := by
  unfold NotRT CInstr.checkArg checkArgInt; repeat' split
  all_goals (try split) <;> (try split) <;> simp [Except.map]
theorem set_nrt (P : Platform) (s : CInstr) (n : Option String) (a : CArg) : NotRT (s.set_ P n a).2 := by
  unfold CInstr.set_
  have h1 := lookupName_nrt P n
  split
  · rename_i e he; rw [he] at h1; simpa [NotRT] using h1
  · rename_i m op _
    have h2 := checkArg_nrt P op a
    split
    · rename_i e he; rw [he] at h2; simpa [NotRT] using h2
    · exact .ok _
theorem make_nrt (P : Platform) (n : Option String) (a : CArg) (loc : Option Loc) : NotRT (CInstr.make P n a .unset loc) := by
  unfold CInstr.make
  refine .bind (set_nrt P _ n a) (fun _ _ => .bind ?_ (fun _ _ => .pure _))
  unfold initLocation; split <;> simp [NotRT]
theorem index_nrt (l : List String) (n : String) : NotRT (pyIndexOf l n) := by
  unfold NotRT pyIndexOf; split <;> simp
theorem compare_nrt (P : Platform) (v : Nat) : NotRT (encodeCompare P v) := by
  unfold NotRT encodeCompare; repeat' split
  all_goals simp
theorem int_nrt (a : Arg) : NotRT (encodeInt a) := by
  unfold NotRT encodeInt; repeat' split
  all_goals simp
theorem encode_nrt {κ : Type} [DecidableEq κ] (P : Platform) (key : Arg → κ) (A : Attrs) (T : Tabs) (i : Instr) :
    NotRT (encodeOperand P key A T i) := by
  unfold encodeOperand
  repeat' split
  all_goals first
    | exact .ok _
    | exact .bind (index_nrt _ _) (fun _ _ => .pure _)
    | exact .bind (compare_nrt _ _) (fun _ _ => .pure _)
    | exact .bind (int_nrt _) (fun _ _ => .pure _)
    | simp [NotRT]
theorem push_nrt (P : Platform) (st : Conv) (n : String) (a : CArg) (j : Option Nat) : NotRT (st.push P n a j) := by
  unfold Conv.push
  exact .bind (make_nrt _ _ _ _) (fun _ _ => .pure _)
theorem elem_nrt {κ : Type} [DecidableEq κ] (P : Platform) (key : Arg → κ) (A : Attrs) (st : Conv) (e : BElem) : NotRT (st.elem P key A e) := by
  cases e with
  | label l => exact .ok _
  | setLineno l => exact .ok _
  | tryBegin t => unfold NotRT Conv.elem; simp only; split <;> simp
  | tryEnd t => unfold NotRT Conv.elem; simp only; split <;> simp
  | instr i =>
    unfold Conv.elem
    refine .bind (encode_nrt _ _ _ _ _) (fun r _ => ?_)
    obtain ⟨T, enc⟩ := r
    cases enc
    · exact push_nrt _ _ _ _ _
    · exact push_nrt _ _ _ _ _
    · exact push_nrt _ _ _ _ _
    · exact push_nrt _ _ _ _ _
    · exact .bind (make_nrt _ _ _ _) (fun _ _ => push_nrt _ _ _ _ _)

theorem push_manual {P : Platform} {st st' : Conv} {n : String} {a : CArg} {j : Option Nat} (h : st.push P n a j = .ok st')
    (hs : st.seenManual = false) : st'.seenManual = false := by
  unfold Conv.push at h
  obtain ⟨ci, _, h⟩ := except_bind_ok h
  simp only [pure, Except.pure, Except.ok.injEq] at h
  subst h; simp [hs]

theorem cacheStep_manual {P : Platform} {st : Conv} (hs : st.seenManual = false) : NotRT (st.cacheStep P false) ∧
    ∀ st', st.cacheStep P false = .ok st' → st'.seenManual = false := by
  unfold Conv.cacheStep
  simp only [Bool.false_eq_true, if_false, hs]
  split
  · exact ⟨.ok _, fun st' h => by simp only [Except.ok.injEq] at h; subst h; exact hs⟩
  · refine ⟨.bind (.mapM (fun _ => make_nrt _ _ _ _) _) (fun _ _ => .pure _), fun st' h => ?_⟩
    obtain ⟨cs, _, h⟩ := except_bind_ok h
    simp only [pure, Except.pure, Except.ok.injEq] at h
    subst h; rfl

theorem elem_manual {κ : Type} [DecidableEq κ] {P : Platform} {key : Arg → κ} {A : Attrs} {st st' : Conv} {e : BElem} (h : st.elem P key A e = .ok st')
    (hs : st.seenManual = false) : st'.seenManual = false := by
  cases e with
  | label l => simp only [Conv.elem, Except.ok.injEq] at h; subst h; exact hs
  | setLineno l => simp only [Conv.elem, Except.ok.injEq] at h; subst h; exact hs
  | tryBegin t =>
    simp only [Conv.elem] at h
    split at h
    · simp at h
    · simp only [Except.ok.injEq] at h; subst h; exact hs
  | tryEnd t =>
    simp only [Conv.elem] at h
    split at h
    · simp only [Except.ok.injEq] at h; subst h; exact hs
    · simp at h
  | instr i =>
    simp only [Conv.elem] at h
    obtain ⟨⟨T1, enc⟩, henc, h⟩ := except_bind_ok h
    cases enc with
    | split n1 i1 n2 i2 =>
      simp only at h
      obtain ⟨ci, _, h⟩ := except_bind_ok h
      exact push_manual h hs
    | _ => exact push_manual h hs

theorem fold_manual {κ : Type} [DecidableEq κ] {P : Platform} {key : Arg → κ} {A : Attrs} {st : Conv} {es : List BElem}
    (hc : ∀ e ∈ es, e.isCache = false) (hs : st.seenManual = false) :
    NotRT (es.foldlM (Conv.step P key A) st) ∧ ∀ st', es.foldlM (Conv.step P key A) st = .ok st' → st'.seenManual = false := by
  induction es generalizing st with
  | nil => exact ⟨.pure _, fun st' h => by simp only [List.foldlM_nil, pure, Except.pure, Except.ok.injEq] at h; subst h; exact hs⟩
  | cons e es ih =>
    rw [List.foldlM_cons]
    have hce := hc e (by simp)
    have hstep : ∀ s, st.step P key A e = .ok s → s.seenManual = false := by
      intro s h
      unfold Conv.step at h
      obtain ⟨s1, h1, h⟩ := except_bind_ok h
      rw [hce] at h1
      exact elem_manual h ((cacheStep_manual hs).2 s1 h1)
    refine ⟨.bind ?_ (fun s h => (ih (fun x hx => hc x (by simp [hx])) (hstep s h)).1), fun st' h => ?_⟩
    · unfold Conv.step
      rw [hce]
      exact .bind (cacheStep_manual hs).1 (fun _ _ => elem_nrt _ _ _ _ _)
    · obtain ⟨s, h1, h2⟩ := except_bind_ok h
      exact (ih (fun x hx => hc x (by simp [hx])) (hstep s h1)).2 st' h2

theorem locMake_nrt (x : Bool) (n : Nat) : NotRT (Loc.make x (some (n : Int)) none none none) := by
  unfold NotRT Loc.make checkLocation
  cases x <;> simp [bind, Except.bind, pure, Except.pure]
  all_goals
    split
    · rename_i e he
      split at he <;> simp at he
      subst he; simp
    · simp

theorem setArgAt_nrt (P : Platform) (l : List CInstr) (k : Nat) (a : CArg) : NotRT (setArgAt P l k a) := by
  unfold setArgAt
  split
  · simp [NotRT]
  · exact .bind (set_nrt _ _ _ _) (fun _ _ => .pure _)

theorem concreteInstructions_nrt {κ : Type} [DecidableEq κ] {P : Platform} {key : Arg → κ} {b : Bytecode}
    (hc : ∀ e ∈ b.elems, e.isCache = false) (hi : (iterElems false b.elems).2 = .ok ()) : NotRT (concreteInstructions P key b) := by
  unfold concreteInstructions
  refine .bind ?_ (fun loc _ => .bind ?_ (fun _ _ => .bind ?_ (fun vs _ => .bind (fold_manual hc rfl).1 (fun s hs =>
    .bind (cacheStep_manual ((fold_manual hc rfl).2 s hs)).1 (fun s2 _ => .bind ?_ (fun _ _ => .pure _))))))
  · exact locMake_nrt _ _
  · rw [hi]; exact .ok _
  · unfold prepass
    split
    · refine .foldlM (fun vs e => ?_) _ _
      unfold prepassElem
      split
      · split
        · split
          · refine .foldlM (fun vs a => ?_) _ _
            split <;> simp [NotRT]
          · simp [NotRT]
        · exact .ok _
      · exact .ok _
    · exact .ok _
  · unfold fixCells
    have hrest : ∀ x, NotRT (List.foldlM (fun (instrs : List CInstr) (index : Nat) =>
          match instrs[index]? with
          | none => throw PyErr.indexError
          | some ci => setArgAt P instrs index (CArg.int ((ci.arg.getD 0 + freeOffset P b.attrs s2.tabs.varnames : Nat) : Int))) x s2.freeInstrs) := by
      intro x
      refine .foldlM (fun l k => ?_) _ _
      split
      · simp [NotRT, throw, throwThe, MonadExceptOf.throw]
      · exact setArgAt_nrt _ _ _ _
    simp only
    split
    · refine .bind (.foldlM (fun l k => ?_) _ _) (fun x _ => hrest x)
      split
      · simp [NotRT, throw, throwThe, MonadExceptOf.throw]
      · split
        · simp [NotRT, throw, throwThe, MonadExceptOf.throw]
        · exact setArgAt_nrt _ _ _ _
    · exact .bind (.pure _) (fun x _ => hrest x)

theorem resolve_nrt (P : Platform) (labels : List (Nat × Nat)) (l : List CInstr) (p : TryB × ExcEntry) : NotRT (resolveEntry P labels l p) := by
  have hg : ∀ (l : List Nat) i, NotRT (pyGet l i) := by
    intro l i; unfold NotRT pyGet; simp only; repeat' split
    all_goals simp
  unfold resolveEntry
  refine .bind (hg _ _) (fun _ _ => .bind (hg _ _) (fun _ _ => .bind ?_ (fun _ _ => ?_)))
  · unfold NotRT lookupLabel; split <;> simp
  · split
    · exact .pure _
    · simp [NotRT, throw, throwThe, MonadExceptOf.throw]

section
variable {κ : Type} [DecidableEq κ]
variable {P : Platform} {key : Arg → κ} {b : Bytecode} {c : Concrete}

/-- Before the first pass every jump is as small as can be. -/
theorem initial_size {M : List Cell} (h0 : ∀ c ∈ M, ∀ l, c.jump? = some l → c.enc = .plain (.int (0 : Nat))) (hj : ∀ c ∈ M, JumpCell P c)
    {k lab : Nat} {ci : CInstr} (hk : (k, lab) ∈ jumpsE P 0 M) (hci : (code P M)[k]? = some ci) : ci.size = 2 := by
  obtain ⟨M1, d, M2, e1, e2, e3⟩ := mem_jumpsE hj hk
  have hd : d ∈ M := by rw [e1]; simp
  obtain ⟨i, a, g1, g2, g3, g4, g5, g6, g7⟩ := (hj d hd).code e3
  have ha := h0 d hd lab e3
  rw [g3] at ha
  have ha0 : a = 0 := by
    simp only [Enc.plain.injEq, CArg.int.injEq] at ha
    omega
  subst ha0
  rw [e1, code_append, code_cons, e2, Nat.zero_add, List.getElem?_append_right (Nat.le_refl _), Nat.sub_self, g7] at hci
  simp only [List.cons_append, List.getElem?_cons_zero, Option.some.injEq] at hci
  subst hci
  simp [mkI, sizeFor, extNeeded]

theorem jumpLoop_mono {labels jumps : List (Nat × Nat)} {n m : Nat} (hnm : n ≤ m) {l out : List CInstr} (h : jumpLoop P labels jumps n l = .ok out) :
    jumpLoop P labels jumps m l = .ok out := by
  induction n generalizing m l with
  | zero => simp [jumpLoop] at h
  | succ n ih =>
    obtain ⟨m, rfl⟩ : ∃ k, m = k + 1 := ⟨m - 1, by omega⟩
    simp only [jumpLoop] at h ⊢
    obtain ⟨⟨l', x⟩, h1, h⟩ := except_bind_ok h
    rw [h1]
    simp only [bind, Except.bind] at h ⊢
    cases x with
    | false => exact h
    | true => exact ih (by omega) h

/-- The state before jump resolution. -/
structure Start (P : Platform) (b : Bytecode) (st : Conv) (M : List Cell) : Prop where
  instrs : st.instrs = code P M
  jumps : st.jumps = jumpsE P 0 M
  labels : st.labels = labelsOf P 0 [] M
  elems : M.map (·.e) = b.elems
  cells : ∀ c ∈ M, JumpCell P c
  ready : Ready P st.labels st.jumps st.instrs
  two : ∀ k lab ci, (k, lab) ∈ st.jumps → st.instrs[k]? = some ci → ci.size = 2

theorem Start.pre {st : Conv} {M : List Cell} (h : Start P b st M) : PreFix P st.labels st.jumps st.instrs := by
  intro k lab t ci hk ht hci
  rw [h.two k lab ci hk hci]
  exact sizeFor_ge _ _

theorem start_of {st : Conv} (hP : P.WF) (hcache : ∀ e ∈ b.elems, e.isCache = false)
    (hv : ∀ i, .instr i ∈ b.elems → ValidInstr P i) (h : concreteInstructions P key b = .ok st) : ∃ M, Start P b st M := by
  obtain ⟨_, _, M, g2, g3, g4, g5, _, g7⟩ := concreteInstructions_layout hP hcache h
  have hj := g2.jumpCells hv
  have hr := ready_of_cells hj
  refine ⟨M, g3, g5, g4, g2.elems, hj, by rw [g3, g4, g5]; exact hr, ?_⟩
  intro k lab ci hk hci
  rw [g5] at hk; rw [g3] at hci
  exact initial_size g7 hj hk hci

/-- Number of jumps to labels. -/
theorem Start.count {st : Conv} {M : List Cell} (h : Start P b st M) : st.jumps.length = jumpCount b.elems := by
  rw [h.jumps, ← h.elems]
  have : ∀ n, (jumpsE P n M).length = jumpCount (M.map (·.e)) := by
    clear h
    induction M with
    | nil => intro n; rfl
    | cons c M ih =>
      intro n
      rw [jumpsE, List.length_append, ih]
      unfold Cell.jump? jumpCount
      rw [List.map_cons, List.countP_cons]
      cases hc : c.e with
      | instr i => cases ha : i.arg <;> simp [ha, BElem.jumps] <;> omega
      | _ => simp [BElem.jumps]
  exact this 0

theorem toConcrete_nrt (hP : P.WF) {passes : Nat} (hcache : ∀ e ∈ b.elems, e.isCache = false)
    (hv : ∀ i, .instr i ∈ b.elems → ValidInstr P i) (hi : (iterElems false b.elems).2 = .ok ()) (hp : 3 * jumpCount b.elems < passes) :
    NotRT (toConcrete P key passes b) := by
  unfold toConcrete
  refine .bind (concreteInstructions_nrt hcache hi) (fun st hst => .bind ?_ (fun _ _ => .bind (.mapM (fun _ => resolve_nrt _ _ _ _) _) (fun _ _ => .pure _)))
  obtain ⟨M, hM⟩ := start_of hP hcache hv hst
  exact loop_terminates _ _ hM.ready hM.pre (by have := ready_slack hM.ready; have := hM.count; omega)

theorem smaller_of_shape {st : Conv} {M : List Cell} (h : Start P b st M) {out : List CInstr} (hr : Ready P st.labels st.jumps out)
    (hs : SameShape (st.jumps.map (·.1)) st.instrs out) : Smaller st.instrs out := by
  refine ⟨hs.1, fun k i i' hi hi' => ?_⟩
  obtain ⟨g1, g2, g3, _⟩ := hs.2 k i i' hi hi'
  refine ⟨?_, g2, g3⟩
  by_cases hm : k ∈ st.jumps.map (·.1)
  · obtain ⟨⟨k', lab⟩, hk, rfl⟩ := List.mem_map.1 hm
    rw [h.two k' lab i hk hi]
    exact hr.size i' (List.mem_of_getElem? hi')
  · rw [g1 hm]; exact Nat.le_refl _

theorem toConcrete_start (hP : P.WF) {passes : Nat} (hcache : ∀ e ∈ b.elems, e.isCache = false)
    (hv : ∀ i, .instr i ∈ b.elems → ValidInstr P i) (h : toConcrete P key passes b = .ok c) :
    ∃ st M0 T M, concreteInstructions P key b = .ok st ∧ Start P b st M0 ∧ Final P key b c T M ∧ st.labels = labelsOf P 0 [] M ∧
      st.jumps = jumpsE P 0 M ∧ jumpLoop P st.labels st.jumps passes st.instrs = .ok (code P M) := by
  obtain ⟨_, T, M, h1, h2, h3, h4, h5, h6, h7, h8, _, h10, h11, st, k1, k2, k3, k4⟩ := toConcrete_final' hP hcache hv h
  obtain ⟨M0, hM0⟩ := start_of hP hcache hv k1
  exact ⟨st, M0, T, M, k1, hM0, ⟨hP, hcache, hv, h1, h2, h3, h4, h5, h6, h7, h8, h10, h11⟩, k2, k3, k4⟩

theorem toConcrete_passes (hP : P.WF) {n m : Nat} (hcache : ∀ e ∈ b.elems, e.isCache = false)
    (hv : ∀ i, .instr i ∈ b.elems → ValidInstr P i) (h : toConcrete P key n b = .ok c) (hm : n ≤ m ∨ 3 * jumpCount b.elems < m) :
    toConcrete P key m b = .ok c := by
  unfold toConcrete at h ⊢
  obtain ⟨st, hst, h⟩ := except_bind_ok h
  obtain ⟨out, hout, h⟩ := except_bind_ok h
  rw [hst]
  simp only [bind, Except.bind] at h ⊢
  have : jumpLoop P st.labels st.jumps m st.instrs = .ok out := by
    rcases Nat.le_total n m with hnm | hnm
    · exact jumpLoop_mono hnm hout
    · have hm : 3 * jumpCount b.elems < m ∨ n = m := by omega
      rcases hm with hm | rfl
      · obtain ⟨M, hM⟩ := start_of hP hcache hv hst
        obtain ⟨h1, h2, h3⟩ := loop_consistent hP n _ _ hM.ready hout
        obtain ⟨out', ho⟩ := (loop_below hP m _ _ hM.ready hM.pre h1 h3 (smaller_of_shape hM h1 h2)).2
          (by have := ready_slack hM.ready; have := hM.count; omega)
        have := jumpLoop_mono hnm ho
        rw [this] at hout; cases hout
        exact ho
      · exact hout
  rw [this]
  exact h

theorem opAt_ge {off : Int} {cur n K : Nat} {l : List CElem} (h : opAt P off cur n l = some K) : n ≤ K := by
  induction l generalizing cur n with
  | nil => simp only [opAt] at h; split at h <;> simp at h; omega
  | cons e l ih =>
    cases e with
    | setLineno m => exact ih h
    | instr ci =>
      simp only [opAt] at h
      split at h
      · split at h <;> simp at h; omega
      · have := ih h; omega

theorem opAt_inj {off off' : Int} {cur n K : Nat} {l : List CElem} (h : opAt P off cur n l = some K) (h' : opAt P off' cur n l = some K) : off = off' := by
  induction l generalizing cur n with
  | nil =>
    simp only [opAt] at h h'
    split at h <;> split at h' <;> simp at h h'; omega
  | cons e l ih =>
    cases e with
    | setLineno m => exact ih h h'
    | instr ci =>
      have hpos : ci.name ≠ "CACHE" → 1 ≤ opCount P ci.name ci.opcode := by
        intro hn; unfold opCount; rw [if_neg hn]; split <;> omega
      simp only [opAt] at h h'
      split at h
      · split at h
        · simp at h
        · rename_i hn
          split at h'
          · omega
          · have := opAt_ge h'; have := hpos hn; simp at h; omega
      · split at h'
        · split at h'
          · simp at h'
          · rename_i hn
            have := opAt_ge h; have := hpos hn; simp at h'; omega
        · exact ih h h'

theorem jump_index {M : List Cell} (hx : ∀ d ∈ M, ∀ (k : Nat) ci, (d.code P)[k]? = some ci → P.hasJump ci.opcode = true → k = 0 ∧ ∃ l, d.jump? = some l)
    {n k : Nat} {ci : CInstr} (hci : (code P M)[k]? = some ci) (hjmp : P.hasJump ci.opcode = true) :
    ∃ lab, (n + k, lab) ∈ jumpsE P n M := by
  induction M generalizing n k with
  | nil => simp [code] at hci
  | cons d M ih =>
    rw [code_cons] at hci
    by_cases hk : k < (d.code P).length
    · rw [List.getElem?_append_left hk] at hci
      obtain ⟨rfl, l, hl⟩ := hx d (by simp) k ci hci hjmp
      exact ⟨l, by simp [jumpsE, hl]⟩
    · rw [List.getElem?_append_right (by omega)] at hci
      obtain ⟨lab, hl⟩ := ih (fun x hx' => hx x (by simp [hx'])) (n := n + (d.code P).length) hci
      refine ⟨lab, ?_⟩
      simp only [jumpsE, List.mem_append]
      right
      rw [show n + k = n + (d.code P).length + (k - (d.code P).length) by omega]
      exact hl

/-- An emitted jump comes from a jump to a label. -/
theorem Final.jump_at {T : Tabs} {M : List Cell} (h : Final P key b c T M) {k : Nat} {ci : CInstr} (hci : (code P M)[k]? = some ci)
    (hjmp : P.hasJump ci.opcode = true) : ∃ lab, (k, lab) ∈ jumpsE P 0 M := by
  have hcache : ∀ d ∈ M, ∀ i, d.e = .instr i → ∀ n loc ci, ci ∈ List.replicate (nCaches P n) (mkI P "CACHE" (some 0) loc) → P.hasJump ci.opcode = false := by
    intro d hd i hi n loc ci hci
    rw [List.mem_replicate] at hci
    have h311 : P.py311 = true := by
      cases h3 : P.py311 with
      | true => rfl
      | false => exact absurd (by simp [nCaches, h3]) hci.1
    rw [hci.2, mkI_opcode (h.wf.cache h311).1]
    cases hjj : P.hasJump 0 with
    | false => rfl
    | true =>
      have := hasJump_arg h.wf (h.wf.cache h311).1 (h.wf.cache h311).2 hjj
      rw [h.wf.zero] at this; simp at this
  have hx : ∀ d ∈ M, ∀ (k : Nat) ci, (d.code P)[k]? = some ci → P.hasJump ci.opcode = true → k = 0 ∧ ∃ l, d.jump? = some l := by
    intro d hd k ci hci hjmp
    cases hi : d.e with
    | instr i =>
      obtain ⟨hv, hn, enc0, henc, _, _, _⟩ := h.mem hd hi
      rcases h.shape hd hi with ⟨a, _, hc⟩ | ⟨n1, i1, n2, i2, _, hs, hc⟩
      · rw [hc] at hci
        cases k with
        | zero =>
          simp only [List.getElem?_cons_zero, Option.some.injEq] at hci
          subst hci
          rw [mkI_opcode hv.name_op] at hjmp
          rcases hv.arg_ok.jump hjmp with ⟨l, hl⟩ | ⟨l, hl⟩
          · exact ⟨rfl, l, by simp [Cell.jump?, hi, hl]⟩
          · exfalso
            obtain ⟨k1, k2, k3, k4, k5⟩ := (kinds_excl h.wf i.opcode).jump hjmp
            obtain ⟨n1, n2⟩ := not_intr h.wf (op := i.opcode) (by simp [hjmp])
            simp [encodeOperand, hl, k1, k2, k3, k4, k5, n1, n2, encodeInt, Arg.asInt, bind, Except.bind] at henc
        | succ k =>
          simp only [List.getElem?_cons_succ] at hci
          rw [hcache d hd i hi _ _ _ (List.mem_of_getElem? hci)] at hjmp; simp at hjmp
      · rw [hc] at hci
        have hci := List.mem_of_getElem? hci
        rw [List.mem_cons, List.mem_cons] at hci
        obtain ⟨o1, p1, l1, q1⟩ := h.wf.dual_single _ _ _ hs n1 (.inl rfl)
        obtain ⟨o2, p2, l2, q2⟩ := h.wf.dual_single _ _ _ hs n2 (.inr rfl)
        rcases hci with rfl | rfl | hci
        · rw [mkI_opcode p1, ((kinds_excl h.wf o1).local_ l1).1] at hjmp; simp at hjmp
        · rw [mkI_opcode p2, ((kinds_excl h.wf o2).local_ l2).1] at hjmp; simp at hjmp
        · rw [hcache d hd i hi _ _ _ hci] at hjmp; simp at hjmp
    | _ => simp [Cell.code, hi] at hci
  simpa using jump_index hx (n := 0) hci hjmp

theorem opAt_congr {off : Int} (l l' : List CInstr) (h : l'.length = l.length)
    (hn : ∀ (k : Nat) i i', l[k]? = some i → l'[k]? = some i' → i'.name = i.name ∧ i'.opcode = i.opcode) (h2 : ∀ i ∈ l, 2 ≤ i.size)
    (h2' : ∀ i ∈ l', 2 ≤ i.size) (t K cur cur' n : Nat)
    (ht : t ≤ l.length) (ho : opAt P ((cur + pos P l t : Nat) : Int) cur n (l.map .instr) = some K) :
    opAt P ((cur' + pos P l' t : Nat) : Int) cur' n (l'.map .instr) = some K := by
  induction l generalizing l' t cur cur' n with
  | nil =>
    cases l' with
    | nil =>
      simp only [List.length_nil, Nat.le_zero_eq] at ht
      subst ht
      simp only [List.map_nil, opAt, pos, List.take_nil, List.map_nil, List.sum_nil, Nat.add_zero, if_pos] at ho ⊢
      exact ho
    | cons => simp at h
  | cons i l ih =>
    cases l' with
    | nil => simp at h
    | cons i' l' =>
      obtain ⟨e1, e2⟩ := hn 0 i i' rfl rfl
      have hu : ∀ x : CInstr, 2 ≤ x.size → 1 ≤ x.units P := by
        intro x hx; unfold CInstr.units; split <;> omega
      cases t with
      | zero =>
        simp only [List.map_cons, opAt, pos, List.take_zero, List.map_nil, List.sum_nil, Nat.add_zero, if_pos, e1] at ho ⊢
        exact ho
      | succ t =>
        have p1 : pos P (i :: l) (t + 1) = i.units P + pos P l t := by simp [pos]
        have p2 : pos P (i' :: l') (t + 1) = i'.units P + pos P l' t := by simp [pos]
        have u1 := hu i (h2 i (by simp))
        have u2 := hu i' (h2' i' (by simp))
        rw [p1] at ho
        rw [p2]
        simp only [List.map_cons, opAt] at ho ⊢
        rw [if_neg (by omega)] at ho ⊢
        rw [e1, e2]
        have := ih l' (by simpa using h) (fun k a a' ha ha' => hn (k + 1) a a' (by simpa using ha) (by simpa using ha'))
          (fun x hx => h2 x (by simp [hx])) (fun x hx => h2' x (by simp [hx])) t (cur + i.units P) (cur' + i'.units P) (n + opCount P i.name i.opcode)
          (by simpa using ht) (by rw [Nat.add_assoc]; exact ho)
        rw [Nat.add_assoc] at this
        exact this

/-- The layout reached is the least one. -/
theorem toConcrete_least (hP : P.WF) {passes : Nat} (hcache : ∀ e ∈ b.elems, e.isCache = false)
    (hv : ∀ i, .instr i ∈ b.elems → ValidInstr P i) (h : toConcrete P key passes b = .ok c) (l N : List CInstr)
    (hl : c.elems = l.map .instr) (hN : Relayout P l N) : ∀ (k : Nat) (i i' : CInstr), l[k]? = some i → N[k]? = some i' → i.size ≤ i'.size := by
  obtain ⟨st, M0, T, M, h1, h2, h3, h4, h5, h6⟩ := toConcrete_start hP hcache hv h
  have hl' : l = code P M := by
    have := h3.elems
    rw [hl] at this
    exact (List.map_inj_right (fun x y hxy => by cases hxy; rfl)).1 this
  subst hl'
  obtain ⟨hr, hs, hcons⟩ := loop_consistent hP passes _ _ h2.ready h6
  obtain ⟨n1, n2, n3⟩ := hN
  have hsize : ∀ i ∈ N, 2 ≤ i.size := by
    intro i hi
    obtain ⟨k, hk, hki⟩ := List.getElem_of_mem hi
    have hk' : k < (code P M).length := by omega
    have e1 : (code P M)[k]? = some _ := List.getElem?_eq_getElem hk'
    have e2 : N[k]? = some i := by rw [← hki]; exact List.getElem?_eq_getElem hk
    cases hj : P.hasJump ((code P M)[k]).opcode with
    | false => rw [(n2 k _ i e1 e2).2.2.1 hj]; exact hr.size _ (List.mem_of_getElem? e1)
    | true =>
      obtain ⟨_, _, a, _, _, ha⟩ := (n2 k _ i e1 e2).2.2.2 hj
      rw [ha]; exact sizeFor_ge _ _
  have hkey : ∀ k lab, (k, lab) ∈ st.jumps → ∃ ci ci' t a, (code P M)[k]? = some ci ∧ N[k]? = some ci' ∧ JInstr P ci ∧ lookupLabel st.labels lab = .ok t ∧
      t ≤ (code P M).length ∧ ci'.name = ci.name ∧ ci'.opcode = ci.opcode ∧ ci'.loc = ci.loc ∧ ci'.ext = ci.ext ∧
      ci'.arg = some a ∧ a ≤ 2147483647 ∧ ci'.size = sizeFor (some a) none ∧ ci'.getJumpTarget P (pos P N k) = some (pos P N t : Int) := by
    intro k lab hk
    obtain ⟨ci, t, a, g1, g2, g3, g4, g5, g6, g7⟩ := hcons k lab hk
    obtain ⟨ci2, g1', hj⟩ := hr.jump k lab hk
    rw [g1] at g1'; cases g1'
    have hkN : k < N.length := by rw [n1]; exact (List.getElem?_eq_some_iff.1 g1).1
    obtain ⟨ci', hci'⟩ : ∃ x, N[k]? = some x := ⟨_, List.getElem?_eq_getElem hkN⟩
    obtain ⟨m1, m2, _, m3⟩ := n2 k ci ci' g1 hci'
    obtain ⟨m4, m5, a', m6, m7, m8⟩ := m3 hj.jump
    refine ⟨ci, ci', t, a', g1, hci', hj, g2, g3, m1, m2, m4, m5, m6, m7, m8, ?_⟩
    rw [h4] at g2
    obtain ⟨_, K, _, hK⟩ := h3.label g2
    have hdest := n3 k ci ci' g1 hci' hj.jump
    have hK' := hK
    rw [h3.elems] at hK
    rw [g7] at hdest
    simp only [Option.bind_some] at hdest
    rw [hK] at hdest
    cases ht : ci'.getJumpTarget P (pos P N k) with
    | none => rw [ht] at hdest; simp at hdest
    | some off =>
      rw [ht] at hdest
      simp only [Option.bind_some] at hdest
      have := opAt_congr (P := P) (off := 0) (code P M) N n1 (fun k i i' hi hi' => ⟨(n2 k i i' hi hi').1, (n2 k i i' hi hi').2.1⟩) hr.size hsize t K 0 0 0 g3
        (by rw [Nat.zero_add]; exact hK)
      rw [Nat.zero_add] at this
      rw [opAt_inj hdest this]
  have hrN : Ready P st.labels st.jumps N := by
    refine ⟨hr.nodup, hsize, ?_, ?_, ?_⟩
    · intro k lab hk
      obtain ⟨ci, ci', t, a, a1, a2, a3, a4, a5, a6, a7, a8, a9, a10, a11, a12, a13⟩ := hkey k lab hk
      refine ⟨ci', a2, ⟨⟨by rw [a6, a7]; exact a3.built.name_op, by rw [a7]; exact a3.built.base, by simp [a10], ?_, ?_, by rw [a9]; exact a3.built.ext, by rw [a10]; exact a12⟩, by rw [a7]; exact a3.jump⟩⟩
      · intro hA; rw [a7, hasJump_arg hP a3.built.name_op a3.built.base a3.jump] at hA; simp at hA
      · intro x hx; rw [a10] at hx; cases hx; exact a11
    · intro lab t ht; rw [n1]; exact hr.label lab t ht
    · intro k lab t ci' hk ht hci' hlt
      obtain ⟨ci, ci2, t', a, a1, a2, a3, a4, a5, a6, a7, _⟩ := hkey k lab hk
      rw [hci'] at a2; cases a2
      have := hr.cache k lab t ci hk ht a1 hlt
      unfold CInstr.useCacheOpcodes at this ⊢
      rw [a7]; exact this
  have hcN : Consistent P st.labels st.jumps N := by
    intro k lab hk
    obtain ⟨ci, ci', t, a, a1, a2, a3, a4, a5, a6, a7, a8, a9, a10, a11, a12, a13⟩ := hkey k lab hk
    exact ⟨ci', t, a, a2, a4, by rw [n1]; exact a5, a10, a11, a12, a13⟩
  have hsm : Smaller st.instrs N := by
    refine ⟨by rw [n1, hs.1], fun k i i' hi hi' => ?_⟩
    have hk : k < (code P M).length := by rw [← n1]; exact (List.getElem?_eq_some_iff.1 hi').1
    have e1 : (code P M)[k]? = some _ := List.getElem?_eq_getElem hk
    obtain ⟨b1, b2, b3, _⟩ := hs.2 k i _ hi e1
    obtain ⟨m1, m2, m3, _⟩ := n2 k _ i' e1 hi'
    refine ⟨?_, by rw [m1, b2], by rw [m2, b3]⟩
    by_cases hm : k ∈ st.jumps.map (·.1)
    · obtain ⟨⟨k', lab⟩, hk', rfl⟩ := List.mem_map.1 hm
      rw [h2.two k' lab i hk' hi]
      exact hsize i' (List.mem_of_getElem? hi')
    · have hnj : P.hasJump ((code P M)[k]).opcode = false := by
        cases hj : P.hasJump ((code P M)[k]).opcode with
        | false => rfl
        | true =>
          obtain ⟨lab, hlab⟩ := h3.jump_at e1 hj
          rw [← h5] at hlab
          exact absurd (List.mem_map.2 ⟨_, hlab, rfl⟩) hm
      rw [m3 hnj, b1 hm]; exact Nat.le_refl _
  intro k i i' hi hi'
  exact (((loop_below hP passes _ _ h2.ready h2.pre hrN hcN hsm).1 _ h6).2 k i i' hi hi').1
end
end Verif
