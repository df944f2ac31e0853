import Verif.Proofs.AssembleD
import Verif.Spec.Errors
/-
Which exception the conversion raises.
-/
namespace Verif
open Spec

theorem except_bind_err {α β : Type} {x : Py α} {f : α → Py β} {e : PyErr} (h : (x >>= f) = .error e) :
    x = .error e ∨ ∃ a, x = .ok a ∧ f a = .error e := by
  cases x with
  | error e' => cases h; exact .inl rfl
  | ok a => exact .inr ⟨a, rfl, h⟩

theorem locMake_err {x : Bool} {n : Nat} {e : PyErr} (h : Loc.make x (some (n : Int)) none none none = .error e) : e = .valueError ∧ x = false ∧ n = 0 := by
  by_cases hx : x = true ∨ 1 ≤ n
  · obtain ⟨l, hl⟩ := locMake_total hx
    rw [h] at hl; cases hl
  · have h1 : x = false := by simpa using fun h => hx (.inl h)
    have h2 : n = 0 := by have : ¬ 1 ≤ n := fun h => hx (.inr h); omega
    subst h1 h2
    refine ⟨?_, rfl, rfl⟩
    unfold Loc.make checkLocation at h
    simp at h
    cases h; rfl

theorem iter_err (es : List BElem) (seen : Bool) {e : PyErr} (h : (iterElems seen es).2 = .error e) : e = .runtimeError := by
  induction es generalizing seen with
  | nil => cases h
  | cons x es ih =>
    cases x with
    | tryBegin t =>
      cases seen with
      | true => simp only [iterElems, if_true] at h; cases h; rfl
      | false => simp only [iterElems, Bool.false_eq_true, if_false] at h; exact ih _ h
    | tryEnd id => simp only [iterElems] at h; exact ih _ h
    | instr i => simp only [iterElems] at h; exact ih _ h
    | label l => simp only [iterElems] at h; exact ih _ h
    | setLineno n => simp only [iterElems] at h; exact ih _ h

theorem prepass_err {P : Platform} (es : List BElem) (vs : List String) {e : PyErr} (hv : ∀ i, .instr i ∈ es → ValidInstr P i)
    (h : prepass P vs es = .error e) :
    e = .assertionError ∧ ∃ i, .instr i ∈ es ∧ P.dual i.opcode = true ∧ ∀ x y, i.arg ≠ .tuple [.str x, .str y] := by
  unfold prepass at h
  split at h
  · induction es generalizing vs with
    | nil => cases h
    | cons x es ih =>
      rw [List.foldlM_cons] at h
      rcases except_bind_err h with h | ⟨a, _, h⟩
      · cases x with
        | instr i =>
          simp only [prepassElem] at h
          split at h
          · rename_i hd
            obtain ⟨u, w, hu, hu1, hu2⟩ := (hv i (by simp)).arg_ok.dual hd
            rw [hu] at h
            simp only [List.foldlM_cons, List.foldlM_nil] at h
            refine ⟨?_, i, by simp, hd, ?_⟩
            · rcases hu1 with ⟨n, rfl⟩ | ⟨n, rfl⟩ <;> rcases hu2 with ⟨m, rfl⟩ | ⟨m, rfl⟩ <;>
                simp [bind, Except.bind, pure, Except.pure] at h <;> exact h.symm
            · intro x y hxy
              rw [hu] at hxy
              cases hxy
              simp [bind, Except.bind, pure, Except.pure] at h
          · cases h
        | _ => cases h
      · obtain ⟨h1, i, h2, h3⟩ := ih a (fun i hi => hv i (by simp [hi])) h
        exact ⟨h1, i, by simp [h2], h3⟩
  · cases h

theorem prepass_len {P : Platform} (es : List BElem) (vs : List String) {vs' : List String} (hv : ∀ i, .instr i ∈ es → ValidInstr P i)
    (h : prepass P vs es = .ok vs') : vs'.length ≤ vs.length + (es.map (room P)).sum := by
  unfold prepass at h
  split at h
  · induction es generalizing vs with
    | nil => cases h; simp
    | cons x es ih =>
      rw [List.foldlM_cons] at h
      obtain ⟨v1, h1, h⟩ := except_bind_ok h
      have hl : v1.length ≤ vs.length + room P x := by
        cases x with
        | instr i =>
          simp only [prepassElem] at h1
          split at h1
          · rename_i hd
            obtain ⟨u, w, hu, hu1, hu2⟩ := (hv i (by simp)).arg_ok.dual hd
            rw [hu] at h1
            simp only [List.foldlM_cons, List.foldlM_nil] at h1
            rcases hu1 with ⟨n, rfl⟩ | ⟨n, rfl⟩ <;> rcases hu2 with ⟨m, rfl⟩ | ⟨m, rfl⟩ <;>
              simp [bind, Except.bind, pure, Except.pure] at h1
            have a1 := addTo_len vs n
            have a2 := addTo_len (addTo vs n).1 m
            simp only [room]
            rw [← h1]
            omega
          · cases h1; simp
        | _ => cases h1; simp
      have := ih v1 (fun i hi => hv i (by simp [hi])) h
      simp only [List.map_cons, List.sum_cons]
      omega
  · cases h; omega

section
variable {κ : Type} [DecidableEq κ]

theorem pyIndexOf_err {l : List String} {n : String} {e : PyErr} (h : pyIndexOf l n = .error e) : e = .valueError ∧ n ∉ l := by
  unfold pyIndexOf at h
  split at h
  · cases h
  · cases h; exact ⟨rfl, by assumption⟩

/-- Why an operand is refused. -/
theorem encode_err {P : Platform} {key : Arg → κ} {A : Attrs} {T : Tabs} {i : Instr} {e : PyErr} (hv : ValidInstr P i)
    (hcmp : ∀ v, P.hascompare i.opcode = true → i.arg = .compare v → CompareMember P v) (h : encodeOperand P key A T i = .error e) :
    (e = .valueError ∧ P.hasconst i.opcode = false ∧ ((∃ n, i.arg = .cell n ∧ n ∉ A.cellvars) ∨ ∃ n, i.arg = .free n ∧ n ∉ A.freevars)) ∨
    (e = .assertionError ∧ ((P.dual i.opcode = true ∧ ∀ x y, i.arg ≠ .tuple [.str x, .str y]) ∨ (P.hasJump i.opcode = true ∧ ∃ k, i.arg = .block k))) := by
  have ho := hv.arg_ok
  unfold encodeOperand at h
  split at h
  · cases h
  · rename_i arg hnl
    by_cases hc : P.hasconst i.opcode = true
    · rw [if_pos hc] at h; cases h
    have hc' : P.hasconst i.opcode = false := by simpa using hc
    rw [if_neg hc] at h
    by_cases hl : P.haslocal i.opcode = true
    · rw [if_pos hl] at h
      cases hd : P.dualSingles i.opcode with
      | some p =>
        obtain ⟨n1, n2⟩ := p
        rw [hd] at h
        simp only at h
        have hdual : P.dual i.opcode = true := by simp [Platform.dual, hd]
        refine .inr ?_
        split at h
        · split at h <;> cases h
        · rename_i hne
          cases h
          exact ⟨rfl, .inl ⟨hdual, fun x y hxy => hne x y hxy⟩⟩
      | none =>
        have hnd : P.dual i.opcode = false := by simp [Platform.dual, hd]
        rw [hd] at h
        simp only at h
        rcases ho.local_ hl hnd with ⟨n, hn⟩ | ⟨h13, ⟨n, hn⟩ | ⟨n, hn⟩⟩
        · rw [hn] at h; cases h
        · rw [hn] at h
          simp only [if_pos h13] at h
          rcases except_bind_err h with h | ⟨_, _, h⟩
          · obtain ⟨h1, h2⟩ := pyIndexOf_err h
            exact .inl ⟨h1, hc', .inl ⟨n, hn, h2⟩⟩
          · cases h
        · rw [hn] at h
          simp only [if_pos h13] at h
          rcases except_bind_err h with h | ⟨_, _, h⟩
          · obtain ⟨h1, h2⟩ := pyIndexOf_err h
            exact .inl ⟨h1, hc', .inr ⟨n, hn, h2⟩⟩
          · cases h
    rw [if_neg hl] at h
    by_cases hn : P.hasname i.opcode = true
    · rw [if_pos hn] at h
      by_cases hb : P.bitflag i.opcode = true
      · rw [if_pos hb] at h
        obtain ⟨f, n, he⟩ := ho.flag hb
        rw [he] at h; cases h
      rw [if_neg hb] at h
      by_cases hb2 : P.bitflag2 i.opcode = true
      · rw [if_pos hb2] at h
        obtain ⟨f, g, n, he⟩ := ho.flag2 hb2
        rw [he] at h; cases h
      rw [if_neg hb2] at h
      obtain ⟨n, he⟩ := ho.name hn (by simpa using hb) (by simpa using hb2)
      rw [he] at h; cases h
    rw [if_neg hn] at h
    by_cases hf : P.hasfree i.opcode = true
    · rw [if_pos hf] at h
      rcases ho.free hf with ⟨n, he⟩ | ⟨n, he⟩
      · rw [he] at h
        rcases except_bind_err h with h | ⟨_, _, h⟩
        · obtain ⟨h1, h2⟩ := pyIndexOf_err h
          exact .inl ⟨h1, hc', .inl ⟨n, he, h2⟩⟩
        · cases h
      · rw [he] at h
        rcases except_bind_err h with h | ⟨_, _, h⟩
        · obtain ⟨h1, h2⟩ := pyIndexOf_err h
          exact .inl ⟨h1, hc', .inr ⟨n, he, h2⟩⟩
        · cases h
    rw [if_neg hf] at h
    by_cases hcm : P.hascompare i.opcode = true
    · rw [if_pos hcm] at h
      obtain ⟨v, he⟩ := ho.compare hcm
      rw [he] at h
      obtain ⟨k, hk, _⟩ := encodeCompare_ok (hcmp v hcm he)
      simp only [hk] at h
      cases h
    rw [if_neg hcm] at h
    by_cases hi : (P.intrinsic1 i.opcode || P.intrinsic2 i.opcode) = true
    · rw [if_pos hi] at h
      simp only [Bool.or_eq_true] at hi
      rcases hi with hi | hi
      · obtain ⟨v, he⟩ := ho.intr1 hi; rw [he] at h; cases h
      · obtain ⟨v, he⟩ := ho.intr2 hi; rw [he] at h; cases h
    rw [if_neg hi] at h
    rcases except_bind_err h with h | ⟨_, _, h⟩
    · unfold encodeInt at h
      split at h
      · cases h
      · rename_i a hne
        split at h
        · cases h
        · rename_i hnone
          cases h
          refine .inr ⟨rfl, .inr ?_⟩
          cases hj : P.hasJump i.opcode with
          | true =>
            rcases ho.jump hj with ⟨l, hl⟩ | ⟨k, hk⟩
            · exact absurd hl (hnl l)
            · exact ⟨rfl, k, hk⟩
          | false =>
            have ha := ho.present.2 hne
            obtain ⟨v, hv, _⟩ := ho.int (by
              simp only [Bool.not_eq_true, Bool.or_eq_false_iff] at hc hl hn hf hcm hi
              simp [hj, hc, hl, hn, hf, hcm, hi]) ha
            rw [hnone] at hv; cases hv
    · cases h

/-- An instruction whose operand is encoded. -/
theorem encodable_enc {P : Platform} (hP : P.WF) {key : Arg → κ} {b : Bytecode} (hw : WellMade P b) {T : Tabs} {i : Instr} (hi : .instr i ∈ b.elems)
    {r : Tabs × Enc} (hr : encodeOperand P key b.attrs T i = .ok r) : Encodable P b.attrs i := by
  have hv := (hw.valid i hi).1
  refine ⟨hv, fun v => hw.compare i v hi, fun v => hw.intrinsic i v hi, fun hj => ?_, fun n hc ha => encode_cell hr hc ha,
    fun n hc ha => encode_free hr hc ha, fun hd => encode_dual hP hv hr hd⟩
  rcases hv.arg_ok.jump hj with hl | ⟨k, hk⟩
  · exact hl
  · refine (encode_block hr ?_ hk).elim
    cases hcc : P.hasconst i.opcode with
    | false => rfl
    | true => exact absurd hk ((hv.arg_ok.const hcc).2 k)

/-- Why the first loop fails. -/
theorem fold_err {P : Platform} (hP : P.WF) (key : Arg → κ) {b : Bytecode} (hw : WellMade P b) {passes V : Nat} {e : PyErr} (es : List BElem) (done : List BElem) (w : Nat) (st : Conv)
    (hes : b.elems = done ++ es) (h : AInv P V w done st) (hb : BlocksFrom done st)
    (hsz : 4 * (w + (es.map (room P)).sum) + V ≤ 2147483647)
    (hC : b.attrs.cellvars.length ≤ 2147483647) (hF : b.attrs.freevars.length ≤ 2147483647)
    (herr : es.foldlM (Conv.step P key b.attrs) st = .error e) : Wrong P b passes e := by
  induction es generalizing done w st with
  | nil => cases herr
  | cons x es ih =>
    have hxm : x ∈ b.elems := by rw [hes]; simp
    have hc := isCache_of hw x hxm
    simp only [List.map_cons, List.sum_cons] at hsz
    obtain ⟨s0, g1, g2, g3⟩ := cacheStep_total hP h
    have hb0 : BlocksFrom done s0 := by unfold BlocksFrom; rw [cacheStep_blocks g1]; exact hb
    rw [List.foldlM_cons] at herr
    have hstep : Conv.step P key b.attrs st x = s0.elem P key b.attrs x := by
      simp only [Conv.step, hc]; rw [g1]; rfl
    rw [hstep] at herr
    rcases except_bind_err herr with herr | ⟨s1, k1, herr⟩
    · cases x with
      | label l => cases herr
      | setLineno n => cases herr
      | tryBegin t =>
        simp only [Conv.elem] at herr
        split at herr
        · cases herr; exact .depth hxm (by assumption)
        · cases herr
      | tryEnd id =>
        simp only [Conv.elem] at herr
        split at herr
        · cases herr
        · rename_i hany
          cases herr
          refine .end_ hes (fun t ht hid => hany ?_)
          rw [← hid]; exact g2.blocks t ht
      | instr i =>
        have hcopy := herr
        simp only [Conv.elem] at herr
        rcases except_bind_err herr with herr | ⟨r, hr, _⟩
        · rcases encode_err (hw.valid i hxm).1 (fun v => hw.compare i v hxm) herr with ⟨rfl, hcc, ⟨n, h1, h2⟩ | ⟨n, h1, h2⟩⟩ | ⟨rfl, ⟨h1, h2⟩ | ⟨h1, k, h2⟩⟩
          · exact .cell hxm hcc h1 h2
          · exact .free hxm hcc h1 h2
          · exact .dual hxm h1 h2
          · exact .block hxm h1 h2
        · exfalso
          obtain ⟨s1, k1, _⟩ := elem_total (e := .instr i) hP key g2 g3 ⟨fun j hj => by cases hj; exact encodable_enc hP hw hxm hr, by simp, by simp⟩ (by omega) hC hF
          rw [hcopy] at k1; cases k1
    · obtain ⟨r1, r2, r3⟩ := elem_rules hb0 k1
      have hok : ElemOK P b.attrs done x := by
        refine ⟨?_, r2, r3⟩
        rintro i rfl
        simp only [Conv.elem] at k1
        obtain ⟨r, hr, _⟩ := except_bind_ok k1
        exact encodable_enc hP hw hxm hr
      obtain ⟨s2, k2, k3⟩ := elem_total hP key g2 g3 hok (by omega) hC hF
      rw [k1] at k2; cases k2
      exact ih (done ++ [x]) (w + room P x) s1 (by rw [hes]; simp) k3 r1 (by omega) herr

/-- What the first loop has checked when it succeeds. -/
theorem fold_checked {P : Platform} (hP : P.WF) (key : Arg → κ) {b : Bytecode} (hw : WellMade P b) {V : Nat} (es : List BElem) (done : List BElem) (w : Nat) (st s1 : Conv)
    (hes : b.elems = done ++ es) (h : AInv P V w done st) (hb : BlocksFrom done st)
    (hsz : 4 * (w + (es.map (room P)).sum) + V ≤ 2147483647)
    (hC : b.attrs.cellvars.length ≤ 2147483647) (hF : b.attrs.freevars.length ≤ 2147483647)
    (hok : es.foldlM (Conv.step P key b.attrs) st = .ok s1) : AInv P V (w + (es.map (room P)).sum) b.elems s1 ∧ ∀ i, .instr i ∈ es → Encodable P b.attrs i := by
  induction es generalizing done w st with
  | nil => cases hok; rw [hes]; exact ⟨by simpa using h, by simp⟩
  | cons x es ih =>
    have hxm : x ∈ b.elems := by rw [hes]; simp
    have hc := isCache_of hw x hxm
    simp only [List.map_cons, List.sum_cons] at hsz
    obtain ⟨s0, g1, g2, g3⟩ := cacheStep_total hP h
    have hb0 : BlocksFrom done s0 := by unfold BlocksFrom; rw [cacheStep_blocks g1]; exact hb
    rw [List.foldlM_cons] at hok
    have hstep : Conv.step P key b.attrs st x = s0.elem P key b.attrs x := by
      simp only [Conv.step, hc]; rw [g1]; rfl
    rw [hstep] at hok
    obtain ⟨s2, k1, hok⟩ := except_bind_ok hok
    obtain ⟨r1, r2, r3⟩ := elem_rules hb0 k1
    have he : ∀ i, x = .instr i → Encodable P b.attrs i := by
      rintro i rfl
      simp only [Conv.elem] at k1
      obtain ⟨r, hr, _⟩ := except_bind_ok k1
      exact encodable_enc hP hw hxm hr
    obtain ⟨s3, k2, k3⟩ := elem_total hP key g2 g3 ⟨he, r2, r3⟩ (by omega) hC hF
    rw [k1] at k2; cases k2
    obtain ⟨q1, q2⟩ := ih (done ++ [x]) (w + room P x) s2 (by rw [hes]; simp) k3 r1 (by omega) hok
    refine ⟨?_, ?_⟩
    · simpa [Nat.add_assoc] using q1
    · intro i hi
      rcases List.mem_cons.1 hi with hi | hi
      · exact he i hi.symm
      · exact q2 i hi

/-- Why the first pass fails. -/
theorem concrete_err {P : Platform} (hP : P.WF) (key : Arg → κ) {b : Bytecode} (hw : WellMade P b) {passes : Nat} {e : PyErr}
    (h : concreteInstructions P key b = .error e) : Wrong P b passes e := by
  have hsz := hw.size
  have hv : ∀ i, .instr i ∈ b.elems → ValidInstr P i := fun i hi => (hw.valid i hi).1
  unfold concreteInstructions at h
  rcases except_bind_err h with h | ⟨loc, hloc, h⟩
  · obtain ⟨rfl, h1, h2⟩ := locMake_err h
    exact .line h1 h2
  rcases except_bind_err h with h | ⟨_, hit, h⟩
  · have := iter_err _ _ h
    subst this
    refine Classical.byContradiction fun hno => ?_
    rw [iter_total b.elems false (fun pre t mid t' post he => Classical.byContradiction fun hx => hno (.nested he (fun id hid => hx ⟨id, hid⟩)))
      (fun h => by cases h)] at h
    cases h
  rcases except_bind_err h with h | ⟨vs, hvs, h⟩
  · obtain ⟨rfl, i, h1, h2, h3⟩ := prepass_err _ _ hv h
    exact .dual h1 h2 h3
  have hvl : vs.length ≤ b.argnames.length + (b.elems.map (room P)).sum := prepass_len _ _ hv hvs
  have hinit : AInv P vs.length 0 [] (Conv.init b.attrs vs loc) :=
    ⟨rfl, by simp [Conv.init], (by simp only [Conv.init]; cases b.attrs.docstring <;> simp), by simp [Conv.init], by simp [Conv.init], by simp⟩
  have hfrom : BlocksFrom [] (Conv.init b.attrs vs loc) := by intro p hp; simp [Conv.init] at hp
  rcases except_bind_err h with h | ⟨s1, hs1, h⟩
  · exact fold_err hP key hw b.elems [] 0 _ rfl hinit hfrom (by omega) (by omega) (by omega) h
  obtain ⟨hinv, henc⟩ := fold_checked hP key hw b.elems [] 0 _ s1 rfl hinit hfrom (by omega) (by omega) (by omega) hs1
  obtain ⟨s2, hs2, hinv2, _⟩ := cacheStep_total hP hinv
  exfalso
  obtain ⟨_, L, l1, l2, _, l4, l5, _⟩ := conv_lay hP b.elems (isCache_of hw) vs loc s1 s2 hs1 hs2
  have hc := hinv2.consts
  have hn := hinv2.names
  have hv := hinv2.vars
  obtain ⟨out, hout⟩ := fixCells_total l1 l2 l4 l5 (by
    intro c hcm i hi
    obtain ⟨m1, m2, _⟩ := l1.mem hcm hi
    have hroom : 2 ≤ (b.elems.map (room P)).sum := by
      obtain ⟨pre, post, he⟩ := List.append_of_mem m1
      rw [he]
      simp only [List.map_append, List.map_cons, List.sum_append, List.sum_cons, room]
      omega
    obtain ⟨T', enc, e1, e2, _⟩ := encode_total hP key s2.tabs (henc i m1) (by omega) (by omega) (by omega)
    rw [m2] at e1
    cases e1
    exact e2) (by omega)
  rw [hs2] at h
  simp only [bind, Except.bind] at h
  rw [hout] at h
  cases h
end
end Verif
