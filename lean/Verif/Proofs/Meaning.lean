import Verif.Proofs.Final
/-
The meaning of the converter's result: operation numbers, jump targets, walking over the code.
-/
namespace Verif
open Spec

/-- Operations in a list of concrete instructions. -/
def opsIn (P : Platform) (l : List CInstr) : Nat := (l.map (fun ci => opCount P ci.name ci.opcode)).sum

/-- Operations of a list of cells, counted on the source. -/
def opCountE (P : Platform) : BElem → Nat
  | .instr i => opCount P i.name i.opcode
  | _ => 0
def opsE (P : Platform) (M : List Cell) : Nat := (M.map (fun c => opCountE P c.e)).sum

theorem opsIn_append (P : Platform) (l m : List CInstr) : opsIn P (l ++ m) = opsIn P l + opsIn P m := by simp [opsIn]
theorem opsIn_caches (P : Platform) (n : Nat) (loc : Loc) : opsIn P (List.replicate n (mkI P "CACHE" (some 0) loc)) = 0 := by
  induction n with
  | zero => rfl
  | succ n ih => rw [List.replicate_succ, opsIn, List.map_cons, List.sum_cons, ← opsIn, ih]; simp [opCount, mkI]

theorem width_units (P : Platform) (ci : CInstr) : width P ci = ci.units P := rfl

theorem opAt_skip {P : Platform} (l1 l2 : List CInstr) (h2 : ∀ i ∈ l1 ++ l2, 2 ≤ i.size) (cur n : Nat)
    (hh : ∀ ci, l2.head? = some ci → ci.name ≠ "CACHE") :
    opAt P ((cur + pos P l1 l1.length : Nat) : Int) cur n ((l1 ++ l2).map .instr) = some (n + opsIn P l1) := by
  induction l1 generalizing cur n with
  | nil =>
    simp only [List.length_nil, pos_zero, Nat.add_zero, List.nil_append, opsIn, List.map_nil, List.sum_nil]
    cases l2 with
    | nil => simp [opAt]
    | cons ci l2 => simp [opAt, hh ci rfl]
  | cons ci l1 ih =>
    have hs : 2 ≤ ci.size := h2 ci (by simp)
    have hu := units_pos P ci hs
    have hp := unit_pos P
    rw [List.cons_append, List.map_cons, opAt, List.length_cons, pos_cons, if_neg (by omega), width_units]
    have := ih (fun i hi => h2 i (by simp at hi ⊢; exact .inr hi)) (cur + ci.units P) (n + opCount P ci.name ci.opcode)
    rw [← Nat.add_assoc, this]
    simp [opsIn, Nat.add_assoc]

/-- Where a label found by the converter is. -/
theorem label_split {P : Platform} {lab t : Nat} (M : List Cell) (m : Nat) (ls : List (Nat × Nat)) (n : Nat)
    (h : lookupLabel (labelsOf P m ls M) lab = .ok t) :
    (lookupLabel ls lab = .ok t ∧ labelPos P lab n (M.map (·.e)) = none) ∨
    (∃ M1 M2, M = M1 ++ M2 ∧ t = m + (code P M1).length ∧ labelPos P lab n (M.map (·.e)) = some (n + opsE P M1)) := by
  induction M generalizing m ls n with
  | nil => left; exact ⟨h, rfl⟩
  | cons c M ih =>
    unfold labelsOf at h
    cases hce : c.e with
    | label l =>
      rw [hce] at h
      simp only at h
      have hc0 : c.code P = [] := by simp [Cell.code, hce]
      rcases ih m _ n h with ⟨h1, h2⟩ | ⟨M1, M2, h1, h2, h3⟩
      · unfold lookupLabel at h1
        rw [List.find?_cons] at h1
        by_cases hl : l = lab
        · subst hl
          simp only [beq_self_eq_true, Except.ok.injEq] at h1
          right
          refine ⟨[], c :: M, rfl, by simp [code, h1], ?_⟩
          simp [List.map_cons, hce, labelPos, h2, opsE]
        · simp only [beq_eq_false_iff_ne.2 hl] at h1
          left
          refine ⟨h1, ?_⟩
          simp [List.map_cons, hce, labelPos, h2, hl]
      · right
        refine ⟨c :: M1, M2, by simp [h1], by rw [code_cons, hc0]; simpa using h2, ?_⟩
        simp [List.map_cons, hce, labelPos, h3, opsE, opCountE]
    | instr i =>
      rw [hce] at h
      simp only at h
      rcases ih _ _ (n + opCount P i.name i.opcode) h with ⟨h1, h2⟩ | ⟨M1, M2, h1, h2, h3⟩
      · left; exact ⟨h1, by simpa [List.map_cons, hce, labelPos] using h2⟩
      · right
        refine ⟨c :: M1, M2, by simp [h1], by rw [code_cons, List.length_append]; omega, ?_⟩
        simp [List.map_cons, hce, labelPos, h3, opsE, opCountE]; omega
    | _ =>
      rw [hce] at h
      simp only at h
      rcases ih _ _ n h with ⟨h1, h2⟩ | ⟨M1, M2, h1, h2, h3⟩
      · left; exact ⟨h1, by simpa [List.map_cons, hce, labelPos] using h2⟩
      · right
        refine ⟨c :: M1, M2, by simp [h1], by rw [code_cons, List.length_append]; omega, ?_⟩
        simp [List.map_cons, hce, labelPos, h3, opsE, opCountE]

section
variable {κ : Type} [DecidableEq κ]

/-- Everything known about the result of the converter. -/
structure Final (P : Platform) (key : Arg → κ) (b : Bytecode) (c : Concrete) (T : Tabs) (M : List Cell) : Prop where
  wf : P.WF
  noCache : ∀ e ∈ b.elems, e.isCache = false
  valid : ∀ i, .instr i ∈ b.elems → ValidInstr P i
  tabs : (Conv.init b.attrs b.argnames (Loc.line (some b.attrs.firstLineno))).tabs.Le T
  lay : FLay P key b.attrs T (Loc.line (some b.attrs.firstLineno)) b.elems M
  jumpCells : ∀ c ∈ M, JumpCell P c
  attrs : c.attrs = b.attrs
  consts : c.consts = T.consts
  names : c.names = T.names
  varnames : c.varnames = T.varnames
  elems : c.elems = (code P M).map .instr
  cons : Consistent P (labelsOf P 0 [] M) (jumpsE P 0 M) (code P M)
  table : (blocksOf P 0 [] M).mapM (resolveEntry P (labelsOf P 0 [] M) (code P M)) = .ok c.excTable

theorem split_names {P : Platform} {op : Nat} {n1 n2 : String} (h : P.dualSingles op = some (n1, n2)) : n1 ≠ "CACHE" ∧ n2 ≠ "CACHE" := by
  unfold Platform.dualSingles at h
  repeat' split at h
  all_goals first
    | (simp only [Option.some.injEq, Prod.mk.injEq] at h; obtain ⟨rfl, rfl⟩ := h; decide)
    | simp at h

/-- A split encoding comes from a two-variable opcode. -/
theorem encode_split {P : Platform} {key : Arg → κ} {A : Attrs} {T T' : Tabs} {i : Instr} {n1 n2 : String} {i1 i2 : Nat}
    (h : encodeOperand P key A T i = .ok (T', .split n1 i1 n2 i2)) : P.dualSingles i.opcode = some (n1, n2) ∧
      ∃ a b, i.arg = .tuple [.str a, .str b] ∧ i1 = (addTo T.varnames a).2 ∧ i2 = (addTo (addTo T.varnames a).1 b).2 := by
  unfold encodeOperand at h
  repeat' split at h
  all_goals first
    | (simp only [Except.ok.injEq, Prod.mk.injEq, reduceCtorEq, and_false] at h; done)
    | (simp only [Except.ok.injEq, Prod.mk.injEq, Enc.split.injEq] at h
       rename_i hd _ _ _ _ _ _ _ _ _ _ _ _ _
       obtain ⟨_, rfl, rfl, rfl, rfl⟩ := h
       simp_all
       done)
    | (simp at h; done)
    | (obtain ⟨x, hx, h⟩ := except_bind_ok h
       simp [pure, Except.pure] at h)

variable {P : Platform} {key : Arg → κ} {b : Bytecode} {c : Concrete} {T : Tabs} {M : List Cell}

theorem Final.mem (h : Final P key b c T M) {d : Cell} (hd : d ∈ M) {i : Instr} (hi : d.e = .instr i) :
    ValidInstr P i ∧ i.name ≠ "CACHE" ∧ ∃ enc0, encodeOperand P key b.attrs T i = .ok (T, enc0) ∧
      (∀ a, enc0 = .plain a → a = .ofOpt a.toOpt) ∧ FinEnc P b.attrs T enc0 d.enc ∧ (∀ ci ∈ mains P i.name d.loc d.enc, Built P ci) := by
  obtain ⟨h1, h2⟩ := h.lay.mem hd
  rw [hi] at h1
  refine ⟨h.valid i h1, ?_, h2 i hi⟩
  have := h.noCache _ h1
  simpa [BElem.isCache] using this

/-- The two shapes of the code of an instruction. -/
theorem Final.shape (h : Final P key b c T M) {d : Cell} (hd : d ∈ M) {i : Instr} (hi : d.e = .instr i) :
    (∃ a, d.enc = .plain a ∧ d.code P = mkI P i.name a.toOpt d.loc :: List.replicate (nCaches P i.name) (mkI P "CACHE" (some 0) d.loc)) ∨
    (∃ n1 i1 n2 i2, d.enc = .split n1 i1 n2 i2 ∧ P.dualSingles i.opcode = some (n1, n2) ∧
      d.code P = mkI P n1 (some i1) d.loc :: mkI P n2 (some i2) d.loc ::
        List.replicate (nCaches P n2) (mkI P "CACHE" (some 0) d.loc)) := by
  obtain ⟨_, _, enc0, h1, _, h3, _⟩ := h.mem hd hi
  cases enc0 with
  | split n1 i1 n2 i2 =>
    right
    have h3 : d.enc = .split n1 i1 n2 i2 := h3
    exact ⟨n1, i1, n2, i2, h3, (encode_split h1).1, by simp [Cell.code, hi, block, h3, mains, lastName]⟩
  | plain a =>
    left
    have h3 : d.enc = .plain a := h3
    exact ⟨a, h3, by simp [Cell.code, hi, block, h3, mains, lastName]⟩
  | cell k => left; exact ⟨_, h3, by rw [Cell.code, hi]; simp only [block]; rw [show d.enc = _ from h3]; simp [mains, lastName]⟩
  | free k => left; exact ⟨_, h3, by rw [Cell.code, hi]; simp only [block]; rw [show d.enc = _ from h3]; simp [mains, lastName]⟩
  | jump l =>
    left
    obtain ⟨a, h3⟩ := h3
    exact ⟨_, h3, by rw [Cell.code, hi]; simp only [block]; rw [h3]; simp [mains, lastName]⟩

theorem Final.opsIn_cell (h : Final P key b c T M) {d : Cell} (hd : d ∈ M) : opsIn P (d.code P) = opCountE P d.e := by
  cases hi : d.e with
  | instr i =>
    obtain ⟨hv, hn, _⟩ := h.mem hd hi
    rcases h.shape hd hi with ⟨a, _, hc⟩ | ⟨n1, i1, n2, i2, _, hs, hc⟩
    · rw [hc, opsIn, List.map_cons, List.sum_cons, ← opsIn, opsIn_caches]
      simp [opCountE, mkI, hv.name_op]
    · rw [hc, opsIn, List.map_cons, List.sum_cons, List.map_cons, List.sum_cons, ← opsIn, opsIn_caches]
      obtain ⟨o1, p1, _, q1⟩ := h.wf.dual_single _ _ _ hs n1 (.inl rfl)
      obtain ⟨o2, p2, _, q2⟩ := h.wf.dual_single _ _ _ hs n2 (.inr rfl)
      obtain ⟨r1, r2⟩ := split_names hs
      have : P.dual i.opcode = true := by simp [Platform.dual, hs]
      simp [opCountE, opCount, mkI, r1, r2, p1, p2, q1, q2, hn, this]
  | _ => simp [Cell.code, hi, opsIn, opCountE]

theorem Final.opsIn_code (h : Final P key b c T M) {M1 : List Cell} (hM : ∀ d ∈ M1, d ∈ M) : opsIn P (code P M1) = opsE P M1 := by
  induction M1 with
  | nil => rfl
  | cons d M1 ih =>
    rw [code_cons, opsIn_append, h.opsIn_cell (hM d (by simp)), ih (fun x hx => hM x (by simp [hx]))]
    simp [opsE]

theorem Final.head (h : Final P key b c T M) {M2 : List Cell} (hM : ∀ d ∈ M2, d ∈ M) :
    ∀ ci, (code P M2).head? = some ci → ci.name ≠ "CACHE" := by
  induction M2 with
  | nil => intro ci hci; simp [code] at hci
  | cons d M2 ih =>
    intro ci hci
    rw [code_cons] at hci
    cases hi : d.e with
    | instr i =>
      obtain ⟨hv, hn, _⟩ := h.mem (hM d (by simp)) hi
      rcases h.shape (hM d (by simp)) hi with ⟨a, _, hc⟩ | ⟨n1, i1, n2, i2, _, hs, hc⟩
      · rw [hc] at hci; simp only [List.cons_append, List.head?_cons, Option.some.injEq] at hci
        subst hci; exact hn
      · rw [hc] at hci; simp only [List.cons_append, List.head?_cons, Option.some.injEq] at hci
        subst hci; exact (split_names hs).1
    | _ =>
      rw [show d.code P = [] by simp [Cell.code, hi], List.nil_append] at hci
      exact ih (fun x hx => hM x (by simp [hx])) ci hci

/-- The offset the converter gives a label is where the operation following the label starts. -/
theorem Final.label (h : Final P key b c T M) {lab t : Nat} (hl : lookupLabel (labelsOf P 0 [] M) lab = .ok t) :
    t ≤ (code P M).length ∧ ∃ k, labelPos P lab 0 b.elems = some k ∧ opAt P (pos P (code P M) t : Int) 0 0 c.elems = some k := by
  rcases label_split M 0 [] 0 hl with ⟨h1, _⟩ | ⟨M1, M2, h1, h2, h3⟩
  · simp [lookupLabel] at h1
  · rw [h.lay.elems] at h3
    simp only [Nat.zero_add] at h2 h3
    subst h2
    refine ⟨by rw [h1, code_append, List.length_append]; omega, _, h3, ?_⟩
    rw [h.elems, h1, code_append, pos_append_left P _ _ (Nat.le_refl _)]
    have hs := opAt_skip (P := P) (code P M1) (code P M2) (by rw [← code_append, ← h1]; exact code_size) 0 0
      (h.head (fun d hd => by rw [h1]; simp [hd]))
    rw [Nat.zero_add] at hs
    rw [hs, h.opsIn_code (fun d hd => by rw [h1]; simp [hd]), Nat.zero_add]

end
end Verif
