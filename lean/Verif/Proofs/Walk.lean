import Verif.Proofs.Meaning
/-
Walking over the converter's result cell by cell.
-/
namespace Verif
open Spec
section
variable {κ : Type} [DecidableEq κ]

/-- `opsC` on instructions that all have a location. -/
def opsI (P : Platform) (key : Arg → κ) (c : Concrete) (cur : Nat) : List CInstr → List (Op κ)
  | [] => []
  | ci :: r =>
    (expandC P key c ((ci.getJumpTarget P cur).bind (fun t => opAt P t 0 0 c.elems)) ci).map
      (fun p => ⟨p.1, p.2, ci.loc.getD (Loc.line none), handlerAt P c (cur + width P ci - P.unit)⟩) ++
      opsI P key c (cur + ci.units P) r

variable {P : Platform} {key : Arg → κ} {b : Bytecode} {c : Concrete} {T : Tabs} {M : List Cell}

theorem opsC_opsI (l : List CInstr) (hl : ∀ ci ∈ l, ci.loc.isSome = true) (line cur : Nat) :
    opsC P key c line cur (l.map .instr) = opsI P key c cur l := by
  induction l generalizing line cur with
  | nil => rfl
  | cons ci l ih =>
    obtain ⟨loc, hloc⟩ := Option.isSome_iff_exists.1 (hl ci (by simp))
    simp only [List.map_cons, opsC, opsI]
    rw [ih (fun x hx => hl x (by simp [hx]))]
    simp [hloc, Platform.unit, width_units]

theorem opsI_append (l1 l2 : List CInstr) (cur : Nat) :
    opsI P key c cur (l1 ++ l2) = opsI P key c cur l1 ++ opsI P key c (cur + pos P l1 l1.length) l2 := by
  induction l1 generalizing cur with
  | nil => simp [opsI, pos_zero]
  | cons ci l1 ih =>
    rw [List.cons_append, opsI, opsI, ih, List.append_assoc, List.length_cons, pos_cons, Nat.add_assoc]

theorem opsI_caches (n : Nat) (loc : Loc) (cur : Nat) : opsI P key c cur (List.replicate n (mkI P "CACHE" (some 0) loc)) = [] := by
  induction n generalizing cur with
  | zero => rfl
  | succ n ih => rw [List.replicate_succ, opsI, ih]; simp [expandC, mkI]

theorem code_loc (M : List Cell) : ∀ ci ∈ code P M, ci.loc.isSome = true := by
  intro ci hci
  simp only [code, List.mem_flatMap] at hci
  obtain ⟨d, _, hci⟩ := hci
  unfold Cell.code at hci
  split at hci
  · simp only [block, List.mem_append, List.mem_replicate] at hci
    rcases hci with hi | ⟨_, rfl⟩
    · cases hc : d.enc <;> simp only [hc, mains, List.mem_cons, List.not_mem_nil, or_false] at hi
      · subst hi; rfl
      · subst hi; rfl
      · subst hi; rfl
      · subst hi; rfl
      · rcases hi with rfl | rfl <;> rfl
    · rfl
  · simp at hci

/-- The open try region after some cells. -/
def trStep (tr : Option TryB) (d : Cell) : Option TryB :=
  match d.e with
  | .tryBegin t => some t
  | .tryEnd _ => none
  | _ => tr
def trAt (M : List Cell) : Option TryB := M.foldl trStep none

theorem Final.walk (h : Final P key b c T M) {β : Type} (v : Op κ → β)
    (hcell : ∀ M1 d M2 i, M = M1 ++ d :: M2 → d.e = .instr i →
      (opsI P key c (pos P (code P M) (code P M1).length) (d.code P)).map v =
      ((expandB P key (fun l => labelPos P l 0 b.elems) i).map
        (fun p => (⟨p.1, p.2, d.loc, (trAt M1).bind (handlerB (fun l => labelPos P l 0 b.elems))⟩ : Op κ))).map v) :
    (programC P key c).map v = (programB P key b).map v := by
  have main : ∀ (M2 M1 : List Cell) (loc : Loc) (es : List BElem), M = M1 ++ M2 → FLay P key b.attrs T loc es M2 →
      (opsI P key c (pos P (code P M) (code P M1).length) (code P M2)).map v =
      (opsB P key (fun l => labelPos P l 0 b.elems) loc (trAt M1) es).map v := by
    intro M2
    induction M2 with
    | nil =>
      intro M1 loc es hM hl
      cases es with
      | nil => rfl
      | cons => exact absurd hl (by simp [FLay])
    | cons d M2 ih =>
      intro M1 loc es hM hl
      cases es with
      | nil => exact absurd hl (by simp [FLay])
      | cons e es =>
        obtain ⟨a1, a2, a3, a4⟩ := hl
        have hrec := ih (M1 ++ [d]) (nextLoc loc e) es (by simp [hM]) a4
        have htr : trAt (M1 ++ [d]) = trStep (trAt M1) d := by simp [trAt]
        have hcode : code P (M1 ++ [d]) = code P M1 ++ d.code P := by rw [code_append]; simp [code]
        have hpos : pos P (code P M) (code P (M1 ++ [d])).length = pos P (code P M) (code P M1).length + pos P (d.code P) (d.code P).length := by
          rw [hM, hcode, List.length_append, code_append, pos_append_left P _ _ (Nat.le_refl _), code_cons, ← List.append_assoc,
            pos_append_left P _ _ (by simp), pos_append_right]
        rw [code_cons, opsI_append, ← hpos, List.map_append, hrec, htr]
        cases e with
        | instr i =>
          rw [hcell M1 d M2 i hM a1, opsB, List.map_append]
          simp only [nextLoc] at a2
          rw [a2]
          simp [trStep, a1, nextLoc]
        | label l => simp [Cell.code, a1, opsI, opsB, trStep, nextLoc]
        | setLineno n => simp [Cell.code, a1, opsI, opsB, trStep, nextLoc]
        | tryBegin t => simp [Cell.code, a1, opsI, opsB, trStep, nextLoc]
        | tryEnd t => simp [Cell.code, a1, opsI, opsB, trStep, nextLoc]
  have := main M [] _ _ rfl h.lay
  rw [show code P [] = [] from rfl, List.length_nil, pos_zero] at this
  unfold programC programB
  rw [h.elems, opsC_opsI _ (code_loc M), this]
  rfl

theorem mkI_opcode {n : String} {op : Nat} (h : P.opmap n = some op) (a : Option Nat) (loc : Loc) : (mkI P n a loc).opcode = op := by
  simp [mkI, h]

/-- The operations of a cell with one main instruction. -/
theorem opsI_single (n : String) (a : Option Nat) (loc : Loc) (m cur : Nat) :
    opsI P key c cur (mkI P n a loc :: List.replicate m (mkI P "CACHE" (some 0) loc)) =
    (expandC P key c (((mkI P n a loc).getJumpTarget P cur).bind (fun t => opAt P t 0 0 c.elems)) (mkI P n a loc)).map
      (fun p => ⟨p.1, p.2, loc, handlerAt P c (cur + width P (mkI P n a loc) - P.unit)⟩) := by
  rw [opsI, opsI_caches, List.append_nil]; rfl

/-- The target of a jump of the result. -/
theorem Final.dest (h : Final P key b c T M) {M1 M2 : List Cell} {d : Cell} {i : Instr} {l : Nat} (hM : M = M1 ++ d :: M2)
    (hi : d.e = .instr i) (hl : i.arg = .label l) : ∃ a k, d.enc = .plain (.int (a : Nat)) ∧ labelPos P l 0 b.elems = some k ∧
      ((mkI P i.name (some a) d.loc).getJumpTarget P (pos P (code P M) (code P M1).length)).bind (fun t => opAt P t 0 0 c.elems) = some k := by
  have hd : d ∈ M := by rw [hM]; simp
  have hj : d.jump? = some l := by simp [Cell.jump?, hi, hl]
  have hmem : ((code P M1).length, l) ∈ jumpsE P 0 M := by
    rw [hM]
    have : ∀ (M1 : List Cell) (n : Nat), (n + (code P M1).length, l) ∈ jumpsE P n (M1 ++ d :: M2) := by
      intro M1
      induction M1 with
      | nil => intro n; simp [jumpsE, hj, code]
      | cons x M1 ih =>
        intro n
        rw [List.cons_append, jumpsE, List.mem_append]
        right
        have := ih (n + (x.code P).length)
        rw [code_cons, List.length_append, ← Nat.add_assoc]
        exact this
    simpa using this M1 0
  obtain ⟨ci, t, a, c1, c2, c3, c4, c5, c6, c7⟩ := h.cons _ _ hmem
  obtain ⟨i', a', e1, e2, e3, e4, e5, e6, e7⟩ := (h.jumpCells d hd).code hj
  have : i' = i := by rw [hi] at e1; cases e1; rfl
  subst this
  rw [hM, code_append, code_cons, e7] at c1
  rw [List.cons_append, get_head] at c1
  simp only [Option.some.injEq] at c1
  subst c1
  obtain ⟨_, k, hk1, hk2⟩ := h.label c2
  exact ⟨a', k, e3, hk1, by rw [c7]; exact hk2⟩

/-- What a jump operand jumps to. -/
def jumpOf : Operand κ → Option Nat
  | .jump t => some t
  | _ => none
end
end Verif
