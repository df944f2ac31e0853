import Verif.Proofs.JumpConv
/-
The final layout of the converter: cells with their final arguments.
-/
namespace Verif
open Spec

def Cell.jump? (c : Cell) : Option Nat :=
  match c.e with
  | .instr i => match i.arg with
    | .label l => some l
    | _ => none
  | _ => none

def jumpsE (P : Platform) (n : Nat) : List Cell → List (Nat × Nat)
  | [] => []
  | c :: L => (c.jump?.toList.map (fun l => (n, l))) ++ jumpsE P (n + (c.code P).length) L

/-- What positions depend on. -/
def shape (P : Platform) (c : Cell) : BElem × Nat := (c.e, (c.code P).length)

section shape
variable {P : Platform}
theorem labelsOf_shape {L M : List Cell} (h : L.map (shape P) = M.map (shape P)) (n : Nat) (ls : List (Nat × Nat)) :
    labelsOf P n ls L = labelsOf P n ls M := by
  induction L generalizing M n ls with
  | nil => cases M <;> simp_all
  | cons c L ih =>
    cases M with
    | nil => simp at h
    | cons d M =>
      simp only [List.map_cons, List.cons.injEq, shape, Prod.mk.injEq] at h
      obtain ⟨⟨h1, h2⟩, h3⟩ := h
      unfold labelsOf
      rw [h1, h2]
      split <;> exact ih h3 _ _

theorem blocksOf_shape {L M : List Cell} (h : L.map (shape P) = M.map (shape P)) (n : Nat) (bs : List (TryB × ExcEntry)) :
    blocksOf P n bs L = blocksOf P n bs M := by
  induction L generalizing M n bs with
  | nil => cases M <;> simp_all
  | cons c L ih =>
    cases M with
    | nil => simp at h
    | cons d M =>
      simp only [List.map_cons, List.cons.injEq, shape, Prod.mk.injEq] at h
      obtain ⟨⟨h1, h2⟩, h3⟩ := h
      unfold blocksOf
      rw [h1, h2]
      split <;> exact ih h3 _ _

theorem jumpsE_shape {L M : List Cell} (h : L.map (shape P) = M.map (shape P)) (n : Nat) :
    jumpsE P n L = jumpsE P n M := by
  induction L generalizing M n with
  | nil => cases M <;> simp_all
  | cons c L ih =>
    cases M with
    | nil => simp at h
    | cons d M =>
      simp only [List.map_cons, List.cons.injEq, shape, Prod.mk.injEq] at h
      obtain ⟨⟨h1, h2⟩, h3⟩ := h
      unfold jumpsE
      rw [h2, ih h3]
      congr 2
      unfold Cell.jump?; rw [h1]

theorem freesOf_map {f : Cell → Cell} (L : List Cell) (h : ∀ c ∈ L, (f c).e = c.e ∧ ((f c).code P).length = (c.code P).length ∧
    ((∃ k, (f c).enc = .free k) ↔ ∃ k, c.enc = .free k)) (n : Nat) : freesOf P n (L.map f) = freesOf P n L := by
  induction L generalizing n with
  | nil => rfl
  | cons c L ih =>
    obtain ⟨h1, h2, h3⟩ := h c (by simp)
    simp only [List.map_cons, freesOf, h2]
    rw [ih (fun x hx => h x (by simp [hx])), h1]
    congr 1
    cases c.e with
    | instr i =>
      cases hc : c.enc <;> cases hf : (f c).enc <;> simp_all
    | _ => rfl
end shape

section
variable {κ : Type} [DecidableEq κ]

/-- The final encoding from the first one. -/
def FinEnc (P : Platform) (A : Attrs) (T : Tabs) (enc0 enc : Enc) : Prop :=
  match enc0 with
  | .plain a => enc = .plain a
  | .split n1 i1 n2 i2 => enc = .split n1 i1 n2 i2
  | .cell k => enc = .plain (.int (if P.py311 then (sharedIndexes T.varnames 0 A.cellvars).getD k 0 else k : Nat))
  | .free k => enc = .plain (.int (k + freeOffset P A T.varnames : Nat))
  | .jump _ => ∃ a : Nat, enc = .plain (.int a)

/-- The final layout. -/
def FLay (P : Platform) (key : Arg → κ) (A : Attrs) (T : Tabs) : Loc → List BElem → List Cell → Prop
  | _, [], [] => True
  | loc, e :: es, c :: L =>
    c.e = e ∧ c.loc = nextLoc loc e ∧
    (∀ i, e = .instr i → ∃ enc0, encodeOperand P key A T i = .ok (T, enc0) ∧ (∀ a, enc0 = .plain a → a = .ofOpt a.toOpt) ∧
      FinEnc P A T enc0 c.enc ∧ (∀ ci ∈ mains P i.name c.loc c.enc, Built P ci)) ∧
    FLay P key A T (nextLoc loc e) es L
  | _, _, _ => False

theorem encode_jump {P : Platform} {key : Arg → κ} {A : Attrs} {T T' : Tabs} {i : Instr} {enc : Enc}
    (h : encodeOperand P key A T i = .ok (T', enc)) (l : Nat) : enc = .jump l ↔ i.arg = .label l := by
  constructor
  · rintro rfl
    unfold encodeOperand at h
    repeat' split at h
    all_goals first
      | (simp only [Except.ok.injEq, Prod.mk.injEq, Enc.jump.injEq, reduceCtorEq, and_false] at h; done)
      | (simp only [Except.ok.injEq, Prod.mk.injEq, Enc.jump.injEq] at h; obtain ⟨_, rfl⟩ := h; assumption)
      | (simp at h; done)
      | (obtain ⟨x, hx, h⟩ := except_bind_ok h
         simp [pure, Except.pure] at h)
  · intro ha
    unfold encodeOperand at h
    rw [ha] at h
    simp only [Except.ok.injEq, Prod.mk.injEq] at h
    exact h.2.symm

theorem Lay.jumps {P : Platform} {key : Arg → κ} {A : Attrs} {T : Tabs} {loc : Loc} {es : List BElem} {L : List Cell}
    (h : Lay P key A T loc es L) (n : Nat) : jumpsOf P n L = jumpsE P n L := by
  induction es generalizing loc L n with
  | nil => cases L with
    | nil => rfl
    | cons c L => exact absurd h (by simp [Lay])
  | cons e es ih =>
    cases L with
    | nil => exact absurd h (by simp [Lay])
    | cons c L =>
      obtain ⟨h1, h2, h3, h4⟩ := h
      simp only [jumpsOf, jumpsE]
      rw [ih h4]
      congr 1
      unfold Cell.jump?
      rw [h1]
      cases e with
      | instr i =>
        have hj := encode_jump (h3 i rfl).1
        by_cases hl : ∃ l, i.arg = .label l
        · obtain ⟨l, hl⟩ := hl
          rw [(hj l).2 hl]; simp [hl]
        · have h1 : ∀ l, c.enc ≠ .jump l := fun l hc => hl ⟨l, (hj l).1 hc⟩
          have h2 : ∀ l, i.arg ≠ .label l := fun l hc => hl ⟨l, hc⟩
          split
          · rename_i l _ hc; exact absurd hc (h1 l)
          · simp only; rfl
      | _ => rfl

theorem Lay.jump_enc {P : Platform} {key : Arg → κ} {A : Attrs} {T : Tabs} {loc : Loc} {es : List BElem} {L : List Cell}
    (h : Lay P key A T loc es L) {c : Cell} (hc : c ∈ L) {l : Nat} (hj : c.jump? = some l) : c.enc = .jump l := by
  induction es generalizing loc L with
  | nil => cases L with
    | nil => simp at hc
    | cons c L => exact absurd h (by simp [Lay])
  | cons e es ih =>
    cases L with
    | nil => simp at hc
    | cons d L =>
      obtain ⟨h1, h2, h3, h4⟩ := h
      rcases List.mem_cons.1 hc with rfl | hc
      · unfold Cell.jump? at hj
        rw [h1] at hj
        cases e with
        | instr i =>
          simp only at hj
          split at hj
          · rename_i ha; cases hj; exact (encode_jump (h3 i rfl).1 _).2 ha
          · simp at hj
        | _ => simp at hj
      · exact ih h4 hc

theorem mem_labelsOf {P : Platform} {n : Nat} {ls : List (Nat × Nat)} {M : List Cell} {p : Nat × Nat}
    (h : p ∈ labelsOf P n ls M) : p ∈ ls ∨ (n ≤ p.2 ∧ p.2 ≤ n + (code P M).length) := by
  induction M generalizing n ls with
  | nil => exact .inl h
  | cons c M ih =>
    unfold labelsOf at h
    split at h
    · rename_i l hl
      have hc0 : c.code P = [] := by simp [Cell.code, hl]
      rcases ih h with h | h
      · rcases List.mem_cons.1 h with rfl | h
        · exact .inr ⟨Nat.le_refl _, by simp⟩
        · exact .inl h
      · right; rw [code_cons, hc0]; simpa using h
    · rcases ih h with h | h
      · exact .inl h
      · right; rw [code_cons, List.length_append]; omega

theorem lookup_mem {labels : List (Nat × Nat)} {l t : Nat} (h : lookupLabel labels l = .ok t) : ∃ p ∈ labels, p.2 = t := by
  unfold lookupLabel at h
  split at h
  · rename_i p hp
    simp only [Except.ok.injEq] at h
    exact ⟨p, List.mem_of_find?_eq_some hp, h⟩
  · simp at h

/-- Jump cells have one main instruction, which is built and has a jump opcode. -/
def JumpCell (P : Platform) (c : Cell) : Prop :=
  ∀ i, c.e = .instr i → (∃ l, i.arg = .label l) → (∃ a : Nat, c.enc = .plain (.int a) ∧ Built P (mkI P i.name (some a) c.loc)) ∧
    P.opmap i.name = some i.opcode ∧ P.hasJump i.opcode = true

theorem JumpCell.code {P : Platform} {c : Cell} {l : Nat} (h : JumpCell P c) (hj : c.jump? = some l) :
    ∃ i a, c.e = .instr i ∧ i.arg = .label l ∧ c.enc = .plain (.int (a : Nat)) ∧ Built P (mkI P i.name (some a) c.loc) ∧
      P.opmap i.name = some i.opcode ∧ P.hasJump i.opcode = true ∧
      c.code P = mkI P i.name (some a) c.loc :: List.replicate (nCaches P i.name) (mkI P "CACHE" (some 0) c.loc) := by
  unfold Cell.jump? at hj
  split at hj
  · rename_i i he
    split at hj
    · rename_i l' ha
      cases hj
      obtain ⟨⟨a, h1, h2⟩, h3, h4⟩ := h i he ⟨l, ha⟩
      refine ⟨i, a, he, ha, h1, h2, h3, h4, ?_⟩
      simp [Cell.code, he, h1, block, mains, lastName, CArg.toOpt]
    · simp at hj
  · simp at hj

theorem mem_jumpsE {P : Platform} {n : Nat} {M : List Cell} {k lab : Nat} (hj : ∀ c ∈ M, JumpCell P c) (h : (k, lab) ∈ jumpsE P n M) :
    ∃ M1 c M2, M = M1 ++ c :: M2 ∧ k = n + (code P M1).length ∧ c.jump? = some lab := by
  induction M generalizing n with
  | nil => simp [jumpsE] at h
  | cons c M ih =>
    simp only [jumpsE, List.mem_append, List.mem_map, Option.mem_toList, Prod.mk.injEq] at h
    rcases h with ⟨l, h1, h2, h3⟩ | h
    · subst h3
      exact ⟨[], c, M, rfl, by simp [code, h2], h1⟩
    · obtain ⟨M1, d, M2, e1, e2, e3⟩ := ih (fun x hx => hj x (by simp [hx])) h
      exact ⟨c :: M1, d, M2, by simp [e1], by rw [e2, code_cons, List.length_append]; omega, e3⟩

theorem jumpsE_ge {P : Platform} {n : Nat} {M : List Cell} {k lab : Nat} (h : (k, lab) ∈ jumpsE P n M) : n ≤ k := by
  induction M generalizing n with
  | nil => simp [jumpsE] at h
  | cons c M ih =>
    simp only [jumpsE, List.mem_append, List.mem_map, Option.mem_toList, Prod.mk.injEq] at h
    rcases h with ⟨l, h1, h2, h3⟩ | h
    · omega
    · have := ih h; omega

theorem code_append (P : Platform) (L M : List Cell) : code P (L ++ M) = code P L ++ code P M := by simp [code]

theorem code_size {P : Platform} {M : List Cell} : ∀ i ∈ code P M, 2 ≤ i.size := by
  have hmk : ∀ n a loc, 2 ≤ (mkI P n a loc).size := fun n a loc => by simp only [mkI]; exact sizeFor_ge _ _
  intro i hi
  simp only [code, List.mem_flatMap] at hi
  obtain ⟨c, _, hi⟩ := hi
  unfold Cell.code at hi
  split at hi
  · rename_i j _
    simp only [block, List.mem_append, List.mem_replicate] at hi
    rcases hi with hi | ⟨_, rfl⟩
    · cases hc : c.enc <;> simp only [hc, mains, List.mem_cons, List.not_mem_nil, or_false] at hi
      · subst hi; exact hmk _ _ _
      · subst hi; exact hmk _ _ _
      · subst hi; exact hmk _ _ _
      · subst hi; exact hmk _ _ _
      · rcases hi with rfl | rfl <;> exact hmk _ _ _
    · exact hmk _ _ _
  · simp at hi

/-- A layout whose jump cells are in order is ready for jump resolution. -/
theorem ready_of_cells {P : Platform} {M : List Cell} (hj : ∀ c ∈ M, JumpCell P c) :
    Ready P (labelsOf P 0 [] M) (jumpsE P 0 M) (code P M) := by
  have hnd : ∀ n, ((jumpsE P n M).map (·.1)).Nodup := by
    induction M with
    | nil => intro n; simp [jumpsE]
    | cons c M ih =>
      intro n
      simp only [jumpsE, List.map_append, List.map_map]
      cases hc : c.jump? with
      | none => simpa using ih (fun x hx => hj x (by simp [hx])) _
      | some l =>
        obtain ⟨i, a, _, _, _, _, _, _, hcode⟩ := (hj c (by simp)).code hc
        simp only [Option.toList_some, List.map_cons, List.map_nil, Function.comp_apply, List.singleton_append, List.nodup_cons]
        refine ⟨?_, ih (fun x hx => hj x (by simp [hx])) _⟩
        intro hm
        obtain ⟨⟨k, lab⟩, hk, hkn⟩ := List.mem_map.1 hm
        have := jumpsE_ge hk
        rw [hcode] at this
        simp only [List.length_cons] at this
        simp only at hkn
        omega
  refine ⟨hnd 0, code_size, ?_, ?_, ?_⟩
  · intro k lab hk
    obtain ⟨M1, c, M2, rfl, rfl, hc⟩ := mem_jumpsE hj hk
    obtain ⟨i, a, h1, h2, h3, h4, h5, h6, h7⟩ := (hj c (by simp)).code hc
    refine ⟨mkI P i.name (some a) c.loc, ?_, h4, ?_⟩
    · rw [code_append, code_cons, h7]; simp
    · simp [mkI, h5, h6]
  · intro lab t ht
    obtain ⟨p, hp, rfl⟩ := lookup_mem ht
    rcases mem_labelsOf hp with h | h
    · simp at h
    · simpa using h.2
  · have key : ∀ (n : Nat) (ls : List (Nat × Nat)), (∀ p ∈ ls, p.2 ≤ n) → ∀ k lab, (k, lab) ∈ jumpsE P n M →
        ∀ p ∈ labelsOf P n ls M, ∀ ci, (code P M)[k - n]? = some ci → k < p.2 → k + 1 + ci.useCacheOpcodes P ≤ p.2 := by
      clear hnd
      induction M with
      | nil => intro n ls _ k lab hk; simp [jumpsE] at hk
      | cons c M ih =>
        intro n ls hls k lab hk p hp ci hci hlt
        simp only [jumpsE, List.mem_append, List.mem_map, Option.mem_toList, Prod.mk.injEq] at hk
        rcases hk with ⟨l, h1, rfl, rfl⟩ | hk
        · obtain ⟨i, a, g1, g2, g3, g4, g5, g6, g7⟩ := (hj c (by simp)).code h1
          have hlab : labelsOf P n ls (c :: M) = labelsOf P (n + (c.code P).length) ls M := by
            conv_lhs => unfold labelsOf
            rw [g1]
          rw [hlab] at hp
          rcases mem_labelsOf hp with h | h
          · have := hls p h; omega
          · rw [g7] at h
            rw [code_cons, g7] at hci
            simp only [Nat.sub_self, List.cons_append, List.getElem?_cons_zero, Option.some.injEq] at hci
            subst hci
            have : CInstr.useCacheOpcodes P (mkI P i.name (some a) c.loc) = nCaches P i.name := by
              unfold CInstr.useCacheOpcodes nCaches; rfl
            rw [this]
            simp only [List.length_cons, List.length_replicate] at h
            omega
        · have hge := jumpsE_ge hk
          have hrest : (code P M)[k - (n + (c.code P).length)]? = some ci := by
            rw [code_cons, List.getElem?_append_right (by omega)] at hci
            rw [show k - (n + (c.code P).length) = k - n - (c.code P).length by omega]; exact hci
          have hlab : ∃ ls', (∀ p ∈ ls', p.2 ≤ n + (c.code P).length) ∧ labelsOf P n ls (c :: M) = labelsOf P (n + (c.code P).length) ls' M := by
            cases he : c.e with
            | label l =>
              refine ⟨(l, n) :: ls, ?_, ?_⟩
              · intro q hq
                rcases List.mem_cons.1 hq with rfl | hq
                · simp
                · have := hls q hq; omega
              · conv_lhs => unfold labelsOf
                rw [he]; simp [Cell.code, he]
            | _ =>
              refine ⟨ls, fun q hq => by have := hls q hq; omega, ?_⟩
              conv_lhs => unfold labelsOf
              rw [he]
          obtain ⟨ls', hls', hlab⟩ := hlab
          rw [hlab] at hp
          exact ih (fun x hx => hj x (by simp [hx])) _ ls' hls' k lab hk p hp ci hrest hlt
    intro k lab t ci hk ht hci hlt
    obtain ⟨p, hp, rfl⟩ := lookup_mem ht
    exact key 0 [] (by simp) k lab hk p hp ci (by simpa using hci) hlt

/-- The instructions before jump resolution, as a final layout (with jump arguments 0). -/
theorem fixed_layout {P : Platform} {key : Arg → κ} {A : Attrs} {T : Tabs} {loc : Loc} {es : List BElem} {L : List Cell} (h : Lay P key A T loc es L)
    {st : Conv} (hT : st.tabs = T) (h1 : st.instrs = code P L) (h2 : st.cellInstrs = cellsOf P 0 L) (h3 : st.freeInstrs = freesOf P 0 L)
    {out : List CInstr} (hf : fixCells P A st = .ok out) :
    ∃ M, out = code P M ∧ FLay P key A T loc es M ∧ L.map (shape P) = M.map (shape P) ∧
      (∀ c ∈ M, ∀ l, c.jump? = some l → c.enc = .plain (.int (0 : Nat))) := by
  have hbL : ∀ c ∈ L, CellBuilt P c := by
    clear * - h
    induction es generalizing loc L with
    | nil => cases L with
      | nil => simp
      | cons c L => exact absurd h (by simp [Lay])
    | cons e es ih =>
      cases L with
      | nil => exact absurd h (by simp [Lay])
      | cons c L =>
        obtain ⟨a1, a2, a3, a4⟩ := h
        intro d hd
        rcases List.mem_cons.1 hd with rfl | hd
        · intro i hi; rw [a1] at hi; exact (a3 i hi).2.1
        · exact ih a4 d hd
  -- generic: a layout with the encodings rewritten
  let g1 : Enc → Enc := if P.py311 then Enc.fixC (fun k => (sharedIndexes T.varnames 0 A.cellvars).getD k 0) else Enc.fixC (fun k => k)
  let off := freeOffset P A T.varnames
  have hlen1 : ∀ c : Cell, ((c.mapEnc g1).code P).length = (c.code P).length := by
    intro c
    obtain ⟨e, l, enc⟩ := c
    refine code_length_enc (fun i _ => ?_)
    simp only [g1]
    split <;> cases enc <;> simp [Enc.fixC, mains, lastName]
  have hlen2 : ∀ c : Cell, ((c.mapEnc (Enc.fixF (· + off))).code P).length = (c.code P).length := by
    intro c
    obtain ⟨e, l, enc⟩ := c
    refine code_length_enc (fun i _ => ?_)
    cases enc <;> simp [Enc.fixF, mains, lastName]
  unfold fixCells at hf
  obtain ⟨o1, hA, hf⟩ : ∃ o1, (o1 = code P (L.map (Cell.mapEnc g1)) ∧ (∀ c ∈ L, CellBuilt P (c.mapEnc g1))) ∧
      List.foldlM (fun instrs index => do
        match instrs[index]? with
        | none => throw .indexError
        | some ci => setArgAt P instrs index (.int (ci.arg.getD 0 + freeOffset P A st.tabs.varnames : Nat))) o1 st.freeInstrs = (.ok out : Py (List CInstr)) := by
    simp only [g1]
    by_cases h11 : P.py311 = true
    · simp only [h11, if_true] at hf ⊢
      obtain ⟨o1, ho1, hf⟩ := except_bind_ok hf
      rw [h2, h1, hT] at ho1
      have := fix_cells (P := P) (sharedIndexes T.varnames 0 A.cellvars) L hbL [] o1 ho1
      exact ⟨o1, ⟨by simpa using this.1, this.2.1⟩, hf⟩
    · simp only [h11, Bool.false_eq_true, if_false] at hf ⊢
      obtain ⟨o1, ho1, hf⟩ := except_bind_ok hf
      simp only [pure, Except.pure, Except.ok.injEq] at ho1
      have hid : ∀ c : Cell, (c.mapEnc (Enc.fixC (fun k => k))).code P = c.code P := by
        intro c
        obtain ⟨e, l, enc⟩ := c
        cases e with
        | instr i => cases enc <;> simp [Cell.mapEnc, Enc.fixC, Cell.code, block, mains, lastName, CArg.toOpt]
        | _ => simp [Cell.code, Cell.mapEnc]
      refine ⟨o1, ⟨?_, fun c hc => ?_⟩, hf⟩
      · rw [← ho1, h1, code, code, List.flatMap_map]
        congr 1
        funext c
        exact (hid c).symm
      · intro i hi
        have := hbL c hc i hi
        obtain ⟨e, l, enc⟩ := c
        cases enc <;> simpa [Cell.mapEnc, Enc.fixC, mains, CArg.toOpt] using this
  have hB := fix_frees (P := P) off (L.map (Cell.mapEnc g1)) (by
      intro c hc
      obtain ⟨d, hd, rfl⟩ := List.mem_map.1 hc
      exact hA.2 d hd) [] out (by
    rw [h3, hA.1, hT] at hf
    rw [List.length_nil, freesOf_map (f := Cell.mapEnc g1) L (fun c _ => ⟨rfl, hlen1 c, ?_⟩)]
    · exact hf
    · simp only [g1, Cell.mapEnc]
      split <;> cases c.enc <;> simp [Enc.fixC])
  rw [List.nil_append] at hB
  let M := L.map (fun c => ((c.mapEnc g1).mapEnc (Enc.fixF (· + off))).mapEnc Enc.fixJ)
  have hJcode : ∀ c : Cell, (c.mapEnc Enc.fixJ).code P = c.code P := by
    intro c
    obtain ⟨e, l, enc⟩ := c
    cases e with
    | instr i => cases enc <;> simp [Cell.mapEnc, Enc.fixJ, Cell.code, block, mains, lastName, CArg.toOpt]
    | _ => simp [Cell.code, Cell.mapEnc]
  have hMcode : out = code P M := by
    rw [hB.1, List.map_map]
    simp only [M, code]
    rw [List.flatMap_map, List.flatMap_map]
    congr 1
    funext c
    rw [hJcode]; rfl
  have hbM : ∀ c ∈ L, CellBuilt P (((c.mapEnc g1).mapEnc (Enc.fixF (· + off))).mapEnc Enc.fixJ) := by
    intro c hc
    have hc2 := hB.2 (c.mapEnc g1) (List.mem_map.2 ⟨c, hc, rfl⟩)
    generalize (c.mapEnc g1).mapEnc (Enc.fixF (· + off)) = d at hc2
    intro i hi
    have hi2 : d.e = .instr i := hi
    have := hc2 i hi2
    obtain ⟨e, l, enc⟩ := d
    cases enc <;> simpa [Cell.mapEnc, Enc.fixJ, mains, CArg.toOpt] using this
  refine ⟨M, hMcode, ?_, ?_, ?_⟩
  · -- FLay
    simp only [M]
    clear hMcode M h1 h2 h3 hf hA hB
    induction es generalizing loc L with
    | nil => cases L with
      | nil => trivial
      | cons c L => exact absurd h (by simp [Lay])
    | cons e es ih =>
      cases L with
      | nil => exact absurd h (by simp [Lay])
      | cons c L =>
        obtain ⟨a1, a2, a3, a4⟩ := h
        refine ⟨a1, a2, ?_, ih a4 (fun x hx => hbL x (by simp [hx])) (fun x hx => hbM x (by simp [hx]))⟩
        intro i hi
        obtain ⟨b1, b2, b3⟩ := a3 i hi
        refine ⟨c.enc, b1, b3, ?_, fun ci hci => hbM c (by simp) i (a1.trans hi) ci hci⟩
        simp only [Cell.mapEnc, g1, off]
        by_cases h11 : P.py311 = true <;> cases hc : c.enc <;> simp [h11, FinEnc, Enc.fixC, Enc.fixF, Enc.fixJ]
        all_goals exact ⟨0, rfl⟩
  · simp only [M, List.map_map]
    apply List.map_congr_left
    intro c _
    simp only [shape, Function.comp_apply, hJcode, hlen2, hlen1]
    rfl
  · intro c hc l hl
    obtain ⟨d, hd, rfl⟩ := List.mem_map.1 hc
    have := h.jump_enc hd (l := l) hl
    simp only [Cell.mapEnc, g1, this]
    by_cases h11 : P.py311 = true <;> simp [h11, Enc.fixC, Enc.fixF, Enc.fixJ]

/-- A list that differs from a layout at jump instructions only is a layout. -/
theorem cells_of_same {P : Platform} {M : List Cell} (hj : ∀ c ∈ M, JumpCell P c) (js : List (Nat × Nat)) (n : Nat) (hjs : ∀ k lab, n ≤ k → ((k, lab) ∈ js ↔ (k, lab) ∈ jumpsE P n M))
    (out : List CInstr) (hlen : out.length = (code P M).length)
    (hoth : ∀ k, n + k ∉ js.map (·.1) → out[k]? = (code P M)[k]?)
    (hjmp : ∀ k i i', (code P M)[k]? = some i → out[k]? = some i' → n + k ∈ js.map (·.1) →
      Built P i' ∧ i'.name = i.name ∧ i'.loc = i.loc ∧ i'.arg.isSome) :
    ∃ M', out = code P M' ∧ M.map (shape P) = M'.map (shape P) ∧ M.map (·.loc) = M'.map (·.loc) ∧
      (∀ c' ∈ M', JumpCell P c') ∧
      ∀ (k : Nat) (c c' : Cell), M[k]? = some c → M'[k]? = some c' → (c.jump? = none → c'.enc = c.enc) ∧
        ((∃ l, c.jump? = some l) → ∃ a : Nat, c'.enc = .plain (.int a)) := by
  induction M generalizing n out with
  | nil =>
    have : out = [] := List.length_eq_zero_iff.1 hlen
    subst this
    exact ⟨[], rfl, rfl, rfl, by simp, by simp⟩
  | cons c M ih =>
    have hrec : ∀ (c' : Cell), (c'.code P).length = (c.code P).length → out.take (c.code P).length = c'.code P →
        ∃ M', out = code P (c' :: M') ∧ M.map (shape P) = M'.map (shape P) ∧ M.map (·.loc) = M'.map (·.loc) ∧
        (∀ c' ∈ M', JumpCell P c') ∧
        ∀ (k : Nat) (c c' : Cell), M[k]? = some c → M'[k]? = some c' → (c.jump? = none → c'.enc = c.enc) ∧
          ((∃ l, c.jump? = some l) → ∃ a : Nat, c'.enc = .plain (.int a)) := by
      intro c' hc' htake
      have hget : ∀ k, (out.drop (c.code P).length)[k]? = out[(c.code P).length + k]? := fun k => by rw [List.getElem?_drop]
      have hcode : ∀ k, (code P M)[k]? = (code P (c :: M))[(c.code P).length + k]? := fun k => by
        rw [code_cons, List.getElem?_append_right (by omega)]; congr 1; omega
      obtain ⟨M', e1, e2, e3, e4, e5⟩ := ih (fun x hx => hj x (by simp [hx])) (n + (c.code P).length) (by
          intro k lab hk
          rw [hjs k lab (by omega)]
          simp only [jumpsE, List.mem_append, List.mem_map, Option.mem_toList, Prod.mk.injEq]
          constructor
          · rintro (⟨l, h1, h2, h3⟩ | h)
            · exfalso
              obtain ⟨i, a, _, _, _, _, _, _, h7⟩ := (hj c (by simp)).code h1
              rw [h7] at hk; simp only [List.length_cons] at hk; omega
            · exact h
          · exact .inr) (out.drop (c.code P).length) (by
          rw [List.length_drop, hlen, code_cons, List.length_append]; omega) (by
          intro k hk
          rw [hget, hcode]
          exact hoth _ (by rw [show n + ((c.code P).length + k) = n + (c.code P).length + k by omega]; exact hk)) (by
          intro k i i' hi hi' hm
          rw [hget] at hi'
          rw [hcode] at hi
          exact hjmp _ i i' hi hi' (by rw [show n + ((c.code P).length + k) = n + (c.code P).length + k by omega]; exact hm))
      refine ⟨M', ?_, e2, e3, e4, e5⟩
      rw [code_cons, ← htake, ← e1, List.take_append_drop]
    cases hc : c.jump? with
    | none =>
      have htake : out.take (c.code P).length = c.code P := by
        apply List.ext_getElem?
        intro k
        rw [List.getElem?_take]
        split
        · rename_i hk
          rw [hoth k ?_, code_cons, List.getElem?_append_left hk]
          intro hm
          obtain ⟨⟨k', lab⟩, hk', he⟩ := List.mem_map.1 hm
          simp only at he; subst he
          rw [hjs _ lab (by omega)] at hk'
          simp only [jumpsE, hc, Option.toList_none, List.map_nil, List.nil_append] at hk'
          have := jumpsE_ge hk'
          omega
        · rename_i hk; rw [List.getElem?_eq_none (by omega)]
      obtain ⟨M', e1, e2, e3, e4, e5⟩ := hrec c rfl htake
      refine ⟨c :: M', e1, by simp [e2], by simp [e3], ?_, ?_⟩
      · intro d hd
        rcases List.mem_cons.1 hd with rfl | hd
        · exact hj _ (by simp)
        · exact e4 d hd
      · intro k x y hx hy
        cases k with
        | zero => simp only [List.getElem?_cons_zero, Option.some.injEq] at hx hy; subst hx hy; exact ⟨fun _ => rfl, fun ⟨l, hl⟩ => by rw [hc] at hl; cases hl⟩
        | succ k => exact e5 k x y (by simpa using hx) (by simpa using hy)
    | some l =>
      obtain ⟨i, a, h1, h2, h3, h4, h5, h6, h7⟩ := (hj c (by simp)).code hc
      have hmem : n ∈ js.map (·.1) := List.mem_map.2 ⟨(n, l), (hjs n l (Nat.le_refl _)).2 (by simp [jumpsE, hc]), rfl⟩
      have hlen0 : 0 < out.length := by rw [hlen, code_cons, h7]; simp
      obtain ⟨ci, hci⟩ : ∃ ci, out[0]? = some ci := ⟨_, List.getElem?_eq_getElem hlen0⟩
      obtain ⟨b1, b2, b3, b4⟩ := hjmp 0 (mkI P i.name (some a) c.loc) ci (by rw [code_cons, h7]; simp) hci (by simpa using hmem)
      obtain ⟨v, hv⟩ := Option.isSome_iff_exists.1 b4
      have hmk : ci = mkI P i.name (some v) c.loc := by
        have := built_eq b1 (loc := c.loc) b3
        rw [this, b2, hv]; rfl
      let c' : Cell := { c with enc := .plain (.int (v : Nat)) }
      have hcode' : c'.code P = mkI P i.name (some v) c.loc :: List.replicate (nCaches P i.name) (mkI P "CACHE" (some 0) c.loc) := by
        simp [c', Cell.code, h1, block, mains, lastName, CArg.toOpt]
      have hlen' : (c'.code P).length = (c.code P).length := by rw [hcode', h7]; simp
      have htake : out.take (c.code P).length = c'.code P := by
        apply List.ext_getElem?
        intro k
        rw [List.getElem?_take]
        split
        · rename_i hk
          cases k with
          | zero => rw [hci, hcode', hmk]; rfl
          | succ k =>
            rw [hoth (k + 1) ?_, code_cons, List.getElem?_append_left hk, h7, hcode']
            · simp
            · intro hm
              obtain ⟨⟨k', lab⟩, hk', he⟩ := List.mem_map.1 hm
              simp only at he; subst he
              rw [hjs _ lab (by omega)] at hk'
              simp only [jumpsE, hc, Option.toList_some, List.map_cons, List.map_nil, List.singleton_append, List.mem_cons, Prod.mk.injEq] at hk'
              rcases hk' with hk' | hk'
              · omega
              · have := jumpsE_ge hk'; omega
        · rename_i hk; rw [List.getElem?_eq_none (by omega)]
      obtain ⟨M', e1, e2, e3, e4, e5⟩ := hrec c' hlen' htake
      refine ⟨c' :: M', e1, ?_, ?_, ?_, ?_⟩
      · simp only [List.map_cons, e2, List.cons.injEq, and_true, shape, hlen']; rfl
      · simp only [List.map_cons, e3, List.cons.injEq, and_true]; rfl
      · intro d hd
        rcases List.mem_cons.1 hd with rfl | hd
        · intro j hj' _
          have : i = j := by
            have : c.e = .instr j := hj'
            rw [h1] at this; cases this; rfl
          subst this
          exact ⟨⟨v, rfl, by rw [← hmk]; exact b1⟩, h5, h6⟩
        · exact e4 d hd
      · intro k x y hx hy
        cases k with
        | zero =>
          simp only [List.getElem?_cons_zero, Option.some.injEq] at hx hy; subst hx hy
          exact ⟨fun hh => absurd (hc.symm.trans hh) (by simp), fun _ => ⟨v, rfl⟩⟩
        | succ k => exact e5 k x y (by simpa using hx) (by simpa using hy)

/-- Transfer of a final layout along a change of jump arguments. -/
theorem FLay.transfer {P : Platform} {key : Arg → κ} {A : Attrs} {T : Tabs} {loc : Loc} {es : List BElem} {M M' : List Cell}
    (h : FLay P key A T loc es M) (h1 : M.map (shape P) = M'.map (shape P)) (h2 : M.map (·.loc) = M'.map (·.loc))
    (h3 : ∀ c' ∈ M', JumpCell P c')
    (h4 : ∀ (k : Nat) (c c' : Cell), M[k]? = some c → M'[k]? = some c' → (c.jump? = none → c'.enc = c.enc) ∧
        ((∃ l, c.jump? = some l) → ∃ a : Nat, c'.enc = .plain (.int a))) : FLay P key A T loc es M' := by
  induction es generalizing loc M M' with
  | nil => cases M with
    | nil => cases M' with
      | nil => trivial
      | cons => simp at h1
    | cons c L => exact absurd h (by simp [FLay])
  | cons e es ih =>
    cases M with
    | nil => exact absurd h (by simp [FLay])
    | cons c M =>
      cases M' with
      | nil => simp at h1
      | cons c' M' =>
        obtain ⟨a1, a2, a3, a4⟩ := h
        simp only [List.map_cons, List.cons.injEq, shape, Prod.mk.injEq] at h1 h2
        obtain ⟨⟨g1, g2⟩, g3⟩ := h1
        obtain ⟨l1, l2⟩ := h2
        refine ⟨g1 ▸ a1, l1 ▸ a2, ?_, ih a4 g3 l2 (fun x hx => h3 x (by simp [hx])) (fun k x y hx hy => h4 (k + 1) x y (by simpa using hx) (by simpa using hy))⟩
        intro i hi
        obtain ⟨enc0, b1, b2, b3, b4⟩ := a3 i hi
        obtain ⟨k1, k2⟩ := h4 0 c c' rfl rfl
        refine ⟨enc0, b1, b2, ?_, ?_⟩
        · cases hc : c.jump? with
          | none => rw [k1 hc]; exact b3
          | some l =>
            have : i.arg = .label l := by
              unfold Cell.jump? at hc
              rw [a1, hi] at hc
              simp only at hc
              split at hc
              · cases hc; assumption
              · cases hc
            have := (encode_jump b1 l).2 this
            subst this
            exact k2 ⟨l, hc⟩
        · cases hc : c.jump? with
          | none => rw [k1 hc, ← l1]; exact b4
          | some l =>
            have hc' : c'.jump? = some l := by unfold Cell.jump? at hc ⊢; rw [← g1]; exact hc
            obtain ⟨i', a, e1, e2, e3, e4, e5, e6, e7⟩ := (h3 c' (by simp)).code hc'
            have : i' = i := by rw [← g1, a1, hi] at e1; cases e1; rfl
            subst this
            rw [e3]
            simpa [mains, CArg.toOpt] using e4

theorem FLay.mem {P : Platform} {key : Arg → κ} {A : Attrs} {T : Tabs} {loc : Loc} {es : List BElem} {M : List Cell}
    (h : FLay P key A T loc es M) {c : Cell} (hc : c ∈ M) : c.e ∈ es ∧ ∀ i, c.e = .instr i → ∃ enc0, encodeOperand P key A T i = .ok (T, enc0) ∧
      (∀ a, enc0 = .plain a → a = .ofOpt a.toOpt) ∧ FinEnc P A T enc0 c.enc ∧ (∀ ci ∈ mains P i.name c.loc c.enc, Built P ci) := by
  induction es generalizing loc M with
  | nil => cases M with
    | nil => simp at hc
    | cons c L => exact absurd h (by simp [FLay])
  | cons e es ih =>
    cases M with
    | nil => exact absurd h (by simp [FLay])
    | cons d M =>
      obtain ⟨a1, a2, a3, a4⟩ := h
      rcases List.mem_cons.1 hc with rfl | hc
      · refine ⟨by simp [a1], fun i hi => a3 i (a1.symm.trans hi)⟩
      · obtain ⟨x, y⟩ := ih a4 hc
        exact ⟨by simp [x], y⟩

theorem FLay.elems {P : Platform} {key : Arg → κ} {A : Attrs} {T : Tabs} {loc : Loc} {es : List BElem} {M : List Cell}
    (h : FLay P key A T loc es M) : M.map (·.e) = es := by
  induction es generalizing loc M with
  | nil => cases M with
    | nil => rfl
    | cons c L => exact absurd h (by simp [FLay])
  | cons e es ih =>
    cases M with
    | nil => exact absurd h (by simp [FLay])
    | cons d M => obtain ⟨a1, a2, a3, a4⟩ := h; simp [a1, ih a4]

/-- A label argument means a jump opcode. -/
theorem valid_label {P : Platform} {i : Instr} (hv : ValidInstr P i) {l : Nat} (h : i.arg = .label l) : P.hasJump i.opcode = true := by
  have ho := hv.arg_ok
  have hA : P.hasArg i.opcode = true := ho.present.2 (by simp [h])
  cases hj : P.hasJump i.opcode with
  | true => rfl
  | false =>
    exfalso
    cases hf : P.hasfree i.opcode with
    | true => have := ho.free hf; simp [h] at this
    | false =>
    cases hb : P.bitflag i.opcode with
    | true => have := ho.flag hb; simp [h] at this
    | false =>
    cases hb2 : P.bitflag2 i.opcode with
    | true => have := ho.flag2 hb2; simp [h] at this
    | false =>
    cases hd : P.dual i.opcode with
    | true => have := ho.dual hd; simp [h] at this
    | false =>
    cases hl : P.haslocal i.opcode with
    | true => have := ho.local_ hl hd; simp [h] at this
    | false =>
    cases hn : P.hasname i.opcode with
    | true => have := ho.name hn hb hb2; simp [h] at this
    | false =>
    cases hc : P.hasconst i.opcode with
    | true => have := (ho.const hc).1 l; simp [h] at this
    | false =>
    cases hcm : P.hascompare i.opcode with
    | true => have := ho.compare hcm; simp [h] at this
    | false =>
    cases h1 : P.intrinsic1 i.opcode with
    | true => have := ho.intr1 h1; simp [h] at this
    | false =>
    cases h2 : P.intrinsic2 i.opcode with
    | true => have := ho.intr2 h2; simp [h] at this
    | false =>
      obtain ⟨v, hv, _⟩ := ho.int (by simp [hj, hf, hl, hn, hc, hcm, h1, h2]) hA
      simp [h, Arg.asInt] at hv

theorem FLay.jumpCells {P : Platform} {key : Arg → κ} {A : Attrs} {T : Tabs} {loc : Loc} {es : List BElem} {M : List Cell}
    (h : FLay P key A T loc es M) (hv : ∀ i, .instr i ∈ es → ValidInstr P i) : ∀ c ∈ M, JumpCell P c := by
  intro c hc i hi ⟨l, hl⟩
  obtain ⟨h1, h2⟩ := h.mem hc
  rw [hi] at h1
  obtain ⟨enc0, b1, b2, b3, b4⟩ := h2 i hi
  have := (encode_jump b1 l).2 hl
  subst this
  obtain ⟨a, ha⟩ := b3
  refine ⟨⟨a, ha, ?_⟩, (hv i h1).name_op, valid_label (hv i h1) hl⟩
  rw [ha] at b4
  simpa [mains, CArg.toOpt] using b4

/-- The converter before jump resolution. -/
theorem concreteInstructions_layout {P : Platform} (hP : P.WF) {key : Arg → κ} {b : Bytecode} {st : Conv} (hcache : ∀ e ∈ b.elems, e.isCache = false)
    (h : concreteInstructions P key b = .ok st) :
    (iterElems false b.elems).2 = .ok () ∧ (Conv.init b.attrs b.argnames (Loc.line (some b.attrs.firstLineno))).tabs.Le st.tabs ∧
    ∃ M, FLay P key b.attrs st.tabs (Loc.line (some b.attrs.firstLineno)) b.elems M ∧ st.instrs = code P M ∧ st.labels = labelsOf P 0 [] M ∧
      st.jumps = jumpsE P 0 M ∧ st.blocks = blocksOf P 0 [] M ∧ (∀ c ∈ M, ∀ l, c.jump? = some l → c.enc = .plain (.int (0 : Nat))) := by
  unfold concreteInstructions at h
  obtain ⟨loc, hloc, h⟩ := except_bind_ok h
  obtain ⟨u, hit, h⟩ := except_bind_ok h
  obtain ⟨vs, hvs, h⟩ := except_bind_ok h
  obtain ⟨s1, hs1, h⟩ := except_bind_ok h
  obtain ⟨s2, hs2, h⟩ := except_bind_ok h
  obtain ⟨out, hout, h⟩ := except_bind_ok h
  simp only [pure, Except.pure, Except.ok.injEq] at h
  subst h
  have hl : loc = Loc.line (some b.attrs.firstLineno) := by
    have := (Loc.make_line hloc).1
    simpa using this
  subst hl
  obtain ⟨hle, L, hL, e1, e2, e3, e4, e5, e6⟩ := conv_lay hP b.elems hcache vs _ s1 s2 hs1 hs2
  obtain ⟨M, f1, f2, f3, f4⟩ := fixed_layout hL rfl e1 e3 e4 hout
  have hpre : b.argnames <+: vs := by
    unfold prepass at hvs
    split at hvs
    · clear * - hvs
      generalize b.argnames = a at hvs
      generalize b.elems = es at hvs
      induction es generalizing a with
      | nil => simp only [List.foldlM_nil, pure, Except.pure, Except.ok.injEq] at hvs; subst hvs; exact List.prefix_refl _
      | cons e es ih =>
        rw [List.foldlM_cons] at hvs
        obtain ⟨x, hx, hvs⟩ := except_bind_ok hvs
        refine List.IsPrefix.trans ?_ (ih x hvs)
        unfold prepassElem at hx
        split at hx
        · split at hx
          · split at hx
            · rename_i l hl0
              clear hvs ih hl0
              induction l generalizing a with
              | nil => simp only [List.foldlM_nil, pure, Except.pure, Except.ok.injEq] at hx; subst hx; exact List.prefix_refl _
              | cons y l ih2 =>
                rw [List.foldlM_cons] at hx
                obtain ⟨z, hz, hx⟩ := except_bind_ok hx
                split at hz
                · simp only [Except.ok.injEq] at hz; subst hz
                  exact (addTo_prefix _ _).trans (ih2 _ hx)
                · simp at hz
            · simp at hx
          · simp only [Except.ok.injEq] at hx; subst hx; exact List.prefix_refl _
        · simp only [Except.ok.injEq] at hx; subst hx; exact List.prefix_refl _
    · simp only [Except.ok.injEq] at hvs; subst hvs; exact List.prefix_refl _
  refine ⟨hit, ⟨hle.consts, hle.names, hpre.trans hle.varnames⟩, M, f2, f1, ?_, ?_, ?_, f4⟩
  · rw [e5]; exact labelsOf_shape f3 _ _
  · rw [e2, hL.jumps]; exact jumpsE_shape f3 _
  · rw [e6]; exact blocksOf_shape f3 _ _

/-- The result of the converter. -/
theorem toConcrete_final' {P : Platform} (hP : P.WF) {key : Arg → κ} {b : Bytecode} {c : Concrete} {passes : Nat}
    (hcache : ∀ e ∈ b.elems, e.isCache = false) (hv : ∀ i, .instr i ∈ b.elems → ValidInstr P i)
    (h : toConcrete P key passes b = .ok c) :
    (iterElems false b.elems).2 = .ok () ∧ ∃ T M, (Conv.init b.attrs b.argnames (Loc.line (some b.attrs.firstLineno))).tabs.Le T ∧
      FLay P key b.attrs T (Loc.line (some b.attrs.firstLineno)) b.elems M ∧ (∀ c ∈ M, JumpCell P c) ∧
      c.attrs = b.attrs ∧ c.consts = T.consts ∧ c.names = T.names ∧ c.varnames = T.varnames ∧
      c.elems = (code P M).map .instr ∧ Ready P (labelsOf P 0 [] M) (jumpsE P 0 M) (code P M) ∧
      Consistent P (labelsOf P 0 [] M) (jumpsE P 0 M) (code P M) ∧
      (blocksOf P 0 [] M).mapM (resolveEntry P (labelsOf P 0 [] M) (code P M)) = .ok c.excTable ∧
      ∃ st, concreteInstructions P key b = .ok st ∧ st.labels = labelsOf P 0 [] M ∧ st.jumps = jumpsE P 0 M ∧
        jumpLoop P st.labels st.jumps passes st.instrs = .ok (code P M) := by
  unfold toConcrete at h
  obtain ⟨st, hst, h⟩ := except_bind_ok h
  obtain ⟨out, hout, h⟩ := except_bind_ok h
  obtain ⟨tab, htab, h⟩ := except_bind_ok h
  simp only [pure, Except.pure, Except.ok.injEq] at h
  subst h
  obtain ⟨g0, g1, M, g2, g3, g4, g5, g6, g7⟩ := concreteInstructions_layout hP hcache hst
  have hj := g2.jumpCells hv
  have hr := ready_of_cells hj
  have hout0 := hout
  rw [g3, g4, g5] at hout
  obtain ⟨hr', hss, hcons⟩ := loop_consistent hP passes _ _ hr hout
  obtain ⟨M', k1, k2, k3, k4, k5⟩ := cells_of_same hj (jumpsE P 0 M) 0 (fun _ _ _ => Iff.rfl) out hss.1 (by
      intro k hk
      rw [Nat.zero_add] at hk
      by_cases hl : k < (code P M).length
      · have e1 : (code P M)[k]? = some (code P M)[k] := List.getElem?_eq_getElem hl
        have e2 : out[k]? = some (out[k]'(by rw [hss.1]; exact hl)) := List.getElem?_eq_getElem _
        rw [e1, e2, (hss.2 k _ _ e1 e2).1 hk]
      · rw [List.getElem?_eq_none (by rw [hss.1]; omega), List.getElem?_eq_none (by omega)]) (by
      intro k i i' hi hi' hm
      rw [Nat.zero_add] at hm
      obtain ⟨⟨k', lab⟩, hk, rfl⟩ := List.mem_map.1 hm
      obtain ⟨ci, hci, hjci⟩ := hr'.jump k' lab hk
      simp only at hi hi'
      rw [hci] at hi'; cases hi'
      obtain ⟨_, a2, a3, a4, _⟩ := hss.2 k' i _ hi hci
      refine ⟨hjci.built, a2, a4, hjci.built.has (hasJump_arg hP hjci.built.name_op hjci.built.base hjci.jump)⟩)
  have hl := labelsOf_shape k2 0 []
  have hjs := jumpsE_shape k2 0
  have hbs := blocksOf_shape k2 0 []
  refine ⟨g0, st.tabs, M', g1, g2.transfer k2 k3 k4 k5, k4, rfl, rfl, rfl, rfl, by rw [k1], ?_, ?_, ?_, st, hst, g4.trans hl, g5.trans hjs, by rw [← k1]; exact hout0⟩
  · rw [← k1, ← hl, ← hjs]; exact hr'
  · rw [← k1, ← hl, ← hjs]; exact hcons
  · rw [← k1, ← hl, ← hbs, ← g6, ← g4]; exact htab

theorem toConcrete_final {P : Platform} (hP : P.WF) {key : Arg → κ} {b : Bytecode} {c : Concrete} {passes : Nat}
    (hcache : ∀ e ∈ b.elems, e.isCache = false) (hv : ∀ i, .instr i ∈ b.elems → ValidInstr P i)
    (h : toConcrete P key passes b = .ok c) :
    (iterElems false b.elems).2 = .ok () ∧ ∃ T M, (Conv.init b.attrs b.argnames (Loc.line (some b.attrs.firstLineno))).tabs.Le T ∧
      FLay P key b.attrs T (Loc.line (some b.attrs.firstLineno)) b.elems M ∧ (∀ c ∈ M, JumpCell P c) ∧
      c.attrs = b.attrs ∧ c.consts = T.consts ∧ c.names = T.names ∧ c.varnames = T.varnames ∧
      c.elems = (code P M).map .instr ∧ Ready P (labelsOf P 0 [] M) (jumpsE P 0 M) (code P M) ∧
      Consistent P (labelsOf P 0 [] M) (jumpsE P 0 M) (code P M) ∧
      (blocksOf P 0 [] M).mapM (resolveEntry P (labelsOf P 0 [] M) (code P M)) = .ok c.excTable := by
  obtain ⟨h0, T, M, h1, h2, h3, h4, h5, h6, h7, h8, h9, h10, h11, _⟩ := toConcrete_final' hP hcache hv h
  exact ⟨h0, T, M, h1, h2, h3, h4, h5, h6, h7, h8, h9, h10, h11⟩
end
end Verif
