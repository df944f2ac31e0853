import Verif.Proofs.Layout
/-
The post-passes of the converter on a layout: cell and free variable indexes, jump arguments.
-/
namespace Verif
open Spec

theorem mkI_arg (P : Platform) (n : String) (a : Option Nat) (loc : Loc) : (mkI P n a loc).arg = a := rfl
theorem mkI_name (P : Platform) (n : String) (a : Option Nat) (loc : Loc) : (mkI P n a loc).name = n := rfl

theorem mkI_set {P : Platform} {n : String} {a : Option Nat} {loc : Loc} {v : Int} {ci : CInstr} {r : Py Unit}
    (hb : Built P (mkI P n a loc)) (h : (mkI P n a loc).set_ P (some n) (.int v) = (ci, r)) (hr : r = .ok ()) :
    ci = mkI P n (some v.toNat) loc ∧ Built P ci ∧ 0 ≤ v ∧ v ≤ 2147483647 := by
  have hop : P.opmap n = some (mkI P n a loc).opcode := hb.name_op
  have hbase := hb.base
  subst hr
  unfold CInstr.set_ at h
  cases hl : lookupName P (some n) with
  | error e => rw [hl] at h; simp at h
  | ok p =>
    obtain ⟨n', op⟩ := p
    obtain ⟨h1, h2, h3⟩ := lookupName_ok hl
    simp only [Option.some.injEq] at h1; subst h1
    rw [hl] at h
    simp only at h
    cases hc : CInstr.checkArg P op (.int v) with
    | error e => rw [hc] at h; simp at h
    | ok a' =>
      rw [hc] at h
      simp only [Prod.mk.injEq, and_true] at h
      obtain ⟨g1, g2, g3⟩ := checkArg_ok hc
      have hav : a' = some v.toNat ∧ 0 ≤ v ∧ v ≤ 2147483647 := by
        unfold CInstr.checkArg checkArgInt at hc
        simp only at hc
        split at hc
        · split at hc
          · rename_i hh; simp only [Except.map, Except.ok.injEq] at hc; exact ⟨hc.symm, hh⟩
          · simp [Except.map] at hc
        · split at hc
          · split at hc
            · rename_i hh; simp only [Except.map, Except.ok.injEq] at hc; exact ⟨hc.symm, hh⟩
            · simp [Except.map] at hc
          · simp at hc
      obtain ⟨rfl, hv⟩ := hav
      subst h
      refine ⟨?_, ⟨h2, h3, g1, g2, g3, rfl, by simp [computeSize_eq, mkI]⟩, hv⟩
      simp [mkI, h2, computeSize_eq]

/-- Sufficient condition for the assignment of an argument. -/
theorem mkI_set_ok {P : Platform} {n : String} {a : Option Nat} {loc : Loc} {v : Nat}
    (hb : Built P (mkI P n a loc)) (ha : a.isSome) (hv : v ≤ 2147483647) :
    (mkI P n a loc).set_ P (some n) (.int v) = (mkI P n (some v) loc, .ok ()) := by
  have hop : P.opmap n = some (mkI P n a loc).opcode := hb.name_op
  have hbase := hb.base
  obtain ⟨op, ho⟩ : ∃ op, P.opmap n = some op := ⟨_, hop⟩
  have he : (mkI P n a loc).opcode = op := by rw [hop] at ho; simpa using ho
  unfold CInstr.set_ lookupName
  rw [he] at hbase
  simp only [ho, if_neg (Nat.not_le.2 hbase)]
  have hc : CInstr.checkArg P op (.int v) = .ok (some v) := by
    unfold CInstr.checkArg
    simp only [checkArgInt_of hv]
    split
    · rfl
    · split
      · rfl
      · rename_i h1 h2
        have := hb.hasnt (by rw [he]; simpa using h1) (by rw [he]; exact h2)
        simp [mkI] at this; subst this; simp at ha
  rw [hc]
  simp [mkI, ho, computeSize_eq]

theorem mkI_set_fail {P : Platform} {n : String} {a : Option Nat} {loc : Loc} {v : Int}
    (hb : Built P (mkI P n a loc)) (ha : a.isSome) (hv : ¬ (0 ≤ v ∧ v ≤ 2147483647)) :
    ∃ s, (mkI P n a loc).set_ P (some n) (.int v) = (s, .error .valueError) := by
  have hop : P.opmap n = some (mkI P n a loc).opcode := hb.name_op
  have hbase := hb.base
  obtain ⟨op, ho⟩ : ∃ op, P.opmap n = some op := ⟨_, hop⟩
  have he : (mkI P n a loc).opcode = op := by rw [hop] at ho; simpa using ho
  unfold CInstr.set_ lookupName
  rw [he] at hbase
  simp only [ho, if_neg (Nat.not_le.2 hbase)]
  have hc : CInstr.checkArg P op (.int v) = .error .valueError := by
    unfold CInstr.checkArg checkArgInt
    simp only [if_neg hv]
    split
    · rfl
    · split <;> rfl
  rw [hc]
  exact ⟨_, rfl⟩

/-! ### Rewriting encodings without changing the shape -/

/-- Number of instructions of a cell. -/
theorem code_length_enc {P : Platform} {e : BElem} {l l' : Loc} {enc enc' : Enc}
    (h : ∀ i, e = .instr i → (mains P i.name l enc).length = (mains P i.name l' enc').length ∧ lastName i.name enc = lastName i.name enc') :
    ((⟨e, l, enc⟩ : Cell).code P).length = ((⟨e, l', enc'⟩ : Cell).code P).length := by
  cases e with
  | instr i =>
    obtain ⟨h1, h2⟩ := h i rfl
    simp [Cell.code, block, h1, h2]
  | _ => simp [Cell.code]

/-- The encodings with one main instruction are interchangeable as to shape. -/
def Enc.single : Enc → Bool
  | .split .. => false
  | _ => true

theorem code_length_single {P : Platform} (c : Cell) (enc : Enc) (h1 : c.enc.single = true) (h2 : enc.single = true) :
    (({ c with enc := enc } : Cell).code P).length = (c.code P).length := by
  obtain ⟨e, l, enc0⟩ := c
  refine code_length_enc (fun i _ => ?_)
  cases enc <;> cases enc0 <;> simp_all [mains, lastName, Enc.single]

/-- Main instructions are built. -/
def CellBuilt (P : Platform) (c : Cell) : Prop :=
  ∀ i, c.e = .instr i → ∀ ci ∈ mains P i.name c.loc c.enc, Built P ci

/-- Replace a cell encoding by its final index. -/
def Enc.fixC (f : Nat → Nat) : Enc → Enc
  | .cell k => .plain (.int (f k : Nat))
  | e => e
def Enc.fixF (f : Nat → Nat) : Enc → Enc
  | .free k => .plain (.int (f k : Nat))
  | e => e
/-- The instruction as emitted before jump resolution. -/
def Enc.fixJ : Enc → Enc
  | .jump _ => .plain (.int 0)
  | e => e
def Cell.mapEnc (f : Enc → Enc) (c : Cell) : Cell := { c with enc := f c.enc }

theorem set_head {α : Type} (pre : List α) (x y : α) (l : List α) : (pre ++ x :: l).set pre.length y = pre ++ y :: l := by
  simp

theorem get_head {α : Type} (pre : List α) (x : α) (l : List α) : (pre ++ x :: l)[pre.length]? = some x := by
  simp

/-- The post-pass over the cell instructions. -/
theorem fix_cells {P : Platform} (shared : List Nat) (L : List Cell) (hb : ∀ c ∈ L, CellBuilt P c) (pre out : List CInstr)
    (h : (cellsOf P pre.length L).foldlM (fun instrs index => do
        match instrs[index]? with
        | none => throw .indexError
        | some ci =>
          match shared[ci.arg.getD 0]? with
          | none => throw .keyError
          | some (k : Nat) => setArgAt P instrs index (.int (k : Int))) (pre ++ code P L) = (.ok out : Py (List CInstr))) :
    out = pre ++ code P (L.map (Cell.mapEnc (Enc.fixC (fun k => shared.getD k 0)))) ∧
    (∀ c ∈ L, CellBuilt P (c.mapEnc (Enc.fixC (fun k => shared.getD k 0)))) ∧
    (∀ c ∈ L, ∀ i k, c.e = .instr i → c.enc = .cell k → k < shared.length) := by
  induction L generalizing pre with
  | nil =>
    simp only [cellsOf, List.foldlM_nil, pure, Except.pure, Except.ok.injEq] at h
    simp [← h, code]
  | cons c L ih =>
    have hrest : ∀ (out1 : List CInstr) (c' : Cell), (c'.code P).length = (c.code P).length →
        (cellsOf P (pre.length + (c.code P).length) L).foldlM (fun instrs index => do
        match instrs[index]? with
        | none => throw .indexError
        | some ci =>
          match shared[ci.arg.getD 0]? with
          | none => throw .keyError
          | some (k : Nat) => setArgAt P instrs index (.int (k : Int))) (pre ++ (c'.code P ++ code P L)) = (.ok out : Py (List CInstr)) →
        out = pre ++ (c'.code P ++ code P (L.map (Cell.mapEnc (Enc.fixC (fun k => shared.getD k 0))))) ∧
        (∀ c ∈ L, CellBuilt P (c.mapEnc (Enc.fixC (fun k => shared.getD k 0)))) ∧
        (∀ c ∈ L, ∀ i k, c.e = .instr i → c.enc = .cell k → k < shared.length) := by
      intro _ c' hlen hh
      have := ih (fun x hx => hb x (by simp [hx])) (pre ++ c'.code P) (by simpa [hlen] using hh)
      simpa using this
    by_cases hcell : ∃ i k, c.e = .instr i ∧ c.enc = .cell k
    · obtain ⟨i, k, he, hk⟩ := hcell
      rw [show cellsOf P pre.length (c :: L) = pre.length :: cellsOf P (pre.length + (c.code P).length) L by
        simp [cellsOf, he, hk], List.foldlM_cons] at h
      obtain ⟨x, hx, h⟩ := except_bind_ok h
      have hbi := hb c (by simp) i he
      rw [hk] at hbi
      simp only [mains, List.mem_singleton, forall_eq] at hbi
      have hcode : c.code P = mkI P i.name (some k) c.loc :: List.replicate (nCaches P i.name) (mkI P "CACHE" (some 0) c.loc) := by
        simp [Cell.code, he, block, mains, hk, lastName]
      rw [code_cons, hcode, List.cons_append, get_head] at hx
      simp only [mkI_arg, Option.getD_some] at hx
      cases hs : shared[k]? with
      | none => rw [hs] at hx; simp [throw, throwThe, MonadExceptOf.throw] at hx
      | some m =>
        rw [hs] at hx
        simp only [setArgAt] at hx
        rw [get_head] at hx
        simp only at hx
        cases hset : (mkI P i.name (some k) c.loc).set_ P (some i.name) (.int (m : Int)) with
        | mk ci' r =>
          simp only [mkI_name] at hx
          rw [hset] at hx
          obtain ⟨u, hu, hx⟩ := except_bind_ok hx
          simp only [pure, Except.pure, Except.ok.injEq] at hx
          obtain ⟨hci, hbt, _⟩ := mkI_set hbi hset hu
          rw [set_head, hci] at hx
          simp only [Int.toNat_natCast] at hx
          have hgd : shared.getD k 0 = m := by simp [List.getD, hs]
          have hc' : (c.mapEnc (Enc.fixC (fun k => shared.getD k 0))).code P = mkI P i.name (some m) c.loc ::
              List.replicate (nCaches P i.name) (mkI P "CACHE" (some 0) c.loc) := by
            simp only [Cell.mapEnc, hk, Enc.fixC, Cell.code, he, block, mains, lastName, CArg.toOpt, hgd, Int.toNat_natCast]; rfl
          have := hrest out (c.mapEnc (Enc.fixC (fun k => shared.getD k 0))) (by rw [hc', hcode]; simp) (by
            rw [hc', List.cons_append, hx]; exact h)
          refine ⟨?_, ?_, ?_⟩
          · rw [this.1, List.map_cons, code_cons]
          · intro x hx
            rcases List.mem_cons.1 hx with rfl | hx
            · intro j hj
              simp only [Cell.mapEnc] at hj
              rw [he] at hj; cases hj
              simp only [Cell.mapEnc, hk, Enc.fixC, mains, List.mem_singleton, forall_eq, CArg.toOpt, hgd, Int.toNat_natCast]
              rw [hci] at hbt; simpa using hbt
            · exact this.2.1 x hx
          · intro x hx j k' hj hk'
            rcases List.mem_cons.1 hx with rfl | hx
            · rw [hk] at hk'; cases hk'
              exact (List.getElem?_eq_some_iff.1 hs).1
            · exact this.2.2 x hx j k' hj hk'
    · have hmap : (c.mapEnc (Enc.fixC (fun k => shared.getD k 0))).code P = c.code P ∧
          CellBuilt P (c.mapEnc (Enc.fixC (fun k => shared.getD k 0))) := by
        obtain ⟨e, l, enc⟩ := c
        have hb0 := hb ⟨e, l, enc⟩ (by simp)
        cases e with
        | instr i =>
          cases enc with
          | cell k => exact absurd ⟨i, k, rfl, rfl⟩ hcell
          | _ => exact ⟨rfl, hb0⟩
        | _ => exact ⟨by simp [Cell.code, Cell.mapEnc], by intro i hi; simp [Cell.mapEnc] at hi⟩
      rw [show cellsOf P pre.length (c :: L) = cellsOf P (pre.length + (c.code P).length) L by
        obtain ⟨e, l, enc⟩ := c
        cases e with
        | instr i =>
          cases enc with
          | cell k => exact absurd ⟨i, k, rfl, rfl⟩ hcell
          | _ => simp [cellsOf]
        | _ => simp [cellsOf], code_cons] at h
      have := hrest out c rfl h
      refine ⟨?_, ?_, ?_⟩
      · rw [this.1, List.map_cons, code_cons, hmap.1]
      · intro x hx
        rcases List.mem_cons.1 hx with rfl | hx
        · exact hmap.2
        · exact this.2.1 x hx
      · intro x hx j k' hj hk'
        rcases List.mem_cons.1 hx with rfl | hx
        · exact absurd ⟨j, k', hj, hk'⟩ hcell
        · exact this.2.2 x hx j k' hj hk'

/-- The post-pass over the free variable instructions. -/
theorem fix_frees {P : Platform} (off : Nat) (L : List Cell) (hb : ∀ c ∈ L, CellBuilt P c) (pre out : List CInstr)
    (h : (freesOf P pre.length L).foldlM (fun instrs index => do
        match instrs[index]? with
        | none => throw .indexError
        | some ci => setArgAt P instrs index (.int (ci.arg.getD 0 + off : Nat))) (pre ++ code P L) = (.ok out : Py (List CInstr))) :
    out = pre ++ code P (L.map (Cell.mapEnc (Enc.fixF (· + off)))) ∧
    (∀ c ∈ L, CellBuilt P (c.mapEnc (Enc.fixF (· + off)))) := by
  induction L generalizing pre with
  | nil =>
    simp only [freesOf, List.foldlM_nil, pure, Except.pure, Except.ok.injEq] at h
    simp [← h, code]
  | cons c L ih =>
    have hrest : ∀ (c' : Cell), (c'.code P).length = (c.code P).length →
        (freesOf P (pre.length + (c.code P).length) L).foldlM (fun instrs index => do
        match instrs[index]? with
        | none => throw .indexError
        | some ci => setArgAt P instrs index (.int (ci.arg.getD 0 + off : Nat))) (pre ++ (c'.code P ++ code P L)) = (.ok out : Py (List CInstr)) →
        out = pre ++ (c'.code P ++ code P (L.map (Cell.mapEnc (Enc.fixF (· + off))))) ∧
        (∀ c ∈ L, CellBuilt P (c.mapEnc (Enc.fixF (· + off)))) := by
      intro c' hlen hh
      have := ih (fun x hx => hb x (by simp [hx])) (pre ++ c'.code P) (by simpa [hlen] using hh)
      simpa using this
    by_cases hcell : ∃ i k, c.e = .instr i ∧ c.enc = .free k
    · obtain ⟨i, k, he, hk⟩ := hcell
      rw [show freesOf P pre.length (c :: L) = pre.length :: freesOf P (pre.length + (c.code P).length) L by
        simp [freesOf, he, hk], List.foldlM_cons] at h
      obtain ⟨x, hx, h⟩ := except_bind_ok h
      have hbi := hb c (by simp) i he
      rw [hk] at hbi
      simp only [mains, List.mem_singleton, forall_eq] at hbi
      have hcode : c.code P = mkI P i.name (some k) c.loc :: List.replicate (nCaches P i.name) (mkI P "CACHE" (some 0) c.loc) := by
        simp [Cell.code, he, block, mains, hk, lastName]
      rw [code_cons, hcode, List.cons_append, get_head] at hx
      simp only [setArgAt] at hx
      rw [get_head] at hx
      simp only at hx
      cases hset : (mkI P i.name (some k) c.loc).set_ P (some i.name) (.int ((k + off : Nat) : Int)) with
      | mk ci' r =>
        simp only [mkI_name, mkI_arg, Option.getD_some] at hx
        rw [hset] at hx
        obtain ⟨u, hu, hx⟩ := except_bind_ok hx
        simp only [pure, Except.pure, Except.ok.injEq] at hx
        obtain ⟨hci, hbt, _⟩ := mkI_set hbi hset hu
        rw [set_head, hci] at hx
        simp only [Int.toNat_natCast] at hx
        have hc' : (c.mapEnc (Enc.fixF (· + off))).code P = mkI P i.name (some (k + off)) c.loc ::
            List.replicate (nCaches P i.name) (mkI P "CACHE" (some 0) c.loc) := by
          simp only [Cell.mapEnc, hk, Enc.fixF, Cell.code, he, block, mains, lastName, CArg.toOpt, Int.toNat_natCast]; rfl
        have := hrest (c.mapEnc (Enc.fixF (· + off))) (by rw [hc', hcode]; simp) (by
          rw [hc', List.cons_append, hx]; exact h)
        refine ⟨?_, ?_⟩
        · rw [this.1, List.map_cons, code_cons]
        · intro x hx
          rcases List.mem_cons.1 hx with rfl | hx
          · intro j hj
            simp only [Cell.mapEnc] at hj
            rw [he] at hj; cases hj
            simp only [Cell.mapEnc, hk, Enc.fixF, mains, List.mem_singleton, forall_eq, CArg.toOpt, Int.toNat_natCast]
            rw [hci, Int.toNat_natCast] at hbt; exact hbt
          · exact this.2 x hx
    · have hmap : (c.mapEnc (Enc.fixF (· + off))).code P = c.code P ∧
          CellBuilt P (c.mapEnc (Enc.fixF (· + off))) := by
        obtain ⟨e, l, enc⟩ := c
        have hb0 := hb ⟨e, l, enc⟩ (by simp)
        cases e with
        | instr i =>
          cases enc with
          | free k => exact absurd ⟨i, k, rfl, rfl⟩ hcell
          | _ => exact ⟨rfl, hb0⟩
        | _ => exact ⟨by simp [Cell.code, Cell.mapEnc], by intro i hi; simp [Cell.mapEnc] at hi⟩
      rw [show freesOf P pre.length (c :: L) = freesOf P (pre.length + (c.code P).length) L by
        obtain ⟨e, l, enc⟩ := c
        cases e with
        | instr i =>
          cases enc with
          | free k => exact absurd ⟨i, k, rfl, rfl⟩ hcell
          | _ => simp [freesOf]
        | _ => simp [freesOf], code_cons] at h
      have := hrest c rfl h
      refine ⟨?_, ?_⟩
      · rw [this.1, List.map_cons, code_cons, hmap.1]
      · intro x hx
        rcases List.mem_cons.1 hx with rfl | hx
        · exact hmap.2
        · exact this.2 x hx

end Verif
