import Verif.Proofs.DecodeTry
import Verif.Spec.Regions
/-
The loop of `to_bytecode`: one TryBegin/TryEnd pair for each entry of the exception table, in the same order.
-/
namespace Verif
open Spec
section
variable {P : Platform} {c : Concrete}

/-- `N` gives the number of operations before each instruction of a list, by offset. -/
def Counts (P : Platform) (N : Nat → Nat) (off n : Nat) : List CElem → Prop
  | [] => N off = n
  | .setLineno _ :: r => Counts P N off n r
  | .instr ci :: r => N off = n ∧ Counts P N (off + width P ci) (n + opCount P ci.name ci.opcode) r

theorem Counts.head {N : Nat → Nat} {off n : Nat} (es : List CElem) (h : Counts P N off n es) : N off = n := by
  induction es with
  | nil => exact h
  | cons e es ih =>
    cases e with
    | setLineno l => exact ih h
    | instr ci => exact h.1

/-- The region of an entry. -/
def regionAt (P : Platform) (N : Nat → Nat) (tgt : Nat → Option Nat) (e : ExcEntry) : TryRegion :=
  ⟨N e.start.toNat, N (e.stop + (if P.py310 then 1 else 2)).toNat, handlerB tgt (tryOf 0 e)⟩

theorem filter_split {l : List ExcEntry} (hl : l.Pairwise (fun e f => e.stop < f.start)) (hne : ∀ e ∈ l, e.start ≤ e.stop) {f : ExcEntry} (hf : f ∈ l)
    {off off' : Int} (h1 : off ≤ f.stop) (h2 : f.stop < off') (h3 : ∀ e ∈ l, e.stop < off ∨ e.stop = f.stop ∨ off' ≤ e.stop) :
    l.filter (fun e => decide (off ≤ e.stop)) = f :: l.filter (fun e => decide (off' ≤ e.stop)) := by
  induction l with
  | nil => cases hf
  | cons a l ih =>
    rw [List.pairwise_cons] at hl
    have hna := hne a (by simp)
    rcases List.mem_cons.1 hf with rfl | hm
    · rw [List.filter_cons_of_pos (by simpa using h1), List.filter_cons_of_neg (by simp; omega)]
      congr 1
      refine List.filter_congr ?_
      intro e he
      have := hl.1 e he
      have := hne e (by simp [he])
      have := h3 e (by simp [he])
      simp only [decide_eq_decide]; omega
    · have := hl.1 f hm
      have hfn := hne f (by simp [hm])
      have := h3 a (by simp)
      rw [List.filter_cons_of_neg (by simp; omega), List.filter_cons_of_neg (by simp; omega)]
      exact ih hl.2 (fun e he => hne e (by simp [he])) hm (fun e he => h3 e (by simp [he]))

theorem loop_regions (hP : P.WF) {prune : Bool} {targets : List Int}
    (hne : ∀ e ∈ c.excTable, e.start ≤ e.stop) (hsort : c.excTable.Pairwise (fun e f => e.stop < f.start)) (tgt : Nat → Option Nat) (N : Nat → Nat)
    (es : List CElem)
    (hv : ∀ ci, .instr ci ∈ es → ValidCInstr P ci) (line off n : Nat) (tbs : List Nat) (d : Dec)
    (h : decodeLoop P c prune true targets off tbs (normalizeLineno line es) = .ok d)
    (hst : ∀ e ∈ c.excTable, e.start < (off : Int) ∨ ∃ k ∈ starts P off es, e.start = (k : Int))
    (hsp : ∀ e ∈ c.excTable, e.stop < (off : Int) ∨ ∃ k ∈ opcodeOffsets P off es, e.stop = (k : Int))
    (hN : Counts P N off n es)
    (cur : Option (Nat × TryB)) (hI : TryInv c off tbs (cur.map (·.2)))
    (hcur : ∀ s t, cur = some (s, t) → ∀ k (e : ExcEntry), c.excTable[k]? = some e → t = tryOf k e → s = N e.start.toNat) :
    regionsFrom P tgt n cur d.elems = (c.excTable.filter (fun e => decide ((off : Int) ≤ e.stop))).map (regionAt P N tgt) := by
  have hd : c.excTable.Pairwise (fun e f => e.stop < f.start ∨ f.stop < e.start) := hsort.imp (fun h => .inl h)
  induction es generalizing line off n tbs d cur with
  | nil =>
    simp only [normalizeLineno, decodeLoop, Except.ok.injEq] at h
    subst h
    rw [List.filter_eq_nil_iff.2]
    · rfl
    · intro e he
      rcases hsp e he with hx | ⟨k, hk, _⟩
      · simp; omega
      · simp [opcodeOffsets] at hk
  | cons e es ih =>
    cases e with
    | setLineno l =>
      rw [normalizeLineno] at h
      exact ih (fun ci hci => hv ci (by simp [hci])) l off n tbs d h hst hsp hN cur hI hcur
    | instr ci =>
      rw [normalizeLineno] at h
      have hci := hv ci (by simp)
      obtain ⟨main, d', h1, h2, h3, _, _, h6⟩ := loop_cons h (valid_size hci)
      rw [h3]
      obtain ⟨hN0, hN1⟩ := hN
      have hw := width_ge (P := P) (valid_size hci)
      have hsz : ∀ ci, .instr ci ∈ es → 2 ≤ ci.size := fun ci hci => valid_size (hv ci (by simp [hci]))
      generalize hu : off + ci.units P - P.unit = u at *
      have hu' : off + width P ci - (if P.py310 then 1 else 2) = u := hu
      have hnext : u + (if P.py310 then 1 else 2) = off + width P ci := by omega
      have hpos : 1 ≤ (if P.py310 then 1 else 2) := by split <;> omega
      have hou : off ≤ u := by omega
      have hst' : ∀ e ∈ c.excTable, e.start < (off : Int) ∨ e.start = (off : Int) ∨ ∃ k ∈ starts P (off + width P ci) es, e.start = (k : Int) := by
        intro e he
        rcases hst e he with hx | ⟨k, hk, hx⟩
        · exact .inl hx
        · simp only [starts, List.mem_cons] at hk
          rcases hk with hk | hk
          · rw [hk] at hx; exact .inr (.inl hx)
          · exact .inr (.inr ⟨k, hk, hx⟩)
      have hsp' : ∀ e ∈ c.excTable, e.stop < (off : Int) ∨ e.stop = (u : Int) ∨ ∃ k ∈ opcodeOffsets P (off + width P ci) es, e.stop = (k : Int) := by
        intro e he
        rcases hsp e he with h | ⟨k, hk, h⟩
        · exact .inl h
        · simp only [opcodeOffsets, List.mem_cons, hu'] at hk
          rcases hk with rfl | hk
          · exact .inr (.inl h)
          · exact .inr (.inr ⟨k, hk, h⟩)
      have hst2 : ∀ e ∈ c.excTable, e.start ≤ (off : Int) ∨ ((off + width P ci : Nat) : Int) ≤ e.start := by
        intro e he
        rcases hst' e he with h | h | ⟨k, hk, h⟩
        · left; omega
        · left; omega
        · right; have := starts_ge es _ k hk; omega
      have hsp2 : ∀ e ∈ c.excTable, e.stop < (off : Int) ∨ e.stop = (u : Int) ∨ ((off + width P ci : Nat) : Int) ≤ e.stop := by
        intro e he
        rcases hsp' e he with h | h | ⟨k, hk, h⟩
        · exact .inl h
        · exact .inr (.inl h)
        · right; right; have := opcodes_ge es hsz _ k hk; omega
      obtain ⟨cur1, hwt1, hcur1, hmade1, honly1, hall1⟩ : ∃ cur1 : Option (Nat × TryB),
          (∀ r, regionsFrom P tgt n cur ((openEntry c true tbs off).1 ++ r) = regionsFrom P tgt n cur1 r) ∧
          (∀ s t, cur1 = some (s, t) → ∀ k (e : ExcEntry), c.excTable[k]? = some e → t = tryOf k e → s = N e.start.toNat) ∧
          (∀ k (e : ExcEntry), c.excTable[k]? = some e → (k ∈ (openEntry c true tbs off).2 ↔ e.start ≤ (off : Int))) ∧
          (∀ t, cur1.map (·.2) = some t → ∃ k, ∃ e : ExcEntry, c.excTable[k]? = some e ∧ t = tryOf k e ∧ e.start ≤ (off : Int) ∧ (off : Int) ≤ e.stop) ∧
          (∀ k (e : ExcEntry), c.excTable[k]? = some e → e.start ≤ (off : Int) → (off : Int) ≤ e.stop → cur1.map (·.2) = some (tryOf k e)) := by
        unfold openEntry
        cases hx : exStart c off with
        | none =>
          have hno : ∀ e ∈ c.excTable, e.start ≠ (off : Int) := by
            intro e he
            unfold exStart at hx
            rw [List.findIdx?_eq_none_iff] at hx
            simpa using hx e he
          refine ⟨cur, fun r => rfl, hcur, ?_, ?_, ?_⟩
          · intro k e he
            rw [hI.made k e he]
            have := hno e (List.mem_of_getElem? he); omega
          · intro t ht
            obtain ⟨k, e, h1, h2, h3, h4⟩ := hI.only t ht
            exact ⟨k, e, h1, h2, by omega, h4⟩
          · intro k e he h1 h2
            have := hno e (List.mem_of_getElem? he)
            exact hI.all k e he (by omega) h2
        | some k =>
          unfold exStart at hx
          obtain ⟨hkl, hk, _⟩ := List.findIdx?_eq_some_iff_getElem.1 hx
          have hke : c.excTable[k]? = some c.excTable[k] := List.getElem?_eq_getElem hkl
          have hks : c.excTable[k].start = (off : Int) := by simpa using hk
          have hkn := hne _ (List.mem_of_getElem? hke)
          have hnot : k ∉ tbs := by rw [hI.made k _ hke]; omega
          simp only [if_neg hnot, mkTry, hke]
          refine ⟨some (n, tryOf k c.excTable[k]), ?_, ?_, ?_, ?_, ?_⟩
          · intro r; rfl
          · intro s t hst j e he ht
            cases hst
            have hjk := congrArg TryB.id ht
            simp only [tryOf] at hjk
            subst hjk
            rw [hke] at he; cases he
            rw [hks]; simp [hN0]
          · intro j e he
            rw [List.mem_cons, hI.made j e he]
            constructor
            · rintro (rfl | h)
              · rw [hke] at he; cases he; omega
              · omega
            · intro h
              by_cases hs : e.start = (off : Int)
              · left
                have hen := hne _ (List.mem_of_getElem? he)
                exact entry_unique hd he hke (x := (off : Int)) (by omega) (by omega)
              · right; omega
          · intro t ht
            cases ht
            exact ⟨k, _, hke, rfl, by omega, by omega⟩
          · intro j e he h1 h2
            have := entry_unique hd he hke (x := (off : Int)) (by omega) (by omega)
            subst this
            rw [hke] at he; cases he; rfl
      have hclose := close_all (c := c) (conserve := true) (exEnd c u).reverse (openEntry c true tbs off).2 (by
        intro k hk
        rw [List.mem_reverse, mem_exEnd] at hk
        obtain ⟨e, he, hes⟩ := hk
        have hm := List.mem_of_getElem? he
        have := hne e hm
        have := hst2 e hm
        exact (hmade1 k e he).2 (by omega))
      rw [hclose] at h2 ⊢
      have hI2 : TryInv c (off + width P ci) (openEntry c true tbs off).2 ((if (exEnd c u).reverse = [] then cur1 else none).map (·.2)) := by
        refine ⟨?_, ?_, ?_⟩
        · intro k e he
          rw [hmade1 k e he]
          have := hst2 e (List.mem_of_getElem? he); omega
        · intro t ht
          split at ht
          · rename_i hnil
            obtain ⟨k, e, g1, g2, g3, g4⟩ := honly1 t ht
            refine ⟨k, e, g1, g2, by omega, ?_⟩
            have hns : e.stop ≠ (u : Int) := by
              intro hs
              have : k ∈ (exEnd c u).reverse := by rw [List.mem_reverse, mem_exEnd]; exact ⟨e, g1, hs⟩
              rw [hnil] at this; simp at this
            have := hsp2 e (List.mem_of_getElem? g1); omega
          · simp at ht
        · intro k e he g1 g2
          have hm := List.mem_of_getElem? he
          have := hst2 e hm
          have ht1 := hall1 k e he (by omega) (by omega)
          split
          · exact ht1
          · rename_i hnil
            exfalso
            obtain ⟨j, hj⟩ := List.exists_mem_of_ne_nil _ hnil
            rw [List.mem_reverse, mem_exEnd] at hj
            obtain ⟨f, hf, hfs⟩ := hj
            have hfn := hne f (List.mem_of_getElem? hf)
            have := entry_unique hd he hf (x := (u : Int)) (by omega) (by omega)
            subst this
            rw [hf] at he; cases he; omega
      have ih' := ih (fun ci hci => hv ci (by simp [hci])) _ (off + width P ci) _ _ d' h2
        (by intro e he
            rcases hst' e he with h | h | h
            · left; omega
            · left; omega
            · right; exact h)
        (by intro e he
            rcases hsp' e he with h | h | h
            · left; omega
            · left; omega
            · right; exact h)
        hN1 _ hI2 (by
          intro s t hst k e he ht
          split at hst
          · exact hcur1 s t hst k e he ht
          · cases hst)
      have hlab : ∀ r, regionsFrom P tgt n cur ((if (off : Int) ∈ targets then [BElem.label off] else []) ++ r) = regionsFrom P tgt n cur r := by
        intro r; split <;> rfl
      rw [hlab, hwt1]
      have hmain : ∀ r, regionsFrom P tgt n cur1 (main ++ r) = regionsFrom P tgt (n + opCount P ci.name ci.opcode) cur1 r := by
        intro r
        rcases decodeInstr_ok hP hci h1 with ⟨hn, hp, rfl⟩ | ⟨i, rfl, hvi, hn, ho, hl, arg, ha, hia⟩
        · simp [opCount, hn]
        · rw [← hn, ← ho]; rfl
      rw [hmain]
      have hlen : ∀ j ∈ (exEnd c u).reverse, ∃ f : ExcEntry, c.excTable[j]? = some f ∧ f.stop = (u : Int) ∧ cur1.map (·.2) = some (tryOf j f) := by
        intro j hj
        rw [List.mem_reverse, mem_exEnd] at hj
        obtain ⟨f, hf, hfs⟩ := hj
        have hfm := List.mem_of_getElem? hf
        have hfn := hne f hfm
        have := hst2 f hfm
        exact ⟨f, hf, hfs, hall1 j f hf (by omega) (by omega)⟩
      have hnd : (exEnd c u).reverse.Nodup := by
        rw [List.nodup_reverse]
        unfold exEnd
        exact List.nodup_range.filter _
      have hmem : ∀ k (e : ExcEntry), c.excTable[k]? = some e → e.stop = (u : Int) → k ∈ (exEnd c u).reverse := by
        intro k e he hs; rw [List.mem_reverse, mem_exEnd]; exact ⟨e, he, hs⟩
      generalize (exEnd c u).reverse = l at *
      cases l with
      | nil =>
        rw [if_pos rfl] at ih'
        rw [List.map_nil, List.nil_append, ih']
        congr 1
        refine List.filter_congr ?_
        intro e he
        obtain ⟨k, hk⟩ := List.getElem?_of_mem he
        have hns : e.stop ≠ (u : Int) := fun hs => by have := hmem k e hk hs; simp at this
        have := hsp2 e he
        simp only [decide_eq_decide]; omega
      | cons j l =>
        cases l with
        | cons j' l =>
          exfalso
          obtain ⟨f, _, _, e1⟩ := hlen j (by simp)
          obtain ⟨f', _, _, e2⟩ := hlen j' (by simp)
          rw [e1] at e2
          have := congrArg (fun o => o.map TryB.id) e2
          simp only [tryOf, Option.map_some, Option.some.injEq] at this
          subst this
          simp at hnd
        | nil =>
          rw [if_neg (by simp)] at ih'
          obtain ⟨f, hf, hfs, e1⟩ := hlen j (by simp)
          cases hc1 : cur1 with
          | none => rw [hc1] at e1; cases e1
          | some p =>
            obtain ⟨s, t⟩ := p
            rw [hc1] at e1
            simp only [Option.map_some, Option.some.injEq] at e1
            have hs := hcur1 s t hc1 j f hf e1
            simp only [List.map_cons, List.map_nil, List.cons_append, List.nil_append, regionsFrom]
            rw [ih', filter_split hsort hne (List.mem_of_getElem? hf) (off := (off : Int)) (off' := ((off + width P ci : Nat) : Int)) (by omega) (by omega)
              (by intro e he; have := hsp2 e he; omega), List.map_cons]
            congr 1
            unfold regionAt
            have hN' := hN1.head
            rw [hs, e1]
            congr 1
            rw [← hN']
            congr 1
            rw [hfs]
            clear hpos hu'
            cases hp : P.py310 <;> simp only [hp, Bool.false_eq_true, if_true, if_false] at hnext ⊢ <;> omega

end
end Verif
