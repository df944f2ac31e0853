import Verif.Props.ToBytecode
/-
The loop of `to_bytecode` on any table of disjoint entries: those whose start is not the start of an instruction, and the
empty ones, give no region.
-/
namespace Verif
open Spec

section
variable {κ : Type} [DecidableEq κ] {P : Platform} {key : Arg → κ} {c : Concrete}

/-- The entries that give a region: not empty, and starting where an instruction starts (`S`: these offsets). -/
def liveEntry (S : List Nat) (e : ExcEntry) : Prop := e.start ≤ e.stop ∧ ∃ k ∈ S, e.start = (k : Int)

/-- The state of the markers before offset `off`. -/
structure VoidInv (c : Concrete) (S : List Nat) (off : Nat) (tbs : List Nat) (tr : Option TryB) : Prop where
  made : ∀ k (e : ExcEntry), c.excTable[k]? = some e → liveEntry S e → (k ∈ tbs ↔ e.start < (off : Int))
  void : ∀ k (e : ExcEntry), c.excTable[k]? = some e → ¬ liveEntry S e → (k ∈ tbs ↔ e.stop < (off : Int))
  only : ∀ t, tr = some t → ∃ k, ∃ e : ExcEntry, c.excTable[k]? = some e ∧ liveEntry S e ∧ t = tryOf k e ∧ e.start < (off : Int) ∧ (off : Int) ≤ e.stop
  all : ∀ k (e : ExcEntry), c.excTable[k]? = some e → liveEntry S e → e.start < (off : Int) → (off : Int) ≤ e.stop → tr = some (tryOf k e)

/-- Closing entries leaves no region open. -/
theorem opsB_close (tgt : Nat → Option Nat) (l tbs : List Nat) (r : List BElem) (loc : Loc) (tr : Option TryB) :
    opsB P key tgt loc tr ((closeEntries c true tbs l).1 ++ r) = opsB P key tgt loc (if l = [] then tr else none) r := by
  induction l generalizing tbs tr with
  | nil => rfl
  | cons k l ih =>
    rw [closeEntries]
    split
    · simp only [List.cons_append, opsB, ih]; simp
    · simp only [mkTry]
      split <;> simp only [List.cons_append, List.nil_append, opsB, ih] <;> simp

theorem close_mem (l tbs : List Nat) (k : Nat) : k ∈ (closeEntries c true tbs l).2 ↔ k ∈ tbs ∨ k ∈ l := by
  induction l generalizing tbs with
  | nil => simp [closeEntries]
  | cons j l ih =>
    rw [closeEntries]
    split
    · simp only [ih, List.mem_cons]; grind
    · simp only [ih, List.mem_cons]; grind

theorem loop_void (hP : P.WF) (c' : Concrete) (S : List Nat) (hc' : ∀ e, e ∈ c'.excTable ↔ e ∈ c.excTable ∧ ∃ k ∈ S, e.start = (k : Int)) {prune : Bool} {targets : List Int}
    (hnd : (c.excTable.map (·.start)).Nodup) (hd : c.excTable.Pairwise (fun e f => e.stop < f.start ∨ f.stop < e.start))
    (hgap : ∀ f ∈ c.excTable, ∀ e ∈ c.excTable, ¬ (e.start ≤ f.stop ∧ f.stop < e.stop))
    (htr : ∀ e ∈ c.excTable, liveEntry S e → (opAt P e.target 0 0 c'.elems).isSome = true)
    (es : List CElem)
    (hv : ∀ ci, .instr ci ∈ es → ValidCInstr P ci) (line off : Nat) (tbs : List Nat) (d : Dec)
    (h : decodeLoop P c prune true targets off tbs (normalizeLineno line es) = .ok d)
    (hS : ∀ k : Nat, off ≤ k → (k ∈ S ↔ k ∈ starts P off es))
    (hsp : ∀ e ∈ c.excTable, e.stop < (off : Int) ∨ ∃ k ∈ opcodeOffsets P off es, e.stop = (k : Int))
    (tgt : Nat → Option Nat) (htgt : ∀ k ∈ d.tbs, ∀ e, c.excTable[k]? = some e → ∀ m, opAt P e.target 0 0 c'.elems = some m → tgt e.target.toNat = some m)
    (loc : Loc) (tr : Option TryB) (hI : VoidInv c S off tbs tr) :
    (opsB P key tgt loc tr d.elems).map (fun o => o.handler) = (opsC P key c' line off es).map (fun o => o.handler) := by
  induction es generalizing line off tbs d loc tr with
  | nil =>
    simp only [normalizeLineno, decodeLoop, Except.ok.injEq] at h
    subst h; rfl
  | cons e es ih =>
    cases e with
    | setLineno l =>
      rw [normalizeLineno] at h
      exact ih (fun ci hci => hv ci (by simp [hci])) l off tbs d h hS hsp htgt loc tr hI
    | instr ci =>
      rw [normalizeLineno] at h
      have hci := hv ci (by simp)
      have hmono := loop_mono (P := P) (c := c) _ _ _ d (fun p hp => by
        simp only [List.mem_cons] at hp
        rcases hp with rfl | hp
        · exact valid_size hci
        · exact valid_size (hv _ (by simp [normalize_mem _ _ p hp]))) h
      obtain ⟨main, d', h1, h2, h3, _, _, h6⟩ := loop_cons h (valid_size hci)
      have hmono' := loop_mono (P := P) (c := c) _ _ _ d' (fun p hp => valid_size (hv _ (by simp [normalize_mem _ _ p hp]))) h2
      rw [h3]
      have hlab : ∀ r, opsB P key tgt loc tr ((if (off : Int) ∈ targets then [BElem.label off] else []) ++ r)
          = opsB P key tgt loc tr r := by
        intro r; split <;> rfl
      rw [hlab]
      have hw := width_ge (P := P) (valid_size hci)
      have hsz : ∀ ci, .instr ci ∈ es → 2 ≤ ci.size := fun ci hci => valid_size (hv ci (by simp [hci]))
      generalize hu : off + ci.units P - P.unit = u at *
      have hu' : off + width P ci - (if P.py310 then 1 else 2) = u := hu
      have hnext : u + (if P.py310 then 1 else 2) = off + width P ci := by omega
      have hpos : 1 ≤ (if P.py310 then 1 else 2) := by split <;> omega
      have hou : off ≤ u := by omega
      -- every entry, relative to this instruction
      have hst2 : ∀ e ∈ c.excTable, liveEntry S e → e.start ≤ (off : Int) ∨ ((off + width P ci : Nat) : Int) ≤ e.start := by
        intro e he hl
        obtain ⟨_, k, hk, hx⟩ := hl
        by_cases hlt : k < off
        · left; omega
        · have := (hS k (by omega)).1 hk
          simp only [starts, List.mem_cons] at this
          rcases this with rfl | this
          · left; omega
          · right; have := starts_ge es _ k this; omega
      have hsp' : ∀ e ∈ c.excTable, e.stop < (off : Int) ∨ e.stop = (u : Int) ∨ ∃ k ∈ opcodeOffsets P (off + width P ci) es, e.stop = (k : Int) := by
        intro e he
        rcases hsp e he with h | ⟨k, hk, h⟩
        · exact .inl h
        · simp only [opcodeOffsets, List.mem_cons, hu'] at hk
          rcases hk with rfl | hk
          · exact .inr (.inl h)
          · exact .inr (.inr ⟨k, hk, h⟩)
      have hsp2 : ∀ e ∈ c.excTable, e.stop < (off : Int) ∨ e.stop = (u : Int) ∨ ((off + width P ci : Nat) : Int) ≤ e.stop := by
        intro e he
        rcases hsp' e he with h | h | ⟨k, hk, h⟩
        · exact .inl h
        · exact .inr (.inl h)
        · right; right; have := opcodes_ge es hsz _ k hk; omega
      -- the TryBegin
      have hoff : off ∈ S := (hS off (Nat.le_refl _)).2 (by simp [starts])
      obtain ⟨tr1, hops1, hmade1, hvoid1, honly1, hall1⟩ : ∃ tr1, (∀ r, opsB P key tgt loc tr ((openEntry c true tbs off).1 ++ r) = opsB P key tgt loc tr1 r) ∧
          (∀ k (e : ExcEntry), c.excTable[k]? = some e → liveEntry S e → (k ∈ (openEntry c true tbs off).2 ↔ e.start ≤ (off : Int))) ∧
          (∀ k (e : ExcEntry), c.excTable[k]? = some e → ¬ liveEntry S e → (k ∈ (openEntry c true tbs off).2 ↔ e.stop < (off : Int))) ∧
          (∀ t, tr1 = some t → ∃ k, ∃ e : ExcEntry, c.excTable[k]? = some e ∧ liveEntry S e ∧ t = tryOf k e ∧ e.start ≤ (off : Int) ∧ (off : Int) ≤ e.stop) ∧
          (∀ k (e : ExcEntry), c.excTable[k]? = some e → liveEntry S e → e.start ≤ (off : Int) → (off : Int) ≤ e.stop → tr1 = some (tryOf k e)) := by
        unfold openEntry
        cases hx : exStart c off with
        | none =>
          have hno : ∀ e ∈ c.excTable, e.start ≠ (off : Int) := by
            intro e he
            unfold exStart at hx
            rw [List.findIdx?_eq_none_iff] at hx
            simpa using hx e he
          refine ⟨tr, fun r => rfl, ?_, hI.void, ?_, ?_⟩
          · intro k e he hl
            rw [hI.made k e he hl]
            have := hno e (List.mem_of_getElem? he); omega
          · intro t ht
            obtain ⟨k, e, h1, hl, h2, h3, h4⟩ := hI.only t ht
            exact ⟨k, e, h1, hl, h2, by omega, h4⟩
          · intro k e he hl h1 h2
            have := hno e (List.mem_of_getElem? he)
            exact hI.all k e he hl (by omega) h2
        | some k =>
          unfold exStart at hx
          obtain ⟨hkl, hk, _⟩ := List.findIdx?_eq_some_iff_getElem.1 hx
          have hke : c.excTable[k]? = some c.excTable[k] := List.getElem?_eq_getElem hkl
          have hks : c.excTable[k].start = (off : Int) := by simpa using hk
          -- no other entry starts here
          have huniq : ∀ j (e : ExcEntry), c.excTable[j]? = some e → e.start = (off : Int) → j = k := by
            intro j e he hs
            have h1 : (c.excTable.map (·.start))[j]? = some (off : Int) := by rw [List.getElem?_map, he]; simp [hs]
            have h2 : (c.excTable.map (·.start))[k]? = some (off : Int) := by rw [List.getElem?_map, hke]; simp [hks]
            obtain ⟨q1, q2⟩ := List.getElem?_eq_some_iff.1 h1
            obtain ⟨r1, r2⟩ := List.getElem?_eq_some_iff.1 h2
            exact (List.getElem_inj hnd).1 (q2.trans r2.symm)
          by_cases hlive : liveEntry S c.excTable[k]
          · have hkn := hlive.1
            have hnot : k ∉ tbs := by rw [hI.made k _ hke hlive]; omega
            simp only [if_neg hnot, mkTry, hke]
            refine ⟨some (tryOf k c.excTable[k]), fun r => rfl, ?_, ?_, ?_, ?_⟩
            · intro j e he hl
              rw [List.mem_cons, hI.made j e he hl]
              constructor
              · rintro (rfl | h)
                · rw [hke] at he; cases he; omega
                · omega
              · intro h
                by_cases hs : e.start = (off : Int)
                · exact .inl (huniq j e he hs)
                · right; omega
            · intro j e he hl
              rw [List.mem_cons, hI.void j e he hl]
              constructor
              · rintro (rfl | h)
                · rw [hke] at he; cases he; exact absurd hlive hl
                · exact h
              · exact .inr
            · intro t ht
              cases ht
              exact ⟨k, _, hke, hlive, rfl, by omega, by omega⟩
            · intro j e he hl h1 h2
              have := entry_unique hd he hke (x := (off : Int)) (by omega) (by omega)
              subst this
              rw [hke] at he; cases he; rfl
          · have hin : k ∈ tbs := by
              rw [hI.void k _ hke hlive]
              have : ¬ c.excTable[k].start ≤ c.excTable[k].stop := fun hle => hlive ⟨hle, off, hoff, hks⟩
              omega
            simp only [if_pos hin]
            refine ⟨tr, fun r => rfl, ?_, hI.void, ?_, ?_⟩
            · intro j e he hl
              rw [hI.made j e he hl]
              have : e.start ≠ (off : Int) := by
                intro hs
                have := huniq j e he hs
                subst this
                rw [hke] at he; cases he; exact hlive hl
              omega
            · intro t ht
              obtain ⟨j, e, h1, hl, h2, h3, h4⟩ := hI.only t ht
              exact ⟨j, e, h1, hl, h2, by omega, h4⟩
            · intro j e he hl h1 h2
              have : e.start ≠ (off : Int) := by
                intro hs
                have := huniq j e he hs
                subst this
                rw [hke] at he; cases he; exact hlive hl
              exact hI.all j e he hl (by omega) h2
      rw [hops1]
      -- the handler here
      have hhand : tr1.bind (handlerB tgt) = handlerAt P c' u := by
        unfold handlerAt
        cases hf : c'.excTable.find? (fun e => decide (e.start ≤ (u : Int)) && decide ((u : Int) ≤ e.stop)) with
        | none =>
          rw [List.find?_eq_none] at hf
          cases ht : tr1 with
          | none => rfl
          | some t =>
            exfalso
            obtain ⟨k, e, g1, hl, _, g3, g4⟩ := honly1 t ht
            have hm := List.mem_of_getElem? g1
            have := hf e ((hc' e).2 ⟨hm, hl.2⟩)
            have := hsp2 e hm
            simp at *
            omega
        | some e =>
          have hm' := List.mem_of_find?_eq_some hf
          have hp := List.find?_some hf
          simp only [Bool.and_eq_true, decide_eq_true_eq] at hp
          obtain ⟨hm, hs'⟩ := (hc' e).1 hm'
          have hl : liveEntry S e := ⟨by omega, hs'⟩
          obtain ⟨k, hk⟩ := List.getElem?_of_mem hm
          have g1 := hst2 e hm hl
          have g2 := hsp2 e hm
          have hlt : (u : Int) < ((off + width P ci : Nat) : Int) := by omega
          have hs : e.start ≤ (off : Int) := by omega
          rw [hall1 k e hk hl hs (by omega)]
          have hT := htr e hm hl
          obtain ⟨m, hm'⟩ := Option.isSome_iff_exists.1 hT
          have hin : k ∈ d.tbs := by
            rw [h6]; exact hmono' k (close_mono _ _ k ((hmade1 k e hk hl).2 hs))
          have := htgt k hin e hk m hm'
          simp [handlerB, tryOf, this, hm']
      -- the TryEnds
      have hI2 : VoidInv c S (off + width P ci) (closeEntries c true (openEntry c true tbs off).2 (exEnd c u).reverse).2
          (if (exEnd c u).reverse = [] then tr1 else none) := by
        refine ⟨?_, ?_, ?_, ?_⟩
        · intro k e he hl
          rw [close_mem, hmade1 k e he hl, List.mem_reverse, mem_exEnd]
          have hm := List.mem_of_getElem? he
          have := hst2 e hm hl
          constructor
          · rintro (h | ⟨e', he', hes⟩)
            · omega
            · rw [he] at he'; cases he'
              have := hl.1; omega
          · intro h; left; omega
        · intro k e he hl
          rw [close_mem, hvoid1 k e he hl, List.mem_reverse, mem_exEnd]
          have := hsp2 e (List.mem_of_getElem? he)
          constructor
          · rintro (h | ⟨e', he', hes⟩)
            · omega
            · rw [he] at he'; cases he'; omega
          · intro h
            by_cases hx : e.stop < (off : Int)
            · exact .inl hx
            · exact .inr ⟨e, he, by omega⟩
        · intro t ht
          split at ht
          · rename_i hnil
            obtain ⟨k, e, g1, hl, g2, g3, g4⟩ := honly1 t ht
            refine ⟨k, e, g1, hl, g2, by omega, ?_⟩
            have hns : e.stop ≠ (u : Int) := by
              intro hs
              have : k ∈ (exEnd c u).reverse := by rw [List.mem_reverse, mem_exEnd]; exact ⟨e, g1, hs⟩
              rw [hnil] at this; simp at this
            have := hsp2 e (List.mem_of_getElem? g1); omega
          · simp at ht
        · intro k e he hl g1 g2
          have hm := List.mem_of_getElem? he
          have := hst2 e hm hl
          have ht1 := hall1 k e he hl (by omega) (by omega)
          split
          · exact ht1
          · rename_i hnil
            exfalso
            obtain ⟨j, hj⟩ := List.exists_mem_of_ne_nil _ hnil
            rw [List.mem_reverse, mem_exEnd] at hj
            obtain ⟨f, hf, hfs⟩ := hj
            exact hgap f (List.mem_of_getElem? hf) e hm (by omega)
      have ih' := fun loc => ih (fun ci hci => hv ci (by simp [hci])) _ _ _ d' h2
        (by intro k hk
            rw [hS k (by rw [← width_units] at hk; omega)]
            simp only [starts, List.mem_cons]
            constructor
            · rintro (rfl | h)
              · rw [← width_units] at hk; omega
              · exact h
            · exact .inr)
        (by intro e he
            rcases hsp' e he with h | h | h
            · left; rw [← width_units]; omega
            · left; rw [← width_units]; omega
            · right; exact h)
        (fun k hk => htgt k (by rw [h6]; exact hk)) loc _ hI2
      simp only [opsC]
      rw [List.map_append, hu', ← hhand]
      rcases decodeInstr_ok hP hci h1 with ⟨hn, _, rfl⟩ | ⟨i, rfl, hvi, hn, ho, hl, arg, ha, hia⟩
      · rw [List.nil_append, opsB_close, ih', width_units]
        simp [expandC, hn, locLine?]
      · rw [List.singleton_append, opsB, List.map_append, opsB_close, ih', width_units]
        congr 1
        apply map_handler'
        rw [expand_length_B, expand_length_C, hn, ho]

end
end Verif
