import Verif.Proofs.DecodeLoop
import Verif.Spec.Table
import Verif.Proofs.Handlers
/-
The loop of `to_bytecode`: try markers.
-/
namespace Verif
open Spec

section
variable {κ : Type} [DecidableEq κ] {P : Platform} {key : Arg → κ} {c : Concrete}

theorem close_mono {conserve : Bool} (l tbs : List Nat) : ∀ k ∈ tbs, k ∈ (closeEntries c conserve tbs l).2 := by
  induction l generalizing tbs with
  | nil => intro k hk; exact hk
  | cons x l ih =>
    intro k hk
    unfold closeEntries
    split
    · exact ih _ k hk
    · exact ih _ k (by simp [hk])

theorem open_mono {conserve : Bool} (tbs : List Nat) (off : Nat) : ∀ k ∈ tbs, k ∈ (openEntry c conserve tbs off).2 := by
  intro k hk
  unfold openEntry
  split
  · split
    · exact hk
    · simp [hk]
  · exact hk

theorem loop_mono {prune conserve : Bool} {targets : List Int} (l : List (Nat × CInstr)) (off : Nat) (tbs : List Nat) (d : Dec)
    (hl : ∀ p ∈ l, 2 ≤ p.2.size) (h : decodeLoop P c prune conserve targets off tbs l = .ok d) : ∀ k ∈ tbs, k ∈ d.tbs := by
  induction l generalizing off tbs d with
  | nil =>
    simp only [decodeLoop, Except.ok.injEq] at h
    subst h; exact fun k hk => hk
  | cons p l ih =>
    intro k hk
    obtain ⟨main, d', _, h2, _, _, _, h6⟩ := loop_cons h (hl p (by simp))
    rw [h6]
    exact ih _ _ d' (fun q hq => hl q (by simp [hq])) h2 k (close_mono _ _ k (open_mono _ _ k hk))

/-- All entries to close are open. -/
theorem close_all {conserve : Bool} (l tbs : List Nat) (h : ∀ k ∈ l, k ∈ tbs) : closeEntries c conserve tbs l = (l.map .tryEnd, tbs) := by
  induction l with
  | nil => rfl
  | cons k l ih =>
    unfold closeEntries
    rw [if_pos (h k (by simp)), ih (fun x hx => h x (by simp [hx]))]; rfl

theorem opsB_ends (tgt : Nat → Option Nat) (l : List Nat) (r : List BElem) (loc : Loc) (tr : Option TryB) :
    opsB P key tgt loc tr (l.map .tryEnd ++ r) = opsB P key tgt loc (if l = [] then tr else none) r := by
  induction l generalizing tr with
  | nil => rfl
  | cons k l ih =>
    rw [List.map_cons, List.cons_append, opsB, ih]
    simp

/-- The TryBegin of an entry. -/
def tryOf (k : Nat) (e : ExcEntry) : TryB := ⟨k, e.target.toNat, e.lasti, some e.depth.toNat⟩

theorem mem_exEnd {off k : Nat} : k ∈ exEnd c off ↔ ∃ e, c.excTable[k]? = some e ∧ e.stop = (off : Int) := by
  unfold exEnd
  rw [List.mem_filter]
  constructor
  · rintro ⟨_, h⟩
    split at h
    · rename_i e he; exact ⟨e, he, by simpa using h⟩
    · simp at h
  · rintro ⟨e, he, h⟩
    refine ⟨by simp [(List.getElem?_eq_some_iff.1 he).1], ?_⟩
    rw [he]; simp [h]

/-- Two entries sharing an offset are the same. -/
theorem entry_unique (hd : c.excTable.Pairwise (fun e f => e.stop < f.start ∨ f.stop < e.start)) {j k : Nat} {e f : ExcEntry}
    (hj : c.excTable[j]? = some e) (hk : c.excTable[k]? = some f) {x : Int} (he : e.start ≤ x ∧ x ≤ e.stop) (hf : f.start ≤ x ∧ x ≤ f.stop) :
    j = k := by
  obtain ⟨hjl, hj⟩ := List.getElem?_eq_some_iff.1 hj
  obtain ⟨hkl, hk⟩ := List.getElem?_eq_some_iff.1 hk
  rw [List.pairwise_iff_getElem] at hd
  rcases Nat.lt_trichotomy j k with h | h | h
  · have := hd j k hjl hkl h; rw [hj, hk] at this; omega
  · exact h
  · have := hd k j hkl hjl h; rw [hj, hk] at this; omega

theorem starts_ge (es : List CElem) (off : Nat) : ∀ k ∈ starts P off es, off ≤ k := by
  induction es generalizing off with
  | nil => simp [starts]
  | cons e es ih =>
    intro k hk
    cases e with
    | setLineno l => exact ih off k hk
    | instr ci =>
      simp only [starts, List.mem_cons] at hk
      rcases hk with rfl | hk
      · exact Nat.le_refl _
      · have := ih _ k hk; omega

theorem width_ge {ci : CInstr} (h : 2 ≤ ci.size) : (if P.py310 then 1 else 2) ≤ width P ci := by unfold width; split <;> omega

theorem opcodes_ge (es : List CElem) (hs : ∀ ci, .instr ci ∈ es → 2 ≤ ci.size) (off : Nat) : ∀ k ∈ opcodeOffsets P off es, off ≤ k := by
  induction es generalizing off with
  | nil => simp [opcodeOffsets]
  | cons e es ih =>
    intro k hk
    cases e with
    | setLineno l => exact ih (fun ci hci => hs ci (by simp [hci])) off k hk
    | instr ci =>
      have := width_ge (P := P) (hs ci (by simp))
      simp only [opcodeOffsets, List.mem_cons] at hk
      rcases hk with rfl | hk
      · omega
      · have := ih (fun ci hci => hs ci (by simp [hci])) _ k hk; omega

theorem normalize_mem (line : Nat) (es : List CElem) : ∀ p ∈ normalizeLineno line es, .instr p.2 ∈ es := by
  induction es generalizing line with
  | nil => simp [normalizeLineno]
  | cons e es ih =>
    intro p hp
    cases e with
    | setLineno l => simp only [normalizeLineno] at hp; simp [ih _ p hp]
    | instr ci =>
      simp only [normalizeLineno, List.mem_cons] at hp
      rcases hp with rfl | hp
      · simp
      · simp [ih _ p hp]

/-- The state of the markers before offset `off`. -/
structure TryInv (c : Concrete) (off : Nat) (tbs : List Nat) (tr : Option TryB) : Prop where
  made : ∀ k (e : ExcEntry), c.excTable[k]? = some e → (k ∈ tbs ↔ e.start < (off : Int))
  only : ∀ t, tr = some t → ∃ k, ∃ e : ExcEntry, c.excTable[k]? = some e ∧ t = tryOf k e ∧ e.start < (off : Int) ∧ (off : Int) ≤ e.stop
  all : ∀ k (e : ExcEntry), c.excTable[k]? = some e → e.start < (off : Int) → (off : Int) ≤ e.stop → tr = some (tryOf k e)

theorem map_handler' (l : List (String × Operand κ)) (loc loc' : Loc) (l' : List (String × Operand κ)) (hl : l.length = l'.length) (x : Option Handler) :
    (l.map (fun p => (⟨p.1, p.2, loc, x⟩ : Op κ))).map (fun o => o.handler) = (l'.map (fun p => (⟨p.1, p.2, loc', x⟩ : Op κ))).map (fun o => o.handler) := by
  simp only [List.map_map, Function.comp_def, List.map_const', hl]

theorem loop_handlers (hP : P.WF) (c' : Concrete) (hc' : c'.excTable = c.excTable) {prune : Bool} {targets : List Int}
    (hne : ∀ e ∈ c.excTable, e.start ≤ e.stop) (hd : c.excTable.Pairwise (fun e f => e.stop < f.start ∨ f.stop < e.start))
    (htr : ∀ e ∈ c.excTable, (opAt P e.target 0 0 c'.elems).isSome = true)
    (es : List CElem)
    (hv : ∀ ci, .instr ci ∈ es → ValidCInstr P ci) (line off : Nat) (tbs : List Nat) (d : Dec)
    (h : decodeLoop P c prune true targets off tbs (normalizeLineno line es) = .ok d)
    (hst : ∀ e ∈ c.excTable, e.start < (off : Int) ∨ ∃ k ∈ starts P off es, e.start = (k : Int))
    (hsp : ∀ e ∈ c.excTable, e.stop < (off : Int) ∨ ∃ k ∈ opcodeOffsets P off es, e.stop = (k : Int))
    (tgt : Nat → Option Nat) (htgt : ∀ k ∈ d.tbs, ∀ e, c.excTable[k]? = some e → ∀ m, opAt P e.target 0 0 c'.elems = some m → tgt e.target.toNat = some m)
    (loc : Loc) (tr : Option TryB) (hI : TryInv c off tbs tr) :
    (opsB P key tgt loc tr d.elems).map (fun o => o.handler) = (opsC P key c' line off es).map (fun o => o.handler) := by
  induction es generalizing line off tbs d loc tr with
  | nil =>
    simp only [normalizeLineno, decodeLoop, Except.ok.injEq] at h
    subst h; rfl
  | cons e es ih =>
    cases e with
    | setLineno l =>
      rw [normalizeLineno] at h
      exact ih (fun ci hci => hv ci (by simp [hci])) l off tbs d h hst hsp htgt loc tr hI
    | instr ci =>
      rw [normalizeLineno] at h
      have hci := hv ci (by simp)
      have hmono := loop_mono (P := P) (c := c) _ _ _ d (fun p hp => by
        simp only [List.mem_cons] at hp
        rcases hp with rfl | hp
        · exact valid_size hci
        · exact valid_size (hv _ (by simp [normalize_mem _ _ p hp]))) h
      obtain ⟨main, d', h1, h2, h3, _, _, h6⟩ := loop_cons h (valid_size hci)
      have hmono' := loop_mono (P := P) (c := c) _ _ _ d' (fun p hp => valid_size (hv _ (by simp [normalize_mem _ _ p hp]))) h2
      rw [h3]
      have hlab : ∀ r, opsB P key tgt loc tr ((if (off : Int) ∈ targets then [BElem.label off] else []) ++ r)
          = opsB P key tgt loc tr r := by
        intro r; split <;> rfl
      rw [hlab]
      have hw := width_ge (P := P) (valid_size hci)
      have hsz : ∀ ci, .instr ci ∈ es → 2 ≤ ci.size := fun ci hci => valid_size (hv ci (by simp [hci]))
      generalize hu : off + ci.units P - P.unit = u at *
      have hu' : off + width P ci - (if P.py310 then 1 else 2) = u := hu
      have hnext : u + (if P.py310 then 1 else 2) = off + width P ci := by omega
      have hpos : 1 ≤ (if P.py310 then 1 else 2) := by split <;> omega
      have hou : off ≤ u := by omega
      -- every entry, relative to this instruction
      have hst' : ∀ e ∈ c.excTable, e.start < (off : Int) ∨ e.start = (off : Int) ∨ ∃ k ∈ starts P (off + width P ci) es, e.start = (k : Int) := by
        intro e he
        rcases hst e he with hx | ⟨k, hk, hx⟩
        · exact .inl hx
        · simp only [starts, List.mem_cons] at hk
          rcases hk with hk | hk
          · rw [hk] at hx; exact .inr (.inl hx)
          · exact .inr (.inr ⟨k, hk, hx⟩)
      have hsp' : ∀ e ∈ c.excTable, e.stop < (off : Int) ∨ e.stop = (u : Int) ∨ ∃ k ∈ opcodeOffsets P (off + width P ci) es, e.stop = (k : Int) := by
        intro e he
        rcases hsp e he with h | ⟨k, hk, h⟩
        · exact .inl h
        · simp only [opcodeOffsets, List.mem_cons, hu'] at hk
          rcases hk with rfl | hk
          · exact .inr (.inl h)
          · exact .inr (.inr ⟨k, hk, h⟩)
      have hst2 : ∀ e ∈ c.excTable, e.start ≤ (off : Int) ∨ ((off + width P ci : Nat) : Int) ≤ e.start := by
        intro e he
        rcases hst' e he with h | h | ⟨k, hk, h⟩
        · left; omega
        · left; omega
        · right; have := starts_ge es _ k hk; omega
      have hsp2 : ∀ e ∈ c.excTable, e.stop < (off : Int) ∨ e.stop = (u : Int) ∨ ((off + width P ci : Nat) : Int) ≤ e.stop := by
        intro e he
        rcases hsp' e he with h | h | ⟨k, hk, h⟩
        · exact .inl h
        · exact .inr (.inl h)
        · right; right; have := opcodes_ge es hsz _ k hk; omega
      -- the TryBegin
      obtain ⟨tr1, hops1, hmade1, honly1, hall1⟩ : ∃ tr1, (∀ r, opsB P key tgt loc tr ((openEntry c true tbs off).1 ++ r) = opsB P key tgt loc tr1 r) ∧
          (∀ k (e : ExcEntry), c.excTable[k]? = some e → (k ∈ (openEntry c true tbs off).2 ↔ e.start ≤ (off : Int))) ∧
          (∀ t, tr1 = some t → ∃ k, ∃ e : ExcEntry, c.excTable[k]? = some e ∧ t = tryOf k e ∧ e.start ≤ (off : Int) ∧ (off : Int) ≤ e.stop) ∧
          (∀ k (e : ExcEntry), c.excTable[k]? = some e → e.start ≤ (off : Int) → (off : Int) ≤ e.stop → tr1 = some (tryOf k e)) := by
        unfold openEntry
        cases hx : exStart c off with
        | none =>
          have hno : ∀ e ∈ c.excTable, e.start ≠ (off : Int) := by
            intro e he
            unfold exStart at hx
            rw [List.findIdx?_eq_none_iff] at hx
            simpa using hx e he
          refine ⟨tr, fun r => rfl, ?_, ?_, ?_⟩
          · intro k e he
            rw [hI.made k e he]
            have := hno e (List.mem_of_getElem? he); omega
          · intro t ht
            obtain ⟨k, e, h1, h2, h3, h4⟩ := hI.only t ht
            exact ⟨k, e, h1, h2, by omega, h4⟩
          · intro k e he h1 h2
            have := hno e (List.mem_of_getElem? he)
            exact hI.all k e he (by omega) h2
        | some k =>
          unfold exStart at hx
          obtain ⟨hkl, hk, _⟩ := List.findIdx?_eq_some_iff_getElem.1 hx
          have hke : c.excTable[k]? = some c.excTable[k] := List.getElem?_eq_getElem hkl
          have hks : c.excTable[k].start = (off : Int) := by simpa using hk
          have hkn := hne _ (List.mem_of_getElem? hke)
          have hnot : k ∉ tbs := by rw [hI.made k _ hke]; omega
          simp only [if_neg hnot, mkTry, hke]
          refine ⟨some (tryOf k c.excTable[k]), fun r => rfl, ?_, ?_, ?_⟩
          · intro j e he
            rw [List.mem_cons, hI.made j e he]
            constructor
            · rintro (rfl | h)
              · rw [hke] at he; cases he; omega
              · omega
            · intro h
              by_cases hs : e.start = (off : Int)
              · left
                have hen := hne _ (List.mem_of_getElem? he)
                exact entry_unique hd he hke (x := (off : Int)) (by omega) (by omega)
              · right; omega
          · intro t ht
            cases ht
            exact ⟨k, _, hke, rfl, by omega, by omega⟩
          · intro j e he h1 h2
            have := entry_unique hd he hke (x := (off : Int)) (by omega) (by omega)
            subst this
            rw [hke] at he; cases he; rfl
      rw [hops1]
      -- the handler here
      have hhand : tr1.bind (handlerB tgt) = handlerAt P c' u := by
        unfold handlerAt
        rw [hc']
        cases hf : c.excTable.find? (fun e => decide (e.start ≤ (u : Int)) && decide ((u : Int) ≤ e.stop)) with
        | none =>
          rw [List.find?_eq_none] at hf
          cases ht : tr1 with
          | none => rfl
          | some t =>
            exfalso
            obtain ⟨k, e, g1, _, g3, g4⟩ := honly1 t ht
            have hm := List.mem_of_getElem? g1
            have := hf e hm
            have := hsp2 e hm
            simp at *
            omega
        | some e =>
          have hm := List.mem_of_find?_eq_some hf
          have hp := List.find?_some hf
          simp only [Bool.and_eq_true, decide_eq_true_eq] at hp
          obtain ⟨k, hk⟩ := List.getElem?_of_mem hm
          have g1 := hst2 e hm
          have g2 := hsp2 e hm
          have hlt : (u : Int) < ((off + width P ci : Nat) : Int) := by omega
          have hs : e.start ≤ (off : Int) := by omega
          rw [hall1 k e hk hs (by omega)]
          have hT := htr e hm
          obtain ⟨m, hm'⟩ := Option.isSome_iff_exists.1 hT
          have hin : k ∈ d.tbs := by
            rw [h6]; exact hmono' k (close_mono _ _ k ((hmade1 k e hk).2 hs))
          have := htgt k hin e hk m hm'
          simp [handlerB, tryOf, this, hm']
      -- the TryEnds
      have hclose := close_all (c := c) (conserve := true) (exEnd c u).reverse (openEntry c true tbs off).2 (by
        intro k hk
        rw [List.mem_reverse, mem_exEnd] at hk
        obtain ⟨e, he, hes⟩ := hk
        have hm := List.mem_of_getElem? he
        have := hne e hm
        have := hst2 e hm
        exact (hmade1 k e he).2 (by omega))
      rw [hclose] at h2 ⊢
      have hI2 : TryInv c (off + width P ci) (openEntry c true tbs off).2 (if (exEnd c u).reverse = [] then tr1 else none) := by
        refine ⟨?_, ?_, ?_⟩
        · intro k e he
          rw [hmade1 k e he]
          have := hst2 e (List.mem_of_getElem? he); omega
        · intro t ht
          split at ht
          · rename_i hnil
            obtain ⟨k, e, g1, g2, g3, g4⟩ := honly1 t ht
            refine ⟨k, e, g1, g2, by omega, ?_⟩
            have hns : e.stop ≠ (u : Int) := by
              intro hs
              have : k ∈ (exEnd c u).reverse := by rw [List.mem_reverse, mem_exEnd]; exact ⟨e, g1, hs⟩
              rw [hnil] at this; simp at this
            have := hsp2 e (List.mem_of_getElem? g1); omega
          · simp at ht
        · intro k e he g1 g2
          have hm := List.mem_of_getElem? he
          have := hst2 e hm
          have ht1 := hall1 k e he (by omega) (by omega)
          split
          · exact ht1
          · rename_i hnil
            exfalso
            obtain ⟨j, hj⟩ := List.exists_mem_of_ne_nil _ hnil
            rw [List.mem_reverse, mem_exEnd] at hj
            obtain ⟨f, hf, hfs⟩ := hj
            have hfn := hne f (List.mem_of_getElem? hf)
            have := entry_unique hd he hf (x := (u : Int)) (by omega) (by omega)
            subst this
            rw [hf] at he; cases he; omega
      have ih' := fun loc => ih (fun ci hci => hv ci (by simp [hci])) _ _ _ d' h2
        (by intro e he
            rcases hst' e he with h | h | h
            · left; simp only [width_units] at *; omega
            · left; rw [← width_units]; omega
            · right; exact h)
        (by intro e he
            rcases hsp' e he with h | h | h
            · left; rw [← width_units]; omega
            · left; rw [← width_units]; omega
            · right; exact h)
        (fun k hk => htgt k (by rw [h6]; exact hk)) loc _ hI2
      simp only [opsC]
      rw [List.map_append, hu', ← hhand]
      rcases decodeInstr_ok hP hci h1 with ⟨hn, _, rfl⟩ | ⟨i, rfl, hvi, hn, ho, hl, arg, ha, hia⟩
      · rw [List.nil_append, opsB_ends, ih', width_units]
        simp [expandC, hn, locLine?]
      · rw [List.singleton_append, opsB, List.map_append, opsB_ends, ih', width_units]
        congr 1
        apply map_handler'
        rw [expand_length_B, expand_length_C, hn, ho]

end
end Verif
