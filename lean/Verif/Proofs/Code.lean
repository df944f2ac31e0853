import Verif.Model.Code
import Verif.Spec.Code
import Verif.Proofs.Convert
import Verif.Props.Disassemble
import Verif.Props.Location
import Verif.Props.ExcTable
/-
Helper lemmas for C41: a code object written and read back.
-/
namespace Verif
open Spec

/-! ### Writing -/

theorem assembleCodeLoop_bytes (P : Platform) (es : List CElem) : ∀ (first off : Nat),
    (assembleCodeLoop P off (normalizeLineno first es)).1 = (instrsOf es).flatMap (CInstr.assemble P) := by
  induction es with
  | nil => intro _ _; rfl
  | cons e es ih =>
    intro first off
    cases e with
    | setLineno n => simpa [normalizeLineno, instrsOf] using ih n off
    | instr i =>
      simp only [normalizeLineno, assembleCodeLoop, instrsOf, List.filterMap_cons, List.flatMap_cons]
      rw [ih]; rfl

theorem assembleCodeLoop_sizes (P : Platform) (es : List CElem) : ∀ (first off : Nat),
    (assembleCodeLoop P off (normalizeLineno first es)).2.map (·.size) = (instrsOf es).map (·.size) ∧
    (assembleCodeLoop P off (normalizeLineno first es)).2.map (·.loc) = (instrsOf es).map (·.loc) := by
  induction es with
  | nil => intro _ _; exact ⟨rfl, rfl⟩
  | cons e es ih =>
    intro first off
    cases e with
    | setLineno n => simpa [normalizeLineno, instrsOf] using ih n off
    | instr i =>
      simp only [normalizeLineno, assembleCodeLoop, instrsOf, List.filterMap_cons, List.map_cons]
      have := ih ((locLine? i.loc).getD first) (off + (if P.py310 then i.size / 2 else i.size))
      exact ⟨by rw [this.1]; rfl, by rw [this.2]; rfl⟩

theorem effectiveLocs_code (P : Platform) (es : List CElem) : ∀ (first off : Nat),
    effectiveLocs (assembleCodeLoop P off (normalizeLineno first es)).2 = locsOf first es := by
  induction es with
  | nil => intro _ _; rfl
  | cons e es ih =>
    intro first off
    cases e with
    | setLineno n =>
      have := ih n off
      simpa [normalizeLineno, locsOf, instrsOf, startLine] using this
    | instr i =>
      simp only [normalizeLineno, assembleCodeLoop, effectiveLocs, locsOf, startLine, instrsOf, List.filterMap_cons, List.map_cons]
      rw [(assembleCodeLoop_sizes P es _ _).2]
      cases hl : i.loc with
      | none => simp [inherit, locLine?, instrsOf]
      | some l => simp [inherit, instrsOf]

theorem inherit_cases (prev : Loc) (ls : List (Option Loc)) : ∀ l ∈ inherit prev ls, l = prev ∨ some l ∈ ls := by
  induction ls generalizing prev with
  | nil => simp [inherit]
  | cons x r ih =>
    intro l hl
    cases x with
    | none =>
      simp only [inherit, List.mem_cons] at hl
      rcases hl with rfl | hl
      · exact .inl rfl
      · rcases ih _ l hl with h | h
        · exact .inl h
        · exact .inr (by simp [h])
    | some y =>
      simp only [inherit, List.mem_cons] at hl
      rcases hl with rfl | hl
      · exact .inr (by simp)
      · rcases ih _ l hl with h | h
        · exact .inr (by simp [h])
        · exact .inr (by simp [h])

theorem inherit_length (prev : Loc) (ls : List (Option Loc)) : (inherit prev ls).length = ls.length := by
  induction ls generalizing prev with
  | nil => rfl
  | cons x r ih => cases x <;> simp [inherit, ih]

theorem locsOf_length (first : Nat) (es : List CElem) : (locsOf first es).length = (instrsOf es).length := by
  simp [locsOf, inherit_length]

/-- Lines of locations read back: none is refused but line 0 without columns. -/
theorem locOfPos_posOf (l : Loc) (hc : Coherent l) (hz : l.lineno = some 0 → l.col.isSome) :
    locOfPos (posOf l) = .ok (keptLoc l) := by
  obtain ⟨ln, el, c, ec⟩ := l
  have h1 := hc.endLine; have h2 := hc.colPair; have h3 := hc.colLine; have h4 := hc.colOrder
  simp only at h1 h2 h3 h4 hz
  cases ln with
  | none =>
    simp [posOf, keptLoc, locOfPos, Loc.make, checkLocation, pure, Except.pure, bind, Except.bind]
  | some n =>
    cases c with
    | none =>
      cases ec with
      | some _ => simp at h2
      | none =>
        have hn : n ≠ 0 := by intro h; subst h; simpa using hz rfl
        have : ¬ ((n : Int) < 0) := by omega
        have h1' : ¬ ((n : Int) < 1) := by omega
        have h0 : ¬ ((n : Int) = 0) := by omega
        simp [posOf, keptLoc, locOfPos, Loc.make, checkLocation, pure, Except.pure, bind, Except.bind, this, h1', hn]
    | some c =>
      cases ec with
      | none => simp at h2
      | some ec =>
        cases el with
        | none => simp at h3
        | some el =>
          obtain ⟨he1, b, hb, hle⟩ := h1 el rfl
          simp only [Option.some.injEq] at hb
          subst hb
          have hord : n = el → c ≤ ec := fun h => h4 (by rw [h]) c ec rfl rfl
          have a1 : ¬ ((n : Int) < 0) := by omega
          have a2 : ¬ ((el : Int) < 1) := by omega
          have a3 : ¬ ((c : Int) < 0) := by omega
          have a4 : ¬ ((ec : Int) < 0) := by omega
          have a5 : ¬ (el = 0) := by omega
          have a6 : ¬ ((n : Int) > (el : Int)) := by omega
          have a7 : ¬ (n = el ∧ ec < c) := by intro h; have := hord h.1; omega
          simp [posOf, keptLoc, locOfPos, Loc.make, checkLocation, pure, Except.pure, bind, Except.bind, a1, a2, a3, a4, a5]
          rw [if_neg (by omega)]
          rw [if_neg (by omega)]

/-! ### Positions of groups -/

/-- Offset of the last element of the k-th group. -/
def lastOf (ns : List Nat) (k : Nat) : Nat := (ns.take (k + 1)).sum - 1

theorem flatten_last {α : Type} (L : List (List α)) (hne : ∀ l ∈ L, l ≠ []) : ∀ k, k < L.length →
    L.flatten[lastOf (L.map List.length) k]? = (L[k]?).bind List.getLast? := by
  induction L with
  | nil => intro k hk; simp at hk
  | cons x L ih =>
    intro k hk
    have hx : x.length ≠ 0 := by simpa using hne x (by simp)
    cases k with
    | zero =>
      simp only [lastOf, List.map_cons, Nat.zero_add, List.take_succ_cons, List.take_zero, List.sum_cons, List.sum_nil, Nat.add_zero,
        List.flatten_cons, List.getElem?_cons_zero, Option.bind_some]
      rw [List.getElem?_append_left (by omega), List.getLast?_eq_getElem?]
    | succ k =>
      have ih' := ih (fun l hl => hne l (by simp [hl])) k (by simpa using hk)
      have hpos : 0 < ((L.map List.length).take (k + 1)).sum := by
        cases L with
        | nil => simp at hk
        | cons y L =>
          have : y.length ≠ 0 := by simpa using hne y (by simp)
          simp only [List.map_cons, List.take_succ_cons, List.sum_cons]; omega
      simp only [List.getElem?_cons_succ]
      rw [← ih']
      simp only [lastOf, List.map_cons, List.take_succ_cons, List.sum_cons, List.flatten_cons]
      rw [List.getElem?_append_right (by omega)]
      congr 1
      omega

theorem groupLast_get : ∀ (ns : List Nat) (ls : List (Option Loc)), (∀ n ∈ ns, 0 < n) → ∀ k, k < ns.length →
    ns.sum ≤ ls.length → (groupLast ns ls)[k]? = some (ls[lastOf ns k]?.join) := by
  intro ns
  induction ns with
  | nil => intro ls _ k hk; simp at hk
  | cons n ns ih =>
    intro ls hp k hk hlen
    simp only [List.sum_cons] at hlen
    have hn : 0 < n := hp n (by simp)
    cases k with
    | zero =>
      simp only [groupLast, List.getElem?_cons_zero, lastOf, Nat.zero_add, List.take_succ_cons, List.take_zero, List.sum_cons, List.sum_nil, Nat.add_zero]
      rw [List.getLast?_eq_getElem?, List.getElem?_take, List.length_take, Nat.min_eq_left (by omega)]
      rw [if_pos (by omega)]
    | succ k =>
      simp only [groupLast, List.getElem?_cons_succ]
      rw [ih (ls.drop n) (fun m hm => hp m (by simp [hm])) k (by simpa using hk) (by simp; omega)]
      congr 2
      have hpos : 0 < (ns.take (k + 1)).sum := by
        cases ns with
        | nil => simp at hk
        | cons m ns =>
          have : 0 < m := hp m (by simp)
          simp only [List.take_succ_cons, List.sum_cons]; omega
      simp only [lastOf, List.take_succ_cons, List.sum_cons, List.getElem?_drop]
      congr 1
      omega

theorem perUnit_flatten {α : Type} (sizes : List Nat) (xs : List α) :
    perUnit sizes xs = (List.zipWith (fun s x => List.replicate (s / 2) x) sizes xs).flatten := rfl

/-! ### Reading -/

/-- What a read unit is without its location. -/
theorem make_loc (P : Platform) (n : Option String) (a : CArg) (l : Loc) :
    CInstr.make P n a .unset (some l) = (CInstr.make P n a).map (fun i => { i with loc := some l }) := by
  unfold CInstr.make
  simp only [initLocation, bind, Except.bind, pure, Except.pure, Except.map]
  generalize CInstr.set_ P _ n a = r
  obtain ⟨s, r⟩ := r
  cases r with
  | error e => rfl
  | ok u => rfl

theorem cacheReads_spec (P : Platform) (loc : Loc) (cu : CInstr) (hcu : CInstr.make P (some "CACHE") (.int 0) = .ok cu)
    (h0 : cu.opcode = 0) (hcl : cu.loc = none) : ∀ (n : Nat) (pos : List Pos),
    (∀ p ∈ pos, ∃ l, locOfPos p = .ok l) →
    ∃ us : List CInstr, cacheReads P loc pos n = .ok us ∧ us.map noLoc = List.replicate n cu ∧
      ∀ (k : Nat) (u : CInstr), us[k]? = some u → P.py313 = false → ∀ l, locOfPos (pos[k]?.getD noPos) = .ok l → u.loc = some l := by
  intro n
  induction n with
  | zero => intro pos _; exact ⟨[], rfl, rfl, by simp⟩
  | succ n ih =>
    intro pos hpos
    obtain ⟨us, h1, h2, h3⟩ := ih (pos.drop 1) (fun p hp => hpos p (List.mem_of_mem_drop hp))
    have hhd : ∃ l0, locOfPos (pos.headD noPos) = .ok l0 := by
      cases pos with
      | nil => exact ⟨⟨none, none, none, none⟩, rfl⟩
      | cons p r => exact hpos p (by simp)
    obtain ⟨l0, hl0⟩ := hhd
    obtain ⟨l1, hl1⟩ : ∃ l1, (if P.py313 then (.ok loc : Py Loc) else locOfPos (pos.headD noPos)) = .ok l1 := by
      by_cases h : P.py313
      · exact ⟨loc, by simp [h]⟩
      · exact ⟨l0, by rw [if_neg h]; exact hl0⟩
    refine ⟨{ cu with loc := some l1 } :: us, ?_, ?_, ?_⟩
    · unfold cacheReads
      rw [hl1]
      simp only [bind, Except.bind]
      rw [make_loc, hcu]
      simp only [Except.map]
      rw [h1]; rfl
    · simp only [List.map_cons, h2, List.replicate_succ, List.cons.injEq, and_true]
      simp [noLoc, ← hcl]
    · intro k u hk h13 l hl
      cases k with
      | zero =>
        simp only [List.getElem?_cons_zero, Option.some.injEq] at hk
        subst hk
        simp only [h13, Bool.false_eq_true, if_false] at hl1
        have : pos[0]?.getD noPos = pos.headD noPos := by cases pos <;> rfl
        rw [this, hl1] at hl
        simpa using hl
      | succ k =>
        refine h3 k u (by simpa using hk) h13 l ?_
        rw [List.getElem?_drop]
        rw [Nat.add_comm 1 k]; exact hl

theorem cacheUnit_make (P : Platform) (hP : P.WF) (h11 : P.py311 = true) : CInstr.make P (some "CACHE") (.int 0) = .ok cacheUnit := by
  have h := make_ok P hP "CACHE" 0 (hP.cache h11).1 (hP.cache h11).2 (some 0) (by simp) (by simp) (by simp) none none
  rw [sizeFor_small _ (by simp)] at h
  exact h

theorem cacheReads_length {P : Platform} {loc : Loc} {n : Nat} : ∀ {pos : List Pos} {us : List CInstr}, cacheReads P loc pos n = .ok us → us.length = n := by
  induction n with
  | zero => intro pos us h; simp only [cacheReads, Except.ok.injEq] at h; subst h; rfl
  | succ n ih =>
    intro pos us h
    unfold cacheReads at h
    obtain ⟨l, _, h⟩ := except_bind_ok h
    obtain ⟨i, _, h⟩ := except_bind_ok h
    obtain ⟨r, hr, h⟩ := except_bind_ok h
    simp only [pure, Except.pure, Except.ok.injEq] at h
    subst h
    simp [ih hr]

theorem disCode_units (P : Platform) (h11 : P.py311 = true) (hP : P.WF) (n : Nat) : ∀ (code : Bytes), code.length ≤ n →
    ∀ (caches : Nat) (pos : List Pos) (us : List CInstr),
    disUnits P caches code = .ok us → (∀ p ∈ pos, ∃ l, locOfPos p = .ok l) →
    ∃ us' : List CInstr, disCode P caches pos code = .ok us' ∧ us'.map noLoc = us.map noLoc ∧
      ∀ (k : Nat) (u : CInstr), us'[k]? = some u → (u.opcode ≠ 0 ∨ P.py313 = false) → ∀ l, locOfPos (pos[k]?.getD noPos) = .ok l → u.loc = some l := by
  have hcu := cacheUnit_make P hP h11
  induction n with
  | zero =>
    intro code hlen caches pos us h _
    have : code = [] := List.length_eq_zero_iff.1 (by omega)
    subst this
    simp only [disUnits, Except.ok.injEq] at h
    subst h
    exact ⟨[], rfl, rfl, by simp⟩
  | succ n ih =>
    intro code hlen caches pos us h hpos
    match code, hlen with
    | [], _ =>
      simp only [disUnits, Except.ok.injEq] at h
      subst h
      exact ⟨[], rfl, rfl, by simp⟩
    | [x], _ =>
      simp only [disUnits, Except.ok.injEq] at h
      subst h
      exact ⟨[], rfl, rfl, by simp⟩
    | op :: a :: rest, hlen =>
      simp only [List.length_cons] at hlen
      cases caches with
      | succ c =>
        rw [disUnits] at h
        obtain ⟨us', h1, h2, h3⟩ := ih rest (by omega) c pos us h hpos
        exact ⟨us', by rw [disCode]; exact h1, h2, h3⟩
      | zero =>
        rw [disUnits] at h
        obtain ⟨name, hn, h⟩ := except_bind_ok h
        obtain ⟨i, hi, h⟩ := except_bind_ok h
        obtain ⟨cs, hcs, h⟩ := except_bind_ok h
        obtain ⟨r, hr, h⟩ := except_bind_ok h
        simp only [pure, Except.pure, Except.ok.injEq] at h
        subst h
        rw [mapM_const _ cacheUnit (fun _ => hcu)] at hcs
        simp only [List.length_replicate, Except.ok.injEq] at hcs
        subst hcs
        obtain ⟨r', hr1, hr2, hr3⟩ := ih rest (by omega) _ (pos.drop (1 + P.cacheEntries op)) r hr
          (fun p hp => hpos p (List.mem_of_mem_drop hp))
        obtain ⟨l0, hl0⟩ : ∃ l0, locOfPos (pos.headD noPos) = .ok l0 := by
          cases pos with
          | nil => exact ⟨⟨none, none, none, none⟩, rfl⟩
          | cons p r => exact hpos p (by simp)
        obtain ⟨cs', hc1, hc2, hc3⟩ := cacheReads_spec P l0 cacheUnit hcu rfl rfl (P.cacheEntries op) (pos.drop 1)
          (fun p hp => hpos p (List.mem_of_mem_drop hp))
        have hclen := cacheReads_length hc1
        have hcop : ∀ u ∈ cs', u.opcode = 0 := by
          intro u hu
          have : noLoc u ∈ cs'.map noLoc := List.mem_map_of_mem hu
          rw [hc2] at this
          have := (List.mem_replicate.1 this).2
          have h0 : (noLoc u).opcode = 0 := by rw [this]; rfl
          exact h0
        refine ⟨{ i with loc := some l0 } :: cs' ++ r', ?_, ?_, ?_⟩
        · cases hno : P.opname op with
          | none => rw [hno] at hn; simp at hn
          | some nm =>
          rw [hno] at hn
          simp only [Except.ok.injEq] at hn
          subst hn
          rw [disCode, hno]
          simp only [bind, Except.bind]
          rw [hl0]
          simp only
          rw [make_loc, hi]
          simp only [Except.map]
          rw [hc1]
          simp only
          rw [hr1]; rfl
        · have : (List.replicate (P.cacheEntries op) cacheUnit).map noLoc = List.replicate (P.cacheEntries op) cacheUnit := by
            simp [List.map_replicate, noLoc, cacheUnit]
          simp only [List.cons_append, List.map_cons, List.map_append, hc2, hr2, this]
          rfl
        · intro k u hk hop l hl
          cases k with
          | zero =>
            simp only [List.cons_append, List.getElem?_cons_zero, Option.some.injEq] at hk
            subst hk
            have : pos[0]?.getD noPos = pos.headD noPos := by cases pos <;> rfl
            rw [this, hl0] at hl
            simpa using hl
          | succ k =>
            simp only [List.cons_append, List.getElem?_cons_succ] at hk
            by_cases hk' : k < cs'.length
            · rw [List.getElem?_append_left hk'] at hk
              have h13 : P.py313 = false := by
                rcases hop with h | h
                · exact absurd (hcop u (List.mem_of_getElem? hk)) h
                · exact h
              refine hc3 k u hk h13 l ?_
              rw [List.getElem?_drop, Nat.add_comm 1 k]; exact hl
            · rw [List.getElem?_append_right (by omega)] at hk
              refine hr3 _ u hk hop l ?_
              rw [List.getElem?_drop]
              rw [show 1 + P.cacheEntries op + (k - cs'.length) = k + 1 by omega]; exact hl

theorem unitInstrs_last (P : Platform) (f : Option Nat → Option Nat) (i : CInstr) :
    ∃ u, (unitInstrs P f i).getLast? = some u ∧ u.opcode = i.opcode := by
  unfold unitInstrs
  split
  · exact ⟨_, rfl, rfl⟩
  · rename_i a _
    exact ⟨⟨i.name, i.opcode, some (a % 256), none, none, 2⟩, by simp, rfl⟩

theorem read_back (P : Platform) (hP : P.WF) (h11 : P.py311 = true) (is : List CInstr) (hl : CacheLayout P is)
    (hv : ∀ i ∈ is, ValidCInstr P i) (hs : ∀ i ∈ is, (i.assemble P).length = i.size) (hn : ∀ i ∈ is, i.name ≠ "EXTENDED_ARG")
    (pos : List Pos) (hpos : ∀ p ∈ pos, ∃ l, locOfPos p = .ok l) :
    ∃ us js : List CInstr, disCode P 0 pos (is.flatMap (CInstr.assemble P)) = .ok us ∧
      removeExtendedArgs P 0 none (us.map .instr) = .ok (js.map .instr) ∧ js.map noLoc = is.map (reread (fun _ => some 0)) ∧
      ∀ (k : Nat) (i j : CInstr), is[k]? = some i → js[k]? = some j → (i.opcode ≠ 0 ∨ P.py313 = false) →
        ∀ l, locOfPos (pos[lastOf (is.map (fun i => i.size / 2)) k]?.getD noPos) = .ok l → j.loc = some l := by
  have hr : ∀ i ∈ is, Readable P i := fun i hi => ⟨hv i hi, hs i hi, hn i hi⟩
  obtain ⟨h1, h2⟩ := disUnits_layout P hP h11 is hl hr
  obtain ⟨us, hu1, hu2, hu3⟩ := disCode_units P h11 hP _ _ (Nat.le_refl _) 0 pos _ h1 hpos
  have hnl : (is.flatMap (unitInstrs P (fun _ => some 0))).map noLoc = is.flatMap (unitInstrs P (fun _ => some 0)) := by
    rw [List.map_flatMap]
    apply flatMap_congr'
    intro i _
    unfold unitInstrs
    split <;> simp [noLoc, extInstr]
  rw [hnl] at hu2
  obtain ⟨js, h3, h4, h5⟩ := removeExtendedArgs_list P hP (fun _ => some 0) is hr
    (fun i hi h0 => ⟨h2 i hi h0, fun a ha => by simp at ha; omega⟩) _ hu2
  refine ⟨us, js, hu1, h3, h4, ?_⟩
  intro k i j hi hj hop l hloc
  have hk : k < is.length := (List.getElem?_eq_some_iff.1 hi).1
  have hgrp : is.map (fun i => 1 + nPrefix i) = is.map (fun i => i.size / 2) := by
    apply List.map_congr_left
    intro i hi
    have := size_of_units (hr i hi)
    omega
  have hlens : (is.map (unitInstrs P (fun _ => some 0))).map List.length = is.map (fun i => i.size / 2) := by
    rw [← hgrp, List.map_map]
    apply List.map_congr_left
    intro i hi
    exact unitInstrs_length P _ i (h2 i hi)
  have hlast := flatten_last (is.map (unitInstrs P (fun _ => some 0))) (by
    intro x hx
    obtain ⟨i, _, rfl⟩ := List.mem_map.1 hx
    obtain ⟨u, hu, _⟩ := unitInstrs_last P (fun _ => some 0) i
    intro h; rw [h] at hu; simp at hu) k (by simpa using hk)
  rw [hlens, List.getElem?_map, hi] at hlast
  obtain ⟨u0, hu0, hu0op⟩ := unitInstrs_last P (fun _ => some 0) i
  simp only [Option.map_some, Option.bind_some, hu0] at hlast
  rw [← List.flatMap_def, ← hu2, List.getElem?_map] at hlast
  cases hus : us[lastOf (is.map (fun i => i.size / 2)) k]? with
  | none => rw [hus] at hlast; simp at hlast
  | some u =>
    rw [hus] at hlast
    simp only [Option.map_some, Option.some.injEq] at hlast
    have huop : u.opcode = i.opcode := by rw [← hu0op, ← hlast]; rfl
    have hul := hu3 _ u hus (by rw [huop]; exact hop) l hloc
    have hlen : (is.map (fun i => i.size / 2)).sum ≤ (us.map (·.loc)).length := by
      have : (us.map noLoc).length = (is.map (fun i => i.size / 2)).sum := by
        rw [hu2, ← hlens, List.flatMap_def, List.length_flatten]
      simp only [List.length_map] at this ⊢
      omega
    have hg := groupLast_get (is.map (fun i => i.size / 2)) (us.map (·.loc)) (by
      intro n hn
      obtain ⟨i, hi, rfl⟩ := List.mem_map.1 hn
      have := size_of_units (hr i hi)
      omega) k (by simpa using hk) hlen
    rw [← hgrp, ← h5, hgrp, List.getElem?_map, hj, List.getElem?_map, hus] at hg
    simpa [hul] using hg

/-- The position of the last unit of each instruction. -/
theorem perUnit_last {α : Type} (sizes : List Nat) (xs : List α) (hlen : sizes.length = xs.length) (hs : ∀ s ∈ sizes, 2 ≤ s) (k : Nat)
    (hk : k < xs.length) : (perUnit sizes xs)[lastOf (sizes.map (· / 2)) k]? = xs[k]? := by
  have hl := flatten_last (List.zipWith (fun s x => List.replicate (s / 2) x) sizes xs) (by
    intro l hl
    obtain ⟨s, x, rfl, hs'⟩ : ∃ s x, l = List.replicate (s / 2) x ∧ s ∈ sizes := by
      rw [List.mem_iff_getElem?] at hl
      obtain ⟨n, hn⟩ := hl
      rw [List.getElem?_zipWith] at hn
      cases h1 : sizes[n]? with
      | none => simp [h1] at hn
      | some s =>
        cases h2 : xs[n]? with
        | none => simp [h1, h2] at hn
        | some x =>
          simp only [h1, h2, Option.some.injEq] at hn
          exact ⟨s, x, hn.symm, List.mem_of_getElem? h1⟩
    have := hs s hs'
    intro h
    have := congrArg List.length h
    simp at this
    omega) k (by simp; omega)
  have hmap : (List.zipWith (fun s x => List.replicate (s / 2) x) sizes xs).map List.length = sizes.map (· / 2) := by
    rw [List.map_zipWith]
    simp only [List.length_replicate]
    clear hl
    induction sizes generalizing xs k with
    | nil => rfl
    | cons s sizes ih =>
      cases xs with
      | nil => simp at hlen
      | cons x xs =>
        simp only [List.zipWith_cons_cons, List.map_cons, List.cons.injEq, true_and]
        cases xs with
        | nil => simp at hlen; subst hlen; rfl
        | cons y ys => exact ih (y :: ys) (by simpa using hlen) (fun t ht => hs t (by simp [ht])) 0 (by simp)
  rw [hmap] at hl
  rw [perUnit_flatten, hl, List.getElem?_zipWith]
  have h1 : sizes[k]? = some sizes[k] := by simp
  have h2 : xs[k]? = some xs[k] := by simp
  rw [h1, h2]
  have := hs sizes[k] (by simp)
  simp [List.getLast?_replicate]
  omega

end Verif
