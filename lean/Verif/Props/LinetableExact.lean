import Verif.Props.LineTables
import Verif.Spec.LinesRight
/-
C06, exact version: which codes have the right lines in their 3.10 table.
-/
namespace Verif
open Spec

/-- the lines read from one range of the table -/
def segLines (ref : Int) (len : Nat) : Option Int → List (Option Int)
  | some d => List.replicate len (some (ref + d))
  | none => List.replicate (min len 254) none ++ List.replicate (len - 254) (some ref)

theorem segLines_length (ref : Int) (len : Nat) (d : Option Int) : (segLines ref len d).length = len := by
  cases d <;> simp [segLines]; omega

/-- the reference line after a range -/
def segRef (ref : Int) : Option Int → Int
  | some d => ref + d
  | none => ref

theorem packLinetable_none_any (doff : Int) (h : 0 ≤ doff) : ∃ bs, packLinetable doff none = .ok bs ∧
    ∀ line rest, readLinetable line (bs ++ rest) = segLines line doff.toNat none ++ readLinetable line rest := by
  by_cases h2 : doff ≤ 254
  · obtain ⟨bs, hb, hr⟩ := packLinetable_none doff h h2
    refine ⟨bs, hb, fun line rest => ?_⟩
    rw [hr line rest, segLines, Nat.min_eq_left (by omega), show doff.toNat - 254 = 0 by omega]
    simp
  · unfold packLinetable
    obtain ⟨b3, d3, e3, r1, r2, r3, r4⟩ := linetableOffLoop_ok (doff - 254) (by omega)
    obtain ⟨y, hy, hs⟩ := packBb_ok 254 (-128) (by omega)
    obtain ⟨z, hz, hsz⟩ := packBb_ok d3 0 (by omega)
    simp only [show doff > 254 by omega, if_true, hy, hz, e3, bind, Except.bind, pure, Except.pure, pyAssert]
    rw [if_pos (by simp; omega)]
    refine ⟨_, rfl, fun line rest => ?_⟩
    have t1 := Lines.nopair line (Int.toNat 254) y hs
    have t2 := Lines.pair line d3.toNat z (by omega)
    rw [hsz, Int.add_zero] at t2
    have t3 := (r4 line).append t2
    rw [show (doff - 254 - d3).toNat + d3.toNat = doff.toNat - 254 by omega] at t3
    rw [segLines, Nat.min_eq_right (by omega), List.append_assoc (List.replicate _ _), ← t3 rest]
    have t4 := t1 (b3 ++ [d3.toNat, z] ++ rest)
    rw [show (254 : Int).toNat = 254 from rfl] at t4 ⊢
    rw [← t4]
    simp only [List.append_assoc, List.nil_append]

theorem packLinetable_any (len : Nat) (dl : Option Int) : ∃ bs, packLinetable (len : Int) dl = .ok bs ∧
    ∀ line rest, readLinetable line (bs ++ rest) = segLines line len dl ++ readLinetable (segRef line dl) rest := by
  cases dl with
  | none =>
    obtain ⟨bs, hb, hr⟩ := packLinetable_none_any len (by omega)
    exact ⟨bs, hb, by simpa [segRef] using hr⟩
  | some d =>
    obtain ⟨bs, hb, hr⟩ := packLinetable_some len d (by omega)
    refine ⟨bs, hb, fun line rest => ?_⟩
    have := hr line rest
    simpa [segLines, segRef] using this

/-- what a range gains when it is extended -/
def extLines (ref : Int) (len s : Nat) : Option Int → List (Option Int)
  | some d => List.replicate s (some (ref + d))
  | none => List.replicate (min (len + s) 254 - min len 254) none ++ List.replicate (s - (254 - len)) (some ref)

theorem segLines_add (ref : Int) (len s : Nat) (d : Option Int) : segLines ref (len + s) d = segLines ref len d ++ extLines ref len s d := by
  cases d with
  | some d => simp [segLines, extLines, List.replicate_append_replicate]
  | none =>
    simp only [segLines, extLines]
    by_cases h : len ≤ 254
    · rw [show len - 254 = 0 by omega, List.replicate_zero, List.append_nil, ← List.append_assoc, List.replicate_append_replicate,
        show min len 254 + (min (len + s) 254 - min len 254) = min (len + s) 254 by omega, show len + s - 254 = s - (254 - len) by omega]
    · rw [show min (len + s) 254 - min len 254 = 0 by omega, List.replicate_zero, List.nil_append, List.append_assoc, List.replicate_append_replicate,
        show min (len + s) 254 = min len 254 by omega, show len + s - 254 = len - 254 + (s - (254 - len)) by omega]

theorem extLines_length (ref : Int) (len s : Nat) (d : Option Int) : (extLines ref len s d).length = s := by
  cases d <;> simp [extLines]; omega

theorem extLines_none {ref : Int} {len s : Nat} (hs : 0 < s) : extLines ref len s none = List.replicate s none ↔ len + s ≤ 254 := by
  constructor
  · intro h
    by_cases hl : len + s ≤ 254
    · exact hl
    · have hm : some ref ∈ extLines ref len s none := by
        simp only [extLines, List.mem_append, List.mem_replicate]
        exact .inr ⟨by omega, trivial⟩
      rw [h] at hm
      simp at hm
  · intro h
    simp only [extLines]
    rw [show s - (254 - len) = 0 by omega, show min (len + s) 254 - min len 254 = s by omega]
    simp

theorem extLines_some {ref : Int} {len s : Nat} {n : Int} (hs : 0 < s) : extLines ref len s none = List.replicate s (some n) ↔ 254 ≤ len ∧ n = ref := by
  constructor
  · intro h
    by_cases hl : 254 ≤ len
    · refine ⟨hl, ?_⟩
      have hm : some ref ∈ extLines ref len s none := by
        simp only [extLines, List.mem_append, List.mem_replicate]
        exact .inr ⟨by omega, trivial⟩
      rw [h] at hm
      simp at hm
      exact hm.2.symm
    · have hm : none ∈ extLines ref len s none := by
        simp only [extLines, List.mem_append, List.mem_replicate]
        exact .inl ⟨by omega, trivial⟩
      rw [h] at hm
      simp at hm
  · rintro ⟨h, rfl⟩
    simp only [extLines]
    rw [show s - (254 - len) = s by omega, show min (len + s) 254 - min len 254 = 0 by omega]
    simp

/-- the bytes of the instructions, with their lines -/
def byteLines (cur : Nat) (es : List CElem) : List (Option Int) :=
  (instrLines cur es).flatMap (fun p => List.replicate p.1 (p.2.map Int.ofNat))

theorem append_iff {α : Type} {a a' b b' : List α} (h : a.length = a'.length) {p q : Prop} (h1 : a = a' ↔ p) (h2 : p → (b = b' ↔ q)) :
    a ++ b = a' ++ b' ↔ p ∧ q := by
  constructor
  · intro e
    obtain ⟨e1, e2⟩ := List.append_inj e h
    exact ⟨h1.1 e1, (h2 (h1.1 e1)).1 e2⟩
  · rintro ⟨hp, hq⟩
    rw [h1.2 hp, (h2 hp).2 hq]

theorem linetableLoop_exact (P : Platform) (hP : P.py310 = true) (es : List CElem) :
    ∀ (start len cur oldLine : Nat) (ref : Int) (dl : Option Int),
    (∀ i, .instr i ∈ es → i.size % 2 = 0 ∧ 0 < i.size) → start % 2 = 0 → len % 2 = 0 →
    ∃ bs tail, assembleLinetableLoop start oldLine dl ((start + len : Nat) : Int)
        (assembleCodeLoop P ((start + len) / 2) (normalizeLineno cur es)).2 = .ok bs ∧
      readLinetable ref bs = segLines ref len dl ++ tail ∧
      ((∀ d, dl = some d → ref + d = oldLine) → (dl = none → 0 ≤ ref ∧ 0 < len) →
        (tail = byteLines cur es ↔ LinesRight (if dl = none then ref.toNat else oldLine) oldLine cur (if dl = none then len else 0) es)) := by
  induction es with
  | nil =>
    intro start len cur oldLine ref dl _ hst hlen
    simp only [normalizeLineno, assembleCodeLoop, assembleLinetableLoop]
    rw [show ((start + len : Nat) : Int) - start = (len : Nat) by omega]
    obtain ⟨bs, hb, hr⟩ := packLinetable_any len dl
    refine ⟨bs, [], hb, ?_, ?_⟩
    · have := hr ref []
      simpa [readLinetable] using this
    · intro _ _
      simp [byteLines, instrLines, LinesRight]
  | cons e es ih =>
    intro start len cur oldLine ref dl hsz hst hlen
    have hsz' : ∀ i, .instr i ∈ es → i.size % 2 = 0 ∧ 0 < i.size := fun i hi => hsz i (by simp [hi])
    cases e with
    | setLineno n =>
      simp only [normalizeLineno]
      obtain ⟨bs, tail, h1, h2, h3⟩ := ih start len n oldLine ref dl hsz' hst hlen
      exact ⟨bs, tail, h1, h2, fun a b => h3 a b⟩
    | instr i =>
      obtain ⟨hi, hi0⟩ := hsz i (by simp)
      simp only [normalizeLineno, assembleCodeLoop, hP, if_true, assembleLinetableLoop]
      rw [show (start + len) / 2 * 2 = start + len by omega,
        show (start + len) / 2 + i.size / 2 = (start + (len + i.size)) / 2 by omega,
        show ((start + len : Nat) : Int) + (i.size : Nat) = ((start + (len + i.size) : Nat) : Int) by omega]
      obtain ⟨p, hp, hpl⟩ := packLinetable_any len dl
      -- an instruction with a line `n`
      have hline : ∀ n : Nat,
          ∃ bs tail, (if some ((n : Int) - oldLine) = some 0 ∨ dl = none ∧ some ((n : Int) - oldLine) = none then
              assembleLinetableLoop start oldLine dl ((start + (len + i.size) : Nat) : Int)
                (assembleCodeLoop P ((start + (len + i.size)) / 2) (normalizeLineno n es)).2
            else do
              let p ← packLinetable (((start + len : Nat) : Int) - start) dl
              let q ← assembleLinetableLoop ((start + len : Nat) : Int) n (some ((n : Int) - oldLine)) ((start + (len + i.size) : Nat) : Int)
                (assembleCodeLoop P ((start + (len + i.size)) / 2) (normalizeLineno n es)).2
              pure (p ++ q)) = .ok bs ∧
          readLinetable ref bs = segLines ref len dl ++ tail ∧
          ((∀ d, dl = some d → ref + d = oldLine) → (dl = none → 0 ≤ ref ∧ 0 < len) →
            (tail = List.replicate i.size (some (n : Int)) ++ byteLines n es ↔
              if (if dl = none then len else 0) = 0 ∨ n ≠ oldLine then
                ((if dl = none then len else 0) = 0 ∨ (if dl = none then ref.toNat else oldLine) = oldLine) ∧ LinesRight n n n 0 es
              else (254 ≤ (if dl = none then len else 0) ∧ n = (if dl = none then ref.toNat else oldLine)) ∧
                LinesRight (if dl = none then ref.toNat else oldLine) oldLine n ((if dl = none then len else 0) + i.size) es)) := by
        intro n
        by_cases hz : n = oldLine
        · subst hz
          rw [if_pos (by simp)]
          obtain ⟨bs, tail, hb, hr, hiff⟩ := ih start (len + i.size) n n ref dl hsz' hst (by omega)
          refine ⟨bs, extLines ref len i.size dl ++ tail, hb, by rw [hr, segLines_add, List.append_assoc], ?_⟩
          intro hd hn
          have hiff := hiff hd (fun h => ⟨(hn h).1, by have := (hn h).2; omega⟩)
          cases dl with
          | some d =>
            simp only [reduceCtorEq, if_false, true_or, if_true, true_and] at hiff ⊢
            have e1 : extLines ref len i.size (some d) = List.replicate i.size (some (n : Int)) := by
              simp only [extLines]; rw [hd d rfl]
            rw [e1, List.append_cancel_left_eq, hiff]
          | none =>
            obtain ⟨h0, hl⟩ := hn rfl
            simp only [if_true] at hiff ⊢
            rw [if_neg (by simp; omega)]
            refine append_iff (by simp [extLines_length]) ?_ (fun _ => hiff)
            rw [extLines_some hi0]
            constructor
            · rintro ⟨a, b⟩; exact ⟨a, by omega⟩
            · rintro ⟨a, b⟩; exact ⟨a, by omega⟩
        · rw [if_neg (by simp; omega)]
          obtain ⟨bs, tail, hb, hr, hiff⟩ := ih (start + len) i.size n n (segRef ref dl) (some ((n : Int) - oldLine)) hsz' (by omega) hi
          rw [show ((start + len : Nat) : Int) - start = (len : Nat) by omega, hp]
          rw [show start + (len + i.size) = start + len + i.size by omega]
          simp only [hb, bind, Except.bind, pure, Except.pure]
          refine ⟨p ++ bs, segLines (segRef ref dl) i.size (some ((n : Int) - oldLine)) ++ tail, rfl, ?_, ?_⟩
          · rw [hpl, hr]
          · intro hd hn
            rw [if_pos (.inr hz)]
            refine append_iff (by simp [segLines_length]) ?_ (fun hp => ?_)
            · simp only [segLines]
              have : List.replicate i.size (some (segRef ref dl + ((n : Int) - oldLine))) = List.replicate i.size (some (n : Int)) ↔ segRef ref dl = oldLine := by
                rw [List.replicate_inj]
                constructor
                · rintro ⟨_, h⟩
                  rcases h with h | h
                  · omega
                  · simp only [Option.some.injEq] at h; omega
                · intro h; exact ⟨rfl, .inr (by rw [h]; congr 1; omega)⟩
              rw [this]
              cases dl with
              | some d => simp [segRef, hd d rfl]
              | none =>
                obtain ⟨h0, hl⟩ := hn rfl
                simp only [segRef, if_true]
                omega
            · have hsr : segRef ref dl = oldLine := by
                cases dl with
                | some d => simp [segRef, hd d rfl]
                | none =>
                  obtain ⟨h0, hl⟩ := hn rfl
                  simp only [if_true] at hp
                  simp only [segRef]
                  omega
              have := hiff (by intro d h; simp only [Option.some.injEq] at h; omega) (by simp)
              simpa using this
      cases hloc : i.loc with
      | none =>
        obtain ⟨bs, tail, hb, hr, hiff⟩ := hline cur
        refine ⟨bs, tail, ?_, hr, ?_⟩
        · simpa [linetableDelta, hloc, locLine?] using hb
        · intro hd hn
          have := hiff hd hn
          simp only [LinesRight, hloc]
          rw [← this]
          simp [byteLines, instrLines, hloc]
      | some l =>
        cases hl : l.lineno with
        | some n =>
          obtain ⟨bs, tail, hb, hr, hiff⟩ := hline n
          refine ⟨bs, tail, ?_, hr, ?_⟩
          · simpa [linetableDelta, hloc, hl, locLine?] using hb
          · intro hd hn
            have := hiff hd hn
            obtain ⟨l1, l2, l3, l4⟩ := l
            simp only at hl
            subst hl
            simp only [LinesRight, hloc]
            rw [← this]
            simp [byteLines, instrLines, hloc]
        | none =>
          simp only [linetableDelta, locLine?, hl, Option.map_none, Option.bind_some, Option.getD_none]
          have hbl : byteLines cur (.instr i :: es) = List.replicate i.size none ++ byteLines cur es := by
            simp [byteLines, instrLines, hloc, hl]
          have hlr : ∀ a b c d, LinesRight a b c d (.instr i :: es) ↔ d + i.size ≤ 254 ∧ LinesRight a (if d = 0 then c else b) c (d + i.size) es := by
            intro a b c d
            obtain ⟨l1, l2, l3, l4⟩ := l
            simp only at hl
            subst hl
            simp only [LinesRight, hloc]
          rw [hbl, hlr]
          by_cases hdl : dl = none
          · subst hdl
            rw [if_pos (by simp)]
            obtain ⟨bs, tail, hb, hr, hiff⟩ := ih start (len + i.size) cur oldLine ref none hsz' hst (by omega)
            refine ⟨bs, extLines ref len i.size none ++ tail, hb, by rw [hr, segLines_add, List.append_assoc], ?_⟩
            intro hd hn
            have hiff := hiff (by simp) (fun _ => ⟨(hn rfl).1, by omega⟩)
            simp only [if_true] at hiff ⊢
            rw [if_neg (show ¬ len = 0 by have := (hn rfl).2; omega)]
            exact append_iff (by simp [extLines_length]) (extLines_none hi0) (fun _ => hiff)
          · rw [if_neg (by simp [hdl])]
            obtain ⟨bs, tail, hb, hr, hiff⟩ := ih (start + len) i.size cur cur (segRef ref dl) none hsz' (by omega) hi
            rw [show ((start + len : Nat) : Int) - start = (len : Nat) by omega, hp]
            rw [show start + (len + i.size) = start + len + i.size by omega]
            simp only [hb, bind, Except.bind, pure, Except.pure]
            refine ⟨p ++ bs, segLines (segRef ref dl) i.size none ++ tail, rfl, ?_, ?_⟩
            · rw [hpl, hr]
            · intro hd hn
              obtain ⟨d, rfl⟩ := Option.ne_none_iff_exists'.1 hdl
              have hsr : segRef ref (some d) = oldLine := hd d rfl
              rw [hsr] at hiff ⊢
              have hiff := hiff (by simp) (fun _ => ⟨by omega, by omega⟩)
              simp only [if_true, reduceCtorEq, if_false, Nat.zero_add, Int.toNat_natCast] at hiff ⊢
              refine append_iff (by simp [segLines_length]) ?_ (fun _ => hiff)
              have := @extLines_none (oldLine : Int) 0 i.size hi0
              rw [Nat.zero_add] at this
              rw [← this]
              have e := segLines_add (oldLine : Int) 0 i.size none
              rw [Nat.zero_add] at e
              rw [e]
              simp [segLines]

theorem C06_exact_aux (P : Platform) (hP : P.py310 = true) (first : Nat) (code : List CElem)
    (hsz : ∀ i, .instr i ∈ code → i.size % 2 = 0 ∧ 2 ≤ i.size) : ∀ cur,
    ∃ bs, assembleLinetable first (assembleCodeLoop P 0 (normalizeLineno cur code)).2 = .ok bs ∧
      (readLinetable first bs = byteLines cur code ↔ LinesRight first first cur 0 code) := by
  induction code with
  | nil => intro cur; exact ⟨[], rfl, by simp [readLinetable, byteLines, instrLines, LinesRight]⟩
  | cons e es ih =>
    intro cur
    have hsz' : ∀ i, .instr i ∈ es → i.size % 2 = 0 ∧ 2 ≤ i.size := fun i hi => hsz i (by simp [hi])
    have hsz'' : ∀ i, .instr i ∈ es → i.size % 2 = 0 ∧ 0 < i.size := fun i hi => by have := hsz' i hi; omega
    cases e with
    | setLineno n => exact ih hsz' n
    | instr i =>
      obtain ⟨hi, hi2⟩ := hsz i (by simp)
      have hi0 : 0 < i.size := by omega
      simp only [normalizeLineno, assembleCodeLoop, assembleLinetable, hP, if_true]
      have key := fun (cur line : Nat) (dl : Option Int) => linetableLoop_exact P hP es 0 i.size cur line first dl hsz'' rfl hi
      simp only [Nat.zero_add, Nat.zero_mul] at key ⊢
      cases hloc : i.loc with
      | none =>
        obtain ⟨bs, tail, hb, hr, hiff⟩ := key cur cur (some ((cur : Int) - first))
        refine ⟨bs, by simpa [linetableDelta, locLine?] using hb, ?_⟩
        have hiff := hiff (by intro d h; simp only [Option.some.injEq] at h; omega) (by simp)
        have e1 : byteLines cur (.instr i :: es) = segLines (first : Int) i.size (some ((cur : Int) - first)) ++ byteLines cur es := by
          simp only [byteLines, instrLines, hloc, List.flatMap_cons, segLines, Option.map_some]
          rw [show (first : Int) + (cur - first) = cur by omega]; rfl
        rw [hr, e1, List.append_cancel_left_eq, hiff]
        simp [LinesRight, hloc]
      | some l =>
        obtain ⟨l1, l2, l3, l4⟩ := l
        cases l1 with
        | some n =>
          obtain ⟨bs, tail, hb, hr, hiff⟩ := key n n (some ((n : Int) - first))
          refine ⟨bs, by simpa [linetableDelta, locLine?] using hb, ?_⟩
          have hiff := hiff (by intro d h; simp only [Option.some.injEq] at h; omega) (by simp)
          have e1 : byteLines cur (.instr i :: es) = segLines (first : Int) i.size (some ((n : Int) - first)) ++ byteLines n es := by
            simp only [byteLines, instrLines, hloc, List.flatMap_cons, segLines, Option.map_some]
            rw [show (first : Int) + (n - first) = n by omega]; rfl
          rw [hr, e1, List.append_cancel_left_eq, hiff]
          simp [LinesRight, hloc]
        | none =>
          obtain ⟨bs, tail, hb, hr, hiff⟩ := key cur cur none
          refine ⟨bs, by simpa [linetableDelta, locLine?] using hb, ?_⟩
          have hiff := hiff (by simp) (fun _ => ⟨by omega, hi0⟩)
          have e1 : byteLines cur (.instr i :: es) = List.replicate i.size none ++ byteLines cur es := by
            simp only [byteLines, instrLines, hloc, List.flatMap_cons]; rfl
          rw [hr, e1]
          simp only [if_true, Int.toNat_natCast] at hiff
          simp only [LinesRight, hloc, Nat.zero_add, if_true]
          refine append_iff (by simp [segLines_length]) ?_ (fun _ => hiff)
          have := @extLines_none (first : Int) 0 i.size hi0
          rw [Nat.zero_add] at this
          rw [← this]
          have e := segLines_add (first : Int) 0 i.size none
          rw [Nat.zero_add] at e
          rw [e]
          simp [segLines]

/-- **C06 (exact).** The table is always written, and CPython 3.10 reads from it the line of every instruction ("no line" included) for every byte of the code exactly
for the codes described by `Spec.LinesRight`. -/
theorem C06_exact (P : Platform) (hP : P.py310 = true) (first : Nat) (code : List CElem)
    (hsz : ∀ i, .instr i ∈ code → i.size % 2 = 0 ∧ 2 ≤ i.size) :
    ∃ bs, assembleLinetable first (assembleCode P first code).2 = .ok bs ∧
      (readLinetable first bs = (instrLines first code).flatMap (fun p => List.replicate p.1 (p.2.map Int.ofNat)) ↔ LinesRight first first first 0 code) :=
  C06_exact_aux P hP first code hsz first

/-- Code in which every instruction has a line always satisfies the condition. -/
theorem LinesRight_of_lines (code : List CElem) (hl : ∀ i, .instr i ∈ code → ∀ l, i.loc = some l → l.lineno ≠ none) (a b c : Nat) : LinesRight a b c 0 code := by
  induction code generalizing a b c with
  | nil => trivial
  | cons e es ih =>
    have ih' := ih (fun i hi => hl i (by simp [hi]))
    cases e with
    | setLineno n => exact ih' _ _ _
    | instr i =>
      rcases hloc : i.loc with _ | ⟨_ | n, l2, l3, l4⟩
      · simp only [LinesRight, hloc, true_or, if_true, true_and]; exact ih' _ _ _
      · exact absurd rfl (hl i (by simp) _ hloc)
      · simp only [LinesRight, hloc, true_or, if_true, true_and]; exact ih' _ _ _

/-! Runs of no-line instructions: right when followed by another line, or by nothing; wrong before the same line; right again after exactly 254 bytes. -/

example : LinesRight 1 1 1 0 [nopAt none, nopAt (some (Loc.line none)), nopAt (some (Loc.line (some 2))), nopAt none] := by decide
example : LinesRight 1 1 1 0 [nopAt none, .setLineno 5, nopAt (some (Loc.line none))] := by decide
example : ¬ LinesRight 1 1 1 0 [nopAt none, .setLineno 5, nopAt (some (Loc.line none)), nopAt (some (Loc.line (some 6)))] := by decide
example : ¬ LinesRight 1 1 1 0 [nopAt none, nopAt (some (Loc.line none)) 252, nopAt none] := by decide
example : LinesRight 1 1 1 0 [nopAt none, nopAt (some (Loc.line none)) 254, nopAt none, nopAt none] := by decide

end Verif
