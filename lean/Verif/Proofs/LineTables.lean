import Verif.Spec.LineTables
namespace Verif
open Spec

theorem packBb_ok (a b : Int) (h : 0 ≤ a ∧ a ≤ 255 ∧ -128 ≤ b ∧ b ≤ 127) :
    ∃ y, packBb a b = .ok [a.toNat, y] ∧ signed y = b := by
  refine ⟨(if b < 0 then b + 256 else b).toNat, by rw [packBb, if_pos h], ?_⟩
  unfold signed
  split <;> split <;> omega

/-! ### lnotab -/

/-- `bs` encodes an advance of `doff` bytes and `dl` lines. -/
def Advances (bs : Bytes) (doff : Nat) (dl : Int) : Prop :=
  ∀ addr line q rest, lnotabLine addr line q (bs ++ rest) =
    if q < addr + doff then line else lnotabLine (addr + doff) (line + dl) q rest

theorem Advances.nil : Advances [] 0 0 := by
  intro addr line q rest
  simp only [List.nil_append, Nat.add_zero, Int.add_zero]
  split
  · rename_i h
    -- an address before the current one
    match rest with
    | [] => rfl
    | [_] => rfl
    | d :: l :: r => rw [lnotabLine, if_pos (by omega)]
  · rfl

theorem lnotabLine_before (bs : Bytes) (addr : Nat) (line : Int) (q : Nat) (h : q < addr) :
    lnotabLine addr line q bs = line := by
  have := Advances.nil addr line q bs
  rw [if_pos (by omega)] at this
  simpa using this

theorem Advances.append {a b : Bytes} {da db : Nat} {la lb : Int} (ha : Advances a da la) (hb : Advances b db lb)
    (h0 : la = 0 ∨ db = 0) : Advances (a ++ b) (da + db) (la + lb) := by
  intro addr line q rest
  rw [List.append_assoc, ha, hb, Nat.add_assoc, Int.add_assoc]
  by_cases h1 : q < addr + da
  · rw [if_pos h1, if_pos (by omega)]
  · rw [if_neg h1]
    by_cases h2 : q < addr + (da + db)
    · rw [if_pos h2, if_pos h2]
      rcases h0 with h | h
      · omega
      · omega
    · rw [if_neg h2, if_neg h2]

theorem Advances.pair (d y : Nat) : Advances [d, y] d (signed y) := by
  intro addr line q rest
  simp [lnotabLine]

theorem lnotabOffLoop_ok (doff : Int) (h : 0 ≤ doff) :
    ∃ b d, lnotabOffLoop doff = (b, d) ∧ 0 ≤ d ∧ d ≤ 255 ∧ d ≤ doff ∧ Advances b (doff - d).toNat 0 := by
  induction doff using lnotabOffLoop.induct with
  | case1 doff hgt b d heq ih =>
    obtain ⟨b', d', he, h1, h2, h3, h4⟩ := ih (by omega)
    rw [he] at heq
    rw [lnotabOffLoop, if_pos hgt, he]
    refine ⟨_, _, rfl, h1, h2, by omega, ?_⟩
    have := Advances.append (Advances.pair 255 0) h4 (.inl rfl)
    rw [show (doff - d').toNat = 255 + (doff - 255 - d').toNat by omega]
    simpa [signed] using this
  | case2 doff hle =>
    rw [lnotabOffLoop, if_neg hle]
    exact ⟨[], doff, rfl, h, by omega, by omega, by simpa using Advances.nil⟩

theorem lnotabNegLoop_ok (doff dl : Int) (h : 0 ≤ doff ∧ doff ≤ 255) :
    ∃ b d l, lnotabNegLoop doff dl = .ok (b, d, l) ∧ 0 ≤ d ∧ d ≤ doff ∧ -128 ≤ l ∧ (l = dl ∨ l < 0) ∧
      (d = doff ∧ l = dl ∨ d = 0) ∧ Advances b (doff - d).toNat (dl - l) := by
  fun_induction lnotabNegLoop doff dl with
  | case1 doff dl hlt ih =>
    obtain ⟨b', d', l', he, h1, h2, h3, h3', h4, h5⟩ := ih (by omega)
    obtain ⟨y, hy, hs⟩ := packBb_ok doff (-128) (by omega)
    simp only [he, hy, bind, Except.bind, pure, Except.pure]
    refine ⟨_, _, _, rfl, h1, by omega, h3, by omega, .inr (by omega), ?_⟩
    have hd : d' = 0 := by omega
    subst hd
    have := Advances.append (Advances.pair doff.toNat y) h5 (.inr (by omega))
    rw [hs] at this
    rw [show (doff - 0).toNat = doff.toNat + (0 - 0 : Int).toNat by omega, show dl - l' = -128 + (dl + 128 - l') by omega]
    exact this
  | case2 doff dl hge =>
    exact ⟨[], doff, dl, rfl, h.1, by omega, by omega, .inl rfl, .inl ⟨rfl, rfl⟩, by simpa using Advances.nil⟩

theorem lnotabPosLoop_ok (doff dl : Int) (h : 0 ≤ doff ∧ doff ≤ 255) (hl : -128 ≤ dl) :
    ∃ b d l, lnotabPosLoop doff dl = .ok (b, d, l) ∧ 0 ≤ d ∧ d ≤ doff ∧ -128 ≤ l ∧ l ≤ 127 ∧
      (d = doff ∧ l = dl ∨ d = 0) ∧ Advances b (doff - d).toNat (dl - l) := by
  fun_induction lnotabPosLoop doff dl with
  | case1 doff dl hlt ih =>
    obtain ⟨b', d', l', he, h1, h2, h3, h3', h4, h5⟩ := ih (by omega) (by omega)
    obtain ⟨y, hy, hs⟩ := packBb_ok doff 127 (by omega)
    simp only [he, hy, bind, Except.bind, pure, Except.pure]
    refine ⟨_, _, _, rfl, h1, by omega, h3, by omega, .inr (by omega), ?_⟩
    have hd : d' = 0 := by omega
    subst hd
    have := Advances.append (Advances.pair doff.toNat y) h5 (.inr (by omega))
    rw [hs] at this
    rw [show (doff - 0).toNat = doff.toNat + (0 - 0 : Int).toNat by omega, show dl - l' = 127 + (dl - 127 - l') by omega]
    exact this
  | case2 doff dl hge =>
    exact ⟨[], doff, dl, rfl, h.1, by omega, by omega, by omega, .inl ⟨rfl, rfl⟩, by simpa using Advances.nil⟩

theorem lnotabEntry_ok (doff dl : Int) (h : 0 ≤ doff) :
    ∃ bs, lnotabEntry doff dl = .ok bs ∧ Advances bs doff.toNat dl := by
  unfold lnotabEntry
  obtain ⟨b1, d1, e1, p1, p2, p3, p4⟩ := lnotabOffLoop_ok doff h
  obtain ⟨b2, d2, l2, e2, q1, q2, q3, q4, q5, q6⟩ := lnotabNegLoop_ok d1 dl ⟨p1, p2⟩
  obtain ⟨b3, d3, l3, e3, r1, r2, r3, r4, r5, r6⟩ := lnotabPosLoop_ok d2 l2 (by omega) q3
  obtain ⟨y, hy, hs⟩ := packBb_ok d3 l3 (by omega)
  simp only [e1, e2, e3, hy, bind, Except.bind, pure, Except.pure, pyAssert]
  rw [if_pos (by simp; omega), if_pos (by simp; omega)]
  refine ⟨_, rfl, ?_⟩
  have a1 := Advances.append p4 q6 (.inl rfl)
  have a2 := Advances.append a1 r6 (by omega)
  have a3 := Advances.append a2 (Advances.pair d3.toNat y) (by omega)
  rw [hs] at a3
  rw [show doff.toNat = (doff - d1).toNat + (d1 - d2).toNat + (d2 - d3).toNat + d3.toNat by omega,
    show dl = 0 + (dl - l2) + (l2 - l3) + l3 by omega]
  exact a3

/-- Line at `q` according to the list of infos: that of the last one starting at or before `q`. -/
def infoLine (line : Int) (q : Nat) : List LineInfo → Int
  | [] => line
  | i :: r => if q < i.offset then line else infoLine i.lineno q r

/-- offsets do not decrease -/
def Sorted (off : Nat) : List LineInfo → Prop
  | [] => True
  | i :: r => off ≤ i.offset ∧ Sorted i.offset r

theorem Sorted.mono {a b : Nat} {l : List LineInfo} (h : Sorted a l) (hb : b ≤ a) : Sorted b l := by
  cases l with
  | nil => trivial
  | cons i r => exact ⟨by have := h.1; omega, h.2⟩

theorem infoLine_before (l : List LineInfo) (off : Nat) (line : Int) (q : Nat) (hs : Sorted off l) (h : q < off) :
    infoLine line q l = line := by
  cases l with
  | nil => rfl
  | cons i r => have := hs.1; rw [infoLine, if_pos (by omega)]

theorem assembleLnotabLoop_ok (l : List LineInfo) : ∀ (off : Nat) (line : Int), Sorted off l →
    ∃ bs, assembleLnotabLoop off line l = .ok bs ∧ ∀ q, lnotabLine off line q bs = infoLine line q l := by
  induction l with
  | nil => intro off line _; exact ⟨[], rfl, fun q => rfl⟩
  | cons i r ih =>
    intro off line ⟨h1, h2⟩
    rw [assembleLnotabLoop]
    by_cases hd : (i.lineno : Int) - line = 0
    · rw [if_pos hd]
      obtain ⟨bs, hb, hq⟩ := ih off line (h2.mono h1)
      refine ⟨bs, hb, fun q => ?_⟩
      rw [hq, infoLine]
      by_cases hlt : q < i.offset
      · rw [if_pos hlt, infoLine_before r i.offset line q h2 hlt]
      · rw [if_neg hlt, show (i.lineno : Int) = line by omega]
    · rw [if_neg hd]
      obtain ⟨bs, hb, hq⟩ := ih i.offset i.lineno h2
      obtain ⟨p, hp, ha⟩ := lnotabEntry_ok ((i.offset : Int) - off) ((i.lineno : Int) - line) (by omega)
      refine ⟨p ++ bs, by simp [hp, hb, bind, Except.bind, pure, Except.pure], fun q => ?_⟩
      rw [ha, infoLine, show off + ((i.offset : Int) - off).toNat = i.offset by omega,
        show line + ((i.lineno : Int) - line) = i.lineno by omega, hq]

/-! ### linetable -/

/-- `bs` encodes `n` bytes of code at line `x` and leaves the running line at `line'`. -/
def Lines (line : Int) (bs : Bytes) (n : Nat) (x : Option Int) (line' : Int) : Prop :=
  ∀ rest, readLinetable line (bs ++ rest) = List.replicate n x ++ readLinetable line' rest

theorem Lines.pair (line : Int) (d y : Nat) (h : signed y ≠ -128) :
    Lines line [d, y] d (some (line + signed y)) (line + signed y) := by
  intro rest; simp [readLinetable, h]

theorem Lines.nopair (line : Int) (d y : Nat) (h : signed y = -128) : Lines line [d, y] d none line := by
  intro rest; simp [readLinetable, h]

theorem Lines.append {l l' l'' : Int} {a b : Bytes} {n m : Nat} {x : Option Int} (ha : Lines l a n x l')
    (hb : Lines l' b m x l'') : Lines l (a ++ b) (n + m) x l'' := by
  intro rest
  rw [List.append_assoc, ha, hb, ← List.append_assoc, List.replicate_append_replicate]

theorem Lines.zero {l l' : Int} {a : Bytes} {x : Option Int} (h : Lines l a 0 x l') (y) : Lines l a 0 y l' := by
  intro rest; simpa using h rest

theorem linetableNegLoop_ok (dl : Int) : ∃ b l, linetableNegLoop dl = .ok (b, l) ∧ -127 ≤ l ∧ (l = dl ∨ l < 0) ∧
    ∀ line x, Lines line b 0 x (line + (dl - l)) := by
  fun_induction linetableNegLoop dl with
  | case1 dl hlt ih =>
    obtain ⟨b', l', he, h1, h2, h3⟩ := ih
    obtain ⟨y, hy, hs⟩ := packBb_ok 0 (-127) (by omega)
    simp only [he, hy, bind, Except.bind, pure, Except.pure]
    refine ⟨_, _, rfl, h1, by omega, fun line x => ?_⟩
    have := ((Lines.pair line 0 y (by omega)).zero x).append (h3 (line + signed y) x)
    rw [hs] at this
    rw [show line + (dl - l') = line + -127 + (dl + 127 - l') by omega]
    exact this
  | case2 dl hge => exact ⟨[], dl, rfl, by omega, .inl rfl, fun line x rest => by simp⟩

theorem linetablePosLoop_ok (dl : Int) (h : -127 ≤ dl) : ∃ b l, linetablePosLoop dl = .ok (b, l) ∧ -127 ≤ l ∧ l ≤ 127 ∧
    ∀ line x, Lines line b 0 x (line + (dl - l)) := by
  fun_induction linetablePosLoop dl with
  | case1 dl hlt ih =>
    obtain ⟨b', l', he, h1, h2, h3⟩ := ih (by omega)
    obtain ⟨y, hy, hs⟩ := packBb_ok 0 127 (by omega)
    simp only [he, hy, bind, Except.bind, pure, Except.pure]
    refine ⟨_, _, rfl, h1, by omega, fun line x => ?_⟩
    have := ((Lines.pair line 0 y (by omega)).zero x).append (h3 (line + signed y) x)
    rw [hs] at this
    rw [show line + (dl - l') = line + 127 + (dl - 127 - l') by omega]
    exact this
  | case2 dl hge => exact ⟨[], dl, rfl, h, by omega, fun line x rest => by simp⟩

theorem linetableOffLoop_ok (doff : Int) (h : 0 ≤ doff) : ∃ b d, linetableOffLoop doff = (b, d) ∧ 0 ≤ d ∧ d ≤ 254 ∧
    d ≤ doff ∧ ∀ line, Lines line b (doff - d).toNat (some line) line := by
  induction doff using linetableOffLoop.induct with
  | case1 doff hgt b d heq ih =>
    obtain ⟨b', d', he, h1, h2, h3, h4⟩ := ih (by omega)
    rw [linetableOffLoop, if_pos hgt, he]
    refine ⟨_, _, rfl, h1, h2, by omega, fun line => ?_⟩
    have hp := Lines.pair line 254 0 (by decide)
    rw [show signed 0 = 0 from rfl, Int.add_zero] at hp
    rw [show (doff - d').toNat = 254 + (doff - 254 - d').toNat by omega]
    exact hp.append (h4 line)
  | case2 doff hle =>
    rw [linetableOffLoop, if_neg hle]
    exact ⟨[], doff, rfl, h, by omega, by omega, fun line rest => by simp⟩

theorem packLinetable_some (doff dl : Int) (h : 0 ≤ doff) : ∃ bs, packLinetable doff (some dl) = .ok bs ∧
    ∀ line, Lines line bs doff.toNat (some (line + dl)) (line + dl) := by
  unfold packLinetable
  obtain ⟨b1, l1, e1, p1, p2, p3⟩ := linetableNegLoop_ok dl
  obtain ⟨b2, l2, e2, q1, q2, q3⟩ := linetablePosLoop_ok l1 p1
  simp only [e1, e2, bind, Except.bind, pure, Except.pure, pyAssert]
  rw [if_pos (by simp; omega)]
  have hpre : ∀ line x, Lines line (b1 ++ b2) 0 x (line + (dl - l2)) := by
    intro line x
    have := (p3 line x).append (q3 (line + (dl - l1)) x)
    rw [show line + (dl - l1) + (l1 - l2) = line + (dl - l2) by omega] at this
    exact this
  by_cases hbig : doff > 254
  · obtain ⟨b3, d3, e3, r1, r2, r3, r4⟩ := linetableOffLoop_ok (doff - 254) (by omega)
    obtain ⟨y, hy, hs⟩ := packBb_ok 254 l2 (by omega)
    obtain ⟨z, hz, hsz⟩ := packBb_ok d3 0 (by omega)
    simp only [hbig, if_true, hy, hz, e3]
    rw [if_pos (by simp; omega)]
    refine ⟨_, rfl, fun line => ?_⟩
    have t1 := Lines.pair (line + (dl - l2)) 254 y (by omega)
    rw [hs, show line + (dl - l2) + l2 = line + dl by omega] at t1
    have t2 := Lines.pair (line + dl) d3.toNat z (by omega)
    rw [hsz, Int.add_zero] at t2
    have := (((hpre line (some (line + dl))).append t1).append (r4 (line + dl))).append t2
    rw [show 0 + 254 + (doff - 254 - d3).toNat + d3.toNat = doff.toNat by omega] at this
    exact this
  · obtain ⟨y, hy, hs⟩ := packBb_ok doff l2 (by omega)
    simp only [hbig, if_false, hy]
    rw [if_pos (by simp; omega)]
    refine ⟨_, rfl, fun line => ?_⟩
    have t1 := Lines.pair (line + (dl - l2)) doff.toNat y (by omega)
    rw [hs, show line + (dl - l2) + l2 = line + dl by omega] at t1
    have := (hpre line (some (line + dl))).append t1
    rw [Nat.zero_add] at this
    exact this

theorem packLinetable_none (doff : Int) (h : 0 ≤ doff) (h2 : doff ≤ 254) : ∃ bs, packLinetable doff none = .ok bs ∧
    ∀ line, Lines line bs doff.toNat none line := by
  unfold packLinetable
  obtain ⟨y, hy, hs⟩ := packBb_ok doff (-128) (by omega)
  simp only [show ¬ doff > 254 by omega, if_false, hy, bind, Except.bind, pure, Except.pure, pyAssert]
  rw [if_pos (by simp; omega)]
  exact ⟨_, rfl, fun line => Lines.nopair line _ y hs⟩

/-! ### infos of a code -/

theorem assembleCodeLoop_infos (P : Platform) (es : List CElem) : ∀ (first off : Nat),
    (∀ i, .instr i ∈ es → i.size % 2 = 0) →
    Sorted (if P.py310 then off * 2 else off) (assembleCodeLoop P off (normalizeLineno first es)).2 := by
  induction es with
  | nil => intro _ _ _; trivial
  | cons e es ih =>
    intro first off h
    cases e with
    | setLineno n => exact ih n off (fun i hi => h i (by simp [hi]))
    | instr i =>
      simp only [normalizeLineno, assembleCodeLoop]
      refine ⟨Nat.le_refl _, ?_⟩
      have := ih ((locLine? i.loc).getD first) (off + if P.py310 = true then i.size / 2 else i.size)
        (fun j hj => h j (by simp [hj]))
      refine Sorted.mono this ?_
      simp only
      split <;> omega

theorem infoLine_code (P : Platform) (pre post : List CElem) (i : CInstr) : ∀ (first off : Nat) (line : Int),
    (∀ j, .instr j ∈ pre ++ .instr i :: post → j.size % 2 = 0) →
    ∀ q, (if P.py310 then off * 2 else off) + codeSize pre ≤ q →
      q < (if P.py310 then off * 2 else off) + codeSize pre + i.size →
    infoLine line q (assembleCodeLoop P off (normalizeLineno first (pre ++ .instr i :: post))).2 =
      currentLine first (pre ++ [.instr i]) := by
  have hcur : ∀ (first n : Nat) (e : CElem) (es : List CElem), (lineOf e).getD first = n →
      currentLine first (e :: es) = currentLine n es := by
    intro first n e es h
    unfold currentLine
    rw [List.filterMap_cons]
    cases h' : lineOf e with
    | none => rw [h'] at h; simp at h; subst h; rfl
    | some x =>
      rw [h'] at h; simp at h; subst h
      simp only
      cases h2 : es.filterMap lineOf with
      | nil => simp
      | cons y ys => simp [List.getLast?_cons]
  induction pre with
  | nil =>
    intro first off line hsz q h1 h2
    simp only [codeSize, List.map_nil, List.sum_nil, Nat.add_zero, List.nil_append] at h1 h2 ⊢
    simp only [normalizeLineno, assembleCodeLoop, infoLine]
    rw [if_neg (by omega)]
    have hs := assembleCodeLoop_infos P post ((locLine? i.loc).getD first)
      (off + if P.py310 = true then i.size / 2 else i.size) (fun j hj => hsz j (by simp [hj]))
    rw [infoLine_before _ _ _ q hs ?_, hcur first _ (.instr i) [] rfl]
    · simp only [currentLine, List.filterMap_nil, List.getLast?_nil, Option.getD_none, lineOf, locLine?]
      cases i.loc <;> simp
    · have := hsz i (by simp)
      split at h2 <;> rename_i hp <;> simp only [hp, if_true, Bool.false_eq_true, if_false] <;> omega
  | cons e es ih =>
    intro first off line hsz q h1 h2
    have hsz' : ∀ j, .instr j ∈ es ++ .instr i :: post → j.size % 2 = 0 := fun j hj => hsz j (by simp at hj ⊢; grind)
    cases e with
    | setLineno n =>
      simp only [List.cons_append, normalizeLineno]
      rw [hcur first n (.setLineno n) _ rfl]
      exact ih n off line hsz' q (by simpa [codeSize] using h1) (by simpa [codeSize] using h2)
    | instr j =>
      have hj := hsz j (by simp)
      simp only [List.cons_append, normalizeLineno, assembleCodeLoop, infoLine]
      simp only [codeSize, List.map_cons, List.sum_cons] at h1 h2
      rw [if_neg (by omega), hcur first ((locLine? j.loc).getD first) (.instr j) _
        (by simp only [lineOf, locLine?]; cases j.loc <;> simp)]
      refine ih _ _ _ hsz' q ?_ ?_
      all_goals
        simp only [codeSize]
        split at h2 <;> rename_i hp <;> simp only [hp, if_true, Bool.false_eq_true, if_false] at h1 ⊢ <;> omega

theorem assembleLinetableLoop_ok (P : Platform) (hP : P.py310 = true) (es : List CElem) :
    ∀ (start len cur : Nat) (oldLine ref : Nat) (dl : Option Int),
    (∀ i, .instr i ∈ es → i.size % 2 = 0 ∧ 0 < i.size) → start % 2 = 0 → len % 2 = 0 →
    (∀ d, dl = some d → (ref : Int) + d = oldLine) → (dl = none → ref = oldLine ∧ 0 < len ∧ len ≤ 254) →
    NoLineOK oldLine cur (if dl = none then len else 0) es →
    ∃ bs, assembleLinetableLoop start oldLine dl ((start + len : Nat) : Int)
        (assembleCodeLoop P ((start + len) / 2) (normalizeLineno cur es)).2 = .ok bs ∧
      readLinetable ref bs = List.replicate len (dl.map (fun _ => (oldLine : Int))) ++
        (instrLines cur es).flatMap (fun p => List.replicate p.1 (p.2.map Int.ofNat)) := by
  induction es with
  | nil =>
    intro start len cur oldLine ref dl _ hst hlen hd hn _
    simp only [normalizeLineno, assembleCodeLoop, assembleLinetableLoop, instrLines, List.flatMap_nil, List.append_nil]
    rw [show ((start + len : Nat) : Int) - start = (len : Nat) by omega]
    cases dl with
    | none =>
      obtain ⟨bs, hb, hr⟩ := packLinetable_none len (by omega) (by have := hn rfl; omega)
      refine ⟨bs, hb, ?_⟩
      have := hr ref []
      simpa [readLinetable] using this
    | some d =>
      obtain ⟨bs, hb, hr⟩ := packLinetable_some len d (by omega)
      refine ⟨bs, hb, ?_⟩
      have := hr ref []
      rw [hd d rfl] at this
      simpa [readLinetable] using this
  | cons e es ih =>
    intro start len cur oldLine ref dl hsz hst hlen hd hn hok
    have hsz' : ∀ i, .instr i ∈ es → i.size % 2 = 0 ∧ 0 < i.size := fun i hi => hsz i (by simp [hi])
    cases e with
    | setLineno n =>
      simp only [normalizeLineno, instrLines]
      exact ih start len n oldLine ref dl hsz' hst hlen hd hn hok
    | instr i =>
      obtain ⟨hi, hi0⟩ := hsz i (by simp)
      simp only [normalizeLineno, assembleCodeLoop, hP, if_true, assembleLinetableLoop]
      rw [show (start + len) / 2 * 2 = start + len by omega,
        show (start + len) / 2 + i.size / 2 = (start + (len + i.size)) / 2 by omega,
        show ((start + len : Nat) : Int) + (i.size : Nat) = ((start + (len + i.size) : Nat) : Int) by omega]
      -- the pending range, once packed
      have hpack : ∃ p, packLinetable (len : Int) dl = .ok p ∧
          Lines ref p len (dl.map (fun _ => (oldLine : Int))) oldLine := by
        cases dl with
        | none =>
          obtain ⟨p, hp, hr⟩ := packLinetable_none len (by omega) (by have := hn rfl; omega)
          refine ⟨p, hp, ?_⟩
          have := hr ref
          rw [(hn rfl).1] at this ⊢
          simpa using this
        | some d =>
          obtain ⟨p, hp, hr⟩ := packLinetable_some len d (by omega)
          refine ⟨p, hp, ?_⟩
          have := hr ref
          rw [hd d rfl] at this
          simpa using this
      obtain ⟨p, hp, hpl⟩ := hpack
      -- an instruction with a line `n`
      have hline : ∀ n : Nat, ((if dl = none then len else 0) = 0 ∨ n ≠ oldLine) → NoLineOK n n 0 es →
          ∃ bs, (if some ((n : Int) - oldLine) = some 0 ∨ dl = none ∧ some ((n : Int) - oldLine) = none then
              assembleLinetableLoop start oldLine dl ((start + (len + i.size) : Nat) : Int)
                (assembleCodeLoop P ((start + (len + i.size)) / 2) (normalizeLineno n es)).2
            else do
              let p ← packLinetable (((start + len : Nat) : Int) - start) dl
              let q ← assembleLinetableLoop ((start + len : Nat) : Int) n (some ((n : Int) - oldLine)) ((start + (len + i.size) : Nat) : Int)
                (assembleCodeLoop P ((start + (len + i.size)) / 2) (normalizeLineno n es)).2
              pure (p ++ q)) = .ok bs ∧
          readLinetable ref bs = List.replicate len (dl.map (fun _ => (oldLine : Int))) ++
            (List.replicate i.size (some (n : Int)) ++ (instrLines n es).flatMap (fun p => List.replicate p.1 (p.2.map Int.ofNat))) := by
        intro n hrun hok'
        by_cases hz : n = oldLine
        · subst hz
          rw [if_pos (by simp)]
          have hdl : dl ≠ none := by
            intro h
            have := (hn h).2.1
            rw [if_pos h] at hrun
            omega
          obtain ⟨bs, hb, hr⟩ := ih start (len + i.size) n n ref dl hsz' hst (by omega) hd (fun h => absurd h hdl)
            (by rw [if_neg hdl]; exact hok')
          refine ⟨bs, hb, ?_⟩
          rw [hr]
          obtain ⟨d, rfl⟩ := Option.ne_none_iff_exists'.1 hdl
          simp [← List.replicate_append_replicate]
        · rw [if_neg (by simp; omega)]
          obtain ⟨bs, hb, hr⟩ := ih (start + len) i.size n n oldLine (some ((n : Int) - oldLine)) hsz' (by omega) hi
            (by intro d h; simp at h; omega) (by simp) (by simpa using hok')
          rw [show ((start + len : Nat) : Int) - start = (len : Nat) by omega, hp]
          rw [show start + (len + i.size) = start + len + i.size by omega]
          simp only [hb, bind, Except.bind, pure, Except.pure]
          refine ⟨p ++ bs, rfl, ?_⟩
          rw [hpl, hr]
          rfl
      simp only [NoLineOK] at hok
      cases hloc : i.loc with
      | none =>
        rw [hloc] at hok
        obtain ⟨bs, hb, hr⟩ := hline cur hok.1 hok.2
        refine ⟨bs, ?_, ?_⟩
        · simpa [linetableDelta, hloc, locLine?] using hb
        · rw [hr]; simp [instrLines, hloc]
      | some l =>
        rw [hloc] at hok
        simp only at hok
        cases hl : l.lineno with
        | some n =>
          rw [hl] at hok
          obtain ⟨bs, hb, hr⟩ := hline n hok.1 hok.2
          refine ⟨bs, ?_, ?_⟩
          · simpa [linetableDelta, hloc, hl, locLine?] using hb
          · rw [hr]; simp [instrLines, hloc, hl]
        | none =>
          rw [hl] at hok
          obtain ⟨hcur, hrun, hok'⟩ := hok
          simp only [linetableDelta, hloc, locLine?, hl, Option.map_none, Option.bind_some, Option.getD_none]
          by_cases hdl : dl = none
          · subst hdl
            rw [if_pos (by simp)]
            obtain ⟨bs, hb, hr⟩ := ih start (len + i.size) cur oldLine ref none hsz' hst (by omega) hd
              (fun _ => ⟨(hn rfl).1, by have := (hn rfl).2.1; omega, by simpa using hrun⟩) (by simpa using hok')
            refine ⟨bs, hb, ?_⟩
            rw [hr]
            simp [instrLines, hloc, hl, ← List.replicate_append_replicate]
          · rw [if_neg (by simp [hdl])]
            rw [if_neg hdl, Nat.zero_add] at hrun hok'
            obtain ⟨bs, hb, hr⟩ := ih (start + len) i.size cur oldLine oldLine none hsz' (by omega) hi
              (by simp) (fun _ => ⟨rfl, hi0, hrun⟩) (by simpa using hok')
            rw [hcur] at hb hr ⊢
            rw [show ((start + len : Nat) : Int) - start = (len : Nat) by omega, hp]
            rw [show start + (len + i.size) = start + len + i.size by omega]
            simp only [hb, bind, Except.bind, pure, Except.pure]
            refine ⟨p ++ bs, rfl, ?_⟩
            rw [hpl, hr]
            simp [instrLines, hloc, hl]

end Verif
