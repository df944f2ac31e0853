import Verif.Proofs.Location
/-
C03, C04, C11, C42: instruction locations and the 3.11+ location table.
-/
namespace Verif
open Spec

/-! ### C11 -/

/-- **C11.** `InstrLocation(l, el, c, ec)` succeeds exactly on coherent arguments, raises ValueError on any other,
and stores the arguments. -/
theorem C11_location_accepts_exactly_coherent (py311 : Bool) (l el c ec : Option Int) :
    (ValidArgs py311 l el c ec → ∃ loc, Loc.make py311 l el c ec = .ok loc ∧
      loc.lineno.map Int.ofNat = l ∧ loc.endLineno.map Int.ofNat = el ∧ loc.col.map Int.ofNat = c ∧
      loc.endCol.map Int.ofNat = ec) ∧
    (¬ ValidArgs py311 l el c ec → Loc.make py311 l el c ec = .error .valueError) := by
  have hmin : ∀ (o : Option Int) (m : Int), checkLocation o m =
      if (∀ x, o = some x → m ≤ x) then .ok () else .error .valueError := by
    intro o m
    cases o with
    | none => simp [checkLocation]
    | some v =>
      simp only [checkLocation, Option.some.injEq, forall_eq']
      by_cases h : v < m
      · rw [if_pos h, if_neg (by omega)]
      · rw [if_neg h, if_pos (by omega)]
  have hof : ∀ (o : Option Int) (m : Int), 0 ≤ m → (∀ x, o = some x → m ≤ x) →
      (o.map Int.toNat).map Int.ofNat = o := by
    intro o m hm h
    cases o with
    | none => rfl
    | some v => have := h v rfl; simp; omega
  constructor
  · intro hv
    obtain ⟨v1, v2, v3, v4, v5, v6, v7, v8⟩ := hv
    refine ⟨⟨l.map Int.toNat, el.map Int.toNat, c.map Int.toNat, ec.map Int.toNat⟩, ?_,
      hof l _ (by split <;> decide) v1, hof el 1 (by decide) v2, hof c 0 (by decide) v3, hof ec 0 (by decide) v4⟩
    unfold Loc.make
    simp only [hmin, if_pos v1, if_pos v2, if_pos v3, if_pos v4, bind, Except.bind, pure, Except.pure, throw,
      throwThe, MonadExceptOf.throw]
    cases el with
    | none =>
      cases c <;> cases ec <;> simp_all
    | some e =>
      obtain ⟨b, rfl, hb⟩ := v5 e rfl
      have := v2 e rfl
      simp only [show ¬ e = 0 by omega, show ¬ b > e by omega, if_false]
      cases c <;> cases ec <;> simp_all
  · intro hv
    unfold Loc.make
    simp only [hmin, bind, Except.bind, pure, Except.pure, throw, throwThe, MonadExceptOf.throw]
    by_cases v1 : (∀ x, l = some x → (if py311 = true then 0 else 1) ≤ x)
    case neg => rw [if_neg v1]
    by_cases v2 : (∀ x, el = some x → 1 ≤ x)
    case neg => rw [if_pos v1, if_neg v2]
    by_cases v3 : (∀ x, c = some x → 0 ≤ x)
    case neg => rw [if_pos v1, if_pos v2, if_neg v3]
    by_cases v4 : (∀ x, ec = some x → 0 ≤ x)
    case neg => rw [if_pos v1, if_pos v2, if_pos v3, if_neg v4]
    rw [if_pos v1, if_pos v2, if_pos v3, if_pos v4]
    simp only
    cases el with
    | none =>
      cases c <;> cases ec <;> simp only [Option.isSome, Bool.or_true, Bool.or_false, Bool.false_eq_true, if_true,
        if_false] <;> try rfl
      · exact absurd ⟨v1, v2, v3, v4, by simp, rfl, by simp, by simp⟩ hv
      all_goals (cases l <;> rfl)
    | some e =>
      have h1 := v2 e rfl
      simp only [show ¬ e = 0 by omega, if_false]
      cases l with
      | none => rfl
      | some b =>
        simp only
        by_cases hbe : b > e
        · simp [hbe]
        · simp only [hbe, if_false]
          cases c <;> cases ec <;> simp only [Option.isSome, Bool.or_true, Bool.or_false, Bool.false_eq_true, if_true,
            if_false]
          · exact absurd ⟨v1, v2, v3, v4, by simp; omega, rfl, by simp, by simp⟩ hv
          · rename_i x y
            by_cases hxy : b = e ∧ x > y
            · rw [if_pos hxy]
            · exact absurd ⟨v1, v2, v3, v4, by simp; omega, rfl, by simp, by simp; omega⟩ hv

/-- Every location that can be constructed is coherent (in the sense used by C03 and C04). -/
theorem Loc.make_coherent {py311 l el c ec loc} (h : Loc.make py311 l el c ec = .ok loc) : Coherent loc := by
  have hv : ValidArgs py311 l el c ec := by
    by_cases hv : ValidArgs py311 l el c ec
    · exact hv
    · rw [(C11_location_accepts_exactly_coherent py311 l el c ec).2 hv] at h; simp at h
  obtain ⟨loc', h', rfl, rfl, rfl, rfl⟩ := (C11_location_accepts_exactly_coherent py311 l el c ec).1 hv
  rw [h] at h'
  simp only [Except.ok.injEq] at h'
  subst h'
  obtain ⟨v1, v2, v3, v4, v5, v6, v7, v8⟩ := hv
  constructor
  · intro e he
    have h1 := v2 e (by simp [he])
    obtain ⟨b, hb, hbe⟩ := v5 e (by simp [he])
    rw [Option.map_eq_some_iff] at hb
    obtain ⟨b', hb', rfl⟩ := hb
    exact ⟨by omega, b', hb', by simpa using hbe⟩
  · simpa using v6
  · simpa using v7
  · intro hle a b ha hb
    have := v8 (by rw [hle]) a b (by simp [ha]) (by simp [hb])
    omega

example : ValidArgs true (some 0) (some 3) (some 7) (some 2) := by
  constructor <;> simp
example : ¬ ValidArgs true (some 3) (some 3) (some 7) (some 2) := by
  intro h; have := h.colOrder rfl 7 2 rfl rfl; omega
example : ¬ ValidArgs false (some 0) none none none := by
  intro h; have := h.line 0 rfl; simp at this

/-! ### C03 -/

/-- **C03.** The table `to_code` writes from the instructions' sizes and locations is read back by CPython's
documented format as the location of the instruction each code unit belongs to. -/
theorem C03_positions_are_locations (first : Nat) (is : List LineInfo)
    (hs : ∀ i ∈ is, i.size % 2 = 0 ∧ 2 ≤ i.size)
    (hl : ∀ i ∈ is, ∀ l, i.loc = some l → Coherent l ∧ ¬ Unencodable l) :
    ∃ bs, assembleLocations first is = .ok bs ∧
      readLocs first bs = some (perUnit (is.map (·.size)) ((effectiveLocs is).map posOf)) := by
  obtain ⟨bs, ref', hb, hr⟩ := assembleLocations_reads first is hs hl
  refine ⟨bs, hb, ?_⟩
  unfold readLocs
  rw [hr.read _ (Nat.le_refl _)]
  congr 1
  unfold perUnit
  rw [List.map_flatten, List.map_zipWith, List.zipWith_map_right]
  simp

/-- **C03 / C04 (error branch).** It raises, ValueError, exactly when some location spans lines without columns. -/
theorem C04_locations_raise_iff (first : Nat) (is : List LineInfo)
    (hs : ∀ i ∈ is, i.size % 2 = 0 ∧ 2 ≤ i.size)
    (hl : ∀ i ∈ is, ∀ l, i.loc = some l → Coherent l) :
    assembleLocations first is = .error .valueError ↔ ∃ i ∈ is, ∃ l, i.loc = some l ∧ Unencodable l := by
  constructor
  · intro h
    by_cases hx : ∃ i ∈ is, ∃ l, i.loc = some l ∧ Unencodable l
    · exact hx
    · obtain ⟨bs, hb, _⟩ := C03_positions_are_locations first is hs (fun i hi l hil =>
        ⟨hl i hi l hil, fun hu => hx ⟨i, hi, l, hil, hu⟩⟩)
      rw [hb] at h; simp at h
  · exact assembleLocations_error first is hs hl

/-- Non-vacuity of C03: a no-line instruction, an inherited location, a long run, a backward line. -/
def exampleLocs : List LineInfo :=
  [⟨0, 2, 1, none⟩, ⟨2, 4, 1, some ⟨none, none, none, none⟩⟩, ⟨6, 2, 1, none⟩,
   ⟨8, 40, 300, some ⟨some 300, some 301, some 90, some 4⟩⟩, ⟨48, 2, 300, none⟩,
   ⟨50, 2, 7, some ⟨some 7, some 7, some 3, some 9⟩⟩]

example : (∀ i ∈ exampleLocs, i.size % 2 = 0 ∧ 2 ≤ i.size) ∧
    (∀ i ∈ exampleLocs, ∀ l, i.loc = some l → Coherent l ∧ ¬ Unencodable l) := by
  constructor
  · decide
  · intro i hi l hl
    simp only [exampleLocs, List.mem_cons, List.not_mem_nil, or_false] at hi
    rcases hi with rfl | rfl | rfl | rfl | rfl | rfl <;>
      simp only [Option.some.injEq, reduceCtorEq] at hl <;> subst hl <;>
      exact ⟨by constructor <;> simp, by simp [Unencodable]⟩
example : (assembleLocations 1 exampleLocs).isOk = true := by decide +kernel

/-! ### C04 -/

/-- **C04 (packing one location).** For every constructible location and every run of code units, packing raises
(ValueError) iff the location spans several lines without columns; otherwise it gives bytes in 0..255 of which the
first has bit 0x80 set. -/
theorem C04_pack_location (size ref : Int) (hs : 1 ≤ size) {py311 l el c ec loc}
    (hm : Loc.make py311 l el c ec = .ok loc) :
    (Unencodable loc → packLocation size ref (some loc) = .error .valueError) ∧
    (¬ Unencodable loc → ∃ h t, packLocation size ref (some loc) = .ok (h :: t) ∧ 128 ≤ h ∧
      (∀ x ∈ h :: t, x < 256) ∧ (SmallCols loc → ∀ x ∈ t, x < 128)) := by
  refine ⟨packLocation_error size ref loc (Loc.make_coherent hm), fun hu => ?_⟩
  obtain ⟨h, t, hp, he⟩ := packLocation_ok size ref loc hs (Loc.make_coherent hm) hu
  refine ⟨h, t, hp, he.hd.1, ?_, he.small⟩
  intro x hx
  rcases List.mem_cons.1 hx with rfl | hx
  · exact he.hd.2
  · exact he.bytes x hx

/-- The full C04: only the first byte of an entry has bit 0x80 set. It is false of the code: the one-line form is
used for columns up to 255 where CPython uses it up to 127 (concrete.py 648-653). -/
def C04_statement : Prop :=
  ∀ (size ref : Int) (loc : Loc), 1 ≤ size → Coherent loc → ∀ h t, packLocation size ref (some loc) = .ok (h :: t) →
    ∀ x ∈ t, x < 128

theorem C04_statement_false : ¬ C04_statement := by
  intro h
  have := h 1 0 ⟨some 1, some 1, some 200, some 210⟩ (by decide) (by constructor <;> simp) _ _
    (by decide +kernel : _ = Except.ok (216 :: [200, 210])) 200 (by simp)
  omega

/-! ### C42 -/

/-- **C42 (partial).** CPython's line scanner (`co_lines()`, tracebacks) sees the line of the instruction for each
code unit, when all columns are below 128. -/
theorem C42_co_lines_partial (first : Nat) (is : List LineInfo)
    (hs : ∀ i ∈ is, i.size % 2 = 0 ∧ 2 ≤ i.size)
    (hl : ∀ i ∈ is, ∀ l, i.loc = some l → Coherent l ∧ ¬ Unencodable l)
    (hsm : ∀ i ∈ is, ∀ l, i.loc = some l → (∀ c, l.col = some c → c < 128) ∧ (∀ c, l.endCol = some c → c < 128)) :
    ∃ bs, assembleLocations first is = .ok bs ∧
      scanLines first bs = some (perUnit (is.map (·.size)) ((effectiveLocs is).map (fun l => l.lineno.map Int.ofNat))) := by
  obtain ⟨bs, ref', hb, hr⟩ := assembleLocations_reads first is hs hl
  refine ⟨bs, hb, ?_⟩
  unfold scanLines
  rw [hr.scan _ _ (Nat.le_refl _)]
  · congr 1
    unfold perUnit
    rw [List.map_flatten, List.map_zipWith, List.zipWith_map_right]
    simp
  · intro l h
    have hmem : l ∈ effectiveLocs is := by
      unfold perUnit at h
      rw [List.mem_flatten] at h
      obtain ⟨x, hx, hlx⟩ := h
      rw [List.mem_iff_getElem] at hx
      obtain ⟨n, hn, rfl⟩ := hx
      simp only [List.getElem_zipWith] at hlx
      have := List.eq_of_mem_replicate hlx
      rw [this]; exact List.getElem_mem _
    rcases effectiveLocs_mem hmem with ⟨n, rfl⟩ | ⟨i, hi, hil⟩
    · simp [SmallCols, Loc.line]
    · exact hsm i hi l hil

/-- C42 without the bound on columns: false. A column ≥ 128 on the line after the previous one derails the scanner. -/
theorem C42_co_lines_false : ∃ bs,
    assembleLocations 1 [⟨0, 2, 2, some ⟨some 2, some 2, some 200, some 210⟩⟩, ⟨2, 2, 3, some ⟨some 3, none, none, none⟩⟩]
      = .ok bs ∧ scanLines 1 bs ≠ some [some 2, some 3] := by
  refine ⟨[216, 200, 210, 232, 2], by decide +kernel, by decide +kernel⟩

end Verif
