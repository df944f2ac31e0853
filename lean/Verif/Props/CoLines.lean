import Verif.Props.Exact
/-
C42, exact version: when CPython's line scanner reports the line of every instruction.
-/
namespace Verif
open Spec

/-- The line CPython has in mind after the locations `ls`: the last one with a line, else the first line of the code object. -/
def lineBefore (first : Int) (ls : List Loc) : Int := (((ls.filterMap (·.lineno)).getLast?).map Int.ofNat).getD first

/-- A location within the first or second line after line `ref`, with columns up to 255, one of which is at least 128. -/
def WideOnNextLine (ref : Int) (l : Loc) : Prop :=
  ∃ n c e, l = ⟨some n, some n, some c, some e⟩ ∧ ((n : Int) = ref + 1 ∨ (n : Int) = ref + 2) ∧ c < 256 ∧ e < 256 ∧ (128 ≤ c ∨ 128 ≤ e)

theorem wide_iff {ref : Int} {l : Loc} :
    WideOnNextLine ref l ↔ OneLineForm ref l ∧ ∃ c, (l.col = some c ∨ l.endCol = some c) ∧ 128 ≤ c := by
  constructor
  · rintro ⟨n, c, e, rfl, h1, h2, h3, h4⟩
    refine ⟨⟨n, c, e, rfl, h1, h2, h3⟩, ?_⟩
    rcases h4 with h | h
    · exact ⟨c, .inl rfl, h⟩
    · exact ⟨e, .inr rfl, h⟩
  · rintro ⟨⟨n, c, e, rfl, h1, h2, h3⟩, x, hx, h⟩
    refine ⟨n, c, e, rfl, h1, h2, h3, ?_⟩
    simp only [Option.some.injEq] at hx
    rcases hx with rfl | rfl
    · exact .inl h
    · exact .inr h

/-- some location of the list is wide on one of the next lines -/
def derails (ref : Int) : List Loc → Prop
  | [] => False
  | l :: ls => WideOnNextLine ref l ∨ derails (newRef ref l) ls

inductive ReadsX : Int → Bytes → List Loc → Int → Prop where
  | nil (ref) : ReadsX ref [] [] ref
  | cons {size ref loc h t bs locs ref'} (he : EntryOK size ref loc h t) (hx : (∃ x ∈ t, 128 ≤ x) ↔ WideOnNextLine ref loc)
      (hr : ReadsX (newRef ref loc) bs locs ref') :
      ReadsX ref (h :: (t ++ bs)) (List.replicate (min size 8).toNat loc ++ locs) ref'

theorem ReadsX.append {ref bs locs ref' bs' locs' ref''} (h : ReadsX ref bs locs ref') (h' : ReadsX ref' bs' locs' ref'') :
    ReadsX ref (bs ++ bs') (locs ++ locs') ref'' := by
  induction h with
  | nil => simpa
  | cons he hx _ ih => simpa [List.append_assoc] using ReadsX.cons he hx (ih h')

theorem pushLocationsLoop_okX (n : Nat) (hn : 1 ≤ n) (loc : Loc) (hc : Coherent loc) (hu : ¬ Unencodable loc) :
    ∀ (fuel : Nat) (ref : Int), n ≤ fuel →
    ∃ bs, pushLocationsLoop fuel n ref loc = .ok (bs, newRef ref loc) ∧
      ReadsX ref bs (List.replicate n loc) (newRef ref loc) := by
  induction n using Nat.strongRecOn with
  | _ n ih =>
    intro fuel ref hf
    obtain ⟨f, rfl⟩ : ∃ f, fuel = f + 1 := ⟨fuel - 1, by omega⟩
    obtain ⟨h, t, hp, he⟩ := packLocation_ok n ref loc (by omega) hc hu
    have hxx : (∃ x ∈ t, 128 ≤ x) ↔ WideOnNextLine ref loc := (C04_exact n ref (by omega) hc hp).trans wide_iff.symm
    rw [pushLocationsLoop, hp]
    simp only [bind, Except.bind]
    have hnr : newRef (newRef ref loc) loc = newRef ref loc := by unfold newRef; cases loc.lineno <;> rfl
    by_cases h8 : n ≤ 8
    · rw [if_pos (by omega)]
      refine ⟨h :: t, rfl, ?_⟩
      have := ReadsX.cons he hxx (ReadsX.nil _)
      simpa [show (min (n : Int) 8).toNat = n by omega] using this
    · rw [if_neg (by omega)]
      obtain ⟨bs, hb, hr⟩ := ih (n - 8) (by omega) (by omega) f (newRef ref loc) (by omega)
      rw [show ((n : Int) - 8) = ((n - 8 : Nat) : Int) by omega, hb, hnr]
      refine ⟨h :: t ++ bs, rfl, ?_⟩
      have := ReadsX.cons he hxx hr
      rw [hnr] at this
      rw [show List.replicate n loc = List.replicate (min (n : Int) 8).toNat loc ++ List.replicate (n - 8) loc by
        rw [List.replicate_append_replicate]; congr 1; omega]
      simpa using this

theorem pushLocations_okX (k : Nat) (hk : 1 ≤ k) (ref : Int) (loc : Loc) (hc : Coherent loc) (hu : ¬ Unencodable loc) :
    ∃ bs, pushLocations (2 * k) ref loc = .ok (bs, newRef ref loc) ∧
      ReadsX ref bs (List.replicate k loc) (newRef ref loc) := by
  unfold pushLocations
  rw [show 2 * k / 2 = k by omega]
  exact pushLocationsLoop_okX k hk loc hc hu _ ref (by omega)

theorem assembleLocationsLoop_okX (is : List LineInfo) : ∀ (k : Nat) (ref : Int) (old : Loc), 1 ≤ k →
    (∀ i ∈ is, i.size % 2 = 0 ∧ 2 ≤ i.size) →
    (∀ l ∈ old :: inherit old (is.map (·.loc)), Coherent l ∧ ¬ Unencodable l) →
    ∃ bs ref', assembleLocationsLoop (2 * k) ref old is = .ok bs ∧
      ReadsX ref bs (unitLocs (k :: is.map (·.size / 2)) (old :: inherit old (is.map (·.loc)))) ref' := by
  induction is with
  | nil =>
    intro k ref old hk _ hl
    obtain ⟨hc, hu⟩ := hl old (by simp)
    obtain ⟨bs, hb, hr⟩ := pushLocations_okX k hk ref old hc hu
    refine ⟨bs, newRef ref old, ?_, ?_⟩
    · simp [assembleLocationsLoop, hb, bind, Except.bind, pure, Except.pure]
    · simpa [unitLocs, inherit] using hr
  | cons i is ih =>
    intro k ref old hk hs hl
    obtain ⟨hi1, hi2⟩ := hs i (by simp)
    have hs' : ∀ j ∈ is, j.size % 2 = 0 ∧ 2 ≤ j.size := fun j hj => hs j (by simp [hj])
    obtain ⟨m, hm⟩ : ∃ m, i.size = 2 * m := ⟨i.size / 2, by omega⟩
    have hinh : inherit old ((i :: is).map (·.loc)) = i.loc.getD old :: inherit (i.loc.getD old) (is.map (·.loc)) := by
      cases hl' : i.loc <;> simp [inherit, hl']
    rw [hinh] at hl ⊢
    rw [assembleLocationsLoop]
    by_cases hg : old.lineno.isSome ∧ old = i.loc.getD old
    · rw [if_pos hg]
      rw [← hg.2] at hl ⊢
      rw [hm, show 2 * k + 2 * m = 2 * (k + m) by omega]
      obtain ⟨bs, ref', hb, hr⟩ := ih (k + m) ref old (by omega) hs' (fun l h => hl l (by simpa using h))
      refine ⟨bs, ref', hb, ?_⟩
      simpa [unitLocs, hm, ← List.replicate_append_replicate, List.append_assoc] using hr
    · rw [if_neg hg]
      obtain ⟨hc, hu⟩ := hl old (by simp)
      obtain ⟨bs, hb, hr⟩ := pushLocations_okX k hk ref old hc hu
      rw [hm]
      obtain ⟨bs', ref', hb', hr'⟩ := ih m (newRef ref old) (i.loc.getD old) (by omega) hs'
        (fun l h => hl l (List.mem_cons_of_mem _ h))
      refine ⟨bs ++ bs', ref', ?_, ?_⟩
      · simp [hb, hb', bind, Except.bind, pure, Except.pure]
      · have := hr.append hr'
        simpa [unitLocs, hm] using this

theorem assembleLocations_readsX (first : Nat) (is : List LineInfo)
    (hs : ∀ i ∈ is, i.size % 2 = 0 ∧ 2 ≤ i.size)
    (hl : ∀ i ∈ is, ∀ l, i.loc = some l → Coherent l ∧ ¬ Unencodable l) :
    ∃ bs ref', assembleLocations first is = .ok bs ∧
      ReadsX first bs (perUnit (is.map (·.size)) (effectiveLocs is)) ref' := by
  cases is with
  | nil => exact ⟨[], first, rfl, by simpa [perUnit, effectiveLocs] using ReadsX.nil _⟩
  | cons i rest =>
    have hinh : effectiveLocs (i :: rest) = i.loc.getD (Loc.line (some i.lineno)) ::
        inherit (i.loc.getD (Loc.line (some i.lineno))) (rest.map (·.loc)) := by
      cases hl' : i.loc <;> simp [effectiveLocs, inherit, hl']
    obtain ⟨hi1, hi2⟩ := hs i (by simp)
    obtain ⟨m, hm⟩ : ∃ m, i.size = 2 * m := ⟨i.size / 2, by omega⟩
    have := assembleLocationsLoop_okX rest m first (i.loc.getD (Loc.line (some i.lineno))) (by omega)
      (fun j hj => hs j (by simp [hj])) (by
        intro l h
        rw [← hinh] at h
        rcases effectiveLocs_mem h with ⟨n, rfl⟩ | ⟨j, hj, hjl⟩
        · exact ⟨coherent_line _, not_unencodable_line _⟩
        · exact hl j hj l hjl)
    rw [← hinh] at this
    rw [← unitLocs_eq_perUnit, List.map_map]
    unfold assembleLocations
    simpa [hm, Function.comp_def] using this

/-! ### how many code units the scanner reports -/

/-- code units announced by the bytes that look like entry heads -/
def weight (bs : Bytes) : Nat := (bs.map (fun b => if 128 ≤ b then b % 8 + 1 else 0)).sum

theorem weight_append (a b : Bytes) : weight (a ++ b) = weight a + weight b := by simp [weight]

theorem weight_zero {t : Bytes} : weight t = 0 ↔ ¬ ∃ x ∈ t, 128 ≤ x := by
  induction t with
  | nil => simp [weight]
  | cons a t ih =>
    have e : weight (a :: t) = (if 128 ≤ a then a % 8 + 1 else 0) + weight t := by simp [weight]
    rw [e]
    by_cases h : 128 ≤ a
    · rw [if_pos h]
      constructor
      · intro h'; omega
      · intro h'; exact absurd ⟨a, by simp, h⟩ h'
    · rw [if_neg h, Nat.zero_add, ih]
      simp [h]

theorem weight_dropWhile (t : Bytes) : weight (t.dropWhile (· < 128)) = weight t := by
  induction t with
  | nil => rfl
  | cons a t ih =>
    by_cases h : a < 128
    · rw [List.dropWhile_cons_of_pos (by simpa using h), ih]
      simp [weight, show ¬ 128 ≤ a by omega]
    · rw [List.dropWhile_cons_of_neg (by simpa using h)]

theorem head_dropWhile (t : Bytes) : ∀ x, (t.dropWhile (· < 128)).head? = some x → 128 ≤ x := by
  induction t with
  | nil => simp
  | cons a t ih =>
    intro x hx
    by_cases h : a < 128
    · rw [List.dropWhile_cons_of_pos (by simpa using h)] at hx; exact ih x hx
    · rw [List.dropWhile_cons_of_neg (by simpa using h)] at hx
      simp at hx; omega

theorem scan_length : ∀ (f : Nat) (ref : Int) (bs : Bytes) (r : List (Option Int)), (∀ x, bs.head? = some x → 128 ≤ x) →
    scanLinesFuel f ref bs = some r → r.length = weight bs
  | f, ref, [], r, _, h => by
    cases f <;> simp [scanLinesFuel] at h <;> subst h <;> rfl
  | 0, ref, b :: bs, r, _, h => by simp [scanLinesFuel] at h
  | f + 1, ref, b :: bs, r, hb, h => by
    have hb' := hb b rfl
    simp only [scanLinesFuel, Option.bind_eq_bind, Option.bind_eq_some_iff] at h
    obtain ⟨d, _, r', hr', h⟩ := h
    simp only [Option.some.injEq] at h
    subst h
    have := scan_length f _ _ r' (head_dropWhile bs) hr'
    simp only [List.length_append, List.length_replicate, this, weight_dropWhile]
    simp [weight, hb']

theorem ReadsX.head {ref bs locs ref'} (h : ReadsX ref bs locs ref') : ∀ x, bs.head? = some x → 128 ≤ x := by
  cases h with
  | nil => simp
  | cons he _ _ => intro x hx; simp at hx; have := he.hd; omega

theorem wide_again {ref : Int} {l : Loc} : ¬ WideOnNextLine (newRef ref l) l := by
  rintro ⟨n, c, e, rfl, h, _⟩
  simp only [newRef] at h
  omega

theorem newRef_again (ref : Int) (l : Loc) : newRef (newRef ref l) l = newRef ref l := by
  unfold newRef; cases l.lineno <;> rfl

theorem derails_replicate (n : Nat) (ref : Int) (l : Loc) (ls : List Loc) :
    derails ref (List.replicate (n + 1) l ++ ls) ↔ WideOnNextLine ref l ∨ derails (newRef ref l) ls := by
  induction n generalizing ref with
  | zero => simp [derails]
  | succ n ih =>
    rw [List.replicate_succ, List.cons_append, derails, ih, newRef_again]
    constructor
    · rintro (h | h | h)
      · exact .inl h
      · exact absurd h wide_again
      · exact .inr h
    · rintro (h | h)
      · exact .inl h
      · exact .inr (.inr h)

theorem ReadsX.weight_ge {ref bs locs ref'} (h : ReadsX ref bs locs ref') :
    locs.length ≤ weight bs ∧ (derails ref locs → locs.length < weight bs) := by
  induction h with
  | nil => simp [weight, derails]
  | @cons size ref loc h t bs locs ref' he hx hr ih =>
    obtain ⟨n, hn⟩ := he.len_pos
    have hl := he.len
    have hw : weight (h :: (t ++ bs)) = (n + 1) + (weight t + weight bs) := by
      rw [← weight_append, ← hn, ← hl]
      simp [weight, he.hd.1]
    rw [hn, derails_replicate, hw]
    simp only [List.length_append, List.length_replicate]
    refine ⟨by omega, ?_⟩
    rintro (hd | hd)
    · have : weight t ≠ 0 := by rw [Ne, weight_zero]; exact fun hh => hh (hx.2 hd)
      omega
    · have := ih.2 hd; omega

theorem ReadsX.scan {ref bs locs ref'} (h : ReadsX ref bs locs ref') (hsm : ¬ derails ref locs) :
    ∀ f, bs.length ≤ f → scanLinesFuel f ref bs = some (locs.map (fun l => l.lineno.map Int.ofNat)) := by
  induction h with
  | nil => intro f _; cases f <;> simp [scanLinesFuel]
  | @cons size ref loc h t bs locs ref' he hx hr ih =>
    intro f hf
    simp only [List.length_cons, List.length_append] at hf
    obtain ⟨g, rfl⟩ : ∃ g, f = g + 1 := ⟨f - 1, by omega⟩
    obtain ⟨n, hn⟩ := he.len_pos
    rw [hn, derails_replicate] at hsm
    have hst : ∀ x ∈ t, x < 128 := by
      intro x hxt
      by_cases h128 : x < 128
      · exact h128
      · exact absurd (.inl (hx.1 ⟨x, hxt, by omega⟩)) hsm
    simp only [scanLinesFuel, he.delta, he.len]
    rw [dropWhile_lt t hst bs hr.head]
    have hl : ref + ((loc.lineno.map (fun (x : Nat) => (x : Int) - ref)).getD 0) = newRef ref loc := by
      unfold newRef; cases loc.lineno <;> simp; omega
    simp only [bind, Option.bind, hl]
    rw [ih (fun hd => hsm (.inr hd)) g (by omega)]
    simp only [List.map_append, List.map_replicate, Option.some.injEq, List.append_cancel_right_eq]
    congr 1
    unfold newRef; cases loc.lineno <;> rfl

/-! ### the locations of the units and those of the instructions -/

theorem derails_perUnit (ref : Int) (is : List LineInfo) (ls : List Loc) (hs : ∀ i ∈ is, i.size % 2 = 0 ∧ 2 ≤ i.size) (hlen : is.length = ls.length) :
    derails ref (perUnit (is.map (·.size)) ls) ↔ derails ref ls := by
  induction is generalizing ref ls with
  | nil => cases ls <;> simp_all [perUnit]
  | cons i is ih =>
    cases ls with
    | nil => simp at hlen
    | cons l ls =>
      obtain ⟨n, hn⟩ : ∃ n, i.size / 2 = n + 1 := ⟨i.size / 2 - 1, by have := hs i (by simp); omega⟩
      have e : perUnit ((i :: is).map (·.size)) (l :: ls) = List.replicate (n + 1) l ++ perUnit (is.map (·.size)) ls := by
        simp [perUnit, hn]
      rw [e, derails_replicate, derails, ih _ _ (fun j hj => hs j (by simp [hj])) (by simpa using hlen)]

theorem lineBefore_cons (ref : Int) (l : Loc) (ls : List Loc) : lineBefore ref (l :: ls) = lineBefore (newRef ref l) ls := by
  unfold lineBefore newRef
  cases h : l.lineno with
  | none => simp [h]
  | some n =>
    simp only [List.filterMap_cons, h]
    cases hx : (ls.filterMap (·.lineno)) with
    | nil => simp
    | cons a as => simp [List.getLast?_cons_cons, List.getLast?_eq_some_getLast (List.cons_ne_nil a as)]

theorem derails_iff (ref : Int) (ls : List Loc) :
    derails ref ls ↔ ∃ (n : Nat) (l : Loc), ls[n]? = some l ∧ WideOnNextLine (lineBefore ref (ls.take n)) l := by
  induction ls generalizing ref with
  | nil => simp [derails]
  | cons l ls ih =>
    rw [derails, ih]
    constructor
    · rintro (h | ⟨n, m, h1, h2⟩)
      · exact ⟨0, l, rfl, by simpa [lineBefore] using h⟩
      · exact ⟨n + 1, m, by simpa using h1, by rw [List.take_succ_cons, lineBefore_cons]; exact h2⟩
    · rintro ⟨n, m, h1, h2⟩
      cases n with
      | zero =>
        simp only [List.getElem?_cons_zero, Option.some.injEq] at h1
        subst h1
        exact .inl (by simpa [lineBefore] using h2)
      | succ n => exact .inr ⟨n, m, by simpa using h1, by rw [List.take_succ_cons, lineBefore_cons] at h2; exact h2⟩

theorem effectiveLocs_length (is : List LineInfo) : (effectiveLocs is).length = is.length := by
  cases is with
  | nil => rfl
  | cons i is => simp [effectiveLocs, inherit_length]

/-- **C42 (exact).** CPython's line scanner (`co_lines()`, tracebacks) reports for each code unit the line of its instruction, unless the location of
some instruction is within one of the two lines after the current one, with columns up to 255, one of which is at least 128: in that case, and only then, the scanner
takes a column for a new entry and reports more code units than there are (or reads past the end of the table). -/
theorem C42_exact (first : Nat) (is : List LineInfo)
    (hs : ∀ i ∈ is, i.size % 2 = 0 ∧ 2 ≤ i.size)
    (hl : ∀ i ∈ is, ∀ l, i.loc = some l → Coherent l ∧ ¬ Unencodable l) :
    ∃ bs, assembleLocations first is = .ok bs ∧
      ((scanLines first bs = some (perUnit (is.map (·.size)) ((effectiveLocs is).map (fun l => l.lineno.map Int.ofNat)))) ↔
        ¬ ∃ (n : Nat) (l : Loc), (effectiveLocs is)[n]? = some l ∧ WideOnNextLine (lineBefore first ((effectiveLocs is).take n)) l) ∧
      ((∃ (n : Nat) (l : Loc), (effectiveLocs is)[n]? = some l ∧ WideOnNextLine (lineBefore first ((effectiveLocs is).take n)) l) →
        ∀ r, scanLines first bs = some r → (is.map (·.size / 2)).sum < r.length) := by
  obtain ⟨bs, ref', hb, hr⟩ := assembleLocations_readsX first is hs hl
  have hd : derails first (perUnit (is.map (·.size)) (effectiveLocs is)) ↔ _ :=
    (derails_perUnit first is _ hs (effectiveLocs_length is).symm).trans (derails_iff first (effectiveLocs is))
  have hmap : (perUnit (is.map (·.size)) (effectiveLocs is)).map (fun l => l.lineno.map Int.ofNat) =
      perUnit (is.map (·.size)) ((effectiveLocs is).map (fun l => l.lineno.map Int.ofNat)) := by
    unfold perUnit
    rw [List.map_flatten, List.map_zipWith, List.zipWith_map_right]
    simp
  have hlen : (perUnit (is.map (·.size)) (effectiveLocs is)).length = (is.map (·.size / 2)).sum := by
    have : ∀ (is : List LineInfo) (ls : List Loc), is.length = ls.length → (perUnit (is.map (·.size)) ls).length = (is.map (·.size / 2)).sum := by
      intro is
      induction is with
      | nil => intro ls _; simp [perUnit]
      | cons i is ih =>
        intro ls h
        cases ls with
        | nil => simp at h
        | cons l ls =>
          have := ih ls (by simpa using h)
          simp only [perUnit] at this
          simp [perUnit, this]
    exact this is _ (effectiveLocs_length is).symm
  have hlt : derails first (perUnit (is.map (·.size)) (effectiveLocs is)) → ∀ r, scanLines first bs = some r → (is.map (·.size / 2)).sum < r.length := by
    intro h r hr'
    have := scan_length _ _ _ r hr.head hr'
    rw [this, ← hlen]
    exact hr.weight_ge.2 h
  refine ⟨bs, hb, ?_, fun h => hlt (hd.2 h)⟩
  rw [← hd, ← hmap]
  constructor
  · intro h hdd
    have := hlt hdd _ h
    rw [List.length_map, hlen] at this
    omega
  · intro h
    exact hr.scan h _ (Nat.le_refl _)

/-- Non-vacuity: a wide column on the same line does no harm, on the next one it does. -/
example : ¬ WideOnNextLine 5 ⟨some 5, some 5, some 200, some 210⟩ := by
  rintro ⟨n, c, e, h, h1, _⟩
  simp only [Loc.mk.injEq, Option.some.injEq] at h
  omega
example : WideOnNextLine 4 ⟨some 5, some 5, some 100, some 210⟩ := ⟨5, 100, 210, rfl, .inl (by decide), by decide, by decide, .inr (by decide)⟩
example : (effectiveLocs [⟨0, 2, 5, some ⟨some 5, some 5, some 1, some 2⟩⟩, ⟨2, 4, 5, none⟩, ⟨6, 2, 5, some ⟨some 6, some 6, some 200, some 210⟩⟩])[2]? =
    some ⟨some 6, some 6, some 200, some 210⟩ ∧ lineBefore 1 [⟨some 5, some 5, some 1, some 2⟩, ⟨some 5, some 5, some 1, some 2⟩] = 5 := by decide

end Verif
