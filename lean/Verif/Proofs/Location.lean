import Verif.Proofs.ExcTable
import Verif.Spec.Location
/- Helper lemmas for the location table. -/
namespace Verif
open Spec

theorem encodeLocVarintNat_eq (v : Nat) : encodeLocVarintNat v =
    if v < 64 then [v] else (v % 64 + 64) :: encodeLocVarintNat (v / 64) := by
  rw [encodeLocVarintNat, shr6, and63, or64 (Nat.mod_lt _ (by decide))]
  by_cases h : v < 64
  · rw [if_pos (by omega), if_pos h, Nat.mod_eq_of_lt h]
  · rw [if_neg (by omega), if_neg h]

theorem encodeLocVarintNat_lt (v : Nat) : ∀ x ∈ encodeLocVarintNat v, x < 128 := by
  induction v using Nat.strongRecOn with
  | _ v ih =>
    rw [encodeLocVarintNat_eq]
    split
    · simp; omega
    · intro x hx
      simp only [List.mem_cons] at hx
      rcases hx with rfl | h
      · omega
      · exact ih (v/64) (by omega) x h

theorem readVarint_enc (v : Nat) (rest : Bytes) : readVarint (encodeLocVarintNat v ++ rest) = some (v, rest) := by
  induction v using Nat.strongRecOn with
  | _ v ih =>
    rw [encodeLocVarintNat_eq]
    split
    · rename_i h
      simp only [List.cons_append, List.nil_append, readVarint]
      rw [if_pos (by omega), Nat.mod_eq_of_lt h]
    · simp only [List.cons_append, readVarint]
      rw [if_neg (by omega), ih (v/64) (by omega)]
      simp only [Option.some.injEq, Prod.mk.injEq, and_true]; omega

/-- bytes of a signed varint -/
def svarBytes (s : Int) : Bytes :=
  encodeLocVarintNat (if s < 0 then 2 * (-s).toNat + 1 else 2 * s.toNat)

theorem encodeLocSvarint_ok (s : Int) : encodeLocSvarint s = .ok (svarBytes s) := by
  unfold encodeLocSvarint encodeLocVarint svarBytes
  split
  · rw [if_neg (by omega)]; congr 2; omega
  · rw [if_neg (by omega)]; congr 2; omega

theorem readSvarint_enc (s : Int) (rest : Bytes) : readSvarint (svarBytes s ++ rest) = some (s, rest) := by
  unfold readSvarint svarBytes
  rw [readVarint_enc]
  simp only [Option.some.injEq, Prod.mk.injEq, and_true]
  by_cases hs : s < 0
  · rw [if_pos hs, if_pos (by omega)]; omega
  · rw [if_neg hs, if_neg (by omega)]; omega

theorem svarBytes_lt (s : Int) : ∀ x ∈ svarBytes s, x < 128 := encodeLocVarintNat_lt _

theorem readCol_enc (c : Nat) (rest : Bytes) :
    readCol (encodeLocVarintNat (c + 1) ++ rest) = some (some (c : Int), rest) := by
  unfold readCol
  rw [readVarint_enc]

theorem toBytes_ok (l : List Int) (h : ∀ x ∈ l, 0 ≤ x ∧ x < 256) : toBytes l = .ok (l.map Int.toNat) := by
  induction l with
  | nil => rfl
  | cons x xs ih =>
    rw [toBytes, if_pos (h x (by simp)), ih (fun y hy => h y (by simp [hy]))]
    rfl

/-- the columns fit in seven bits -/
def SmallCols (l : Loc) : Prop := (∀ c, l.col = some c → c < 128) ∧ (∀ c, l.endCol = some c → c < 128)

structure EntryOK (size ref : Int) (loc : Loc) (h : Nat) (t : Bytes) : Prop where
  hd : 128 ≤ h ∧ h < 256
  bytes : ∀ x ∈ t, x < 256
  small : SmallCols loc → ∀ x ∈ t, x < 128
  len : h % 8 + 1 = (min size 8).toNat
  read : ∀ rest, readEntry ref (h :: (t ++ rest)) = some ((min size 8).toNat, posOf loc, newRef ref loc, rest)
  delta : ∀ rest, lineDelta (h :: (t ++ rest)) = some (loc.lineno.map (fun (x : Nat) => (x : Int) - ref))

/-- header byte for a code -/
def hdr (code : Nat) (size : Int) : Nat := 128 + code * 8 + ((min size 8).toNat - 1)

theorem packLocationHeader_eq (code : Nat) (size : Int) (hs : 1 ≤ size) :
    packLocationHeader code size = (hdr code size : Int) := by
  unfold packLocationHeader hdr
  split <;> omega

theorem hdr_facts (code : Nat) (hc : code ≤ 15) (size : Int) (hs : 1 ≤ size) :
    128 ≤ hdr code size ∧ hdr code size < 256 ∧ (hdr code size / 8) % 16 = code ∧
      hdr code size % 8 + 1 = (min size 8).toNat := by
  unfold hdr
  omega

theorem toBytes_hdr (code : Nat) (hc : code ≤ 15) (size : Int) (hs : 1 ≤ size) :
    toBytes [packLocationHeader code size] = .ok [hdr code size] := by
  have := hdr_facts code hc size hs
  rw [packLocationHeader_eq code size hs, toBytes_ok _ (by simp; omega)]
  simp

theorem packLocation_ok (size ref : Int) (loc : Loc) (hs : 1 ≤ size) (hc : Coherent loc) (hu : ¬ Unencodable loc) :
    ∃ h t, packLocation size ref (some loc) = .ok (h :: t) ∧ EntryOK size ref loc h t := by
  obtain ⟨ln, eln, col, ecol⟩ := loc
  obtain ⟨h1, h2, h3, h4⟩ := hc
  simp only at h1 h2 h3 h4
  unfold Unencodable at hu
  simp only [not_and, not_exists] at hu
  cases ln with
  | none =>
    obtain ⟨g1, g2, g3, g4⟩ := hdr_facts 15 (by decide) size hs
    refine ⟨hdr 15 size, [], ?_, ⟨⟨g1, g2⟩, by simp, by simp, g4, ?_, ?_⟩⟩
    · simp only [packLocation, Option.map_none]
      exact toBytes_hdr 15 (by decide) size hs
    · intro rest
      unfold readEntry
      simp [g3, g4, show ¬ hdr 15 size < 128 by omega, posOf, newRef]
    · intro rest
      unfold lineDelta
      simp [g3]
  | some l =>
    cases col with
    | none =>
      have hel : ∀ e, eln = some e → e = l := by
        intro e he
        have := hu rfl e he
        simp only [ne_eq, Option.some.injEq, Decidable.not_not] at this
        exact this.symm
      obtain ⟨g1, g2, g3, g4⟩ := hdr_facts 13 (by decide) size hs
      refine ⟨hdr 13 size, svarBytes (l - ref), ?_, ⟨⟨g1, g2⟩, ?_, ?_, g4, ?_, ?_⟩⟩
      · simp only [packLocation, Option.map_some]
        have : toBytes [packLocationHeader 13 size] = .ok [hdr 13 size] := toBytes_hdr 13 (by decide) size hs
        rw [this, show Int.ofNat l = (l : Int) from rfl, encodeLocSvarint_ok]
        cases eln with
        | none => rfl
        | some e => simp [hel e rfl, bind, Except.bind, pure, Except.pure]
      · intro x hx; have := svarBytes_lt _ x hx; omega
      · intro _ x hx; exact svarBytes_lt _ x hx
      · intro rest
        unfold readEntry
        simp only [g3, g4, show ¬ hdr 13 size < 128 by omega, if_false, readSvarint_enc, posOf, newRef]
        simp
        omega
      · intro rest
        unfold lineDelta
        simp [g3, readSvarint_enc]
    | some c =>
      obtain ⟨ec, rfl⟩ : ∃ ec, ecol = some ec := by cases ecol <;> simp_all
      obtain ⟨el, rfl⟩ : ∃ el, eln = some el := by cases eln <;> simp_all
      obtain ⟨hel1, b, hb, hle⟩ := h1 el rfl
      simp only [Option.some.injEq] at hb; subst hb
      simp only [packLocation, Option.map_some, show Int.ofNat l = (l : Int) from rfl]
      by_cases hshort : (el : Int) = l ∧ (l : Int) - ref = 0 ∧ c < 72 ∧ (ec : Int) - c ≤ 15
      · rw [if_pos hshort]
        obtain ⟨e1, e2, e3, e4⟩ := hshort
        have hce : c ≤ ec := h4 (by simp; omega) c ec rfl rfl
        obtain ⟨g1, g2, g3, g4⟩ := hdr_facts (c/8) (by omega) size hs
        refine ⟨hdr (c/8) size, [(c % 8) * 16 + (ec - c)], ?_, ⟨⟨g1, g2⟩, ?_, ?_, g4, ?_, ?_⟩⟩
        · rw [packLocationHeader_eq _ _ hs, toBytes_ok _ (by simp; omega)]
          simp; omega
        · simp; omega
        · simp; omega
        · intro rest
          unfold readEntry
          simp only [g3, g4, show ¬ hdr (c/8) size < 128 by omega, if_false, posOf, newRef]
          rw [if_pos (by omega)]
          have q : ∀ a b : Nat, a < 8 → b < 16 → (((a * 16 + b : Nat) : Int) / 16 % 8) = (a : Int) ∧
              (((a * 16 + b : Nat) : Int) % 16) = (b : Int) := by intro a b ha hb; omega
          obtain ⟨q1', q2'⟩ := q (c % 8) (ec - c) (by omega) (by omega)
          simp only [List.cons_append, List.nil_append, q1', q2', Option.some.injEq, Prod.mk.injEq, Pos.mk.injEq,
            Option.map_some, Int.ofNat_eq_natCast, true_and, and_true]
          omega
        · intro rest
          unfold lineDelta
          simp only [g3]
          rw [if_pos (by omega)]; simp; omega
      · rw [if_neg hshort]
        by_cases hone : (el : Int) = l ∧ ((l : Int) - ref = 1 ∨ (l : Int) - ref = 2) ∧ c < 256 ∧ ec < 256
        · rw [if_pos hone]
          obtain ⟨e1, e2, e3, e4⟩ := hone
          obtain ⟨k, hk, hk2⟩ : ∃ k : Nat, 10 + (l : Int) - ref = k ∧ (k = 11 ∨ k = 12) :=
            ⟨(10 + (l : Int) - ref).toNat, by omega, by omega⟩
          obtain ⟨g1, g2, g3, g4⟩ := hdr_facts k (by omega) size hs
          refine ⟨hdr k size, [c, ec], ?_, ⟨⟨g1, g2⟩, ?_, ?_, g4, ?_, ?_⟩⟩
          · rw [hk, packLocationHeader_eq _ _ hs, toBytes_ok _ (by simp; omega)]
            simp
          · simp; omega
          · rintro ⟨s1, s2⟩; have := s1 c rfl; have := s2 ec rfl; simp; omega
          · intro rest
            unfold readEntry
            simp only [g3, g4, show ¬ hdr k size < 128 by omega, if_false, posOf, newRef]
            rw [if_neg (by omega), if_pos (by omega)]
            simp
            omega
          · intro rest
            unfold lineDelta
            simp only [g3]
            rw [if_neg (by omega)]
            rcases hk2 with rfl | rfl <;> simp <;> omega
        · rw [if_neg hone]
          obtain ⟨g1, g2, g3, g4⟩ := hdr_facts 14 (by decide) size hs
          refine ⟨hdr 14 size, svarBytes (l - ref) ++ encodeLocVarintNat (el - l) ++ encodeLocVarintNat (c+1) ++
            encodeLocVarintNat (ec + 1), ?_, ⟨⟨g1, g2⟩, ?_, ?_, g4, ?_, ?_⟩⟩
          · have : toBytes [packLocationHeader 14 size] = .ok [hdr 14 size] := toBytes_hdr 14 (by decide) size hs
            rw [this, encodeLocSvarint_ok]
            unfold encodeLocVarint
            rw [if_neg (by omega), if_neg (by omega), if_neg (by omega)]
            rw [show ((el : Int) - l).toNat = el - l by omega, show ((c : Int) + 1).toNat = c + 1 by omega,
              show ((ec : Int) + 1).toNat = ec + 1 by omega]
            rfl
          · intro x hx
            simp only [List.mem_append] at hx
            rcases hx with ((h | h) | h) | h
            · have := svarBytes_lt _ x h; omega
            all_goals have := encodeLocVarintNat_lt _ x h; omega
          · intro _ x hx
            simp only [List.mem_append] at hx
            rcases hx with ((h | h) | h) | h
            · exact svarBytes_lt _ x h
            all_goals exact encodeLocVarintNat_lt _ x h
          · intro rest
            unfold readEntry
            simp only [g3, g4, show ¬ hdr 14 size < 128 by omega, if_false, posOf, newRef, List.append_assoc,
              readSvarint_enc, readVarint_enc, readCol_enc]
            simp [readVarint_enc, readCol_enc]
            omega
          · intro rest
            unfold lineDelta
            simp [g3, readSvarint_enc, List.append_assoc]

theorem packLocation_error (size ref : Int) (loc : Loc) (hc : Coherent loc) (hu : Unencodable loc) :
    packLocation size ref (some loc) = .error .valueError := by
  obtain ⟨ln, eln, col, ecol⟩ := loc
  obtain ⟨hcol, e, he, hne⟩ := hu
  simp only at hcol he hne
  subst hcol he
  obtain ⟨_, b, hb, _⟩ := hc.endLine e rfl
  simp only at hb
  subst hb
  simp only [ne_eq, Option.some.injEq] at hne
  simp only [packLocation, Option.map_some]
  rw [if_pos (by simp; omega)]
  rfl

/-- A byte string made of well formed entries covering one location per code unit. -/
inductive Reads : Int → Bytes → List Loc → Int → Prop where
  | nil (ref) : Reads ref [] [] ref
  | cons {size ref loc h t bs locs ref'} (he : EntryOK size ref loc h t) (hr : Reads (newRef ref loc) bs locs ref') :
      Reads ref (h :: (t ++ bs)) (List.replicate (min size 8).toNat loc ++ locs) ref'

theorem Reads.append {ref bs locs ref' bs' locs' ref''} (h : Reads ref bs locs ref') (h' : Reads ref' bs' locs' ref'') :
    Reads ref (bs ++ bs') (locs ++ locs') ref'' := by
  induction h with
  | nil => simpa
  | cons he _ ih => simpa [List.append_assoc] using Reads.cons he (ih h')

theorem pushLocationsLoop_ok (n : Nat) (hn : 1 ≤ n) (loc : Loc) (hc : Coherent loc) (hu : ¬ Unencodable loc) :
    ∀ (fuel : Nat) (ref : Int), n ≤ fuel →
    ∃ bs, pushLocationsLoop fuel n ref loc = .ok (bs, newRef ref loc) ∧
      Reads ref bs (List.replicate n loc) (newRef ref loc) := by
  induction n using Nat.strongRecOn with
  | _ n ih =>
    intro fuel ref hf
    obtain ⟨f, rfl⟩ : ∃ f, fuel = f + 1 := ⟨fuel - 1, by omega⟩
    obtain ⟨h, t, hp, he⟩ := packLocation_ok n ref loc (by omega) hc hu
    rw [pushLocationsLoop, hp]
    simp only [bind, Except.bind]
    have hnr : newRef (newRef ref loc) loc = newRef ref loc := by unfold newRef; cases loc.lineno <;> rfl
    by_cases h8 : n ≤ 8
    · rw [if_pos (by omega)]
      refine ⟨h :: t, rfl, ?_⟩
      have := Reads.cons he (Reads.nil _)
      simpa [show (min (n : Int) 8).toNat = n by omega] using this
    · rw [if_neg (by omega)]
      obtain ⟨bs, hb, hr⟩ := ih (n - 8) (by omega) (by omega) f (newRef ref loc) (by omega)
      rw [show ((n : Int) - 8) = ((n - 8 : Nat) : Int) by omega, hb, hnr]
      refine ⟨h :: t ++ bs, rfl, ?_⟩
      have := Reads.cons he hr
      rw [hnr] at this
      rw [show List.replicate n loc = List.replicate (min (n : Int) 8).toNat loc ++ List.replicate (n - 8) loc by
        rw [List.replicate_append_replicate]; congr 1; omega]
      simpa using this

theorem pushLocations_ok (k : Nat) (hk : 1 ≤ k) (ref : Int) (loc : Loc) (hc : Coherent loc) (hu : ¬ Unencodable loc) :
    ∃ bs, pushLocations (2 * k) ref loc = .ok (bs, newRef ref loc) ∧
      Reads ref bs (List.replicate k loc) (newRef ref loc) := by
  unfold pushLocations
  rw [show 2 * k / 2 = k by omega]
  exact pushLocationsLoop_ok k hk loc hc hu _ ref (by omega)

theorem pushLocations_error (size : Nat) (ref : Int) (loc : Loc) (hc : Coherent loc) (hu : Unencodable loc) :
    pushLocations size ref loc = .error .valueError := by
  unfold pushLocations
  rw [pushLocationsLoop, packLocation_error _ _ _ hc hu]
  rfl

/-- Location of every code unit. -/
def unitLocs (ks : List Nat) (ls : List Loc) : List Loc :=
  (List.zipWith (fun k l => List.replicate k l) ks ls).flatten

theorem assembleLocationsLoop_ok (is : List LineInfo) : ∀ (k : Nat) (ref : Int) (old : Loc), 1 ≤ k →
    (∀ i ∈ is, i.size % 2 = 0 ∧ 2 ≤ i.size) →
    (∀ l ∈ old :: inherit old (is.map (·.loc)), Coherent l ∧ ¬ Unencodable l) →
    ∃ bs ref', assembleLocationsLoop (2 * k) ref old is = .ok bs ∧
      Reads ref bs (unitLocs (k :: is.map (·.size / 2)) (old :: inherit old (is.map (·.loc)))) ref' := by
  induction is with
  | nil =>
    intro k ref old hk _ hl
    obtain ⟨hc, hu⟩ := hl old (by simp)
    obtain ⟨bs, hb, hr⟩ := pushLocations_ok k hk ref old hc hu
    refine ⟨bs, newRef ref old, ?_, ?_⟩
    · simp [assembleLocationsLoop, hb, bind, Except.bind, pure, Except.pure]
    · simpa [unitLocs, inherit] using hr
  | cons i is ih =>
    intro k ref old hk hs hl
    obtain ⟨hi1, hi2⟩ := hs i (by simp)
    have hs' : ∀ j ∈ is, j.size % 2 = 0 ∧ 2 ≤ j.size := fun j hj => hs j (by simp [hj])
    obtain ⟨m, hm⟩ : ∃ m, i.size = 2 * m := ⟨i.size / 2, by omega⟩
    have hinh : inherit old ((i :: is).map (·.loc)) = i.loc.getD old :: inherit (i.loc.getD old) (is.map (·.loc)) := by
      cases hl' : i.loc <;> simp [inherit, hl']
    rw [hinh] at hl ⊢
    rw [assembleLocationsLoop]
    by_cases hg : old.lineno.isSome ∧ old = i.loc.getD old
    · rw [if_pos hg]
      rw [← hg.2] at hl ⊢
      rw [hm, show 2 * k + 2 * m = 2 * (k + m) by omega]
      obtain ⟨bs, ref', hb, hr⟩ := ih (k + m) ref old (by omega) hs' (fun l h => hl l (by simpa using h))
      refine ⟨bs, ref', hb, ?_⟩
      simpa [unitLocs, hm, ← List.replicate_append_replicate, List.append_assoc] using hr
    · rw [if_neg hg]
      obtain ⟨hc, hu⟩ := hl old (by simp)
      obtain ⟨bs, hb, hr⟩ := pushLocations_ok k hk ref old hc hu
      rw [hm]
      obtain ⟨bs', ref', hb', hr'⟩ := ih m (newRef ref old) (i.loc.getD old) (by omega) hs'
        (fun l h => hl l (List.mem_cons_of_mem _ h))
      refine ⟨bs ++ bs', ref', ?_, ?_⟩
      · simp [hb, hb', bind, Except.bind, pure, Except.pure]
      · have := hr.append hr'
        simpa [unitLocs, hm] using this

theorem Reads.read {ref bs locs ref'} (h : Reads ref bs locs ref') : ∀ f, bs.length ≤ f →
    readLocsFuel f ref bs = some (locs.map posOf) := by
  induction h with
  | nil => intro f _; cases f <;> simp [readLocsFuel]
  | cons he _ ih =>
    intro f hf
    simp only [List.length_cons, List.length_append] at hf
    obtain ⟨g, rfl⟩ : ∃ g, f = g + 1 := ⟨f - 1, by omega⟩
    simp only [readLocsFuel, he.read]
    simp [ih g (by omega)]

theorem dropWhile_lt (t : Bytes) (ht : ∀ x ∈ t, x < 128) (bs : Bytes) (hb : ∀ x, bs.head? = some x → 128 ≤ x) :
    (t ++ bs).dropWhile (· < 128) = bs := by
  induction t with
  | nil =>
    cases bs with
    | nil => rfl
    | cons x xs => have := hb x rfl; simp [List.dropWhile, show ¬ x < 128 by omega]
  | cons y ys ih =>
    have := ht y (by simp)
    simp [List.dropWhile, this]
    simpa using ih (fun x hx => ht x (by simp [hx]))

theorem Reads.head {ref bs locs ref'} (h : Reads ref bs locs ref') : ∀ x, bs.head? = some x → 128 ≤ x := by
  cases h with
  | nil => simp
  | cons he _ => intro x hx; simp at hx; have := he.hd; omega

theorem EntryOK.len_pos {size ref loc h t} (he : EntryOK size ref loc h t) : ∃ n, (min size 8).toNat = n + 1 :=
  ⟨h % 8, by rw [← he.len]⟩

theorem Reads.scan {ref bs locs ref'} (h : Reads ref bs locs ref') (hsm : ∀ l ∈ locs, SmallCols l) :
    ∀ f, bs.length ≤ f → scanLinesFuel f ref bs = some (locs.map (fun l => l.lineno.map Int.ofNat)) := by
  induction h with
  | nil => intro f _; cases f <;> simp [scanLinesFuel]
  | @cons size ref loc h t bs locs ref' he hr ih =>
    intro f hf
    simp only [List.length_cons, List.length_append] at hf
    obtain ⟨g, rfl⟩ : ∃ g, f = g + 1 := ⟨f - 1, by omega⟩
    obtain ⟨n, hn⟩ := he.len_pos
    have hsl : SmallCols loc := hsm loc (by simp [hn])
    simp only [scanLinesFuel, he.delta, he.len]
    rw [dropWhile_lt t (he.small hsl) bs hr.head]
    have hl : ref + ((loc.lineno.map (fun (x : Nat) => (x : Int) - ref)).getD 0) = newRef ref loc := by
      unfold newRef; cases loc.lineno <;> simp; omega
    simp only [bind, Option.bind, hl]
    rw [ih (fun l hl => hsm l (by simp [hl])) g (by omega)]
    simp only [List.map_append, List.map_replicate, Option.some.injEq, List.append_cancel_right_eq]
    congr 1
    unfold newRef; cases loc.lineno <;> rfl

theorem Reads.bytes {ref bs locs ref'} (h : Reads ref bs locs ref') : ∀ x ∈ bs, x < 256 := by
  induction h with
  | nil => simp
  | cons he _ ih =>
    intro x hx
    simp only [List.mem_cons, List.mem_append] at hx
    rcases hx with rfl | h | h
    · exact he.hd.2
    · exact he.bytes x h
    · exact ih x h

theorem assembleLocationsLoop_error (is : List LineInfo) : ∀ (k : Nat) (ref : Int) (old : Loc), 1 ≤ k →
    (∀ i ∈ is, i.size % 2 = 0 ∧ 2 ≤ i.size) →
    (∀ l ∈ old :: inherit old (is.map (·.loc)), Coherent l) →
    (∃ l ∈ old :: inherit old (is.map (·.loc)), Unencodable l) →
    assembleLocationsLoop (2 * k) ref old is = .error .valueError := by
  induction is with
  | nil =>
    intro k ref old hk _ hl hx
    simp only [List.map_nil, inherit, List.mem_singleton, exists_eq_left] at hx
    simp [assembleLocationsLoop, pushLocations_error _ ref old (hl old (by simp)) hx, bind, Except.bind]
  | cons i is ih =>
    intro k ref old hk hs hl hx
    obtain ⟨hi1, hi2⟩ := hs i (by simp)
    have hs' : ∀ j ∈ is, j.size % 2 = 0 ∧ 2 ≤ j.size := fun j hj => hs j (by simp [hj])
    obtain ⟨m, hm⟩ : ∃ m, i.size = 2 * m := ⟨i.size / 2, by omega⟩
    have hinh : inherit old ((i :: is).map (·.loc)) = i.loc.getD old :: inherit (i.loc.getD old) (is.map (·.loc)) := by
      cases hl' : i.loc <;> simp [inherit, hl']
    rw [hinh] at hl hx
    rw [assembleLocationsLoop]
    by_cases hg : old.lineno.isSome ∧ old = i.loc.getD old
    · rw [if_pos hg]
      rw [← hg.2] at hl hx
      rw [hm, show 2 * k + 2 * m = 2 * (k + m) by omega]
      exact ih (k + m) ref old (by omega) hs' (fun l h => hl l (by simpa using h)) (by simpa using hx)
    · rw [if_neg hg]
      have hc := hl old (by simp)
      by_cases hu : Unencodable old
      · simp [pushLocations_error _ ref old hc hu, bind, Except.bind]
      · obtain ⟨bs, hb, hr⟩ := pushLocations_ok k hk ref old hc hu
        rw [hm]
        have := ih m (newRef ref old) (i.loc.getD old) (by omega) hs'
          (fun l h => hl l (List.mem_cons_of_mem _ h)) (by
            obtain ⟨l, hl, hlu⟩ := hx
            rcases List.mem_cons.1 hl with rfl | h
            · exact absurd hlu hu
            · exact ⟨l, h, hlu⟩)
        simp [hb, this, bind, Except.bind]

theorem unitLocs_eq_perUnit (sizes : List Nat) (ls : List Loc) :
    unitLocs (sizes.map (· / 2)) ls = perUnit sizes ls := by
  unfold unitLocs perUnit
  congr 1
  induction sizes generalizing ls with
  | nil => rfl
  | cons s ss ih => cases ls <;> simp [ih]

theorem mem_inherit {prev : Loc} {xs : List (Option Loc)} {l : Loc} (h : l ∈ inherit prev xs) :
    l = prev ∨ some l ∈ xs := by
  induction xs generalizing prev with
  | nil => simp [inherit] at h
  | cons x xs ih =>
    cases x with
    | none =>
      simp only [inherit, List.mem_cons] at h
      rcases h with h | h
      · exact .inl h
      · rcases ih h with h | h
        · exact .inl h
        · exact .inr (by simp [h])
    | some y =>
      simp only [inherit, List.mem_cons] at h
      rcases h with h | h
      · exact .inr (by simp [h])
      · rcases ih h with h | h
        · exact .inr (by simp [h])
        · exact .inr (by simp [h])

theorem inherit_mem {prev : Loc} {xs : List (Option Loc)} {l : Loc} (h : some l ∈ xs) : l ∈ inherit prev xs := by
  induction xs generalizing prev with
  | nil => simp at h
  | cons x xs ih =>
    simp only [List.mem_cons] at h
    rcases h with rfl | h
    · simp [inherit]
    · cases x <;> simp [inherit, ih h]

theorem coherent_line (l : Option Nat) : Coherent (Loc.line l) := by
  constructor <;> simp [Loc.line]

theorem not_unencodable_line (l : Option Nat) : ¬ Unencodable (Loc.line l) := by
  simp [Loc.line, Unencodable]

theorem effectiveLocs_mem {is : List LineInfo} {l : Loc} (h : l ∈ effectiveLocs is) :
    (∃ n, l = Loc.line (some n)) ∨ ∃ i ∈ is, i.loc = some l := by
  unfold effectiveLocs at h
  cases is with
  | nil => simp at h
  | cons i is =>
    rcases mem_inherit h with h | h
    · exact .inl ⟨_, h⟩
    · simp only [List.mem_map] at h
      exact .inr h

theorem assembleLocations_reads (first : Nat) (is : List LineInfo)
    (hs : ∀ i ∈ is, i.size % 2 = 0 ∧ 2 ≤ i.size)
    (hl : ∀ i ∈ is, ∀ l, i.loc = some l → Coherent l ∧ ¬ Unencodable l) :
    ∃ bs ref', assembleLocations first is = .ok bs ∧
      Reads first bs (perUnit (is.map (·.size)) (effectiveLocs is)) ref' := by
  cases is with
  | nil => exact ⟨[], first, rfl, by simpa [perUnit, effectiveLocs] using Reads.nil _⟩
  | cons i rest =>
    have hinh : effectiveLocs (i :: rest) = i.loc.getD (Loc.line (some i.lineno)) ::
        inherit (i.loc.getD (Loc.line (some i.lineno))) (rest.map (·.loc)) := by
      cases hl' : i.loc <;> simp [effectiveLocs, inherit, hl']
    obtain ⟨hi1, hi2⟩ := hs i (by simp)
    obtain ⟨m, hm⟩ : ∃ m, i.size = 2 * m := ⟨i.size / 2, by omega⟩
    have := assembleLocationsLoop_ok rest m first (i.loc.getD (Loc.line (some i.lineno))) (by omega)
      (fun j hj => hs j (by simp [hj])) (by
        intro l h
        rw [← hinh] at h
        rcases effectiveLocs_mem h with ⟨n, rfl⟩ | ⟨j, hj, hjl⟩
        · exact ⟨coherent_line _, not_unencodable_line _⟩
        · exact hl j hj l hjl)
    rw [← hinh] at this
    rw [← unitLocs_eq_perUnit, List.map_map]
    unfold assembleLocations
    simpa [hm, Function.comp_def] using this

theorem assembleLocations_error (first : Nat) (is : List LineInfo)
    (hs : ∀ i ∈ is, i.size % 2 = 0 ∧ 2 ≤ i.size)
    (hl : ∀ i ∈ is, ∀ l, i.loc = some l → Coherent l)
    (hx : ∃ i ∈ is, ∃ l, i.loc = some l ∧ Unencodable l) :
    assembleLocations first is = .error .valueError := by
  cases is with
  | nil => simp at hx
  | cons i rest =>
    have hinh : effectiveLocs (i :: rest) = i.loc.getD (Loc.line (some i.lineno)) ::
        inherit (i.loc.getD (Loc.line (some i.lineno))) (rest.map (·.loc)) := by
      cases hl' : i.loc <;> simp [effectiveLocs, inherit, hl']
    obtain ⟨hi1, hi2⟩ := hs i (by simp)
    obtain ⟨m, hm⟩ : ∃ m, i.size = 2 * m := ⟨i.size / 2, by omega⟩
    have := assembleLocationsLoop_error rest m first (i.loc.getD (Loc.line (some i.lineno))) (by omega)
      (fun j hj => hs j (by simp [hj])) (by
        intro l h
        rw [← hinh] at h
        rcases effectiveLocs_mem h with ⟨n, rfl⟩ | ⟨j, hj, hjl⟩
        · exact coherent_line _
        · exact hl j hj l hjl) (by
        obtain ⟨j, hj, l, hjl, hu⟩ := hx
        refine ⟨l, ?_, hu⟩
        rw [← hinh]
        unfold effectiveLocs
        exact inherit_mem (by simp only [List.mem_map]; exact ⟨j, hj, hjl⟩))
    unfold assembleLocations
    simpa [hm] using this

end Verif
