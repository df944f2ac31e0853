import Verif.Proofs.WellFormed
import Verif.Props.FromCode
/-
Reading a code object as a ConcreteBytecode and writing it: the pieces.
-/
namespace Verif
open Spec
variable {P : Platform} {co : Code}

/-- The instructions of a well formed code string, its CACHE being zeroed. -/
theorem wellCoded_cache (P : Platform) (hP : P.WF) (h11 : P.py311 = true) {bs : Bytes} (h : WellCoded P bs) :
    ∃ is : List CInstr, bs = is.flatMap (CInstr.assemble P) ∧ CacheLayout P is ∧ (∀ i ∈ is, Readable P i) ∧ ∀ i ∈ is, i.opcode = 0 → i.arg = some 0 := by
  induction h with
  | nil => exact ⟨[], rfl, .nil, by simp, by simp⟩
  | instr exts name op a rest he hn h0 hx hb h256 ha hw hna _ ih =>
    obtain ⟨is, e, hl, hr, hc⟩ := ih
    obtain ⟨h1, h2⟩ := groupInstr_readable P hP exts name op a he hn h0 hx hb h256 ha hw hna
    refine ⟨groupInstr P exts name op a :: (List.replicate (P.cacheEntries op) cacheInstr ++ is), ?_, ?_, ?_, ?_⟩
    · rw [List.flatMap_cons, List.flatMap_append, caches_assemble P hP h11, ← e, h2]
      simp
    · refine .group _ _ _ h0 (by simp [groupInstr]) ?_ hl
      intro c hc
      rw [(List.mem_replicate.1 hc).2]
      exact ⟨rfl, rfl⟩
    · intro i hi
      rcases List.mem_cons.1 hi with rfl | hi
      · exact h1
      · rcases List.mem_append.1 hi with hi | hi
        · rw [(List.mem_replicate.1 hi).2]; exact (cacheInstr_readable P hP h11).1
        · exact hr i hi
    · intro i hi h0'
      rcases List.mem_cons.1 hi with rfl | hi
      · exact absurd h0' h0
      · rcases List.mem_append.1 hi with hi | hi
        · rw [(List.mem_replicate.1 hi).2]; rfl
        · exact hc i hi h0'

theorem assemble_same {i j : CInstr} (hi : Readable P i) (hj : Readable P j) (hs : SameInstr i j) (ha : j.arg = i.arg) : j.assemble P = i.assemble P := by
  have hn : nPrefix j = nPrefix i := by
    have h1 := size_of_units hi
    have h2 := size_of_units hj
    have := hs.size
    omega
  rw [assemble_eq P j hj.valid.size_eq, assemble_eq P i hi.valid.size_eq, ha, hs.opcode, hn]

theorem flatMap_same {is js : List CInstr} (h : List.Forall₂ SameInstr is js) (hi : ∀ i ∈ is, Readable P i ∧ (i.opcode = 0 → i.arg = some 0))
    (hj : ∀ j ∈ js, Readable P j ∧ (j.opcode = 0 → j.arg = some 0)) : js.flatMap (CInstr.assemble P) = is.flatMap (CInstr.assemble P) := by
  induction h with
  | nil => rfl
  | @cons i j is js hs _ ih =>
    rw [List.flatMap_cons, List.flatMap_cons, ih (fun i h => hi i (by simp [h])) (fun j h => hj j (by simp [h]))]
    congr 1
    have h1 := hi i (by simp)
    have h2 := hj j (by simp)
    refine assemble_same h1.1 h2.1 hs ?_
    by_cases h0 : i.opcode = 0
    · rw [h1.2 h0, h2.2 (by rw [hs.opcode]; exact h0)]
    · exact hs.arg h0

/-! ### Locations -/

theorem make_at {name : Option String} {arg : CArg} {l : Loc} {ext : Option Nat} {s : CInstr}
    (h : CInstr.make P name arg .unset (some l) ext = .ok s) : s.loc = some l := by
  unfold CInstr.make at h
  simp only [initLocation, bind, Except.bind, pure, Except.pure] at h
  split at h
  · cases h
  · cases h; rfl

/-- Where the location of something read comes from. -/
def LocFrom (Q : Loc → Prop) (i : CInstr) : Prop := ∃ l, i.loc = some l ∧ Q l

theorem cacheReads_loc {Q : Loc → Prop} {loc : Loc} (hl : Q loc) (n : Nat) : ∀ (pos : List Pos), (∀ p ∈ pos, ∀ l, locOfPos p = .ok l → Q l) →
    (∀ l, locOfPos noPos = .ok l → Q l) → ∀ us, cacheReads P loc pos n = .ok us → ∀ u ∈ us, LocFrom Q u := by
  induction n with
  | zero =>
    intro pos _ _ us h u hu
    simp only [cacheReads, Except.ok.injEq] at h
    subst h; simp at hu
  | succ n ih =>
    intro pos hp hn us h u hu
    rw [cacheReads] at h
    obtain ⟨l, h1, h⟩ := except_bind_ok h
    obtain ⟨i, h2, h⟩ := except_bind_ok h
    obtain ⟨r, h3, h⟩ := except_bind_ok h
    simp only [pure, Except.pure, Except.ok.injEq] at h
    subst h
    rcases List.mem_cons.1 hu with rfl | hu
    · refine ⟨l, (make_at h2), ?_⟩
      split at h1
      · cases h1; exact hl
      · cases pos with
        | nil => exact hn l h1
        | cons p pos => exact hp p (by simp) l h1
    · exact ih _ (fun p hp' => hp p (List.mem_of_mem_drop hp')) hn r h3 u hu

theorem disCode_loc {Q : Loc → Prop} (m : Nat) : ∀ (caches : Nat) (pos : List Pos) (bs : Bytes) (us : List CInstr), bs.length ≤ m →
    (∀ p ∈ pos, ∀ l, locOfPos p = .ok l → Q l) → (∀ l, locOfPos noPos = .ok l → Q l) → disCode P caches pos bs = .ok us → ∀ u ∈ us, LocFrom Q u := by
  induction m using Nat.strongRecOn with
  | _ m ih =>
    intro caches pos bs us hm hp hn h u hu
    match bs, hm with
    | [], _ => simp [disCode] at h; subst h; simp at hu
    | [_], _ => simp [disCode] at h; subst h; simp at hu
    | op :: a :: rest, hm =>
      have hlt : rest.length < m := by simp at hm; omega
      cases caches with
      | succ k =>
        rw [disCode] at h
        exact ih _ hlt _ _ rest us (Nat.le_refl _) hp hn h u hu
      | zero =>
        rw [disCode] at h
        obtain ⟨name, _, h⟩ := except_bind_ok h
        obtain ⟨loc, hl, h⟩ := except_bind_ok h
        obtain ⟨i, hi, h⟩ := except_bind_ok h
        obtain ⟨cs, hcs, h⟩ := except_bind_ok h
        obtain ⟨r, hr, h⟩ := except_bind_ok h
        simp only [pure, Except.pure, Except.ok.injEq] at h
        subst h
        have hco : Q loc := by
          cases pos with
          | nil => exact hn loc hl
          | cons p pos => exact hp p (by simp) loc hl
        rcases List.mem_append.1 hu with hu | hu
        · rcases List.mem_cons.1 hu with rfl | hu
          · exact ⟨loc, (make_at hi), hco⟩
          · exact cacheReads_loc hco _ _ (fun p hp' => hp p (List.mem_of_mem_drop hp')) hn _ hcs u hu
        · exact ih _ hlt _ _ rest r (Nat.le_refl _) (fun p hp' => hp p (List.mem_of_mem_drop hp')) hn hr u hu

theorem remove_loc {Q : Loc → Prop} (l : List CElem) (hl : ∀ ci, .instr ci ∈ l → LocFrom Q ci) (nb : Nat) (ext : Option Nat) (es : List CElem)
    (h : removeExtendedArgs P nb ext l = .ok es) : ∀ ci, .instr ci ∈ es → LocFrom Q ci := by
  induction l generalizing nb ext es with
  | nil =>
    unfold removeExtendedArgs at h
    split at h <;> simp only [Except.ok.injEq, reduceCtorEq] at h
    subst h; simp
  | cons e l ih =>
    have ih := ih (fun ci hci => hl ci (by simp [hci]))
    cases e with
    | setLineno n =>
      rw [removeExtendedArgs] at h
      obtain ⟨r, h1, h⟩ := except_bind_ok h
      simp only [pure, Except.pure, Except.ok.injEq] at h
      subst h
      intro ci hci
      simp only [List.mem_cons, reduceCtorEq, false_or] at hci
      exact ih _ _ _ h1 ci hci
    | instr i =>
      unfold removeExtendedArgs at h
      have hi := hl i (by simp)
      split at h
      · split at h
        · simp at h
        · split at h <;> exact ih _ _ _ h
      · split at h
        · obtain ⟨a, _, h⟩ := except_bind_ok h
          obtain ⟨i', h1, h⟩ := except_bind_ok h
          obtain ⟨r, h2, h⟩ := except_bind_ok h
          simp only [pure, Except.pure, Except.ok.injEq] at h
          subst h
          intro ci hci
          simp only [List.mem_cons, CElem.instr.injEq] at hci
          rcases hci with rfl | hci
          · obtain ⟨l', hl', hq⟩ := hi
            rw [hl'] at h1
            exact ⟨l', (make_at h1), hq⟩
          · exact ih _ _ _ h2 ci hci
        · obtain ⟨r, h2, h⟩ := except_bind_ok h
          simp only [pure, Except.pure, Except.ok.injEq] at h
          subst h
          intro ci hci
          simp only [List.mem_cons, CElem.instr.injEq] at hci
          rcases hci with rfl | hci
          · exact hi
          · exact ih _ _ _ h2 ci hci

theorem pos_kept {p : Pos} {l : Loc} (hp : p.col = none → p.endLine = p.line) (hl : locOfPos p = .ok l) : ¬ Unencodable l ∧ keptLoc l = l := by
  have hv := locOfPos_val hl
  have hco : Coherent l := Loc.make_coherent hl
  subst hv
  obtain ⟨h1, h2, h3, h4⟩ := hco
  simp only at h1 h2 h3 h4
  constructor
  · rintro ⟨c1, e, c2, c3⟩
    simp only [Option.map_eq_none_iff] at c1 c2 c3
    rw [hp c1] at c2
    exact c3 c2
  · unfold keptLoc
    cases hc : p.col with
    | none =>
      rw [hp hc]
      rw [hc] at h2
      cases hd : p.endCol with
      | some d => rw [hd] at h2; simp at h2
      | none => cases p.line <;> rfl
    | some c =>
      cases he : p.endLine with
      | none => rw [hc, he] at h3; simp at h3
      | some e =>
        obtain ⟨_, b, hb, _⟩ := h1 e.toNat (by rw [he]; rfl)
        cases hl : p.line with
        | none => rw [hl] at hb; cases hb
        | some n => rfl

theorem kept_pos {p : Pos} (hp : p.col = none → p.endLine = p.line) (hl : ∃ l, locOfPos p = .ok l) :
    ¬ Unencodable ⟨p.line.map Int.toNat, p.endLine.map Int.toNat, p.col.map Int.toNat, p.endCol.map Int.toNat⟩ ∧
    keptLoc ⟨p.line.map Int.toNat, p.endLine.map Int.toNat, p.col.map Int.toNat, p.endCol.map Int.toNat⟩ =
      ⟨p.line.map Int.toNat, p.endLine.map Int.toNat, p.col.map Int.toNat, p.endCol.map Int.toNat⟩ := by
  obtain ⟨l, hl⟩ := hl
  have := pos_kept hp hl
  rw [locOfPos_val hl] at this
  exact this

/-- Every instruction read, CACHE included, has a location which the formats can hold. -/
theorem fromCode_locs {js : List CInstr} (hcol : ∀ p ∈ (readLocs co.firstlineno co.linetable).getD [], p.col = none → p.endLine = p.line)
    (h : Concrete.fromCode P co = .ok (readOf co js)) : ∀ j ∈ js, LocFrom (fun l => ¬ Unencodable l ∧ keptLoc l = l) j := by
  unfold Concrete.fromCode at h
  obtain ⟨us, h1, h⟩ := except_bind_ok h
  obtain ⟨es, h2, h⟩ := except_bind_ok h
  simp only [Bool.false_eq_true, if_false] at h2
  simp only [pure, Except.pure, Except.ok.injEq] at h
  have he : es = js.map .instr := congrArg Concrete.elems h
  intro j hj
  refine remove_loc (P := P) (us.map .instr) ?_ 0 none es h2 j (by rw [he]; exact List.mem_map.2 ⟨j, hj, rfl⟩)
  intro ci hci
  obtain ⟨u, hu, e⟩ := List.mem_map.1 hci
  cases e
  exact disCode_loc _ 0 _ _ us (Nat.le_refl _) (fun p hp l hl => pos_kept (hcol p hp) hl) (fun l hl => pos_kept (fun _ => rfl) hl) h1 _ hu

end Verif
