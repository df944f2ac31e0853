import Verif.Model.OldCode
import Verif.Spec.OldCodeOK
/-
The lines found by `from_code` before 3.11 are those of the table.
-/
namespace Verif
open Spec

theorem dictGet_none {α : Type} (q : Nat) (l : List (Nat × α)) (h : ∀ p ∈ l, p.1 ≠ q) : dictGet q l = none := by
  induction l with
  | nil => rfl
  | cons p l ih =>
    obtain ⟨k, v⟩ := p
    have := h (k, v) (by simp)
    rw [dictGet, ih (fun x hx => h x (by simp [hx]))]
    simp only at this ⊢
    rw [if_neg this]

theorem dictGet_append {α : Type} (q : Nat) (a b : List (Nat × α)) : dictGet q (a ++ b) = (dictGet q b).or (dictGet q a) := by
  induction a with
  | nil => simp [dictGet]
  | cons p a ih =>
    obtain ⟨k, v⟩ := p
    rw [List.cons_append, dictGet, ih, dictGet]
    cases dictGet q b <;> cases dictGet q a <;> rfl

theorem linestarts_ge (len : Nat) (table : Bytes) : ∀ (n : Nat), table.length ≤ n → ∀ (last : Option Int) (line : Int) (addr : Nat), ∀ p ∈ findLinestarts len last line addr table, addr ≤ p.1 := by
  intro n
  induction n using Nat.strongRecOn generalizing table with
  | _ n ih =>
    intro hn last line addr p hp
    match table, hn with
    | [], _ =>
      unfold findLinestarts at hp
      split at hp
      · simp at hp; subst hp; exact Nat.le_refl _
      · cases hp
    | [_], _ =>
      unfold findLinestarts at hp
      split at hp
      · simp at hp; subst hp; exact Nat.le_refl _
      · cases hp
    | d :: l :: rest, hn =>
      simp only [List.length_cons] at hn
      rw [findLinestarts] at hp
      split at hp
      · exact ih (n - 1) (by omega) rest (by omega) _ _ _ p hp
      · rcases List.mem_append.1 hp with hp | hp
        · split at hp
          · simp at hp; subst hp; exact Nat.le_refl _
          · cases hp
        · split at hp
          · cases hp
          · have := ih (n - 1) (by omega) rest (by omega) _ _ _ p hp
            omega

/-- What a lookup in `findlinestarts` says of the line of a byte. -/
theorem linestarts_get (len q : Nat) (hq : q < len) (table : Bytes) : ∀ (n : Nat), table.length ≤ n → ∀ (last : Option Int) (line : Int) (addr : Nat), addr ≤ q →
    match dictGet q (findLinestarts len last line addr table) with
    | some l => l = lnotabLine addr line q table
    | none => (addr < q → lnotabLine addr line q table = lnotabLine addr line (q - 1) table) ∧ (q = addr → last = some (lnotabLine addr line q table)) := by
  intro n
  have base : ∀ (last : Option Int) (line : Int) (addr : Nat),
      match dictGet q (if some line ≠ last then [(addr, line)] else []) with
      | some l => l = line
      | none => (q = addr → last = some line) := by
    intro last line addr
    split
    · rename_i l h
      split at h
      · simp only [dictGet] at h
        split at h
        · exact (Option.some.inj h).symm
        · cases h
      · cases h
    · rename_i h
      split at h
      · intro e
        simp [dictGet, e] at h
      · rename_i hl
        intro _
        exact (by simpa using hl : some line = last).symm
  induction n using Nat.strongRecOn generalizing table with
  | _ n ih =>
    intro hn last line addr ha
    have simple : ∀ t : Bytes, (∀ x, lnotabLine addr line x t = line) → findLinestarts len last line addr t = (if some line ≠ last then [(addr, line)] else []) →
        match dictGet q (findLinestarts len last line addr t) with
        | some l => l = lnotabLine addr line q t
        | none => (addr < q → lnotabLine addr line q t = lnotabLine addr line (q - 1) t) ∧ (q = addr → last = some (lnotabLine addr line q t)) := by
      intro t ht hf
      rw [hf]
      have := base last line addr
      split at this
      · rename_i h; simp only [ht, this]
      · rename_i h; simp only [ht]; exact ⟨by simp, this⟩
    match table, hn with
    | [], _ => exact simple [] (fun _ => rfl) rfl
    | [b], _ => exact simple [b] (fun _ => rfl) rfl
    | d :: l :: rest, hn =>
      simp only [List.length_cons] at hn
      by_cases hd : d = 0
      · subst hd
        have h1 : ∀ x, addr ≤ x → lnotabLine addr line x (0 :: l :: rest) = lnotabLine addr (line + signed l) x rest := by
          intro x hx
          simp only [lnotabLine, Nat.add_zero]
          rw [if_neg (by omega)]
        have := ih (n - 1) (by omega) rest (by omega) last (line + signed l) addr ha
        rw [findLinestarts, if_pos rfl, h1 q ha]
        split
        · rename_i h; simpa only [h] using this
        · rename_i h
          simp only [h] at this
          exact ⟨fun hx => by rw [h1 (q - 1) (by omega)]; exact this.1 hx, this.2⟩
      · rw [findLinestarts, if_neg hd, dictGet_append]
        by_cases hlt : q < addr + d
        · have hn2 : dictGet q (if len ≤ addr + d then [] else findLinestarts len (some line) (line + signed l) (addr + d) rest) = none := by
            apply dictGet_none
            intro p hp
            split at hp
            · cases hp
            · have := linestarts_ge len rest _ (Nat.le_refl _) _ _ _ p hp
              omega
          rw [hn2, Option.none_or]
          have h1 : ∀ x, x ≤ q → lnotabLine addr line x (d :: l :: rest) = line := by
            intro x hx
            rw [lnotabLine, if_pos (by omega)]
          have := base last line addr
          rw [h1 q (Nat.le_refl _)]
          split at this
          · rename_i h; exact this
          · rename_i h; exact ⟨fun _ => (h1 (q - 1) (by omega)).symm, this⟩
        · rw [if_neg (by omega : ¬ len ≤ addr + d)]
          have hn1 : dictGet q (if some line ≠ last then [(addr, line)] else []) = none := by
            apply dictGet_none
            intro p hp
            split at hp
            · simp at hp; subst hp; simp; omega
            · cases hp
          rw [hn1]
          have h1 : ∀ x, addr + d ≤ x → lnotabLine addr line x (d :: l :: rest) = lnotabLine (addr + d) (line + signed l) x rest := by
            intro x hx
            rw [lnotabLine, if_neg (by omega)]
          have := ih (n - 1) (by omega) rest (by omega) (some line) (line + signed l) (addr + d) (by omega)
          rw [h1 q (by omega), Option.or_none]
          split
          · rename_i h; simpa only [h] using this
          · rename_i h
            simp only [h] at this
            refine ⟨fun _ => ?_, fun e => by omega⟩
            by_cases he : q = addr + d
            · have h2 := this.2 he
              rw [lnotabLine, if_pos (by omega)]
              exact (Option.some.inj h2).symm
            · rw [h1 (q - 1) (by omega)]
              exact this.1 (by omega)

theorem coLines_ge (table : Bytes) : ∀ (n : Nat), table.length ≤ n → ∀ (line : Int) (addr : Nat), ∀ p ∈ coLines addr line table, addr ≤ p.1 := by
  intro n
  induction n using Nat.strongRecOn generalizing table with
  | _ n ih =>
    intro hn line addr p hp
    match table, hn with
    | [], _ => simp [coLines] at hp
    | [_], _ => simp [coLines] at hp
    | d :: l :: rest, hn =>
      simp only [List.length_cons] at hn
      rw [coLines] at hp
      rcases List.mem_append.1 hp with hp | hp
      · split at hp
        · cases hp
        · simp at hp; subst hp; exact Nat.le_refl _
      · have := ih (n - 1) (by omega) rest (by omega) _ _ p hp
        omega

/-- One range of the 3.10 table. -/
theorem readLinetable_step (d l : Nat) (line : Int) (rest : Bytes) : readLinetable line (d :: l :: rest) =
    List.replicate d (if signed l = -128 then none else some (if signed l = -128 then line else line + signed l)) ++
      readLinetable (if signed l = -128 then line else line + signed l) rest := by
  rw [readLinetable]
  split <;> rfl

theorem coLines_get (q : Nat) (table : Bytes) : ∀ (n : Nat), table.length ≤ n → ∀ (line : Int) (addr : Nat), addr ≤ q → q - addr < (readLinetable line table).length →
    match dictGet q (coLines addr line table) with
    | some l => (readLinetable line table)[q - addr]? = some l
    | none => addr < q ∧ (readLinetable line table)[q - addr]? = (readLinetable line table)[q - 1 - addr]? := by
  intro n
  induction n using Nat.strongRecOn generalizing table with
  | _ n ih =>
    intro hn line addr ha hlen
    match table, hn with
    | [], _ => simp [readLinetable] at hlen
    | [_], _ => simp [readLinetable] at hlen
    | d :: l :: rest, hn =>
      simp only [List.length_cons] at hn
      rw [readLinetable_step] at hlen ⊢
      rw [coLines, dictGet_append]
      generalize (if signed l = -128 then line else line + signed l) = line' at *
      generalize (if signed l = -128 then none else some line') = x at *
      by_cases hlt : q < addr + d
      · have hn2 : dictGet q (coLines (addr + d) line' rest) = none := by
          apply dictGet_none
          intro p hp
          have := coLines_ge rest _ (Nat.le_refl _) _ _ p hp
          omega
        rw [hn2, Option.none_or, if_neg (by omega)]
        have h1 : ∀ y, addr ≤ y → y ≤ q → (List.replicate d x ++ readLinetable line' rest)[y - addr]? = some x := by
          intro y h1 h2
          rw [List.getElem?_append_left (by simp; omega), List.getElem?_replicate, if_pos (by omega)]
        rw [h1 q ha (Nat.le_refl _)]
        by_cases he : addr = q
        · subst he; simp [dictGet]
        · simp only [dictGet, if_neg he]
          exact ⟨by omega, (h1 (q - 1) (by omega) (by omega)).symm⟩
      · have hn1 : dictGet q (if d = 0 then [] else [(addr, x)]) = none := by
          apply dictGet_none
          intro p hp
          split at hp
          · cases hp
          · simp at hp; subst hp; simp; omega
        rw [hn1, Option.or_none]
        have h1 : ∀ y, addr + d ≤ y → (List.replicate d x ++ readLinetable line' rest)[y - addr]? = (readLinetable line' rest)[y - (addr + d)]? := by
          intro y h1
          rw [List.getElem?_append_right (by simp; omega)]
          congr 1
          simp; omega
        have := ih (n - 1) (by omega) rest (by omega) line' (addr + d) (by omega) (by simp at hlen; omega)
        rw [h1 q (by omega)]
        split
        · rename_i h; simpa only [h] using this
        · rename_i h
          simp only [h] at this
          exact ⟨by omega, by rw [h1 (q - 1) (by omega)]; exact this.2⟩

variable {P : Platform} {co : Code}

/-- A line found is the line of the byte; where none is found, the line is that of the byte before. -/
theorem lineStarts_spec (hcov : P.py310 = true → co.code.length ≤ (readLinetable co.firstlineno co.linetable).length) {q : Nat} (hq : q < co.code.length) :
    match lineStarts P co q with
    | some x => x = .val (lineOfByte P co q)
    | none => 0 < q ∧ lineOfByte P co q = lineOfByte P co (q - 1) := by
  unfold lineStarts lineOfByte
  cases h10 : P.py310 with
  | true =>
    simp only [if_true]
    have := coLines_get q co.linetable _ (Nat.le_refl _) co.firstlineno 0 (by omega) (by have := hcov h10; omega)
    simp only [Nat.sub_zero] at this
    cases hd : dictGet q (coLines 0 co.firstlineno co.linetable) with
    | some l => rw [hd] at this; simp only at this; simp only [Option.map_some, this, Option.join_some]
    | none => rw [hd] at this; simp only at this; simp only [Option.map_none, this.2]; exact ⟨this.1, trivial⟩
  | false =>
    simp only [Bool.false_eq_true, if_false]
    have := linestarts_get co.code.length q hq co.linetable _ (Nat.le_refl _) none co.firstlineno 0 (by omega)
    cases hd : dictGet q (findLinestarts co.code.length none co.firstlineno 0 co.linetable) with
    | some l => rw [hd] at this; simp only at this; simp only [Option.map_some, this]
    | none =>
      rw [hd] at this
      simp only at this
      have h0 : 0 < q := by
        rcases Nat.eq_zero_or_pos q with h | h
        · cases (this.2 h)
        · exact h
      exact ⟨h0, by rw [this.1 h0]⟩

end Verif
