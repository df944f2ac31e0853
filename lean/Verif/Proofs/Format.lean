import Verif.Model.Format
import Verif.Spec.Format
/-
Cancellation lemmas on texts, for C57.
-/
namespace Verif
open Spec

theorem sep_inj {c : Char} : ∀ {d e X Y : Text}, c ∉ d → c ∉ e → d ++ c :: X = e ++ c :: Y → d = e ∧ X = Y
  | [], [], _, _, _, _, h => by simpa using h
  | [], y :: e, _, _, _, he, h => by
    simp only [List.nil_append, List.cons_append, List.cons.injEq] at h
    exact absurd h.1 (fun h' => he (by simp [h']))
  | x :: d, [], _, _, hd, _, h => by
    simp only [List.nil_append, List.cons_append, List.cons.injEq] at h
    exact absurd h.1 (fun h' => hd (by simp [h']))
  | x :: d, y :: e, X, Y, hd, he, h => by
    simp only [List.cons_append, List.cons.injEq] at h
    obtain ⟨h1, h2⟩ := sep_inj (d := d) (e := e) (fun hh => hd (by simp [hh])) (fun hh => he (by simp [hh])) h.2
    exact ⟨by rw [h.1, h1], h2⟩

theorem decimal_inj {a b : Nat} (h : decimal a = decimal b) : a = b := by
  have h1 := congrArg (fun t => Nat.ofDigitChars 10 t 0) h
  simpa [decimal, Nat.ofDigitChars_ten_toDigits] using h1

theorem decimal_digit {a : Nat} {c : Char} (h : c ∈ decimal a) : c.isDigit = true :=
  Nat.isDigit_of_mem_toDigits (by decide) (by decide) h

theorem decimal_ne {a : Nat} {c : Char} (hc : c.isDigit = false) : c ∉ decimal a := fun h => by
  rw [decimal_digit h] at hc; exact absurd hc (by decide)

theorem decimal_cons (a : Nat) : ∃ c r, decimal a = c :: r ∧ c.isDigit = true := by
  have h : decimal a ≠ [] := Nat.toDigits_ne_nil
  obtain ⟨c, r, hcr⟩ := List.exists_cons_of_ne_nil h
  exact ⟨c, r, hcr, decimal_digit (a := a) (by rw [hcr]; simp)⟩

/-- A text that starts with something else than a space. -/
def Head (t : Text) : Prop := ∃ c r, t = c :: r ∧ c ≠ ' '

theorem head_append {t u : Text} (h : Head t) : Head (t ++ u) := by
  obtain ⟨c, r, rfl, hc⟩ := h
  exact ⟨c, r ++ u, rfl, hc⟩

theorem decimal_head (a : Nat) : Head (decimal a) := by
  obtain ⟨c, r, h, hc⟩ := decimal_cons a
  exact ⟨c, r, h, fun he => by subst he; exact absurd hc (by decide)⟩

theorem spaces_inj : ∀ {n m : Nat} {d e : Text}, Head d → Head e → List.replicate n ' ' ++ d = List.replicate m ' ' ++ e →
    n = m ∧ d = e
  | 0, 0, _, _, _, _, h => ⟨rfl, by simpa using h⟩
  | 0, m + 1, d, e, hd, _, h => by
    obtain ⟨c, r, rfl, hc⟩ := hd
    simp only [List.replicate_zero, List.nil_append, List.replicate_succ, List.cons_append, List.cons.injEq] at h
    exact absurd h.1 hc
  | n + 1, 0, d, e, _, he, h => by
    obtain ⟨c, r, rfl, hc⟩ := he
    simp only [List.replicate_zero, List.nil_append, List.replicate_succ, List.cons_append, List.cons.injEq] at h
    exact absurd h.1.symm hc
  | n + 1, m + 1, d, e, hd, he, h => by
    simp only [List.replicate_succ, List.cons_append, List.cons.injEq, true_and] at h
    obtain ⟨h1, h2⟩ := spaces_inj hd he h
    exact ⟨by rw [h1], h2⟩

/-- A padded number, after any number of spaces, and what follows the separator. -/
theorem pad_inj {c : Char} (hc : c.isDigit = false) {n m a b : Nat} {X Y : Text}
    (h : List.replicate n ' ' ++ (pad3 (decimal a) ++ c :: X) = List.replicate m ' ' ++ (pad3 (decimal b) ++ c :: Y)) :
    a = b ∧ X = Y := by
  simp only [pad3, List.append_assoc] at h
  rw [← List.append_assoc, ← List.append_assoc (List.replicate m ' '), List.replicate_append_replicate,
    List.replicate_append_replicate] at h
  obtain ⟨_, h2⟩ := spaces_inj (head_append (decimal_head a)) (head_append (decimal_head b)) h
  obtain ⟨h3, h4⟩ := sep_inj (decimal_ne hc) (decimal_ne hc) h2
  exact ⟨decimal_inj h3, h4⟩

/-- A text on one line. -/
theorem pad3_digit {a : Nat} {c : Char} (h : c ∈ pad3 (decimal a)) : c = ' ' ∨ c.isDigit = true := by
  simp only [pad3, List.mem_append, List.mem_replicate] at h
  rcases h with ⟨_, rfl⟩ | h
  · exact .inl rfl
  · exact .inr (decimal_digit h)

theorem pad3_spaces (a : Nat) : ∃ n, pad3 (decimal a) = List.replicate n ' ' ++ decimal a := ⟨_, rfl⟩

/-- The text of a line, its line number and its index, from the line with any indentation. -/
theorem line_inj {ln : Bool} {s t : FmtSt} {n m k j : Nat} {x y U V : Text} (hp : s.prev = t.prev) (hx : Head x)
    (hy : Head y) (hx' : '\n' ∉ x) (hy' : '\n' ∉ y)
    (h : List.replicate n ' ' ++ ((s.line ln k x).1 ++ '\n' :: U) = List.replicate m ' ' ++ ((t.line ln j y).1 ++ '\n' :: V)) :
    x = y ∧ U = V ∧ (ln = true → s.cur = t.cur ∧ k = j) := by
  unfold FmtSt.line at h
  cases ln with
  | false =>
    simp only [Bool.false_eq_true, if_false] at h
    obtain ⟨_, h2⟩ := spaces_inj (head_append hx) (head_append hy) h
    obtain ⟨h3, h4⟩ := sep_inj hx' hy' h2
    exact ⟨h3, h4, by simp⟩
  | true =>
    have hL : ∀ u, Head ((txt "L.") ++ u) := fun u => ⟨'L', '.' :: u, by rfl, by decide⟩
    have hfin : ∀ {X Y : Text}, (txt ": ") ++ (X ++ '\n' :: U) = (txt ": ") ++ (Y ++ '\n' :: V) → '\n' ∉ X → '\n' ∉ Y → X = Y ∧ U = V := by
      intro X Y h1 h2 h3
      exact sep_inj h2 h3 (List.append_cancel_left h1)
    simp only [if_true] at h
    by_cases h1 : s.prev = some s.cur
    · by_cases h2 : t.prev = some t.cur
      · have hcur : s.cur = t.cur := by rw [hp, h2] at h1; exact (Option.some.inj h1).symm
        rw [if_neg (by simpa using h1), if_neg (by simpa using h2)] at h
        have e6 : (txt "      ") = List.replicate 6 ' ' := by decide
        have ec : (txt ": ") = [':', ' '] := by decide
        simp only [e6, ec, List.append_assoc, List.cons_append, List.nil_append] at h
        rw [← List.append_assoc, ← List.append_assoc (List.replicate m ' '), List.replicate_append_replicate,
          List.replicate_append_replicate] at h
        obtain ⟨h3, h4⟩ := pad_inj (by decide) h
        have h5 := (List.cons.inj h4).2
        obtain ⟨h6, h7⟩ := sep_inj hx' hy' h5
        exact ⟨h6, h7, fun _ => ⟨hcur, h3⟩⟩
      · rw [if_neg (by simpa using h1), if_pos (by simpa using h2)] at h
        exfalso
        have e6 : (txt "      ") = List.replicate 6 ' ' := by decide
        obtain ⟨p, ep⟩ := pad3_spaces k
        simp only [e6, ep, List.append_assoc] at h
        rw [← List.append_assoc (List.replicate 6 ' '), List.replicate_append_replicate, ← List.append_assoc,
          List.replicate_append_replicate] at h
        obtain ⟨_, h3⟩ := spaces_inj (head_append (decimal_head k)) (hL _) h
        obtain ⟨c, r, hc, hd⟩ := decimal_cons k
        rw [hc] at h3
        have h4 : c = 'L' := (List.cons.inj h3).1
        rw [h4] at hd; exact absurd hd (by decide)
    · by_cases h2 : t.prev = some t.cur
      · rw [if_pos (by simpa using h1), if_neg (by simpa using h2)] at h
        exfalso
        have e6 : (txt "      ") = List.replicate 6 ' ' := by decide
        obtain ⟨p, ep⟩ := pad3_spaces j
        simp only [e6, ep, List.append_assoc] at h
        rw [← List.append_assoc (List.replicate 6 ' '), List.replicate_append_replicate, ← List.append_assoc (List.replicate m ' '),
          List.replicate_append_replicate] at h
        obtain ⟨_, h3⟩ := spaces_inj (hL _) (head_append (decimal_head j)) h
        obtain ⟨c, r, hc, hd⟩ := decimal_cons j
        rw [hc] at h3
        have h4 : 'L' = c := (List.cons.inj h3).1
        rw [← h4] at hd; exact absurd hd (by decide)
      · rw [if_pos (by simpa using h1), if_pos (by simpa using h2)] at h
        simp only [List.append_assoc] at h
        obtain ⟨_, h3⟩ := spaces_inj (hL _) (hL _) h
        have h4 := List.append_cancel_left h3
        have h5 := pad_inj (c := ' ') (n := 0) (m := 0) (by decide) (by simpa using h4)
        have ec : (txt ": ") = [':', ' '] := by decide
        have h6 := h5.2
        try simp only [ec, List.cons_append, List.nil_append] at h6
        have h7 := pad_inj (c := ':') (n := 0) (m := 0) (by decide) (by simpa using h6)
        have h8 := (List.cons.inj h7.2).2
        obtain ⟨h9, h10⟩ := sep_inj hx' hy' h8
        exact ⟨h9, h10, fun _ => ⟨h5.1, h7.1⟩⟩

/-- After its spaces, a line starts with a capital or a digit when its text does. -/
theorem line_head (ln : Bool) (s : FmtSt) (n k : Nat) {x : Text} (hx : ∃ c r, x = c :: r ∧ (c.isUpper ∨ c.isDigit ∨ c = '_')) :
    ∃ p c r, List.replicate n ' ' ++ (s.line ln k x).1 = List.replicate p ' ' ++ c :: r ∧ (c.isUpper ∨ c.isDigit ∨ c = '_') := by
  unfold FmtSt.line
  cases ln with
  | false =>
    obtain ⟨c, r, rfl, hc⟩ := hx
    exact ⟨n, c, r, by simp, hc⟩
  | true =>
    simp only [if_true]
    split
    · exact ⟨n, 'L', '.' :: (pad3 (decimal s.cur) ++ ' ' :: (pad3 (decimal k) ++ ':' :: ' ' :: x)), by simp, by decide⟩
    · obtain ⟨p, ep⟩ := pad3_spaces k
      obtain ⟨c, r, hc, hd⟩ := decimal_cons k
      refine ⟨n + 6 + p, c, r ++ ((txt ": ") ++ x), ?_, .inr (.inl hd)⟩
      have e6 : (txt "      ") = List.replicate 6 ' ' := by decide
      rw [ep, hc, e6]
      simp only [List.append_assoc, List.cons_append]
      rw [← List.append_assoc (List.replicate 6 ' '), List.replicate_append_replicate, ← List.append_assoc,
        List.replicate_append_replicate]
      rw [Nat.add_assoc]

theorem upper_ne {c d : Char} (h : c.isUpper ∨ c.isDigit ∨ c = '_') (hd : ¬ (d.isUpper ∨ d.isDigit ∨ d = '_')) : c ≠ d :=
  fun e => hd (e ▸ h)

/-- Such a line is not a text that starts, after its spaces, with another character. -/
theorem line_ne {n m : Nat} {c d : Char} {R S : Text} (hc : c.isUpper ∨ c.isDigit ∨ c = '_') (hd : ¬ (d.isUpper ∨ d.isDigit ∨ d = '_'))
    (hs : d ≠ ' ') (h : List.replicate n ' ' ++ c :: R = List.replicate m ' ' ++ d :: S) : False := by
  obtain ⟨_, h2⟩ := spaces_inj ⟨c, R, rfl, upper_ne hc (by decide)⟩ ⟨d, S, rfl, hs⟩ h
  exact upper_ne hc hd (List.cons.inj h2).1

end Verif
