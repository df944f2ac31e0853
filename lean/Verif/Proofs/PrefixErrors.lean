import Verif.Proofs.Disassemble
import Verif.Proofs.Errors
import Verif.Spec.Undecodable
/-
The exceptions of the folding of EXTENDED_ARG prefixes.
-/
namespace Verif
open Spec

variable {P : Platform}

abbrev isPrefixes (us : List CInstr) (bs : List Nat) : Prop := us.map (fun u => (u.name, u.arg)) = bs.map (fun b => ("EXTENDED_ARG", some b))

def valueOf (bs : List Nat) : Nat := bs.foldl (fun x b => 256 * x + b) 0

def stateOf (bs : List Nat) : Option Nat := if bs = [] then none else some (valueOf bs)

theorem isPrefixes_mem {us : List CInstr} {bs : List Nat} (h : isPrefixes us bs) {u : CInstr} (hu : u ∈ us) : u.name = "EXTENDED_ARG" := by
  have : (u.name, u.arg) ∈ us.map (fun u => (u.name, u.arg)) := List.mem_map_of_mem hu
  rw [h, List.mem_map] at this
  obtain ⟨b, _, hb⟩ := this
  exact (congrArg Prod.fst hb).symm

theorem isPrefixes_append {us vs : List CInstr} {bs : List Nat} (h : isPrefixes (us ++ vs) bs) : ∃ b1 b2, bs = b1 ++ b2 ∧ isPrefixes us b1 ∧ isPrefixes vs b2 := by
  unfold isPrefixes at h
  rw [List.map_append] at h
  obtain ⟨l1, l2, rfl, h1, h2⟩ := List.map_eq_append_iff.1 h.symm
  exact ⟨l1, l2, rfl, h1.symm, h2.symm⟩

theorem isPrefixes_inj {us : List CInstr} {b1 b2 : List Nat} (h1 : isPrefixes us b1) (h2 : isPrefixes us b2) : b1 = b2 := by
  unfold isPrefixes at h1 h2
  rw [h1] at h2
  have := congrArg (List.map (fun (x : String × Option Nat) => x.2.getD 0)) h2
  simpa [Function.comp_def] using this

theorem valueOf_append (b1 b2 : List Nat) : valueOf b2 ≤ valueOf (b1 ++ b2) := by
  unfold valueOf
  rw [List.foldl_append]
  generalize b1.foldl (fun x b => 256 * x + b) 0 = y
  have : ∀ (l : List Nat) (x y : Nat), x ≤ y → l.foldl (fun x b => 256 * x + b) x ≤ l.foldl (fun x b => 256 * x + b) y := by
    intro l
    induction l with
    | nil => intro x y h; exact h
    | cons b l ih => intro x y h; exact ih _ _ (by simp only; omega)
  exact this _ _ _ (by omega)

/-- A mistake does not straddle an instruction that is no prefix. -/
theorem badPrefix_split {xs rest : List CInstr} {i : CInstr} {e : PyErr} (hi : i.name ≠ "EXTENDED_ARG") (h : BadPrefix (xs ++ i :: rest) e) :
    BadPrefix (xs ++ [i]) e ∨ BadPrefix rest e := by
  cases h with
  | @dangling pre u h hu =>
    rw [List.append_eq_append_iff] at h
    rcases h with ⟨ys, h1, h2⟩ | ⟨ys, h1, h2⟩
    · cases ys with
      | nil => simp at h2; exact absurd (h2.1 ▸ hu) hi
      | cons y ys =>
        simp only [List.cons_append, List.cons.injEq] at h2
        exact .inr (.dangling h2.2 hu)
    · cases ys with
      | nil => simp at h2; exact absurd (h2.1 ▸ hu) hi
      | cons y ys => simp at h2
  | @noArg pre post u j h hu hj1 hj2 hj3 =>
    rw [List.append_eq_append_iff] at h
    rcases h with ⟨ys, h1, h2⟩ | ⟨ys, h1, h2⟩
    · cases ys with
      | nil => simp at h2; exact absurd (h2.1 ▸ hu) hi
      | cons y ys =>
        simp only [List.cons_append, List.cons.injEq] at h2
        exact .inr (.noArg h2.2 hu hj1 hj2 hj3)
    · cases ys with
      | nil => simp at h2; exact absurd (h2.1 ▸ hu) hi
      | cons y ys =>
        simp only [List.cons_append, List.cons.injEq] at h2
        obtain ⟨rfl, h2⟩ := h2
        left
        cases ys with
        | nil =>
          simp only [List.nil_append, List.cons.injEq] at h2
          obtain ⟨rfl, _⟩ := h2
          subst h1
          exact .noArg (pre := pre) (post := []) (by simp) hu hj1 hj2 hj3
        | cons z ys =>
          simp only [List.cons_append, List.cons.injEq] at h2
          obtain ⟨rfl, h2⟩ := h2
          subst h1
          exact .noArg (pre := pre) (post := ys ++ [i]) (by simp) hu hj1 hj2 hj3
  | @large pre us post j bs a h hne hus hj hja hlt =>
    rw [List.append_eq_append_iff] at h
    rcases h with ⟨ys, h1, h2⟩ | ⟨ys, h1, h2⟩
    · cases ys with
      | nil =>
        cases us with
        | nil => exact absurd rfl hne
        | cons u us =>
          simp at h2
          exact absurd (isPrefixes_mem hus (by simp [h2.1])) hi
      | cons y ys =>
        simp only [List.cons_append, List.cons.injEq] at h2
        exact .inr (.large h2.2 hne hus hj hja hlt)
    · -- the run starts in `xs`
      left
      subst h1
      rw [List.append_eq_append_iff] at h2
      rcases h2 with ⟨zs, h3, h4⟩ | ⟨zs, h3, h4⟩
      · cases zs with
        | nil =>
          simp only [List.nil_append, List.cons.injEq] at h4
          obtain ⟨rfl, _⟩ := h4
          simp only [List.append_nil] at h3
          subst h3
          exact .large (pre := pre) (post := []) (by simp) hne hus hj hja hlt
        | cons z zs =>
          simp only [List.cons_append, List.cons.injEq] at h4
          obtain ⟨rfl, h4⟩ := h4
          subst h3
          exact .large (pre := pre) (post := zs ++ [i]) (by simp) hne hus hj hja hlt
      · cases zs with
        | nil =>
          simp only [List.nil_append, List.cons.injEq] at h4
          obtain ⟨rfl, _⟩ := h4
          simp only [List.append_nil] at h3
          subst h3
          exact .large (pre := pre) (post := []) (by simp) hne hus hj hja hlt
        | cons z zs =>
          simp only [List.cons_append, List.cons.injEq] at h4
          obtain ⟨rfl, h4⟩ := h4
          exact absurd (isPrefixes_mem hus (by simp [h3])) hi

/-- A mistake in a run of prefixes and one instruction. -/
theorem badPrefix_run {us : List CInstr} {bs : List Nat} {i : CInstr} {e : PyErr} (hi : i.name ≠ "EXTENDED_ARG") (hus : isPrefixes us bs)
    (h : BadPrefix (us ++ [i]) e) : bs ≠ [] ∧ (i.arg = none ∧ i.name ≠ "NOP" ∨ ∃ a, i.arg = some a ∧ 2147483647 < joined bs a) := by
  cases h with
  | @dangling pre u h hu =>
    have := List.append_inj_right' h rfl
    simp at this
    exact absurd (this ▸ hu) hi
  | @noArg pre post u j h hu hj1 hj2 hj3 =>
    have hj : j = i := by
      have : j ∈ us ++ [i] := by rw [h]; simp
      rcases List.mem_append.1 this with hx | hx
      · exact absurd (isPrefixes_mem hus hx) hj1
      · simpa using hx
    subst hj
    refine ⟨?_, .inl ⟨hj3, hj2⟩⟩
    rintro rfl
    cases us with
    | nil => have := congrArg List.length h; simp at this; omega
    | cons => simp [isPrefixes] at hus
  | @large pre vs post j bs' a h hne hvs hj hja hlt =>
    have hji : j = i := by
      have : j ∈ us ++ [i] := by rw [h]; simp
      rcases List.mem_append.1 this with hx | hx
      · exact absurd (isPrefixes_mem hus hx) hj
      · simpa using hx
    subst hji
    have hpost : post = [] := by
      rcases List.eq_nil_or_concat post with rfl | ⟨q, x, rfl⟩
      · rfl
      · exfalso
        have : us ++ [j] = (pre ++ (vs ++ j :: q)) ++ [x] := by rw [h]; simp
        have := List.append_inj_left' this rfl
        exact hj (isPrefixes_mem hus (by rw [this]; simp))
    subst hpost
    have : us = pre ++ vs := by
      have : us ++ [j] = (pre ++ vs) ++ [j] := by rw [h]; simp
      exact List.append_inj_left' this rfl
    subst this
    obtain ⟨b1, b2, rfl, _, h2⟩ := isPrefixes_append hus
    have := isPrefixes_inj hvs h2
    subst this
    refine ⟨?_, .inr ⟨a, hja, ?_⟩⟩
    · intro hb
      simp only [List.append_eq_nil_iff] at hb
      rw [hb.2] at hvs
      exact hne (List.map_eq_nil_iff.1 hvs)
    · have h3 := valueOf_append b1 bs'
      have e1 : joined bs' a = valueOf bs' * 256 + a := rfl
      have e2 : joined (b1 ++ bs') a = valueOf (b1 ++ bs') * 256 + a := rfl
      omega

theorem badPrefix_tail {xs rest : List CInstr} {e : PyErr} (h : BadPrefix rest e) : BadPrefix (xs ++ rest) e := by
  cases h with
  | dangling h hu => exact .dangling (by rw [h, ← List.append_assoc]) hu
  | noArg h hu h1 h2 h3 => exact .noArg (by rw [h, ← List.append_assoc]) hu h1 h2 h3
  | large h hne hus hj hja hlt => exact .large (by rw [h, ← List.append_assoc]) hne hus hj hja hlt

/-- Folding fails exactly on a mistake, and the exception names it. -/
theorem removeExtendedArgs_says (hP : P.WF) (es : List CElem) (hv : ∀ ci, .instr ci ∈ es → ValidCInstr P ci) (us : List CInstr) (bs : List Nat) (hus : isPrefixes us bs) (nb : Nat) :
    (∃ r, removeExtendedArgs P nb (stateOf bs) es = .ok r ∧ (∀ e, ¬ BadPrefix (us ++ instrsOf es) e) ∧ ∀ ci, .instr ci ∈ r → ci.name ≠ "EXTENDED_ARG") ∨
    ∃ e, removeExtendedArgs P nb (stateOf bs) es = .error e ∧ BadPrefix (us ++ instrsOf es) e := by
  induction es generalizing us bs nb with
  | nil =>
    by_cases hb : bs = []
    · subst hb
      have : us = [] := by simpa [isPrefixes] using hus
      subst this
      left
      refine ⟨[], rfl, ?_, by simp⟩
      intro e h
      simp only [instrsOf, List.filterMap_nil, List.append_nil] at h
      cases h with
      | dangling h => simp at h
      | noArg h => simp at h
      | large h => simp at h
    · right
      refine ⟨.valueError, by simp [stateOf, hb, removeExtendedArgs], ?_⟩
      rcases List.eq_nil_or_concat us with rfl | ⟨q, x, rfl⟩
      · exact absurd (by simpa [isPrefixes] using hus.symm) hb
      · exact .dangling (pre := q) (u := x) (by simp [instrsOf]) (isPrefixes_mem hus (by simp))
  | cons e es ih =>
    have ih := ih (fun ci hci => hv ci (by simp [hci]))
    cases e with
    | setLineno n =>
      rw [removeExtendedArgs]
      have he : instrsOf (.setLineno n :: es) = instrsOf es := rfl
      rw [he]
      rcases ih us bs hus nb with ⟨r, h1, h2, h3⟩ | ⟨e, h1, h2⟩
      · left
        exact ⟨_, by rw [h1]; rfl, h2, by simpa using h3⟩
      · right
        exact ⟨e, by rw [h1]; rfl, h2⟩
    | instr i =>
      have hvi := hv i (by simp)
      have he : instrsOf (.instr i :: es) = i :: instrsOf es := rfl
      rw [he]
      by_cases hi : i.name = "EXTENDED_ARG"
      · have hop : i.opcode = P.extendedArg := by have := hvi.name_op; rw [hi, hP.ext] at this; exact (Option.some.inj this).symm
        obtain ⟨a, ha⟩ := Option.isSome_iff_exists.1 (hvi.arg_required (hop ▸ hP.ext_arg))
        have hus' : isPrefixes (us ++ [i]) (bs ++ [a]) := by
          unfold isPrefixes at *
          simp [hus, hi, ha]
        have hst : removeExtendedArgs P nb (stateOf bs) (.instr i :: es) = removeExtendedArgs P (nb + 1) (stateOf (bs ++ [a])) es := by
          rw [removeExtendedArgs.eq_def]
          simp only [hi, if_true, ha]
          by_cases hb : bs = []
          · subst hb; simp [stateOf, valueOf]
          · simp only [stateOf, hb, if_false, List.append_eq_nil_iff, false_and, valueOf, List.foldl_append, List.foldl_cons, List.foldl_nil]
            rw [shl8, Nat.mul_comm]
        rw [hst]
        have := ih _ _ hus' (nb + 1)
        simpa using this
      · by_cases hb : bs = []
        · subst hb
          have : us = [] := by simpa [isPrefixes] using hus
          subst this
          have hst : removeExtendedArgs P nb (stateOf []) (.instr i :: es) = (removeExtendedArgs P nb none es).bind (fun r => .ok (.instr i :: r)) := by
            rw [removeExtendedArgs.eq_def]
            simp only [hi, if_false, stateOf, if_true]; rfl
          rw [hst]
          rcases ih [] [] rfl nb with ⟨r, h1, h2, h3⟩ | ⟨e, h1, h2⟩
          · left
            simp only [stateOf, if_true] at h1
            refine ⟨_, by rw [h1]; rfl, ?_, ?_⟩
            · intro e h
              rcases badPrefix_split hi h with h | h
              · exact (badPrefix_run hi (bs := []) (us := []) rfl h).1 rfl
              · exact h2 e h
            · intro ci hci
              rcases List.mem_cons.1 hci with hx | hx
              · cases hx; exact hi
              · exact h3 ci hx
          · right
            simp only [stateOf, if_true] at h1
            exact ⟨e, by rw [h1]; rfl, badPrefix_tail (xs := [i]) h2⟩
        · have hune : us ≠ [] := by
            rintro rfl; exact hb (by simpa [isPrefixes] using hus.symm)
          -- the result, given the new argument
          have hgo : ∀ (arg : CArg) (i' : CInstr),
              (i.name = "NOP" ∧ arg = .unset ∨ i.name ≠ "NOP" ∧ ∃ a, i.arg = some a ∧ arg = .int ((valueOf bs <<< 8) + a : Nat)) →
              CInstr.make P (some i.name) arg .unset i.loc (some nb) = .ok i' → i'.name = i.name →
              (∀ e, ¬ BadPrefix (us ++ [i]) e) →
              (∃ r, removeExtendedArgs P nb (stateOf bs) (.instr i :: es) = .ok r ∧ (∀ e, ¬ BadPrefix (us ++ i :: instrsOf es) e) ∧
                ∀ ci, .instr ci ∈ r → ci.name ≠ "EXTENDED_ARG") ∨
              ∃ e, removeExtendedArgs P nb (stateOf bs) (.instr i :: es) = .error e ∧ BadPrefix (us ++ i :: instrsOf es) e := by
            intro arg i' h1 h2 h3 h4
            have hst : removeExtendedArgs P nb (stateOf bs) (.instr i :: es) = (removeExtendedArgs P 0 none es).bind (fun r => .ok (.instr i' :: r)) := by
              rw [removeExtendedArgs.eq_def]
              simp only [hi, if_false, stateOf, hb]
              rcases h1 with ⟨h1, rfl⟩ | ⟨h1, a, ha, rfl⟩
              · rw [if_pos h1]; simp only [bind, Except.bind, pure, Except.pure, h2]
              · rw [if_neg h1]; simp only [ha, bind, Except.bind, pure, Except.pure, h2]
            rw [hst]
            rcases ih [] [] rfl 0 with ⟨r, g1, g2, g3⟩ | ⟨e, g1, g2⟩
            · left
              simp only [stateOf, if_true] at g1
              refine ⟨_, by rw [g1]; rfl, ?_, ?_⟩
              · intro e h
                rcases badPrefix_split hi h with h | h
                · exact h4 e h
                · exact g2 e h
              · intro ci hci
                rcases List.mem_cons.1 hci with hx | hx
                · cases hx; rw [h3]; exact hi
                · exact g3 ci hx
            · right
              simp only [stateOf, if_true] at g1
              refine ⟨e, by rw [g1]; rfl, ?_⟩
              have := badPrefix_tail (xs := us ++ [i]) (show BadPrefix (instrsOf es) e from g2)
              simpa using this
          by_cases hnop : i.name = "NOP"
          · obtain ⟨o, ho, _, ho2, ho3⟩ := hP.nop
            have hop : i.opcode = o := by have := hvi.name_op; rw [hnop, ho] at this; exact (Option.some.inj this).symm
            have hmk := make_ok P hP i.name i.opcode hvi.name_op hvi.base none (by rw [hop, ho2]; simp) (by simp) (by simp) i.loc (some nb)
            have hno := hvi.arg_forbidden (hop ▸ ho2) (hop ▸ ho3)
            refine hgo .unset _ (.inl ⟨hnop, rfl⟩) hmk rfl ?_
            intro e h
            have := (badPrefix_run hi hus h).2
            rw [hno] at this
            simp [hnop] at this
          · cases ha : i.arg with
            | none =>
              right
              refine ⟨.typeError, ?_, ?_⟩
              · rw [removeExtendedArgs.eq_def]
                simp only [hi, if_false, stateOf, hb, hnop, ha]
                rfl
              · rcases List.eq_nil_or_concat us with rfl | ⟨q, x, rfl⟩
                · exact absurd rfl hune
                · exact .noArg (pre := q) (post := instrsOf es) (u := x) (i := i) (by simp) (isPrefixes_mem hus (by simp)) hi hnop ha
            | some a =>
              have hval : (valueOf bs <<< 8) + a = joined bs a := by unfold joined valueOf; rw [shl8]
              by_cases hlt : joined bs a ≤ 2147483647
              · have hmk := make_ok P hP i.name i.opcode hvi.name_op hvi.base (some (joined bs a)) (by simp)
                  (fun g1 g2 => by have := hvi.arg_forbidden g1 g2; rw [ha] at this; cases this) (by simpa using hlt) i.loc (some nb)
                refine hgo (.int (joined bs a)) _ (.inr ⟨hnop, a, ha, by rw [hval]⟩) hmk rfl ?_
                intro e h
                rcases (badPrefix_run hi hus h).2 with ⟨g, _⟩ | ⟨a', g, g'⟩
                · rw [ha] at g; cases g
                · rw [ha] at g; cases g; omega
              · right
                refine ⟨.valueError, ?_, .large (pre := []) (us := us) (i := i) (post := instrsOf es) (by simp) hune hus hi ha (by omega)⟩
                rw [removeExtendedArgs.eq_def]
                simp only [hi, if_false, stateOf, hb, hnop, ha, hval]
                have hA : P.hasArg i.opcode = true ∨ i.opcode = 0 := by
                  cases h : P.hasArg i.opcode with
                  | true => exact .inl rfl
                  | false =>
                    right
                    by_cases h0 : i.opcode = 0
                    · exact h0
                    · have := hvi.arg_forbidden h h0; rw [ha] at this; cases this
                have hmk : CInstr.make P (some i.name) (.int (joined bs a)) .unset i.loc (some nb) = .error .valueError := by
                  unfold CInstr.make CInstr.set_ lookupName
                  have := hvi.base
                  simp only [hvi.name_op]
                  rw [if_neg (by omega)]
                  have : CInstr.checkArg P i.opcode (.int (joined bs a)) = .error .valueError := by
                    have hx : checkArgInt (.int (joined bs a)) = .error .valueError := by
                      unfold checkArgInt
                      simp only
                      rw [if_neg (by omega)]
                    unfold CInstr.checkArg
                    rcases hA with h | h
                    · rw [if_pos h]; simp only [hx]; rfl
                    · split
                      · simp only [hx]; rfl
                      · simp only [hx]; rfl
                  simp only [this]
                  rfl
                simp only [pure, Except.pure, bind, Except.bind, hmk]

end Verif
