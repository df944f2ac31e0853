import Verif.Spec.Instr
import Verif.Props.Location
namespace Verif
open Spec

theorem shr8 (x : Nat) : x >>> 8 = x / 256 := by simp [Nat.shiftRight_eq_div_pow]
theorem and255 (x : Nat) : x &&& 255 = x % 256 := Nat.and_two_pow_sub_one_eq_mod x 8
theorem shl8 (x : Nat) : x <<< 8 = x * 256 := by simp [Nat.shiftLeft_eq]

theorem extNeeded_lt {a : Nat} (h : a < 256) : extNeeded a = 0 := by rw [extNeeded, if_pos h]
theorem extNeeded_ge {a : Nat} (h : ¬ a < 256) : extNeeded a = extNeeded (a / 256) + 1 := by rw [extNeeded, if_neg h]

theorem extNeeded_le_iff (n a : Nat) : extNeeded a ≤ n ↔ a < 256 ^ (n + 1) := by
  induction n generalizing a with
  | zero =>
    by_cases h : a < 256
    · rw [extNeeded_lt h]; simp [h]
    · rw [extNeeded_ge h]; simp; omega
  | succ n ih =>
    by_cases h : a < 256
    · rw [extNeeded_lt h]
      simp only [Nat.zero_le, true_iff]
      calc a < 256 := h
        _ = 256 ^ 1 := rfl
        _ ≤ 256 ^ (n + 1 + 1) := Nat.pow_le_pow_right (by decide) (by omega)
    · rw [extNeeded_ge h, Nat.add_le_add_iff_right, ih (a / 256), Nat.pow_succ 256 (n+1)]
      exact Nat.div_lt_iff_lt_mul (by decide)

theorem argSizeLoop_eq (a : Nat) : ∀ s, argSizeLoop a s = s + 2 * extNeeded a := by
  induction a using Nat.strongRecOn with
  | _ a ih =>
    intro s
    rw [argSizeLoop]
    by_cases h : a > 255
    · rw [if_pos h, shr8, ih (a / 256) (by omega), extNeeded_ge (a := a) (by omega)]; omega
    · rw [if_neg h, extNeeded_lt (by omega)]; omega

theorem computeSize_eq (arg ext : Option Nat) : computeSize arg ext = sizeFor arg ext := by
  unfold computeSize sizeFor
  cases ext with
  | some n => rfl
  | none =>
    cases arg with
    | none => simp [extNeeded_lt]
    | some a => simp [argSizeLoop_eq]

/-! ### C09 helpers -/

theorem checkArgInt_ok {a : CArg} {v : Nat} (h : checkArgInt a = .ok v) : v ≤ 2147483647 ∧ a = .int v := by
  unfold checkArgInt at h
  split at h <;> try simp at h
  rename_i v'
  split at h <;> simp at h
  rename_i hr
  subst h
  exact ⟨by omega, by simp; omega⟩

theorem checkArgInt_of {v : Nat} (h : v ≤ 2147483647) : checkArgInt (.int v) = .ok v := by
  rw [checkArgInt, if_pos (by omega)]; simp

theorem checkArg_ok {P : Platform} {op : Nat} {a : CArg} {r : Option Nat} (h : CInstr.checkArg P op a = .ok r) :
    (P.hasArg op = true → r.isSome) ∧ (P.hasArg op = false → op ≠ 0 → r = none) ∧ (∀ v, r = some v → v ≤ 2147483647) := by
  have hmap : ∀ {a : CArg}, (checkArgInt a).map some = .ok r → r.isSome ∧ (∀ v, r = some v → v ≤ 2147483647) := by
    intro a h
    cases hc : checkArgInt a with
    | error e => rw [hc] at h; simp [Except.map] at h
    | ok v =>
      rw [hc] at h; simp only [Except.map, Except.ok.injEq] at h; subst h
      exact ⟨rfl, fun w hw => by simp at hw; subst hw; exact (checkArgInt_ok hc).1⟩
  unfold CInstr.checkArg at h
  split at h
  · rename_i ha
    cases a with
    | unset => simp at h
    | int v => have := hmap h; exact ⟨fun _ => this.1, by simp [ha], this.2⟩
    | other => have := hmap h; exact ⟨fun _ => this.1, by simp [ha], this.2⟩
  · rename_i ha
    split at h
    · rename_i h0
      cases a with
      | unset => simp at h; subst h; exact ⟨by simp [ha], by simp, by simp⟩
      | int v => have := hmap h; exact ⟨fun _ => this.1, by simp [h0], this.2⟩
      | other => have := hmap h; exact ⟨fun _ => this.1, by simp [h0], this.2⟩
    · cases a with
      | unset => simp at h; subst h; exact ⟨by simp [ha], by simp, by simp⟩
      | int v => simp at h
      | other => simp at h

theorem lookupName_ok {P : Platform} {name : Option String} {n : String} {op : Nat} (h : lookupName P name = .ok (n, op)) :
    name = some n ∧ P.opmap n = some op ∧ op < P.minInstrumented := by
  unfold lookupName at h
  split at h
  · simp at h
  · rename_i n'
    split at h
    · simp at h
    · rename_i op' ho
      split at h
      · simp at h
      · simp only [Except.ok.injEq, Prod.mk.injEq] at h
        obtain ⟨rfl, rfl⟩ := h
        exact ⟨rfl, ho, by omega⟩

/-- Everything but the location. -/
theorem set_spec (P : Platform) (s : CInstr) (name : Option String) (arg : CArg) :
    ((s.set_ P name arg).2 = .ok () ∧ (s.set_ P name arg).1.loc = s.loc ∧ (s.set_ P name arg).1.ext = s.ext ∧
      some (s.set_ P name arg).1.name = name ∧ (s.set_ P name arg).1.argVal = arg ∧
      ((∀ l, s.loc = some l → Coherent l) → ValidCInstr P (s.set_ P name arg).1)) ∨
    ∃ e, (s.set_ P name arg) = (s, .error e) := by
  unfold CInstr.set_
  cases hl : lookupName P name with
  | error e => exact .inr ⟨e, rfl⟩
  | ok p =>
    obtain ⟨n, op⟩ := p
    obtain ⟨h1, h2, h3⟩ := lookupName_ok hl
    simp only
    cases hc : CInstr.checkArg P op arg with
    | error e => exact .inr ⟨e, rfl⟩
    | ok a =>
      obtain ⟨g1, g2, g3⟩ := checkArg_ok hc
      refine .inl ⟨rfl, rfl, rfl, h1.symm, ?_, fun hloc => ⟨h2, h3, g1, g2, g3, computeSize_eq _ _, hloc⟩⟩
      -- stored argument is the given one
      have hmap : ∀ {b : CArg}, (checkArgInt b).map some = .ok a → CArg.ofOpt a = b := by
        intro b h
        cases hc' : checkArgInt b with
        | error e => rw [hc'] at h; simp [Except.map] at h
        | ok v =>
          rw [hc'] at h; simp only [Except.map, Except.ok.injEq] at h; subst h
          exact (checkArgInt_ok hc').2.symm
      simp only [CInstr.argVal]
      unfold CInstr.checkArg at hc
      split at hc
      · cases arg with
        | unset => simp at hc
        | int v => exact hmap hc
        | other => exact hmap hc
      · split at hc
        · cases arg with
          | unset => simp at hc; subst hc; rfl
          | int v => exact hmap hc
          | other => exact hmap hc
        · cases arg with
          | unset => simp at hc; subst hc; rfl
          | int v => simp at hc
          | other => simp at hc

theorem valid_of_set {P : Platform} {s : CInstr} (hv : ValidCInstr P s) (name : Option String) (arg : CArg) :
    ValidCInstr P (s.set_ P name arg).1 ∧ ((s.set_ P name arg).2 = .ok () ∨ (s.set_ P name arg).1 = s) := by
  rcases set_spec P s name arg with ⟨h1, _, _, _, _, h2⟩ | ⟨e, he⟩
  · exact ⟨h2 hv.loc_ok, .inl h1⟩
  · rw [he]; exact ⟨hv, .inr rfl⟩

theorem Loc.make_line {py311 : Bool} {v : Option Int} {l : Loc} (h : Loc.make py311 v none none none = .ok l) :
    l = Loc.line (v.map Int.toNat) ∧ (∀ x, v = some x → 0 ≤ x) := by
  have hv : ValidArgs py311 v none none none := by
    by_cases hv : ValidArgs py311 v none none none
    · exact hv
    · rw [(C11_location_accepts_exactly_coherent py311 v none none none).2 hv] at h; simp at h
  obtain ⟨l', h', e1, e2, e3, e4⟩ := (C11_location_accepts_exactly_coherent py311 v none none none).1 hv
  rw [h] at h'; simp only [Except.ok.injEq] at h'; subst h'
  obtain ⟨a, b, c, d⟩ := l
  simp only [Option.map_eq_none_iff] at e2 e3 e4
  subst e2 e3 e4
  refine ⟨?_, fun x hx => ?_⟩
  · rw [Loc.line, ← e1]; cases a <;> simp
  · have := hv.line x hx; split at this <;> omega

theorem setLineno_coherent {py311 : Bool} {loc loc' : Option Loc} {l : LinenoArg}
    (h : setLineno py311 loc l = .ok loc') : ∀ x, loc' = some x → Coherent x := by
  unfold setLineno at h
  split at h
  · simp at h
  · cases l with
    | unset => simp at h; subst h; simp
    | val v =>
      simp only at h
      cases hm : Loc.make py311 v none none none with
      | error e => rw [hm] at h; simp [Except.map] at h
      | ok y =>
        rw [hm] at h; simp only [Except.map, Except.ok.injEq] at h; subst h
        intro x hx; simp at hx; subst hx
        exact Loc.make_coherent hm

/-! ### Assembling -/

/-- The EXTENDED_ARG units of an argument. -/
def extUnits (ext : Nat) (a : Nat) : Bytes :=
  if a < 256 then [] else extUnits ext (a / 256) ++ [ext, (a / 256) % 256]
termination_by a
decreasing_by omega

theorem assembleArgLoop_eq (ext a : Nat) : ∀ b, assembleArgLoop ext a b = extUnits ext a ++ b := by
  induction a using Nat.strongRecOn with
  | _ a ih =>
    intro b
    rw [assembleArgLoop, extUnits]
    by_cases h : a > 255
    · rw [if_pos h, if_neg (by omega), shr8, and255, ih (a / 256) (by omega)]; simp
    · rw [if_neg h, if_pos (by omega)]; rfl

theorem extUnits_length (ext a : Nat) : (extUnits ext a).length = 2 * extNeeded a := by
  induction a using Nat.strongRecOn with
  | _ a ih =>
    rw [extUnits, extNeeded]
    by_cases h : a < 256
    · simp [h]
    · simp only [h, if_false, List.length_append, ih (a / 256) (by omega)]; simp; omega

/-- `n` units `EXTENDED_ARG 0`. -/
def padUnits (ext : Nat) (n : Nat) : Bytes := (List.replicate n [ext, 0]).flatten

theorem padUnits_length (ext n : Nat) : (padUnits ext n).length = 2 * n := by
  simp [padUnits]; omega

theorem assemblePadLoop_eq (ext : Nat) (m : Nat) : ∀ (size : Nat) (b : Bytes), size = b.length + 2 * m →
    assemblePadLoop ext size b = padUnits ext m ++ b := by
  induction m with
  | zero => intro size b h; rw [assemblePadLoop, if_neg (by omega)]; rfl
  | succ m ih =>
    intro size b h
    rw [assemblePadLoop, if_pos (by omega), ih size (ext :: 0 :: b) (by simp; omega)]
    simp only [padUnits, List.replicate_succ', List.flatten_append]; simp

theorem assemblePadLoop_ge (ext size : Nat) (b : Bytes) (h : size ≤ b.length) : assemblePadLoop ext size b = b := by
  rw [assemblePadLoop, if_neg (by omega)]

/-- number of EXTENDED_ARG units emitted -/
def nPrefix (s : CInstr) : Nat :=
  match s.arg with
  | none => 0
  | some a => max (extNeeded a) (s.ext.getD 0)

/-- The bytes of an instruction. -/
theorem assemble_eq (P : Platform) (s : CInstr) (hs : s.size = sizeFor s.arg s.ext) :
    s.assemble P = match s.arg with
      | none => [s.opcode, 0]
      | some a => padUnits P.extendedArg (nPrefix s - extNeeded a) ++ extUnits P.extendedArg a ++ [s.opcode, a % 256] := by
  unfold CInstr.assemble
  cases ha : s.arg with
  | none => rfl
  | some a =>
    simp only [assembleArgLoop_eq, and255]
    have hlen : (extUnits P.extendedArg a ++ [s.opcode, a % 256]).length = 2 * extNeeded a + 2 := by
      simp [extUnits_length]
    cases hx : s.ext with
    | none => simp [nPrefix, ha, hx, padUnits]
    | some n =>
      cases n with
      | zero => simp [nPrefix, ha, hx, padUnits]
      | succ n =>
        simp only
        rw [ha, hx] at hs
        simp only [sizeFor] at hs
        by_cases hn : extNeeded a ≤ n + 1
        · rw [assemblePadLoop_eq P.extendedArg (n + 1 - extNeeded a) _ _ (by omega)]
          simp only [nPrefix, ha, hx, Option.getD_some, List.append_assoc]
          rw [show max (extNeeded a) (n + 1) = n + 1 by omega]
        · rw [assemblePadLoop_ge _ _ _ (by omega)]
          simp only [nPrefix, ha, hx, Option.getD_some]
          rw [show max (extNeeded a) (n + 1) = extNeeded a by omega]
          simp [padUnits]

theorem assemble_length (P : Platform) (s : CInstr) (hs : s.size = sizeFor s.arg s.ext) :
    (s.assemble P).length = 2 + 2 * nPrefix s := by
  rw [assemble_eq P s hs]
  cases ha : s.arg with
  | none => simp [nPrefix, ha]
  | some a =>
    simp only [List.length_append, padUnits_length, extUnits_length, nPrefix, ha]
    simp; omega

theorem decodeUnits_cons (ext acc x : Nat) (rest : Bytes) (h : rest ≠ []) :
    decodeUnits ext acc (ext :: x :: rest) = decodeUnits ext (acc * 256 + x) rest := by
  match rest with
  | [] => simp at h
  | [y] => simp [decodeUnits]
  | y :: z :: r => rw [decodeUnits, if_pos rfl]; simp

theorem decodeUnits_pad (ext n : Nat) (rest : Bytes) (h : rest ≠ []) :
    decodeUnits ext 0 (padUnits ext n ++ rest) = decodeUnits ext 0 rest := by
  induction n with
  | zero => simp [padUnits]
  | succ n ih =>
    have : padUnits ext (n + 1) ++ rest = ext :: 0 :: (padUnits ext n ++ rest) := by
      simp [padUnits, List.replicate_succ]
    rw [this, decodeUnits_cons ext 0 0 _ (by simp [h])]
    simpa using ih

theorem decodeUnits_ext (ext a : Nat) : ∀ (rest : Bytes), rest ≠ [] →
    decodeUnits ext 0 (extUnits ext a ++ rest) = decodeUnits ext (a / 256) rest := by
  induction a using Nat.strongRecOn with
  | _ a ih =>
    intro rest hr
    rw [extUnits]
    by_cases h : a < 256
    · simp [h]; rw [Nat.div_eq_of_lt h]
    · simp only [h, if_false, List.append_assoc]
      rw [ih (a / 256) (by omega) _ (by simp)]
      simp only [List.cons_append, List.nil_append]
      rw [decodeUnits_cons _ _ _ _ hr]
      congr 1; omega

theorem extUnits_lt (ext a : Nat) (he : ext < 256) : ∀ x ∈ extUnits ext a, x < 256 := by
  induction a using Nat.strongRecOn with
  | _ a ih =>
    rw [extUnits]
    by_cases h : a < 256
    · simp [h]
    · simp only [h, if_false]
      intro x hx
      simp only [List.mem_append, List.mem_cons, List.not_mem_nil, or_false] at hx
      rcases hx with h | rfl | rfl
      · exact ih (a / 256) (by omega) x h
      · exact he
      · omega

end Verif
