import Verif.Model.ExcTable
/- Helper lemmas for the exception table codec. -/
namespace Verif

theorem and63 (x : Nat) : x &&& 63 = x % 64 := Nat.and_two_pow_sub_one_eq_mod x 6
theorem shr6 (x : Nat) : x >>> 6 = x / 64 := by simp [Nat.shiftRight_eq_div_pow]

theorem or64 {x : Nat} (h : x < 64) : x ||| 64 = x + 64 := by
  have : ∀ x : Fin 64, x.val ||| 64 = x.val + 64 := by decide
  exact this ⟨x, h⟩

theorem or128 {x : Nat} (h : x < 128) : x ||| 128 = x + 128 := by
  have : ∀ x : Fin 128, x.val ||| 128 = x.val + 128 := by decide +kernel
  exact this ⟨x, h⟩

theorem and64_byte {x : Nat} (h : x < 256) : x &&& 64 = if x % 128 < 64 then 0 else 64 := by
  have : ∀ x : Fin 256, x.val &&& 64 = if x.val % 128 < 64 then 0 else 64 := by decide +kernel
  exact this ⟨x, h⟩

theorem shl6_or (v x : Nat) (h : x < 64) : (v <<< 6) ||| x = v * 64 + x := by
  rw [Nat.shiftLeft_eq, Nat.mul_comm v, ← Nat.two_pow_add_eq_or_of_lt (by simpa using h)]

/-- High base-64 digits, least significant first, with the continuation bit. -/
def hiDigits (v : Nat) : List Nat :=
  if v = 0 then [] else (v % 64 + 64) :: hiDigits (v / 64)
termination_by v
decreasing_by omega

theorem encodeVarintLoop_ne_nil (v : Nat) : ∀ (temp : List Nat), temp ≠ [] →
    encodeVarintLoop temp v = temp ++ hiDigits v := by
  induction v using Nat.strongRecOn with
  | _ v ih =>
    intro temp ht
    rw [encodeVarintLoop, hiDigits]
    by_cases hv : v = 0
    · simp [hv]
    · have hne : temp.isEmpty = false := by cases temp <;> simp_all
      simp only [hv, if_false, hne]
      rw [shr6, ih (v/64) (by omega) _ (by simp)]
      simp only [and63, or64 (Nat.mod_lt v (by decide : 64 > 0)), Bool.false_eq_true, if_false,
        List.append_assoc, List.singleton_append]

/-- Digits of the plain varint, least significant first. -/
def varDigits (v : Nat) : List Nat := v % 64 :: hiDigits (v / 64)

theorem encodeVarintLoop_nil (v : Nat) :
    (if (encodeVarintLoop [] v).isEmpty then [0] else encodeVarintLoop [] v) = varDigits v := by
  rw [encodeVarintLoop, varDigits]
  by_cases hv : v = 0
  · subst hv; simp [hiDigits]
  · simp only [hv, if_false, List.nil_append, List.isEmpty_nil, if_true, Nat.or_zero, and63]
    rw [encodeVarintLoop_ne_nil _ _ (by simp), shr6]; simp

theorem hiDigits_bound (v : Nat) : ∀ x ∈ hiDigits v, 64 ≤ x ∧ x < 128 := by
  induction v using Nat.strongRecOn with
  | _ v ih =>
    intro x hx
    rw [hiDigits] at hx
    by_cases hv : v = 0
    · simp [hv] at hx
    · simp only [hv, if_false, List.mem_cons] at hx
      rcases hx with h | h
      · omega
      · exact ih (v/64) (by omega) x h

/-- The plain bytes of a varint, most significant first. -/
def varBytes (v : Nat) : Bytes := (varDigits v).reverse

/-- The bytes of a varint with the begin marker on the first byte. -/
def varBytesM (v : Nat) : Bytes :=
  match varBytes v with
  | [] => []
  | x :: xs => (x + 128) :: xs

theorem varBytes_lt (v : Nat) : ∀ x ∈ varBytes v, x < 128 := by
  intro x hx
  simp only [varBytes, varDigits, List.mem_reverse, List.mem_cons] at hx
  rcases hx with h | h
  · omega
  · exact (hiDigits_bound _ x h).2

theorem setLastMarker_rev (l : List Nat) : (setLastMarker l).reverse =
    match l.reverse with | [] => [] | x :: xs => (x ||| 128) :: xs := by
  unfold setLastMarker
  cases l.reverse <;> simp

theorem encodeVarint_nonneg {v : Int} (h : 0 ≤ v) (m : Bool) : encodeVarint v m =
    .ok (if m then setLastMarker (varDigits v.toNat) else varDigits v.toNat).reverse := by
  rw [← encodeVarintLoop_nil]
  simp only [encodeVarint, pyAssert, h, decide_true, if_true, bind, Except.bind, pure, Except.pure]

theorem encodeVarint_ofNat (v : Nat) : encodeVarint (v : Int) false = .ok (varBytes v) := by
  rw [encodeVarint_nonneg (by omega)]; rfl

theorem encodeVarint_ofNat_marker (v : Nat) : encodeVarint (v : Int) true = .ok (varBytesM v) := by
  rw [encodeVarint_nonneg (by omega), if_pos rfl, setLastMarker_rev, varBytesM]
  have hb := varBytes_lt v
  unfold varBytes at *
  simp only [Int.toNat_natCast]
  cases h : (varDigits v).reverse with
  | nil => rfl
  | cons x xs => rw [h] at hb; simp only [or128 (hb x (by simp))]

theorem encodeVarint_neg {v : Int} (h : v < 0) (m : Bool) : encodeVarint v m = .error .assertionError := by
  have : ¬ (0 ≤ v) := by omega
  simp only [encodeVarint, pyAssert, this, decide_false, bind, Except.bind]
  rfl

/-- Reading with accumulator. -/
def parseAcc (acc : Nat) : Bytes → Py (Nat × Bytes)
  | [] => .error .stopIteration
  | b :: rest =>
    let val := acc * 64 + b % 64
    if b &&& 64 ≠ 0 then parseAcc val rest else .ok (val, rest)

theorem parseVarintLoop_eq (rest : Bytes) : ∀ (val b : Nat),
    parseVarintLoop val b rest = if b &&& 64 ≠ 0 then parseAcc val rest else .ok (val, rest) := by
  induction rest with
  | nil => intro val b; rw [parseVarintLoop.eq_def]; simp only [parseAcc]
  | cons b' r ih =>
    intro val b
    rw [parseVarintLoop.eq_def]
    simp only [and63]
    rw [shl6_or _ _ (Nat.mod_lt _ (by decide)), ih]
    simp only [parseAcc]

theorem parseVarint_eq (bs : Bytes) : parseVarint bs = parseAcc 0 bs := by
  cases bs with
  | nil => rfl
  | cons b r => simp only [parseVarint, parseVarintLoop_eq, parseAcc, and63, Nat.zero_mul, Nat.zero_add]

theorem parseAcc_hi (v : Nat) : ∀ (acc : Nat) (rest : Bytes),
    parseAcc acc ((hiDigits v).reverse ++ rest) = parseAcc (acc * 64 ^ (hiDigits v).length + v) rest := by
  induction v using Nat.strongRecOn with
  | _ v ih =>
    intro acc rest
    rw [hiDigits]
    by_cases hv : v = 0
    · simp [hv]
    · simp only [hv, if_false, List.reverse_cons, List.append_assoc, List.length_cons]
      rw [ih (v/64) (by omega)]
      simp only [List.singleton_append, parseAcc]
      rw [and64_byte (by omega)]
      have : ¬ ((v % 64 + 64) % 128 < 64) := by omega
      simp only [this, if_false]
      have e : (acc * 64 ^ (hiDigits (v / 64)).length + v / 64) * 64 + (v % 64 + 64) % 64
        = acc * 64 ^ ((hiDigits (v / 64)).length + 1) + v := by
          rw [Nat.pow_succ, ← Nat.mul_assoc]; omega
      rw [e]; simp

theorem parseVarint_varBytes (v : Nat) (rest : Bytes) : parseVarint (varBytes v ++ rest) = .ok (v, rest) := by
  rw [parseVarint_eq, varBytes, varDigits, List.reverse_cons, List.append_assoc, parseAcc_hi]
  simp only [List.singleton_append, parseAcc]
  rw [and64_byte (by omega)]
  have : (v % 64) % 128 < 64 := by omega
  simp only [this, if_true]
  have : (0 * 64 ^ (hiDigits (v / 64)).length + v / 64) * 64 + v % 64 % 64 = v := by
    rw [Nat.zero_mul]; omega
  rw [this]; simp

theorem parseVarint_marker {b : Nat} (h : b < 128) (rest : Bytes) :
    parseVarint ((b + 128) :: rest) = parseVarint (b :: rest) := by
  rw [parseVarint_eq, parseVarint_eq]
  simp only [parseAcc]
  rw [and64_byte (by omega), and64_byte (by omega)]
  have e1 : (b + 128) % 64 = b % 64 := by omega
  have e2 : (b + 128) % 128 = b % 128 := by omega
  rw [e1, e2]

theorem parseVarint_varBytesM (v : Nat) (rest : Bytes) : parseVarint (varBytesM v ++ rest) = .ok (v, rest) := by
  rw [← parseVarint_varBytes v rest]
  have hb := varBytes_lt v
  unfold varBytesM
  cases h : varBytes v with
  | nil => rfl
  | cons x xs => rw [h] at hb; exact parseVarint_marker (hb x (by simp)) _

theorem varBytes_ne_nil (v : Nat) : varBytes v ≠ [] := by simp [varBytes, varDigits]

theorem dl_split (d : Nat) (b : Bool) :
    (2 * d + if b then 1 else 0) >>> 1 = d ∧ decide ((2 * d + if b then 1 else 0) &&& 1 ≠ 0) = b := by
  constructor
  · simp [Nat.shiftRight_eq_div_pow]; split <;> omega
  · rw [show (1:Nat) = 2^1 - 1 from rfl, Nat.and_two_pow_sub_one_eq_mod]
    cases b
    · simp
    · simp

/-- Entries that can be written. -/
def ExcEntry.Valid (e : ExcEntry) : Prop :=
  0 ≤ e.start ∧ e.start - 1 ≤ e.stop ∧ 0 ≤ e.target ∧ 0 ≤ e.depth
instance (e : ExcEntry) : Decidable e.Valid := by unfold ExcEntry.Valid; infer_instance

/-- The bytes of a valid entry. -/
def excEntryBytes (e : ExcEntry) : Bytes :=
  varBytesM e.start.toNat ++ varBytes (e.stop - e.start + 1).toNat ++ varBytes e.target.toNat
    ++ varBytes (2 * e.depth.toNat + if e.lasti then 1 else 0)

theorem assembleExcEntry_ok (e : ExcEntry) (h : e.Valid) : assembleExcEntry e = .ok (excEntryBytes e) := by
  obtain ⟨h1, h2, h3, h4⟩ := h
  unfold assembleExcEntry excEntryBytes
  have a := encodeVarint_ofNat_marker e.start.toNat
  have b := encodeVarint_ofNat (e.stop - e.start + 1).toNat
  have c := encodeVarint_ofNat e.target.toNat
  have d := encodeVarint_ofNat (2 * e.depth.toNat + if e.lasti then 1 else 0)
  rw [Int.toNat_of_nonneg h1] at a
  rw [Int.toNat_of_nonneg (by omega)] at b
  rw [Int.toNat_of_nonneg h3] at c
  have e4 : ((2 * e.depth.toNat + if e.lasti then 1 else 0 : Nat) : Int)
      = 2 * e.depth + (if e.lasti then 1 else 0) := by split <;> omega
  rw [e4] at d
  simp only [a, b, c, d, bind, Except.bind, pure, Except.pure]

theorem assembleExcEntry_error (e : ExcEntry) (h : ¬ e.Valid) :
    assembleExcEntry e = .error .assertionError := by
  unfold assembleExcEntry
  by_cases h1 : e.start < 0
  · simp [encodeVarint_neg h1, bind, Except.bind]
  have a := encodeVarint_ofNat_marker e.start.toNat
  rw [Int.toNat_of_nonneg (by omega)] at a
  simp only [a, bind, Except.bind]
  by_cases h2 : e.stop - e.start + 1 < 0
  · simp [encodeVarint_neg h2]
  have b := encodeVarint_ofNat (e.stop - e.start + 1).toNat
  rw [Int.toNat_of_nonneg (by omega)] at b
  simp only [b]
  by_cases h3 : e.target < 0
  · simp [encodeVarint_neg h3]
  have c := encodeVarint_ofNat e.target.toNat
  rw [Int.toNat_of_nonneg (by omega)] at c
  simp only [c]
  have h4 : 2 * e.depth + (if e.lasti then 1 else 0) < 0 := by
    unfold ExcEntry.Valid at h
    split <;> omega
  simp [encodeVarint_neg h4]

theorem parseExcEntry_bytes (e : ExcEntry) (h : e.Valid) (rest : Bytes) :
    parseExcEntry (excEntryBytes e ++ rest) = .ok (e, rest) := by
  obtain ⟨h1, h2, h3, h4⟩ := h
  unfold parseExcEntry excEntryBytes
  simp only [List.append_assoc, parseVarint_varBytesM, parseVarint_varBytes, bind, Except.bind, pure, Except.pure]
  obtain ⟨d1, d2⟩ := dl_split e.depth.toNat e.lasti
  rw [d1, d2]
  congr 2
  cases e
  simp only at *
  congr 1 <;> omega

/-- The bytes of a valid table. -/
def excTableBytes (es : List ExcEntry) : Bytes := (es.map excEntryBytes).flatten

theorem assembleExcTable_ok (es : List ExcEntry) (h : ∀ e ∈ es, e.Valid) :
    assembleExcTable es = .ok (excTableBytes es) := by
  induction es with
  | nil => rfl
  | cons e es ih =>
    rw [assembleExcTable, assembleExcEntry_ok e (h e (by simp)), ih (fun x hx => h x (by simp [hx]))]
    simp [bind, Except.bind, pure, Except.pure, excTableBytes]

theorem excEntryBytes_length (e : ExcEntry) : 1 ≤ (excEntryBytes e).length := by
  have := varBytes_ne_nil e.target.toNat
  have : 1 ≤ (varBytes e.target.toNat).length := by
    cases h : varBytes e.target.toNat <;> simp_all
  simp only [excEntryBytes, List.length_append]; omega

theorem parseExcEntry_nil : parseExcEntry [] = .error .stopIteration := rfl

theorem parseExcTableLoop_bytes (es : List ExcEntry) (h : ∀ e ∈ es, e.Valid) :
    ∀ fuel, (excTableBytes es).length < fuel → parseExcTableLoop fuel (excTableBytes es) = es := by
  induction es with
  | nil =>
    intro fuel hf
    cases fuel with
    | zero => simp at hf
    | succ n => simp [excTableBytes, parseExcTableLoop, parseExcEntry_nil]
  | cons e es ih =>
    intro fuel hf
    have hl := excEntryBytes_length e
    have heq : excTableBytes (e :: es) = excEntryBytes e ++ excTableBytes es := by simp [excTableBytes]
    rw [heq] at hf ⊢
    simp only [List.length_append] at hf
    cases fuel with
    | zero => omega
    | succ n =>
      rw [parseExcTableLoop, parseExcEntry_bytes e (h e (by simp))]
      simp only
      rw [ih (fun x hx => h x (by simp [hx])) n (by omega)]

end Verif
