import Verif.Proofs.ExcTable
import Verif.Spec.ExcFormat
/-
C01, C02: the exception table codec.
-/
namespace Verif

/-- **C01.** What `to_code` writes for an exception table is read back as the same table, for every table whose
entries have non-negative offsets/depth and `stop ≥ start - 1`; any other entry makes the writer raise
AssertionError instead of writing a different table. -/
theorem C01_exception_table_roundtrip (es : List ExcEntry)
    (h : ∀ e ∈ es, 0 ≤ e.start ∧ e.start - 1 ≤ e.stop ∧ 0 ≤ e.target ∧ 0 ≤ e.depth) :
    ∃ bytes, assembleExcTable es = .ok bytes ∧ parseExcTable bytes = es :=
  ⟨excTableBytes es, assembleExcTable_ok es h, parseExcTableLoop_bytes es h _ (Nat.lt_succ_self _)⟩

/-- **C01 (error branch).** The writer succeeds exactly on the tables of `C01_exception_table_roundtrip`. -/
theorem C01_exception_table_error (es : List ExcEntry) :
    (∃ e ∈ es, ¬ (0 ≤ e.start ∧ e.start - 1 ≤ e.stop ∧ 0 ≤ e.target ∧ 0 ≤ e.depth)) ↔
      assembleExcTable es = .error .assertionError := by
  induction es with
  | nil => simp [assembleExcTable]
  | cons e es ih =>
    by_cases hv : e.Valid
    · rw [assembleExcTable, assembleExcEntry_ok e hv]
      simp only [bind, Except.bind, pure, Except.pure]
      have hv' := hv
      unfold ExcEntry.Valid at hv'
      simp only [List.mem_cons, exists_eq_or_imp, not_true_eq_false, false_or, ih, hv', and_self]
      constructor
      · intro h; simp [h]
      · intro h
        cases h' : assembleExcTable es with
        | ok b => simp [h'] at h
        | error x => simp [h'] at h; simp [h]
    · rw [assembleExcTable, assembleExcEntry_error e hv]
      simp only [bind, Except.bind, iff_true]
      exact ⟨e, by simp, hv⟩

/-- Non-vacuity of C01: a table with a large offset, an empty region and a lasti entry. -/
example : (∀ e ∈ [ExcEntry.mk 0 5000 100000 3 true, ExcEntry.mk 70 69 64 0 false],
    0 ≤ e.start ∧ e.start - 1 ≤ e.stop ∧ 0 ≤ e.target ∧ 0 ≤ e.depth) := by decide
example : assembleExcTable [ExcEntry.mk 64 70 4096 3 true] = .ok [193, 0, 7, 65, 64, 0, 7] := by decide +kernel

/-! ### C02 -/

theorem varintValue_snoc (bs : Bytes) (b : Nat) :
    Spec.varintValue (bs ++ [b]) = Spec.varintValue bs * 64 + b % 64 := by
  simp [Spec.varintValue]

theorem varintValue_hi (v : Nat) : Spec.varintValue (hiDigits v).reverse = v := by
  induction v using Nat.strongRecOn with
  | _ v ih =>
    rw [hiDigits]
    by_cases hv : v = 0
    · simp [hv, Spec.varintValue]
    · simp only [hv, if_false, List.reverse_cons]
      rw [varintValue_snoc, ih (v/64) (by omega)]; omega

theorem varintValue_varBytes (v : Nat) : Spec.varintValue (varBytes v) = v := by
  rw [varBytes, varDigits, List.reverse_cons, varintValue_snoc, varintValue_hi]; omega

theorem isVarint_prepend (l : List Nat) (hl : ∀ x ∈ l, 64 ≤ x ∧ x < 128) (r : Bytes) (hr : Spec.IsVarint r) :
    Spec.IsVarint (l ++ r) := by
  induction l with
  | nil => simpa
  | cons x xs ih =>
    have hx := hl x (by simp)
    have := Spec.IsVarint.more (x - 64) (xs ++ r) (by omega) (ih (fun y hy => hl y (by simp [hy])))
    rwa [show 64 + (x - 64) = x by omega] at this

theorem isVarint_varBytes (v : Nat) : Spec.IsVarint (varBytes v) := by
  rw [varBytes, varDigits, List.reverse_cons]
  refine isVarint_prepend _ (fun x hx => hiDigits_bound _ x (List.mem_reverse.1 hx)) _ ?_
  exact .last _ (Nat.mod_lt _ (by decide))

theorem isVarint_lt {bs : Bytes} (h : Spec.IsVarint bs) : ∀ x ∈ bs, x < 128 := by
  induction h with
  | last d hd => simp; omega
  | more d r hd _ ih => intro x hx; simp only [List.mem_cons] at hx; rcases hx with rfl | h
                        · omega
                        · exact ih x h

/-- **C02.** The bytes written for a table are the concatenation of one well-formed entry per table entry, in
order: each is four varints (bit 0x40 on all but the last byte of each), denoting start, length, target and
`2*depth + lasti`, where bit 0x80 is set on the first byte of the entry and on no other byte. In particular every
byte is below 256. -/
theorem C02_exception_table_format (es : List ExcEntry)
    (h : ∀ e ∈ es, 0 ≤ e.start ∧ e.start - 1 ≤ e.stop ∧ 0 ≤ e.target ∧ 0 ≤ e.depth) :
    ∃ chunks : List Bytes, assembleExcTable es = .ok chunks.flatten ∧ chunks.length = es.length ∧
      (∀ p ∈ es.zip chunks, Spec.IsEntry p.2 p.1.start.toNat (p.1.stop - p.1.start + 1).toNat
        p.1.target.toNat (2 * p.1.depth.toNat + if p.1.lasti then 1 else 0)) ∧
      (∀ c ∈ chunks, ∃ a as, c = a :: as ∧ Spec.startsEntry a = true ∧
        (∀ x ∈ as, Spec.startsEntry x = false) ∧ ∀ x ∈ c, x < 256) := by
  refine ⟨es.map excEntryBytes, assembleExcTable_ok es h, by simp, ?_, ?_⟩
  · intro p hp
    obtain ⟨e, hc⟩ := p
    rw [List.zip_map_right] at hp
    simp only [List.mem_map] at hp
    obtain ⟨⟨e1, e2⟩, hm, heq⟩ := hp
    have he : e1 = e2 := by
      have := List.mem_iff_getElem.1 hm
      obtain ⟨i, hi, hh⟩ := this
      simp at hh; rw [← hh.1, ← hh.2]
    subst he
    simp only [Prod.map, id, Prod.mk.injEq] at heq
    obtain ⟨rfl, rfl⟩ := heq
    have hv := isVarint_varBytes e1.start.toNat
    have hval := varintValue_varBytes e1.start.toNat
    simp only [excEntryBytes, varBytesM]
    cases hb : varBytes e1.start.toNat with
    | nil => exact absurd hb (varBytes_ne_nil _)
    | cons a as =>
      rw [hb] at hv hval
      refine ⟨a, as, _, _, _, hv, isVarint_varBytes _, isVarint_varBytes _, isVarint_varBytes _, ?_, hval,
        varintValue_varBytes _, varintValue_varBytes _, varintValue_varBytes _⟩
      simp [Nat.add_comm a 128]
  · intro c hc
    simp only [List.mem_map] at hc
    obtain ⟨e, _, rfl⟩ := hc
    have hlt := varBytes_lt e.start.toNat
    simp only [excEntryBytes, varBytesM]
    cases hb : varBytes e.start.toNat with
    | nil => exact absurd hb (varBytes_ne_nil _)
    | cons a as =>
      rw [hb] at hlt
      have ha := hlt a (by simp)
      refine ⟨a + 128, as ++ varBytes (e.stop - e.start + 1).toNat ++ varBytes e.target.toNat ++
          varBytes (2 * e.depth.toNat + if e.lasti then 1 else 0),
        by simp [List.append_assoc], by simp [Spec.startsEntry], ?_, ?_⟩
      · intro x hx
        simp only [List.mem_append] at hx
        have : x < 128 := by
          rcases hx with ((hx | hx) | hx) | hx
          · exact hlt x (by simp [hx])
          all_goals exact varBytes_lt _ x hx
        simp [Spec.startsEntry]; omega
      · intro x hx
        simp only [List.mem_append, List.mem_cons] at hx
        rcases hx with (((rfl | hx) | hx) | hx) | hx
        · omega
        · exact Nat.lt_trans (hlt x (by simp [hx])) (by decide)
        all_goals exact Nat.lt_trans (varBytes_lt _ x hx) (by decide)

end Verif
