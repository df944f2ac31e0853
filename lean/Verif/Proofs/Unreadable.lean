import Verif.Spec.Unreadable
import Verif.Proofs.FromCode
import Verif.Proofs.PrefixErrors
import Verif.Proofs.Disassemble
/-
Why a code object cannot be read.
-/
namespace Verif
open Spec
variable {P : Platform}

theorem locOfPos_valid {p : Pos} (h : ValidArgs true p.line p.endLine p.col p.endCol) : ∃ l, locOfPos p = .ok l := by
  obtain ⟨l, h, _⟩ := (C11_location_accepts_exactly_coherent true p.line p.endLine p.col p.endCol).1 h
  exact ⟨l, h⟩

theorem locOfPos_invalid {p : Pos} (h : ¬ ValidArgs true p.line p.endLine p.col p.endCol) : locOfPos p = .error .valueError :=
  (C11_location_accepts_exactly_coherent true _ _ _ _).2 h

/-- The caches of an instruction are listed, or one of their positions is wrong. -/
theorem cacheReads_says (hP : P.WF) (h11 : P.py311 = true) (loc : Loc) (n : Nat) : ∀ (pos : List Pos),
    (∃ us, cacheReads P loc pos n = .ok us ∧ (∀ u ∈ us, u.name = "CACHE" ∧ u.arg = some 0) ∧
      (P.py313 = false → ∀ k < n, ValidArgs true (pos[k]?.getD noPos).line (pos[k]?.getD noPos).endLine (pos[k]?.getD noPos).col (pos[k]?.getD noPos).endCol)) ∨
    cacheReads P loc pos n = .error .valueError ∧ P.py313 = false ∧
      ∃ k < n, ¬ ValidArgs true (pos[k]?.getD noPos).line (pos[k]?.getD noPos).endLine (pos[k]?.getD noPos).col (pos[k]?.getD noPos).endCol := by
  induction n with
  | zero => intro pos; exact .inl ⟨[], rfl, by simp, fun _ k hk => by omega⟩
  | succ n ih =>
    intro pos
    have hmk : ∀ l : Loc, CInstr.make P (some "CACHE") (.int 0) .unset (some l) none = .ok ⟨"CACHE", 0, some 0, some l, none, sizeFor (some 0) none⟩ := by
      intro l
      have := make_ok P hP "CACHE" 0 (hP.cache h11).1 (hP.cache h11).2 (some 0) (by simp) (by simp) (by simp) (some l) none
      simpa [CArg.ofOpt] using this
    have h0 : pos.headD noPos = pos[0]?.getD noPos := by cases pos <;> rfl
    have hs : ∀ k, (pos.drop 1)[k]?.getD noPos = pos[k + 1]?.getD noPos := by
      intro k; rw [List.getElem?_drop, Nat.add_comm]
    unfold cacheReads
    have step : ∀ l, ((if P.py313 then .ok loc else locOfPos (pos.headD noPos) : Py Loc) = .ok l) →
        (P.py313 = false → ValidArgs true (pos[0]?.getD noPos).line (pos[0]?.getD noPos).endLine (pos[0]?.getD noPos).col (pos[0]?.getD noPos).endCol) →
        (∃ us, cacheReads P loc pos (n + 1) = .ok us ∧ (∀ u ∈ us, u.name = "CACHE" ∧ u.arg = some 0) ∧
          (P.py313 = false → ∀ k < n + 1, ValidArgs true (pos[k]?.getD noPos).line (pos[k]?.getD noPos).endLine (pos[k]?.getD noPos).col (pos[k]?.getD noPos).endCol)) ∨
        cacheReads P loc pos (n + 1) = .error .valueError ∧ P.py313 = false ∧
          ∃ k < n + 1, ¬ ValidArgs true (pos[k]?.getD noPos).line (pos[k]?.getD noPos).endLine (pos[k]?.getD noPos).col (pos[k]?.getD noPos).endCol := by
      intro l hl hv
      unfold cacheReads
      rw [hl]
      simp only [bind, Except.bind, hmk]
      rcases ih (pos.drop 1) with ⟨us, h1, h2, h3⟩ | ⟨h1, h2, k, hk, h3⟩
      · left
        rw [h1]
        refine ⟨_, rfl, ?_, ?_⟩
        · intro u hu
          rcases List.mem_cons.1 hu with rfl | hu
          · exact ⟨rfl, rfl⟩
          · exact h2 u hu
        · intro h13 k hk
          cases k with
          | zero => exact hv h13
          | succ k => have := h3 h13 k (by omega); rwa [hs k] at this
      · right
        rw [h1]
        refine ⟨rfl, h2, k + 1, by omega, ?_⟩
        rwa [hs k] at h3
    cases h13 : P.py313 with
    | true =>
      have := step loc (by simp [h13]) (by simp [h13])
      unfold cacheReads at this
      rw [h13] at this
      exact this
    | false =>
      by_cases hv : ValidArgs true (pos[0]?.getD noPos).line (pos[0]?.getD noPos).endLine (pos[0]?.getD noPos).col (pos[0]?.getD noPos).endCol
      · obtain ⟨l, hl⟩ := locOfPos_valid hv
        have := step l (by rw [h13, h0]; exact hl) (fun _ => hv)
        unfold cacheReads at this
        rw [h13] at this
        exact this
      · right
        rw [h0, locOfPos_invalid hv]
        exact ⟨rfl, rfl, 0, by omega, hv⟩

/-- A head that can be listed. -/
def Listable (P : Platform) (all : List Pos) (h : Nat × Nat) : Prop :=
  (∃ n, P.opname h.2 = some n) ∧ h.2 < P.minInstrumented ∧ ∀ k ≤ (if P.py313 then 0 else P.cacheEntries h.2),
    ValidArgs true (all[h.1 + k]?.getD noPos).line (all[h.1 + k]?.getD noPos).endLine (all[h.1 + k]?.getD noPos).col (all[h.1 + k]?.getD noPos).endCol

/-- What is listed for an instruction: itself, then its caches. -/
structure Listed (P : Platform) (op a : Nat) (i : CInstr) (cs : List CInstr) : Prop where
  name : P.opname op = some i.name
  arg : i.arg = if P.hasArg op then some a else none
  caches : ∀ u ∈ cs, u.name = "CACHE" ∧ u.arg = some 0
  none : P.cacheEntries op = 0 → cs = []

/-- What disCode returns. -/
inductive ListedAll (P : Platform) : Nat → Bytes → List CInstr → Prop
  | nil {s : Nat} : ListedAll P s [] []
  | one {s b : Nat} : ListedAll P s [b] []
  | skip {s op a : Nat} {r : Bytes} {us : List CInstr} : ListedAll P s r us → ListedAll P (s + 1) (op :: a :: r) us
  | instr {op a : Nat} {r : Bytes} {i : CInstr} {cs us : List CInstr} : Listed P op a i cs → ListedAll P (P.cacheEntries op) r us →
      ListedAll P 0 (op :: a :: r) (i :: cs ++ us)

theorem disCode_says (hP : P.WF) (h11 : P.py311 = true) (all : List Pos) (m : Nat) : ∀ (skip unit : Nat) (bs : Bytes), bs.length ≤ m → (∀ b ∈ bs, b < 256) →
    (∃ us, disCode P skip (all.drop (unit + skip)) bs = .ok us ∧ (∀ h ∈ heads P skip unit bs, Listable P all h) ∧ ListedAll P skip bs us) ∨
    disCode P skip (all.drop (unit + skip)) bs = .error .valueError ∧ ∃ h ∈ heads P skip unit bs, ¬ Listable P all h := by
  induction m using Nat.strongRecOn with
  | _ m ih =>
    intro skip unit bs hm hb
    match bs, hm, hb with
    | [], _, _ => left; exact ⟨[], by simp [disCode], by simp [heads], .nil⟩
    | [_], _, _ => left; exact ⟨[], by simp [disCode], by simp [heads], .one⟩
    | op :: a :: rest, hm, hb =>
      have hlt : rest.length < m := by simp at hm; omega
      have hbr : ∀ b ∈ rest, b < 256 := fun b hx => hb b (by simp [hx])
      have hop : op < 256 := hb op (by simp)
      have ha : a < 256 := hb a (by simp)
      cases skip with
      | succ k =>
        rw [disCode, heads]
        have e : unit + (k + 1) = (unit + 1) + k := by omega
        rw [e]
        rcases ih _ hlt k (unit + 1) rest (Nat.le_refl _) hbr with ⟨us, h1, h2, h3⟩ | h
        · exact .inl ⟨us, h1, h2, .skip h3⟩
        · exact .inr h
      | zero =>
        rw [disCode, heads]
        have hat : ∀ k, (all.drop (unit + 0))[k]?.getD noPos = all[unit + k]?.getD noPos := by
          intro k; rw [List.getElem?_drop]; simp
        have h0 : (all.drop (unit + 0)).headD noPos = all[unit]?.getD noPos := by
          have := hat 0
          rw [← Nat.add_zero unit] 
          rw [← this]
          simp only [Nat.add_zero]
          cases (all.drop unit) <;> rfl
        cases hn : P.opname op with
        | none =>
          right
          refine ⟨rfl, (unit, op), by simp, ?_⟩
          rintro ⟨⟨n, h⟩, _⟩
          rw [hn] at h; cases h
        | some n =>
          simp only [bind, Except.bind]
          by_cases hv : ValidArgs true (all[unit]?.getD noPos).line (all[unit]?.getD noPos).endLine (all[unit]?.getD noPos).col (all[unit]?.getD noPos).endCol
          · obtain ⟨l, hl⟩ := locOfPos_valid hv
            rw [h0, hl]
            simp only
            have hon := hP.op_name op n hop hn
            by_cases hi : op < P.minInstrumented
            · have hmk := make_ok P hP n op hon hi (if P.hasArg op then some a else none) (by intro h; simp [h]) (by intro h _; simp [h])
                (by intro v hx; split at hx <;> simp at hx; omega) (some l) none
              have earg : CArg.ofOpt (if P.hasArg op then some a else none) = (if P.hasArg op then .int a else .unset) := by split <;> rfl
              rw [earg] at hmk
              rw [hmk]
              simp only
              rcases cacheReads_says hP h11 l (P.cacheEntries op) ((all.drop (unit + 0)).drop 1) with ⟨cs, c1, c2, c3⟩ | ⟨c1, c2, k, hk, c3⟩
              · rw [c1]
                simp only
                have edrop : (all.drop (unit + 0)).drop (1 + P.cacheEntries op) = all.drop ((unit + 1) + P.cacheEntries op) := by
                  rw [List.drop_drop]; congr 1; omega
                rw [edrop]
                have hL : Listable P all (unit, op) := by
                  refine ⟨⟨n, hn⟩, hi, ?_⟩
                  intro k hk
                  cases k with
                  | zero => exact hv
                  | succ k =>
                    cases h13 : P.py313 with
                    | true => simp [h13] at hk
                    | false =>
                      simp only [h13, Bool.false_eq_true, if_false] at hk
                      have := c3 h13 k (by omega)
                      rw [List.drop_drop, List.getElem?_drop] at this
                      have e : unit + 0 + 1 + k = unit + (k + 1) := by omega
                      rwa [e] at this
                have hlist : Listed P op a ⟨n, op, if P.hasArg op then some a else none, some l, none, sizeFor (if P.hasArg op then some a else none) none⟩ cs := by
                  refine ⟨hn, rfl, c2, ?_⟩
                  intro h0
                  rw [h0] at c1
                  simp [cacheReads] at c1
                  exact c1.symm ▸ rfl
                rcases ih _ hlt (P.cacheEntries op) (unit + 1) rest (Nat.le_refl _) hbr with ⟨us, h1, h2, h3⟩ | ⟨h1, h, h2, h3⟩
                · left
                  rw [h1]
                  refine ⟨_, rfl, ?_, .instr hlist h3⟩
                  intro h hx
                  rcases List.mem_cons.1 hx with rfl | hx
                  · exact hL
                  · exact h2 h hx
                · right
                  rw [h1]
                  exact ⟨rfl, h, List.mem_cons_of_mem _ h2, h3⟩
              · right
                rw [c1]
                refine ⟨rfl, (unit, op), by simp, ?_⟩
                rintro ⟨_, _, h⟩
                apply c3
                have := h (k + 1) (by simp [c2]; omega)
                rw [List.drop_drop, List.getElem?_drop]
                have e : unit + 0 + 1 + k = unit + (k + 1) := by omega
                rwa [e]
            · right
              have : CInstr.make P (some n) (if P.hasArg op then .int a else .unset) .unset (some l) none = .error .valueError := by
                unfold CInstr.make
                simp [CInstr.set_, lookupName, hon, bind, Except.bind, Nat.le_of_not_lt hi]
              rw [this]
              refine ⟨rfl, (unit, op), by simp, ?_⟩
              rintro ⟨_, h, _⟩
              exact hi h
          · right
            rw [h0, locOfPos_invalid hv]
            refine ⟨rfl, (unit, op), by simp, ?_⟩
            rintro ⟨_, _, h⟩
            exact hv (h 0 (Nat.zero_le _))

/-! ### EXTENDED_ARG -/

theorem badPrefix_err {us : List CInstr} {bs : List Nat} {i : CInstr} {e : PyErr} (hi : i.name ≠ "EXTENDED_ARG") (hus : isPrefixes us bs)
    (h : BadPrefix (us ++ [i]) e) : e = .typeError ∧ i.arg = none ∨ e = .valueError ∧ i.arg.isSome := by
  cases h with
  | @dangling pre u h hu =>
    have := List.append_inj_right' h rfl
    simp at this
    exact absurd (this ▸ hu) hi
  | @noArg pre post u j h hu hj1 hj2 hj3 =>
    have : j ∈ us ++ [i] := by rw [h]; simp
    rcases List.mem_append.1 this with hx | hx
    · exact absurd (isPrefixes_mem hus hx) hj1
    · simp only [List.mem_singleton] at hx
      subst hx
      exact .inl ⟨rfl, hj3⟩
  | @large pre vs post j bs' a h hne hvs hj hja hlt =>
    have : j ∈ us ++ [i] := by rw [h]; simp
    rcases List.mem_append.1 this with hx | hx
    · exact absurd (isPrefixes_mem hus hx) hj
    · simp only [List.mem_singleton] at hx
      subst hx
      exact .inr ⟨rfl, by simp [hja]⟩

/-- A mistake before an instruction that is no prefix remains one whatever follows. -/
theorem badPrefix_front {xs rest : List CInstr} {i : CInstr} {e : PyErr} (hi : i.name ≠ "EXTENDED_ARG") (h : BadPrefix (xs ++ [i]) e) :
    BadPrefix (xs ++ i :: rest) e := by
  have e0 : xs ++ i :: rest = (xs ++ [i]) ++ rest := by simp
  rw [e0]
  cases h with
  | @dangling pre u h hu =>
    have := List.append_inj_right' h rfl
    simp at this
    exact absurd (this ▸ hu) hi
  | @noArg pre post u j h hu h1 h2 h3 => exact .noArg (pre := pre) (post := post ++ rest) (by rw [h]; simp) hu h1 h2 h3
  | @large pre us post j bs a h hne hus hj hja hlt => exact .large (pre := pre) (post := post ++ rest) (by rw [h]; simp) hne hus hj hja hlt

theorem badPrefix_iff {xs rest : List CInstr} {i : CInstr} {e : PyErr} (hi : i.name ≠ "EXTENDED_ARG") :
    BadPrefix (xs ++ i :: rest) e ↔ BadPrefix (xs ++ [i]) e ∨ BadPrefix rest e := by
  constructor
  · exact badPrefix_split hi
  · rintro (h | h)
    · exact badPrefix_front hi h
    · have := badPrefix_tail (xs := xs ++ [i]) h
      simpa using this

theorem badPrefix_caches {cs rest : List CInstr} {e : PyErr} (hc : ∀ u ∈ cs, u.name = "CACHE" ∧ u.arg = some 0) :
    BadPrefix (cs ++ rest) e ↔ BadPrefix rest e := by
  induction cs with
  | nil => rfl
  | cons c cs ih =>
    have hn : c.name ≠ "EXTENDED_ARG" := by rw [(hc c (by simp)).1]; decide
    have := badPrefix_iff (xs := []) (rest := cs ++ rest) (e := e) hn
    simp only [List.nil_append] at this
    rw [List.cons_append, this, ih (fun u hu => hc u (by simp [hu]))]
    constructor
    · rintro (h | h)
      · exact absurd rfl (badPrefix_run (us := []) (bs := []) hn rfl h).1
      · exact h
    · exact .inr

/-- What is wrong with the EXTENDED_ARG of fetched instructions; `d`: the code ends with one. -/
def BadFetch (P : Platform) (d : Bool) (fs : List Fetched) (e : PyErr) : Prop :=
  e = .valueError ∧ d = true ∨ (∃ f ∈ fs, e = .typeError ∧ f.first < f.unit ∧ P.hasArg f.opcode = false ∧ P.opname f.opcode ≠ some "NOP") ∨
  ∃ f ∈ fs, e = .valueError ∧ P.hasArg f.opcode = true ∧ 2147483647 < f.arg

theorem valueOf_snoc (bs : List Nat) (a : Nat) : valueOf (bs ++ [a]) = valueOf bs * 256 + a := by
  unfold valueOf
  rw [List.foldl_append]
  simp [Nat.mul_comm]

theorem listed_prefix (hP : P.WF) {skip : Nat} {bytes : Bytes} {us : List CInstr} (h : ListedAll P skip bytes us) (hb : ∀ b ∈ bytes, b < 256) {e : PyErr} :
    ∀ (pre : List CInstr) (bs : List Nat) (first unit : Nat), isPrefixes pre bs → (0 < skip → bs = []) → (skip = 0 → first + bs.length = unit) →
      (BadPrefix (pre ++ us) e ↔ BadFetch P (endsExtended P skip (decide (bs ≠ [])) bytes) (fetch P skip first (valueOf bs) unit bytes) e) := by
  have hend : ∀ (pre : List CInstr) (bs : List Nat), isPrefixes pre bs → (BadPrefix (pre ++ []) e ↔ BadFetch P (decide (bs ≠ [])) [] e) := by
    intro pre bs hp
    simp only [List.append_nil, BadFetch, List.not_mem_nil, false_and, exists_false, or_false, decide_eq_true_eq]
    constructor
    · intro h
      cases h with
      | @dangling q u h hu =>
        refine ⟨rfl, ?_⟩
        rintro rfl
        subst h
        simp [isPrefixes] at hp
      | @noArg q r u i h hu h1 h2 h3 =>
        exact absurd (isPrefixes_mem hp (by rw [h]; simp)) h1
      | @large q us r i b a h hne hus hj hja hlt =>
        exact absurd (isPrefixes_mem hp (by rw [h]; simp)) hj
    · rintro ⟨rfl, hne⟩
      rcases List.eq_nil_or_concat pre with rfl | ⟨q, u, rfl⟩
      · simp [isPrefixes] at hp; exact absurd hp hne
      · rw [List.concat_eq_append] at hp ⊢
        exact .dangling rfl (isPrefixes_mem hp (by simp))
  induction h with
  | nil => intro pre bs first unit hp _ _; simpa [endsExtended, fetch] using hend pre bs hp
  | one => intro pre bs first unit hp _ _; simpa [endsExtended, fetch] using hend pre bs hp
  | skip h ih =>
    intro pre bs first unit hp hs _
    have := hs (by omega)
    subst this
    have hbr := fun b hx => hb b (List.mem_cons_of_mem _ (List.mem_cons_of_mem _ hx))
    have := ih hbr pre [] (unit + 1) (unit + 1) hp (fun _ => rfl) (fun _ => rfl)
    rw [this, endsExtended, fetch]
    rfl
  | @instr op a r i cs us hl h ih =>
    intro pre bs first unit hp _ hu
    have hu := hu rfl
    have hbr := fun b hx => hb b (List.mem_cons_of_mem _ (List.mem_cons_of_mem _ hx))
    have ha : a < 256 := hb a (by simp)
    have hopb : op < 256 := hb op (by simp)
    rw [endsExtended, fetch]
    by_cases hx : op = P.extendedArg
    · simp only [if_pos hx]
      subst hx
      have hn : i.name = "EXTENDED_ARG" := by
        have := (hP.name_op _ _ hP.ext hP.ext_base).2
        rw [hl.name] at this
        exact (Option.some.inj this)
      have hc := hl.none hP.cache_ext
      subst hc
      have harg : i.arg = some a := by rw [hl.arg, if_pos hP.ext_arg]
      have hp' : isPrefixes (pre ++ [i]) (bs ++ [a]) := by
        unfold isPrefixes at hp ⊢
        rw [List.map_append, List.map_append, hp]
        simp [hn, harg]
      rw [hP.cache_ext] at h ih
      have := ih hbr (pre ++ [i]) (bs ++ [a]) first (unit + 1) hp' (fun h => absurd h (by omega)) (fun _ => by simp; omega)
      rw [valueOf_snoc] at this
      simpa using this
    · simp only [if_neg hx]
      have hom := hP.op_name _ _ hopb hl.name
      have hn : i.name ≠ "EXTENDED_ARG" := by
        intro h; rw [h, hP.ext] at hom; exact hx (Option.some.inj hom).symm
      have e1 : pre ++ (i :: cs ++ us) = pre ++ i :: (cs ++ us) := rfl
      rw [e1, badPrefix_iff hn, badPrefix_caches hl.caches]
      have ih' := ih hbr [] [] (unit + 1) (unit + 1) rfl (fun _ => rfl) (fun _ => rfl)
      simp only [List.nil_append] at ih'
      rw [ih']
      have hrun : BadPrefix (pre ++ [i]) e ↔ BadFetch P false [⟨op, valueOf bs * 256 + a, first, unit⟩] e := by
        simp only [BadFetch, Bool.false_eq_true, and_false, false_or, List.mem_singleton, exists_eq_left]
        constructor
        · intro h
          have h1 := badPrefix_run hn hp h
          have h2 := badPrefix_err hn hp h
          obtain ⟨hne, h1⟩ := h1
          have hlt : first < unit := by
            have := List.length_pos_iff.2 hne
            omega
          rcases h1 with ⟨h3, h4⟩ | ⟨a', h3, h4⟩
          · left
            rcases h2 with ⟨rfl, _⟩ | ⟨_, h5⟩
            · refine ⟨rfl, hlt, ?_, ?_⟩
              · cases hA : P.hasArg op with
                | false => rfl
                | true => rw [hl.arg, hA] at h3; simp at h3
              · rw [hl.name]; intro h; exact h4 (Option.some.inj h)
            · rw [h3] at h5; cases h5
          · right
            rcases h2 with ⟨_, h5⟩ | ⟨rfl, _⟩
            · rw [h3] at h5; cases h5
            · have hA : P.hasArg op = true := by
                cases hA : P.hasArg op with
                | true => rfl
                | false => rw [hl.arg, hA] at h3; simp at h3
              rw [hl.arg, if_pos hA] at h3
              cases h3
              exact ⟨rfl, hA, h4⟩
        · rintro (⟨rfl, h1, h2, h3⟩ | ⟨rfl, h1, h2⟩)
          · rcases List.eq_nil_or_concat pre with rfl | ⟨q, u, rfl⟩
            · simp [isPrefixes] at hp
              subst hp
              simp at hu
              omega
            · rw [List.concat_eq_append] at hp ⊢
              refine .noArg (pre := q) (post := []) (u := u) (i := i) (by simp) (isPrefixes_mem hp (by simp)) hn ?_ (by rw [hl.arg, h2]; simp)
              intro h; rw [hl.name, h] at h3; exact h3 rfl
          · have hne : bs ≠ [] := by
              rintro rfl
              simp [valueOf] at h2
              omega
            refine .large (pre := []) (us := pre) (post := []) (bs := bs) (a := a) (by simp) ?_ hp hn (by rw [hl.arg, if_pos h1]) h2
            rintro rfl
            simp [isPrefixes] at hp
            exact hne hp
      rw [hrun]
      simp only [BadFetch, Bool.false_eq_true, and_false, false_or, List.mem_singleton, exists_eq_left, List.mem_cons, exists_eq_or_imp]
      have ev : valueOf [] = 0 := rfl
      have ed : decide (([] : List Nat) ≠ []) = false := by decide
      rw [ev, ed]
      grind

end Verif
