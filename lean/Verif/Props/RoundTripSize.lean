import Verif.Proofs.SameRoom
import Verif.Props.Passes
/-
C71: the round trip does not make the code longer.
-/
namespace Verif
open Spec
section
variable {κ : Type} [DecidableEq κ] {P : Platform} {key : Arg → κ} {eff : Instr → Bool → Py (Int × Int)} {b : Bytecode} {c : Concrete} {co co' : Code}
  {passes : Nat} {stacksize : Option Int} {depths : Bool}

omit [DecidableEq κ] in
theorem bare_noDepth (l : List (Op κ)) : (l.map Op.noDepth).map Op.bare = l.map Op.bare := by
  rw [List.map_map]; rfl

omit [DecidableEq κ] in
theorem bare_mapLoc (l : List (Op κ)) : (l.map (Op.mapLoc keptLoc)).map Op.bare = l.map Op.bare := by
  rw [List.map_map]; rfl

theorem fetchedOf_dual {is : List CInstr} {u : Nat} (hd : ∀ f ∈ fetchedOf u is, P.dual f.opcode = false) {i : CInstr} (hi : i ∈ is) (h0 : P.dual 0 = false) : P.dualSingles i.opcode = none := by
  have : P.dual i.opcode = false := by
    induction is generalizing u with
    | nil => cases hi
    | cons x is ih =>
      unfold fetchedOf at hd
      split at hd
      · rename_i hx
        rcases List.mem_cons.1 hi with rfl | hi
        · rw [hx]; exact h0
        · exact ih hd hi
      · rcases List.mem_cons.1 hi with rfl | hi
        · exact hd _ (List.mem_cons_self ..)
        · exact ih (fun f hf => hd f (List.mem_cons_of_mem _ hf)) hi
  unfold Platform.dual at this
  cases h : P.dualSingles i.opcode with
  | none => rfl
  | some p => rw [h] at this; cases this

theorem dual_zero (hP : P.WF) (h11 : P.py311 = true) : P.dual 0 = false := by
  have hc := (hP.name_op _ _ (hP.cache h11).1 (hP.cache h11).2).2
  have key : ∀ n, n ≠ "CACHE" → P.isOp n 0 = false := by
    intro n hn
    cases h : P.isOp n 0 with
    | false => rfl
    | true =>
      have := (hP.name_op n 0 (by simpa [Platform.isOp] using h) (hP.cache h11).2).2
      rw [hc] at this
      exact absurd (Option.some.inj this).symm hn
  unfold Platform.dual Platform.dualSingles
  rw [key _ (by decide), key _ (by decide), key _ (by decide)]
  split <;> rfl

omit [DecidableEq κ] in
theorem fetchedOf_opcode {is : List CInstr} : ∀ {u : Nat} {f : Fetched}, f ∈ fetchedOf u is → ∃ i ∈ is, i.opcode = f.opcode := by
  induction is with
  | nil => intro u f h; cases h
  | cons i is ih =>
    intro u f h
    unfold fetchedOf at h
    split at h
    · obtain ⟨x, hx, e⟩ := ih h; exact ⟨x, by simp [hx], e⟩
    · rcases List.mem_cons.1 h with rfl | h
      · exact ⟨i, by simp, rfl⟩
      · obtain ⟨x, hx, e⟩ := ih h; exact ⟨x, by simp [hx], e⟩

/-- What is assembled. -/
theorem toCode_source (hcache : ∀ e ∈ b.elems, e.isCache = false) (hv : ∀ i, .instr i ∈ b.elems → ValidInstr P i) (hl : LabelsOnly b)
    (hw : WellTried none [] false b.elems) (h : b.toCode P key eff passes stacksize depths = .ok co) :
    ∃ b' c n, toConcrete P key passes b' = .ok c ∧ c.emit P n = .ok co ∧ codeB b' = codeB b ∧ b'.attrs = b.attrs ∧ b'.argnames = b.argnames ∧
      (∀ e ∈ b'.elems, e.isCache = false) ∧ (∀ i, .instr i ∈ b'.elems → ValidInstr P i) ∧
      ∀ i, .instr i ∈ b'.elems → ∃ j, .instr j ∈ b.elems ∧ j.opcode = i.opcode ∧ (j.arg = i.arg ∨ ∃ l, i.arg = .label l) := by
  have hs : ∀ {r : Int × Bytecode} {c : Concrete}, b.sized P eff depths = .ok r → toConcrete P key passes r.2 = .ok c → c.emit P r.1 = .ok co →
      ∃ b' c n, toConcrete P key passes b' = .ok c ∧ c.emit P n = .ok co ∧ codeB b' = codeB b ∧ b'.attrs = b.attrs ∧ b'.argnames = b.argnames ∧
      (∀ e ∈ b'.elems, e.isCache = false) ∧ (∀ i, .instr i ∈ b'.elems → ValidInstr P i) ∧
      ∀ i, .instr i ∈ b'.elems → ∃ j, .instr j ∈ b.elems ∧ j.opcode = i.opcode ∧ (j.arg = i.arg ∨ ∃ l, i.arg = .label l) := by
    rintro ⟨n, b'⟩ c hr hc he
    obtain ⟨h1, h2, h3, h4, h5, h6, _⟩ := sized_spec hl hw hr
    refine ⟨b', c, n, hc, he, h1, h3, h4, noCache_same hl h1 h6 hcache, valid_same hl h1 h6 hv, fun i hi => ?_⟩
    obtain ⟨j, a1, _, a2, _, a3, a4⟩ := item_instr hl h1 h6 hi
    refine ⟨j, a1, a2, ?_⟩
    rcases a3 with a3 | a3
    · exact .inl a3
    · exact .inr a3.1
  unfold Bytecode.toCode at h
  split at h
  · obtain ⟨r, hr, h⟩ := except_bind_ok h
    obtain ⟨c, hc, h⟩ := except_bind_ok h
    exact hs hr hc h
  · split at h
    · obtain ⟨c, hc, h⟩ := except_bind_ok h
      exact ⟨b, c, _, hc, h, rfl, rfl, rfl, hcache, hv, fun i hi => ⟨i, hi, rfl, .inl rfl⟩⟩
    · obtain ⟨r, hr, h⟩ := except_bind_ok h
      obtain ⟨c, hc, h⟩ := except_bind_ok h
      exact hs hr hc h

/-- The opcodes of the code are those of the instructions, and CACHE. -/
theorem Final.opcodes {T : Tabs} {M : List Cell} (hF : Final P key b c T M) (hd : ∀ i, .instr i ∈ b.elems → P.dual i.opcode = false) {ci : CInstr}
    (hci : ci ∈ code P M) : ci.name = "CACHE" ∨ ∃ i, .instr i ∈ b.elems ∧ ci.opcode = i.opcode := by
  unfold code at hci
  obtain ⟨d, hd', hci⟩ := List.mem_flatMap.1 hci
  have hin : d.e ∈ b.elems := by rw [← hF.lay.elems]; exact List.mem_map_of_mem hd'
  cases hi : d.e with
  | instr i =>
    rw [hi] at hin
    rcases hF.shape hd' hi with ⟨a, _, hc⟩ | ⟨n1, i1, n2, i2, _, hs, hc⟩
    · rw [hc] at hci
      rcases List.mem_cons.1 hci with rfl | hci
      · right
        exact ⟨i, hin, mkI_opcode (hF.valid i hin).name_op _ _⟩
      · left
        rw [(List.mem_replicate.1 hci).2]; rfl
    · have := hd i hin
      unfold Platform.dual at this
      rw [hs] at this; cases this
  | _ => simp [Cell.code, hi] at hci

/-- Instructions with the same program and sizes at least as large, jumps apart. -/
theorem room_of_programs (hP : P.WF) (h11 : P.py311 = true) {d : Concrete} {l N : List CInstr} (hc : c.elems = l.map .instr) (hd : d.elems = N.map .instr)
    (hl : CacheLayout P l) (hN : CacheLayout P N) (hlr : ∀ i ∈ l, Readable P i) (hNr : ∀ i ∈ N, Readable P i)
    (hdu : ∀ f ∈ fetchedOf 0 l, P.dual f.opcode = false) (hdu' : ∀ f ∈ fetchedOf 0 N, P.dual f.opcode = false)
    (hprog : (programC P key c).map Op.bare = (programC P key d).map Op.bare)
    (hsz : ∀ (k : Nat) f f', (fetchedOf 0 l)[k]? = some f → (fetchedOf 0 N)[k]? = some f' → P.hasJump f.opcode = false → f'.opcode = f.opcode → f.unit - f.first ≤ f'.unit - f'.first) :
    Room P l N := by
  have hj0 : P.hasJump 0 = false := by
    cases hj : P.hasJump 0 with
    | false => rfl
    | true =>
      have := hasJump_arg hP (hP.cache h11).1 (hP.cache h11).2 hj
      rw [hP.zero] at this; cases this
  unfold programC at hprog
  rw [ops_line d _ _ c.attrs.firstLineno, hc, hd] at hprog
  obtain ⟨h1, h2⟩ := same_groups (c := c) (d := d) (key := key) hl hN hlr hNr (fun i hi => cache_iff hP h11 (hlr i hi).valid)
    (fun i hi => cache_iff hP h11 (hNr i hi).valid) (fun i hi => fetchedOf_dual hdu hi (dual_zero hP h11)) (fun i hi => fetchedOf_dual hdu' hi (dual_zero hP h11)) hj0
    _ _ _ _ _ hprog hsz
  rw [hc, hd] at h2
  refine ⟨h1, fun k i i' hi hi' => ⟨(h2 k i i' hi hi').1, (h2 k i i' hi hi').2.1⟩, ?_, fun k i i' hi hi' => (h2 k i i' hi hi').2.2.1, ?_, ?_⟩
  · intro i hi
    exact valid_size (hNr i hi).valid
  · intro k i i' hi hi' hj
    have hr := hNr i' (List.mem_of_getElem? hi')
    have hA := hasJump_arg hP hr.valid.name_op hr.valid.base (by rw [(h2 k i i' hi hi').2.1]; exact hj)
    obtain ⟨a, ha⟩ := Option.isSome_iff_exists.1 (hr.valid.arg_required hA)
    refine ⟨a, ha, hr.valid.arg_range a ha, ?_⟩
    rw [size_of_units hr]
    simp only [nPrefix, ha, sizeFor, Option.getD_some]
    omega
  · intro k i i' hi hi' hj
    have := (h2 k i i' hi hi').2.2.2 hj
    simp only [Nat.zero_add] at this
    exact this

/-- **C71 (size).** Code of 3.11+ read and written, whatever the options and the number of passes: if no instruction other than the jumps gets more
EXTENDED_ARG than it had (`C71_small`: when the tables have at most 256 entries), then no jump does either, the code is not longer and has no more
EXTENDED_ARG before jumps. The resolution of jumps starts from no EXTENDED_ARG at all and only adds those needed, so it ends at a layout no larger
than that of the original code. -/
theorem C71_not_longer (hP : P.WF) (h11 : P.py311 = true) (hok : CodeOK P co) (hd : ∀ f ∈ fetched P co, P.dual f.opcode = false) {conserve : Bool}
    (hb : Bytecode.fromCode P co true conserve = .ok b) (h : b.toCode P key eff passes stacksize depths = .ok co')
    (hsz : ∀ (k : Nat) f f', (fetched P co)[k]? = some f → (fetched P co')[k]? = some f' → P.hasJump f.opcode = false →
      f'.unit - f'.first ≤ f.unit - f.first) :
    (∀ (k : Nat) f f', (fetched P co)[k]? = some f → (fetched P co')[k]? = some f' → f'.unit - f'.first ≤ f.unit - f.first) ∧
    co'.code.length ≤ co.code.length ∧ jumpExtArgs P co' ≤ jumpExtArgs P co := by
  obtain ⟨hval, hlo, hwt⟩ := C51_usable hP h11 hok conserve hb
  have hnd := noDual_of hP h11 hok hd hb
  have hcache : ∀ e ∈ b.elems, e.isCache = false := by
    intro e he
    cases e with
    | instr i => simpa [BElem.isCache] using (hval i he).2.2
    | _ => rfl
  have hv : ∀ i, .instr i ∈ b.elems → ValidInstr P i := fun i hi => (hval i hi).1
  obtain ⟨b', c, n, hc, he, e1, e2, e2', e3, e4, e5⟩ := toCode_source hcache hv hlo hwt h
  obtain ⟨T, M, hF⟩ := toConcrete_Final hP e3 e4 hc
  obtain ⟨js, g1, g2, hR, _⟩ := readFrom_of (key := key) hP h11 hok
  have hloc : ∀ i ∈ code P M, i.loc = some (i.loc.getD (Loc.line none)) := by
    intro i hi
    obtain ⟨l, hl⟩ := (hF.plain i hi).2.1
    rw [hl]; rfl
  have hE := emitted P hP h11 c (code P M) (fun i => i.loc.getD (Loc.line none)) hF.elems (hF.layout h11) hF.readable hloc n co' he
  have hp' := emit_program P hP h11 key c (code P M) (fun i => i.loc.getD (Loc.line none)) hF.elems (hF.layout h11) hF.readable hloc n co' he
  have hsame := C52_round_trip (key := key) hP h11 hok hb h (fun i hi hx => by rw [hnd i hi] at hx; cases hx)
  have hprog : (programC P key c).map Op.bare = (programC P key (readOf co js)).map Op.bare := by
    rw [g2, ← bare_noDepth (programCode P key co), ← bare_mapLoc ((programCode P key co).map Op.noDepth), ← hsame, bare_noDepth, hp', mapLoc_eq, bare_mapLoc]
  rw [hR.fetch_, hE.fetch_] at hsz ⊢
  have hdl : ∀ f ∈ fetchedOf 0 (code P M), P.dual f.opcode = false := by
    intro f hf
    obtain ⟨ci, hci, ho⟩ := fetchedOf_opcode hf
    have hnd' : ∀ i, .instr i ∈ b'.elems → P.dual i.opcode = false := by
      intro i hi
      obtain ⟨j, hj, hjo, _⟩ := e5 i hi
      rw [← hjo]; exact hnd j hj
    rcases hF.opcodes hnd' hci with hx | ⟨i, hi, hx⟩
    · rw [← ho, (cache_iff hP h11 (hF.readable ci hci).valid).1 hx]; exact dual_zero hP h11
    · obtain ⟨j, hj, hjo, _⟩ := e5 i hi
      rw [← ho, hx, ← hjo]; exact hnd j hj
  have hroom := room_of_programs hP h11 hF.elems (by rfl) (hF.layout h11) hR.layout hF.readable hR.readable hdl (fun f hf => hd f (by rw [hR.fetch_]; exact hf)) hprog
    (fun k f f' hk hk' hj ho => hsz k f' f hk' hk (by rw [ho]; exact hj))
  have hle := toConcrete_room hP e3 e4 hc (code P M) js hF.elems hroom
  refine ⟨fun k f f' hf hf' => fetchedOf_le _ _ 0 0 hroom.length (fun k i i' hi hi' => ⟨(hroom.same k i i' hi hi').2, hle k i i' hi hi'⟩) k f' f hf' hf, ?_, ?_⟩
  · have h1 : co'.code.length = 2 * unitsOf (code P M) := by
      rw [hE.code_]
      have : ∀ is : List CInstr, (∀ i ∈ is, Readable P i) → (is.flatMap (CInstr.assemble P)).length = 2 * unitsOf is := by
        intro is hr
        induction is with
        | nil => rfl
        | cons i is ih =>
          have hi := hr i (by simp)
          have := size_of_units hi
          simp only [List.flatMap_cons, List.length_append]
          rw [ih (fun x hx => hr x (by simp [hx])), hi.size]
          simp only [unitsOf, List.map_cons, List.sum_cons]
          omega
      exact this _ hF.readable
    have h2 : unitsOf (code P M) ≤ unitsOf js := by
      have hlen := hroom.length
      have : ∀ (l N : List CInstr), N.length = l.length → (∀ (k : Nat) (i i' : CInstr), l[k]? = some i → N[k]? = some i' → i.size ≤ i'.size) →
          unitsOf l ≤ unitsOf N := by
        intro l
        induction l with
        | nil => intro N _ _; simp [unitsOf]
        | cons i l ih =>
          intro N hlen hle
          cases N with
          | nil => simp at hlen
          | cons i' N =>
            have h3 := ih N (by simpa using hlen) (fun k a a' ha ha' => hle (k + 1) a a' (by simpa using ha) (by simpa using ha'))
            have h4 : i.size / 2 ≤ i'.size / 2 := Nat.div_le_div_right (hle 0 i i' rfl rfl)
            simp only [unitsOf, List.map_cons, List.sum_cons] at h3 ⊢
            omega
      exact this _ _ hlen hle
    have h3 := hR.units_
    omega
  · have h1 := fetchedOf_prefixes hP (code P M) hF.readable 0
    have h2 := fetchedOf_prefixes hP js hR.readable 0
    unfold jumpExtArgs
    rw [hR.fetch_, hE.fetch_, ← h1, ← h2]
    exact room_prefixes hroom hle
end
end Verif
