import Verif.Proofs.WellCoded
import Verif.Proofs.DecodeTotal
/-
Reading a well-formed code object does not fail.
-/
namespace Verif
open Spec

section
variable {κ : Type} [DecidableEq κ] {P : Platform}

theorem fetched_start (h11 : P.py311 = true) (js : List CInstr) : ∀ u, ∀ f ∈ fetchedOf u js, f.first ∈ starts P u (js.map .instr) := by
  induction js with
  | nil => intro u f hf; simp [fetchedOf] at hf
  | cons j js ih =>
    intro u f hf
    simp only [List.map_cons, starts, List.mem_cons, width_311 h11]
    unfold fetchedOf at hf
    split at hf
    · exact .inr (ih _ f hf)
    · rcases List.mem_cons.1 hf with rfl | hf
      · exact .inl rfl
      · exact .inr (ih _ f hf)

theorem start_stop (h11 : P.py311 = true) (js : List CInstr) (hs : ∀ j ∈ js, 2 ≤ j.size) : ∀ u x, (x ∈ starts P u (js.map .instr) ∨ x = u + unitsOf js) → u < x →
    x - 1 ∈ opcodeOffsets P u (js.map .instr) := by
  induction js with
  | nil => intro u x hx h; simp [starts, unitsOf] at hx; omega
  | cons j js ih =>
    intro u x hx h
    have h10 : P.py310 = true := by simp [Platform.py310, Platform.py311] at *; omega
    have := hs j (by simp)
    simp only [List.map_cons, opcodeOffsets, List.mem_cons, width_311 h11, h10, if_true]
    simp only [List.map_cons, starts, List.mem_cons, width_311 h11] at hx
    have e : u + unitsOf (j :: js) = u + j.size / 2 + unitsOf js := by simp [unitsOf]; omega
    rw [e] at hx
    have hx' : x ∈ starts P (u + j.size / 2) (js.map .instr) ∨ x = u + j.size / 2 + unitsOf js := by
      rcases hx with (hx | hx) | hx
      · omega
      · exact .inl hx
      · exact .inr hx
    by_cases hlt : u + j.size / 2 < x
    · exact .inr (ih (fun i hi => hs i (by simp [hi])) _ x hx' hlt)
    · left
      rcases hx' with hx' | hx'
      · have := starts_ge (P := P) _ _ x hx'; omega
      · omega

theorem fetched_jump (hP : P.WF) (h11 : P.py311 = true) (js : List CInstr) (hr : ∀ j ∈ js, Readable P j) : ∀ u t, t ∈ jumpTargets P u (js.map .instr) →
    ∃ f ∈ fetchedOf u js, jumpUnit P f = some t := by
  induction js with
  | nil => intro u t ht; simp [jumpTargets] at ht
  | cons j js ih =>
    intro u t ht
    have hj := hr j (by simp)
    have hv := hj.valid
    have hsz := size_of_units hj
    have h10 : P.py310 = true := by simp [Platform.py310, Platform.py311] at *; omega
    simp only [List.map_cons, jumpTargets, List.mem_append, Option.mem_toList, Option.mem_def] at ht
    have hw : j.units P = j.size / 2 := by rw [← width_units]; exact width_311 h11 j
    rw [hw] at ht
    rcases ht with ht | ht
    · have hjump := target_hasJump ht
      have hA := hasJump_hasArg hP hv hjump
      have h0 : j.opcode ≠ 0 := by intro h; rw [h, hP.zero] at hA; cases hA
      refine ⟨⟨j.opcode, j.arg.getD 0, u, u + j.size / 2 - 1⟩, by simp [fetchedOf, h0], ?_⟩
      rw [← ht]
      obtain ⟨v, hv'⟩ := Option.isSome_iff_exists.1 (hv.arg_required hA)
      unfold jumpUnit CInstr.getJumpTarget CInstr.useCacheOpcodes
      rw [hv']
      simp only [nameOf_valid hP hv, h10, h11, if_true, Option.getD_some]
      have e1 : ((u + j.size / 2 - 1 : Nat) : Int) + 1 + (P.cacheEntries j.opcode : Int) =
          (u : Int) + ((j.size / 2 + P.cacheEntries j.opcode : Nat) : Int) := by omega
      rw [e1]
    · obtain ⟨f, hf, hx⟩ := ih (fun i hi => hr i (by simp [hi])) _ t ht
      refine ⟨f, ?_, hx⟩
      unfold fetchedOf
      split
      · exact hf
      · exact List.mem_cons_of_mem _ hf

theorem fetched_of (js : List CInstr) : ∀ u, ∀ j ∈ js, j.opcode ≠ 0 → ∃ f ∈ fetchedOf u js, f.opcode = j.opcode ∧ f.arg = j.arg.getD 0 := by
  induction js with
  | nil => intro u j hj; simp at hj
  | cons i js ih =>
    intro u j hj h0
    unfold fetchedOf
    rcases List.mem_cons.1 hj with rfl | hj
    · rw [if_neg h0]; exact ⟨_, List.mem_cons_self, rfl, rfl⟩
    · obtain ⟨f, hf, hx⟩ := ih (u + i.size / 2) j hj h0
      refine ⟨f, ?_, hx⟩
      split
      · exact hf
      · exact List.mem_cons_of_mem _ hf

theorem opAtUnit_isSome (P : Platform) (t : Int) (len : Nat) (fs : List Fetched) (h : ∃ f ∈ fs, t = f.first) : ∀ n, (opAtUnit P t len n fs).isSome = true := by
  induction fs with
  | nil => intro n; simp at h
  | cons f fs ih =>
    intro n
    unfold opAtUnit
    split
    · rfl
    · rename_i hne
      obtain ⟨g, hg, hx⟩ := h
      rcases List.mem_cons.1 hg with rfl | hg
      · exact absurd hx hne
      · exact ih ⟨g, hg, hx⟩ _

theorem layout_same {is js : List CInstr} (h : CacheLayout P is) (hs : List.Forall₂ SameInstr is js) : CacheLayout P js := by
  have key : ∀ (cs rest js : List CInstr), List.Forall₂ SameInstr (cs ++ rest) js →
      ∃ a b, js = a ++ b ∧ List.Forall₂ SameInstr cs a ∧ List.Forall₂ SameInstr rest b := by
    intro cs
    induction cs with
    | nil => intro rest js h; exact ⟨[], js, rfl, .nil, h⟩
    | cons x cs ih =>
      intro rest js h
      cases h with
      | cons hx h =>
        obtain ⟨a, b, e, h1, h2⟩ := ih _ _ h
        exact ⟨_ :: a, b, by rw [e]; rfl, .cons hx h1, h2⟩
  have len : ∀ {a b : List CInstr}, List.Forall₂ SameInstr a b → b.length = a.length ∧ ((∀ c ∈ a, c.opcode = 0 ∧ c.size = 2) → ∀ c ∈ b, c.opcode = 0 ∧ c.size = 2) := by
    intro a b h
    induction h with
    | nil => simp
    | cons hx _ ih =>
      refine ⟨by simp [ih.1], fun h c hc => ?_⟩
      rcases List.mem_cons.1 hc with rfl | hc
      · rw [hx.opcode, hx.size]; exact h _ (by simp)
      · exact ih.2 (fun c hc => h c (by simp [hc])) c hc
  induction h generalizing js with
  | nil => cases hs; exact .nil
  | group i cs rest hi hc hz _ ih =>
    cases hs with
    | cons hx hs =>
      obtain ⟨a, b, e, h1, h2⟩ := key _ _ _ hs
      rw [e]
      exact .group _ a b (by rw [hx.opcode]; exact hi) (by rw [(len h1).1, hc, hx.opcode]) ((len h1).2 hz) (ih h2)

/-- What is known of the instructions read from a code object. -/
structure ReadFrom (P : Platform) (co : Code) (js : List CInstr) : Prop where
  fetch_ : fetched P co = fetchedOf 0 js
  units_ : co.code.length / 2 = unitsOf js
  readable : ∀ j ∈ js, Readable P j
  cache : ∀ j ∈ js, j.opcode = 0 → j.arg = some 0
  layout : CacheLayout P js

variable {co : Code} {js : List CInstr}

theorem ReadFrom.valid (h : ReadFrom P co js) : ∀ ci, .instr ci ∈ (readOf co js).elems → ValidCInstr P ci := by
  intro ci hci
  obtain ⟨j, hj, e⟩ := List.mem_map.1 hci
  cases e
  exact (h.readable _ hj).valid

theorem ReadFrom.remove (h : ReadFrom P co js) : removeExtendedArgs P 0 none (readOf co js).elems = .ok (readOf co js).elems :=
  remove_noext P js (fun j hj => (h.readable j hj).noext) 0

theorem ReadFrom.tableOK (hP : P.WF) (h11 : P.py311 = true) (h : ReadFrom P co js) (hok : CodeOK P co) : TableOK P (readOf co js) := by
  have hent : ∀ e ∈ (readOf co js).excTable, ∃ r ∈ regions co, e = entryOf r := by
    intro e he
    have he : e ∈ parseExcTable co.exctable := he
    rw [parseExcTable_regions] at he
    obtain ⟨r, hr, rfl⟩ := List.mem_map.1 he
    exact ⟨r, hr, rfl⟩
  have hs : ∀ j ∈ js, 2 ≤ j.size := fun j hj => valid_size (h.readable j hj).valid
  constructor
  · intro e he
    obtain ⟨r, hr, rfl⟩ := hent e he
    have := (hok.region r hr).1
    simp only [entryOf]; omega
  · intro e he
    obtain ⟨r, hr, rfl⟩ := hent e he
    obtain ⟨f, hf, hx⟩ := (hok.region r hr).2.1
    rw [h.fetch_] at hf
    exact ⟨f.first, fetched_start h11 js 0 f hf, by simp [entryOf, hx]⟩
  · intro e he
    obtain ⟨r, hr, rfl⟩ := hent e he
    obtain ⟨h1, _, h3, _⟩ := hok.region r hr
    refine ⟨r.start + r.size - 1, start_stop h11 js hs 0 _ ?_ (by omega), by simp only [entryOf]; omega⟩
    rcases h3 with ⟨f, hf, hx⟩ | hx
    · rw [h.fetch_] at hf
      rw [hx]
      exact .inl (fetched_start h11 js 0 f hf)
    · right; rw [hx, h.units_]; omega
  · show (parseExcTable co.exctable).Pairwise _
    rw [parseExcTable_regions, List.pairwise_map]
    refine hok.disjoint.imp ?_
    intro r s hrs
    simp only [entryOf]
    omega
  · intro e he
    obtain ⟨r, hr, rfl⟩ := hent e he
    obtain ⟨f, hf, hx⟩ := (hok.region r hr).2.2.2
    rw [h.fetch_] at hf
    have := opAtUnit_fetched P hP h11 (entryOf r).target js h.readable 0 0
    rw [show (readOf co js).elems = js.map .instr from rfl, ← this]
    exact opAtUnit_isSome P _ _ _ ⟨f, hf, by simp [entryOf, hx]⟩ 0

theorem ReadFrom.decodable (hP : P.WF) (h11 : P.py311 = true) (h : ReadFrom P co js) (hok : CodeOK P co) :
    ∀ j ∈ js, j.opcode ≠ 0 → Decodable P (readOf co js) j := by
  intro j hj h0
  obtain ⟨f, hf, e1, e2⟩ := fetched_of js 0 j hj h0
  rw [← h.fetch_] at hf
  have hv := (h.readable j hj).valid
  have hfa : ∀ a, j.arg = some a → f.arg = a := by intro a ha; rw [e2, ha]; rfl
  have harg : (if P.hasArg f.opcode then some f.arg else none) = j.arg := by
    rw [e1, e2]
    by_cases ha : P.hasArg j.opcode = true
    · rw [if_pos ha]
      obtain ⟨v, hv'⟩ := Option.isSome_iff_exists.1 (hv.arg_required ha)
      rw [hv']; rfl
    · rw [if_neg ha, hv.arg_forbidden (by simpa using ha) h0]
  constructor
  · intro p hp
    by_cases hjump : P.hasJump j.opcode = true
    · have hd := not_dual hP ((kinds_excl hP j.opcode).jump hjump).2.1
      unfold expandC at hp
      split at hp
      · simp at hp
      · rw [hd] at hp
        simp only [List.mem_singleton] at hp
        rw [hp]
        simp [operandC, hjump, jumpOr]
    · rw [expandC_dest (d' := (jumpUnit P f).bind (fun t => opAtUnit P t (co.code.length / 2) 0 (fetched P co))) (by simpa using hjump),
        expandC_tables (key := (id : Arg → Arg)) (c := tablesOf co) (c' := readOf co js) (i' := j) (i := ⟨nameOf P f.opcode, f.opcode, if P.hasArg f.opcode then some f.arg else none, none, none, 2⟩) h11 rfl rfl rfl rfl
          (by simp only; rw [e1]; exact (nameOf_valid hP hv).symm) e1.symm harg.symm] at hp
      have := hok.operands ⟨p.1, p.2, locOfUnit co f.unit, handlerOfUnit P co (fetched P co) f.unit⟩ (by
        unfold programCode
        exact List.mem_flatMap.2 ⟨f, hf, List.mem_map.2 ⟨p, hp, rfl⟩⟩)
      exact this
  · intro hc a ha
    rw [← hfa a ha]; exact hok.compares f hf (by rw [e1]; exact hc)
  · intro hc a ha
    rw [← hfa a ha]; exact (hok.intrinsics f hf).1 (by rw [e1]; exact hc)
  · intro hc a ha
    rw [← hfa a ha]; exact (hok.intrinsics f hf).2 (by rw [e1]; exact hc)
  · intro hc a ha
    rw [← hfa a ha]; exact hok.duals f hf (by rw [e1]; exact hc)
  · intro _ a _ v hx
    exact hok.consts v (List.mem_of_getElem? hx)

/-- `to_bytecode` of what is read. -/
theorem ReadFrom.total (hP : P.WF) (h11 : P.py311 = true) (h : ReadFrom P co js) (hok : CodeOK P co) (prune conserve : Bool)
    (hp : prune = true ∨ ∀ j ∈ js, j.opcode ≠ 0) :
    ∃ b, toBytecode P prune conserve (readOf co js) = .ok b := by
  have hT := h.tableOK hP h11 hok
  obtain ⟨d, hd, hlab, hjmp, htb⟩ := loop_total (c := readOf co js) hP hok.apart (prune := prune) (conserve := conserve)
    (targets := jumpTargets P 0 (readOf co js).elems ++ (readOf co js).excTable.map (·.target)) (readOf co js).elems (by
      intro ci hci
      obtain ⟨j, hj, e⟩ := List.mem_map.1 hci
      cases e
      have hr := h.readable _ hj
      have hc := cache_iff hP h11 hr.valid
      refine ⟨hr.valid, hr.noext, fun hn => h.decodable hP h11 hok _ hj (fun h0 => hn (hc.2 h0)), fun hn => ?_, hc, fun _ => h11⟩
      rcases hp with hp | hp
      · exact hp
      · exact absurd (hc.1 hn) (hp _ hj)) (readOf co js).attrs.firstLineno 0 [] (by simp)
  have hnd : ((readOf co js).excTable.map (·.start)).Nodup := by
    unfold List.Nodup
    rw [List.pairwise_map]
    refine List.Pairwise.imp_of_mem ?_ hT.disjoint
    intro e f he hf hef
    have := hT.nonempty e he
    have := hT.nonempty f hf
    omega
  unfold toBytecode
  rw [h.remove]
  simp only [bind, Except.bind, pyAssert, hnd, decide_true, if_true, hd]
  have hj : d.jumps.all (fun t => decide (t ∈ d.labels.map (fun (n : Nat) => (n : Int)))) = true := by
    rw [List.all_eq_true]
    intro t ht
    rw [decide_eq_true_iff, List.mem_map]
    obtain ⟨f, hf, hx⟩ := fetched_jump hP h11 js h.readable 0 t (hjmp t ht)
    rw [← h.fetch_] at hf
    obtain ⟨g, hg, hg'⟩ := hok.jumps f hf t hx
    rw [h.fetch_] at hg
    refine ⟨g.first, (hlab _).2 ⟨fetched_start h11 js 0 g hg, ?_⟩, hg'.symm⟩
    rw [← hg']
    exact List.mem_append_left _ (hjmp t ht)
  have ht : d.tbs.all (fun k => decide (((readOf co js).excTable[k]?.map (·.target)).getD (-1) ∈ d.labels.map (fun (n : Nat) => (n : Int)))) = true := by
    rw [List.all_eq_true]
    intro k hk
    rw [decide_eq_true_iff, List.mem_map]
    have hkl := htb k hk
    have he := List.getElem?_eq_getElem hkl
    have hm := List.mem_of_getElem? he
    rw [he]
    simp only [Option.map_some, Option.getD_some]
    have hm' : (readOf co js).excTable[k] ∈ parseExcTable co.exctable := hm
    rw [parseExcTable_regions] at hm'
    obtain ⟨r, hr, hre⟩ := List.mem_map.1 hm'
    obtain ⟨f, hf, hx⟩ := (hok.region r hr).2.2.2
    rw [h.fetch_] at hf
    have htgt : (readOf co js).excTable[k].target = (f.first : Int) := by rw [← hre]; simp [entryOf, hx]
    refine ⟨f.first, (hlab _).2 ⟨fetched_start h11 js 0 f hf, ?_⟩, htgt.symm⟩
    rw [← htgt]
    exact List.mem_append_right _ (List.mem_map.2 ⟨_, hm, rfl⟩)
  rw [hj, ht]
  exact ⟨_, rfl⟩

end
end Verif
