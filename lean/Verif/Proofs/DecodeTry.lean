import Verif.Props.ToBytecode
import Verif.Proofs.ProgCode
import Verif.Props.CfgConv
/-
The loop of `to_bytecode`: the option `conserve_exception_block_stackdepth` only changes the depths; the try markers delimit
regions; the targets of jumps are labels.
-/
namespace Verif
open Spec
section
variable {κ : Type} [DecidableEq κ] {P : Platform} {key : Arg → κ} {c : Concrete}

/-! ### conserve_exception_block_stackdepth -/

/-- A TryBegin without depth. -/
def forget : BElem → BElem
  | .tryBegin t => .tryBegin { t with depth := none }
  | e => e

theorem mkTry_forget (c : Concrete) (k : Nat) : mkTry c false k = (mkTry c true k).map forget := by
  unfold mkTry
  cases c.excTable[k]? <;> rfl

theorem close_forget (c : Concrete) (l : List Nat) : ∀ tbs,
    closeEntries c false tbs l = ((closeEntries c true tbs l).1.map forget, (closeEntries c true tbs l).2) := by
  induction l with
  | nil => intro tbs; rfl
  | cons k l ih =>
    intro tbs
    unfold closeEntries
    split
    · rw [ih]; rfl
    · rw [ih, mkTry_forget]; simp [forget]

theorem open_forget (c : Concrete) (tbs : List Nat) (off : Nat) :
    openEntry c false tbs off = ((openEntry c true tbs off).1.map forget, (openEntry c true tbs off).2) := by
  unfold openEntry
  split
  · split
    · rfl
    · rw [mkTry_forget]
  · rfl

theorem decodeInstr_forget {prune : Bool} {off lineno : Nat} {ci : CInstr} {main : List BElem}
    (h : decodeInstr P c prune off lineno ci = .ok main) : main.map forget = main := by
  unfold decodeInstr at h
  simp only at h
  split at h
  · obtain ⟨_, _, h⟩ := except_bind_ok h
    simp only [pure, Except.pure, Except.ok.injEq] at h
    subst h; rfl
  · obtain ⟨arg, h1, h⟩ := except_bind_ok h
    obtain ⟨loc, h2, h⟩ := except_bind_ok h
    obtain ⟨i, h3, h⟩ := except_bind_ok h
    simp only [pure, Except.pure, Except.ok.injEq] at h
    subst h; rfl

theorem loop_forget {prune : Bool} {targets : List Int} (l : List (Nat × CInstr)) : ∀ off tbs,
    decodeLoop P c prune false targets off tbs l =
      (decodeLoop P c prune true targets off tbs l).map (fun d => { d with elems := d.elems.map forget }) := by
  induction l with
  | nil => intro off tbs; rfl
  | cons p l ih =>
    intro off tbs
    obtain ⟨lineno, ci⟩ := p
    unfold decodeLoop
    simp only [open_forget, close_forget]
    cases hm : decodeInstr P c prune off lineno ci with
    | error e => rfl
    | ok main =>
      simp only [bind, Except.bind, ih]
      cases decodeLoop P c prune true targets (off + (ci.units P - P.unit) + P.unit)
        (closeEntries c true (openEntry c true tbs off).2 (exEnd c (off + (ci.units P - P.unit))).reverse).2 l with
      | error e => rfl
      | ok d =>
        simp only [Except.map, pure, Except.pure, List.map_append, decodeInstr_forget hm]
        congr 3
        split <;> rfl

/-- The option only changes the depths. -/
theorem toBytecode_forget (prune : Bool) (c : Concrete) :
    toBytecode P prune false c = (toBytecode P prune true c).map (fun b => { b with elems := b.elems.map forget }) := by
  unfold toBytecode
  cases removeExtendedArgs P 0 none c.elems with
  | error e => rfl
  | ok es =>
    simp only [bind, Except.bind, loop_forget]
    cases pyAssert (decide ((c.excTable.map (·.start)).Nodup)) with
    | error e => rfl
    | ok u =>
      simp only
      cases decodeLoop P c prune true (jumpTargets P 0 es ++ c.excTable.map (·.target)) 0 [] (normalizeLineno c.attrs.firstLineno es) with
      | error e => rfl
      | ok d =>
        simp only [Except.map]
        split
        · rfl
        · split
          · rfl
          · rfl

theorem forget_zero (e : BElem) : zeroDepth (forget e) = zeroDepth e := by cases e <;> rfl

theorem forget_wellTried (es : List BElem) : ∀ o s a, WellTried o s a (es.map forget) ↔ WellTried o s a es := by
  induction es with
  | nil => intro o s a; rfl
  | cons e es ih => intro o s a; cases e <;> simp only [List.map_cons, forget, WellTried, ih]

/-! ### Labels only -/

theorem argOK_block {op x : Nat} (h : ArgOK P op (.block x)) : P.hasJump op = true := by
  cases hj : P.hasJump op with
  | true => rfl
  | false =>
    exfalso
    have hA := h.present.2 (by simp)
    by_cases h1 : P.hasfree op = true
    · rcases h.free h1 with ⟨n, e⟩ | ⟨n, e⟩ <;> cases e
    by_cases hd : P.dual op = true
    · obtain ⟨_, _, e, _⟩ := h.dual hd; cases e
    by_cases h2 : P.haslocal op = true
    · rcases h.local_ h2 (by simpa using hd) with ⟨n, e⟩ | ⟨_, ⟨n, e⟩ | ⟨n, e⟩⟩ <;> cases e
    by_cases hb : P.bitflag op = true
    · obtain ⟨_, _, e⟩ := h.flag hb; cases e
    by_cases hb2 : P.bitflag2 op = true
    · obtain ⟨_, _, _, e⟩ := h.flag2 hb2; cases e
    by_cases h3 : P.hasname op = true
    · obtain ⟨_, e⟩ := h.name h3 (by simpa using hb) (by simpa using hb2); cases e
    by_cases h4 : P.hasconst op = true
    · exact (h.const h4).2 x rfl
    by_cases h5 : P.hascompare op = true
    · obtain ⟨_, e⟩ := h.compare h5; cases e
    by_cases h6 : P.intrinsic1 op = true
    · obtain ⟨_, e⟩ := h.intr1 h6; cases e
    by_cases h7 : P.intrinsic2 op = true
    · obtain ⟨_, e⟩ := h.intr2 h7; cases e
    obtain ⟨v, e, _⟩ := h.int (by simp [*]) hA
    cases e

theorem loop_decoded {prune conserve : Bool} {targets : List Int} (l : List (Nat × CInstr)) (hv : ∀ p ∈ l, 2 ≤ p.2.size) (off : Nat) (tbs : List Nat) (d : Dec)
    (h : decodeLoop P c prune conserve targets off tbs l = .ok d) (i : Instr) (hi : .instr i ∈ d.elems) :
    ∃ p ∈ l, ∃ off' main, decodeInstr P c prune off' p.1 p.2 = .ok main ∧ .instr i ∈ main := by
  induction l generalizing off tbs d with
  | nil =>
    simp only [decodeLoop, Except.ok.injEq] at h
    subst h; simp at hi
  | cons p l ih =>
    obtain ⟨main, d', h1, h2, h3, _⟩ := loop_cons h (hv p (by simp))
    rw [h3] at hi
    simp only [List.mem_append] at hi
    rcases hi with hi | hi | hi | hi | hi
    · split at hi <;> simp at hi
    · have := open_marker _ _ _ hi; simp [isMarker] at this
    · exact ⟨p, by simp, off, main, h1, hi⟩
    · have := close_marker _ _ _ hi; simp [isMarker] at this
    · obtain ⟨q, hq, r⟩ := ih (fun q hq => hv q (by simp [hq])) _ _ d' h2 hi
      exact ⟨q, by simp [hq], r⟩

theorem toBytecode_labelsOnly {prune conserve : Bool} {b : Bytecode} (hP : P.WF) (hv : ∀ ci, .instr ci ∈ c.elems → ValidCInstr P ci)
    (h : toBytecode P prune conserve c = .ok b) : LabelsOnly b := by
  intro i hi x
  obtain ⟨es', d, h1, h2, h3, h4, h5⟩ := toBytecode_ok h
  have hve := removeExtendedArgs_valid P _ hv _ _ _ h1
  rw [h5] at hi
  obtain ⟨p, hp, off, main, hm, hin⟩ := loop_decoded _ (fun p hp => valid_size (hve _ (normalize_mem _ _ p hp))) _ _ d h2 i hi
  have hvp := hve _ (normalize_mem _ _ p hp)
  rcases decodeInstr_ok hP hvp hm with ⟨_, _, rfl⟩ | ⟨i', rfl, hvi, hn, ho, hl, arg, ha, hia⟩
  · simp at hin
  · simp only [List.mem_singleton, BElem.instr.injEq] at hin
    subst hin
    intro hx
    have hok := hvi.arg_ok
    rw [hx] at hok
    have hj := argOK_block hok
    rw [ho] at hj
    obtain ⟨t, ht⟩ := hasJump_target hP hvp off hj
    rw [ht, hx] at hia
    cases hia

/-! ### Regions -/

/-- The try markers of the result delimit regions. `any`: an instruction was met. -/
theorem loop_wellTried (hP : P.WF) {prune : Bool} {targets : List Int}
    (hne : ∀ e ∈ c.excTable, e.start ≤ e.stop) (hd : c.excTable.Pairwise (fun e f => e.stop < f.start ∨ f.stop < e.start))
    (es : List CElem)
    (hv : ∀ ci, .instr ci ∈ es → ValidCInstr P ci) (line off : Nat) (tbs : List Nat) (d : Dec)
    (h : decodeLoop P c prune true targets off tbs (normalizeLineno line es) = .ok d)
    (hst : ∀ e ∈ c.excTable, e.start < (off : Int) ∨ ∃ k ∈ starts P off es, e.start = (k : Int))
    (hsp : ∀ e ∈ c.excTable, e.stop < (off : Int) ∨ ∃ k ∈ opcodeOffsets P off es, e.stop = (k : Int))
    (tr : Option TryB) (hI : TryInv c off tbs tr) (seen : List Nat) (hseen : ∀ k ∈ seen, k ∈ tbs) (any : Bool)
    (hany : any = true ∨ prune = false ∨ ∀ p, (normalizeLineno line es).head? = some p → p.2.name ≠ "CACHE") :
    WellTried (tr.map (·.id)) seen any d.elems := by
  induction es generalizing line off tbs d tr seen any with
  | nil =>
    simp only [normalizeLineno, decodeLoop, Except.ok.injEq] at h
    subst h
    cases ht : tr with
    | none => rfl
    | some t =>
      exfalso
      obtain ⟨k, e, g1, _, g3, g4⟩ := hI.only t ht
      rcases hsp e (List.mem_of_getElem? g1) with hx | ⟨k, hk, _⟩
      · omega
      · simp [opcodeOffsets] at hk
  | cons e es ih =>
    cases e with
    | setLineno l =>
      rw [normalizeLineno] at h
      exact ih (fun ci hci => hv ci (by simp [hci])) l off tbs d h hst hsp tr hI seen hseen any hany
    | instr ci =>
      rw [normalizeLineno] at h
      have hci := hv ci (by simp)
      obtain ⟨main, d', h1, h2, h3, _, _, h6⟩ := loop_cons h (valid_size hci)
      rw [h3]
      have hw := width_ge (P := P) (valid_size hci)
      have hsz : ∀ ci, .instr ci ∈ es → 2 ≤ ci.size := fun ci hci => valid_size (hv ci (by simp [hci]))
      generalize hu : off + ci.units P - P.unit = u at *
      have hu' : off + width P ci - (if P.py310 then 1 else 2) = u := hu
      have hnext : u + (if P.py310 then 1 else 2) = off + width P ci := by omega
      have hpos : 1 ≤ (if P.py310 then 1 else 2) := by split <;> omega
      have hou : off ≤ u := by omega
      have hst' : ∀ e ∈ c.excTable, e.start < (off : Int) ∨ e.start = (off : Int) ∨ ∃ k ∈ starts P (off + width P ci) es, e.start = (k : Int) := by
        intro e he
        rcases hst e he with hx | ⟨k, hk, hx⟩
        · exact .inl hx
        · simp only [starts, List.mem_cons] at hk
          rcases hk with hk | hk
          · rw [hk] at hx; exact .inr (.inl hx)
          · exact .inr (.inr ⟨k, hk, hx⟩)
      have hsp' : ∀ e ∈ c.excTable, e.stop < (off : Int) ∨ e.stop = (u : Int) ∨ ∃ k ∈ opcodeOffsets P (off + width P ci) es, e.stop = (k : Int) := by
        intro e he
        rcases hsp e he with h | ⟨k, hk, h⟩
        · exact .inl h
        · simp only [opcodeOffsets, List.mem_cons, hu'] at hk
          rcases hk with rfl | hk
          · exact .inr (.inl h)
          · exact .inr (.inr ⟨k, hk, h⟩)
      have hst2 : ∀ e ∈ c.excTable, e.start ≤ (off : Int) ∨ ((off + width P ci : Nat) : Int) ≤ e.start := by
        intro e he
        rcases hst' e he with h | h | ⟨k, hk, h⟩
        · left; omega
        · left; omega
        · right; have := starts_ge es _ k hk; omega
      have hsp2 : ∀ e ∈ c.excTable, e.stop < (off : Int) ∨ e.stop = (u : Int) ∨ ((off + width P ci : Nat) : Int) ≤ e.stop := by
        intro e he
        rcases hsp' e he with h | h | ⟨k, hk, h⟩
        · exact .inl h
        · exact .inr (.inl h)
        · right; right; have := opcodes_ge es hsz _ k hk; omega
      obtain ⟨tr1, seen1, hwt1, hseen1, hmade1, honly1, hall1⟩ : ∃ tr1 seen1, (∀ a r, WellTried (tr1.map (·.id)) seen1 a r → WellTried (tr.map (·.id)) seen a ((openEntry c true tbs off).1 ++ r)) ∧
          (∀ k ∈ seen1, k ∈ (openEntry c true tbs off).2) ∧
          (∀ k (e : ExcEntry), c.excTable[k]? = some e → (k ∈ (openEntry c true tbs off).2 ↔ e.start ≤ (off : Int))) ∧
          (∀ t, tr1 = some t → ∃ k, ∃ e : ExcEntry, c.excTable[k]? = some e ∧ t = tryOf k e ∧ e.start ≤ (off : Int) ∧ (off : Int) ≤ e.stop) ∧
          (∀ k (e : ExcEntry), c.excTable[k]? = some e → e.start ≤ (off : Int) → (off : Int) ≤ e.stop → tr1 = some (tryOf k e)) := by
        unfold openEntry
        cases hx : exStart c off with
        | none =>
          have hno : ∀ e ∈ c.excTable, e.start ≠ (off : Int) := by
            intro e he
            unfold exStart at hx
            rw [List.findIdx?_eq_none_iff] at hx
            simpa using hx e he
          refine ⟨tr, seen, fun a r hr => hr, hseen, ?_, ?_, ?_⟩
          · intro k e he
            rw [hI.made k e he]
            have := hno e (List.mem_of_getElem? he); omega
          · intro t ht
            obtain ⟨k, e, h1, h2, h3, h4⟩ := hI.only t ht
            exact ⟨k, e, h1, h2, by omega, h4⟩
          · intro k e he h1 h2
            have := hno e (List.mem_of_getElem? he)
            exact hI.all k e he (by omega) h2
        | some k =>
          unfold exStart at hx
          obtain ⟨hkl, hk, _⟩ := List.findIdx?_eq_some_iff_getElem.1 hx
          have hke : c.excTable[k]? = some c.excTable[k] := List.getElem?_eq_getElem hkl
          have hks : c.excTable[k].start = (off : Int) := by simpa using hk
          have hkn := hne _ (List.mem_of_getElem? hke)
          have hnot : k ∉ tbs := by rw [hI.made k _ hke]; omega
          have hno : tr = none := by
            cases ht : tr with
            | none => rfl
            | some t =>
              exfalso
              obtain ⟨j, e, g1, _, g3, g4⟩ := hI.only t ht
              have := entry_unique hd g1 hke (x := (off : Int)) (by omega) (by omega)
              subst this
              rw [hke] at g1; cases g1; omega
          simp only [if_neg hnot, mkTry, hke]
          refine ⟨some (tryOf k c.excTable[k]), k :: seen, ?_, ?_, ?_, ?_, ?_⟩
          · intro a r hr
            rw [hno]
            exact ⟨rfl, fun hm => hnot (hseen k hm), hr⟩
          · intro j hj
            rcases List.mem_cons.1 hj with rfl | hj
            · simp
            · simp [hseen j hj]
          · intro j e he
            rw [List.mem_cons, hI.made j e he]
            constructor
            · rintro (rfl | h)
              · rw [hke] at he; cases he; omega
              · omega
            · intro h
              by_cases hs : e.start = (off : Int)
              · left
                have hen := hne _ (List.mem_of_getElem? he)
                exact entry_unique hd he hke (x := (off : Int)) (by omega) (by omega)
              · right; omega
          · intro t ht
            cases ht
            exact ⟨k, _, hke, rfl, by omega, by omega⟩
          · intro j e he h1 h2
            have := entry_unique hd he hke (x := (off : Int)) (by omega) (by omega)
            subst this
            rw [hke] at he; cases he; rfl
      have hclose := close_all (c := c) (conserve := true) (exEnd c u).reverse (openEntry c true tbs off).2 (by
        intro k hk
        rw [List.mem_reverse, mem_exEnd] at hk
        obtain ⟨e, he, hes⟩ := hk
        have hm := List.mem_of_getElem? he
        have := hne e hm
        have := hst2 e hm
        exact (hmade1 k e he).2 (by omega))
      rw [hclose] at h2 ⊢
      have hI2 : TryInv c (off + width P ci) (openEntry c true tbs off).2 (if (exEnd c u).reverse = [] then tr1 else none) := by
        refine ⟨?_, ?_, ?_⟩
        · intro k e he
          rw [hmade1 k e he]
          have := hst2 e (List.mem_of_getElem? he); omega
        · intro t ht
          split at ht
          · rename_i hnil
            obtain ⟨k, e, g1, g2, g3, g4⟩ := honly1 t ht
            refine ⟨k, e, g1, g2, by omega, ?_⟩
            have hns : e.stop ≠ (u : Int) := by
              intro hs
              have : k ∈ (exEnd c u).reverse := by rw [List.mem_reverse, mem_exEnd]; exact ⟨e, g1, hs⟩
              rw [hnil] at this; simp at this
            have := hsp2 e (List.mem_of_getElem? g1); omega
          · simp at ht
        · intro k e he g1 g2
          have hm := List.mem_of_getElem? he
          have := hst2 e hm
          have ht1 := hall1 k e he (by omega) (by omega)
          split
          · exact ht1
          · rename_i hnil
            exfalso
            obtain ⟨j, hj⟩ := List.exists_mem_of_ne_nil _ hnil
            rw [List.mem_reverse, mem_exEnd] at hj
            obtain ⟨f, hf, hfs⟩ := hj
            have hfn := hne f (List.mem_of_getElem? hf)
            have := entry_unique hd he hf (x := (u : Int)) (by omega) (by omega)
            subst this
            rw [hf] at he; cases he; omega
      have ih' := fun any' hany' => ih (fun ci hci => hv ci (by simp [hci])) _ _ _ d' h2
        (by intro e he
            rcases hst' e he with h | h | h
            · left; simp only [width_units] at *; omega
            · left; rw [← width_units]; omega
            · right; exact h)
        (by intro e he
            rcases hsp' e he with h | h | h
            · left; rw [← width_units]; omega
            · left; rw [← width_units]; omega
            · right; exact h)
        _ hI2 seen1 hseen1 any' hany'
      -- the TryEnd
      have hends : ∀ r, WellTried ((if (exEnd c u).reverse = [] then tr1 else none).map (·.id)) seen1 true r →
          WellTried (tr1.map (·.id)) seen1 true ((exEnd c u).reverse.map .tryEnd ++ r) := by
        intro r hr
        have hlen : ∀ j ∈ (exEnd c u).reverse, tr1.map (·.id) = some j := by
          intro j hj
          rw [List.mem_reverse, mem_exEnd] at hj
          obtain ⟨f, hf, hfs⟩ := hj
          have hfm := List.mem_of_getElem? hf
          have hfn := hne f hfm
          have := hst2 f hfm
          rw [hall1 j f hf (by omega) (by omega)]
          rfl
        have hnd : (exEnd c u).reverse.Nodup := by
          rw [List.nodup_reverse]
          unfold exEnd
          exact List.nodup_range.filter _
        generalize (exEnd c u).reverse = l at *
        cases l with
        | nil => simpa using hr
        | cons j l =>
          cases l with
          | cons j' l =>
            exfalso
            have e1 := hlen j (by simp)
            have e2 := hlen j' (by simp)
            rw [e1] at e2
            cases e2
            simp at hnd
          | nil =>
            exact ⟨hlen j (by simp), rfl, by simpa using hr⟩
      have hlab : ∀ o s a r, WellTried o s a r → WellTried o s a ((if (off : Int) ∈ targets then [BElem.label off] else []) ++ r) := by
        intro o s a r hr; split <;> exact hr
      apply hlab
      apply hwt1
      rcases decodeInstr_ok hP hci h1 with ⟨hn, hp, rfl⟩ | ⟨i, rfl, hvi, hn, ho, hl, arg, ha, hia⟩
      · have : any = true := by
          rcases hany with h | h | h
          · exact h
          · rw [h] at hp; cases hp
          · exact absurd hn (h _ rfl)
        subst this
        exact hends _ (ih' true (.inl rfl))
      · exact hends _ (ih' true (.inl rfl))

/-- The result of `to_bytecode` has well delimited try regions. -/
theorem toBytecode_wellTried {prune conserve : Bool} {b : Bytecode} {es : List CElem} (hP : P.WF) (hv : ∀ ci, .instr ci ∈ c.elems → ValidCInstr P ci)
    (h : toBytecode P prune conserve c = .ok b) (hes : removeExtendedArgs P 0 none c.elems = .ok es) (hT : TableOK P { c with elems := es })
    (hfirst : prune = false ∨ ∀ p, (normalizeLineno c.attrs.firstLineno es).head? = some p → p.2.name ≠ "CACHE") :
    WellTried none [] false b.elems := by
  have main : ∀ b', toBytecode P prune true c = .ok b' → WellTried none [] false b'.elems := by
    intro b' h
    obtain ⟨es', d, h1, h2, h3, h4, h5⟩ := toBytecode_ok h
    rw [hes] at h1; cases h1
    have hve := removeExtendedArgs_valid P _ hv _ _ _ hes
    rw [h5]
    refine loop_wellTried (c := c) hP hT.nonempty hT.disjoint es hve _ 0 [] d h2 ?_ ?_ none ?_ [] (by simp) false (.inr hfirst)
    · intro e he; right; exact hT.start_ e he
    · intro e he; right; exact hT.stop_ e he
    · refine ⟨?_, by simp, ?_⟩
      · intro k e he
        obtain ⟨j, _, hj⟩ := hT.start_ e (List.mem_of_getElem? he)
        simp; omega
      · intro k e he hx
        obtain ⟨j, _, hj⟩ := hT.start_ e (List.mem_of_getElem? he)
        omega
  cases conserve with
  | true => exact main b h
  | false =>
    rw [toBytecode_forget] at h
    cases hx : toBytecode P prune true c with
    | error e => rw [hx] at h; cases h
    | ok b' =>
      rw [hx] at h
      simp only [Except.map, Except.ok.injEq] at h
      rw [← h, forget_wellTried]
      exact main b' hx

end
end Verif
