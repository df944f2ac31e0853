import Verif.Proofs.StackReasons
/-
The analysis succeeds on graphs with a safe stack map.
-/
namespace Verif
open Spec

/-- Neither RuntimeError nor AssertionError. -/
def NoErr (e : PyErr) : Prop := e ≠ .runtimeError ∧ e ≠ .assertionError

theorem EGood.bindEq {α β : Type} {E : PyErr → Prop} {Q : α → Prop} {Q' : β → Prop} {x : Py α} {f : α → Py β} (hx : EGood E Q x)
    (hf : ∀ a, x = .ok a → EGood E Q' (f a)) : EGood E Q' (x >>= f) := by
  cases x with
  | ok a => exact hf a rfl
  | error e => exact hx

def RecT (env : SizeEnv) (M : StackMap) (N : Int) (rec : Visit) : Prop :=
  ∀ X size mx mn h pend st k, VPre env M N k X size mx mn h pend st → (h ≠ none → 0 ≤ size) →
    EGood NoErr (fun _ => True) (rec X size mx mn h pend st)

section
variable {env : SizeEnv} {M : StackMap} {N k : Int} {rec : Visit}

theorem handlerUsage_T (hS : M.Safe env.P env.eff env.c) (hrec : RecT env M N rec) (hk : 0 ≤ k)
    {s : SizeLoc} {t : TryB} {f : Bool} {st : SizeSt} (hreg : RegOK env M k s.min (some (t, f))) (hinv : MInv env M st)
    (hbefore : ∀ Z ∈ M.before t.target, Z ∈ st.seen) (hseen : k = 0 → ∀ Z ∈ st.seen, Real M st Z) :
    EGood NoErr (fun _ => True) (handlerUsage env rec s t.target t.lasti st) := by
  obtain ⟨r1, r2, r3, r4⟩ := hreg t f rfl
  unfold handlerUsage
  split
  · split
    · have hpre : VPre env M N (s.min - M.base t.target) t.target s.min s.max s.min (some t.lasti) none st := by
        refine ⟨by omega, hinv, ⟨_, none, none, r3, ?_, rfl, ?_, .inr (.inl rfl), Known.none _, ?_, fun _ => rfl⟩, hbefore, ?_⟩
        · simp only [pushed]; omega
        · intro u f hu; cases hu
        · intro hh; cases hh
        · intro h0; exact hseen (by omega)
      refine EGood.bind (hrec _ _ _ _ _ _ _ _ hpre (fun _ => ?_)) fun _ _ => trivial
      have := hS.base t.target
      omega
    · trivial
  · exact ⟨by simp, by simp⟩

theorem final_T (hS : M.Safe env.P env.eff env.c) (hrec : RecT env M N rec) (hk : 0 ≤ k) {b : Nat}
    {l : List BElem} {s : SizeLoc} {st : SizeSt} {r : InTry}
    (hloc : ∀ p, r = some p → (nextEnd l).isSome → RegOK env M k s.min r)
    (hown : ∀ id, nextEnd l = some id → ∃ p, r = some p ∧ p.1.id = id)
    (hend : (nextEnd l).isSome → M.EndIn b r)
    (hinv : MInv env M st) (hsub : ∀ Z, Z = b ∨ Z ∈ M.before b → Z ∈ st.seen)
    (hseen : k = 0 → ∀ Z ∈ st.seen, Real M st Z) : EGood NoErr (fun _ => True) (finalTryEnd env rec s l st) := by
  unfold finalTryEnd
  rw [nextEnd_eq]
  cases hn : nextEnd l with
  | none => trivial
  | some id =>
    obtain ⟨⟨u, f⟩, hr, hid⟩ := hown id hn
    have hreg := hloc _ hr (by rw [hn]; rfl)
    rw [hr] at hreg
    obtain ⟨_, _, _, hfind⟩ := hreg u f rfl
    simp only at hid
    subst hid
    simp only [hfind]
    exact handlerUsage_T hS hrec hk hreg hinv (handler_before (hend (by rw [hn]; rfl)) hsub hr) hseen

theorem uncond_T (hS : M.Safe env.P env.eff env.c) (hrec : RecT env M N rec) (hk : 0 ≤ k) {b : Nat}
    {l : List BElem} {s : SizeLoc} {st : SizeSt} {r : InTry} (hcur : s.cur = r.map Prod.fst) (hreg : RegOK env M k s.min r)
    (hend : (nextEnd l).isSome → M.EndIn b r)
    (hinv : MInv env M st) (hsub : ∀ Z, Z = b ∨ Z ∈ M.before b → Z ∈ st.seen)
    (hseen : k = 0 → ∀ Z ∈ st.seen, Real M st Z) : EGood NoErr (fun _ => True) (uncondTryEnd env rec s l st) := by
  unfold uncondTryEnd
  rw [nextEnd_eq, hcur]
  cases hn : nextEnd l with
  | none => trivial
  | some id =>
    cases hr : r with
    | none => trivial
    | some p =>
      obtain ⟨u, f⟩ := p
      simp only [Option.map_some]
      split
      · exact handlerUsage_T hS hrec hk (by rw [← hr]; exact hreg) hinv (handler_before (hend (by rw [hn]; rfl)) hsub hr) hseen
      · trivial

theorem update_T {s : SizeLoc} {e : Int × Int} (h : 0 ≤ s.size + e.1) : ∃ s', s.update e = .ok s' := by
  unfold SizeLoc.update
  rw [if_neg (by omega)]
  exact ⟨_, rfl⟩

theorem runElems_T (hZ : Sizeable env.P env.eff env.c) (hS : M.Safe env.P env.eff env.c) (hrec : RecT env M N rec) (hrecM : RecM env M N rec)
    (hk : 0 ≤ k) {b : Nat} (hb : b ∈ env.c.blocks) (hu : UniqueTry env.c) :
    ∀ (es : List BElem) (s : SizeLoc) (st : SizeSt) (d : Int) (r : InTry) (q : Option TryB),
    (∀ x ∈ es, x ∈ (env.c.heap b).elems) → (∃ pre, (env.c.heap b).elems = pre ++ es) →
    M.Describes env.P env.eff env.c b es d r q → M.SafeFrom env.P env.eff es d r → LocOK env M N k s d r → Known st r → MInv env M st →
    (∀ Z, Z = b ∨ Z ∈ M.before b → Z ∈ st.seen) → (k = 0 → ∀ Z ∈ st.seen, Real M st Z) →
    EGood NoErr (fun _ => True) (runElems env rec b es s st) := by
  intro es
  induction es with
  | nil =>
    intro s st d r q _ _ hD hP hloc hkn hinv hsub hseen
    unfold runElems runEnd
    cases hn : (env.c.heap b).next with
    | none => trivial
    | some n =>
      obtain ⟨hne, hE⟩ := hD n hn
      simp only
      split
      · trivial
      · rw [hloc.cur]
        exact EGood.bind (hrec _ _ _ _ _ _ _ _ (Enters.pre hE hk hinv hsub hseen hloc.size hloc.reg hloc.max hkn) (fun h => absurd rfl h)) fun _ _ => trivial
  | cons x l ih =>
    intro s st d r q hmem hpre hD hP hloc hkn hinv hsub hseen
    obtain ⟨pre, hpre⟩ := hpre
    have hpre' : ∃ pre, (env.c.heap b).elems = pre ++ l := ⟨pre ++ [x], by simp [hpre]⟩
    have hmem' : ∀ x ∈ l, x ∈ (env.c.heap b).elems := fun x hx => hmem x (List.mem_cons_of_mem _ hx)
    have hck : blkCheck env.P x l = .ok () := blkIter_suffix pre (by rw [← hpre]; exact hZ.iter hb)
    unfold runElems
    rw [hck]
    simp only [bind, Except.bind]
    cases x with
    | label n => simp [blkCheck] at hck
    | setLineno n => exact ih s st d r q hmem' hpre' hD hP hloc hkn hinv hsub hseen
    | tryBegin t =>
      obtain ⟨hh, hlow, hD⟩ := hD
      obtain ⟨hr, hP⟩ := hP
      subst hr
      have hcur : s.cur = none := hloc.cur
      simp only [hcur, pyAssert, Option.isNone_none, if_true]
      have hst : MInv env M { st with tries := st.tries ++ [t] } := by
        refine ⟨hinv.low, hinv.lockReal, hinv.blocks, ?_⟩
        intro u hu'
        rcases List.mem_append.1 hu' with hu' | hu'
        · exact hinv.tries u hu'
        · simp only [List.mem_singleton] at hu'
          subst hu'
          exact ⟨findTry_unique hu hb (hmem _ (by simp)), hh⟩
      have hkn' : Known { st with tries := st.tries ++ [t] } (some (t, decide (d = M.base t.target))) := by
        intro u f huf
        simp only [Option.some.injEq, Prod.mk.injEq] at huf
        obtain ⟨rfl, _⟩ := huf
        simp
      have hloc' : LocOK env M N k { s with cur := some t, min := s.size } d (some (t, decide (d = M.base t.target))) := by
        refine ⟨hloc.size, rfl, ?_, hloc.max⟩
        intro u f huf
        simp only [Option.some.injEq, Prod.mk.injEq] at huf
        obtain ⟨rfl, rfl⟩ := huf
        have := hloc.size
        refine ⟨by simp only; omega, ?_, hh, findTry_unique hu hb (hmem _ (by simp))⟩
        simp only [decide_eq_true_eq]
        omega
      exact ih _ _ d _ _ hmem' hpre' hD hP hloc' hkn' hst hsub hseen
    | tryEnd id =>
      obtain ⟨hend, hD⟩ := hD
      have hP : M.SafeFrom env.P env.eff l d (closeTry r id) := hP
      simp only
      rw [hloc.cur]
      cases hr : r with
      | none =>
        simp only [Option.map_none]
        rw [hr] at hD hloc hP
        exact ih s st d none _ hmem' hpre' hD hP hloc (Known.none _) hinv hsub hseen
      | some p =>
        obtain ⟨u, f⟩ := p
        simp only [Option.map_some]
        split
        · rename_i hid
          have hreg := hloc.reg
          rw [hr] at hreg
          have hcl : closeTry r id = none := by rw [hr]; simp [closeTry, hid]
          rw [hcl] at hD hP
          have hbefore := handler_before (hend _ hr hid) hsub hr
          have hloc' : LocOK env M N k { s with cur := none } d none := ⟨hloc.size, rfl, RegOK.none, hloc.max⟩
          have := EGood.bindEq (Q' := fun _ => True) (f := fun st => runElems env rec b l { s with cur := none } st)
            (handlerUsage_T hS hrec hk hreg hinv hbefore hseen) (fun st1 hv => by
              obtain ⟨p1, p2, p3⟩ := handlerUsage_M hrecM hk hreg hinv hbefore hseen hv
              exact ih _ st1 d none _ hmem' hpre' hD hP hloc' (Known.none _) p1.inv (by rw [p2]; exact hsub)
                (by rw [p2]; exact fun h0 Z hZ => p1.mono.real (hseen h0 Z hZ)))
          exact this
        · rename_i hid
          have hcl : closeTry r id = r := by rw [hr]; simp [closeTry, hid]
          rw [hcl] at hD hP
          exact ih s st d r _ hmem' hpre' hD hP hloc hkn hinv hsub hseen
    | instr i =>
      obtain ⟨hsame, hown, hend, hjmp, hfallD⟩ := hD
      obtain ⟨hPj, hPf⟩ := hP
      have hi : BElem.instr i ∈ allCode env.c := mem_allCode hb (hmem _ (by simp))
      have hfall : ∀ (s1 : SizeLoc) (st1 : SizeSt), LocOK env M N k s1 d r → Known st1 r → MInv env M st1 → st1.seen = st.seen →
          (k = 0 → ∀ Z ∈ st1.seen, Real M st1 Z) → (env.P.hasJump i.opcode && isUncondJump i.name) = false →
          EGood NoErr (fun _ => True) (do
            let e ← env.eff i false
            let s ← s1.update e
            if isFinal i.name then do
              let st ← finalTryEnd env rec s l st1
              leaveBlock b s st
            else runElems env rec b l s st1) := by
        intro s1 st1 hloc1 hkn1 hinv1 hseen1 hsr hnu
        obtain ⟨e, he⟩ := hZ.fall i hi hnu
        obtain ⟨h0, hP'⟩ := hPf hnu e he
        obtain ⟨hF, hNF⟩ := hfallD hnu e he
        have hsub1 : ∀ Z, Z = b ∨ Z ∈ M.before b → Z ∈ st1.seen := by rw [hseen1]; exact hsub
        obtain ⟨s2, hup⟩ := update_T (s := s1) (e := e) (by have := hloc1.size; omega)
        simp only [he, hup, bind, Except.bind]
        split
        · rename_i hfin
          obtain ⟨u1, u2, u3, u4⟩ := SizeLoc.update_ok hup
          have hs2 : s2.size = d + e.1 + e.2 + k := by rw [u2, hloc1.size]; omega
          have hf := final_T (b := b) (l := l) (s := s2) (st := st1) (r := M.touch (d + e.1 + e.2) r) hS hrec hk ?_ ?_ ?_ hinv1 hsub1 hsr
          · exact EGood.bind (Q' := fun _ => True) (f := fun st => leaveBlock b s2 st) hf (fun _ _ => trivial)
          · intro p hp hsome
            rw [SizeLoc.update_min hup]
            exact hloc1.reg.touch hs2 (hF hfin hsome)
          · intro id hid
            obtain ⟨p, hp, hpid⟩ := hown hfin id hid
            exact ⟨(p.1, p.2 || decide (d + e.1 + e.2 = M.base p.1.target)), by rw [hp]; rfl, hpid⟩
          · intro hsome p hp
            cases hr : r with
            | none => rw [hr] at hp; cases hp
            | some p0 =>
              rw [hr] at hp
              simp only [StackMap.touch, Option.map_some, Option.some.injEq] at hp
              subst hp
              exact hend hfin hsome p0 hr
        · rename_i hfin
          have hfin' : isFinal i.name = false := by simpa using hfin
          obtain ⟨hlow, hDl⟩ := hNF hfin'
          exact ih s2 st1 _ _ q hmem' hpre' hDl (hP' hfin') (hloc1.update hup hlow) hkn1.touch hinv1 hsub1 hsr
      simp only
      split
      · rename_i hj
        obtain ⟨_, t, htb, harg⟩ := hZ.rules.jumps b hb pre i l hpre hj
        obtain ⟨e, he⟩ := hZ.jump i hi hj
        obtain ⟨hlow, hE⟩ := hjmp hj t e harg he
        obtain ⟨tk, hup⟩ := update_T (s := s) (e := e) (by have := hloc.size; have := hPj hj e he; omega)
        obtain ⟨u1, u2, u3, u4⟩ := SizeLoc.update_ok hup
        have hmin := SizeLoc.update_min hup
        have htk : tk.size = d + e.1 + e.2 + k := by rw [u2, hloc.size]; omega
        have hpend : (if (isFinal i.name && (nextEnd l).isSome) = true then none else s.cur) =
            (if (isFinal i.name && (nextEnd l).isSome) = true then none else M.touch (d + e.1 + e.2) r : InTry).map Prod.fst := by
          split
          · rfl
          · rw [hloc.cur]
            cases r <;> rfl
        have hreg : RegOK env M k tk.min (if (isFinal i.name && (nextEnd l).isSome) = true then none else M.touch (d + e.1 + e.2) r) := by
          split
          · exact RegOK.none
          · rename_i hc
            rw [if_neg hc] at hlow
            rw [hmin]
            refine hloc.reg.touch htk ?_
            intro p hp
            exact hlow (p.1, p.2 || decide (d + e.1 + e.2 = M.base p.1.target)) (by rw [hp]; rfl)
        have hvp := Enters.pre hE hk hinv hsub hseen htk hreg (mx := tk.max) (N := N) (.inl (by omega)) (by split; exact Known.none _; exact hkn.touch)
        rw [← hpend] at hvp
        have hjt : EGood NoErr (fun p => LocOK env M N k p.1 d r ∧ Known p.2 r ∧ MInv env M p.2 ∧ p.2.seen = st.seen ∧
            (k = 0 → ∀ Z ∈ p.2.seen, Real M p.2 Z)) (jumpTaken env rec i l s st) := by
          unfold jumpTaken
          simp only [he, hup, harg, Arg.asBlock, bind, Except.bind]
          rw [nextEnd_eq]
          refine EGood.bindEq (Q' := fun p : SizeLoc × SizeSt => LocOK env M N k p.1 d r ∧ Known p.2 r ∧ MInv env M p.2 ∧ p.2.seen = st.seen ∧
            (k = 0 → ∀ Z ∈ p.2.seen, Real M p.2 Z)) (f := fun p : Int × SizeSt => (pure ({ s with max := Max.max s.max p.1 }, p.2) : Py (SizeLoc × SizeSt)))
            (hrec _ _ _ _ _ _ _ _ hvp (fun h => absurd rfl h)) ?_
          rintro ⟨m1, st1⟩ hv
          obtain ⟨p1, p2, p3, p4, _⟩ := hrecM _ _ _ _ _ _ _ _ _ _ hvp hv
          refine ⟨⟨hloc.size, hloc.cur, hloc.reg, ?_⟩, hkn.mono p1.mono, p1.inv, p2, ?_⟩
          · rcases hloc.max with h | h
            · left; simp only; omega
            · exact .inr h
          · rw [p2]; exact fun h0 Z hZ => p1.mono.real (hseen h0 Z hZ)
        refine EGood.bind hjt ?_
        rintro ⟨s1, st1⟩ ⟨h1, h2, h3, h4, h5⟩
        simp only at h1 h2 h3 h4 h5 ⊢
        split
        · rename_i hun
          have hfin : isFinal i.name = true := by unfold isFinal; rw [hun]; simp
          exact EGood.bind (uncond_T hS hrec hk (b := b) h1.cur h1.reg (hend hfin) h3 (by rw [h4]; exact hsub) h5) fun _ _ => trivial
        · rename_i hun
          exact hfall s1 st1 h1 h2 h3 h4 h5 (by simp [hun])
      · rename_i hj
        exact hfall s st hloc hkn hinv rfl hseen (by simp [hj])

theorem runLead_T (hZ : Sizeable env.P env.eff env.c) (hS : M.Safe env.P env.eff env.c) (hrec : RecT env M N rec) (hrecM : RecM env M N rec)
    (hk : 0 ≤ k) {b : Nat} (hb : b ∈ env.c.blocks) (hu : UniqueTry env.c) (r : InTry) (hend : M.EndIn b r) :
    ∀ (es : List BElem) (s : SizeLoc) (st : SizeSt) (d : Int) (q : Option TryB),
    (∀ x ∈ es, x ∈ (env.c.heap b).elems) → (∃ pre, (env.c.heap b).elems = pre ++ es) → closeLead r es = none →
    M.Describes env.P env.eff env.c b es d none q → M.SafeFrom env.P env.eff es d none → LocOK env M N k s d r → Known st r → MInv env M st →
    (∀ Z, Z = b ∨ Z ∈ M.before b → Z ∈ st.seen) → (k = 0 → ∀ Z ∈ st.seen, Real M st Z) →
    EGood NoErr (fun _ => True) (runElems env rec b es s st) := by
  cases hr : r with
  | none =>
    intro es s st d q hmem hpre _ hD hP hloc hkn hinv hsub hseen
    exact runElems_T hZ hS hrec hrecM hk hb hu es s st d none q hmem hpre hD hP hloc hkn hinv hsub hseen
  | some p =>
    obtain ⟨u, f⟩ := p
    intro es
    induction es with
    | nil =>
      intro s st d q hmem hpre hlead
      cases hlead
    | cons x l ih =>
      intro s st d q hmem hpre hlead hD hP hloc hkn hinv hsub hseen
      obtain ⟨pre, hpre⟩ := hpre
      have hpre' : ∃ pre, (env.c.heap b).elems = pre ++ l := ⟨pre ++ [x], by simp [hpre]⟩
      have hmem' : ∀ x ∈ l, x ∈ (env.c.heap b).elems := fun x hx => hmem x (List.mem_cons_of_mem _ hx)
      have hck : blkCheck env.P x l = .ok () := blkIter_suffix pre (by rw [← hpre]; exact hZ.iter hb)
      unfold runElems
      rw [hck]
      simp only [bind, Except.bind]
      cases x with
      | label n => simp [blkCheck] at hck
      | instr i => cases hlead
      | tryBegin t => cases hlead
      | setLineno n => exact ih s st d q hmem' hpre' hlead hD hP hloc hkn hinv hsub hseen
      | tryEnd id =>
        have hP : M.SafeFrom env.P env.eff l d none := hP
        simp only [hloc.cur, Option.map_some]
        split
        · rename_i hid
          have hbefore := handler_before hend hsub hr
          have hloc' : LocOK env M N k { s with cur := none } d none := ⟨hloc.size, rfl, RegOK.none, hloc.max⟩
          have := EGood.bindEq (Q' := fun _ => True) (f := fun st => runElems env rec b l { s with cur := none } st)
            (handlerUsage_T hS hrec hk hloc.reg hinv hbefore hseen) (fun st1 hv => by
              obtain ⟨p1, p2, p3⟩ := handlerUsage_M hrecM hk hloc.reg hinv hbefore hseen hv
              exact runElems_T hZ hS hrec hrecM hk hb hu l _ st1 d none _ hmem' hpre' hD.2 hP hloc' (Known.none _) p1.inv (by rw [p2]; exact hsub)
                (by rw [p2]; exact fun h0 Z hZ => p1.mono.real (hseen h0 Z hZ)))
          exact this
        · rename_i hid
          have hcl : closeTry (some (u, f)) id = some (u, f) := by simp [closeTry, hid]
          have hlead' : closeLead (some (u, f)) l = none := by
            have : closeLead (closeTry (some (u, f)) id) l = none := hlead
            rwa [hcl] at this
          exact ih s st d _ hmem' hpre' hlead' hD.2 hP hloc hkn hinv hsub hseen

end

theorem visit_T {env : SizeEnv} {M : StackMap} {N d0 : Int} (hM : M.Valid env.P env.eff env.c d0) (hZ : Sizeable env.P env.eff env.c)
    (hS : M.Safe env.P env.eff env.c) (hu : UniqueTry env.c) (h311 : env.P.py311 = true) : ∀ fuel, RecT env M N (visit env fuel) := by
  intro fuel
  induction fuel with
  | zero => intro X size mx mn h pend st k _ _; exact ⟨by simp, by simp⟩
  | succ fuel ih =>
    intro X size mx mn h pend st k hpre hsize
    have hM' := visit_M (N := N) hM hu h311 fuel
    unfold visit
    split
    · trivial
    rename_i hin
    split
    · exact ⟨by simp, by simp⟩
    rename_i hb
    have hb : X ∈ env.c.blocks := by simpa using hb
    obtain ⟨d, r', r, he, hsz, hpend, hreg, hent, hkn, hmax, hnone⟩ := hpre.entry
    have hk := hpre.nonneg
    split
    · trivial
    have hen : EGood NoErr (fun s => LocOK env M N k s d r) (enterHandler h ⟨size, mx, mn, pend⟩) := by
      unfold enterHandler
      cases h with
      | none =>
        simp only [pushed] at hsz
        exact ⟨by simp only; omega, hpend, hreg, hmax rfl⟩
      | some l =>
        obtain ⟨s, hs⟩ := update_T (s := ⟨size, mx, mn, pend⟩) (e := (0, 1 + (if l then 1 else 0))) (by have := hsize (by simp); simp only; omega)
        simp only [hs]
        obtain ⟨u1, u2, u3, u4⟩ := SizeLoc.update_ok hs
        have hmin := SizeLoc.update_min hs
        simp only [pushed] at hsz
        simp only at u1 u2 u3 u4 hmin
        have hs2 : s.size = d + k := by
          rw [u2]
          omega
        refine ⟨hs2, by rw [u4, hpend], ?_, .inl (by omega)⟩
        rw [hnone (by simp)]
        exact RegOK.none
    refine EGood.bind hen fun s hloc => ?_
    obtain ⟨hjoin, _, hD⟩ := hM.block X hb d r' he
    have hP := hS.block X hb d r' he
    have hinv0 : MInv env M { st with seen := X :: st.seen, starts := upd st.starts X ((size, h) :: st.starts X) } := by
      refine ⟨hpre.inv.low, ?_, ?_, hpre.inv.tries⟩
      · intro τ hl
        exact real_upd.2 (.inr (hpre.inv.lockReal τ hl))
      · intro Y f hf
        simp only [upd] at hf
        split at hf
        · rename_i hY; rw [hY]; exact hb
        · exact hpre.inv.blocks Y f hf
    have hsub0 : ∀ Z, Z = X ∨ Z ∈ M.before X → Z ∈ X :: st.seen := by
      rintro Z (rfl | hZ)
      · simp
      · exact List.mem_cons_of_mem _ (hpre.before Z hZ)
    have hseen0 : k = 0 → ∀ Z ∈ X :: st.seen,
        Real M { st with seen := X :: st.seen, starts := upd st.starts X ((size, h) :: st.starts X) } Z := by
      intro h0 Z hZ
      rw [real_upd]
      rcases List.mem_cons.1 hZ with rfl | hZ
      · exact .inl ⟨rfl, d, r', he, by omega⟩
      · exact .inr (hpre.seen h0 Z hZ)
    rcases hent with hc | hent
    · exact absurd hc hin
    · rcases hent with rfl | ⟨j1, j2, j3⟩
      · exact runElems_T hZ hS ih hM' hk hb hu _ _ _ _ _ _ (fun x hx => hx) ⟨[], rfl⟩ hD hP hloc hkn hinv0 hsub0 hseen0
      · have := hjoin j1
        subst this
        exact runLead_T hZ hS ih hM' hk hb hu r j3 _ _ _ _ _ (fun x hx => hx) ⟨[], rfl⟩ j2 hD hP hloc hkn hinv0 hsub0 hseen0

end Verif
