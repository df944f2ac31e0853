import Verif.Proofs.StackMap
import Verif.Props.StackSize
/-
C29, C31 and C33 with exception handlers, on graphs with a stack map (3.11 and later).
-/
namespace Verif
open Spec

/-- Changing the TryBegin of an element. -/
def BElem.onTry (g : TryB → TryB) : BElem → BElem
  | .tryBegin t => .tryBegin (g t)
  | e => e

/-- Same TryBegin but for the depth. -/
structure DepthOnly (g : TryB → TryB) : Prop where
  id : ∀ t, (g t).id = t.id
  target : ∀ t, (g t).target = t.target
  lasti : ∀ t, (g t).lasti = t.lasti

/-- The graph with the TryBegin changed. -/
def Retry (g : TryB → TryB) (c c' : CFG) : Prop :=
  c'.blocks = c.blocks ∧ ∀ b, c'.heap b = ⟨(c.heap b).elems.map (BElem.onTry g), (c.heap b).next⟩

/-- What `tb.stack_depth = d` does. -/
def setTry (id d : Nat) (t : TryB) : TryB := if t.id = id then { t with depth := some d } else t

theorem setTry_only (id d : Nat) : DepthOnly (setTry id d) := by
  constructor <;> intro t <;> unfold setTry <;> split <;> rfl

theorem DepthOnly.comp {f g : TryB → TryB} (hf : DepthOnly f) (hg : DepthOnly g) : DepthOnly (fun t => g (f t)) :=
  ⟨fun t => by rw [hg.id, hf.id], fun t => by rw [hg.target, hf.target], fun t => by rw [hg.lasti, hf.lasti]⟩

theorem DepthOnly.refl : DepthOnly (fun t => t) := ⟨fun _ => rfl, fun _ => rfl, fun _ => rfl⟩

theorem Retry.refl (c : CFG) : Retry (fun t => t) c c := by
  refine ⟨rfl, fun b => ?_⟩
  have : BElem.onTry (fun t => t) = _root_.id := by
    funext x; cases x <;> rfl
  rw [this, List.map_id]

theorem Retry.setDepth {g : TryB → TryB} {c c1 : CFG} (h : Retry g c c1) (id d : Nat) :
    Retry (fun t => setTry id d (g t)) c (c1.setDepth id d) := by
  refine ⟨h.1, fun b => ?_⟩
  simp only [CFG.setDepth, h.2, List.map_map]
  congr 1
  refine List.map_congr_left ?_
  intro x _
  cases x <;> simp only [Function.comp, BElem.onTry, setTry]
  split <;> rfl

theorem retry_dead (ids : List Nat) : ∀ (g : TryB → TryB) (c c1 : CFG), DepthOnly g → Retry g c c1 →
    ∃ g', DepthOnly g' ∧ Retry g' c (ids.foldl (fun c id => c.setDepth id 32768) c1) := by
  induction ids with
  | nil => intro g c c1 hg h; exact ⟨g, hg, h⟩
  | cons i r ih =>
    intro g c c1 hg h
    exact ih _ c _ (hg.comp (setTry_only i 32768)) (h.setDepth i 32768)

theorem assign_retry {env : SizeEnv} {st : SizeSt} (ts : List TryB) : ∀ (g : TryB → TryB) (c c1 c2 : CFG), DepthOnly g →
    Retry g c c1 → assignDepths env st c1 ts = .ok c2 →
    ∃ g', DepthOnly g' ∧ Retry g' c c2 ∧ (∀ u ∈ ts, 0 ≤ st.excStart u.target) ∧
      ∀ t, ((g' t).depth = (g t).depth ∧ ∀ u ∈ ts, u.id ≠ t.id) ∨
        ∃ u ∈ ts, u.id = t.id ∧ (g' t).depth = some (st.excStart u.target).toNat := by
  induction ts with
  | nil =>
    intro g c c1 c2 hg h ha
    simp only [assignDepths, Except.ok.injEq] at ha
    subst ha
    exact ⟨g, hg, h, by simp, fun t => .inl ⟨rfl, by simp⟩⟩
  | cons u r ih =>
    intro g c c1 c2 hg h ha
    unfold assignDepths at ha
    split at ha
    · obtain ⟨_, has, ha⟩ := except_bind_ok ha
      obtain ⟨g', h1, h2, h3, h4⟩ := ih _ c _ c2 (hg.comp (setTry_only _ _)) (h.setDepth _ _) ha
      refine ⟨g', h1, h2, ?_, ?_⟩
      · intro v hv
        rcases List.mem_cons.1 hv with rfl | hv
        · unfold pyAssert at has
          split at has
          · rename_i hd
            exact of_decide_eq_true hd
          · cases has
        · exact h3 v hv
      · intro t
        rcases h4 t with ⟨h5, h6⟩ | ⟨v, h5, h6, h7⟩
        · by_cases hid : t.id = u.id
          · right
            refine ⟨u, by simp, hid.symm, ?_⟩
            rw [h5]
            simp only [setTry, hg.id, hid, if_true]
          · left
            refine ⟨?_, ?_⟩
            · rw [h5]
              simp only [setTry, hg.id, hid, if_false]
            · intro v hv
              rcases List.mem_cons.1 hv with rfl | hv
              · exact fun e => hid e.symm
              · exact h6 v hv
        · exact .inr ⟨v, by simp [h5], h6, h7⟩
    · cases ha

/-- The result graph: only the depths of TryBegins changed; those analysed have the depth computed for their handler. -/
theorem compute_depths {P : Platform} {eff : Instr → Bool → Py (Int × Int)} {c c' : CFG} {n : Int} {b : Nat}
    (hb : c.blocks.head? = some b) (h : c.computeStacksize P eff true = .ok (n, c')) :
    ∃ m st g, visit ⟨P, eff, c⟩ (c.blocks.length + 1) b (initialSize P c.attrs.flags) 0 0 none none SizeSt.init = .ok (m, st) ∧
      n = withHandlers c st m ∧ DepthOnly g ∧ Retry g c c' ∧ (∀ u ∈ st.tries, 0 ≤ st.excStart u.target) ∧
      ∀ t, ∀ u ∈ st.tries, u.id = t.id → ∃ u ∈ st.tries, u.id = t.id ∧ (g t).depth = some (st.excStart u.target).toNat := by
  unfold CFG.computeStacksize at h
  split at h
  · rename_i he; rw [he] at hb; cases hb
  · rename_i b' r he
    rw [he] at hb
    simp only [List.head?_cons, Option.some.injEq] at hb
    subst hb
    obtain ⟨⟨m, st⟩, hv, h⟩ := except_bind_ok h
    obtain ⟨ids, _, h⟩ := except_bind_ok h
    simp only [if_true] at h
    obtain ⟨c2, ha, h⟩ := except_bind_ok h
    simp only [pure, Except.pure, Except.ok.injEq, Prod.mk.injEq] at h
    obtain ⟨h1, rfl⟩ := h
    obtain ⟨g1, hg1, hr1⟩ := retry_dead ids _ c c DepthOnly.refl (Retry.refl c)
    obtain ⟨g2, hg2, hr2, hn, hd⟩ := assign_retry st.tries g1 c _ c2 hg1 hr1 ha
    refine ⟨m, st, g2, hv, h1.symm, hg2, hr2, hn, ?_⟩
    intro t u hu hid
    rcases hd t with ⟨_, h2⟩ | h2
    · exact absurd hid (h2 u hu)
    · exact h2

theorem openAfter_retry {g : TryB → TryB} (hg : DepthOnly g) (es : List BElem) : ∀ q : Option TryB,
    openAfter (q.map g) (es.map (BElem.onTry g)) = (openAfter q es).map g := by
  induction es with
  | nil => intro q; rfl
  | cons x l ih =>
    intro q
    cases x with
    | tryBegin t => exact ih (some t)
    | tryEnd id =>
      simp only [List.map_cons, BElem.onTry, openAfter]
      have : (if (q.map g).any (fun t => t.id = id) = true then none else q.map g) =
          (if q.any (fun t => t.id = id) = true then none else q).map g := by
        cases q with
        | none => rfl
        | some t =>
          simp only [Option.map_some, Option.any_some, hg.id]
          split <;> rfl
      rw [this]
      exact ih _
    | instr i => exact ih q
    | label n => exact ih q
    | setLineno n => exact ih q

theorem openAt_retry {g : TryB → TryB} (hg : DepthOnly g) {c c' : CFG} (h : Retry g c c') (b i : Nat) :
    openAt c' b i = (openAt c b i).map g := by
  unfold openAt openAtBlock
  rw [h.1, h.2 b, ← openAfter_retry hg, ← openAfter_retry hg]
  simp only [Option.map_none, List.map_take, List.map_flatMap]
  congr 2
  refine List.flatMap_congr ?_
  intro k _
  rw [h.2 k]

theorem retry_getElem {g : TryB → TryB} {c c' : CFG} (h : Retry g c c') {b i : Nat} {x : BElem}
    (hx : (c'.heap b).elems[i]? = some x) : ∃ y, (c.heap b).elems[i]? = some y ∧ y.onTry g = x := by
  rw [h.2 b] at hx
  simp only [List.getElem?_map, Option.map_eq_some_iff] at hx
  exact hx

theorem retry_instr {g : TryB → TryB} {c c' : CFG} (h : Retry g c c') {b i : Nat} {ins : Instr}
    (hx : (c'.heap b).elems[i]? = some (.instr ins)) : (c.heap b).elems[i]? = some (.instr ins) := by
  obtain ⟨y, hy, he⟩ := retry_getElem h hx
  cases y with
  | instr j => simp only [BElem.onTry] at he; rw [hy, he]
  | _ => cases he

theorem step_retry {P : Platform} {eff : Instr → Bool → Py (Int × Int)} {g : TryB → TryB} {c c' : CFG} (h : Retry g c c')
    {x y : Config} (hs : Step P eff c' x y) : Step P eff c x y := by
  rcases hs with ⟨e, hs⟩ | hs
  · refine .inl ⟨e, ?_⟩
    cases hs with
    | go h1 h2 h3 => exact .go (retry_instr h h1) h2 h3
    | jump h1 h2 h3 h4 => exact .jump (retry_instr h h1) h2 h3 h4
    | stop h1 h2 h3 h4 => exact .stop (retry_instr h h1) h2 h3 h4
  · right
    cases hs with
    | @skip b i d x h1 h2 =>
      obtain ⟨z, hz, he⟩ := retry_getElem h h1
      refine .skip hz ?_
      cases z with
      | instr j => subst he; cases h2
      | _ => rfl
    | @next b d n h1 =>
      have h2 := h.2 b
      rw [h2] at h1 ⊢
      simp only [List.length_map]
      exact .next h1

/-! ### What the analysis establishes -/

/-- At the end of the analysis. -/
structure Analysed (env : SizeEnv) (M : StackMap) (N : Int) (st : SizeSt) : Prop where
  inv : MInv env M st
  first : ∀ b, env.c.blocks.head? = some b → Real M st b
  closed : ∀ b, Real M st b → ClosedM env M N st b

theorem foldl_max_ge {f : Nat → Int} (l : List Nat) : ∀ a : Int, a ≤ l.foldl (fun a b => max a (f b)) a ∧
    ∀ b ∈ l, f b ≤ l.foldl (fun a b => max a (f b)) a := by
  induction l with
  | nil => intro a; exact ⟨Int.le_refl _, by simp⟩
  | cons x r ih =>
    intro a
    obtain ⟨h1, h2⟩ := ih (max a (f x))
    simp only [List.foldl_cons]
    refine ⟨by omega, ?_⟩
    intro b hb
    rcases List.mem_cons.1 hb with rfl | hb
    · omega
    · exact h2 b hb

theorem analysed {P : Platform} {eff : Instr → Bool → Py (Int × Int)} {c : CFG} {M : StackMap} {b : Nat} {m d0 : Int} {st : SizeSt}
    (h311 : P.py311 = true) (hM : M.Valid P eff c d0) (hu : UniqueTry c) (hb : c.blocks.head? = some b) {fuel : Nat}
    (hv : visit ⟨P, eff, c⟩ fuel b d0 0 0 none none SizeSt.init = .ok (m, st)) :
    Analysed ⟨P, eff, c⟩ M (max (withHandlers c st m) d0) st := by
  obtain ⟨he, hbef⟩ := hM.first b hb
  have hinv : MInv ⟨P, eff, c⟩ M SizeSt.init := by
    refine ⟨?_, ?_, ?_, by intro u hu; cases hu⟩
    · intro τ
      have := hM.bound τ
      simp only [SizeSt.init]
      omega
    · intro τ hl
      have := hM.bound τ
      unfold Locked at hl
      simp only [SizeSt.init] at hl
      omega
    · intro Y f hf; cases hf
  have hpre : VPre ⟨P, eff, c⟩ M (max (withHandlers c st m) d0) 0 b d0 0 0 none none SizeSt.init := by
    refine ⟨Int.le_refl _, hinv, ⟨d0, none, none, he, by simp only [pushed], rfl, RegOK.none, .inr (.inl rfl), Known.none _, ?_, fun _ => rfl⟩,
      ?_, ?_⟩
    · intro _; right; omega
    · intro Z hZ; rw [hbef] at hZ; cases hZ
    · intro _ Z hZ; cases hZ
  obtain ⟨p1, p2, p3, p4, _⟩ := visit_M (N := max (withHandlers c st m) d0) hM hu h311 fuel _ _ _ _ _ _ _ _ _ _ hpre hv
  have hmax := foldl_max_ge (f := st.excMax) c.blocks m
  refine ⟨p1.inv, ?_, ?_⟩
  · intro b' hb'
    simp only [hb, Option.some.injEq] at hb'
    subst hb'
    exact p4 rfl
  · intro Y hY
    have hfut : Fut M (max (withHandlers c st m) d0) (b :: SizeSt.init.seen) st := by
      intro τ _ hl
      obtain ⟨s, f, d, r, h1, _, _⟩ := p1.inv.lockReal τ hl
      have := hmax.2 τ (p1.inv.blocks τ _ h1)
      unfold withHandlers
      omega
    rcases p1.closed (by have := hmax.1; unfold withHandlers; omega) hfut Y hY with h | h
    · obtain ⟨s, f, d, r, h1, _, _⟩ := h
      cases h1
    · exact h

/-- What holds at a point reached. -/
structure PointOK (env : SizeEnv) (M : StackMap) (N : Int) (st : SizeSt) (b i : Nat) (d : Int) (r : InTry) : Prop where
  block : b ∈ env.c.blocks
  le : d ≤ N
  low : M.Low d r
  describes : M.Describes env.P env.eff env.c b ((env.c.heap b).elems.drop i) d r (openAt env.c b i)
  closed : closedM env M N st (env.c.heap b).next ((env.c.heap b).elems.drop i) d r
  known : Known st r

theorem openAt_succ {c : CFG} {b i : Nat} {x : BElem} (hx : (c.heap b).elems[i]? = some x) :
    openAt c b (i + 1) = openAfter (openAt c b i) [x] := by
  unfold openAt
  rw [List.take_add_one, hx]
  generalize openAtBlock c b = q
  generalize (c.heap b).elems.take i = l
  induction l generalizing q with
  | nil => rfl
  | cons y l ih => cases y <;> exact ih _

theorem PointOK.entry {env : SizeEnv} {M : StackMap} {N d0 : Int} {st : SizeSt} (hA : Analysed env M N st)
    (hM : M.Valid env.P env.eff env.c d0) {b : Nat} (hr : Real M st b) {d : Int} {r : InTry} (he : M.entry b = some (d, r)) :
    PointOK env M N st b 0 d r := by
  have hb : b ∈ env.c.blocks := by
    obtain ⟨s, f, _, _, h1, _, _⟩ := hr
    exact hA.inv.blocks b _ h1
  obtain ⟨d', r', he', hle, hkn, hcl⟩ := hA.closed b hr
  rw [he] at he'
  simp only [Option.some.injEq, Prod.mk.injEq] at he'
  obtain ⟨rfl, rfl⟩ := he'
  obtain ⟨_, hlow, hD⟩ := hM.block b hb d r he
  exact ⟨hb, hle, hlow, hD, hcl, hkn⟩

theorem touch_low {M : StackMap} {d e : Int} {r : InTry} (h : M.Low d r) : M.Low d (M.touch e r) := by
  intro p hp
  cases r with
  | none => cases hp
  | some p0 =>
    simp only [StackMap.touch, Option.map_some, Option.some.injEq] at hp
    subst hp
    exact h p0 rfl

theorem not_uncond_of_not_final {name : String} (h : isFinal name = false) : isUncondJump name = false := by
  unfold isFinal at h
  simp only [Bool.or_eq_false_iff] at h
  exact h.2

/-- The end of a region at its smallest depth has locked the handler. -/
theorem PointOK.locked {env : SizeEnv} {M : StackMap} {N : Int} {st : SizeSt} {b i : Nat} {d : Int} {r : InTry} {t : TryB}
    (hp : PointOK env M N st b i d r) (he : M.EndsAt env.P env.eff env.c b i d r t) : Locked M st t.target := by
  have hcl := hp.closed
  cases he with
  | mark h1 =>
    rw [drop_cons_of_getElem? h1] at hcl
    exact hcl.1 t rfl rfl
  | jump h1 h2 h3 h4 h5 h6 =>
    rw [drop_cons_of_getElem? h1] at hcl
    obtain ⟨_, _, _, q⟩ := hcl.1 h2 _ _ h4 h5
    exact q h3 t rfl h6
  | stop h1 h2 h3 h4 h5 h6 =>
    rw [drop_cons_of_getElem? h1] at hcl
    obtain ⟨_, _, q, _⟩ := hcl.2 h3 _ h4
    exact q h2 t h5 h6

theorem reached_ok {env : SizeEnv} {M : StackMap} {N d0 : Int} {st : SizeSt} (hA : Analysed env M N st)
    (hM : M.Valid env.P env.eff env.c d0) {b i : Nat} {d : Int} {r : InTry} (h : M.Reached env.P env.eff env.c b i d r) :
    PointOK env M N st b i d r := by
  induction h with
  | first hb he => exact PointOK.entry hA hM (hA.first _ hb) he
  | line _ hx ih =>
    have hD := ih.describes
    have hC := ih.closed
    rw [drop_cons_of_getElem? hx] at hD hC
    refine ⟨ih.block, ih.le, ih.low, ?_, hC, ih.known⟩
    rw [openAt_succ hx]
    exact hD
  | open_ _ hx ih =>
    have hD := ih.describes
    have hC := ih.closed
    rw [drop_cons_of_getElem? hx] at hD hC
    obtain ⟨_, hlow, hD⟩ := hD
    refine ⟨ih.block, ih.le, ?_, ?_, hC.2, ?_⟩
    · intro p hp
      simp only [Option.some.injEq] at hp
      subst hp
      exact hlow
    · rw [openAt_succ hx]
      exact hD
    · intro u f hu
      simp only [Option.some.injEq, Prod.mk.injEq] at hu
      obtain ⟨rfl, _⟩ := hu
      exact hC.1
  | @close b i d r id _ hx ih =>
    have hD := ih.describes
    have hC := ih.closed
    rw [drop_cons_of_getElem? hx] at hD hC
    have hsub : ∀ p, closeTry r id = some p → r = some p := by
      intro p hp
      unfold closeTry at hp
      split at hp
      · cases hp
      · exact hp
    refine ⟨ih.block, ih.le, fun p hp => ih.low p (hsub p hp), ?_, hC.2, fun u f hu => ih.known u f (hsub _ hu)⟩
    rw [openAt_succ hx]
    exact hD.2
  | @go b i d r ins e _ hx hf he ih =>
    have hD := ih.describes
    have hC := ih.closed
    rw [drop_cons_of_getElem? hx] at hD hC
    have hnu : (env.P.hasJump ins.opcode && isUncondJump ins.name) = false := by simp [not_uncond_of_not_final hf]
    obtain ⟨hlow, hD'⟩ := (hD.2.2.2.2 hnu e he).2 hf
    obtain ⟨_, hle, _, hC'⟩ := hC.2 hnu e he
    refine ⟨ih.block, hle, touch_low hlow, ?_, hC' hf, ih.known.touch⟩
    rw [openAt_succ hx]
    exact hD'
  | @jump b i d r ins e t d' r' _ hx hj ht he hent ih =>
    have hC := ih.closed
    rw [drop_cons_of_getElem? hx] at hC
    exact PointOK.entry hA hM (hC.1 hj t e ht he).2.2.1 hent
  | @next b i d r n d' r' _ hi hn hent ih =>
    have hC := ih.closed
    have hD := ih.describes
    rw [hi, List.drop_eq_nil_of_le (Nat.le_refl _)] at hC hD
    exact PointOK.entry hA hM (hC n hn (hD n hn).1) hent
  | handler _ he hent ih => exact PointOK.entry hA hM (hA.inv.lockReal _ (ih.locked he)) hent

/-- The depth recorded for the handler of an instruction reached is the one of the map. -/
theorem handler_depth {P : Platform} {eff : Instr → Bool → Py (Int × Int)} {c c' : CFG} {M : StackMap} {N d0 : Int} {st : SizeSt}
    {g : TryB → TryB} (hA : Analysed ⟨P, eff, c⟩ M N st) (hM : M.Valid P eff c d0) (hE : M.Ends P eff c) (hg : DepthOnly g)
    (hre : Retry g c c') (hn : ∀ u ∈ st.tries, 0 ≤ st.excStart u.target)
    (hd : ∀ t, ∀ u ∈ st.tries, u.id = t.id → ∃ u ∈ st.tries, u.id = t.id ∧ (g t).depth = some (st.excStart u.target).toNat)
    {b i : Nat} {d : Int} {r : InTry} {ins : Instr} {t : TryB} (hr : M.Reached P eff c b i d r)
    (hx : (c.heap b).elems[i]? = some (.instr ins)) (hop : openAt c' b i = some t) :
    ∃ k : Nat, t.depth = some k ∧ (k : Int) = M.base t.target ∧
      M.entry t.target = some (M.base t.target + 1 + (if t.lasti then 1 else 0), none) ∧ M.base t.target ≤ d ∧
      ∀ {d' r'}, M.entry t.target = some (d', r') → M.Reached P eff c t.target 0 d' r' := by
  have hok := reached_ok hA hM hr
  have hD := hok.describes
  rw [drop_cons_of_getElem? hx] at hD
  have hsame := hD.1
  rw [openAt_retry hg hre] at hop
  rw [← hsame] at hop
  cases hrr : r with
  | none => rw [hrr] at hop; cases hop
  | some p =>
    obtain ⟨u, f⟩ := p
    rw [hrr] at hop hr hok
    simp only [Option.map_some, Option.some.injEq] at hop
    subst hop
    have hut := hok.known u f rfl
    obtain ⟨v, hv, hvid, hvd⟩ := hd u u hut rfl
    have hvu : v = u := by
      have h1 := (hA.inv.tries v hv).1
      have h2 := (hA.inv.tries u hut).1
      rw [hvid, h2] at h1
      simpa using h1.symm
    subst hvu
    obtain ⟨b', i', d', r', t', hr', he', htt⟩ := hE b i d v f ins hr hx
    have hlock := (reached_ok hA hM hr').locked he'
    rw [htt] at hlock
    unfold Locked at hlock
    have h0 := hn v hv
    refine ⟨_, hvd, ?_, ?_, ?_, ?_⟩
    · rw [hg.target]; omega
    · rw [hg.target, hg.lasti]
      exact (hA.inv.tries v hv).2
    · rw [hg.target]
      exact hok.low _ rfl
    · intro d2 r2 hent
      rw [hg.target] at hent ⊢
      rw [← htt] at hent ⊢
      exact .handler hr' he' hent

/-- Everything the analysis establishes along the paths of the graph it returns. -/
theorem path_reached {P : Platform} {eff : Instr → Bool → Py (Int × Int)} {c c' : CFG} {M : StackMap} {N d0 : Int} {st : SizeSt}
    {g : TryB → TryB} (hA : Analysed ⟨P, eff, c⟩ M N st) (hM : M.Valid P eff c d0) (hE : M.Ends P eff c) (hg : DepthOnly g)
    (hre : Retry g c c') (hn : ∀ u ∈ st.tries, 0 ≤ st.excStart u.target)
    (hd : ∀ t, ∀ u ∈ st.tries, u.id = t.id → ∃ u ∈ st.tries, u.id = t.id ∧ (g t).depth = some (st.excStart u.target).toNat)
    {x : Config} (hx : GOnPath P eff c' d0 x) :
    x.depth ≤ N ∧ ∀ i, x.pos = some i → ∃ r, M.Reached P eff c x.blk i x.depth r := by
  obtain ⟨b, hb, hst⟩ := hx
  rw [hre.1] at hb
  induction hst with
  | refl =>
    obtain ⟨he, _⟩ := hM.first b hb
    have hreach : M.Reached P eff c b 0 d0 none := .first hb he
    refine ⟨(reached_ok hA hM hreach).le, ?_⟩
    intro i hi
    simp only [Option.some.injEq] at hi
    subst hi
    exact ⟨none, hreach⟩
  | tail hpre hs ih =>
    obtain ⟨hle, hr⟩ := ih
    cases hs with
    | plain hs =>
      rcases step_retry hre hs with ⟨e, hs⟩ | hs
      · cases hs with
        | @go b' i d ins e hx hf he =>
          obtain ⟨r, hr⟩ := hr i rfl
          have h2 := StackMap.Reached.go hr hx hf he
          refine ⟨(reached_ok hA hM h2).le, ?_⟩
          intro j hj
          simp only [Option.some.injEq] at hj
          subst hj
          exact ⟨_, h2⟩
        | @jump b' i d ins e t hx hj ht he =>
          obtain ⟨r, hr⟩ := hr i rfl
          have hok := reached_ok hA hM hr
          have hD := hok.describes
          rw [drop_cons_of_getElem? hx] at hD
          obtain ⟨_, hE'⟩ := hD.2.2.2.1 hj t e ht he
          obtain ⟨_, r', hent, _⟩ := hE'
          have h2 := StackMap.Reached.jump hr hx hj ht he hent
          refine ⟨(reached_ok hA hM h2).le, ?_⟩
          intro j hj
          simp only [Option.some.injEq] at hj
          subst hj
          exact ⟨_, h2⟩
        | @stop b' i d ins e hx hf hnu he =>
          obtain ⟨r, hr⟩ := hr i rfl
          have hok := reached_ok hA hM hr
          have hC := hok.closed
          rw [drop_cons_of_getElem? hx] at hC
          refine ⟨(hC.2 hnu e he).2.1, ?_⟩
          intro j hj
          cases hj
      · cases hs with
        | @skip b' i d y hx hni =>
          obtain ⟨r, hr⟩ := hr i rfl
          have h2 : ∃ r', M.Reached P eff c b' (i + 1) d r' := by
            cases y with
            | instr j => cases hni
            | label n =>
              have hD := (reached_ok hA hM hr).describes
              rw [drop_cons_of_getElem? hx] at hD
              cases hD
            | setLineno n => exact ⟨_, .line hr hx⟩
            | tryBegin t => exact ⟨_, .open_ hr hx⟩
            | tryEnd t => exact ⟨_, .close hr hx⟩
          refine ⟨hle, ?_⟩
          intro j hj
          simp only [Option.some.injEq] at hj
          subst hj
          exact h2
        | @next b' d n hn' =>
          obtain ⟨r, hr⟩ := hr _ rfl
          have hok := reached_ok hA hM hr
          have hD := hok.describes
          rw [List.drop_eq_nil_of_le (Nat.le_refl _)] at hD
          obtain ⟨_, _, r', hent, _⟩ := hD n hn'
          have h2 := StackMap.Reached.next hr rfl hn' hent
          refine ⟨hle, ?_⟩
          intro j hj
          simp only [Option.some.injEq] at hj
          subst hj
          exact ⟨_, h2⟩
    | @raise b' i d ins t k hx hop hdep =>
      obtain ⟨r, hr⟩ := hr i rfl
      obtain ⟨k', hk1, hk2, hent, hlow, hrh⟩ := handler_depth hA hM hE hg hre hn hd hr (retry_instr hre hx) hop
      rw [hdep] at hk1
      simp only [Option.some.injEq] at hk1
      subst hk1
      rw [← hk2] at hent
      have h2 := hrh hent
      refine ⟨(reached_ok hA hM h2).le, ?_⟩
      intro j hj
      simp only [Option.some.injEq] at hj
      subst hj
      exact ⟨_, h2⟩

/-- **C29 (partial, with handlers).** On 3.11 and later, for a graph with a stack map, if `compute_stacksize` returns `n` then
along every execution path of the graph it leaves, of any length, jumps taken or not, any instruction of a try region
raising or not, the number of values on the stack is at most `n` (or is the one value a generator is started with).
Missing: graphs without a stack map, and graphs with a region whose end is never reached at its smallest depth
(`C29_handlers_false`); Python before 3.11. -/
theorem C29_handlers_partial (P : Platform) (eff : Instr → Bool → Py (Int × Int)) (c c' : CFG) (n : Int) (M : StackMap)
    (h311 : P.py311 = true) (hM : M.Valid P eff c (initialSize P c.attrs.flags)) (hE : M.Ends P eff c) (hU : UniqueTry c)
    (h : c.computeStacksize P eff true = .ok (n, c')) :
    ∀ x, GOnPath P eff c' (initialSize P c.attrs.flags) x → x.depth ≤ max n (initialSize P c.attrs.flags) := by
  intro x hx
  have hb : ∃ b, c'.blocks.head? = some b := by obtain ⟨b, hb, _⟩ := hx; exact ⟨b, hb⟩
  cases hc : c.blocks.head? with
  | none =>
    rw [List.head?_eq_none_iff] at hc
    unfold CFG.computeStacksize at h
    rw [hc] at h
    simp only [Except.ok.injEq, Prod.mk.injEq] at h
    obtain ⟨_, rfl⟩ := h
    rw [hc] at hb
    obtain ⟨b, hb⟩ := hb
    cases hb
  | some b =>
    obtain ⟨m, st, g, hv, hn, hg, hre, hpos, hd⟩ := compute_depths hc h
    have hA := analysed h311 hM hU hc hv
    rw [← hn] at hA
    exact (path_reached hA hM hE hg hre hpos hd hx).1

/-- **C33 (partial).** On 3.11 and later, for a graph with a stack map: after `compute_stacksize`, along every execution path,
exceptions included, each instruction of a try region is executed with at least as many values on the stack as the
depth recorded in the TryBegin of the region, so that the handler can be started with them; and that depth is the one
of the map.
Missing: graphs without a stack map (`C33_statement_false`), graphs with a region whose end is never reached at its
smallest depth (`C33_unreached_end_false`); Python before 3.11. -/
theorem C33_partial (P : Platform) (eff : Instr → Bool → Py (Int × Int)) (c c' : CFG) (n : Int) (M : StackMap)
    (h311 : P.py311 = true) (hM : M.Valid P eff c (initialSize P c.attrs.flags)) (hE : M.Ends P eff c) (hU : UniqueTry c)
    (h : c.computeStacksize P eff true = .ok (n, c')) :
    ∀ b i d ins t, GOnPath P eff c' (initialSize P c.attrs.flags) ⟨b, some i, d⟩ →
      (c'.heap b).elems[i]? = some (.instr ins) → openAt c' b i = some t →
      ∃ k : Nat, t.depth = some k ∧ (k : Int) ≤ d ∧ (k : Int) = M.base t.target := by
  intro b i d ins t hx hi ho
  have hb : ∃ b, c'.blocks.head? = some b := by obtain ⟨b, hb, _⟩ := hx; exact ⟨b, hb⟩
  cases hc : c.blocks.head? with
  | none =>
    rw [List.head?_eq_none_iff] at hc
    unfold CFG.computeStacksize at h
    rw [hc] at h
    simp only [Except.ok.injEq, Prod.mk.injEq] at h
    obtain ⟨_, rfl⟩ := h
    rw [hc] at hb
    obtain ⟨b, hb⟩ := hb
    cases hb
  | some b0 =>
    obtain ⟨m, st, g, hv, hn, hg, hre, hpos, hd⟩ := compute_depths hc h
    have hA := analysed h311 hM hU hc hv
    obtain ⟨_, hr⟩ := path_reached hA hM hE hg hre hpos hd hx
    obtain ⟨r, hr⟩ := hr i rfl
    obtain ⟨k, h1, h2, _, h4, _⟩ := handler_depth hA hM hE hg hre hpos hd hr (retry_instr hre hi) ho
    exact ⟨k, h1, by simp only at h4; omega, h2⟩

/-- **C31 (partial, with handlers).** In the same situation no execution path, exceptions included, pops from an empty
stack. -/
theorem C31_handlers_partial (P : Platform) (eff : Instr → Bool → Py (Int × Int)) (c c' : CFG) (n : Int) (M : StackMap)
    (h311 : P.py311 = true) (hM : M.Valid P eff c (initialSize P c.attrs.flags)) (hE : M.Ends P eff c) (hU : UniqueTry c)
    (h : c.computeStacksize P eff true = .ok (n, c')) :
    ∀ x e y, GOnPath P eff c' (initialSize P c.attrs.flags) x → Exec P eff c' x e y → 0 ≤ x.depth + e.1 := by
  intro x e y hx hs
  have hb : ∃ b, c'.blocks.head? = some b := by obtain ⟨b, hb, _⟩ := hx; exact ⟨b, hb⟩
  cases hc : c.blocks.head? with
  | none =>
    rw [List.head?_eq_none_iff] at hc
    unfold CFG.computeStacksize at h
    rw [hc] at h
    simp only [Except.ok.injEq, Prod.mk.injEq] at h
    obtain ⟨_, rfl⟩ := h
    rw [hc] at hb
    obtain ⟨b, hb⟩ := hb
    cases hb
  | some b0 =>
    obtain ⟨m, st, g, hv, hn, hg, hre, hpos, hd⟩ := compute_depths hc h
    have hA := analysed h311 hM hU hc hv
    obtain ⟨_, hr⟩ := path_reached hA hM hE hg hre hpos hd hx
    cases hs with
    | @go b i d ins e hi hf he =>
      obtain ⟨r, hr⟩ := hr i rfl
      have hC := (reached_ok hA hM hr).closed
      rw [drop_cons_of_getElem? (retry_instr hre hi)] at hC
      exact (hC.2 (by simp [not_uncond_of_not_final hf]) e he).1
    | @jump b i d ins e t hi hj ht he =>
      obtain ⟨r, hr⟩ := hr i rfl
      have hC := (reached_ok hA hM hr).closed
      rw [drop_cons_of_getElem? (retry_instr hre hi)] at hC
      exact (hC.1 hj t e ht he).1
    | @stop b i d ins e hi hf hnu he =>
      obtain ⟨r, hr⟩ := hr i rfl
      have hC := (reached_ok hA hM hr).closed
      rw [drop_cons_of_getElem? (retry_instr hre hi)] at hC
      exact (hC.2 hnu e he).1

end Verif
