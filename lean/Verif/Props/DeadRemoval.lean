import Verif.Proofs.DeadRemoval
import Verif.Props.CFG
import Verif.Props.StackSize
/-
C85: deleting blocks that control cannot enter changes neither the stack size nor the depths of the others.
-/
namespace Verif
open Spec

theorem inv_of_index {c : CFG} (hi : IndexOK c) (hc : Closed c) : c.Inv := by
  refine ⟨?_, ?_, hc.1⟩
  · intro i b hb
    have := hi.1 i b hb
    unfold CFG.getBlockIndex at this
    cases hx : c.index b with
    | none => rw [hx] at this; cases this
    | some k => rw [hx] at this; cases this; rfl
  · intro b hb
    have := hi.2 b hb
    unfold CFG.getBlockIndex at this
    cases hx : c.index b with
    | none => rfl
    | some k => rw [hx] at this; cases this

theorem delBlock_inv {c : CFG} (h : c.Inv) {d : Nat} (hd : d ∈ c.blocks) :
    (c.delBlock d).2 = .ok () ∧ (c.delBlock d).1.blocks = c.blocks.filter (· ≠ d) ∧ (c.delBlock d).1.heap = c.heap ∧
    (c.delBlock d).1.attrs = c.attrs ∧ (c.delBlock d).1.Inv := by
  obtain ⟨k, hk, he⟩ := List.getElem_of_mem hd
  have hx := h.pos k d (by rw [List.getElem?_eq_getElem hk, he])
  have e : c.delBlock d = c.delIndex k := by
    unfold CFG.delBlock CFG.getBlockIndex
    rw [hx]
  obtain ⟨h1, h2, h3, -, h4, -, h5⟩ := CFG.delIndex_ok h hk
  rw [e]
  refine ⟨h1, ?_, h3, h4, h5⟩
  subst he
  rw [h2, ← List.Nodup.erase_getElem h.nodup k hk, List.Nodup.erase_eq_filter h.nodup]
  congr 1
  funext x
  simp [bne, BEq.beq]

theorem deleted_inv {D : List Nat} : ∀ {c c' : CFG}, c.Inv → Deleted c D c' → c'.blocks = c.blocks.filter (· ∉ D) ∧ c'.heap = c.heap ∧
    c'.attrs = c.attrs := by
  induction D with
  | nil => intro c c' _ h; cases h; simp
  | cons d D ih =>
    intro c c' hi h
    cases h with
    | cons h1 h2 =>
      rename_i c1
      have hd : d ∈ c.blocks := by
        apply Classical.not_not.1
        intro hn
        have : c.delBlock d = (c, .error .valueError) := by
          unfold CFG.delBlock CFG.getBlockIndex
          rw [hi.absent d hn]
        rw [this] at h1
        cases h1
      obtain ⟨-, g2, g3, g4, g5⟩ := delBlock_inv hi hd
      rw [h1] at g2 g3 g4 g5
      obtain ⟨k1, k2, k3⟩ := ih g5 h2
      refine ⟨?_, k2.trans g3, k3.trans g4⟩
      rw [k1, g2, List.filter_filter]
      congr 1
      funext x
      simp only [List.mem_cons, not_or]
      by_cases x = d <;> by_cases x ∈ D <;> simp_all

/-- The deletions succeed. -/
theorem C85_deletes {c : CFG} (hi : IndexOK c) (hc : Closed c) {D : List Nat} (hD : ∀ d ∈ D, d ∈ c.blocks) (hn : D.Nodup) :
    ∃ c', Deleted c D c' ∧ c'.blocks = c.blocks.filter (· ∉ D) ∧ c'.heap = c.heap := by
  have hinv := inv_of_index hi hc
  suffices h : ∃ c', Deleted c D c' by
    obtain ⟨c', h⟩ := h
    exact ⟨c', h, (deleted_inv hinv h).1, (deleted_inv hinv h).2.1⟩
  clear hi hc
  induction D generalizing c with
  | nil => exact ⟨c, .nil⟩
  | cons d D ih =>
    obtain ⟨h1, h2, h3, h4, h5⟩ := delBlock_inv hinv (hD d (by simp))
    obtain ⟨hd, hn⟩ := List.nodup_cons.1 hn
    obtain ⟨c', h⟩ := ih (c := (c.delBlock d).1) (by
      intro x hx
      rw [h2]
      refine List.mem_filter.2 ⟨hD x (by simp [hx]), ?_⟩
      simp only [ne_eq, decide_eq_true_eq]
      rintro rfl; exact hd hx) hn h5
    exact ⟨c', .cons (Prod.ext rfl h1) h⟩

/-! ### the depths -/

theorem setDepth_fold (d : Nat) (b : Nat) : ∀ (ids : List Nat) (c : CFG), ((ids.foldl (fun c id => c.setDepth id d) c).heap b) =
    ⟨(c.heap b).elems.map (fun | .tryBegin t => if t.id ∈ ids then .tryBegin { t with depth := some d } else .tryBegin t | e => e), (c.heap b).next⟩ := by
  intro ids
  induction ids with
  | nil =>
    intro c
    simp only [List.foldl_nil, List.not_mem_nil, if_false]
    have : (fun (e : BElem) => match e with | .tryBegin t => BElem.tryBegin t | e => e) = id := by
      funext e; cases e <;> rfl
    cases h : c.heap b with
    | mk es n =>
      simp only [Blk.mk.injEq, and_true]
      conv_lhs => rw [← List.map_id es]
      refine List.map_congr_left ?_
      intro e _
      cases e <;> rfl
  | cons id ids ih =>
    intro c
    rw [List.foldl_cons, ih]
    simp only [CFG.setDepth, List.map_map, Blk.mk.injEq, and_true]
    refine List.map_congr_left ?_
    intro e _
    cases e with
    | tryBegin t =>
      simp only [Function.comp, List.mem_cons]
      by_cases h1 : t.id = id <;> by_cases h2 : t.id ∈ ids <;> simp [h1, h2]
      all_goals (subst h1; simp [h2])
    | _ => rfl

theorem deadTries_env {P : Platform} {eff : Instr → Bool → Py (Int × Int)} {c c' : CFG} (hh : c'.heap = c.heap) (st : SizeSt) :
    ∀ l, deadTries ⟨P, eff, c'⟩ st l = deadTries ⟨P, eff, c⟩ st l := by
  intro l
  induction l with
  | nil => rfl
  | cons b r ih =>
    unfold deadTries
    simp only [hh, ih]

theorem deadIds_mem {P : Platform} {eff : Instr → Bool → Py (Int × Int)} {c : CFG} {st : SizeSt} : ∀ {l ids : List Nat},
    deadTries ⟨P, eff, c⟩ st l = .ok ids → ∀ id, id ∈ ids ↔
      ∃ b ∈ l, (st.starts b).isEmpty = true ∧ ∃ t, BElem.tryBegin t ∈ (c.heap b).elems ∧ t.depth.isNone = true ∧ t.id = id := by
  intro l
  induction l with
  | nil => intro ids h id; cases h; simp
  | cons b r ih =>
    intro ids h id
    unfold deadTries at h
    split at h
    · rename_i he
      obtain ⟨-, -, h⟩ := except_bind_ok h
      obtain ⟨ids1, h1, h⟩ := except_bind_ok h
      cases h
      simp only [List.mem_append, ih h1 id, List.mem_filterMap, List.mem_cons, exists_eq_or_imp, he, true_and]
      refine or_congr ?_ Iff.rfl
      constructor
      · rintro ⟨e, h1, h2⟩
        cases e with
        | tryBegin t =>
          simp only at h2
          split at h2
          · rename_i h3; cases h2; exact ⟨t, h1, h3, rfl⟩
          · cases h2
        | _ => simp at h2
      · rintro ⟨t, h1, h2, h3⟩
        exact ⟨.tryBegin t, h1, by simp [h2, h3]⟩
    · rename_i he
      rw [ih h id]
      constructor
      · rintro ⟨x, hx, rest⟩; exact ⟨x, List.mem_cons_of_mem _ hx, rest⟩
      · rintro ⟨x, hx, h1, rest⟩
        rcases List.mem_cons.1 hx with rfl | hx
        · exact absurd h1 he
        · exact ⟨x, hx, h1, rest⟩

theorem deadIds_iff {P : Platform} {eff : Instr → Bool → Py (Int × Int)} {c : CFG} {st : SizeSt} : ∀ {l : List Nat},
    (∃ ids, deadTries ⟨P, eff, c⟩ st l = .ok ids) ↔ ∀ b ∈ l, (st.starts b).isEmpty = true → blkIter P (c.heap b).elems = .ok () := by
  intro l
  induction l with
  | nil => simp [deadTries]
  | cons b r ih =>
    unfold deadTries
    simp only [List.mem_cons, forall_eq_or_imp]
    split
    · rename_i he
      rw [← ih]
      constructor
      · rintro ⟨ids, h⟩
        obtain ⟨u, h0, h⟩ := except_bind_ok h
        obtain ⟨ids1, h1, h⟩ := except_bind_ok h
        exact ⟨fun _ => h0, ids1, h1⟩
      · rintro ⟨h0, ids, h1⟩
        have h0 := h0 he
        rw [h0, h1]
        exact ⟨_, rfl⟩
    · rename_i he
      rw [ih]
      simp [he]

/-- The blocks of `S` hold the same in both graphs. -/
def SameOn (S : Nat → Prop) (c c' : CFG) : Prop := ∀ b, S b → c'.heap b = c.heap b

theorem assign_same {P : Platform} {eff : Instr → Bool → Py (Int × Int)} {c0 c0' : CFG} {K S : Nat → Prop} (hp : Pruned c0 c0' K) {st : SizeSt} :
    ∀ (l : List TryB), (∀ t ∈ l, K t.target) → ∀ c c' : CFG, SameOn S c c' →
    (∃ e, assignDepths ⟨P, eff, c0⟩ st c l = .error e ∧ assignDepths ⟨P, eff, c0'⟩ st c' l = .error e) ∨
    ∃ g g', assignDepths ⟨P, eff, c0⟩ st c l = .ok g ∧ assignDepths ⟨P, eff, c0'⟩ st c' l = .ok g' ∧ SameOn S g g' := by
  intro l
  induction l with
  | nil => intro _ c c' h; exact .inr ⟨c, c', rfl, rfl, h⟩
  | cons t r ih =>
    intro hk c c' h
    unfold assignDepths
    simp only [hp.mem (hk t (by simp))]
    split
    · cases hb : decide (0 ≤ st.excStart t.target) with
      | false => exact .inl ⟨.assertionError, rfl, rfl⟩
      | true =>
        refine ih (fun u hu => hk u (by simp [hu])) _ _ ?_
        intro b hb
        simp only [CFG.setDepth, h b hb]
    · exact .inl ⟨.keyError, rfl, rfl⟩

theorem findTry_filter (heap : Nat → Blk) (id : Nat) (q : Nat → Bool) : ∀ l : List Nat,
    (∀ b ∈ l, q b = false → ∀ t, BElem.tryBegin t ∈ (heap b).elems → t.id ≠ id) →
    ((l.filter q).flatMap (fun b => (heap b).elems)).findSome? (fun
      | .tryBegin t => if t.id = id then some t else none
      | _ => none) = (l.flatMap (fun b => (heap b).elems)).findSome? (fun
      | .tryBegin t => if t.id = id then some t else none
      | _ => none) := by
  intro l
  induction l with
  | nil => intro _; rfl
  | cons b r ih =>
    intro h
    have ihr := ih (fun x hx => h x (by simp [hx]))
    cases hq : q b with
    | true => simp only [List.filter_cons, hq, if_true, List.flatMap_cons, List.findSome?_append, ihr]
    | false =>
      simp only [List.filter_cons, hq, Bool.false_eq_true, if_false, List.flatMap_cons, List.findSome?_append, ihr]
      have : (heap b).elems.findSome? (fun
          | .tryBegin t => if t.id = id then some t else none
          | _ => none) = none := by
        rw [List.findSome?_eq_none_iff]
        intro x hx
        cases x with
        | tryBegin t => simp [h b (by simp) hq t hx]
        | _ => rfl
      rw [this, Option.none_or]

theorem pruned_of {c c' : CFG} {D : List Nat} (hb : c'.blocks = c.blocks.filter (· ∉ D)) (hh : c'.heap = c.heap)
    (hD : ∀ d ∈ D, ¬ Entered c d) (hT : OwnTries c D) : Pruned c c' (Entered c) := by
  have hnd : ∀ b, Entered c b → b ∉ D := fun b hb h => hD b h hb
  refine ⟨hh, ?_, ?_, ?_, ?_, ?_, ?_⟩
  · intro b h; rw [hb] at h; exact (List.mem_filter.1 h).1
  · intro b h hk; rw [hb]; exact List.mem_filter.2 ⟨h, by simpa using hnd b hk⟩
  · intro b id h hk hm
    unfold CFG.findTry
    rw [hb, hh]
    refine findTry_filter c.heap id _ c.blocks ?_
    intro d hd hq t ht he
    have hdD : d ∈ D := by simpa using hq
    have := (hT d hdD t ht b h (hnd b hk)).1
    rw [he] at this
    exact this hm
  · rintro a b ⟨e, he, hs⟩ h; exact ⟨e, he, .tail hs (.inl h)⟩
  · rintro a b ⟨e, he, hs⟩ h; exact ⟨e, he, .tail hs (.inr (.inl h))⟩
  · rintro a b ⟨e, he, hs⟩ h; exact ⟨e, he, .tail hs (.inr (.inr h))⟩

theorem withHandlers_filter {st : SizeSt} {q : Nat → Bool} : ∀ (l : List Nat) (m : Int), 0 ≤ m → (∀ b ∈ l, q b = false → st.excMax b = -32768) →
    (l.filter q).foldl (fun a b => Max.max a (st.excMax b)) m = l.foldl (fun a b => Max.max a (st.excMax b)) m := by
  intro l
  induction l with
  | nil => intro m _ _; rfl
  | cons b r ih =>
    intro m hm h
    have hr := fun x (hx : x ∈ r) => h x (by simp [hx])
    cases hq : q b with
    | true =>
      simp only [List.filter_cons, hq, if_true, List.foldl_cons]
      exact ih _ (by omega) hr
    | false =>
      simp only [List.filter_cons, hq, List.foldl_cons]
      rw [h b (by simp) hq, show Max.max m (-32768 : Int) = m by omega]
      exact ih m hm hr

/-- Both analyses: they fail together, or give the same size and the same contents of the remaining blocks, provided
that the content of the removed blocks is accepted. -/
theorem computeStacksize_pruned (P : Platform) {eff : Instr → Bool → Py (Int × Int)} (heff : ∀ i j, eff i j ≠ .error .outOfFuel)
    {c c' : CFG} {D : List Nat} (depths : Bool)
    (hb : c'.blocks = c.blocks.filter (· ∉ D)) (hh : c'.heap = c.heap) (ha : c'.attrs = c.attrs)
    (hD : ∀ d ∈ D, ¬ Entered c d) (hT : OwnTries c D) :
    (∀ n g, c.computeStacksize P eff depths = .ok (n, g) →
      ∃ g', c'.computeStacksize P eff depths = .ok (n, g') ∧ ∀ b ∈ c'.blocks, g'.heap b = g.heap b) ∧
    ((∀ d ∈ D, blkIter P (c.heap d).elems = .ok ()) → ∀ n g', c'.computeStacksize P eff depths = .ok (n, g') →
      ∃ g, c.computeStacksize P eff depths = .ok (n, g)) := by
  have hp := pruned_of hb hh hD hT
  cases hbl : c.blocks with
  | nil =>
    have hbl' : c'.blocks = [] := by rw [hb, hbl]; rfl
    have e1 : c.computeStacksize P eff depths = .ok (0, c) := by unfold CFG.computeStacksize; rw [hbl]
    have e2 : c'.computeStacksize P eff depths = .ok (0, c') := by unfold CFG.computeStacksize; rw [hbl']
    rw [e1, e2]
    refine ⟨?_, ?_⟩
    · intro n g h; cases h; exact ⟨c', rfl, by simp [hbl']⟩
    · intro _ n g h; cases h; exact ⟨c, rfl⟩
  | cons b0 tl =>
    have hk0 : Entered c b0 := ⟨b0, by rw [hbl]; rfl, .refl _⟩
    have hn0 : b0 ∉ D := fun h => hD b0 h hk0
    have hbl' : c'.blocks = b0 :: tl.filter (· ∉ D) := by rw [hb, hbl]; simp [hn0]
    have hlen : c'.blocks.length ≤ c.blocks.length := by rw [hb]; exact List.length_filter_le _ _
    have htw := visit_twin (P := P) (eff := eff) hp (c'.blocks.length + 1) (c.blocks.length + 1) (by omega) b0 (initialSize P c.attrs.flags) 0 0 none none
      SizeSt.init hk0 (by omega) (by intro t h; cases h) ⟨fun _ _ => rfl, by intro t h; cases h⟩
    have hfu := visit_fgood (env := ⟨P, eff, c'⟩) heff (c'.blocks.length + 1) [] List.nodup_nil (by simp) (by simp) b0 (initialSize P c.attrs.flags) 0 0 none none
      SizeSt.init rfl
    have hcs : ∀ x : CFG, (h : ∃ t, x.blocks = b0 :: t) → x.attrs = c.attrs → x.computeStacksize P eff depths =
        (visit ⟨P, eff, x⟩ (x.blocks.length + 1) b0 (initialSize P c.attrs.flags) 0 0 none none SizeSt.init >>= fun r =>
          deadTries ⟨P, eff, x⟩ r.2 x.blocks >>= fun ids =>
            if depths then assignDepths ⟨P, eff, x⟩ r.2 (ids.foldl (fun c id => c.setDepth id 32768) x) r.2.tries >>= fun c2 =>
              .ok (withHandlers x r.2 r.1, c2)
            else .ok (withHandlers x r.2 r.1, ids.foldl (fun c id => c.setDepth id 32768) x)) := by
      rintro x ⟨t, hx⟩ hxa
      unfold CFG.computeStacksize
      split
      · rename_i h; rw [hx] at h; cases h
      · rename_i h; rw [hx] at h; cases h
        rw [hxa]
        rfl
    rw [hcs c ⟨_, hbl⟩ rfl, hcs c' ⟨_, hbl'⟩ ha]
    rcases htw with h | ⟨h, hq⟩
    · rw [h] at hfu; exact absurd rfl hfu
    · rw [← h]
      cases hv : visit ⟨P, eff, c⟩ (c.blocks.length + 1) b0 (initialSize P c.attrs.flags) 0 0 none none SizeSt.init with
      | error e => exact ⟨fun n g hx => (by cases hx), fun _ n g hx => (by cases hx)⟩
      | ok r =>
        obtain ⟨m, st⟩ := r
        obtain ⟨hm, hw⟩ := hq _ hv
        simp only at hm hw
        have hwh : withHandlers c' st m = withHandlers c st m := by
          unfold withHandlers
          rw [hb]
          refine withHandlers_filter c.blocks m hm ?_
          intro d _ hd
          exact hw.max d (hD d (by simpa using hd))
        have hsame : ∀ ids ids', deadTries ⟨P, eff, c⟩ st c.blocks = .ok ids → deadTries ⟨P, eff, c⟩ st c'.blocks = .ok ids' →
            SameOn (· ∈ c'.blocks) (ids.foldl (fun c id => c.setDepth id 32768) c) (ids'.foldl (fun c id => c.setDepth id 32768) c') := by
          intro ids ids' h1 h2 b hbm
          rw [setDepth_fold, setDepth_fold, hh]
          rw [hb, List.mem_filter] at hbm
          simp only [Blk.mk.injEq, and_true]
          refine List.map_congr_left ?_
          intro e he
          cases e with
          | tryBegin t =>
            have : t.id ∈ ids' ↔ t.id ∈ ids := by
              rw [deadIds_mem h1, deadIds_mem h2]
              constructor
              · rintro ⟨x, hx, rest⟩; exact ⟨x, hp.sub x hx, rest⟩
              · rintro ⟨x, hx, h3, u, hu, h4, h5⟩
                refine ⟨x, ?_, h3, u, hu, h4, h5⟩
                rw [hb]
                refine List.mem_filter.2 ⟨hx, ?_⟩
                simp only [decide_eq_true_eq]
                intro hxD
                exact (hT x hxD u hu b hbm.1 (by simpa using hbm.2)).2 t he h5.symm
            simp only [this]
          | _ => rfl
        have key : ∀ ids ids', deadTries ⟨P, eff, c⟩ st c.blocks = .ok ids → deadTries ⟨P, eff, c⟩ st c'.blocks = .ok ids' →
            (∃ e, (if depths then assignDepths ⟨P, eff, c⟩ st (ids.foldl (fun c id => c.setDepth id 32768) c) st.tries >>= fun c2 =>
              .ok (withHandlers c st m, c2)
            else .ok (withHandlers c st m, ids.foldl (fun c id => c.setDepth id 32768) c)) = Except.error e ∧
              (if depths then assignDepths ⟨P, eff, c'⟩ st (ids'.foldl (fun c id => c.setDepth id 32768) c') st.tries >>= fun c2 =>
              .ok (withHandlers c' st m, c2)
            else .ok (withHandlers c' st m, ids'.foldl (fun c id => c.setDepth id 32768) c')) = Except.error e) ∨
            ∃ g g', (if depths then assignDepths ⟨P, eff, c⟩ st (ids.foldl (fun c id => c.setDepth id 32768) c) st.tries >>= fun c2 =>
              .ok (withHandlers c st m, c2)
            else .ok (withHandlers c st m, ids.foldl (fun c id => c.setDepth id 32768) c)) = Except.ok (withHandlers c st m, g) ∧
              (if depths then assignDepths ⟨P, eff, c'⟩ st (ids'.foldl (fun c id => c.setDepth id 32768) c') st.tries >>= fun c2 =>
              .ok (withHandlers c' st m, c2)
            else .ok (withHandlers c' st m, ids'.foldl (fun c id => c.setDepth id 32768) c')) = Except.ok (withHandlers c st m, g') ∧
              SameOn (· ∈ c'.blocks) g g' := by
          intro ids ids' h1 h2
          cases depths with
          | false => exact .inr ⟨_, _, rfl, by rw [hwh]; rfl, hsame ids ids' h1 h2⟩
          | true =>
            rcases assign_same (P := P) (eff := eff) hp (st := st) st.tries hw.tries _ _ (hsame ids ids' h1 h2) with ⟨e, a1, a2⟩ | ⟨g, g', a1, a2, a3⟩
            · refine .inl ⟨e, ?_, ?_⟩
              · simp only [if_true, a1]; rfl
              · simp only [if_true, a2]; rfl
            · refine .inr ⟨g, g', ?_, ?_, a3⟩
              · simp only [if_true, a1]; rfl
              · simp only [if_true, a2, hwh]; rfl
        constructor
        · intro n g hx
          obtain ⟨ids, h1, hx⟩ := except_bind_ok (show (deadTries ⟨P, eff, c⟩ st c.blocks >>= _) = _ from hx)
          obtain ⟨ids', h2⟩ := deadIds_iff.2 (fun b hb0 => deadIds_iff.1 ⟨ids, h1⟩ b (hp.sub b hb0))
          rcases key ids ids' h1 h2 with ⟨e, k1, k2⟩ | ⟨g1, g1', k1, k2, k3⟩
          · rw [k1] at hx; cases hx
          · rw [k1] at hx
            cases hx
            refine ⟨g1', ?_, k3⟩
            show (deadTries ⟨P, eff, c'⟩ st c'.blocks >>= _) = _
            rw [deadTries_env hh, h2]
            exact k2
        · intro hit n g hx
          obtain ⟨ids', h2, hx⟩ := except_bind_ok (show (deadTries ⟨P, eff, c'⟩ st c'.blocks >>= _) = _ from hx)
          rw [deadTries_env hh] at h2
          obtain ⟨ids, h1⟩ := (deadIds_iff (P := P) (eff := eff) (c := c) (st := st) (l := c.blocks)).2 (fun b hb0 he => by
            by_cases hbD : b ∈ D
            · exact hit b hbD
            · exact deadIds_iff.1 ⟨ids', h2⟩ b (by rw [hb]; exact List.mem_filter.2 ⟨hb0, by simpa using hbD⟩) he)
          rcases key ids ids' h1 h2 with ⟨e, k1, k2⟩ | ⟨g1, g1', k1, k2, k3⟩
          · rw [k2] at hx; cases hx
          · rw [k2] at hx
            cases hx
            refine ⟨g1, ?_⟩
            show (deadTries ⟨P, eff, c⟩ st c.blocks >>= _) = _
            rw [h1]
            exact k1

/-- **C85.** After the deletion of blocks that control cannot enter, `compute_stacksize` returns the same size as before
and records the same depths in the remaining blocks. -/
theorem C85_size (P : Platform) {eff : Instr → Bool → Py (Int × Int)} (heff : ∀ i j, eff i j ≠ .error .outOfFuel)
    {c c' : CFG} {D : List Nat} (hi : IndexOK c) (hc : Closed c) (hD : ∀ d ∈ D, ¬ Entered c d) (hT : OwnTries c D)
    (hdel : Deleted c D c') {depths : Bool} {n : Int} {g : CFG} (h : c.computeStacksize P eff depths = .ok (n, g)) :
    ∃ g', c'.computeStacksize P eff depths = .ok (n, g') ∧ ∀ b ∈ c'.blocks, g'.heap b = g.heap b := by
  obtain ⟨h1, h2, h3⟩ := deleted_inv (inv_of_index hi hc) hdel
  exact (computeStacksize_pruned P heff depths h1 h2 h3 hD hT).1 n g h

/-- **C85 (failures).** When the deleted blocks could be iterated, `compute_stacksize` succeeds after the deletion only if
it did before, with the same size. -/
theorem C85_before (P : Platform) {eff : Instr → Bool → Py (Int × Int)} (heff : ∀ i j, eff i j ≠ .error .outOfFuel)
    {c c' : CFG} {D : List Nat} (hi : IndexOK c) (hc : Closed c) (hD : ∀ d ∈ D, ¬ Entered c d) (hT : OwnTries c D)
    (hok : ∀ d ∈ D, blkIter P (c.heap d).elems = .ok ())
    (hdel : Deleted c D c') {depths : Bool} {n : Int} {g' : CFG} (h : c'.computeStacksize P eff depths = .ok (n, g')) :
    ∃ g, c.computeStacksize P eff depths = .ok (n, g) := by
  obtain ⟨h1, h2, h3⟩ := deleted_inv (inv_of_index hi hc) hdel
  exact (computeStacksize_pruned P heff depths h1 h2 h3 hD hT).2 hok n g' h

/-- The code of the other blocks is left in place, in the same order. -/
theorem C85_code {c c' : CFG} {D : List Nat} (hi : IndexOK c) (hc : Closed c) (hdel : Deleted c D c') :
    allCode c' = (c.blocks.filter (· ∉ D)).flatMap (fun b => (c.heap b).elems) := by
  obtain ⟨h1, h2, -⟩ := deleted_inv (inv_of_index hi hc) hdel
  unfold allCode
  rw [h1, h2]

/-- **C85 with `get_dead_blocks`.** When every fall-through out of an entered block is also written as a jump, and the
protected regions of the entered blocks begin in them, the blocks that `get_dead_blocks` returns are not entered. -/
theorem C85_dead_blocks_partial (P : Platform) {c : CFG} (hc : Closed c) {dead : List Nat} (h : c.getDeadBlocks P = .ok dead)
    (hfall : ∀ a b, Entered c a → FallEdge c a b → JumpEdge c a b)
    (hend : ∀ a b, Entered c a → EndEdge c a b → JumpReachable c b) : ∀ d ∈ dead, ¬ Entered c d := by
  intro d hd he
  refine ((((C28_dead_blocks P c hc).2 dead h).2 d).1 hd).2 ?_
  obtain ⟨e, h0, hs⟩ := he
  clear hd
  induction hs with
  | refl => exact ⟨e, h0, .refl _⟩
  | tail hs hedge ih =>
    rename_i x y
    have ex : Entered c x := ⟨e, h0, hs⟩
    rcases hedge with hj | hf | he
    · obtain ⟨e', h1, h2⟩ := ih
      exact ⟨e', h1, .tail h2 hj⟩
    · obtain ⟨e', h1, h2⟩ := ih
      exact ⟨e', h1, .tail h2 (hfall _ _ ex hf)⟩
    · exact hend _ _ ex he

end Verif
