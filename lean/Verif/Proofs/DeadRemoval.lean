import Verif.Spec.Entered
import Verif.Proofs.StackFuel
import Verif.Proofs.StackReasons
/-
The stack analysis does not depend on the blocks it never enters.
-/
namespace Verif
open Spec

/-- Same result unless the second ran out of fuel, and a property of the result. -/
def Twin {α : Type} (Q : α → Prop) (x x' : Py α) : Prop :=
  x' = .error .outOfFuel ∨ (x = x' ∧ ∀ r, x = .ok r → Q r)

theorem Twin.bind {α β : Type} {Q : α → Prop} {Q' : β → Prop} {x x' : Py α} {f f' : α → Py β} (hx : Twin Q x x')
    (hf : ∀ a, Q a → Twin Q' (f a) (f' a)) : Twin Q' (x >>= f) (x' >>= f') := by
  rcases hx with rfl | ⟨rfl, hq⟩
  · exact .inl rfl
  · cases x with
    | ok a => exact hf a (hq a rfl)
    | error e => exact .inr ⟨rfl, fun r h => by cases h⟩

theorem Twin.refl {α : Type} {x : Py α} {Q : α → Prop} (h : ∀ r, x = .ok r → Q r) : Twin Q x x := .inr ⟨rfl, h⟩

theorem Twin.ok {α : Type} {Q : α → Prop} {a : α} (h : Q a) : Twin Q (.ok a) (.ok a) := .inr ⟨rfl, fun r e => by cases e; exact h⟩

theorem Twin.err {α : Type} {Q : α → Prop} {e : PyErr} : Twin Q (.error e : Py α) (.error e) := .inr ⟨rfl, fun r e => by cases e⟩

/-- Nothing was recorded for the blocks outside `K`, and the handlers met are in `K`. -/
structure Within (K : Nat → Prop) (st : SizeSt) : Prop where
  max : ∀ d, ¬ K d → st.excMax d = -32768
  tries : ∀ t ∈ st.tries, K t.target

def CurIn (K : Nat → Prop) (o : Option TryB) : Prop := ∀ t, o = some t → K t.target

def TwinRec (K : Nat → Prop) (rec rec' : Visit) : Prop :=
  ∀ X s mx mn h p st, K X → 0 ≤ mx → CurIn K p → Within K st →
    Twin (fun r => 0 ≤ r.1 ∧ Within K r.2) (rec X s mx mn h p st) (rec' X s mx mn h p st)

theorem update_twin (s : SizeLoc) (e : Int × Int) (h0 : 0 ≤ s.max) :
    Twin (fun (s' : SizeLoc) => 0 ≤ s'.max ∧ s'.cur = s.cur) (s.update e) (s.update e) := by
  refine Twin.refl ?_
  intro r hr
  unfold SizeLoc.update at hr
  split at hr
  · cases hr
  · cases hr
    exact ⟨by simp only; omega, rfl⟩

/-- What the two graphs share: `c'` is `c` without some blocks outside `K`. -/
structure Pruned (c c' : CFG) (K : Nat → Prop) : Prop where
  heap : c'.heap = c.heap
  sub : ∀ b ∈ c'.blocks, b ∈ c.blocks
  keep : ∀ b ∈ c.blocks, K b → b ∈ c'.blocks
  find : ∀ b id, b ∈ c.blocks → K b → BElem.tryEnd id ∈ (c.heap b).elems → c'.findTry id = c.findTry id
  jump : ∀ a b, K a → JumpEdge c a b → K b
  fall : ∀ a b, K a → FallEdge c a b → K b
  end_ : ∀ a b, K a → EndEdge c a b → K b

variable {P : Platform} {eff : Instr → Bool → Py (Int × Int)} {c c' : CFG} {K : Nat → Prop}

theorem Pruned.mem (hp : Pruned c c' K) {b : Nat} (hk : K b) : b ∈ c.blocks ↔ b ∈ c'.blocks :=
  ⟨fun h => hp.keep b h hk, hp.sub b⟩

theorem handlerUsage_twin (hp : Pruned c c' K) {rec rec' : Visit} (hrec : TwinRec K rec rec') (s : SizeLoc) (t : Nat) (l : Bool)
    (st : SizeSt) (hk : K t) (hm : 0 ≤ s.max) (hs : Within K st) :
    Twin (Within K) (handlerUsage ⟨P, eff, c⟩ rec s t l st) (handlerUsage ⟨P, eff, c'⟩ rec' s t l st) := by
  unfold handlerUsage
  simp only [hp.mem hk]
  split
  · split
    · refine Twin.bind (hrec _ _ _ _ _ _ st hk hm (by intro t h; cases h) hs) ?_
      rintro ⟨m, st'⟩ ⟨-, h⟩
      refine Twin.ok ⟨?_, h.tries⟩
      intro d hd
      simp only [upd]
      split
      · rename_i e; subst e; exact absurd hk hd
      · exact h.max d hd
    · exact Twin.ok hs
  · exact Twin.err

theorem leaveBlock_twin {b : Nat} {s : SizeLoc} {st : SizeSt} (hm : 0 ≤ s.max) (hs : Within K st) :
    Twin (fun r => 0 ≤ r.1 ∧ Within K r.2) (leaveBlock b s st) (leaveBlock b s st) :=
  Twin.ok ⟨hm, hs.max, hs.tries⟩

theorem findTry_begin {c : CFG} {id : Nat} {t : TryB} (h : c.findTry id = some t) : BElem.tryBegin t ∈ allCode c ∧ t.id = id := by
  unfold CFG.findTry at h
  obtain ⟨x, hx, h⟩ := List.exists_of_findSome?_eq_some h
  cases x with
  | tryBegin u =>
    simp only at h
    split at h
    · rename_i e; cases h; exact ⟨hx, e⟩
    · cases h
  | _ => simp at h

theorem finalTryEnd_twin (hp : Pruned c c' K) {rec rec' : Visit} (hrec : TwinRec K rec rec') {b : Nat} (hb : b ∈ c.blocks) (hk : K b)
    {pre r : List BElem} (hsplit : (c.heap b).elems = pre ++ r) (s : SizeLoc) (st : SizeSt) (hm : 0 ≤ s.max) (hs : Within K st) :
    Twin (Within K) (finalTryEnd ⟨P, eff, c⟩ rec s r st) (finalTryEnd ⟨P, eff, c'⟩ rec' s r st) := by
  unfold finalTryEnd
  split
  · exact Twin.ok hs
  · rename_i id hid
    have hmem : BElem.tryEnd id ∈ (c.heap b).elems := by rw [hsplit]; exact List.mem_append_right _ (nextEnd_mem hid)
    simp only [hp.find b id hb hk hmem]
    split
    · rename_i t ht
      obtain ⟨h1, h2⟩ := findTry_begin ht
      exact handlerUsage_twin hp hrec s _ _ st (hp.end_ b _ hk ⟨id, t, hmem, h1, h2, rfl⟩) hm hs
    · exact Twin.err

theorem uncondTryEnd_twin (hp : Pruned c c' K) {rec rec' : Visit} (hrec : TwinRec K rec rec') (s : SizeLoc) (r : List BElem)
    (st : SizeSt) (hc : CurIn K s.cur) (hm : 0 ≤ s.max) (hs : Within K st) :
    Twin (Within K) (uncondTryEnd ⟨P, eff, c⟩ rec s r st) (uncondTryEnd ⟨P, eff, c'⟩ rec' s r st) := by
  unfold uncondTryEnd
  split
  · rename_i id t h1 h2
    split
    · exact handlerUsage_twin hp hrec s _ _ st (hc t h2) hm hs
    · exact Twin.ok hs
  · exact Twin.ok hs

theorem asBlock_eq {a : Arg} {b : Nat} (h : a.asBlock = some b) : a = .block b := by
  cases a <;> simp_all [Arg.asBlock]

theorem fallsThrough_of {es : List BElem} (h : ∀ i, BElem.instr i ∈ es → isFinal i.name = false) : fallsThrough es = true := by
  unfold fallsThrough
  split
  · rename_i i hi
    unfold lastInstr at hi
    obtain ⟨x, hx, hi⟩ := List.exists_of_findSome?_eq_some hi
    cases x with
    | instr j => cases hi; simp [h _ (List.mem_reverse.1 hx)]
    | _ => simp at hi
  · rfl

theorem runElems_twin (hp : Pruned c c' K) {rec rec' : Visit} (hrec : TwinRec K rec rec') {b : Nat} (hb : b ∈ c.blocks) (hk : K b) :
    ∀ (es pre : List BElem) (s : SizeLoc) (st : SizeSt), (c.heap b).elems = pre ++ es → (∀ i, BElem.instr i ∈ pre → isFinal i.name = false) →
    0 ≤ s.max → CurIn K s.cur → Within K st →
    Twin (fun r => 0 ≤ r.1 ∧ Within K r.2) (runElems ⟨P, eff, c⟩ rec b es s st) (runElems ⟨P, eff, c'⟩ rec' b es s st) := by
  intro es
  induction es with
  | nil =>
    intro pre s st hsp hpre hm hc hs
    unfold runElems runEnd
    simp only [hp.heap]
    split
    · exact leaveBlock_twin hm hs
    · rename_i n hn
      split
      · exact leaveBlock_twin hm hs
      · have hf : FallEdge c b n := ⟨hn, fallsThrough_of (by rw [hsp, List.append_nil]; exact hpre)⟩
        refine Twin.bind (hrec _ _ _ _ _ _ st (hp.fall b n hk hf) hm hc hs) ?_
        rintro ⟨m, st'⟩ ⟨h1, h2⟩
        exact leaveBlock_twin h1 h2
  | cons x r ih =>
    intro pre s st hsp hpre hm hc hs
    have hsp' : (c.heap b).elems = (pre ++ [x]) ++ r := by rw [hsp]; simp
    have hx : x ∈ (c.heap b).elems := by rw [hsp]; simp
    have hfall : ∀ (i : Instr) (s1 : SizeLoc) (st1 : SizeSt), x = .instr i → 0 ≤ s1.max → CurIn K s1.cur → Within K st1 →
        Twin (fun r => 0 ≤ r.1 ∧ Within K r.2) (do
            let e ← eff i false
            let s ← s1.update e
            if isFinal i.name then do
              let st ← finalTryEnd ⟨P, eff, c⟩ rec s r st1
              leaveBlock b s st
            else runElems ⟨P, eff, c⟩ rec b r s st1) (do
            let e ← eff i false
            let s ← s1.update e
            if isFinal i.name then do
              let st ← finalTryEnd ⟨P, eff, c'⟩ rec' s r st1
              leaveBlock b s st
            else runElems ⟨P, eff, c'⟩ rec' b r s st1) := by
      intro i s1 st1 hi h1 h2 h3
      refine Twin.bind (Q := fun _ => True) (Twin.refl fun _ _ => trivial) fun e _ => ?_
      refine Twin.bind (update_twin s1 e h1) ?_
      rintro s2 ⟨h4, h5⟩
      split
      · refine Twin.bind (finalTryEnd_twin hp hrec hb hk hsp' s2 st1 h4 h3) fun st2 h6 => ?_
        exact leaveBlock_twin h4 h6
      · rename_i hnf
        refine ih (pre ++ [x]) s2 st1 hsp' ?_ h4 (by rw [h5]; exact h2) h3
        intro j hj
        rcases List.mem_append.1 hj with hj | hj
        · exact hpre j hj
        · simp only [List.mem_singleton] at hj
          rw [hi] at hj; cases hj
          simpa using hnf
    have hpre' : (∀ i, x ≠ .instr i) → ∀ i, BElem.instr i ∈ pre ++ [x] → isFinal i.name = false := by
      intro hne j hj
      rcases List.mem_append.1 hj with hj | hj
      · exact hpre j hj
      · simp only [List.mem_singleton] at hj
        exact absurd hj.symm (hne j)
    unfold runElems
    refine Twin.bind (Q := fun _ => True) (Twin.refl fun _ _ => trivial) fun _ _ => ?_
    cases x with
    | label l => exact Twin.err
    | setLineno n => exact ih _ s st hsp' (hpre' (by simp)) hm hc hs
    | tryBegin t =>
      refine Twin.bind (Q := fun _ => True) (Twin.refl fun _ _ => trivial) fun _ _ => ?_
      have hkt : K t.target := hp.jump b _ hk (.inr ⟨t, hx, rfl⟩)
      refine ih _ _ _ hsp' (hpre' (by simp)) hm ?_ ⟨hs.max, ?_⟩
      · intro u hu; cases hu; exact hkt
      · intro u hu
        rcases List.mem_append.1 hu with hu | hu
        · exact hs.tries u hu
        · simp only [List.mem_singleton] at hu; subst hu; exact hkt
    | tryEnd id =>
      simp only
      split
      · exact ih _ s st hsp' (hpre' (by simp)) hm hc hs
      · rename_i t ht
        split
        · refine Twin.bind (handlerUsage_twin hp hrec _ _ _ st (hc t ht) hm hs) fun st1 h1 => ?_
          exact ih _ _ st1 hsp' (hpre' (by simp)) hm (by intro u hu; cases hu) h1
        · exact ih _ s st hsp' (hpre' (by simp)) hm hc hs
    | instr i =>
      simp only
      split
      · have hjt : Twin (fun p => (0 ≤ p.1.max ∧ CurIn K p.1.cur) ∧ Within K p.2) (jumpTaken ⟨P, eff, c⟩ rec i r s st)
            (jumpTaken ⟨P, eff, c'⟩ rec' i r s st) := by
          unfold jumpTaken
          refine Twin.bind (Q := fun _ => True) (Twin.refl fun _ _ => trivial) fun e _ => ?_
          refine Twin.bind (update_twin s e hm) ?_
          rintro s1 ⟨h1, h2⟩
          split
          · exact Twin.err
          · rename_i t ht
            have hkt : K t := hp.jump b _ hk (.inl ⟨i, hx, asBlock_eq ht⟩)
            refine Twin.bind (hrec _ _ _ _ _ _ st hkt h1 ?_ hs) ?_
            · split
              · intro u hu; cases hu
              · exact hc
            · rintro ⟨m, st'⟩ ⟨h3, h4⟩
              exact Twin.ok ⟨⟨by simp only; omega, hc⟩, h4⟩
        refine Twin.bind hjt ?_
        rintro ⟨s1, st1⟩ ⟨⟨h1, h2⟩, h3⟩
        simp only
        split
        · refine Twin.bind (uncondTryEnd_twin hp hrec s1 r st1 h2 h1 h3) fun st2 h4 => ?_
          exact leaveBlock_twin h1 h4
        · exact hfall i s1 st1 rfl h1 h2 h3
      · exact hfall i s st rfl hm hc hs

theorem visit_twin (hp : Pruned c c' K) : ∀ (fuel' fuel : Nat), fuel' ≤ fuel →
    TwinRec K (visit ⟨P, eff, c⟩ fuel) (visit ⟨P, eff, c'⟩ fuel') := by
  intro fuel'
  induction fuel' with
  | zero => intro fuel _ X s mx mn h p st _ _ _ _; exact .inl rfl
  | succ fuel' ih =>
    intro fuel hle X s mx mn h p st hk hm hc hs
    cases fuel with
    | zero => omega
    | succ fuel =>
      unfold visit
      simp only [hp.mem hk, hp.heap]
      split
      · exact Twin.ok ⟨hm, hs⟩
      · split
        · exact Twin.err
        · rename_i hb
          split
          · exact Twin.ok ⟨hm, hs⟩
          · have hent : Twin (fun (s' : SizeLoc) => 0 ≤ s'.max ∧ s'.cur = p) (enterHandler h ⟨s, mx, mn, p⟩) (enterHandler h ⟨s, mx, mn, p⟩) := by
              unfold enterHandler
              split
              · exact Twin.ok ⟨hm, rfl⟩
              · exact update_twin _ _ hm
            refine Twin.bind hent ?_
            rintro s1 ⟨h1, h2⟩
            refine runElems_twin hp (ih fuel (by omega)) ((hp.mem hk).2 (by simpa using hb)) hk _ [] s1 _ rfl (by simp) h1 (by rw [h2]; exact hc) ⟨hs.max, hs.tries⟩

end Verif
