import Verif.Spec.Uses
import Verif.Proofs.Convert
/-
The tables built by the conversion to concrete bytecode are the values used, in the order of their first use.
-/
namespace Verif
open Spec
section
variable {κ : Type} [DecidableEq κ] {P : Platform} {key : Arg → κ} {b : Bytecode} {c : Concrete}

/-- Adding values one after the other. -/
def addAll {α : Type} (key : α → κ) (acc : List α) (l : List α) : List α :=
  l.foldl (fun a v => if key v ∈ a.map key then a else a ++ [v]) acc

theorem addAll_append {α : Type} (key : α → κ) (acc l m : List α) : addAll key acc (l ++ m) = addAll key (addAll key acc l) m := by
  unfold addAll; rw [List.foldl_append]

theorem addAll_firsts {α : Type} (key : α → κ) (l : List α) : ∀ acc, addAll key acc l = acc ++ (firsts key l).filter (fun v => decide (key v ∉ acc.map key)) := by
  induction l with
  | nil => intro acc; simp [addAll, firsts]
  | cons x r ih =>
    intro acc
    have hs : addAll key acc (x :: r) = addAll key (if key x ∈ acc.map key then acc else acc ++ [x]) r := rfl
    rw [hs, ih, firsts]
    by_cases h : key x ∈ acc.map key
    · rw [if_pos h, List.filter_cons_of_neg (by simpa using h), List.filter_filter]
      congr 1
      apply List.filter_congr
      intro y _
      by_cases hy : key y ∈ acc.map key
      · simp [hy]
      · have : key y ≠ key x := fun e => hy (e ▸ h)
        simp [this]
    · rw [if_neg h, List.filter_cons_of_pos (by simpa using h), List.filter_filter, List.append_assoc]
      congr 1
      simp only [List.singleton_append, List.cons.injEq, true_and]
      apply List.filter_congr
      intro y _
      simp only [List.map_append, List.map_cons, List.map_nil, List.mem_append, List.mem_singleton, not_or, Bool.decide_and]

theorem addConst_all (key : Arg → κ) (l : List Arg) (v : Arg) : (addConst key l v).1 = addAll key l [v] := by
  simp only [addConst, addAll, List.foldl_cons, List.foldl_nil]; split <;> rfl

theorem addTo_all (l : List String) (n : String) : (addTo l n).1 = addAll id l [n] := by
  simp only [addTo, addAll, List.foldl_cons, List.foldl_nil, List.map_id, id]; split <;> rfl

theorem addTo_all2 (l : List String) (n m : String) : (addTo (addTo l n).1 m).1 = addAll id l [n, m] := by
  rw [addTo_all, addTo_all, ← addAll_append]; rfl

/-- One instruction. -/
theorem encode_uses (hP : P.WF) {A : Attrs} {T T1 : Tabs} {i : Instr} {enc : Enc} (hv : ValidInstr P i)
    (h : encodeOperand P key A T i = .ok (T1, enc)) :
    T1 = { consts := addAll key T.consts (constUse P i), names := addAll id T.names (nameUse P i), varnames := addAll id T.varnames (localUse P i) } := by
  have hK := kinds_excl hP i.opcode
  have hc' : ∀ {v l k}, addConst key T.consts v = (l, k) → l = addAll key T.consts [v] := by
    intro v l k he; rw [← addConst_all, he]
  have ha' : ∀ {L v l k}, addTo L v = (l, k) → l = addAll id L [v] := by
    intro L v l k he; rw [← addTo_all, he]
  have ha2 : ∀ {L v w l k m j}, addTo L v = (l, k) → addTo l w = (m, j) → m = addAll id L [v, w] := by
    intro L v w l k m j he he2
    have e1 : l = (addTo L v).1 := by rw [he]
    rw [← addTo_all2, ← e1, he2]
  obtain ⟨tc, tn, tv⟩ := T
  have e0 : ∀ {α κ : Type} [DecidableEq κ] (k : α → κ) (l : List α), addAll k l [] = l := fun _ _ => rfl
  unfold constUse nameUse localUse
  by_cases hc : P.hasconst i.opcode = true
  · have := hK.const hc
    have hl : P.haslocal i.opcode = false := by grind
    have hn : P.hasname i.opcode = false := by grind
    have hnl := (hv.arg_ok.const hc).1
    unfold encodeOperand at h
    simp only [hc, hl, hn, if_true, Bool.false_eq_true, if_false, e0] at h ⊢
    simp only [Except.ok.injEq, Prod.mk.injEq] at h
    obtain ⟨rfl, _⟩ := h
    rw [addConst_all]
  · by_cases hl : P.haslocal i.opcode = true
    · have := hK.local_ hl
      have hn : P.hasname i.opcode = false := by grind
      unfold encodeOperand at h
      simp only [hc, hl, hn, if_true, Bool.false_eq_true, if_false, e0] at h ⊢
      repeat' split at h
      all_goals first
        | (simp only [Except.ok.injEq, Prod.mk.injEq] at h
           obtain ⟨rfl, _⟩ := h
           simp_all only [addTo_all]
           done)
        | (simp only [Except.ok.injEq, Prod.mk.injEq] at h
           obtain ⟨rfl, _⟩ := h
           simp_all only
           rw [addTo_all2]
           done)
        | (simp only [Except.ok.injEq, Prod.mk.injEq] at h
           obtain ⟨rfl, _⟩ := h
           simp_all [e0]
           done)
        | (simp at h; done)
        | (obtain ⟨x, hx, h⟩ := except_bind_ok h
           simp only [pure, Except.pure, Except.ok.injEq, Prod.mk.injEq] at h
           obtain ⟨rfl, _⟩ := h
           simp_all [e0])
    · by_cases hn : P.hasname i.opcode = true
      · unfold encodeOperand at h
        simp only [hc, hl, hn, if_true, Bool.false_eq_true, if_false, e0] at h ⊢
        repeat' split at h
        all_goals first
          | (simp only [Except.ok.injEq, Prod.mk.injEq] at h
             obtain ⟨rfl, _⟩ := h
             simp_all only [addTo_all2, addTo_all]
             done)
          | (simp only [Except.ok.injEq, Prod.mk.injEq] at h
             obtain ⟨rfl, _⟩ := h
             simp_all [e0]
             done)
          | (simp at h; done)
      · unfold encodeOperand at h
        simp only [hc, hl, hn, if_true, Bool.false_eq_true, if_false, e0] at h ⊢
        repeat' split at h
        all_goals first
          | (simp only [Except.ok.injEq, Prod.mk.injEq] at h
             obtain ⟨rfl, _⟩ := h
             rfl)
          | (simp at h; done)
          | (obtain ⟨x, hx, h⟩ := except_bind_ok h
             simp only [pure, Except.pure, Except.ok.injEq, Prod.mk.injEq] at h
             obtain ⟨rfl, _⟩ := h
             rfl)

/-- All the instructions. -/
theorem conv_uses (hP : P.WF) (es : List BElem) (hv : ∀ i, .instr i ∈ es → ValidInstr P i) (A : Attrs) : ∀ (st st' : Conv),
    es.foldlM (Conv.step P key A) st = .ok st' →
    st'.tabs = { consts := addAll key st.tabs.consts (usesOf (constUse P) es), names := addAll id st.tabs.names (usesOf (nameUse P) es),
                 varnames := addAll id st.tabs.varnames (usesOf (localUse P) es) } := by
  induction es with
  | nil =>
    intro st st' h
    simp only [List.foldlM_nil, pure, Except.pure, Except.ok.injEq] at h
    subst h; rfl
  | cons e es ih =>
    intro st st' h
    rw [List.foldlM_cons] at h
    obtain ⟨s, hs, h⟩ := except_bind_ok h
    rw [ih (fun i hi => hv i (by simp [hi])) s st' h]
    unfold Conv.step at hs
    obtain ⟨s', hs', hs⟩ := except_bind_ok hs
    have h1 := cacheStep_tabs hs'
    have key' : s.tabs = st.tabs → (∀ {α : Type} (f : Instr → List α), usesOf f (e :: es) = usesOf f es) →
        ({ consts := addAll key s.tabs.consts (usesOf (constUse P) es), names := addAll id s.tabs.names (usesOf (nameUse P) es),
           varnames := addAll id s.tabs.varnames (usesOf (localUse P) es) } : Tabs) =
        { consts := addAll key st.tabs.consts (usesOf (constUse P) (e :: es)), names := addAll id st.tabs.names (usesOf (nameUse P) (e :: es)),
          varnames := addAll id st.tabs.varnames (usesOf (localUse P) (e :: es)) } := by
      intro e1 e2; rw [e1, e2, e2, e2]
    cases e with
    | label l => simp only [Conv.elem, Except.ok.injEq] at hs; subst hs; exact key' h1 (fun _ => rfl)
    | setLineno l => simp only [Conv.elem, Except.ok.injEq] at hs; subst hs; exact key' h1 (fun _ => rfl)
    | tryBegin t =>
      simp only [Conv.elem] at hs
      split at hs
      · simp at hs
      · simp only [Except.ok.injEq] at hs; subst hs; exact key' h1 (fun _ => rfl)
    | tryEnd id =>
      simp only [Conv.elem] at hs
      split at hs
      · simp only [Except.ok.injEq] at hs; subst hs; exact key' h1 (fun _ => rfl)
      · simp at hs
    | instr i =>
      simp only [Conv.elem] at hs
      obtain ⟨⟨T1, enc⟩, henc, hs⟩ := except_bind_ok hs
      have h2 := encode_uses hP (hv i (by simp)) henc
      have h3 : s.tabs = T1 := by
        cases enc with
        | plain a => simp only at hs; rw [push_tabs hs]
        | jump a => simp only at hs; rw [push_tabs hs]
        | cell a => simp only at hs; rw [push_tabs hs]
        | free a => simp only at hs; rw [push_tabs hs]
        | split n1 i1 n2 i2 =>
          simp only at hs
          obtain ⟨ci, _, hs⟩ := except_bind_ok hs
          rw [push_tabs hs]
      rw [h3, h2, h1]
      simp only [usesOf, List.flatMap_cons, addAll_append]

theorem prepass_uses {vs vs' : List String} {es : List BElem} (hP : P.WF) (hv : ∀ i, .instr i ∈ es → ValidInstr P i) (h : prepass P vs es = .ok vs') :
    vs' = addAll id vs (if P.py313 then usesOf (dualUse P) es else []) := by
  unfold prepass at h
  split at h
  · rename_i h13
    rw [if_pos h13]
    induction es generalizing vs with
    | nil => simp only [List.foldlM_nil, pure, Except.pure, Except.ok.injEq] at h; subst h; rfl
    | cons e es ih =>
      rw [List.foldlM_cons] at h
      obtain ⟨x, hx, h2⟩ := except_bind_ok h
      have hr := ih (fun i hi => hv i (by simp [hi])) h2
      rw [hr]
      simp only [usesOf, List.flatMap_cons, addAll_append]
      congr 1
      cases e with
      | instr i =>
        simp only [prepassElem] at hx
        unfold dualUse
        split at hx
        · rename_i hd
          simp only [hd, if_true]
          obtain ⟨a, c, harg, _⟩ := (hv i (by simp)).arg_ok.dual hd
          rw [harg] at hx
          simp only [List.foldlM_cons, List.foldlM_nil] at hx
          obtain ⟨y, hy, hx⟩ := except_bind_ok hx
          obtain ⟨z, hz, hx⟩ := except_bind_ok hx
          simp only [pure, Except.pure, Except.ok.injEq] at hx
          subst hx
          split at hy
          · split at hz
            · simp only [Except.ok.injEq] at hy hz
              subst hy; subst hz
              unfold localUse
              rw [if_pos (hP.dual_local _ hd), harg, addTo_all2]
            · cases hz
          · cases hy
        · rename_i hd
          simp only [hd, Bool.false_eq_true, if_false]
          simp only [Except.ok.injEq] at hx; subst hx; rfl
      | _ => simp only [prepassElem, Except.ok.injEq] at hx; subst hx; rfl
  · rename_i h13
    simp only [Except.ok.injEq] at h; subst h
    rw [if_neg h13]; rfl

theorem firsts_sub {α : Type} (key : α → κ) (l : List α) : ∀ x ∈ firsts key l, x ∈ l := by
  induction l with
  | nil => intro x h; cases h
  | cons y r ih =>
    intro x h
    rcases List.mem_cons.1 h with rfl | h
    · simp
    · exact List.mem_cons_of_mem _ (ih x (List.mem_filter.1 h).1)

theorem firsts_nodup {α : Type} (key : α → κ) (l : List α) : ((firsts key l).map key).Nodup := by
  induction l with
  | nil => simp [firsts]
  | cons y r ih =>
    rw [firsts, List.map_cons, List.nodup_cons]
    refine ⟨?_, (List.filter_sublist.map key).nodup ih⟩
    intro h
    obtain ⟨z, hz, he⟩ := List.mem_map.1 h
    have := (List.mem_filter.1 hz).2
    simp [he] at this

theorem firsts_append {α : Type} (key : α → κ) (l m : List α) : firsts key (l ++ m) = addAll key (firsts key l) m := by
  have h : ∀ l, addAll key [] l = firsts key l := by
    intro l; rw [addAll_firsts]; simp
  rw [← h (l ++ m), addAll_append, h]
end
end Verif
