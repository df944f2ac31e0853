import Verif.Model.ToConcrete
import Verif.Spec.Program
import Verif.Spec.Operands
import Verif.Proofs.Disassemble
import Verif.Proofs.Instr
/-
The tables only grow, and an index once given keeps its meaning.
-/
namespace Verif
open Spec

theorem except_bind_ok {ε α β : Type} {x : Except ε α} {f : α → Except ε β} {b : β} (h : (x >>= f) = .ok b) :
    ∃ a, x = .ok a ∧ f a = .ok b := by
  cases x with
  | error e => simp [bind, Except.bind] at h
  | ok a => exact ⟨a, rfl, h⟩

/-- `T` is an earlier state of the tables `T'`. -/
structure Tabs.Le (T T' : Tabs) : Prop where
  consts : T.consts <+: T'.consts
  names : T.names <+: T'.names
  varnames : T.varnames <+: T'.varnames

theorem Tabs.Le.refl (T : Tabs) : T.Le T := ⟨List.prefix_refl _, List.prefix_refl _, List.prefix_refl _⟩
theorem Tabs.Le.trans {T1 T2 T3 : Tabs} (h : T1.Le T2) (h' : T2.Le T3) : T1.Le T3 :=
  ⟨h.consts.trans h'.consts, h.names.trans h'.names, h.varnames.trans h'.varnames⟩

theorem idxOf_app_mem {α} [DecidableEq α] {l t : List α} {a : α} (h : a ∈ l) : (l ++ t).idxOf a = l.idxOf a := by
  rw [List.idxOf_append, if_pos h]
theorem idxOf_app_new {α} [DecidableEq α] {l : List α} {a : α} (h : a ∉ l) : (l ++ [a]).idxOf a = l.length := by
  rw [List.idxOf_append, if_neg h]; simp
theorem get_idxOf {α} [DecidableEq α] {l : List α} {a : α} (h : a ∈ l) : l[l.idxOf a]? = some a := by
  rw [List.getElem?_eq_getElem (List.idxOf_lt_length_of_mem h), List.getElem_idxOf]

theorem addTo_prefix (l : List String) (n : String) : l <+: (addTo l n).1 := by
  unfold addTo; split <;> simp
theorem addTo_mem (l : List String) (n : String) : n ∈ (addTo l n).1 := by
  unfold addTo; split <;> simp_all
theorem addTo_idx (l : List String) (n : String) : (addTo l n).2 = (addTo l n).1.idxOf n := by
  unfold addTo; split
  · rfl
  · rename_i h; exact (idxOf_app_new h).symm
theorem addTo_get (l : List String) (n : String) : (addTo l n).1[(addTo l n).2]? = some n := by
  rw [addTo_idx]
  exact get_idxOf (addTo_mem l n)
theorem addTo_stable {l l2 : List String} {n : String} (h : (addTo l n).1 <+: l2) : addTo l2 n = (l2, (addTo l n).2) := by
  obtain ⟨t, rfl⟩ := h
  have hm := addTo_mem l n
  rw [addTo_idx l n]
  generalize (addTo l n).1 = m at *
  unfold addTo
  rw [if_pos (List.mem_append_left _ hm), idxOf_app_mem hm]
theorem addTo_nodup {l : List String} {n : String} (h : l.Nodup) : (addTo l n).1.Nodup := by
  unfold addTo; split
  · exact h
  · rename_i hn; exact List.nodup_append.2 ⟨h, by simp, by simp; exact fun a ha hh => hn (hh ▸ ha)⟩

section
variable {κ : Type} [DecidableEq κ] (key : Arg → κ)
theorem addConst_prefix (l : List Arg) (v : Arg) : l <+: (addConst key l v).1 := by
  unfold addConst; split <;> simp
theorem addConst_mem (l : List Arg) (v : Arg) : key v ∈ (addConst key l v).1.map key := by
  unfold addConst; split
  · assumption
  · simp
theorem addConst_idx (l : List Arg) (v : Arg) : (addConst key l v).2 = ((addConst key l v).1.map key).idxOf (key v) := by
  unfold addConst; split
  · rfl
  · rename_i h
    simp only [List.map_append, List.map_cons, List.map_nil]
    rw [idxOf_app_new h]; simp
theorem addConst_get (l : List Arg) (v : Arg) : ∃ w, (addConst key l v).1[(addConst key l v).2]? = some w ∧ key w = key v := by
  have := get_idxOf (addConst_mem key l v)
  rw [← addConst_idx, List.getElem?_map, Option.map_eq_some_iff] at this
  exact this
theorem addConst_stable {l l2 : List Arg} {v : Arg} (h : (addConst key l v).1 <+: l2) :
    addConst key l2 v = (l2, (addConst key l v).2) := by
  obtain ⟨t, rfl⟩ := h
  have hm := addConst_mem key l v
  rw [addConst_idx key l v]
  generalize (addConst key l v).1 = m at *
  unfold addConst
  rw [List.map_append, if_pos (List.mem_append_left _ hm), idxOf_app_mem hm]
theorem addConst_nodup {l : List Arg} {v : Arg} (h : (l.map key).Nodup) : ((addConst key l v).1.map key).Nodup := by
  unfold addConst; split
  · exact h
  · rename_i hn
    simp only [List.map_append]
    refine List.nodup_append.2 ⟨h, by simp, ?_⟩
    intro a ha b hb hab
    simp only [List.map_cons, List.map_nil, List.mem_singleton] at hb
    exact hn (hb ▸ hab ▸ ha)

/-- Encoding an operand only extends the tables; under any later state of the tables it gives the same result. -/
theorem encodeOperand_stable {P : Platform} {A : Attrs} {T T1 : Tabs} {i : Instr} {enc : Enc}
    (h : encodeOperand P key A T i = .ok (T1, enc)) :
    T.Le T1 ∧ ∀ T2, T1.Le T2 → encodeOperand P key A T2 i = .ok (T2, enc) := by
  unfold encodeOperand at h ⊢
  split at h
  · simp only [Except.ok.injEq, Prod.mk.injEq] at h
    obtain ⟨rfl, rfl⟩ := h
    exact ⟨Tabs.Le.refl _, fun T2 _ => by simp⟩
  · rename_i arg hne
    split at h
    · simp only [Except.ok.injEq, Prod.mk.injEq] at h
      obtain ⟨rfl, rfl⟩ := h
      refine ⟨⟨addConst_prefix key _ _, List.prefix_refl _, List.prefix_refl _⟩, fun T2 h2 => ?_⟩
      rw [addConst_stable key h2.consts]
      simp_all
    · split at h
      · split at h
        · split at h
          · rename_i a b _
            simp only at h
            have hp := (addTo_prefix T.varnames a).trans (addTo_prefix (addTo T.varnames a).1 b)
            split at h
            · rename_i hgt
              simp only [Except.ok.injEq, Prod.mk.injEq] at h
              obtain ⟨rfl, rfl⟩ := h
              refine ⟨⟨List.prefix_refl _, List.prefix_refl _, hp⟩, fun T2 h2 => ?_⟩
              have e2 := addTo_stable (l2 := T2.varnames) (n := b) h2.varnames
              have e1 := addTo_stable (l2 := T2.varnames) (n := a) ((addTo_prefix _ b).trans h2.varnames)
              simp_all
            · rename_i hgt
              simp only [Except.ok.injEq, Prod.mk.injEq] at h
              obtain ⟨rfl, rfl⟩ := h
              refine ⟨⟨List.prefix_refl _, List.prefix_refl _, hp⟩, fun T2 h2 => ?_⟩
              have e2 := addTo_stable (l2 := T2.varnames) (n := b) h2.varnames
              have e1 := addTo_stable (l2 := T2.varnames) (n := a) ((addTo_prefix _ b).trans h2.varnames)
              simp_all
          · simp at h
        · split at h
          · rename_i n _
            simp only [Except.ok.injEq, Prod.mk.injEq] at h
            obtain ⟨rfl, rfl⟩ := h
            refine ⟨⟨List.prefix_refl _, List.prefix_refl _, addTo_prefix _ _⟩, fun T2 h2 => ?_⟩
            have e1 := addTo_stable (l2 := T2.varnames) (n := n) h2.varnames
            simp_all
          · rename_i n _
            split at h
            · cases hk : pyIndexOf A.cellvars n with
              | error e => rw [hk] at h; simp [bind, Except.bind] at h
              | ok k =>
                rw [hk] at h; simp only [bind, Except.bind, pure, Except.pure, Except.ok.injEq, Prod.mk.injEq] at h
                obtain ⟨rfl, rfl⟩ := h
                exact ⟨Tabs.Le.refl _, fun T2 _ => by simp_all [bind, Except.bind, pure, Except.pure]⟩
            · simp at h
          · rename_i n _
            split at h
            · cases hk : pyIndexOf A.freevars n with
              | error e => rw [hk] at h; simp [bind, Except.bind] at h
              | ok k =>
                rw [hk] at h; simp only [bind, Except.bind, pure, Except.pure, Except.ok.injEq, Prod.mk.injEq] at h
                obtain ⟨rfl, rfl⟩ := h
                exact ⟨Tabs.Le.refl _, fun T2 _ => by simp_all [bind, Except.bind, pure, Except.pure]⟩
            · simp at h
          · simp at h
      · split at h
        · split at h
          · split at h
            · rename_i f n _
              simp only [Except.ok.injEq, Prod.mk.injEq] at h
              obtain ⟨rfl, rfl⟩ := h
              refine ⟨⟨List.prefix_refl _, addTo_prefix _ _, List.prefix_refl _⟩, fun T2 h2 => ?_⟩
              have e1 := addTo_stable (l2 := T2.names) (n := n) h2.names
              simp_all
            · simp at h
          · split at h
            · split at h
              · rename_i f g n _
                simp only [Except.ok.injEq, Prod.mk.injEq] at h
                obtain ⟨rfl, rfl⟩ := h
                refine ⟨⟨List.prefix_refl _, addTo_prefix _ _, List.prefix_refl _⟩, fun T2 h2 => ?_⟩
                have e1 := addTo_stable (l2 := T2.names) (n := n) h2.names
                simp_all
              · simp at h
            · split at h
              · rename_i n _
                simp only [Except.ok.injEq, Prod.mk.injEq] at h
                obtain ⟨rfl, rfl⟩ := h
                refine ⟨⟨List.prefix_refl _, addTo_prefix _ _, List.prefix_refl _⟩, fun T2 h2 => ?_⟩
                have e1 := addTo_stable (l2 := T2.names) (n := n) h2.names
                simp_all
              · simp at h
        · split at h
          · split at h
            · rename_i n _
              cases hk : pyIndexOf A.cellvars n with
              | error e => rw [hk] at h; simp [bind, Except.bind] at h
              | ok k =>
                rw [hk] at h; simp only [bind, Except.bind, pure, Except.pure, Except.ok.injEq, Prod.mk.injEq] at h
                obtain ⟨rfl, rfl⟩ := h
                exact ⟨Tabs.Le.refl _, fun T2 _ => by simp_all [bind, Except.bind, pure, Except.pure]⟩
            · rename_i n _
              cases hk : pyIndexOf A.freevars n with
              | error e => rw [hk] at h; simp [bind, Except.bind] at h
              | ok k =>
                rw [hk] at h; simp only [bind, Except.bind, pure, Except.pure, Except.ok.injEq, Prod.mk.injEq] at h
                obtain ⟨rfl, rfl⟩ := h
                exact ⟨Tabs.Le.refl _, fun T2 _ => by simp_all [bind, Except.bind, pure, Except.pure]⟩
            · simp at h
          · split at h
            · split at h
              · rename_i v _
                cases hk : encodeCompare P v with
                | error e => rw [hk] at h; simp [bind, Except.bind] at h
                | ok k =>
                  rw [hk] at h; simp only [bind, Except.bind, pure, Except.pure, Except.ok.injEq, Prod.mk.injEq] at h
                  obtain ⟨rfl, rfl⟩ := h
                  exact ⟨Tabs.Le.refl _, fun T2 _ => by simp_all [bind, Except.bind, pure, Except.pure]⟩
              · simp at h
            · split at h
              · split at h
                · simp only [Except.ok.injEq, Prod.mk.injEq] at h
                  obtain ⟨rfl, rfl⟩ := h
                  exact ⟨Tabs.Le.refl _, fun T2 _ => by simp_all⟩
                · simp only [Except.ok.injEq, Prod.mk.injEq] at h
                  obtain ⟨rfl, rfl⟩ := h
                  exact ⟨Tabs.Le.refl _, fun T2 _ => by simp_all⟩
                · simp at h
              · cases hk : encodeInt i.arg with
                | error e => rw [hk] at h; simp [bind, Except.bind] at h
                | ok k =>
                  rw [hk] at h; simp only [bind, Except.bind, pure, Except.pure, Except.ok.injEq, Prod.mk.injEq] at h
                  obtain ⟨rfl, rfl⟩ := h
                  exact ⟨Tabs.Le.refl _, fun T2 _ => by simp_all [bind, Except.bind, pure, Except.pure]⟩

/-- Any property of the tables kept by adding a constant, a name or a local is kept by encoding an operand. -/
theorem encodeOperand_inv {P : Platform} {A : Attrs} {T T1 : Tabs} {i : Instr} {enc : Enc}
    (h : encodeOperand P key A T i = .ok (T1, enc)) (Q : Tabs → Prop)
    (hc : ∀ T v, Q T → Q { T with consts := (addConst key T.consts v).1 })
    (hn : ∀ T v, Q T → Q { T with names := (addTo T.names v).1 })
    (hv : ∀ T v, Q T → Q { T with varnames := (addTo T.varnames v).1 }) (h0 : Q T) : Q T1 := by
  have hc' : ∀ {T v l k}, addConst key T.consts v = (l, k) → Q T → Q { T with consts := l } := by
    intro T v l k he hq; have := hc T v hq; rwa [he] at this
  have hn' : ∀ {T v l k}, addTo T.names v = (l, k) → Q T → Q { T with names := l } := by
    intro T v l k he hq; have := hn T v hq; rwa [he] at this
  have hv' : ∀ {T v l k}, addTo T.varnames v = (l, k) → Q T → Q { T with varnames := l } := by
    intro T v l k he hq; have := hv T v hq; rwa [he] at this
  have hv2 : ∀ {T v w l m k j}, addTo T.varnames v = (l, k) → addTo l w = (m, j) → Q T → Q { T with varnames := m } := by
    intro T v w l m k j he he2 hq; exact hv' (T := { T with varnames := l }) he2 (hv' he hq)
  unfold encodeOperand at h
  repeat' split at h
  all_goals first
    | (simp only [Except.ok.injEq, Prod.mk.injEq] at h
       obtain ⟨rfl, rfl⟩ := h
       first | exact h0 | exact hc' (by assumption) h0 | exact hn' (by assumption) h0 | exact hv' (by assumption) h0 | exact hv2 (by assumption) (by assumption) h0)
    | (simp at h; done)
    | (obtain ⟨x, hx, h⟩ := except_bind_ok h
       simp only [pure, Except.pure, Except.ok.injEq, Prod.mk.injEq] at h
       obtain ⟨rfl, rfl⟩ := h
       exact h0)
end

end Verif
