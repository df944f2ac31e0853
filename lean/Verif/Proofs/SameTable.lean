import Verif.Proofs.SameCode
import Verif.Spec.Regions
/-
Two conversions with the same instructions and the same regions give the same exception table.
-/
namespace Verif
open Spec
section
variable {κ : Type} [DecidableEq κ] {P : Platform} {key : Arg → κ} {b b' : Bytecode} {c c' : Concrete} {T T' : Tabs} {M M' : List Cell}

/-- The code index where the operation number `k` starts. -/
def OpStart (P : Platform) (l : List CInstr) (s k : Nat) : Prop :=
  s ≤ l.length ∧ (∀ i, l[s]? = some i → i.name ≠ "CACHE") ∧ opsIn P (l.take s) = k

theorem OpStart.unique {l : List CInstr} {s s' k : Nat} (h : OpStart P l s k) (h' : OpStart P l s' k) : s = s' := by
  have key : ∀ {s s' : Nat}, OpStart P l s k → OpStart P l s' k → s < s' → False := by
    rintro s s' ⟨a1, a2, a3⟩ ⟨b1, b2, b3⟩ hlt
    have hs : s < l.length := by omega
    have hg := List.getElem?_eq_getElem hs
    have hn := a2 _ hg
    have hle : ∀ (l m : List CInstr), opsIn P l ≤ opsIn P (l ++ m) := by intro l m; rw [opsIn_append]; omega
    have h1 : l.take s' = l.take (s + 1) ++ (l.drop (s + 1)).take (s' - (s + 1)) := by
      rw [← List.take_add]; congr 1; omega
    have h2 := hle (l.take (s + 1)) ((l.drop (s + 1)).take (s' - (s + 1)))
    rw [← h1, b3, List.take_succ_eq_append_getElem hs, opsIn_append, a3] at h2
    have : 1 ≤ opsIn P [l[s]] := by
      simp only [opsIn, List.map_cons, List.map_nil, List.sum_cons, List.sum_nil, opCount, hn, if_false]
      split <;> omega
    omega
  rcases Nat.lt_trichotomy s s' with hlt | he | hgt
  · exact (key h h' hlt).elim
  · exact he
  · exact (key h' h hgt).elim

theorem OpStart.bare {l l' : List CInstr} (hl : l'.map bareC = l.map bareC) {s k : Nat} (h : OpStart P l' s k) : OpStart P l s k := by
  obtain ⟨h1, h2, h3⟩ := h
  have hlen : l'.length = l.length := by simpa using congrArg List.length hl
  refine ⟨by omega, ?_, ?_⟩
  · intro i hi
    have := congrArg (fun x => x[s]?) hl
    simp only [List.getElem?_map, hi, Option.map_some] at this
    cases hi' : l'[s]? with
    | none => rw [hi'] at this; cases this
    | some i' =>
      rw [hi'] at this
      simp only [Option.map_some, Option.some.injEq] at this
      have hn := congrArg CInstr.name this
      simp only [bareC] at hn
      rw [← hn]; exact h2 i' hi'
  · rw [← h3]
    have : ∀ m : List CInstr, opsIn P m = opsIn P (m.map bareC) := by
      intro m; unfold opsIn; rw [List.map_map]; rfl
    rw [this, this (l'.take s), List.map_take, List.map_take, hl]

theorem Final.start (hF : Final P key b c T M) {A B : List Cell} (hM : M = A ++ B) : OpStart P (code P M) (code P A).length (opsE P A) := by
  refine ⟨by rw [hM, code_append, List.length_append]; omega, ?_, ?_⟩
  · intro i hi
    rw [hM, code_append, List.getElem?_append_right (Nat.le_refl _), Nat.sub_self] at hi
    refine hF.head (M2 := B) (fun d hd => by rw [hM]; simp [hd]) i ?_
    rw [List.head?_eq_getElem?]; exact hi
  · rw [hM, code_append, List.take_left']
    · exact hF.opsIn_code (fun d hd => by rw [hM]; simp [hd])
    · rfl

/-- An entry before its offsets are known, and a region. -/
def Matches (P : Platform) (M : List Cell) (tgt : Nat → Option Nat) (p : TryB × ExcEntry) (q : TryRegion) : Prop :=
  ∃ s k : Nat, OpStart P (code P M) s q.start ∧ OpStart P (code P M) k q.stop ∧ p.2 = ⟨s, (k : Int) - 1, 0, p.1.depth.getD 0, p.1.lasti⟩ ∧
    q.handler = handlerB tgt p.1

theorem Final.regions (hF : Final P key b c T M) (tgt : Nat → Option Nat) (M2 : List Cell) : ∀ (A : List Cell) (cur cur' : Option (Nat × TryB)), M = A ++ M2 →
    (cur = none ∧ cur' = none ∨ ∃ s s' t, cur = some (s, t) ∧ cur' = some (s', t) ∧ OpStart P (code P M) s s') →
    List.Forall₂ (Matches P M tgt) (regs P (code P A).length cur M2) (regionsFrom P tgt (opsE P A) cur' (M2.map (·.e))) := by
  induction M2 with
  | nil => intro A cur cur' _ _; exact .nil
  | cons d M2 ih =>
    intro A cur cur' hM hcur
    have hM' : M = (A ++ [d]) ++ M2 := by rw [hM]; simp
    have hcode : (code P (A ++ [d])).length = (code P A).length + (d.code P).length := by
      rw [code_append, List.length_append]; simp [code]
    have hops : opsE P (A ++ [d]) = opsE P A + opCountE P d.e := by simp [opsE]
    have hst := hF.start hM
    unfold regs
    cases hd : d.e with
    | instr i =>
      have := ih (A ++ [d]) cur cur' hM' hcur
      rw [hcode, hops, hd] at this
      simp only [List.map_cons, hd, regionsFrom]
      exact this
    | label l =>
      have := ih (A ++ [d]) cur cur' hM' hcur
      rw [hcode, hops, hd] at this
      simp only [List.map_cons, hd, regionsFrom]
      exact this
    | setLineno l =>
      have := ih (A ++ [d]) cur cur' hM' hcur
      rw [hcode, hops, hd] at this
      simp only [List.map_cons, hd, regionsFrom]
      exact this
    | tryBegin t =>
      have h0 : (d.code P).length = 0 := by simp [Cell.code, hd]
      have := ih (A ++ [d]) (some ((code P A).length, t)) (some (opsE P A, t)) hM' (.inr ⟨_, _, t, rfl, rfl, hst⟩)
      rw [hcode, hops, hd, h0] at this
      simp only [List.map_cons, hd, regionsFrom]
      exact this
    | tryEnd id =>
      have h0 : (d.code P).length = 0 := by simp [Cell.code, hd]
      have := ih (A ++ [d]) none none hM' (.inl ⟨rfl, rfl⟩)
      rw [hcode, hops, hd, h0] at this
      simp only [List.map_cons, hd, regionsFrom]
      rcases hcur with ⟨rfl, rfl⟩ | ⟨s, s', t, rfl, rfl, hs⟩
      · exact this
      · exact .cons ⟨s, (code P A).length, hs, hst, rfl, rfl⟩ this

theorem mapM_same {α α' β : Type} {f : α → Py β} {f' : α' → Py β} {l : List α} {l' : List α'} (h : List.Forall₂ (fun a a' => f a = f' a') l l') :
    l.mapM f = l'.mapM f' := by
  induction h with
  | nil => rfl
  | cons h _ ih => rw [List.mapM_cons, List.mapM_cons, h, ih]

theorem forall₂_match {α β γ : Type} {R : α → γ → Prop} {S : β → γ → Prop} {Q : α → β → Prop} (hQ : ∀ a b c, R a c → S b c → Q a b)
    {l : List α} {m : List β} {n : List γ} (h1 : List.Forall₂ R l n) (h2 : List.Forall₂ S m n) : List.Forall₂ Q l m := by
  induction h1 generalizing m with
  | nil => cases h2; exact .nil
  | cons h _ ih => cases h2 with | cons h' t => exact .cons (hQ _ _ _ h h') (ih t)

theorem forall₂_mem {α γ : Type} {R : α → γ → Prop} {l : List α} {n : List γ} (h : List.Forall₂ R l n) : List.Forall₂ (fun a c => R a c ∧ a ∈ l) l n := by
  induction h with
  | nil => exact .nil
  | cons h _ ih => exact .cons ⟨h, by simp⟩ (ih.imp (fun _ _ hx => ⟨hx.1, by simp [hx.2]⟩))

theorem mapM_each {α β : Type} {f : α → Py β} {l : List α} {l' : List β} (h : l.mapM f = .ok l') : ∀ a ∈ l, ∃ x, f a = .ok x := by
  induction l generalizing l' with
  | nil => intro a ha; cases ha
  | cons x l ih =>
    rw [List.mapM_cons] at h
    obtain ⟨y, hy, h⟩ := except_bind_ok h
    obtain ⟨ys, hys, h⟩ := except_bind_ok h
    intro a ha
    rcases List.mem_cons.1 ha with rfl | ha
    · exact ⟨y, hy⟩
    · exact ih hys a ha

theorem offsets_bare (l : List CInstr) : ∀ (l' : List CInstr), l'.map bareC = l.map bareC → ∀ n, instrOffsets P n l' = instrOffsets P n l := by
  induction l with
  | nil => intro l' h n; cases l' with
    | nil => rfl
    | cons _ _ => simp at h
  | cons i l ih =>
    intro l' h n
    cases l' with
    | nil => simp at h
    | cons i' l' =>
      simp only [List.map_cons, List.cons.injEq] at h
      have hs := congrArg CInstr.size h.1
      simp only [bareC] at hs
      simp only [instrOffsets, CInstr.units, hs, ih l' h.2]

theorem labelOffsets_bare (l : List CInstr) : ∀ (l' : List CInstr), l'.map bareC = l.map bareC → ∀ n, labelOffsets P n l' = labelOffsets P n l := by
  induction l with
  | nil => intro l' h n; cases l' with
    | nil => rfl
    | cons _ _ => simp at h
  | cons i l ih =>
    intro l' h n
    cases l' with
    | nil => simp at h
    | cons i' l' =>
      simp only [List.map_cons, List.cons.injEq] at h
      have hs := congrArg CInstr.size h.1
      simp only [bareC] at hs
      simp only [labelOffsets, CInstr.units, hs, ih l' h.2]

/-- The entries of the exception table, before and after their offsets are known, and the regions. -/
theorem Final.side (hF : Final P key b c T M) (hw : WellTried none [] false b.elems) (hdep : ∀ t, .tryBegin t ∈ b.elems → t.depth.isSome = true) :
    (regs P 0 none M).mapM (resolveEntry P (labelsOf P 0 [] M) (code P M)) = .ok c.excTable ∧
    List.Forall₂ (fun p q => Matches P M (fun l => labelPos P l 0 b.elems) p q ∧ p ∈ regs P 0 none M) (regs P 0 none M) (regionsB P b) ∧
    ∀ p ∈ regs P 0 none M, (0 ≤ p.2.start ∧ 0 ≤ p.2.stop) ∧ p.1.depth.isSome = true ∧ ∃ ti K, lookupLabel (labelsOf P 0 [] M) p.1.target = .ok ti ∧
      OpStart P (code P M) ti K ∧ labelPos P p.1.target 0 b.elems = some K := by
  have hw' : WellTried none [] false (M.map (·.e)) := by rw [hF.lay.elems]; exact hw
  have hbl := (blocks_regs (P := P) M 0 [] false [] (by simp)).1 hw'
  rw [List.nil_append] at hbl
  have htab := hF.table
  rw [hbl] at htab
  have hrange := regs_range hF.code_pos M (fun d hd => hd) 0 none [] false (by simp) (by simp) hw'
  have hR := hF.regions (fun l => labelPos P l 0 b.elems) M [] none none rfl (.inl ⟨rfl, rfl⟩)
  rw [hF.lay.elems] at hR
  refine ⟨htab, forall₂_mem hR, fun p hp => ?_⟩
  obtain ⟨r1, r2, r3, r4, r5⟩ := hrange p hp
  refine ⟨⟨r1, r2⟩, hdep p.1 (by
    rcases r5 with r5 | r5
    · simp at r5
    · rwa [hF.lay.elems] at r5), ?_⟩
  obtain ⟨e, he⟩ := mapM_each htab p hp
  unfold resolveEntry at he
  obtain ⟨s, hs, he⟩ := except_bind_ok he
  obtain ⟨t, ht, he⟩ := except_bind_ok he
  obtain ⟨ti, hti, he⟩ := except_bind_ok he
  rcases label_split M 0 [] 0 hti with ⟨h1, _⟩ | ⟨M1, M2, h1, h2, h3⟩
  · simp [lookupLabel] at h1
  · rw [hF.lay.elems] at h3
    simp only [Nat.zero_add] at h2 h3
    subst h2
    exact ⟨_, _, hti, hF.start h1, h3⟩

theorem same_table (hF : Final P key b c T M) (hF' : Final P key b' c' T' M') (hw : WellTried none [] false b.elems) (hw' : WellTried none [] false b'.elems)
    (hdep : ∀ t, .tryBegin t ∈ b.elems → t.depth.isSome = true) (hdep' : ∀ t, .tryBegin t ∈ b'.elems → t.depth.isSome = true)
    (hcode : (code P M').map bareC = (code P M).map bareC) (hreg : regionsB P b' = regionsB P b) : c'.excTable = c.excTable := by
  have hlen : (code P M').length = (code P M).length := by simpa using congrArg List.length hcode
  have hoff : instrOffsets P 0 (code P M') = instrOffsets P 0 (code P M) := offsets_bare _ _ hcode 0
  have hloff : labelOffsets P 0 (code P M') = labelOffsets P 0 (code P M) := labelOffsets_bare _ _ hcode 0
  obtain ⟨t1, t2, t3⟩ := hF.side hw hdep
  obtain ⟨s1, s2, s3⟩ := hF'.side hw' hdep'
  rw [hreg] at s2
  have := mapM_same (forall₂_match (Q := fun p' p => resolveEntry P (labelsOf P 0 [] M') (code P M') p' = resolveEntry P (labelsOf P 0 [] M) (code P M) p) ?_ s2 t2)
  · rw [t1, s1] at this
    exact Except.ok.inj this
  · rintro p' p q ⟨⟨x', y', a1, a2, a3, a4⟩, m'⟩ ⟨⟨x, y, b1, b2, b3, b4⟩, m⟩
    have hx := (a1.bare hcode).unique b1
    have hy := (a2.bare hcode).unique b2
    subst hx; subst hy
    obtain ⟨_, d1, ti, K, d2, d3, d4⟩ := t3 p m
    obtain ⟨_, d1', ti', K', d2', d3', d4'⟩ := s3 p' m'
    obtain ⟨dp, hdp⟩ := Option.isSome_iff_exists.1 d1
    obtain ⟨dp', hdp'⟩ := Option.isSome_iff_exists.1 d1'
    rw [b4] at a4
    simp only [handlerB, d4, d4', hdp, hdp', Option.some.injEq, Handler.mk.injEq] at a4
    obtain ⟨rfl, q2, rfl⟩ := a4
    have hti := (d3'.bare hcode).unique d3
    subst hti
    unfold resolveEntry
    rw [d2, d2', a3, b3, hdp, hdp', q2, hoff, hloff]
end
end Verif
