import Verif.Proofs.Operand
import Verif.Spec.Tries
/-
The exception table of the converter's result protects the same operations.
-/
namespace Verif
open Spec

/-- The entries for the regions of some cells, from code position `n` on; `cur` is the open region and its start. -/
def regs (P : Platform) (n : Nat) (cur : Option (Nat × TryB)) : List Cell → List (TryB × ExcEntry)
  | [] => []
  | d :: L =>
    match d.e with
    | .tryBegin t => regs P n (some (n, t)) L
    | .tryEnd _ =>
      match cur with
      | some (s, t) => (t, ⟨s, (n : Int) - 1, 0, t.depth.getD 0, t.lasti⟩) :: regs P n none L
      | none => regs P n none L
    | _ => regs P (n + (d.code P).length) cur L

theorem setBlock_new {bs : List (TryB × ExcEntry)} {t : TryB} {e : ExcEntry} (h : t.id ∉ bs.map (·.1.id)) : setBlock bs t e = bs ++ [(t, e)] := by
  unfold setBlock
  rw [if_neg]
  intro hh
  obtain ⟨x, hx, hx2⟩ := List.any_eq_true.1 hh
  exact h (List.mem_map.2 ⟨x, hx, by simpa using hx2⟩)

theorem map_end {bs : List (TryB × ExcEntry)} {t : TryB} {e : ExcEntry} (h : t.id ∉ bs.map (·.1.id)) (f : ExcEntry → ExcEntry) :
    (bs ++ [(t, e)]).map (fun p => if p.1.id == t.id then (p.1, f p.2) else p) = bs ++ [(t, f e)] := by
  rw [List.map_append]
  congr 1
  · conv_rhs => rw [← List.map_id bs]
    apply List.map_congr_left
    intro p hp
    rw [if_neg]
    · rfl
    · intro hh
      exact h (List.mem_map.2 ⟨p, hp, by simpa using hh⟩)
  · simp

theorem blocks_regs {P : Platform} (M : List Cell) (n : Nat) (seen : List Nat) (any : Bool) (bs : List (TryB × ExcEntry))
    (hbs : ∀ p ∈ bs, p.1.id ∈ seen) :
    (WellTried none seen any (M.map (·.e)) → blocksOf P n bs M = bs ++ regs P n none M) ∧
    (∀ s t, t.id ∈ seen → t.id ∉ bs.map (·.1.id) → WellTried (some t.id) seen any (M.map (·.e)) →
      blocksOf P n (bs ++ [(t, ⟨s, 0, 0, t.depth.getD 0, t.lasti⟩)]) M = bs ++ regs P n (some (s, t)) M) := by
  induction M generalizing n seen any bs with
  | nil =>
    refine ⟨fun _ => by simp [blocksOf, regs], fun s t _ _ h => ?_⟩
    simp [WellTried] at h
  | cons d M ih =>
    cases hd : d.e with
    | tryBegin t =>
      refine ⟨fun h => ?_, fun s t' _ _ h => ?_⟩
      · simp only [List.map_cons, hd, WellTried] at h
        obtain ⟨_, h2, h3⟩ := h
        have hnot : t.id ∉ bs.map (·.1.id) := by
          intro hh; obtain ⟨p, hp, he⟩ := List.mem_map.1 hh
          exact h2 (he ▸ hbs p hp)
        unfold blocksOf regs
        rw [hd]
        simp only
        rw [setBlock_new hnot]
        exact (ih n (t.id :: seen) any bs (fun p hp => List.mem_cons_of_mem _ (hbs p hp))).2 n t (by simp) hnot h3
      · simp only [List.map_cons, hd, WellTried] at h
        simp at h
    | tryEnd id =>
      refine ⟨fun h => ?_, fun s t hts hnot h => ?_⟩
      · simp only [List.map_cons, hd, WellTried] at h
        simp at h
      · simp only [List.map_cons, hd, WellTried, Option.some.injEq] at h
        obtain ⟨h1, _, h3⟩ := h
        subst h1
        unfold blocksOf regs
        rw [hd]
        simp only
        rw [map_end hnot (fun e => { e with stop := (n : Int) - 1 })]
        simp only
        have hrec := (ih n seen any (bs ++ [(t, (⟨s, (n : Int) - 1, 0, ((t.depth.getD 0 : Nat) : Int), t.lasti⟩ : ExcEntry))]) (by
          intro p hp; rcases List.mem_append.1 hp with hp | hp
          · exact hbs p hp
          · simp only [List.mem_singleton] at hp; subst hp; exact hts)).1 h3
        rw [hrec]
        simp
    | instr i =>
      refine ⟨fun h => ?_, fun s t hts hnot h => ?_⟩ <;>
      · simp only [List.map_cons, hd, WellTried] at h
        unfold blocksOf regs
        rw [hd]
        simp only
        first | exact (ih _ seen true bs hbs).1 h | exact (ih _ seen true bs hbs).2 s t hts hnot h
    | label l =>
      refine ⟨fun h => ?_, fun s t hts hnot h => ?_⟩ <;>
      · simp only [List.map_cons, hd, WellTried] at h
        unfold blocksOf regs
        rw [hd]
        simp only
        first | exact (ih _ seen any bs hbs).1 h | exact (ih _ seen any bs hbs).2 s t hts hnot h
    | setLineno l =>
      refine ⟨fun h => ?_, fun s t hts hnot h => ?_⟩ <;>
      · simp only [List.map_cons, hd, WellTried] at h
        unfold blocksOf regs
        rw [hd]
        simp only
        first | exact (ih _ seen any bs hbs).1 h | exact (ih _ seen any bs hbs).2 s t hts hnot h

/-- Entries of later regions start later; the entry of the open region stops later. -/
theorem regs_bounds {P : Platform} (M : List Cell) (n : Nat) (cur : Option (Nat × TryB)) (seen : List Nat) (any : Bool)
    (hc : ∀ p, cur = some p → p.1 ≤ n) (hw : WellTried (cur.map (·.2.id)) seen any (M.map (·.e))) :
    match cur with
    | none => ∀ p ∈ regs P n none M, (n : Int) ≤ p.2.start
    | some (s, t) => ∃ p r, regs P n (some (s, t)) M = p :: r ∧ p.1 = t ∧ p.2.start = s ∧ (n : Int) - 1 ≤ p.2.stop ∧
        (∀ q ∈ r, (n : Int) ≤ q.2.start) := by
  induction M generalizing n cur seen any with
  | nil =>
    cases cur with
    | none => simp [regs]
    | some p => simp [WellTried] at hw
  | cons d M ih =>
    cases hd : d.e with
    | tryBegin t =>
      simp only [List.map_cons, hd, WellTried] at hw
      obtain ⟨h1, h2, h3⟩ := hw
      cases cur with
      | some p => simp at h1
      | none =>
        have := ih n (some (n, t)) _ _ (by rintro p ⟨rfl⟩; exact Nat.le_refl _) h3
        simp only at this
        obtain ⟨p, r, e1, e2, e3, e4, e5⟩ := this
        unfold regs
        rw [hd]
        simp only
        rw [e1]
        intro q hq
        rcases List.mem_cons.1 hq with rfl | hq
        · omega
        · exact e5 q hq
    | tryEnd id =>
      simp only [List.map_cons, hd, WellTried] at hw
      obtain ⟨h1, h2, h3⟩ := hw
      cases cur with
      | none => simp at h1
      | some p =>
        obtain ⟨s, t⟩ := p
        have := ih n none _ _ (by simp) h3
        simp only at this
        unfold regs
        rw [hd]
        exact ⟨_, _, rfl, rfl, rfl, Int.le_refl _, this⟩
    | instr i =>
      simp only [List.map_cons, hd, WellTried] at hw
      have := ih (n + (d.code P).length) cur _ _ (fun p hp => by have := hc p hp; omega) hw
      unfold regs
      rw [hd]
      cases cur with
      | none => simp only at this ⊢; intro p hp; have := this p hp; omega
      | some p =>
        obtain ⟨s, t⟩ := p
        simp only at this ⊢
        obtain ⟨p, r, e1, e2, e3, e4, e5⟩ := this
        exact ⟨p, r, e1, e2, e3, by omega, fun q hq => by have := e5 q hq; omega⟩
    | label l =>
      simp only [List.map_cons, hd, WellTried] at hw
      have := ih (n + (d.code P).length) cur _ _ (fun p hp => by have := hc p hp; omega) hw
      unfold regs
      rw [hd]
      cases cur with
      | none => simp only at this ⊢; intro p hp; have := this p hp; omega
      | some p =>
        obtain ⟨s, t⟩ := p
        simp only at this ⊢
        obtain ⟨p, r, e1, e2, e3, e4, e5⟩ := this
        exact ⟨p, r, e1, e2, e3, by omega, fun q hq => by have := e5 q hq; omega⟩
    | setLineno l =>
      simp only [List.map_cons, hd, WellTried] at hw
      have := ih (n + (d.code P).length) cur _ _ (fun p hp => by have := hc p hp; omega) hw
      unfold regs
      rw [hd]
      cases cur with
      | none => simp only at this ⊢; intro p hp; have := this p hp; omega
      | some p =>
        obtain ⟨s, t⟩ := p
        simp only at this ⊢
        obtain ⟨p, r, e1, e2, e3, e4, e5⟩ := this
        exact ⟨p, r, e1, e2, e3, by omega, fun q hq => by have := e5 q hq; omega⟩

/-- The region covering a code index, by index. -/
def covers (k : Nat) (p : TryB × ExcEntry) : Bool := p.2.start ≤ (k : Int) && (k : Int) ≤ p.2.stop

/-- The first entry covering the code of a cell is that of the region open there. -/
theorem regs_cover {P : Platform} (M2 M1 : List Cell) (n : Nat) (cur : Option (Nat × TryB)) (seen : List Nat) (any : Bool)
    (pre : List (TryB × ExcEntry)) (hpre : ∀ p ∈ pre, p.2.stop < (n : Int)) (hc : ∀ p, cur = some p → p.1 ≤ n)
    (hw : WellTried (cur.map (·.2.id)) seen any ((M1 ++ M2).map (·.e))) (hmt : M2 = [] → False)
    (d : Cell) (i : Instr) (hd : M2.head? = some d) (hi : d.e = .instr i) (k : Nat) (h1 : n + (code P M1).length ≤ k)
    (h2 : k < n + (code P M1).length + (d.code P).length) :
    ((pre ++ regs P n cur (M1 ++ M2)).find? (covers k)).map (·.1) = M1.foldl trStep (cur.map (·.2)) := by
  induction M1 generalizing n cur seen any pre with
  | nil =>
    cases M2 with
    | nil => simp at hd
    | cons d' M2 =>
      simp only [List.head?_cons, Option.some.injEq] at hd
      subst hd
      simp only [code, List.flatMap_nil, List.length_nil, Nat.add_zero] at h1 h2
      simp only [List.nil_append, List.map_cons, hi, WellTried] at hw
      have hp : pre.find? (covers k) = none := by
        rw [List.find?_eq_none]
        intro p hp
        have := hpre p hp
        simp only [covers, Bool.and_eq_true, decide_eq_true_eq, not_and]
        omega
      rw [List.find?_append, hp, Option.none_or, List.nil_append, List.foldl_nil]
      have hb := regs_bounds (P := P) M2 (n + (d'.code P).length) cur _ _ (fun p hp => by have := hc p hp; omega) hw
      unfold regs
      rw [hi]
      simp only
      cases cur with
      | none =>
        simp only at hb
        rw [List.find?_eq_none.2]
        · rfl
        · intro p hp
          have := hb p hp
          simp only [covers, Bool.and_eq_true, decide_eq_true_eq, not_and]
          omega
      | some p =>
        obtain ⟨s, t⟩ := p
        simp only at hb
        obtain ⟨p, r, e1, e2, e3, e4, e5⟩ := hb
        have := hc _ rfl
        simp only at this
        rw [e1, List.find?_cons]
        have hcov : covers k p = true := by
          simp only [covers, Bool.and_eq_true, decide_eq_true_eq, e3]
          omega
        rw [hcov]
        simp [e2]
  | cons x M1 ih =>
    rw [List.foldl_cons]
    cases hx : x.e with
    | tryBegin t =>
      simp only [List.cons_append, List.map_cons, hx, WellTried] at hw
      obtain ⟨w1, w2, w3⟩ := hw
      have hc0 : x.code P = [] := by simp [Cell.code, hx]
      cases cur with
      | some p => simp at w1
      | none =>
        rw [code_cons, hc0, List.nil_append] at h1 h2
        have := ih n (some (n, t)) _ _ pre hpre (by rintro p ⟨rfl⟩; exact Nat.le_refl _) w3 h1 h2
        rw [List.cons_append, regs.eq_def]
        simp only [hx]
        rw [this]
        simp [trStep, hx]
    | tryEnd id =>
      simp only [List.cons_append, List.map_cons, hx, WellTried] at hw
      obtain ⟨w1, w2, w3⟩ := hw
      have hc0 : x.code P = [] := by simp [Cell.code, hx]
      cases cur with
      | none => simp at w1
      | some p =>
        obtain ⟨s, t⟩ := p
        rw [code_cons, hc0, List.nil_append] at h1 h2
        have := ih n none _ _ (pre ++ [(t, ⟨s, (n : Int) - 1, 0, t.depth.getD 0, t.lasti⟩)]) (by
          intro p hp; rcases List.mem_append.1 hp with hp | hp
          · exact hpre p hp
          · simp only [List.mem_singleton] at hp; subst hp; simp only; omega) (by simp) w3 h1 h2
        rw [List.cons_append, regs.eq_def]
        simp only [hx]
        rw [List.append_assoc, List.singleton_append] at this
        rw [this]
        simp [trStep, hx]
    | instr j =>
      simp only [List.cons_append, List.map_cons, hx, WellTried] at hw
      rw [code_cons, List.length_append] at h1 h2
      have := ih (n + (x.code P).length) cur _ _ pre (fun p hp => by have := hpre p hp; omega) (fun p hp => by have := hc p hp; omega) hw (by omega) (by omega)
      rw [List.cons_append, regs.eq_def]
      simp only [hx]
      rw [this]
      simp [trStep, hx]
    | label j =>
      simp only [List.cons_append, List.map_cons, hx, WellTried] at hw
      rw [code_cons, List.length_append] at h1 h2
      have := ih (n + (x.code P).length) cur _ _ pre (fun p hp => by have := hpre p hp; omega) (fun p hp => by have := hc p hp; omega) hw (by omega) (by omega)
      rw [List.cons_append, regs.eq_def]
      simp only [hx]
      rw [this]
      simp [trStep, hx]
    | setLineno j =>
      simp only [List.cons_append, List.map_cons, hx, WellTried] at hw
      rw [code_cons, List.length_append] at h1 h2
      have := ih (n + (x.code P).length) cur _ _ pre (fun p hp => by have := hpre p hp; omega) (fun p hp => by have := hc p hp; omega) hw (by omega) (by omega)
      rw [List.cons_append, regs.eq_def]
      simp only [hx]
      rw [this]
      simp [trStep, hx]

/-- Indexes of the entries are non-negative and within the code. -/
theorem regs_range {P : Platform} {M0 : List Cell} (hM0 : ∀ d ∈ M0, ∀ i, d.e = .instr i → 0 < (d.code P).length) (M : List Cell) (hsub : ∀ d ∈ M, d ∈ M0) (n : Nat)
    (cur : Option (Nat × TryB)) (seen : List Nat) (any : Bool) (hany : any = true → 0 < n) (hc : ∀ p, cur = some p → p.1 ≤ n)
    (hw : WellTried (cur.map (·.2.id)) seen any (M.map (·.e))) :
    ∀ p ∈ regs P n cur M, 0 ≤ p.2.start ∧ 0 ≤ p.2.stop ∧ p.2.lasti = p.1.lasti ∧ p.2.depth = (p.1.depth.getD 0 : Nat) ∧
      (cur.map (·.2) = some p.1 ∨ BElem.tryBegin p.1 ∈ M.map (·.e)) := by
  induction M generalizing n cur seen any with
  | nil => simp [regs]
  | cons d M ih =>
    have ih := ih (fun x hx => hsub x (by simp [hx]))
    intro p hp
    cases hd : d.e with
    | tryBegin t =>
      simp only [List.map_cons, hd, WellTried] at hw
      unfold regs at hp
      rw [hd] at hp
      obtain ⟨a1, a2, a3, a4, a5⟩ := ih n (some (n, t)) _ any hany (by rintro p ⟨rfl⟩; exact Nat.le_refl _) hw.2.2 p hp
      refine ⟨a1, a2, a3, a4, ?_⟩
      rcases a5 with a5 | a5
      · simp only [Option.map_some, Option.some.injEq] at a5; right; simp [hd, a5]
      · right; simp only [List.map_cons, List.mem_cons]; exact .inr a5
    | tryEnd id =>
      simp only [List.map_cons, hd, WellTried] at hw
      obtain ⟨w1, w2, w3⟩ := hw
      have hn := hany w2
      cases cur with
      | none => simp at w1
      | some q =>
        obtain ⟨s, t⟩ := q
        unfold regs at hp
        rw [hd] at hp
        simp only at hp
        rcases List.mem_cons.1 hp with rfl | hp
        · refine ⟨by simp, by simp only; omega, rfl, rfl, .inl rfl⟩
        · obtain ⟨a1, a2, a3, a4, a5⟩ := ih n none _ any hany (by simp) w3 p hp
          refine ⟨a1, a2, a3, a4, ?_⟩
          rcases a5 with a5 | a5
          · simp at a5
          · right; simp only [List.map_cons, List.mem_cons]; exact .inr a5
    | instr i =>
      simp only [List.map_cons, hd, WellTried] at hw
      unfold regs at hp
      rw [hd] at hp
      have := hM0 d (hsub d (by simp)) i hd
      obtain ⟨a1, a2, a3, a4, a5⟩ := ih _ cur _ true (fun _ => by omega) (fun p hp => by have := hc p hp; omega) hw p hp
      refine ⟨a1, a2, a3, a4, ?_⟩
      rcases a5 with a5 | a5
      · exact .inl a5
      · right; simp only [List.map_cons, List.mem_cons]; exact .inr a5
    | label l =>
      simp only [List.map_cons, hd, WellTried] at hw
      unfold regs at hp
      rw [hd] at hp
      obtain ⟨a1, a2, a3, a4, a5⟩ := ih _ cur _ any (fun h => by have := hany h; omega) (fun p hp => by have := hc p hp; omega) hw p hp
      refine ⟨a1, a2, a3, a4, ?_⟩
      rcases a5 with a5 | a5
      · exact .inl a5
      · right; simp only [List.map_cons, List.mem_cons]; exact .inr a5
    | setLineno l =>
      simp only [List.map_cons, hd, WellTried] at hw
      unfold regs at hp
      rw [hd] at hp
      obtain ⟨a1, a2, a3, a4, a5⟩ := ih _ cur _ any (fun h => by have := hany h; omega) (fun p hp => by have := hc p hp; omega) hw p hp
      refine ⟨a1, a2, a3, a4, ?_⟩
      rcases a5 with a5 | a5
      · exact .inl a5
      · right; simp only [List.map_cons, List.mem_cons]; exact .inr a5

theorem mapM_find {α β : Type} {f : α → Py β} {p : α → Bool} {p' : β → Bool} (l : List α) (l' : List β)
    (hp : ∀ x ∈ l, ∀ y, f x = .ok y → p' y = p x) (h : l.mapM f = .ok l') :
    (l.find? p = none ∧ l'.find? p' = none) ∨ ∃ x y, x ∈ l ∧ l.find? p = some x ∧ f x = .ok y ∧ l'.find? p' = some y := by
  induction l generalizing l' with
  | nil => simp [pure, Except.pure] at h; subst h; left; simp
  | cons x l ih =>
    rw [List.mapM_cons] at h
    obtain ⟨y, hy, h⟩ := except_bind_ok h
    obtain ⟨ys, hys, h⟩ := except_bind_ok h
    simp only [pure, Except.pure, Except.ok.injEq] at h
    subst h
    have hxy := hp x (by simp) y hy
    rw [List.find?_cons, List.find?_cons, hxy]
    cases hpx : p x with
    | true => right; exact ⟨x, y, by simp, rfl, hy, rfl⟩
    | false =>
      rcases ih ys (fun a ha => hp a (by simp [ha])) hys with h | ⟨a, b, h0, h1, h2, h3⟩
      · left; exact h
      · right; exact ⟨a, b, by simp [h0], h1, h2, h3⟩

theorem pyGet_ok {α : Type} {l : List α} {i : Int} {x : α} (h : pyGet l i = .ok x) (hi : 0 ≤ i) : l[i.toNat]? = some x := by
  unfold pyGet at h
  rw [if_neg (by omega)] at h
  rw [if_neg (by omega)] at h
  split at h
  · simp only [Except.ok.injEq] at h; subst h; assumption
  · simp at h

theorem offset_mono {P : Platform} {l : List CInstr} (h2 : ∀ i ∈ l, 2 ≤ i.size) {j k oj ok : Nat} (hj : (instrOffsets P 0 l)[j]? = some oj)
    (hk : (instrOffsets P 0 l)[k]? = some ok) : oj ≤ ok ↔ j ≤ k := by
  rw [instrOffsets_get P l h2] at hj hk
  split at hj <;> simp at hj
  split at hk <;> simp at hk
  rename_i h1 h3
  have hu : ∀ m, m < l.length → P.unit ≤ pos P l (m + 1) := by
    intro m hm
    have e : l[m]? = some l[m] := List.getElem?_eq_getElem hm
    rw [pos_succ P l e]
    have := units_pos P l[m] (h2 _ (List.getElem_mem hm))
    omega
  have u1 := hu j h1
  have u2 := hu k h3
  constructor
  · intro hle
    by_cases hc : j ≤ k
    · exact hc
    · have := pos_lt_pos P l h2 (k := k + 1) (m := j + 1) (by omega) (by omega)
      have := unit_pos P
      omega
  · intro hle
    have := pos_le_pos P l (k := j + 1) (m := k + 1) (by omega)
    omega

section
variable {κ : Type} [DecidableEq κ]
variable {P : Platform} {key : Arg → κ} {b : Bytecode} {c : Concrete} {T : Tabs} {M : List Cell}

theorem Final.code_pos (h : Final P key b c T M) : ∀ d ∈ M, ∀ i, d.e = .instr i → 0 < (d.code P).length := by
  intro d hd i hi
  rcases h.shape hd hi with ⟨a, _, hc⟩ | ⟨n1, i1, n2, i2, _, hs, hc⟩ <;> rw [hc] <;> simp

/-- The handler of the opcode at a code index. -/
theorem Final.handler (h : Final P key b c T M) (hw : WellTried none [] false b.elems) (hdep : ∀ t, .tryBegin t ∈ b.elems → t.depth.isSome = true)
    {M1 M2 : List Cell} {d : Cell} {i : Instr} (hM : M = M1 ++ d :: M2) (hi : d.e = .instr i) {k off : Nat}
    (h1 : (code P M1).length ≤ k) (h2 : k < (code P M1).length + (d.code P).length) (hoff : (instrOffsets P 0 (code P M))[k]? = some off) :
    handlerAt P c off = (trAt M1).bind (handlerB (fun l => labelPos P l 0 b.elems)) := by
  have hw' : WellTried none [] false (M.map (·.e)) := by rw [h.lay.elems]; exact hw
  have hbl := (blocks_regs (P := P) M 0 [] false [] (by simp)).1 hw'
  rw [List.nil_append] at hbl
  have htab := h.table
  rw [hbl] at htab
  have hrange := regs_range h.code_pos M (fun d hd => hd) 0 none [] false (by simp) (by simp) hw'
  have hcov := regs_cover (P := P) (d :: M2) M1 0 none [] false [] (by simp) (by simp) (by rw [← hM]; exact hw') (by simp) d i rfl hi k (by omega) (by omega)
  rw [List.nil_append, ← hM] at hcov
  have hfind := mapM_find (p := covers k) (p' := fun e => e.start ≤ (off : Int) && (off : Int) ≤ e.stop) _ _ (by
    intro p hp e he
    obtain ⟨r1, r2, r3, r4, r5⟩ := hrange p hp
    unfold resolveEntry at he
    obtain ⟨s, hs, he⟩ := except_bind_ok he
    obtain ⟨t, ht, he⟩ := except_bind_ok he
    obtain ⟨ti, hti, he⟩ := except_bind_ok he
    split at he
    · simp only [pure, Except.pure, Except.ok.injEq] at he
      subst he
      have hs' := pyGet_ok hs r1
      have ht' := pyGet_ok ht r2
      have m1 := offset_mono code_size hs' hoff
      have m2 := offset_mono code_size hoff ht'
      simp only [covers]
      have e1 : decide ((s : Int) ≤ off) = decide (p.2.start ≤ (k : Int)) := by
        apply decide_eq_decide.2
        rw [Int.ofNat_le, m1]; omega
      have e2 : decide ((off : Int) ≤ t) = decide ((k : Int) ≤ p.2.stop) := by
        apply decide_eq_decide.2
        rw [Int.ofNat_le, m2]; omega
      rw [e1, e2]
    · simp [throw, throwThe, MonadExceptOf.throw] at he) htab
  unfold handlerAt
  unfold trAt
  rcases hfind with ⟨f1, f2⟩ | ⟨p, e, f0, f1, f2, f3⟩
  · rw [f2]
    rw [f1] at hcov
    simp only [Option.map_none] at hcov
    rw [← hcov]
    rfl
  · rw [f3]
    rw [f1] at hcov
    simp only [Option.map_some, Option.map_none] at hcov
    rw [← hcov]
    simp only [Option.bind_some]
    obtain ⟨r1, r2, r3, r4, r5⟩ := hrange p f0
    unfold resolveEntry at f2
    obtain ⟨s, hs, f2⟩ := except_bind_ok f2
    obtain ⟨t, ht, f2⟩ := except_bind_ok f2
    obtain ⟨ti, hti, f2⟩ := except_bind_ok f2
    obtain ⟨htl, k', hk1, hk2⟩ := h.label hti
    rw [labelOffsets_get P _ code_size, if_pos (by omega)] at f2
    simp only [pure, Except.pure, Except.ok.injEq, Nat.zero_add] at f2
    subst f2
    simp only
    rw [hk2]
    have hd' := hdep p.1 (by
      rcases r5 with r5 | r5
      · simp at r5
      · rwa [h.lay.elems] at r5)
    obtain ⟨dp, hdp⟩ := Option.isSome_iff_exists.1 hd'
    simp only [handlerB, hk1, hdp]
    rw [r3, r4, hdp]
    simp

theorem expand_length_B (tgt : Nat → Option Nat) (i : Instr) : (expandB P key tgt i).length = opCount P i.name i.opcode := by
  unfold expandB opCount Platform.dual
  split
  · rfl
  · cases P.dualSingles i.opcode with
    | none => rfl
    | some p => obtain ⟨n1, n2⟩ := p; simp only [Option.isSome_some, if_true]; split <;> rfl

theorem expand_length_C (dest : Option Nat) (ci : CInstr) : (expandC P key c dest ci).length = opCount P ci.name ci.opcode := by
  unfold expandC opCount Platform.dual
  split
  · rfl
  · cases P.dualSingles ci.opcode with
    | none => rfl
    | some p => obtain ⟨n1, n2⟩ := p; simp only [Option.isSome_some, if_true]; split <;> rfl

theorem map_handler (l : List (String × Operand κ)) (loc : Loc) (x : Option Handler) :
    (l.map (fun p => (⟨p.1, p.2, loc, x⟩ : Op κ))).map (fun o => o.handler) = List.replicate l.length x := by
  induction l with
  | nil => rfl
  | cons a l ih => simp only [List.map_cons, List.length_cons, List.replicate_succ]; rw [ih]

theorem Final.handlers (h : Final P key b c T M) (hw : WellTried none [] false b.elems) (hdep : ∀ t, .tryBegin t ∈ b.elems → t.depth.isSome = true)
    {M1 M2 : List Cell} {d : Cell} {i : Instr} (hM : M = M1 ++ d :: M2) (hi : d.e = .instr i) :
    (opsI P key c (pos P (code P M) (code P M1).length) (d.code P)).map (fun o => o.handler) =
      ((expandB P key (fun l => labelPos P l 0 b.elems) i).map
        (fun p => (⟨p.1, p.2, d.loc, (trAt M1).bind (handlerB (fun l => labelPos P l 0 b.elems))⟩ : Op κ))).map (fun o => o.handler) := by
  have hd : d ∈ M := by rw [hM]; simp
  obtain ⟨hv, hn, _⟩ := h.mem hd hi
  rw [map_handler, expand_length_B]
  have hat : ∀ k ci, (code P M)[k]? = some ci → (instrOffsets P 0 (code P M))[k]? = some (pos P (code P M) k + width P ci - P.unit) := by
    intro k ci hk
    have hlt := (List.getElem?_eq_some_iff.1 hk).1
    rw [instrOffsets_get P _ code_size, if_pos hlt, pos_succ P _ hk, width_units, Nat.zero_add]
  rcases h.shape hd hi with ⟨a, _, hc⟩ | ⟨n1, i1, n2, i2, _, hs, hc⟩
  · have hget : (code P M)[(code P M1).length]? = some (mkI P i.name a.toOpt d.loc) := by
      rw [hM, code_append, code_cons, hc, List.cons_append]; exact get_head _ _ _
    rw [hc, opsI_single, map_handler, expand_length_C, h.handler hw hdep hM hi (Nat.le_refl _) (by rw [hc]; simp) (hat _ _ hget), mkI_opcode hv.name_op, mkI_name]
  · have hget : (code P M)[(code P M1).length]? = some (mkI P n1 (some i1) d.loc) := by
      rw [hM, code_append, code_cons, hc, List.cons_append]; exact get_head _ _ _
    have hget2 : (code P M)[(code P M1).length + 1]? = some (mkI P n2 (some i2) d.loc) := by
      rw [hM, code_append, code_cons, hc, List.getElem?_append_right (by omega)]
      simp
    have hp2 : pos P (code P M) (code P M1).length + (mkI P n1 (some i1) d.loc).units P = pos P (code P M) ((code P M1).length + 1) := by
      rw [pos_succ P _ hget]
    obtain ⟨o1, p1, _, q1⟩ := h.wf.dual_single _ _ _ hs n1 (.inl rfl)
    obtain ⟨o2, p2, _, q2⟩ := h.wf.dual_single _ _ _ hs n2 (.inr rfl)
    obtain ⟨r1, r2⟩ := split_names hs
    have hdual : P.dual i.opcode = true := by simp [Platform.dual, hs]
    rw [hc, opsI, opsI_single, List.map_append]
    rw [show (mkI P n1 (some i1) d.loc).loc.getD (Loc.line none) = d.loc from rfl]
    rw [map_handler, map_handler, expand_length_C, expand_length_C, hp2,
      h.handler hw hdep hM hi (Nat.le_refl _) (by rw [hc]; simp) (hat _ _ hget),
      h.handler hw hdep hM hi (k := (code P M1).length + 1) (by omega) (by rw [hc]; simp) (hat _ _ hget2)]
    simp [opCount, mkI, p1, p2, q1, q2, r1, r2, hn, hdual]
end
end Verif
