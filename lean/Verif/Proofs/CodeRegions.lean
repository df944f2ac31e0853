import Verif.Proofs.SameTable
import Verif.Proofs.DecodeRegions
import Verif.Spec.RegionsCode
import Verif.Props.FromCode
import Verif.Proofs.WellFormed
/-
The regions of a code object and those of the Bytecode it is written from or read to.
-/
namespace Verif
open Spec
section
variable {κ : Type} [DecidableEq κ] {P : Platform} {key : Arg → κ} {b b' : Bytecode} {c c' : Concrete} {T T' : Tabs} {M M' : List Cell} {co : Code}

theorem fetchedOf_ge (is : List CInstr) (hs : ∀ i ∈ is, 2 ≤ i.size) : ∀ u, ∀ f ∈ fetchedOf u is, u ≤ f.unit := by
  induction is with
  | nil => intro u f hf; cases hf
  | cons i is ih =>
    intro u f hf
    have hi := hs i (by simp)
    have ih := ih (fun j hj => hs j (by simp [hj])) (u + i.size / 2)
    unfold fetchedOf at hf
    split at hf
    · have := ih f hf; omega
    · rcases List.mem_cons.1 hf with rfl | hf
      · show u ≤ u + i.size / 2 - 1; omega
      · have := ih f hf; omega

theorem opsBelow_start (is : List CInstr) (hs : ∀ i ∈ is, 2 ≤ i.size) (u x : Nat) (hx : x ≤ u) : opsBelow P (fetchedOf u is) x = 0 := by
  unfold opsBelow
  rw [List.filter_eq_nil_iff.2]
  · rfl
  · intro f hf
    have := fetchedOf_ge is hs u f hf
    simp; omega

theorem opsBelow_cons (hP : P.WF) (h11 : P.py311 = true) {i : CInstr} (hi : Readable P i) (is : List CInstr) (u x : Nat) (hx : u + i.size / 2 ≤ x) :
    opsBelow P (fetchedOf u (i :: is)) x = opCount P i.name i.opcode + opsBelow P (fetchedOf (u + i.size / 2) is) x := by
  have hc := cache_iff hP h11 hi.valid
  have hsz := valid_size hi.valid
  rw [fetchedOf]
  split
  · rename_i h0
    rw [opCount, if_pos (hc.2 h0), Nat.zero_add]
  · unfold opsBelow
    rw [List.filter_cons_of_pos (by simp; omega), List.map_cons, List.sum_cons]
    simp only [nameOf_valid hP hi.valid]

/-- The number of operations before an offset, for the instructions of a code object. -/
theorem counts_of (hP : P.WF) (h11 : P.py311 = true) (is : List CInstr) (hr : ∀ i ∈ is, Readable P i) : ∀ (u n : Nat) (N : Nat → Nat),
    (∀ x, u ≤ x → N x = n + opsBelow P (fetchedOf u is) x) → Counts P N u n (is.map .instr) := by
  induction is with
  | nil => intro u n N hN; have := hN u (Nat.le_refl _); simpa [opsBelow, fetchedOf, Counts] using this
  | cons i is ih =>
    intro u n N hN
    have hi := hr i (by simp)
    have hs : ∀ j ∈ (i :: is), 2 ≤ j.size := fun j hj => valid_size (hr j hj).valid
    have hw : width P i = i.size / 2 := by unfold width; rw [if_pos (by unfold Platform.py311 at h11; unfold Platform.py310; simp at *; omega)]
    refine ⟨?_, ?_⟩
    · rw [hN u (Nat.le_refl _), opsBelow_start _ hs u u (Nat.le_refl _)]; rfl
    · refine ih (fun j hj => hr j (by simp [hj])) _ _ N ?_
      intro x hx
      rw [hw] at hx ⊢
      rw [hN x (by omega), opsBelow_cons hP h11 hi is u x hx, Nat.add_assoc]

/-- Offsets of opcodes and numbers of operations. -/
theorem instrOffsets_ops (hP : P.WF) (h11 : P.py311 = true) (is : List CInstr) (hr : ∀ i ∈ is, Readable P i) : ∀ (u s o : Nat),
    (instrOffsets P u is)[s]? = some o → u ≤ o ∧ opsBelow P (fetchedOf u is) o = opsIn P (is.take s) ∧
      opsBelow P (fetchedOf u is) (o + 1) = opsIn P (is.take (s + 1)) := by
  induction is with
  | nil => intro u s o h; simp [instrOffsets] at h
  | cons i is ih =>
    intro u s o h
    have hi := hr i (by simp)
    have hs : ∀ j ∈ (i :: is), 2 ≤ j.size := fun j hj => valid_size (hr j hj).valid
    have hsz := hs i (by simp)
    have hu : i.units P = i.size / 2 ∧ P.unit = 1 := by
      have : P.py310 = true := by unfold Platform.py311 at h11; unfold Platform.py310; simp at *; omega
      unfold CInstr.units Platform.unit
      simp [this]
    unfold instrOffsets at h
    rw [hu.1, hu.2] at h
    have hnext : u + (i.size / 2 - 1) + 1 = u + i.size / 2 := by omega
    rw [hnext] at h
    cases s with
    | zero =>
      simp only [List.getElem?_cons_zero, Option.some.injEq] at h
      subst h
      refine ⟨by omega, ?_, ?_⟩
      · have : opsBelow P (fetchedOf u (i :: is)) (u + (i.size / 2 - 1)) = 0 := by
          unfold opsBelow
          rw [List.filter_eq_nil_iff.2]
          · rfl
          · intro f hf
            unfold fetchedOf at hf
            have hge := fetchedOf_ge is (fun j hj => hs j (by simp [hj])) (u + i.size / 2)
            split at hf
            · have := hge f hf; simp; omega
            · rcases List.mem_cons.1 hf with rfl | hf
              · simp; omega
              · have := hge f hf; simp; omega
        rw [this]; rfl
      · rw [hnext, opsBelow_cons hP h11 hi is u _ (Nat.le_refl _), opsBelow_start _ (fun j hj => hs j (by simp [hj])) _ _ (Nat.le_refl _)]
        simp [opsIn]
    | succ s =>
      rw [List.getElem?_cons_succ] at h
      obtain ⟨g1, g2, g3⟩ := ih (fun j hj => hr j (by simp [hj])) _ s o h
      refine ⟨by omega, ?_, ?_⟩
      · rw [opsBelow_cons hP h11 hi is u o g1, g2]; simp [opsIn]
      · rw [opsBelow_cons hP h11 hi is u (o + 1) (by omega), g3]; simp [opsIn]


theorem labels_are {prune conserve : Bool} {targets : List Int} (es : List CElem) (hv : ∀ ci, .instr ci ∈ es → ValidCInstr P ci)
    (line off : Nat) (tbs : List Nat) (d : Dec) (h : decodeLoop P c prune conserve targets off tbs (normalizeLineno line es) = .ok d) (t : Nat) :
    t ∈ d.labels ↔ t ∈ starts P off es ∧ (t : Int) ∈ targets := by
  induction es generalizing line off tbs d with
  | nil =>
    simp only [normalizeLineno, decodeLoop, Except.ok.injEq] at h
    subst h; simp [starts]
  | cons e es ih =>
    have ih := ih (fun ci hci => hv ci (by simp [hci]))
    cases e with
    | setLineno l => rw [normalizeLineno] at h; exact ih l off tbs d h
    | instr ci =>
      rw [normalizeLineno] at h
      obtain ⟨main, d', h1, h2, h3, h4, _, h6⟩ := loop_cons h (valid_size (hv ci (by simp)))
      have := ih _ _ _ d' h2
      rw [h4, starts, List.mem_append, this, List.mem_cons, width_units]
      split
      · rename_i ht
        simp only [List.mem_singleton]
        constructor
        · rintro (rfl | ⟨a, b⟩)
          · exact ⟨.inl rfl, ht⟩
          · exact ⟨.inr a, b⟩
        · rintro ⟨rfl | a, b⟩
          · exact .inl rfl
          · exact .inr ⟨a, b⟩
      · rename_i ht
        simp only [List.not_mem_nil, false_or]
        constructor
        · rintro ⟨a, b⟩; exact ⟨.inr a, b⟩
        · rintro ⟨rfl | a, b⟩
          · exact absurd b ht
          · exact ⟨a, b⟩

/-- Reading with the depths: the regions of the Bytecode are those of the code object. -/
theorem fromCode_regions (hP : P.WF) (h11 : P.py311 = true) (hok : CodeOK P co) (hsort : (regions co).Pairwise (fun r s => r.start + r.size ≤ s.start))
    (hb : Bytecode.fromCode P co true true = .ok b) : regionsB P b = regionsCode P co := by
  obtain ⟨js, g1, _, hR, _⟩ := readFrom_of (key := (id : Arg → Arg)) hP h11 hok
  have h : toBytecode P true true (readOf co js) = .ok b := by
    unfold Bytecode.fromCode at hb; rw [g1] at hb; exact hb
  have hT := hR.tableOK hP h11 hok
  obtain ⟨es, d, h1, h2, h3, h4, h5⟩ := toBytecode_ok h
  rw [hR.remove] at h1; cases h1
  have hve := hR.valid
  have hp10 : P.py310 = true := by unfold Platform.py311 at h11; unfold Platform.py310; simp at *; omega
  have htab : (readOf co js).excTable = (regions co).map entryOf := parseExcTable_regions co.exctable
  have hN := counts_of hP h11 js hR.readable 0 0 (opsBelow P (fetched P co)) (by intro x _; rw [hR.fetch_, Nat.zero_add])
  have hmain := loop_regions hP (prune := true) hT.nonempty (by
      rw [htab, List.pairwise_map]
      refine List.Pairwise.imp_of_mem ?_ hsort
      intro r s hr hs hrs
      have := (hok.region r hr).1
      simp only [entryOf]; omega) (fun l => labelPos P l 0 d.elems) (opsBelow P (fetched P co)) (readOf co js).elems hve _ 0 0 [] d h2
    (fun e he => .inr (hT.start_ e he)) (fun e he => .inr (hT.stop_ e he)) hN none (by
      refine ⟨?_, by simp, ?_⟩
      · intro k e he
        obtain ⟨j, _, hj⟩ := hT.start_ e (List.mem_of_getElem? he)
        simp; omega
      · intro k e he hx
        obtain ⟨j, _, hj⟩ := hT.start_ e (List.mem_of_getElem? he)
        omega) (by simp)
  unfold regionsB regionsCode
  rw [h5, hmain, List.filter_eq_self.2]
  · rw [htab, List.map_map]
    refine List.map_congr_left ?_
    intro r hr
    have hm : entryOf r ∈ (readOf co js).excTable := by rw [htab]; exact List.mem_map_of_mem hr
    obtain ⟨f, hf, hx⟩ := (hok.region r hr).2.2.2
    have hfs := hf
    rw [hR.fetch_] at hfs
    have hst := fetched_start h11 js 0 f hfs
    have hlab := (labels_are (readOf co js).elems hve _ _ _ d h2 f.first).2 ⟨hst, by
      rw [List.mem_append]; right
      exact List.mem_map.2 ⟨_, hm, by simp [entryOf, hx]⟩⟩
    obtain ⟨_, m, l1, l2⟩ := (loop_labels hP (readOf co js).elems hve _ _ _ d h2 0 f.first).1 hlab
    have ht := hT.target_ _ hm
    obtain ⟨m', hm'⟩ := Option.isSome_iff_exists.1 ht
    have htg : (entryOf r).target = (f.first : Int) := by simp [entryOf, hx]
    rw [htg] at hm'
    have := l2 m' hm'
    subst this
    have hun : opAtUnit P r.target (co.code.length / 2) 0 (fetched P co) = some m' := by
      have := opAtUnit_fetched P hP h11 r.target js hR.readable 0 0
      rw [Nat.zero_add] at this
      rw [hR.fetch_, hR.units_, this, hx]; exact hm'
    have hpos := (hok.region r hr).1
    simp only [Function.comp, regionAt, handlerB, tryOf, hun, Option.map_some, hp10, if_true]
    have e1 : (entryOf r).start.toNat = r.start := by simp [entryOf]
    have e2 : ((entryOf r).stop + 1).toNat = r.start + r.size := by simp only [entryOf]; omega
    have e3 : (entryOf r).target.toNat = f.first := by rw [htg]; simp
    rw [e1, e2, e3, l1]
    simp only [entryOf, Int.toNat_natCast]
    rfl
  · intro e he
    obtain ⟨j, _, hj⟩ := hT.stop_ e he
    simp; omega

theorem mapM_forall₂ {α β : Type} {f : α → Py β} {l : List α} {l' : List β} (h : l.mapM f = .ok l') : List.Forall₂ (fun a x => f a = .ok x ∧ x ∈ l') l l' := by
  induction l generalizing l' with
  | nil => cases h; exact .nil
  | cons x l ih =>
    rw [List.mapM_cons] at h
    obtain ⟨y, hy, h⟩ := except_bind_ok h
    obtain ⟨ys, hys, h⟩ := except_bind_ok h
    cases h
    exact .cons ⟨hy, by simp⟩ ((ih hys).imp (fun a x h => ⟨h.1, by simp [h.2]⟩))

theorem forall₂_join {α β γ : Type} {R : α → β → Prop} {S : α → γ → Prop} {Q : β → γ → Prop} (hQ : ∀ a b c, R a b → S a c → Q b c)
    {l : List α} {m : List β} {n : List γ} (h1 : List.Forall₂ R l m) (h2 : List.Forall₂ S l n) : List.Forall₂ Q m n := by
  induction h1 generalizing n with
  | nil => cases h2; exact .nil
  | cons h _ ih => cases h2 with | cons h' t => exact .cons (hQ _ _ _ h h') (ih t)

theorem map_forall₂ {β γ : Type} {f : β → γ} {l : List β} {m : List γ} (h : List.Forall₂ (fun a x => f a = x) l m) : l.map f = m := by
  induction h with
  | nil => rfl
  | cons h _ ih => rw [List.map_cons, h, ih]

theorem pyGet_pos {α : Type} {l : List α} {i : Int} {x : α} (hi : 0 ≤ i) (h : pyGet l i = .ok x) : l[i.toNat]? = some x := by
  unfold pyGet at h
  simp only [show ¬ i < 0 by omega, if_false] at h
  split at h
  · rename_i y hy; cases h; exact hy
  · cases h

/-- Writing: the regions of the code object are those of the Bytecode. -/
theorem emit_regions (hP : P.WF) (h11 : P.py311 = true) {passes : Nat} (hc : toConcrete P key passes b = .ok c) (hF : Final P key b c T M)
    (hw : WellTried none [] false b.elems) {n : Int} (he : c.emit P n = .ok co) : regionsCode P co = regionsB P b := by
  obtain ⟨s1, s2, s3⟩ := hF.side hw (toConcrete_depths hc)
  have hE := emitted P hP h11 c (code P M) (fun i => i.loc.getD (Loc.line none)) hF.elems (hF.layout h11) hF.readable
    (by intro i hi; obtain ⟨l, hl⟩ := (hF.plain i hi).2.1; rw [hl]; rfl) n co he
  unfold regionsCode
  rw [hE.regions_, List.map_map, hE.fetch_, hE.units_]
  apply map_forall₂
  refine forall₂_join ?_ (mapM_forall₂ s1) s2
  rintro p e q ⟨hp, hmem⟩ ⟨⟨s, k, a1, a2, a3, a4⟩, hpm⟩
  obtain ⟨⟨r1, r2⟩, hd, ti, K, l1, l2, l3⟩ := s3 p hpm
  obtain ⟨dp, hdp⟩ := Option.isSome_iff_exists.1 hd
  obtain ⟨e1, e2, e3, e4⟩ := hE.entries_ e hmem
  unfold resolveEntry at hp
  obtain ⟨o1, ho1, hp⟩ := except_bind_ok hp
  obtain ⟨o2, ho2, hp⟩ := except_bind_ok hp
  obtain ⟨ti', hti, hp⟩ := except_bind_ok hp
  rw [l1] at hti; cases hti
  have g1 := pyGet_pos r1 ho1
  have g2 := pyGet_pos r2 ho2
  rw [a3] at g1 g2 r2
  simp only [Int.toNat_natCast] at g1 g2 r2
  have hk : ((k : Int) - 1).toNat + 1 = k := by omega
  obtain ⟨_, b1, _⟩ := instrOffsets_ops hP h11 _ hF.readable 0 _ _ g1
  obtain ⟨_, _, b2⟩ := instrOffsets_ops hP h11 _ hF.readable 0 _ _ g2
  rw [hk] at b2
  obtain ⟨t1, t2⟩ := hF.label l1
  obtain ⟨K', t3, t4⟩ := t2
  rw [l3] at t3; cases t3
  have hlo : (labelOffsets P 0 (code P M))[ti]? = some (pos P (code P M) ti) := by
    rw [labelOffsets_get P _ code_size 0 ti, if_pos t1, Nat.zero_add]
  rw [hlo] at hp
  simp only [pure, Except.pure, Except.ok.injEq] at hp
  have hun := opAtUnit_fetched P hP h11 (pos P (code P M) ti : Int) (code P M) hF.readable 0 0
  rw [Nat.zero_add, ← hF.elems, t4] at hun
  rw [a3, hdp] at hp
  subst hp
  simp only at e1 e2 e3 e4
  obtain ⟨q1, q2, q3⟩ := q
  have hsum : o1 + (((o2 : Int) - (o1 : Int) + 1)).toNat = o2 + 1 := by omega
  simp only [Function.comp, regionOf, Int.toNat_natCast, hsum, hun, Option.map_some, TryRegion.mk.injEq, b1, b2, a1.2.2, a2.2.2, true_and]
  simp only at a4
  rw [a4]
  simp only [handlerB, l3, hdp, Option.getD_some, Int.toNat_natCast, Option.some.injEq, Handler.mk.injEq, true_and]
  cases p.1.lasti <;> simp <;> omega

/-- The regions are written in order, one after the other. -/
theorem emit_sorted (hP : P.WF) (h11 : P.py311 = true) (hF : Final P key b c T M)
    (hw : WellTried none [] false b.elems) {n : Int} (he : c.emit P n = .ok co) : (regions co).Pairwise (fun r s => r.start + r.size ≤ s.start) := by
  have hE := emitted P hP h11 c (code P M) (fun i => i.loc.getD (Loc.line none)) hF.elems (hF.layout h11) hF.readable
    (by intro i hi; obtain ⟨l, hl⟩ := (hF.plain i hi).2.1; rw [hl]; rfl) n co he
  have hw' : WellTried none [] false (M.map (·.e)) := by rw [hF.lay.elems]; exact hw
  have hbl := (blocks_regs (P := P) M 0 [] false [] (by simp)).1 hw'
  rw [List.nil_append] at hbl
  have htab := hF.table
  rw [hbl] at htab
  have hrange := regs_range hF.code_pos M (fun d hd => hd) 0 none [] false (by simp) (by simp) hw'
  have hdis := regs_disjoint (P := P) M 0 none [] false (by simp) hw'
  have hres : ∀ p ∈ regs P 0 none M, ∀ e, resolveEntry P (labelsOf P 0 [] M) (code P M) p = .ok e →
      ∃ s t : Nat, e.start = s ∧ e.stop = t ∧ (instrOffsets P 0 (code P M))[p.2.start.toNat]? = some s ∧
        (instrOffsets P 0 (code P M))[p.2.stop.toNat]? = some t := by
    intro p hp e hpe
    obtain ⟨r1, r2, r3, r4, r5⟩ := hrange p hp
    unfold resolveEntry at hpe
    obtain ⟨s, hs, hpe⟩ := except_bind_ok hpe
    obtain ⟨t, ht, hpe⟩ := except_bind_ok hpe
    obtain ⟨ti, hti, hpe⟩ := except_bind_ok hpe
    obtain ⟨htl, k', hk1, hk2⟩ := hF.label hti
    rw [labelOffsets_get P _ code_size, if_pos (by omega)] at hpe
    simp only [pure, Except.pure, Except.ok.injEq, Nat.zero_add] at hpe
    subst hpe
    exact ⟨s, t, rfl, rfl, pyGet_ok hs r1, pyGet_ok ht r2⟩
  rw [hE.regions_, List.pairwise_map]
  refine List.Pairwise.imp_of_mem ?_ (mapM_pairwise (S := fun e f : ExcEntry => e.stop < f.start) _ _ htab hdis ?_)
  · intro e f hm _ hef
    obtain ⟨a1, a2, _⟩ := hE.entries_ e hm
    simp only [regionOf]; omega
  · intro p hp q hq e f hpq hpe hqf
    obtain ⟨s, t, e1, e2, e3, e4⟩ := hres p hp e hpe
    obtain ⟨s', t', f1, f2, f3, f4⟩ := hres q hq f hqf
    obtain ⟨r1, r2, _⟩ := hrange p hp
    obtain ⟨r1', r2', _⟩ := hrange q hq
    have := (offset_mono code_size f3 e4)
    have hn : ¬ s' ≤ t := by rw [this]; omega
    rw [e2, f1]; omega

end
end Verif
