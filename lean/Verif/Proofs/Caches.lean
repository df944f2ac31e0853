import Verif.Proofs.Passes
import Verif.Spec.Caches
/-
Inline caches in the result of the converter.
-/
namespace Verif
open Spec
section
variable {κ : Type} [DecidableEq κ]
variable {P : Platform} {key : Arg → κ} {b : Bytecode} {c : Concrete} {T : Tabs} {M : List Cell}

theorem cachesOK_replicate (n : Nat) (loc : Loc) (r : List CInstr) (h : CachesOK P 0 r) :
    CachesOK P n (List.replicate n (mkI P "CACHE" (some 0) loc) ++ r) := by
  induction n with
  | zero => exact h
  | succ n ih => rw [List.replicate_succ, List.cons_append]; exact ⟨rfl, ih⟩

theorem instrsOf_map (l : List CInstr) : instrsOf (l.map .instr) = l := by
  simp [instrsOf, List.filterMap_map, Function.comp_def]

theorem cachesOf_mkI {n : String} {op : Nat} (h : P.opmap n = some op) (a : Option Nat) (loc : Loc) :
    cachesOf P (mkI P n a loc) = nCaches P n := by
  unfold cachesOf nCaches
  rw [mkI_opcode h, h]; rfl

theorem Final.caches (h : Final P key b c T M) : CachesOK P 0 (instrsOf c.elems) := by
  rw [h.elems, instrsOf_map]
  have main : ∀ M' : List Cell, (∀ d ∈ M', d ∈ M) → CachesOK P 0 (code P M') := by
    intro M'
    induction M' with
    | nil => intro _; exact trivial
    | cons d M' ih =>
      intro hM
      have hd := hM d (by simp)
      have ih := ih (fun x hx => hM x (by simp [hx]))
      rw [code_cons]
      cases hi : d.e with
      | instr i =>
        obtain ⟨hv, hn, _⟩ := h.mem hd hi
        rcases h.shape hd hi with ⟨a, _, hc⟩ | ⟨n1, i1, n2, i2, _, hs, hc⟩
        · rw [hc, List.cons_append]
          refine ⟨by simpa [mkI] using hn, ?_⟩
          rw [cachesOf_mkI hv.name_op]
          exact cachesOK_replicate _ _ _ ih
        · obtain ⟨o1, p1, _, _⟩ := h.wf.dual_single _ _ _ hs n1 (.inl rfl)
          obtain ⟨o2, p2, _, _⟩ := h.wf.dual_single _ _ _ hs n2 (.inr rfl)
          obtain ⟨r1, r2⟩ := split_names hs
          rw [hc, List.cons_append, List.cons_append]
          refine ⟨by simpa [mkI] using r1, ?_⟩
          have : cachesOf P (mkI P n1 (some i1) d.loc) = 0 := by
            rw [cachesOf_mkI p1, nCaches, p1]
            simp [h.wf.dual_cache _ _ _ hs n1 (.inl rfl) o1 p1]
          rw [this]
          refine ⟨by simpa [mkI] using r2, ?_⟩
          rw [cachesOf_mkI p2]
          exact cachesOK_replicate _ _ _ ih
      | _ => simpa [Cell.code, hi] using ih
  exact main M (fun _ h => h)
end
end Verif

namespace Verif
open Spec
section
variable {κ : Type} [DecidableEq κ]
variable {P : Platform} {key : Arg → κ} {b : Bytecode} {c : Concrete}

theorem cacheStep_false {st st' : Conv} (h : st.cacheStep P false = .ok st') : st'.required = 0 := by
  unfold Conv.cacheStep at h
  simp only [Bool.false_eq_true, if_false] at h
  split at h
  · simp only [Except.ok.injEq] at h; subst h; assumption
  · split at h
    · simp at h
    · obtain ⟨cs, _, h⟩ := except_bind_ok h
      simp only [pure, Except.pure, Except.ok.injEq] at h
      subst h; rfl

/-- After an element, CACHE entries are due only if it was an instruction whose opcode requires them. -/
theorem step_required (hP : P.WF) (h11 : P.py311 = true) {A : Attrs} {st st' : Conv} {e : BElem} (h : Conv.step P key A st e = .ok st')
    (hr : st'.required ≠ 0) : ∃ j, e = .instr j ∧ ∃ op, P.opmap j.name = some op ∧ 0 < P.cacheEntries op := by
  unfold Conv.step at h
  obtain ⟨s, hs, h⟩ := except_bind_ok h
  cases e with
  | label l => simp only [Conv.elem, Except.ok.injEq] at h; subst h; exact absurd (cacheStep_false hs) hr
  | setLineno l => simp only [Conv.elem, Except.ok.injEq] at h; subst h; exact absurd (cacheStep_false hs) hr
  | tryBegin t =>
    simp only [Conv.elem] at h
    split at h
    · simp at h
    · simp only [Except.ok.injEq] at h; subst h; exact absurd (cacheStep_false hs) hr
  | tryEnd id =>
    simp only [Conv.elem] at h
    split at h
    · simp only [Except.ok.injEq] at h; subst h; exact absurd (cacheStep_false hs) hr
    · simp at h
  | instr i =>
    refine ⟨i, rfl, ?_⟩
    simp only [Conv.elem] at h
    obtain ⟨⟨T, enc⟩, henc, h⟩ := except_bind_ok h
    have hpush : ∀ {s : Conv} {n : String} {a : CArg} {j : Option Nat}, s.push P n a j = .ok st' →
        ∃ op, P.opmap n = some op ∧ 0 < P.cacheEntries op := by
      intro s n a j hp
      unfold Conv.push at hp
      obtain ⟨ci, hci, hp⟩ := except_bind_ok hp
      simp only [pure, Except.pure, Except.ok.injEq] at hp
      subst hp
      simp only [h11, if_true, CInstr.useCacheOpcodes] at hr
      obtain ⟨hci, hb, _⟩ := make_built hci
      refine ⟨ci.opcode, ?_, by omega⟩
      have := hb.name_op
      rwa [show ci.name = n by rw [hci]; rfl] at this
    cases enc with
    | plain a => exact hpush h
    | jump a => exact hpush h
    | cell a => exact hpush h
    | free a => exact hpush h
    | split n1 i1 n2 i2 =>
      simp only at h
      obtain ⟨ci, _, h⟩ := except_bind_ok h
      obtain ⟨op, h1, h2⟩ := hpush h
      have := hP.dual_cache _ _ _ (encode_split henc).1 n2 (.inr rfl) op h1
      omega

theorem conv_manual (hP : P.WF) (h11 : P.py311 = true) {A : Attrs} {st st' : Conv} (es1 es2 : List BElem) (e : BElem) (he : e.isCache = true)
    (h : (es1 ++ e :: es2).foldlM (Conv.step P key A) st = .ok st') (h0 : st.required = 0) :
    ∃ es0 j, es1 = es0 ++ [.instr j] ∧ ∃ op, P.opmap j.name = some op ∧ 0 < P.cacheEntries op := by
  have base : ∀ {s : Conv} {s' : Conv} {es : List BElem}, (e :: es).foldlM (Conv.step P key A) s = .ok s' → s.required ≠ 0 := by
    intro s s' es h hs
    rw [List.foldlM_cons] at h
    obtain ⟨s1, h1, _⟩ := except_bind_ok h
    unfold Conv.step Conv.cacheStep at h1
    simp [he, hs, bind, Except.bind] at h1
  rcases List.eq_nil_or_concat es1 with rfl | ⟨es0, x, rfl⟩
  · exact absurd h0 (base h)
  · rw [List.concat_eq_append, List.append_assoc, List.foldlM_append] at h
    obtain ⟨s, _, h⟩ := except_bind_ok h
    rw [List.singleton_append, List.foldlM_cons] at h
    obtain ⟨s1, h1, h2⟩ := except_bind_ok h
    obtain ⟨j, rfl, hj⟩ := step_required hP h11 h1 (base h2)
    exact ⟨es0, j, by rw [List.concat_eq_append], hj⟩
end
end Verif
