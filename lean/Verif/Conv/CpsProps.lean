import Verif.Conv.CpsWf
import Verif.Conv.Props

/-! # C35: CPS conversion preserves results and divergence (and part of C43) -/

namespace Conv

open Src (Exp Data SVal Eval)
open ANF (Var Tag FO Sig Returns emp)

/-- `convert_top` (LambdaBoxLocal_to_LambdaANF.v:391-400) as called by `compile_LambdaANF_CPS` (toplevel.v:56-67); `k` is
the first variable. -/
def convertTopCps (T : Types) (arity : Nat → Option Nat) (k : Nat) (e : Exp) : Option (ANF.Exp × ANF.Comp) :=
  match cpsWhole (T.params arity) e k with
  | some (e', k') =>
    let r := Ctor.convertEnv Ctor.defaultCtorTag Ctor.defaultIndTag T.decls
    some (e', { next := k', ctag := r.ncT, itag := r.niT, ftag := 3 + 1, cenv := r.ce })
  | none => none

namespace Cps

mutual
theorem VRel.data {P : Params} {cenv} : ∀ (d : Data) {v : SVal} {w}, VRel P cenv v w → v.unload = d.toExp →
    w = (toFO P.tag P.defaultTag d).toVal
  | .con i n ds, v, w, h, he => by
    cases h with
    | con h =>
      simp only [SVal.unload, Data.toExp, Exp.con.injEq] at he
      obtain ⟨rfl, he⟩ := he
      rw [toFO, FO.toVal, VRels.data ds h he]
    | pap _ _ _ => exact absurd he (pap_ne_data _)
    | _ => simp [SVal.unload, Data.toExp] at he
  | .prim p, v, w, h, he => by
    cases h with
    | prim => simp only [SVal.unload, Data.toExp, Exp.pval.injEq] at he; subst he; rfl
    | pap _ _ _ => exact absurd he (pap_ne_data _)
    | _ => simp [SVal.unload, Data.toExp] at he
  | .box, v, w, h, he => by
    cases h with
    | prf => rfl
    | pap _ _ _ => exact absurd he (pap_ne_data _)
    | _ => simp [SVal.unload, Data.toExp] at he
theorem VRels.data {P : Params} {cenv} : ∀ (ds : List Data) {vs : List SVal} {ws}, VRels P cenv vs ws →
    Src.Exps.ofList (SVal.unloads vs) = Data.toExps ds → ws = FO.toVals (toFOs P.tag P.defaultTag ds)
  | [], vs, ws, h, he => by
    cases h with
    | nil => rfl
    | cons h1 h2 => simp [SVal.unloads, Src.Exps.ofList, Data.toExps] at he
  | d :: ds, vs, ws, h, he => by
    cases h with
    | nil => simp [SVal.unloads, Src.Exps.ofList, Data.toExps] at he
    | cons h1 h2 =>
      simp only [SVal.unloads, Src.Exps.ofList, Data.toExps, Src.Exps.cons.injEq] at he
      rw [toFOs, FO.toVals, VRel.data d h1 he.1, VRels.data ds h2 he.2]
end

/-- Everything the theorems ask of a program and its conversion: types are declared consistently, the program is closed,
uses constructors as declared and only primitive operations with an arity. -/
structure InputP (T : Types) (arity : Nat → Option Nat) (k : Nat) (e : Exp) (S : Sig) (e' : ANF.Exp) (s : ANF.Comp) : Prop where
  types : T.Ok
  closed : e.wfp arity 0
  typed : Typed T e
  converted : convertTopCps T arity k e = some (e', s)
  cenv : S.cenv = s.cenv

/-- The same for programs without primitive operations. -/
structure Input (T : Types) (arity : Nat → Option Nat) (k : Nat) (e : Exp) (S : Sig) (e' : ANF.Exp) (s : ANF.Comp) : Prop where
  types : T.Ok
  closed : e.wf 0
  typed : Typed T e
  converted : convertTopCps T arity k e = some (e', s)
  cenv : S.cenv = s.cenv

variable {T : Types} {arity : Nat → Option Nat} {k : Nat} {e : Exp} {S : Sig} {e' : ANF.Exp} {s : ANF.Comp}

theorem Input.p (h : Input T arity k e S e' s) : InputP T arity k e S e' s :=
  ⟨h.types, h.closed.p, h.typed, h.converted, h.cenv⟩

theorem InputP.eqs (h : InputP T arity k e S e' s) : cpsWhole (T.params arity) e k = some (e', s.next) ∧ s.cenv = T.cenv := by
  have := h.converted
  simp only [convertTopCps] at this
  split at this
  · rename_i e'' k' hc
    simp only [Option.some.injEq, Prod.mk.injEq] at this
    obtain ⟨rfl, rfl⟩ := this
    exact ⟨hc, rfl⟩
  · cases this

theorem InputP.sim {Q : Src.Mode} (h : InputP T arity k e S e' s) (hQ : OpsOk (T.params arity) S Q) (n : Nat) :
    match Src.srun Q n [] e with
    | .val v => ∃ w, VRel (T.params arity) S.cenv v w ∧ Returns S emp e' w
    | .oot => ANF.run S n emp e' = .oot
    | .stuck => True := by
  obtain ⟨h1, h2⟩ := h.eqs
  refine whole_sim hQ h1 h.closed ?_ n
  rw [h.cenv, h2]; exact h.typed.ok h.types

theorem Input.sim (h : Input T arity k e S e' s) (n : Nat) :
    match Src.srun false n [] e with
    | .val v => ∃ w, VRel (T.params arity) S.cenv v w ∧ Returns S emp e' w
    | .oot => ANF.run S n emp e' = .oot
    | .stuck => True := h.p.sim .plain n

theorem not_stuck (he : e.wf 0) (hb : ¬ AppliesProof e) (n : Nat) :
    (∃ u, Src.srun false n [] e = .val u) ∨ Src.srun false n [] e = .oot := by
  cases hn : Src.srun false n [] e with
  | val u => exact .inl ⟨u, rfl⟩
  | oot => exact .inr rfl
  | stuck => exact absurd ((Src.stuck_iff he).2 ⟨n, hn⟩) hb

theorem eval_of_srun (he : e.wf 0) {n u} (hu : Src.srun false n [] e = .val u) : Eval e u.unload := by
  obtain ⟨m, hm⟩ := (Src.val_iff (bx := false) (w := u.unload) he).2 ⟨n, u, hu, rfl⟩
  refine Eval.iffR.2 ⟨m, ?_⟩
  rcases (Src.evalR_bx m).1 e with h1 | h1
  · rw [hm] at h1; cases h1
  · rw [h1, hm]

theorem srun_of_eval (he : e.wf 0) (hb : ¬ AppliesProof e) {v} (hv : Eval e v) :
    ∃ n u, Src.srun false n [] e = .val u ∧ u.unload = v := by
  obtain ⟨n, hn⟩ := Eval.iffR.1 hv
  have hf : Src.evalR false n e = .val v := by
    rcases (Src.evalR_bx n).1 e with h1 | h1
    · exact absurd ⟨n, h1⟩ hb
    · rw [← h1, hn]
  exact (Src.val_iff he).1 ⟨n, hf⟩

theorem finished_unique {ρ e₁ n m} (h1 : (ANF.run S n ρ e₁).Done) (h2 : (ANF.run S m ρ e₁).Done) :
    ANF.run S n ρ e₁ = ANF.run S m ρ e₁ := by
  rw [← ANF.run_mono (Nat.le_max_left n m) h1, ← ANF.run_mono (Nat.le_max_right n m) h2]

/-- The conversion succeeds on every closed program. -/
theorem C35_total (T : Types) (arity : Nat → Option Nat) (k : Nat) {e : Exp} (he : e.wfp arity 0) :
    ∃ r, convertTopCps T arity k e = some r := by
  obtain ⟨⟨e', k'⟩, h⟩ := cps_total (P := T.params arity) e [] k (k + 3) he
  simp [convertTopCps, cpsWhole, h]

/-- If a program that applies no erased proof evaluates to data, its CPS form returns the corresponding tree.
Missing: programs that apply an erased proof (see `C35_erased_application_refuted`), and primitive operations (see C58). -/
theorem C35_data_partial (h : Input T arity k e S e' s) {d : Data} (hb : ¬ AppliesProof e) (hv : Eval e d.toExp) :
    Returns S emp e' (toFO T.tag Ctor.defaultCtorTag d).toVal := by
  obtain ⟨n, u, hu, hd⟩ := srun_of_eval h.closed hb hv
  have := h.sim n
  rw [hu] at this
  obtain ⟨w, hw, hr⟩ := this
  rw [VRel.data d hw hd] at hr
  exact hr

/-- If it evaluates to any value (also a function), the CPS form returns one. -/
theorem C35_returns_partial (h : Input T arity k e S e' s) {v : Exp} (hb : ¬ AppliesProof e) (hv : Eval e v) :
    ∃ w, Returns S emp e' w := by
  obtain ⟨n, u, hu, hd⟩ := srun_of_eval h.closed hb hv
  have := h.sim n
  rw [hu] at this
  obtain ⟨w, hw, hr⟩ := this
  exact ⟨w, hr⟩

/-- If it diverges, so does the CPS form. -/
theorem C35_diverges_partial (h : Input T arity k e S e' s) (hb : ¬ AppliesProof e) (hd : Src.Diverges true e) :
    ANF.Diverges S emp e' := by
  have hf : Src.Diverges false e := by
    intro n
    rcases (Src.evalR_bx n).1 e with h1 | h1
    · exact absurd ⟨n, h1⟩ hb
    · rw [← h1, hd n]
  intro n
  have := h.sim n
  rwa [(Src.diverges_iff h.closed).1 hf n] at this

/-- Conversely, the CPS form returns only if the source program evaluates, and then to the value it stands for; it does
not turn divergence into a result, and it never goes wrong. -/
theorem C35_converse_partial (h : Input T arity k e S e' s) (hb : ¬ AppliesProof e) :
    (∀ w, Returns S emp e' w → ∃ u, Eval e u.unload ∧ VRel (T.params arity) S.cenv u w) ∧
    (ANF.Diverges S emp e' → Src.Diverges true e) ∧ ¬ ANF.GoesWrong S emp e' := by
  have key : (∃ n u, Src.srun false n [] e = .val u) ∨ ∀ n, Src.srun false n [] e = .oot := by
    by_cases hx : ∃ n u, Src.srun false n [] e = .val u
    · exact .inl hx
    · exact .inr fun n => (not_stuck h.closed hb n).resolve_left fun ⟨u, hu⟩ => hx ⟨n, u, hu⟩
  rcases key with ⟨n, u, hu⟩ | ho
  · have hs := h.sim n
    rw [hu] at hs
    obtain ⟨w, hw, m, hm⟩ := hs
    refine ⟨?_, ?_, ?_⟩
    · rintro w' ⟨m', hm'⟩
      have := finished_unique (S := S) (ρ := emp) (e₁ := e') (n := m) (m := m') (by rw [hm]; trivial) (by rw [hm']; trivial)
      rw [hm, hm'] at this
      injection this with this
      subst this
      exact ⟨u, eval_of_srun h.closed hu, hw⟩
    · intro hd; rw [hd m] at hm; cases hm
    · rintro ⟨m', hm'⟩
      have := finished_unique (S := S) (ρ := emp) (e₁ := e') (n := m) (m := m') (by rw [hm]; trivial) (by rw [hm']; trivial)
      rw [hm, hm'] at this; cases this
  · have hd : ANF.Diverges S emp e' := fun n => by have := h.sim n; rwa [ho n] at this
    refine ⟨?_, ?_, ?_⟩
    · rintro w ⟨m, hm⟩; rw [hd m] at hm; cases hm
    · intro _ n
      have hf := (Src.diverges_iff (bx := false) h.closed).2 ho
      rcases (Src.evalR_bx n).1 e with h1 | h1
      · rw [hf n] at h1; cases h1
      · rw [h1, hf n]
    · rintro ⟨m, hm⟩; rw [hd m] at hm; cases hm

/-- The conversion is not right for all programs: the program that applies an erased proof to an erased proof evaluates
to an erased proof, but its CPS form applies a constructor and goes wrong. -/
theorem C35_erased_application_refuted : ∃ (T : Types) (e : Exp) (e' : ANF.Exp) (s : ANF.Comp),
    Input T (fun _ => none) 100 e ⟨s.cenv, fun _ _ => none⟩ e' s ∧ Eval e Data.box.toExp ∧
      ANF.GoesWrong ⟨s.cenv, fun _ _ => none⟩ emp e' := by
  refine ⟨⟨[], fun i => (⟨.file [], []⟩, i)⟩, .app .prf .prf, _, _, ⟨⟨by simp, ?_⟩, ?_, ?_, rfl, rfl⟩, ?_, 3, rfl⟩
  · intro i j h; exact (Prod.mk.inj h).2
  · simp [Exp.wf]
  · simp [Typed]
  · exact .prfApp .prf .prf

/-! ## C43: the variables of converted programs -/

/-- The converted program is closed; apart from one repetition of the first variable `k`, its binders are pairwise
distinct; none is below `k` and the next fresh variable is above all of them. -/
theorem C43_cps_conversion_partial (h : InputP T arity k e S e' s) :
    e'.fv = ∅ ∧ (∃ l, e'.bv.Perm (k :: l) ∧ l.Nodup) ∧ ∀ x ∈ e'.bv, k ≤ x ∧ x < s.next := by
  obtain ⟨h1, _⟩ := h.eqs
  simp only [cpsWhole] at h1
  split at h1
  · rename_i e₁ k₁ hc
    simp only [Option.some.injEq, Prod.mk.injEq] at h1
    obtain ⟨rfl, rfl⟩ := h1
    have hb := cps_bound (vn := []) (P := T.params arity) e h.closed hc
    obtain ⟨f, v⟩ := cps_wf e hc h.closed
    have hf : Fresh (k :: (k + 1) :: (k + 2) :: e₁.bv) k s.next :=
      .cons (.cons (.cons f (by vomega)) (by vomega)) (by vomega)
    have hp : (ANF.Exp.fn (.cons (k + 1) (T.params arity).konTag [k] e₁ (one k (T.params arity).konTag [k + 2]
        (.halt (k + 2)))) (.app (k + 1) (T.params arity).konTag [k])).bv.Perm (k :: (k :: (k + 1) :: (k + 2) :: e₁.bv)) := by
      simp only [ANF.Exp.bv, ANF.Defs.bv]
      perm_count
    refine ⟨?_, ⟨_, hp, hf.nodup⟩, ?_⟩
    · rw [Finset.eq_empty_iff_forall_notMem]
      intro y hy
      have a := v y
      simp only [ANF.Exp.fv, ANF.Defs.fvRaw, ANF.Defs.names, Finset.mem_sdiff, Finset.mem_union, Finset.mem_insert,
        List.mem_toFinset, List.mem_cons, List.not_mem_nil, or_false, Finset.notMem_empty, Finset.mem_singleton] at hy a
      tauto
    · intro x hx
      rw [hp.mem_iff, List.mem_cons] at hx
      rcases hx with rfl | hx
      · exact hf.range _ (by simp)
      · exact hf.range x hx
  · cases h1

/-- The binders of a CPS-converted program are never distinct: the top continuation is bound twice. -/
theorem C43_cps_refuted (h : InputP T arity k e S e' s) : ¬ e'.bv.Nodup := by
  obtain ⟨h1, _⟩ := h.eqs
  simp only [cpsWhole] at h1
  split at h1
  · simp only [Option.some.injEq, Prod.mk.injEq] at h1
    obtain ⟨rfl, rfl⟩ := h1
    simp [ANF.Exp.bv, ANF.Defs.bv]
  · cases h1

/-! ## The hypotheses are met -/

/-- The doubling function applied to two: converted, and the CPS form returns four. -/
example : ∃ e' s, Input natTypes (fun _ => none) 100 (.app Src.dbl (Src.num 2)) ⟨s.cenv, fun _ _ => none⟩ e' s ∧
    ¬ AppliesProof (.app Src.dbl (Src.num 2)) ∧ Eval (.app Src.dbl (Src.num 2)) Src.four.toExp ∧
    Returns ⟨s.cenv, fun _ _ => none⟩ emp e' (toFO natTypes.tag Ctor.defaultCtorTag Src.four).toVal := by
  have hw : (Exp.app Src.dbl (Src.num 2)).wf 0 := by
    simp [Exp.wf, Src.Fns.wf, Src.Brs.wf, Src.Exps.wf, Src.dbl, Src.num, Src.Fns.len]
  obtain ⟨⟨e', s⟩, h⟩ := C35_total natTypes (fun _ => none) 100 hw.p
  have hv : Eval (.app Src.dbl (Src.num 2)) Src.four.toExp := Src.C33_interpreter_exact.2 ⟨20, by decide +kernel⟩
  have hi : Input natTypes (fun _ => none) 100 (.app Src.dbl (Src.num 2)) ⟨s.cenv, fun _ _ => none⟩ e' s :=
    ⟨natTypes_ok, hw, dbl_typed, h, rfl⟩
  have hf : Src.evalR false 20 (.app Src.dbl (Src.num 2)) = .val Src.four.toExp := by rfl
  have hb : ¬ AppliesProof (.app Src.dbl (Src.num 2)) := by
    rintro ⟨n, hn⟩
    have := Src.Fin.det (n := 20) (e := .app Src.dbl (Src.num 2)) ⟨by simp, n, hn⟩ (by rw [hf]; simp)
    rw [hf] at this; cases this
  exact ⟨e', s, hi, hb, hv, C35_data_partial hi hb hv⟩

/-- A diverging program meets the hypotheses of `C35_diverges_partial`. -/
example : ∃ e' s, Input natTypes (fun _ => none) 100 loop ⟨s.cenv, fun _ _ => none⟩ e' s ∧ ¬ AppliesProof loop ∧
    Src.Diverges true loop ∧ ANF.Diverges ⟨s.cenv, fun _ _ => none⟩ emp e' := by
  have hw : loop.wf 0 := by simp [loop, Exp.wf, Src.Fns.wf, Src.Exps.wf, Src.Fns.len]
  obtain ⟨⟨e', s⟩, h⟩ := C35_total natTypes (fun _ => none) 100 hw.p
  have hi : Input natTypes (fun _ => none) 100 loop ⟨s.cenv, fun _ _ => none⟩ e' s :=
    ⟨natTypes_ok, hw, ⟨⟨⟨trivial, trivial⟩, trivial⟩, nat_zero, trivial⟩, h, rfl⟩
  have hb : ¬ AppliesProof loop := by
    rintro ⟨n, hn⟩; rw [loop_diverges false n] at hn; cases hn
  exact ⟨e', s, hi, hb, loop_diverges true, C35_diverges_partial hi hb (loop_diverges true)⟩

end Cps

end Conv
