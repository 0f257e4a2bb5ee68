import Verif.Conv.Big
import Verif.Conv.CpsProps

/-!
# C58: programs with primitive operations

What primitive operations mean in source programs, and that both conversions to LambdaANF preserve it.
-/

namespace Conv

open Src (Exp Data SVal Eval Mode Big Yields Finishes Loops Fails)
open ANF (Var Tag FO Sig Returns emp)

/-! ## The semantics -/

/-- C58: a program has at most one value. -/
theorem C58_deterministic {Q : Mode} {ρ : List SVal} {e : Exp} {v w : SVal} (h : Big Q ρ e v) (h' : Big Q ρ e w) : v = w := by
  obtain ⟨n, hn⟩ := h.run
  obtain ⟨m, hm⟩ := h'.run
  have := (hn (max n m) (by omega)).symm.trans (hm (max n m) (by omega))
  cases this; rfl

/-- C58: a program has a value, is stuck, or runs forever, and only one of these. -/
theorem C58_outcomes (Q : Mode) (e : Exp) : (Finishes Q e ∨ Fails Q e ∨ Loops Q e) ∧ ¬ (Finishes Q e ∧ Fails Q e) ∧
    ¬ (Finishes Q e ∧ Loops Q e) ∧ ¬ (Fails Q e ∧ Loops Q e) := by
  refine ⟨?_, ?_, ?_, ?_⟩
  · by_cases h : Loops Q e
    · exact .inr (.inr h)
    · simp only [Loops, not_forall] at h
      obtain ⟨n, h⟩ := h
      cases hn : Src.srun Q n [] e with
      | oot => exact absurd hn h
      | stuck => exact .inr (.inl ⟨n, hn⟩)
      | val v => exact .inl ⟨v, Src.big_iff.2 ⟨n, hn⟩⟩
  · rintro ⟨⟨v, hv⟩, m, hm⟩
    obtain ⟨n, hn⟩ := hv.run
    have h1 := hn (max n m) (by omega)
    rw [Src.srun_mono (Nat.le_max_right n m) (by rw [hm]; simp), hm] at h1
    cases h1
  · rintro ⟨⟨v, hv⟩, hl⟩
    obtain ⟨n, hn⟩ := hv.run
    have := (hl n).symm.trans (hn n (Nat.le_refl _)); cases this
  · rintro ⟨⟨n, hn⟩, hl⟩
    have := (hl n).symm.trans hn; cases this

mutual
theorem unload_data : ∀ (d : Data) {u : SVal}, u.unload = d.toExp → u = d.toSVal
  | .con i n ds, u, h => by
    cases u with
    | con d vs =>
      simp only [SVal.unload, Data.toExp, Exp.con.injEq] at h
      obtain ⟨rfl, h⟩ := h
      rw [Data.toSVal, unload_datas ds h]
    | pap => exact absurd h (pap_ne_data _)
    | _ => simp [SVal.unload, Data.toExp] at h
  | .prim p, u, h => by
    cases u with
    | prim q => simp only [SVal.unload, Data.toExp, Exp.pval.injEq] at h; subst h; rfl
    | pap => exact absurd h (pap_ne_data _)
    | _ => simp [SVal.unload, Data.toExp] at h
  | .box, u, h => by
    cases u with
    | prf => rfl
    | pap => exact absurd h (pap_ne_data _)
    | _ => simp [SVal.unload, Data.toExp] at h
theorem unload_datas : ∀ (ds : List Data) {us : List SVal}, Src.Exps.ofList (SVal.unloads us) = Data.toExps ds → us = Data.toSVals ds
  | [], us, h => by
    cases us with
    | nil => rfl
    | cons => simp [SVal.unloads, Src.Exps.ofList, Data.toExps] at h
  | d :: ds, us, h => by
    cases us with
    | nil => simp [SVal.unloads, Src.Exps.ofList, Data.toExps] at h
    | cons u us =>
      simp only [SVal.unloads, Src.Exps.ofList, Data.toExps, Src.Exps.cons.injEq] at h
      rw [Data.toSVals, unload_data d h.1, unload_datas ds h.2]
end

mutual
theorem unload_toSVal : ∀ d : Data, d.toSVal.unload = d.toExp
  | .con i n ds => by rw [Data.toSVal, SVal.unload, unload_toSVals ds, Data.toExp]
  | .prim p => rfl
  | .box => rfl
theorem unload_toSVals : ∀ ds : List Data, Src.Exps.ofList (SVal.unloads (Data.toSVals ds)) = Data.toExps ds
  | [] => rfl
  | d :: ds => by rw [Data.toSVals, SVal.unloads, Src.Exps.ofList, unload_toSVal d, unload_toSVals ds, Data.toExps]
end

/-- C58: on programs without primitive operations the semantics is the one of LambdaBoxLocal: a program yields data iff it
evaluates to it by substitution and applies no erased proof; it is stuck iff it applies one (or is stuck anyway); and one that
applies none runs forever by the one iff by the other. -/
theorem C58_conservative {e : Exp} (he : e.wf 0) :
    (∀ d, Yields (.plain false) e d ↔ Eval e d.toExp ∧ ¬ AppliesProof e) ∧ (Fails (.plain false) e ↔ AppliesProof e) ∧
    (Loops (.plain false) e ↔ Src.Diverges true e ∧ ¬ AppliesProof e) := by
  have hs : Fails (.plain false) e ↔ AppliesProof e := (Src.stuck_iff he).symm
  refine ⟨fun d => ⟨fun h => ⟨?_, fun hb => ?_⟩, fun ⟨hv, hb⟩ => ?_⟩, hs, ⟨fun h => ⟨?_, fun hb => ?_⟩, fun ⟨hd, hb⟩ => ?_⟩⟩
  · obtain ⟨n, hn⟩ := Src.big_iff.1 h
    have := Cps.eval_of_srun he hn
    rwa [unload_toSVal] at this
  · exact (C58_outcomes (.plain false) e).2.1 ⟨⟨_, h⟩, hs.2 hb⟩
  · obtain ⟨n, u, hu, hd⟩ := Cps.srun_of_eval he hb hv
    rw [unload_data d hd] at hu
    exact Src.big_iff.2 ⟨n, hu⟩
  · have hf := (Src.diverges_iff (bx := false) he).2 h
    intro n
    rcases (Src.evalR_bx n).1 e with h1 | h1
    · rw [hf n] at h1; cases h1
    · rw [h1, hf n]
  · exact (C58_outcomes (.plain false) e).2.2.2 ⟨hs.2 hb, h⟩
  · have hf : Src.Diverges false e := by
      intro n
      rcases (Src.evalR_bx n).1 e with h1 | h1
      · exact absurd ⟨n, h1⟩ hb
      · rw [← h1, hd n]
    exact (Src.diverges_iff he).1 hf

/-! ## The conversions -/

section
variable {T : Types} {arity : Nat → Option Nat} {k : Nat} {e : Exp} {S : Sig} {e' : ANF.Exp} {s : ANF.Comp} {Q : Mode}

theorem VRel.ofData {P : Params} {cenv} {d : Data} {w} (h : VRel P cenv d.toSVal w) : w = (toFO P.tag P.defaultTag d).toVal :=
  VRel.data d h (unload_toSVal d)

theorem Cps.VRel.ofData {P : Params} {cenv} {d : Data} {w} (h : Cps.VRel P cenv d.toSVal w) :
    w = (toFO P.tag P.defaultTag d).toVal := Cps.VRel.data d h (unload_toSVal d)

/-- C58: conversion to direct style.  If a program yields data, its ANF form returns the corresponding tree; if it has any
value, the ANF form returns one; if it runs forever, so does the ANF form.  `OpsOk`: the operations of LambdaANF compute what
those of the source compute; applying an erased proof is an error. -/
theorem C58_anf (h : InputP T arity k e S e' s) (hQ : OpsOk (T.params arity) S Q) :
    (∀ d, Yields Q e d → Returns S emp e' (toFO T.tag Ctor.defaultCtorTag d).toVal) ∧
    (Finishes Q e → ∃ w, Returns S emp e' w) ∧ (Loops Q e → ANF.Diverges S emp e') := by
  refine ⟨fun d hd => ?_, fun ⟨v, hv⟩ => ?_, fun hl n => ?_⟩
  · obtain ⟨n, hn⟩ := Src.big_iff.1 hd
    have := h.sim hQ n
    rw [hn] at this
    obtain ⟨w, hw, hr⟩ := this
    exact ⟨n, by rw [hw, hr.ofData]; rfl⟩
  · obtain ⟨n, hn⟩ := Src.big_iff.1 hv
    have := h.sim hQ n
    rw [hn] at this
    obtain ⟨w, hw, _⟩ := this
    exact ⟨w, n, hw⟩
  · have := h.sim hQ n
    rwa [hl n] at this

/-- C58: the same for conversion to continuation-passing style. -/
theorem C58_cps (h : Cps.InputP T arity k e S e' s) (hQ : OpsOk (T.params arity) S Q) :
    (∀ d, Yields Q e d → Returns S emp e' (toFO T.tag Ctor.defaultCtorTag d).toVal) ∧
    (Finishes Q e → ∃ w, Returns S emp e' w) ∧ (Loops Q e → ANF.Diverges S emp e') := by
  refine ⟨fun d hd => ?_, fun ⟨v, hv⟩ => ?_, fun hl n => ?_⟩
  · obtain ⟨n, hn⟩ := Src.big_iff.1 hd
    have := h.sim hQ n
    rw [hn] at this
    obtain ⟨w, hr, hw⟩ := this
    rw [hr.ofData] at hw
    exact hw
  · obtain ⟨n, hn⟩ := Src.big_iff.1 hv
    have := h.sim hQ n
    rw [hn] at this
    obtain ⟨w, _, hw⟩ := this
    exact ⟨w, hw⟩
  · have := h.sim hQ n
    rwa [hl n] at this

end

end Conv
