import Verif.Conv.AnfWf
import Verif.Src.Props

/-! # C34: ANF conversion preserves results and divergence (and parts of C33, C43, C49) -/

namespace Conv

open Src (Exp Data SVal Eval)
open ANF (Var Tag FO Sig Returns emp)

/-! ## C33: the environment semantics -/

/-- The two semantics of the source language agree: a closed program has value `w` by substitution iff the environment
interpreter returns a value standing for `w`; it runs forever by the one iff by the other. -/
theorem C33_environments {e : Exp} (he : e.wf 0) :
    (∀ w, Eval e w ↔ ∃ n v, Src.srun true n [] e = .val v ∧ v.unload = w) ∧
    (Src.Diverges true e ↔ ∀ n, Src.srun true n [] e = .oot) ∧
    (Src.Stuck true e ↔ ∃ n, Src.srun true n [] e = .stuck) :=
  ⟨fun w => by rw [Eval.iffR]; exact Src.val_iff he, Src.diverges_iff he, Src.stuck_iff he⟩

/-- Every program has exactly one fate: a value, an error, or divergence. -/
theorem C33_outcomes (e : Exp) : ((∃ v, Eval e v) ∨ Src.Stuck true e ∨ Src.Diverges true e) ∧
    ¬ ((∃ v, Eval e v) ∧ Src.Stuck true e) ∧ ¬ ((∃ v, Eval e v) ∧ Src.Diverges true e) ∧
    ¬ (Src.Stuck true e ∧ Src.Diverges true e) := by
  refine ⟨?_, ?_, ?_, ?_⟩
  · by_cases h : Src.Diverges true e
    · exact .inr (.inr h)
    · simp only [Src.Diverges, not_forall] at h
      obtain ⟨n, h⟩ := h
      cases hn : Src.evalR true n e with
      | oot => exact absurd hn h
      | stuck => exact .inr (.inl ⟨n, hn⟩)
      | val v => exact .inl ⟨v, Eval.iffR.2 ⟨n, hn⟩⟩
  · rintro ⟨⟨v, hv⟩, n, hn⟩
    obtain ⟨m, hm⟩ := Eval.iffR.1 hv
    have h1 := Src.Fin.det (n := m) (e := e) ⟨by simp, n, hn⟩ (by rw [hm]; simp)
    rw [hm] at h1; cases h1
  · rintro ⟨⟨v, hv⟩, hd⟩
    obtain ⟨m, hm⟩ := Eval.iffR.1 hv
    rw [hd m] at hm; cases hm
  · rintro ⟨⟨n, hn⟩, hd⟩
    rw [hd n] at hn; cases hn

/-! ## C34: ANF conversion -/

/-- The program applies an erased proof to an argument (or goes wrong anyway). -/
def AppliesProof (e : Exp) : Prop := Src.Stuck false e

theorem foldl_app : ∀ (es : List Exp) (f : Exp), es.foldl Exp.app f = f ∨ ∃ a b, es.foldl Exp.app f = .app a b
  | [], f => .inl rfl
  | e :: es, f => by
    rcases foldl_app es (.app f e) with h | h
    · exact .inr ⟨_, _, h⟩
    · exact .inr h

theorem pap_ne_data {p m vs} (d : Data) : (SVal.pap p m vs).unload ≠ d.toExp := by
  intro h
  rw [SVal.unload] at h
  rcases foldl_app (SVal.unloads vs) (.prim p) with h' | ⟨a, b, h'⟩ <;> rw [h'] at h <;> cases d <;> simp [Data.toExp] at h

mutual
theorem VRel.data {P : Params} {cenv} : ∀ (d : Data) {v : SVal} {w}, VRel P cenv v w → v.unload = d.toExp →
    w = (toFO P.tag P.defaultTag d).toVal
  | .con i n ds, v, w, h, he => by
    cases h with
    | con h =>
      simp only [SVal.unload, Data.toExp, Exp.con.injEq] at he
      obtain ⟨rfl, he⟩ := he
      rw [toFO, FO.toVal, VRels.data ds h he]
    | pap _ _ _ => exact absurd he (pap_ne_data _)
    | _ => simp [SVal.unload, Data.toExp] at he
  | .prim p, v, w, h, he => by
    cases h with
    | prim => simp only [SVal.unload, Data.toExp, Exp.pval.injEq] at he; subst he; rfl
    | pap _ _ _ => exact absurd he (pap_ne_data _)
    | _ => simp [SVal.unload, Data.toExp] at he
  | .box, v, w, h, he => by
    cases h with
    | prf => rfl
    | pap _ _ _ => exact absurd he (pap_ne_data _)
    | _ => simp [SVal.unload, Data.toExp] at he
theorem VRels.data {P : Params} {cenv} : ∀ (ds : List Data) {vs : List SVal} {ws}, VRels P cenv vs ws →
    Src.Exps.ofList (SVal.unloads vs) = Data.toExps ds → ws = FO.toVals (toFOs P.tag P.defaultTag ds)
  | [], vs, ws, h, he => by
    cases h with
    | nil => rfl
    | cons h1 h2 => simp [SVal.unloads, Src.Exps.ofList, Data.toExps] at he
  | d :: ds, vs, ws, h, he => by
    cases h with
    | nil => simp [SVal.unloads, Src.Exps.ofList, Data.toExps] at he
    | cons h1 h2 =>
      simp only [SVal.unloads, Src.Exps.ofList, Data.toExps, Src.Exps.cons.injEq] at he
      rw [toFOs, FO.toVals, VRel.data d h1 he.1, VRels.data ds h2 he.2]
end

/-- Everything the theorems ask of a program and its conversion: types are declared consistently, the program is closed,
uses constructors as declared and only primitive operations with an arity. -/
structure InputP (T : Types) (arity : Nat → Option Nat) (k : Nat) (e : Exp) (S : Sig) (e' : ANF.Exp) (s : ANF.Comp) : Prop where
  types : T.Ok
  closed : e.wfp arity 0
  typed : Typed T e
  converted : convertTopAnf T arity k e = some (e', s)
  cenv : S.cenv = s.cenv

/-- The same for programs without primitive operations. -/
structure Input (T : Types) (arity : Nat → Option Nat) (k : Nat) (e : Exp) (S : Sig) (e' : ANF.Exp) (s : ANF.Comp) : Prop where
  types : T.Ok
  closed : e.wf 0
  typed : Typed T e
  converted : convertTopAnf T arity k e = some (e', s)
  cenv : S.cenv = s.cenv

variable {T : Types} {arity : Nat → Option Nat} {k : Nat} {e : Exp} {S : Sig} {e' : ANF.Exp} {s : ANF.Comp}

theorem Input.p (h : Input T arity k e S e' s) : InputP T arity k e S e' s :=
  ⟨h.types, h.closed.p, h.typed, h.converted, h.cenv⟩

theorem InputP.eqs (h : InputP T arity k e S e' s) : convExp (T.params arity) e k = some (e', s.next) ∧ s.cenv = T.cenv ∧
    s.ctag = (Ctor.convertEnv Ctor.defaultCtorTag Ctor.defaultIndTag T.decls).ncT := by
  have := h.converted
  simp only [convertTopAnf] at this
  split at this
  · rename_i e'' k' hc
    simp only [Option.some.injEq, Prod.mk.injEq] at this
    obtain ⟨rfl, rfl⟩ := this
    exact ⟨hc, rfl, rfl⟩
  · cases this

theorem InputP.sim {Q : Src.Mode} (h : InputP T arity k e S e' s) (hQ : OpsOk (T.params arity) S Q) (n : Nat) :
    RRel (T.params arity) S.cenv (Src.srun Q n [] e) (ANF.run S n emp e') := by
  obtain ⟨h1, h2, _⟩ := h.eqs
  refine run_sim hQ h1 h.closed ?_ n
  rw [h.cenv, h2]; exact h.typed.ok h.types

theorem Input.sim (h : Input T arity k e S e' s) (n : Nat) :
    RRel (T.params arity) S.cenv (Src.srun false n [] e) (ANF.run S n emp e') := h.p.sim .plain n

/-- The conversion succeeds on every closed program. -/
theorem C34_total (T : Types) (arity : Nat → Option Nat) (k : Nat) {e : Exp} (he : e.wfp arity 0) :
    ∃ r, convertTopAnf T arity k e = some r := by
  obtain ⟨⟨x, C, k'⟩, h⟩ := conv_total (P := T.params arity) e [] k he
  simp [convertTopAnf, convExp, h]

theorem Input.value (h : Input T arity k e S e' s) {v : Exp} (hb : ¬ AppliesProof e) (hv : Eval e v) :
    ∃ n u w, Src.srun false n [] e = .val u ∧ u.unload = v ∧ ANF.run S n emp e' = .val w ∧ VRel (T.params arity) S.cenv u w := by
  obtain ⟨n, hn⟩ := Eval.iffR.1 hv
  have hf : Src.evalR false n e = .val v := by
    rcases (Src.evalR_bx n).1 e with h1 | h1
    · exact absurd ⟨n, h1⟩ hb
    · rw [← h1, hn]
  obtain ⟨m, u, hu, rfl⟩ := (Src.val_iff h.closed).1 ⟨n, hf⟩
  have := h.sim m
  rw [hu] at this
  obtain ⟨w, hw, hr⟩ := this
  exact ⟨m, u, w, hu, rfl, hw, hr⟩

/-- If a program that applies no erased proof evaluates to data, its ANF form returns the corresponding tree.
Missing: programs that apply an erased proof (see `C34_erased_application_refuted`), and primitive operations (see C58). -/
theorem C34_data_partial (h : Input T arity k e S e' s) {d : Data} (hb : ¬ AppliesProof e) (hv : Eval e d.toExp) :
    Returns S emp e' (toFO T.tag Ctor.defaultCtorTag d).toVal := by
  obtain ⟨n, u, w, _, h2, h3, h4⟩ := h.value hb hv
  exact ⟨n, by rw [h3, VRel.data d h4 h2]; rfl⟩

/-- If it evaluates to any value (also a function), the ANF form returns one. -/
theorem C34_returns_partial (h : Input T arity k e S e' s) {v : Exp} (hb : ¬ AppliesProof e) (hv : Eval e v) :
    ∃ w, Returns S emp e' w := by
  obtain ⟨n, u, w, _, _, h3, _⟩ := h.value hb hv
  exact ⟨w, n, h3⟩

/-- If it diverges, so does the ANF form. -/
theorem C34_diverges_partial (h : Input T arity k e S e' s) (hb : ¬ AppliesProof e) (hd : Src.Diverges true e) :
    ANF.Diverges S emp e' := by
  have hf : Src.Diverges false e := by
    intro n
    rcases (Src.evalR_bx n).1 e with h1 | h1
    · exact absurd ⟨n, h1⟩ hb
    · rw [← h1, hd n]
  intro n
  have := h.sim n
  rwa [(Src.diverges_iff h.closed).1 hf n] at this

/-- Conversely, the ANF form returns only if the source program evaluates, and then to the value it stands for; in
particular it does not turn divergence into a result. -/
theorem C34_converse_partial (h : Input T arity k e S e' s) (hb : ¬ AppliesProof e) :
    (∀ w, Returns S emp e' w → ∃ u, Eval e u.unload ∧ VRel (T.params arity) S.cenv u w) ∧
    (ANF.Diverges S emp e' → Src.Diverges true e) ∧ ¬ ANF.GoesWrong S emp e' := by
  have key : ∀ n, (∃ u, Src.srun false n [] e = .val u) ∨ Src.srun false n [] e = .oot := by
    intro n
    cases hn : Src.srun false n [] e with
    | val u => exact .inl ⟨u, rfl⟩
    | oot => exact .inr rfl
    | stuck => exact absurd ((Src.stuck_iff h.closed).2 ⟨n, hn⟩) hb
  refine ⟨?_, ?_, ?_⟩
  · rintro w ⟨n, hn⟩
    have hs := h.sim n
    rcases key n with ⟨u, hu⟩ | ho
    · rw [hu] at hs
      obtain ⟨w', hw', hr⟩ := hs
      rw [hn] at hw'; injection hw' with hw'; subst hw'
      obtain ⟨m, hm⟩ := (Src.val_iff (bx := false) (w := u.unload) h.closed).2 ⟨n, u, hu, rfl⟩
      refine ⟨u, Eval.iffR.2 ⟨m, ?_⟩, hr⟩
      rcases (Src.evalR_bx m).1 e with h1 | h1
      · rw [hm] at h1; cases h1
      · rw [h1, hm]
    · rw [ho] at hs; rw [hn] at hs; cases hs
  · intro hd
    have hf : Src.Diverges false e := by
      rw [Src.diverges_iff h.closed]
      intro n
      rcases key n with ⟨u, hu⟩ | ho
      · have hs := h.sim n
        rw [hu] at hs
        obtain ⟨w', hw', hr⟩ := hs
        rw [hd n] at hw'; cases hw'
      · exact ho
    intro n
    rcases (Src.evalR_bx n).1 e with h1 | h1
    · rw [hf n] at h1; cases h1
    · rw [h1, hf n]
  · rintro ⟨n, hn⟩
    have hs := h.sim n
    rcases key n with ⟨u, hu⟩ | ho
    · rw [hu] at hs
      obtain ⟨w', hw', hr⟩ := hs
      rw [hn] at hw'; cases hw'
    · rw [ho] at hs; rw [hn] at hs; cases hs

/-- The conversion is not right for all programs: the program that applies an erased proof to an erased proof evaluates
to an erased proof, but its ANF form applies a constructor and goes wrong. -/
theorem C34_erased_application_refuted : ∃ (T : Types) (e : Exp) (e' : ANF.Exp) (s : ANF.Comp),
    Input T (fun _ => none) 100 e ⟨s.cenv, fun _ _ => none⟩ e' s ∧ Eval e Data.box.toExp ∧
      ANF.GoesWrong ⟨s.cenv, fun _ _ => none⟩ emp e' := by
  refine ⟨⟨[], fun i => (⟨.file [], []⟩, i)⟩, .app .prf .prf, _, _, ⟨⟨by simp, ?_⟩, ?_, ?_, rfl, rfl⟩, ?_, 0, rfl⟩
  · intro i j h; exact (Prod.mk.inj h).2
  · simp [Exp.wf]
  · simp [Typed]
  · exact .prfApp .prf .prf

/-! ## C43, C49: the variables of converted programs -/

/-- The converted program is closed, its binders are pairwise distinct, none is below the first variable `k` (so none is
one of the identifiers below it that the backends reserve) and the next fresh variable is above all of them. -/
theorem C43_anf_conversion (h : InputP T arity k e S e' s) :
    e'.fv = ∅ ∧ e'.bv.Nodup ∧ ∀ x ∈ e'.bv, k ≤ x ∧ x < s.next := by
  obtain ⟨h1, _⟩ := h.eqs
  simp only [convExp] at h1
  split at h1
  · rename_i x C k' hc
    simp only [Option.some.injEq, Prod.mk.injEq] at h1
    obtain ⟨rfl, rfl⟩ := h1
    have := conv_wf e hc h.closed
    exact ⟨Finset.subset_empty.1 (by simpa using this.fv), this.bv.nodup, this.bv.range⟩
  · cases h1

/-- It only matches on tags of declared constructors, which are not reserved. -/
theorem C43_anf_tags (h : InputP T arity k e S e' s) : ∀ t ∈ e'.caseTags, t < s.ctag ∧ t ≠ Ctor.cloTag := by
  obtain ⟨h1, _, h3⟩ := h.eqs
  simp only [convExp] at h1
  split at h1
  · rename_i x C k' hc
    simp only [Option.some.injEq, Prod.mk.injEq] at h1
    obtain ⟨rfl, rfl⟩ := h1
    have := conv_tags e hc h.typed.brs
    intro t ht
    simp only [Ctx.caseTags_fill, ANF.Exp.caseTags, List.append_nil] at ht
    obtain ⟨d, ⟨n, hd⟩, rfl⟩ := this t ht
    obtain ⟨_, h5, h6, _⟩ := Types.tag_spec h.types hd
    rw [h3]
    exact ⟨h6, h5⟩
  · cases h1

/-- C49: the variables of a converted program are not among the identifiers reserved by the backend, which are all below
the first variable. -/
theorem C49_converted (h : InputP T arity k e S e' s) {reserved : List Nat} (hr : ∀ r ∈ reserved, r < k) :
    ∀ x ∈ e'.bv, x ∉ reserved := fun x hx hm => by
  have := (C43_anf_conversion h).2.2 x hx; have := hr x hm; vomega

/-! ## The hypotheses are met -/

/-- Unary numbers, declared as inductive type number 0. -/
def natTypes : Types :=
  ⟨[(⟨.file ["Nat".toList], "nat".toList⟩, [⟨"nat".toList, [⟨"O".toList, 0⟩, ⟨"S".toList, 1⟩]⟩])],
   fun i => (⟨.file ["Nat".toList], "nat".toList⟩, i)⟩

theorem natTypes_ok : natTypes.Ok := ⟨by simp [natTypes], fun i j h => (Prod.mk.inj h).2⟩

theorem nat_zero : natTypes.Declared (0, 0) 0 := ⟨_, _, ⟨⟨_, List.mem_singleton.2 rfl, rfl⟩, rfl⟩, rfl⟩
theorem nat_succ : natTypes.Declared (0, 1) 1 := ⟨_, _, ⟨⟨_, List.mem_singleton.2 rfl, rfl⟩, rfl⟩, rfl⟩

theorem dbl_typed : Typed natTypes (.app Src.dbl (Src.num 2)) := by
  refine ⟨⟨⟨trivial, ⟨0, rfl, nat_zero, rfl, nat_succ, trivial⟩, ⟨nat_zero, trivial⟩,
    ⟨nat_succ, ⟨nat_succ, ⟨trivial, trivial⟩, trivial⟩, trivial⟩, trivial⟩, trivial⟩, ?_⟩
  exact ⟨nat_succ, ⟨nat_succ, ⟨nat_zero, trivial⟩, trivial⟩, trivial⟩

/-- The doubling function applied to two: converted, and the ANF form returns four. -/
example : ∃ e' s, Input natTypes (fun _ => none) 100 (.app Src.dbl (Src.num 2)) ⟨s.cenv, fun _ _ => none⟩ e' s ∧
    ¬ AppliesProof (.app Src.dbl (Src.num 2)) ∧ Eval (.app Src.dbl (Src.num 2)) Src.four.toExp ∧
    Returns ⟨s.cenv, fun _ _ => none⟩ emp e' (toFO natTypes.tag Ctor.defaultCtorTag Src.four).toVal := by
  have hw : (Exp.app Src.dbl (Src.num 2)).wf 0 := by
    simp [Exp.wf, Src.Fns.wf, Src.Brs.wf, Src.Exps.wf, Src.dbl, Src.num, Src.Fns.len]
  obtain ⟨⟨e', s⟩, h⟩ := C34_total natTypes (fun _ => none) 100 hw.p
  have hv : Eval (.app Src.dbl (Src.num 2)) Src.four.toExp := Src.C33_interpreter_exact.2 ⟨20, by decide +kernel⟩
  have hi : Input natTypes (fun _ => none) 100 (.app Src.dbl (Src.num 2)) ⟨s.cenv, fun _ _ => none⟩ e' s :=
    ⟨natTypes_ok, hw, dbl_typed, h, rfl⟩
  have hf : Src.evalR false 20 (.app Src.dbl (Src.num 2)) = .val Src.four.toExp := by rfl
  have hb : ¬ AppliesProof (.app Src.dbl (Src.num 2)) := by
    rintro ⟨n, hn⟩
    have := Src.Fin.det (n := 20) (e := .app Src.dbl (Src.num 2)) ⟨by simp, n, hn⟩ (by rw [hf]; simp)
    rw [hf] at this; cases this
  exact ⟨e', s, hi, hb, hv, C34_data_partial hi hb hv⟩

/-- `(fix f x := f x) O`. -/
def loop : Exp := .app (.fix (.cons (.lam (.app (.var 1) (.var 0))) .nil) 0) (.con (0, 0) .nil)

theorem loop_diverges (bx : Bool) : Src.Diverges bx loop := by
  rw [Src.diverges_iff (by simp [loop, Exp.wf, Src.Fns.wf, Src.Exps.wf, Src.Fns.len])]
  have key : ∀ n v, Src.scall bx n (v :: Src.recEnv (.cons (.lam (.app (.var 1) (.var 0))) .nil) []) (.app (.var 1) (.var 0)) = .oot := by
    intro n
    induction n with
    | zero => intro v; rfl
    | succ n ih =>
      intro v
      simp only [Src.scall, Src.srun_scall, Src.seval, Src.recEnv, Src.Fns.len, Src.listToZero]
      exact ih v
  intro n
  rw [Src.srun_scall]
  simp only [loop, Src.seval, Src.sevals, Src.sapply, Src.Fns.nth]
  exact key n _

/-- A diverging program meets the hypotheses of `C34_diverges_partial`. -/
example : ∃ e' s, Input natTypes (fun _ => none) 100 loop ⟨s.cenv, fun _ _ => none⟩ e' s ∧ ¬ AppliesProof loop ∧
    Src.Diverges true loop ∧ ANF.Diverges ⟨s.cenv, fun _ _ => none⟩ emp e' := by
  have hw : loop.wf 0 := by simp [loop, Exp.wf, Src.Fns.wf, Src.Exps.wf, Src.Fns.len]
  obtain ⟨⟨e', s⟩, h⟩ := C34_total natTypes (fun _ => none) 100 hw.p
  have hi : Input natTypes (fun _ => none) 100 loop ⟨s.cenv, fun _ _ => none⟩ e' s :=
    ⟨natTypes_ok, hw, ⟨⟨⟨trivial, trivial⟩, trivial⟩, nat_zero, trivial⟩, h, rfl⟩
  have hb : ¬ AppliesProof loop := by
    rintro ⟨n, hn⟩; rw [loop_diverges false n] at hn; cases hn
  exact ⟨e', s, hi, hb, loop_diverges true, C34_diverges_partial hi hb (loop_diverges true)⟩

end Conv
