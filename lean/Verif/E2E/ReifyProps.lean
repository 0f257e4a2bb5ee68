import Verif.E2E.RtProps
import Verif.Reify.Props

/-!
# C67: what `CertiRocq Eval` prints
-/

namespace E2E

open Conv (Types Typed AppliesProof toFO)
open ANF (Var Tag PVal FO Comp)
open ANF.Pipe (Opts)
open Ctor (defaultCtorTag)
open CGen (Cfg CFun CVal Th Out Rt VRep compileC runC wrapInFun PrimsOk)
open Reify (Env Mapping GoodMap Agrees HasTy erase reify)

section
variable {I : Box.Inds} {Γ : Box.Ctx} {u : Box.Term} {P : List (Mut.Name × Nat)} {T : Types} {arity : Nat → Option Nat} {k : Nat} {o : Opts}
  {marks : Var → Option Nat} {prims : Tag → List PVal → Option FO} {e' : ANF.Exp} {c' : Comp} {direct : Bool}
  {C : Cfg} {R : Rt} {prim : Tag → List CVal → (Nat → Option CVal) → Option CVal} {primT : Tag → List CVal → Th → Out}
  {body : Var} {M : CFun × List CFun} {a : Nat} {e : Src.Exp} {E : Env} {im : Mapping} {t : Reify.Term} {ty : Reify.Ty}

/-- The constructors of the program are among those of the compiled program, with the same ordinals and arities. -/
theorem ctors_kept (h : SourceP T arity k e) (hc : compile direct T arity k o marks e = some (e', c')) :
    ∀ t i, T.cenv t = some i → c'.cenv t = some i := by
  obtain ⟨e₁, s, hi, h2⟩ := compile_inv h hc (fun _ _ => none)
  obtain ⟨_, hext⟩ := env_after hi.input h2 hi.env
  intro t i hti
  exact hext t i (hi.cenv ▸ hti)

/-- **C67: the value printed by `CertiRocq Eval`, partial.** A source program whose value is the normal form `t` of type `ty`, compiled, linked with the
runtime, started after `make_tinfo`, its result read back at type `ty`: the term is `t`, unless the process is aborted.  Missing: what is missing in
C67_reify_partial and in C56_source_partial. -/
theorem C67_eval_partial (h : Source T k e) (hs : CSource T e) (hc : compile direct T arity k o marks e = some (e', c'))
    (hC : CfgOk C c'.cenv k) (ha : e'.All FewFeat) (hR : R.Fits (topDefs e'))
    (hn : 0 < a ∧ ∀ x, R.Static x → x < a ∨ a + GC.nurserySize ≤ x)
    (hp : PrimsOk R.heapI ⟨c'.cenv, prims⟩ C.prims (topDefs e') (R.world c'.cenv (topDefs e') prim primT))
    (hm : compileC C body (wrapInFun e') = some M) (hb : ¬ AppliesProof e)
    (hE : ∀ i D, E i = some D → D.Plain) (him : GoodMap E im) (hag : Agrees E im T) (ht : HasTy E t ty)
    (hv : Src.Eval e (erase (fun _ => false) im t).toExp) (depth : Nat) :
    ∃ n, runC (R.world c'.cenv (topDefs e') prim primT) M n depth (R.start a) = .abort ∨
      ∃ c th, runC (R.world c'.cenv (topDefs e') prim primT) M n depth (R.start a) = .ret c th ∧
        ∃ n', ∀ m, n' ≤ m → reify im E th.mem m ty c = .ok t := by
  obtain ⟨⟨n, h1⟩, -⟩ := C56_source_partial h hs hc hC ha hR hn hp hm hb hv depth
  refine ⟨n, h1.imp_right ?_⟩
  rintro ⟨c, th, h2, h3⟩
  exact ⟨c, th, h2, Reify.C67_reify_partial hE him h.types hag (fun p hp t ht => le_trans (hs.boxed p hp t ht) (by omega)) (ctors_kept h.p hc) ht h3⟩

/-- C67: the same from the output of erasure. -/
theorem C67_eval_erased_partial (h : Erased I Γ u T P) (hk : 1 ≤ k) (hs : CSource T (frontEnd P Γ u))
    (hc : compile direct T arity k o marks (frontEnd P Γ u) = some (e', c')) (hC : CfgOk C c'.cenv k) (ha : e'.All FewFeat)
    (hR : R.Fits (topDefs e')) (hn : 0 < a ∧ ∀ x, R.Static x → x < a ∨ a + GC.nurserySize ≤ x)
    (hp : PrimsOk R.heapI ⟨c'.cenv, prims⟩ C.prims (topDefs e') (R.world c'.cenv (topDefs e') prim primT))
    (hm : compileC C body (wrapInFun e') = some M) (hb : ¬ AppliesProof (frontEnd P Γ u))
    (hE : ∀ i D, E i = some D → D.Plain) (him : GoodMap E im) (hag : Agrees E im T) (ht : HasTy E t ty)
    (hv : Box.Eval I Γ u (Box.ofData (erase (fun _ => false) im t))) (depth : Nat) :
    ∃ n, runC (R.world c'.cenv (topDefs e') prim primT) M n depth (R.start a) = .abort ∨
      ∃ c th, runC (R.world c'.cenv (topDefs e') prim primT) M n depth (R.start a) = .ret c th ∧
        ∃ n', ∀ m, n' ≤ m → reify im E th.mem m ty c = .ok t :=
  C67_eval_partial (C54_source h hk) hs hc hC ha hR hn hp hm hb hE him hag ht (C54_front h hv) depth

end

/-! ## The statement is about real programs -/

open Conv (natTypes)

/-- `nat`, as the reader knows it. -/
def natEnv : Env
  | 0 => some ⟨0, [[], [⟨false, .ind 0 []⟩]]⟩
  | _ => none

/-- `S (S O)` as a term. -/
def two : Reify.Term := .con 0 1 [] [.con 0 1 [] [.con 0 0 [] []]]

theorem two_type : HasTy natEnv two (.ind 0 []) := by
  have h0 : HasTy natEnv (.con 0 0 [] []) (.ind 0 []) := .con (args := []) (show natEnv 0 = some _ from rfl) rfl rfl (fun k t d h => by simp at h)
  have hS : ∀ {t}, HasTy natEnv t (.ind 0 []) → HasTy natEnv (.con 0 1 [] [t]) (.ind 0 []) := fun {t} h => by
    refine .con (args := []) (show natEnv 0 = some _ from rfl) rfl rfl (fun k u d h1 h2 => ?_)
    match k, h1, h2 with
    | 0, h1, h2 => cases h1; cases h2; exact h
    | n + 1, h1, _ => simp at h1
  exact hS (hS h0)

theorem natEnv_agrees : Agrees natEnv [] natTypes := by
  intro i D h
  match i, h with
  | 0, h =>
    cases h
    refine ⟨_, _, ⟨List.mem_singleton.2 rfl, rfl⟩, rfl, fun c ds hc => ?_⟩
    match c, hc with
    | 0, hc => cases hc; exact ⟨_, rfl, rfl⟩
    | 1, hc => cases hc; exact ⟨_, rfl, rfl⟩
    | n + 2, hc => simp at hc
  | n + 1, h => cases h

theorem natEnv_plain : ∀ i D, natEnv i = some D → D.Plain := by
  intro i D h
  match i, h with
  | 0, h => cases h; intro c hc; simp at hc; rcases hc with rfl | rfl <;> simp [Reify.nargs]
  | n + 1, h => cases h

/-- `CertiRocq Eval (S (S O))`, in the address space `arena`. -/
example (direct : Bool) : ∃ e' c' M, compile direct natTypes (fun _ => none) 100 (ANF.Pipe.makeOptions direct 0 5 8) (fun _ => none)
      succTwice = some (e', c') ∧ compileC ⟨1, 5, fun _ => none, c'.cenv⟩ 1 (wrapInFun e') = some M ∧
    ∃ n, runC (CGen.arena.world c'.cenv (topDefs e') (fun _ _ _ => none) (fun _ _ _ => .ub)) M n 0 (CGen.arena.start 1024) = .abort ∨
      ∃ c th, runC (CGen.arena.world c'.cenv (topDefs e') (fun _ _ _ => none) (fun _ _ _ => .ub)) M n 0 (CGen.arena.start 1024) = .ret c th ∧
        ∃ n', ∀ m, n' ≤ m → reify [] natEnv th.mem m (.ind 0 []) c = .ok two := by
  obtain ⟨⟨e', c'⟩, h1, h2⟩ := Option.map_eq_some_iff.1 (succTwice_code direct)
  cases h2
  have ha : (succTwiceCode direct).All (CallFeat fun _ => 0) := by cases direct <;> simp [succTwiceCode, ANF.Exp.All, CallFeat]
  have hf : (succTwiceCode direct).All FewFeat := by cases direct <;> simp [succTwiceCode, ANF.Exp.All, FewFeat]
  have hC : CfgOk ⟨1, 5, fun _ => none, c'.cenv⟩ c'.cenv 100 := ⟨rfl, (by decide : 5 ≤ 100)⟩
  obtain ⟨M, hM⟩ := C46_c_total_partial succTwice_source.p succTwice_c h1 hC ha (by
    cases direct <;> simp [succTwiceCode, ANF.Exp.All, PrimFeat]) 1
  refine ⟨_, c', M, h1, hM, ?_⟩
  exact C67_eval_partial succTwice_source succTwice_c h1 hC hf
    (CGen.arena_fits _ (by cases direct <;> simp [succTwiceCode, topDefs, ANF.Defs.names])) CGen.arena_nursery
    (CGen.prims_none _ _ _ _) hM succTwice_proofs natEnv_plain (fun i D h tags ht => by simp at ht) natEnv_agrees two_type succTwice_value 0

end E2E
