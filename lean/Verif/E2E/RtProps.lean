import Verif.E2E.BoxProps
import Verif.CGen.RtProps

/-!
# C56: from erased programs to C code running with the collector of the runtime
-/

namespace E2E

open Conv (Types Typed AppliesProof toFO)
open ANF (Var Tag PVal FO Comp)
open ANF.Pipe (Opts)
open Ctor (defaultCtorTag)
open Box (Inds Ctx Term ofData)
open CGen (Cfg CFun CVal Th Out Rt VRep compileC runC wrapInFun PrimsOk)

section
variable {I : Inds} {E : Ctx} {t : Term} {T : Types} {P : List (Mut.Name × Nat)} {arity : Nat → Option Nat} {k : Nat} {o : Opts}
  {marks : Var → Option Nat} {prims : Tag → List PVal → Option FO} {e' : ANF.Exp} {c' : Comp} {d : Src.Data} {direct : Bool}
  {C : Cfg} {R : Rt} {prim : Tag → List CVal → (Nat → Option CVal) → Option CVal} {primT : Tag → List CVal → Th → Out}
  {body : Var} {M : CFun × List CFun} {a : Nat} {e : Src.Exp}

/-- C56: a source program that applies no erased proof and evaluates to data, compiled to C and linked with `garbage_collect`,
returns a representation of the data when it is started after `make_tinfo`, or the process is aborted (C56_abort says when); in
no case is its behaviour undefined. `Fits` and `hn` are about the addresses of code, stack, descriptors and nursery.  Missing:
programs that apply an erased proof. -/
theorem C56_source_partial (h : Source T k e) (hs : CSource T e) (hc : compile direct T arity k o marks e = some (e', c'))
    (hC : CfgOk C c'.cenv k) (ha : e'.All FewFeat) (hR : R.Fits (topDefs e'))
    (hn : 0 < a ∧ ∀ x, R.Static x → x < a ∨ a + GC.nurserySize ≤ x)
    (hp : PrimsOk R.heapI ⟨c'.cenv, prims⟩ C.prims (topDefs e') (R.world c'.cenv (topDefs e') prim primT))
    (hm : compileC C body (wrapInFun e') = some M) (hb : ¬ AppliesProof e) (hv : Src.Eval e d.toExp) (depth : Nat) :
    (∃ n, runC (R.world c'.cenv (topDefs e') prim primT) M n depth (R.start a) = .abort ∨
      ∃ c th, runC (R.world c'.cenv (topDefs e') prim primT) M n depth (R.start a) = .ret c th ∧
        VRep R.heapI c'.cenv (topDefs e') th.mem th.alloc th.limit (toFO T.tag defaultCtorTag d).toVal c) ∧
    ∀ n, runC (R.world c'.cenv (topDefs e') prim primT) M n depth (R.start a) ≠ .ub := by
  obtain ⟨h1, h2, h3⟩ := CGen.C56_start (R := R) (B := topDefs e') (cenv := c'.cenv) hn.1 hn.2
  have hg := CGen.C56_collector hR (ctors_after h.p hs hc) prim primT
  have hG := CGen.C56_allocation (cenv := c'.cenv) hR
  exact ⟨C46_c_partial h hs hc hC ha hg hp hG hm hb hv depth _ (fun k hk => absurd hk (h3 k)) h2 h1,
    fun n => (C46_c_safe_partial h hs hc hC ha hg hp hG hm hb n depth _ (fun k hk => absurd hk (h3 k)) h2 h1).1⟩

/-- C56: the same from the output of erasure. -/
theorem C56_erased_partial (h : Erased I E t T P) (hk : 1 ≤ k) (hs : CSource T (frontEnd P E t))
    (hc : compile direct T arity k o marks (frontEnd P E t) = some (e', c')) (hC : CfgOk C c'.cenv k) (ha : e'.All FewFeat)
    (hR : R.Fits (topDefs e')) (hn : 0 < a ∧ ∀ x, R.Static x → x < a ∨ a + GC.nurserySize ≤ x)
    (hp : PrimsOk R.heapI ⟨c'.cenv, prims⟩ C.prims (topDefs e') (R.world c'.cenv (topDefs e') prim primT))
    (hm : compileC C body (wrapInFun e') = some M) (hb : ¬ AppliesProof (frontEnd P E t)) (hv : Box.Eval I E t (ofData d))
    (depth : Nat) :
    (∃ n, runC (R.world c'.cenv (topDefs e') prim primT) M n depth (R.start a) = .abort ∨
      ∃ c th, runC (R.world c'.cenv (topDefs e') prim primT) M n depth (R.start a) = .ret c th ∧
        VRep R.heapI c'.cenv (topDefs e') th.mem th.alloc th.limit (toFO T.tag defaultCtorTag d).toVal c) ∧
    ∀ n, runC (R.world c'.cenv (topDefs e') prim primT) M n depth (R.start a) ≠ .ub :=
  C56_source_partial (C54_source h hk) hs hc hC ha hR hn hp hm hb (C54_front h hv) depth

end

/-! ## The statement is about real programs -/

open Conv (natTypes)

/-- `S (S O)`, compiled, in the address space `arena`. -/
example (direct : Bool) : ∃ e' c' M, compile direct natTypes (fun _ => none) 100 (ANF.Pipe.makeOptions direct 0 5 8) (fun _ => none)
      succTwice = some (e', c') ∧ compileC ⟨1, 5, fun _ => none, c'.cenv⟩ 1 (wrapInFun e') = some M ∧
    ∃ n, runC (CGen.arena.world c'.cenv (topDefs e') (fun _ _ _ => none) (fun _ _ _ => .ub)) M n 0 (CGen.arena.start 1024) = .abort ∨
      ∃ c th, runC (CGen.arena.world c'.cenv (topDefs e') (fun _ _ _ => none) (fun _ _ _ => .ub)) M n 0 (CGen.arena.start 1024) = .ret c th ∧
        VRep CGen.arena.heapI c'.cenv (topDefs e') th.mem th.alloc th.limit
          (toFO natTypes.tag defaultCtorTag (.con 0 1 [.con 0 1 [.con 0 0 []]])).toVal c := by
  obtain ⟨⟨e', c'⟩, h1, h2⟩ := Option.map_eq_some_iff.1 (succTwice_code direct)
  cases h2
  have ha : (succTwiceCode direct).All (CallFeat fun _ => 0) := by cases direct <;> simp [succTwiceCode, ANF.Exp.All, CallFeat]
  have hf : (succTwiceCode direct).All FewFeat := by cases direct <;> simp [succTwiceCode, ANF.Exp.All, FewFeat]
  have hC : CfgOk ⟨1, 5, fun _ => none, c'.cenv⟩ c'.cenv 100 := ⟨rfl, (by decide : 5 ≤ 100)⟩
  obtain ⟨M, hM⟩ := C46_c_total_partial succTwice_source.p succTwice_c h1 hC ha (by
    cases direct <;> simp [succTwiceCode, ANF.Exp.All, PrimFeat]) 1
  refine ⟨_, c', M, h1, hM, ?_⟩
  exact (C56_source_partial succTwice_source succTwice_c h1 hC hf
    (CGen.arena_fits _ (by cases direct <;> simp [succTwiceCode, topDefs, ANF.Defs.names])) CGen.arena_nursery
    (CGen.prims_none _ _ _ _) hM succTwice_proofs succTwice_value 0).1

end E2E
