import Verif.E2E.CpsCProps
import Verif.Box.Props

/-!
# C54: from the output of MetaRocq's erasure to Wasm and C
-/

namespace E2E

open Conv (Types Typed AppliesProof toFO)
open ANF (Var Tag PVal FO Comp)
open ANF.Pipe (Opts)
open Ctor (defaultCtorTag)
open Box (Inds Ctx Term Program Agree AritiesCtx compileCtx ofData)

/-- The front end: erased program to LambdaBoxMut (LambdaBoxMut/toplevel.v), to LambdaBoxLocal with the constants as lets
(LambdaBoxLocal/toplevel.v). -/
def frontEnd (P : List (Mut.Name × Nat)) (E : Ctx) (t : Term) : Src.Exp := Src.translateProgram P (compileCtx E) (Box.compile t)

/-- What is asked of the erased program: it is well formed, its declarations are those handed to the later phases, branches
bind the arguments of their constructors, the constants evaluate and none is overridden by a primitive. -/
structure Erased (I : Inds) (E : Ctx) (t : Term) (T : Types) (P : List (Mut.Name × Nat)) : Prop where
  program : Program I E t
  types : T.Ok
  agree : Agree I T
  arities : t.arities I
  ctxArities : AritiesCtx I E
  consts : Box.ConstsEval I E
  prims : ∀ c, Mut.Defined (compileCtx E) c → Src.findPrim P c = none

section
variable {I : Inds} {E : Ctx} {t : Term} {T : Types} {P : List (Mut.Name × Nat)} {arity : Nat → Option Nat} {k : Nat} {o : Opts}
  {marks : Var → Option Nat} {prims : Tag → List PVal → Option FO} {e' : ANF.Exp} {c' : Comp} {d : Src.Data} {direct : Bool}

/-- C54: what the front end hands to the conversion to LambdaANF is closed and uses constructors as declared. -/
theorem C54_source (h : Erased I E t T P) (hk : 1 ≤ k) : Source T k (frontEnd P E t) :=
  ⟨h.types, Src.C32_closed (Box.C54_wf h.program).1 h.prims (Box.C54_wf h.program).2,
    Box.C54_typed h.program h.agree h.arities h.ctxArities P, hk⟩

/-- C54: a first-order value of the erased program is the value of what the front end produces. -/
theorem C54_front (h : Erased I E t T P) (hv : Box.Eval I E t (ofData d)) : Src.Eval (frontEnd P E t) d.toExp :=
  (Box.C54_linked h.program h.consts h.prims (fun hc => hc.stuck _ hv) d).2 hv

/-- C54: every well-formed erased program is accepted by the conversion and the optimisation pipeline. -/
theorem C54_compile_total (h : Erased I E t T P) (hk : 1 ≤ k) (direct : Bool) (arity : Nat → Option Nat) (o : Opts)
    (marks : Var → Option Nat) : ∃ e' c', compile direct T arity k o marks (frontEnd P E t) = some (e', c') := by
  obtain ⟨e', c', h1, _⟩ := C46_compile_total direct arity o marks (C54_source h hk).p
  exact ⟨e', c', h1⟩

/-- C54: the Wasm module compiled from an erased program returns the program's first-order value, or runs out of memory.
Missing: programs that apply a proof, and results that are functions. -/
theorem C54_wasm_partial (h : Erased I E t T P) (hk : 1 ≤ k) (hl : Literals (frontEnd P E t))
    (hc : compile direct T arity k o marks (frontEnd P E t) = some (e', c')) {penv : Tag → Option Wasm.Primop}
    (hp : Wasm.PrimsOk ⟨T.cenv, prims⟩ penv) {funcs : List Wasm.Func} (hm : Wasm.transProg c'.cenv penv (Wasm.topFun e') = some funcs)
    {W : Wasm.Env} (hW : Wasm.Instance W funcs) (m0 : Wasm.Mem) (hb : ¬ AppliesProof (frontEnd P E t))
    (hv : Box.Eval I E t (ofData d)) :
    ∃ main fns s', funcs = main :: fns ∧ main.params = 0 ∧ Wasm.Runs W main.body (Wasm.initSt m0 main) (.ret s') ∧
      (Wasm.OutOfMem W s' ∨ ∃ B, Wasm.Result c'.cenv B s' (toFO T.tag defaultCtorTag d).toVal) :=
  C46_wasm_partial (C54_source h hk) hl hc hp hm hW m0 hb (C54_front h hv)

/-- C54: the C code compiled from an erased program in direct style returns the program's first-order value, or aborts for
lack of memory.  Missing as above. -/
theorem C54_c_partial {G : CGen.HeapI} {C : CGen.Cfg} {W : CGen.World} {body : Var} {M : CGen.CFun × List CGen.CFun}
    (h : Erased I E t T P) (hk : 1 ≤ k) (hs : CSource T (frontEnd P E t))
    (hc : compile direct T arity k o marks (frontEnd P E t) = some (e', c')) (hC : CfgOk C c'.cenv k) (ha : e'.All FewFeat)
    (hg : CGen.GcOk G c'.cenv (topDefs e') W) (hp : CGen.PrimsOk G ⟨c'.cenv, prims⟩ C.prims (topDefs e') W)
    (hG : G.Laws c'.cenv (topDefs e'))
    (hm : CGen.compileC C body (CGen.wrapInFun e') = some M) (hb : ¬ AppliesProof (frontEnd P E t))
    (hv : Box.Eval I E t (ofData d)) (depth : Nat) (th : CGen.Th) (hd : ∀ k, CGen.OnChain th k → k < depth) (hle : th.alloc ≤ th.limit)
    (hok : th.Ok G c'.cenv (topDefs e')) :
    ∃ n, CGen.runC W M n depth th = .abort ∨ ∃ c th', CGen.runC W M n depth th = .ret c th' ∧
      CGen.VRep G c'.cenv (topDefs e') th'.mem th'.alloc th'.limit (toFO T.tag defaultCtorTag d).toVal c :=
  C46_c_partial (C54_source h hk) hs hc hC ha hg hp hG hm hb (C54_front h hv) depth th hd hle hok

/-- C54: the same in continuation-passing style, with its backend. -/
theorem C54_cps_c_partial {C : CGen.Cfg} {W : CGen.Cps.VWorld} {body : Var} {M : CGen.Cps.VFun × List CGen.Cps.VFun}
    (h : Erased I E t T P) (hk : 1 ≤ k) (hs : CSource T (frontEnd P E t))
    (hc : compile false T arity k o marks (frontEnd P E t) = some (e', c')) (hC : CfgOk C c'.cenv k) (ha : e'.All FewFeat)
    (hv : e'.All (ValuePrim C.prims)) (hg : CGen.Cps.GcOkV c'.cenv (topDefs e') W) (hl : CGen.Cps.LimitKept W)
    (hp : CGen.PrimsOk .top ⟨c'.cenv, prims⟩ C.prims (topDefs e') W.base) (hm : CGen.Cps.compileV C body (CGen.wrapInFun e') = some M)
    (hb : ¬ AppliesProof (frontEnd P E t)) (hev : Box.Eval I E t (ofData d)) (th : CGen.Th) (hle : th.alloc ≤ th.limit) :
    ∃ n, CGen.Cps.runV W M n th = .abort ∨ ∃ c th', CGen.Cps.runV W M n th = .ret c th' ∧
      CGen.VRep .top c'.cenv (topDefs e') th'.mem th'.alloc th'.limit (toFO T.tag defaultCtorTag d).toVal c :=
  C46_cps_c_partial (C54_source h hk) hs hc hC ha hv hg hl hp hm hb (C54_front h hev) th hle

end

/-! ## The statements are about real programs -/

open Box (natInds sample sampleCtx three sample_program sample_value)
open Conv (natTypes)

theorem sample_erased : Erased natInds sampleCtx sample natTypes [] where
  program := sample_program
  types := Conv.natTypes_ok
  agree := Box.sample_typed.2.2
  arities := Box.sample_typed.1
  ctxArities := Box.sample_typed.2.1
  consts := ⟨trivial, _, .fixAtom _ _⟩
  prims := fun _ _ => rfl

theorem sample_front : Src.Eval (frontEnd [] sampleCtx sample) three.toExp := C54_front sample_erased sample_value

theorem sample_proofs : ¬ AppliesProof (frontEnd [] sampleCtx sample) := by
  have hf : Src.evalR false 40 (frontEnd [] sampleCtx sample) = .val three.toExp := by rfl
  rintro ⟨n, hn⟩
  have := Src.Fin.det (n := 40) (e := frontEnd [] sampleCtx sample) ⟨by simp, n, hn⟩ (by rw [hf]; simp)
  rw [hf] at this; cases this

/-- Doubling, delaying and forcing, through every phase up to Wasm, for every configuration the backend accepts. -/
example (direct : Bool) (oLevel cArgs anfConf : Nat) : ∃ e' c', compile direct natTypes (fun _ => none) 100
    (ANF.Pipe.makeOptions direct oLevel cArgs anfConf) (fun _ => none) (frontEnd [] sampleCtx sample) = some (e', c') ∧
    ANF.Returns ⟨c'.cenv, fun _ _ => none⟩ ANF.emp e' (toFO natTypes.tag defaultCtorTag three).toVal ∧
    ∀ (funcs : List Wasm.Func) (W : Wasm.Env) (m0 : Wasm.Mem), Wasm.transProg c'.cenv (fun _ => none) (Wasm.topFun e') = some funcs →
      Wasm.Instance W funcs → ∃ main fns s', funcs = main :: fns ∧ main.params = 0 ∧
        Wasm.Runs W main.body (Wasm.initSt m0 main) (.ret s') ∧
        (Wasm.OutOfMem W s' ∨ ∃ B, Wasm.Result c'.cenv B s' (toFO natTypes.tag defaultCtorTag three).toVal) := by
  obtain ⟨e', c', h1⟩ := C54_compile_total sample_erased (k := 100) (by decide) direct (fun _ => none)
    (ANF.Pipe.makeOptions direct oLevel cArgs anfConf) (fun _ => none)
  refine ⟨e', c', h1, C46_compile_data_partial (C54_source sample_erased (by decide)) h1 sample_proofs sample_front,
    fun funcs W m0 hm hW => ?_⟩
  refine C54_wasm_partial (prims := fun _ _ => none) sample_erased (by decide) ?_ h1 ?_ hm hW m0 sample_proofs sample_value
  · simp [Literals, frontEnd, Src.translateProgram, sampleCtx, sample, compileCtx, Box.compileDecl, Box.double, Box.compile,
      Box.compiles, Box.compileB, Box.compileD, Src.translateEnv, Src.translateEntry, Src.mkLets, Src.trans, Src.transs, Src.transB,
      Src.transD, Src.findPrim, Box.lift, Box.lifts, Conv.SAll, Conv.SAllEs, Conv.SAllB, Conv.SAllF]
  · intro p op ps v h; cases h

end E2E
