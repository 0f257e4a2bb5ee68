import Verif.E2E.Front
import Verif.Wasm.GenProps
import Verif.Src.Props

/-!
# C46: from the source language to Wasm
-/

namespace E2E

open Conv (Types Typed OpsOk AppliesProof toFO SAll Carries)
open Src (Mode Yields Loops Fails)
open ANF (Var Tag PVal FO Sig Comp Feat Returns emp PipeInput C46_constructors)
open ANF.Pipe (Opts anfPipeline initial)
open Ctor (PMap cloTag cloIndTag defaultCtorTag defaultIndTag)
open Wasm (Primop PrimsOk WasmInput topFun transProg Instance Mem Func initSt Runs OutOfMem Result exec CEnv)

/-- What the Wasm backend asks of instructions. -/
def FitsFeat (cenv : CEnv) : Feat → Prop
  | .con t n => ∀ i, cenv t = some i → i.arity = n
  | .val p => ∀ n, p = .int n → n < 2 ^ 63
  | _ => True

mutual
theorem fitsE_of_all {cenv : CEnv} : ∀ {e : ANF.Exp}, e.All (FitsFeat cenv) → Wasm.FitsE cenv e
  | .constr _ _ _ e, h => ⟨h.1, fitsE_of_all (e := e) h.2⟩
  | .case _ bs, h => by simp only [ANF.Exp.All] at h; exact fitsB_of_all (bs := bs) h
  | .proj _ _ _ _ e, h => by simp only [ANF.Exp.All] at h; exact fitsE_of_all (e := e) h
  | .letapp _ _ _ _ e, h => fitsE_of_all (e := e) h.2
  | .fn B e, h => ⟨fitsD_of_all (B := B) h.2.1, fitsE_of_all (e := e) h.2.2⟩
  | .app _ _ _, _ => trivial
  | .primVal _ _ e, h => ⟨h.1, fitsE_of_all (e := e) h.2⟩
  | .prim _ _ _ e, h => fitsE_of_all (e := e) h.2
  | .halt _, _ => trivial
theorem fitsB_of_all {cenv : CEnv} : ∀ {bs : ANF.Brs}, bs.All (FitsFeat cenv) → Wasm.FitsB cenv bs
  | .nil, _ => trivial
  | .cons _ e bs, h => ⟨fitsE_of_all (e := e) h.2.1, fitsB_of_all (bs := bs) h.2.2⟩
theorem fitsD_of_all {cenv : CEnv} : ∀ {B : ANF.Defs}, B.All (FitsFeat cenv) → Wasm.FitsD cenv B
  | .nil, _ => trivial
  | .cons _ _ _ e B, h => ⟨fitsE_of_all (e := e) h.2.1, fitsD_of_all (B := B) h.2.2⟩
end

section
variable {direct : Bool} {T : Types} {arity : Nat → Option Nat} {k : Nat} {o : Opts} {marks : Var → Option Nat} {e : Src.Exp}
  {prims : Tag → List PVal → Option FO} {e' : ANF.Exp} {c' : Comp} {penv : Tag → Option Primop}

theorem wasm_input (h : SourceP T arity k e) (hl : Literals e) (hc : compile direct T arity k o marks e = some (e', c'))
    (hp : PrimsOk ⟨T.cenv, prims⟩ penv) : ∃ B e'', topFun e' = .fn B e'' ∧ WasmInput ⟨c'.cenv, prims⟩ penv B e'' := by
  obtain ⟨e₁, s, hi, h2⟩ := compile_inv h hc prims
  obtain ⟨hs, hen, hpi⟩ := And.intro hi.cenv (And.intro hi.env hi.input)
  obtain ⟨_, _, h3, _, _, hnd, _⟩ := ANF.C46_total o k marks hpi
  rw [h2] at h3; cases h3
  obtain ⟨ho, hext⟩ := env_after hpi h2 hen
  obtain ⟨k1, k2, k3⟩ := C46_constructors hpi h2
  have hall : e'.All (FitsFeat c'.cenv) := by
    refine ANF.pipe_all hpi (lt_of_lt_of_le (by decide : cloTag < defaultCtorTag) (Nat.le_of_lt hen.ct)) h2 (P := SrcFeat s)
      (fun _ _ => trivial) (fun _ _ => trivial) ?_ trivial ?_ ?_ (hi.feats (src_carries h.types hs hi.ctag) (fun _ => trivial) hl)
    · refine ⟨fun t n ht i hi => ?_, fun _ _ => trivial, fun _ _ _ => trivial, fun _ h => h, fun _ _ _ => trivial, fun _ => trivial, fun _ => trivial⟩
      rw [k1 t ht.1 ht.2.1] at hi
      exact ht.2.2 i hi
    · intro i hi; rw [k2] at hi; cases hi; rfl
    · intro t i _ hi j hj; rw [hi] at hj; cases hj; rfl
  have hprims : PrimsOk ⟨c'.cenv, prims⟩ penv := by
    intro p op ps v h1 h2
    obtain ⟨ns, r, e1, e2, e3⟩ := hp p op ps v h1 h2
    refine ⟨ns, r, e1, e2, ?_⟩
    have hx : ∀ {t a b}, Wasm.HasCtor T.cenv t a b → Wasm.HasCtor c'.cenv t a b := fun ⟨i, hi, h⟩ => ⟨i, hext _ _ (by rw [hs]; exact hi), h⟩
    cases r with
    | int n => exact e3
    | bool b => obtain ⟨t, ht, h⟩ := e3; exact ⟨t, hx ht, h⟩
    | cmp b => obtain ⟨t, ht, h⟩ := e3; exact ⟨t, hx ht, h⟩
    | carry b => cases b <;> (obtain ⟨t, ht, h⟩ := e3; exact ⟨t, hx ht, h⟩)
    | pair b => obtain ⟨t, ht, h⟩ := e3; exact ⟨t, hx ht, h⟩
  by_cases hf : ∃ B e'', e' = .fn B e''
  · obtain ⟨B, e'', rfl⟩ := hf
    exact ⟨B, e'', rfl, hnd, fitsE_of_all hall, ho, hprims⟩
  · refine ⟨.nil, e', ?_, by simpa [ANF.Exp.bv, ANF.Defs.bv] using hnd, ⟨trivial, fitsE_of_all hall⟩, ho, hprims⟩
    cases e' <;> first | rfl | exact absurd ⟨_, _, rfl⟩ hf

theorem topFun_run (S : Sig) (n : Nat) (e : ANF.Exp) : ANF.run S n emp (topFun e) = ANF.run S n emp e := by
  cases e <;> first | rfl | (cases n <;> rfl)

/-- C58: from source programs with primitive operations to Wasm.  If a program yields data, then the module compiled from it
in either style and with any options, run in any engine that instantiates it, either reports that no more memory can be had or
finishes and the exported result represents the same data.  `hm`: the backend accepts the program (it refuses programs beyond
its size limits); `hp`: the operations do what the backend's instructions for them do (C27, C29). -/
theorem C58_wasm {Q : Mode} (h : SourceP T arity k e) (hl : Literals e) (hc : compile direct T arity k o marks e = some (e', c'))
    (hQ : OpsOk (T.params arity) ⟨T.cenv, prims⟩ Q) (hp : PrimsOk ⟨T.cenv, prims⟩ penv) {funcs : List Func}
    (hm : transProg c'.cenv penv (topFun e') = some funcs) {E : Wasm.Env} (hE : Instance E funcs) (m0 : Mem) {d : Src.Data}
    (hv : Yields Q e d) :
    ∃ main fns s', funcs = main :: fns ∧ main.params = 0 ∧ Runs E main.body (initSt m0 main) (.ret s') ∧
      (OutOfMem E s' ∨ ∃ B, Result c'.cenv B s' (toFO T.tag defaultCtorTag d).toVal) := by
  obtain ⟨B, e'', ht, hw⟩ := wasm_input h hl hc hp
  obtain ⟨n, hn⟩ := (C58_compile h hc hQ).1 d hv
  rw [ht] at hm
  have hr : Returns ⟨c'.cenv, prims⟩ emp (.fn B e'') (toFO T.tag defaultCtorTag d).toVal := ⟨n, by rw [← ht, topFun_run, hn]⟩
  obtain ⟨main, fns, s', h1, h2, h3, h4⟩ := Wasm.C29_result hw hm hE m0 hr
  exact ⟨main, fns, s', h1, h2, h3, h4.imp id fun h => ⟨B, h⟩⟩

/-- C58: a program that is not stuck never makes the module trap; if it runs forever, the module runs forever or reports that
no more memory can be had. -/
theorem C58_wasm_safe {Q : Mode} (h : SourceP T arity k e) (hl : Literals e) (hc : compile direct T arity k o marks e = some (e', c'))
    (hQ : OpsOk (T.params arity) ⟨T.cenv, prims⟩ Q) (hp : PrimsOk ⟨T.cenv, prims⟩ penv) {main : Func} {fns : List Func}
    (hm : transProg c'.cenv penv (topFun e') = some (main :: fns)) {E : Wasm.Env} (hE : Instance E (main :: fns)) (m0 : Mem) :
    (¬ Fails Q e → ∀ n, exec E n main.body (initSt m0 main) ≠ .trap) ∧
    (Loops Q e → (∀ n, exec E n main.body (initSt m0 main) = .fuel) ∨
      ∃ s', Runs E main.body (initSt m0 main) (.ret s') ∧ OutOfMem E s') := by
  obtain ⟨B, e'', ht, hw⟩ := wasm_input h hl hc hp
  rw [ht] at hm
  obtain ⟨_, _, c3, c4⟩ := C58_compile h hc hQ
  constructor
  · intro hb
    refine Wasm.C30_no_trap hw hm hE m0 fun ⟨n, hn⟩ => ?_
    exact c4 hb ⟨n, by rw [← topFun_run, ht]; exact hn⟩
  · intro hd
    refine Wasm.C30_diverges hw hm hE m0 fun n => ?_
    rw [← ht, topFun_run]
    exact c3 hd n

/-- C46: from source programs to Wasm.  If a program that applies no erased proof evaluates to data, then the module compiled
from it in either style and with any options, run in any engine that instantiates it, either reports that no more memory can be had or finishes
and the exported result represents the same data.  `hm`: the backend accepts the program (it refuses programs beyond its size
limits).  Missing: programs that apply an erased proof. -/
theorem C46_wasm_partial (h : Source T k e) (hl : Literals e) (hc : compile direct T arity k o marks e = some (e', c'))
    (hp : PrimsOk ⟨T.cenv, prims⟩ penv) {funcs : List Func} (hm : transProg c'.cenv penv (topFun e') = some funcs) {E : Wasm.Env}
    (hE : Instance E funcs) (m0 : Mem) {d : Src.Data} (hb : ¬ AppliesProof e) (hv : Src.Eval e d.toExp) :
    ∃ main fns s', funcs = main :: fns ∧ main.params = 0 ∧ Runs E main.body (initSt m0 main) (.ret s') ∧
      (OutOfMem E s' ∨ ∃ B, Result c'.cenv B s' (toFO T.tag defaultCtorTag d).toVal) :=
  C58_wasm h.p hl hc .plain hp hm hE m0 (((Conv.C58_conservative h.closed).1 d).2 ⟨hv, hb⟩)

/-- C46: a program that applies no erased proof never makes the module trap; if it diverges, the module runs forever or reports
that no more memory can be had. -/
theorem C46_wasm_safe_partial (h : Source T k e) (hl : Literals e) (hc : compile direct T arity k o marks e = some (e', c'))
    (hp : PrimsOk ⟨T.cenv, prims⟩ penv) {main : Func} {fns : List Func} (hm : transProg c'.cenv penv (topFun e') = some (main :: fns))
    {E : Wasm.Env} (hE : Instance E (main :: fns)) (m0 : Mem) (hb : ¬ AppliesProof e) :
    (∀ n, exec E n main.body (initSt m0 main) ≠ .trap) ∧
    (Src.Diverges true e → (∀ n, exec E n main.body (initSt m0 main) = .fuel) ∨
      ∃ s', Runs E main.body (initSt m0 main) (.ret s') ∧ OutOfMem E s') := by
  obtain ⟨h1, h2⟩ := C58_wasm_safe h.p hl hc .plain hp hm hE m0
  obtain ⟨_, c2, c3⟩ := Conv.C58_conservative h.closed
  exact ⟨h1 fun hf => hb (c2.1 hf), fun hd => h2 (c3.2 ⟨hd, hb⟩)⟩

/-- C46: the same from programs with global constants.  If every constant evaluates (see `C32_unused_constant_refuted`) and
the main term evaluates to data, the module computes that data. -/
theorem C46_program_wasm_partial {P : List (Mut.Name × Nat)} {p : Mut.Environ} {t : Mut.Term} (hcr : Mut.CrctEnv p)
    (hP : ∀ c, Mut.Defined p c → Src.findPrim P c = none) (ht : t.crct (Mut.Defined p) 0) (hT : T.Ok)
    (hty : Typed T (Src.translateProgram P p t)) (hk : 1 ≤ k) (hl : Literals (Src.translateProgram P p t))
    (hc : compile direct T arity k o marks (Src.translateProgram P p t) = some (e', c')) (hp : PrimsOk ⟨T.cenv, prims⟩ penv)
    {funcs : List Func} (hm : transProg c'.cenv penv (topFun e') = some funcs) {E : Wasm.Env} (hE : Instance E funcs) (m0 : Mem)
    {d : Src.Data} (hb : ¬ AppliesProof (Src.translateProgram P p t)) (hce : Mut.ConstsEval p) (hv : Mut.Wcbv p t d.toTerm) :
    ∃ main fns s', funcs = main :: fns ∧ main.params = 0 ∧ Runs E main.body (initSt m0 main) (.ret s') ∧
      (OutOfMem E s' ∨ ∃ B, Result c'.cenv B s' (toFO T.tag defaultCtorTag d).toVal) :=
  C46_wasm_partial ⟨hT, Src.C32_closed hcr hP ht, hty, hk⟩ hl hc hp hm hE m0 hb ((Src.C32_data hcr hP ht d).2 ⟨hce, hv⟩)

end

/-! ## The statements are about real programs -/

open Conv (natTypes natTypes_ok nat_zero nat_succ)

/-- `let s := fun n => S n in s (s O)`. -/
def succTwice : Src.Exp :=
  .letin (.lam (.con (0, 1) (.cons (.var 0) .nil))) (.app (.var 0) (.app (.var 0) (.con (0, 0) .nil)))

theorem succTwice_source : Source natTypes 100 succTwice :=
  ⟨natTypes_ok, by simp [succTwice, Src.Exp.wf, Src.Exps.wf], ⟨⟨nat_succ, trivial, trivial⟩, trivial, trivial, nat_zero, trivial⟩, by decide⟩

theorem succTwice_value : Src.Eval succTwice (Src.Data.con 0 1 [.con 0 1 [.con 0 0 []]]).toExp :=
  Src.C33_interpreter_exact.2 ⟨20, by decide +kernel⟩

theorem succTwice_proofs : ¬ AppliesProof succTwice := by
  have hf : Src.evalR false 20 succTwice = .val (Src.Data.con 0 1 [.con 0 1 [.con 0 0 []]]).toExp := by rfl
  rintro ⟨n, hn⟩
  have := Src.Fin.det (n := 20) (e := succTwice) ⟨by simp, n, hn⟩ (by rw [hf]; simp)
  rw [hf] at this; cases this

/-- The backend accepts the compiled program. -/
theorem succTwice_accepted (direct : Bool) : ((compile direct natTypes (fun _ => none) 100 (ANF.Pipe.makeOptions direct 0 5 8)
    (fun _ => none) succTwice).bind fun r => transProg r.2.cenv (fun _ => none) (topFun r.1)).isSome = true := by
  revert direct; decide +kernel

/-- The compiled module computes `S (S O)`, in every engine. -/
example (direct : Bool) : ∃ e' c' funcs, compile direct natTypes (fun _ => none) 100 (ANF.Pipe.makeOptions direct 0 5 8) (fun _ => none)
      succTwice = some (e', c') ∧
    transProg c'.cenv (fun _ => none) (topFun e') = some funcs ∧ ∀ (E : Wasm.Env) (m0 : Mem), Instance E funcs →
    ∃ main fns s', funcs = main :: fns ∧ main.params = 0 ∧ Runs E main.body (initSt m0 main) (.ret s') ∧
      (OutOfMem E s' ∨ ∃ B, Result c'.cenv B s'
        (toFO natTypes.tag defaultCtorTag (.con 0 1 [.con 0 1 [.con 0 0 []]])).toVal) := by
  obtain ⟨funcs, h⟩ := Option.isSome_iff_exists.1 (succTwice_accepted direct)
  obtain ⟨⟨e', c'⟩, h1, h2⟩ := Option.bind_eq_some_iff.1 h
  refine ⟨e', c', funcs, h1, h2, fun E m0 hE => ?_⟩
  refine C46_wasm_partial (prims := fun _ _ => none) succTwice_source ?_ h1 ?_ h2 hE m0 succTwice_proofs succTwice_value
  · exact ⟨⟨trivial, trivial, trivial⟩, trivial, trivial, trivial, trivial⟩
  · intro p op ps v h; cases h

/-- Recursive doubling meets the hypotheses of the theorems about compilation, in both styles and with every configuration. -/
example (direct : Bool) (oLevel cArgs anfConf : Nat) : ∃ e' c', compile direct natTypes (fun _ => none) 100
    (ANF.Pipe.makeOptions direct oLevel cArgs anfConf) (fun _ => none) (.app Src.dbl (Src.num 2)) = some (e', c') ∧
    Returns ⟨c'.cenv, fun _ _ => none⟩ emp e' (toFO natTypes.tag defaultCtorTag Src.four).toVal := by
  have hs : Source natTypes 100 (.app Src.dbl (Src.num 2)) :=
    ⟨natTypes_ok, by simp [Src.Exp.wf, Src.Fns.wf, Src.Brs.wf, Src.Exps.wf, Src.dbl, Src.num, Src.Fns.len], Conv.dbl_typed, by decide⟩
  have hv : Src.Eval (.app Src.dbl (Src.num 2)) Src.four.toExp := Src.C33_interpreter_exact.2 ⟨20, by decide +kernel⟩
  have hf : Src.evalR false 20 (.app Src.dbl (Src.num 2)) = .val Src.four.toExp := by rfl
  have hb : ¬ AppliesProof (.app Src.dbl (Src.num 2)) := by
    rintro ⟨n, hn⟩
    have := Src.Fin.det (n := 20) (e := .app Src.dbl (Src.num 2)) ⟨by simp, n, hn⟩ (by rw [hf]; simp)
    rw [hf] at this; cases this
  obtain ⟨e', c', h1, _⟩ := C46_compile_total direct (fun _ => none) (ANF.Pipe.makeOptions direct oLevel cArgs anfConf) (fun _ => none) hs.p
  exact ⟨e', c', h1, C46_compile_data_partial hs h1 hb hv⟩

end E2E
