import Verif.E2E.WasmProps
import Verif.Wasm.ModProps

/-!
# C59 from source programs: what the host sees

The host validates the emitted module, instantiates it, calls the export `main_function` and reads the exports `out_of_mem`
and `result`.
-/

namespace E2E
open Conv (Types OpsOk toFO)
open Src (Mode Yields Fails)
open ANF (Var Tag PVal FO Comp)
open ANF.Pipe (Opts)
open Ctor (defaultCtorTag)
open Wasm (Primop Func Mem transModule topFun Module instantiate lookupExport Runs OutOfMem Result exec)

section
variable {direct : Bool} {T : Types} {arity : Nat → Option Nat} {k : Nat} {o : Opts} {marks : Var → Option Nat} {e : Src.Exp}
  {prims : Tag → List PVal → Option FO} {e' : ANF.Exp} {c' : Comp} {penv : Tag → Option Primop} {names : Var → List Char}

/-- C59: from source programs to the host.  The emitted module is valid and instantiates; its main function is found under its
name and takes no arguments; called in the new instance, for a program that yields data, it returns, and either the exported
flag says that no more memory can be had, or the exported result represents the data. -/
theorem C59_host {Q : Mode} (h : SourceP T arity k e) (hl : Literals e) (hc : compile direct T arity k o marks e = some (e', c'))
    (hQ : OpsOk (T.params arity) ⟨T.cenv, prims⟩ Q) (hp : Wasm.PrimsOk ⟨T.cenv, prims⟩ penv) {m : Module}
    (hm : transModule names c'.cenv penv (topFun e') = some m) (growOk : Nat → Bool) {d : Src.Data} (hv : Yields Q e d) :
    m.Valid ∧ ∃ I main s', instantiate m = some I ∧ lookupExport m "main_function".toList = some (.func 0) ∧
      (m.env growOk).funcs[0]? = some main ∧ main.params = 0 ∧
      Runs (m.env growOk) main.body (I.start main) (.ret s') ∧
      (OutOfMem (m.env growOk) s' ∨ ∃ B, Result c'.cenv B s' (toFO T.tag defaultCtorTag d).toVal) := by
  refine ⟨Wasm.C59_valid hm, ?_⟩
  obtain ⟨I, main, fns, h1, h2, h3, h4, h5⟩ := Wasm.C59_instantiates hm
  obtain ⟨_, _, s', he, _, hr, ho⟩ := C58_wasm h hl hc hQ hp h2 (h3 growOk) (fun _ => 0) hv
  cases he
  exact ⟨I, main, s', h1, (Wasm.C59_exports hm).1, by rw [(h3 growOk).funcs]; rfl, h5, by rw [h4]; exact hr, ho⟩

/-- C59: a program that is not stuck never makes the main function of the new instance trap. -/
theorem C59_host_safe {Q : Mode} (h : SourceP T arity k e) (hl : Literals e) (hc : compile direct T arity k o marks e = some (e', c'))
    (hQ : OpsOk (T.params arity) ⟨T.cenv, prims⟩ Q) (hp : Wasm.PrimsOk ⟨T.cenv, prims⟩ penv) {m : Module}
    (hm : transModule names c'.cenv penv (topFun e') = some m) (growOk : Nat → Bool) (hb : ¬ Fails Q e) :
    ∃ I main, instantiate m = some I ∧ (m.env growOk).funcs[0]? = some main ∧
      ∀ n, exec (m.env growOk) n main.body (I.start main) ≠ .trap := by
  obtain ⟨I, main, fns, h1, h2, h3, h4, _⟩ := Wasm.C59_instantiates hm
  refine ⟨I, main, h1, by rw [(h3 growOk).funcs]; rfl, ?_⟩
  rw [h4]
  exact (C58_wasm_safe h hl hc hQ hp h2 (h3 growOk) fun _ => 0).1 hb

end

/-- `succTwice` has a module, in both styles. -/
example (direct : Bool) : ∃ e' c' m, compile direct Conv.natTypes (fun _ => none) 100 (ANF.Pipe.makeOptions direct 0 5 8) (fun _ => none)
      succTwice = some (e', c') ∧ transModule (fun _ => []) c'.cenv (fun _ => none) (topFun e') = some m ∧ m.Valid := by
  obtain ⟨funcs, h⟩ := Option.isSome_iff_exists.1 (succTwice_accepted direct)
  obtain ⟨⟨e', c'⟩, h1, h2⟩ := Option.bind_eq_some_iff.1 h
  obtain ⟨m, hm⟩ := (Wasm.C59_module_iff (fun _ => [])).2 ⟨funcs, h2⟩
  exact ⟨e', c', m, h1, hm, Wasm.C59_valid hm⟩

end E2E
