import Verif.E2E.RtProps
import Verif.CGen.Prim.IntProps

/-!
# C58: from source programs with integer operations to C code running with the collector and prim_int63.c
-/

namespace E2E

open Conv (Types OpsOk toFO)
open Src (Mode Yields Loops Fails)
open ANF (Var Tag PVal FO Comp)
open ANF.Pipe (Opts)
open Ctor (defaultCtorTag)
open CGen (Cfg CFun Rt VRep compileC runC wrapInFun)
open CGen.Prim (IntOp Means Safe SafeSig table)

/-- The primitive operations of source programs are Rocq's integer operations on 63-bit integers, `penv` says which; their results
are integers or values of types with the constructors of `bool`, `comparison`, `carry` and `prod` in the order the runtime expects;
an operation has no result on operands for which the C function is wrong (C57). -/
def SafeOps (T : Types) (Q : Mode) (penv : Tag → Option IntOp) : Prop :=
  ∀ p ps d, Q.op p ps = some d → ∃ op ns r, penv p = some op ∧ ps = ns.map .int ∧ (∀ n ∈ ns, n < 2 ^ 63) ∧ Means op ns r ∧
    Wasm.Encodes T.cenv r (toFO T.tag defaultCtorTag d) ∧ Safe op ns

/-- The operations of LambdaANF that compute what those of the source compute. -/
def anfOps (T : Types) (Q : Mode) (p : Tag) (ps : List PVal) : Option FO := (Q.op p ps).map (toFO T.tag defaultCtorTag)

theorem anfOps_ok {T : Types} {Q : Mode} {arity : Nat → Option Nat} (hb : Q.bx = false)
    (ha : ∀ p n, Q.arity p = some n → arity p = some n) : OpsOk (T.params arity) ⟨T.cenv, anfOps T Q⟩ Q :=
  ⟨hb, ha, fun p ps d h => by
    show (Q.op p ps).map _ = _
    rw [h]; rfl⟩

section
variable {direct : Bool} {T : Types} {arity : Nat → Option Nat} {k : Nat} {o : Opts} {marks : Var → Option Nat} {e : Src.Exp}
  {e' : ANF.Exp} {c' : Comp} {C : Cfg} {R : Rt} {a : Nat} {body : Var} {M : CFun × List CFun} {Q : Mode} {penv : Tag → Option IntOp}
  {d : Src.Data}

theorem safeSig_after (h : SourceP T arity k e) (hc : compile direct T arity k o marks e = some (e', c')) (hS : SafeOps T Q penv) :
    SafeSig ⟨c'.cenv, anfOps T Q⟩ penv := by
  obtain ⟨e₁, s, hi, h2⟩ := compile_inv h hc (anfOps T Q)
  obtain ⟨_, hext⟩ := env_after hi.input h2 hi.env
  rw [hi.cenv] at hext
  have hx : ∀ {t a b}, Wasm.HasCtor T.cenv t a b → Wasm.HasCtor c'.cenv t a b := fun ⟨i, hi, h⟩ => ⟨i, hext _ _ hi, h⟩
  intro p ps v hv
  obtain ⟨d, hd, rfl⟩ := Option.map_eq_some_iff.1 hv
  obtain ⟨op, ns, r, h1, h2, h3, h4, h5, h6⟩ := hS p ps d hd
  refine ⟨op, ns, r, h1, h2, h3, h4, ?_, h6⟩
  cases r with
  | int n => exact h5
  | bool b => obtain ⟨t, ht, h⟩ := h5; exact ⟨t, hx ht, h⟩
  | cmp b => obtain ⟨t, ht, h⟩ := h5; exact ⟨t, hx ht, h⟩
  | carry b => cases b <;> (obtain ⟨t, ht, h⟩ := h5; exact ⟨t, hx ht, h⟩)
  | pair b => obtain ⟨t, ht, h⟩ := h5; exact ⟨t, hx ht, h⟩

/-- C58: a source program with integer operations that yields data, compiled to C with any options and linked with
`garbage_collect` and prim_int63.c, returns a representation of the data when it is started after `make_tinfo`, or the process
is aborted (C56_abort says when); if the program is not stuck, the behaviour of the C code is defined; if it runs forever, the C code does not
return.  Missing: operands on which the C functions are wrong and operations that return pairs (C57), calls with more than 1024
arguments. -/
theorem C58_int63_partial (h : SourceP T arity k e) (hs : CSource T e) (hc : compile direct T arity k o marks e = some (e', c'))
    (hC : CfgOk C c'.cenv k) (ht : C.prims = table penv) (ha : e'.All FewFeat) (hR : R.Fits (topDefs e'))
    (hn : 0 < a ∧ ∀ x, R.Static x → x < a ∨ a + GC.nurserySize ≤ x) (hm : compileC C body (wrapInFun e') = some M)
    (hS : SafeOps T Q penv) (hb : Q.bx = false) (har : ∀ p n, Q.arity p = some n → arity p = some n) (depth : Nat) :
    (∀ d, Yields Q e d → ∃ n, runC (R.world63 c'.cenv (topDefs e') penv) M n depth (R.start a) = .abort ∨
      ∃ c th, runC (R.world63 c'.cenv (topDefs e') penv) M n depth (R.start a) = .ret c th ∧
        VRep R.heapI c'.cenv (topDefs e') th.mem th.alloc th.limit (toFO T.tag defaultCtorTag d).toVal c) ∧
    (¬ Fails Q e → ∀ n, runC (R.world63 c'.cenv (topDefs e') penv) M n depth (R.start a) ≠ .ub) ∧
    (Loops Q e → ∀ n, runC (R.world63 c'.cenv (topDefs e') penv) M n depth (R.start a) = .abort ∨
      runC (R.world63 c'.cenv (topDefs e') penv) M n depth (R.start a) = .oot) := by
  obtain ⟨h1, h2, h3⟩ := CGen.C56_start (R := R) (B := topDefs e') (cenv := c'.cenv) hn.1 hn.2
  have hct := ctors_after h hs hc
  have hG := CGen.C56_allocation (cenv := c'.cenv) hR
  have hg := CGen.C56_collector hR hct (CGen.Prim.prim penv) (CGen.Prim.primT penv (R.collect c'.cenv (topDefs e')))
  have hp : CGen.PrimsOk R.heapI ⟨c'.cenv, anfOps T Q⟩ C.prims (topDefs e') (R.world63 c'.cenv (topDefs e') penv) := by
    rw [ht]
    exact CGen.C57_prims_partial (safeSig_after h hc hS) hg hct hG rfl rfl
  have hQ := anfOps_ok (T := T) hb har
  have hs' := fun n => C58_c_safe_partial h hs hc hC ha hg hp hG hQ hm n depth _ (fun k hk => absurd hk (h3 k)) h2 h1
  exact ⟨fun d hv => C58_c_partial h hs hc hC ha hg hp hG hQ hm hv depth _ (fun k hk => absurd hk (h3 k)) h2 h1,
    fun hf n => (hs' n).1 hf, fun hl n => (hs' n).2 hl⟩

end

/-! ## A program -/

open Conv (natTypes)

/-- Addition is operation 0. -/
def addMode : Mode := ⟨false, fun p => if p = 0 then some 2 else none, fun p ps => match p, ps with
  | 0, [.int x, .int y] => if x < 2 ^ 63 ∧ y < 2 ^ 63 then some (.prim (.int ((x + y) % 2 ^ 63))) else none
  | _, _ => none⟩

/-- `let f := add 3 in f (f 4)`. -/
def addTwice : Src.Exp :=
  .letin (.app (.prim 0) (.pval (.int 3))) (.app (.var 0) (.app (.var 0) (.pval (.int 4))))

theorem addTwice_value : Yields addMode addTwice (.prim (.int 10)) := Src.big_iff.2 ⟨3, by rfl⟩

theorem addTwice_source : SourceP natTypes addMode.arity 100 addTwice :=
  ⟨Conv.natTypes_ok, by simp [addTwice, Src.Exp.wfp, addMode], ⟨⟨trivial, trivial⟩, trivial, trivial, trivial⟩, by decide⟩

theorem addTwice_c : CSource natTypes addTwice :=
  ⟨by decide +kernel, ⟨⟨trivial, ⟨3, rfl⟩⟩, trivial, trivial, 4, rfl⟩⟩

theorem add_safe : SafeOps natTypes addMode (CGen.opEnv (.u .add)) := by
  intro p ps d h
  simp only [addMode] at h
  split at h
  · rename_i x y
    split at h
    case isFalse => cases h
    rename_i hxy
    cases h
    refine ⟨.u .add, [x, y], .int ((x + y) % 2 ^ 63), rfl, rfl, ?_, rfl, ⟨Nat.mod_lt _ (by decide), rfl⟩, trivial⟩
    intro n hn
    simp at hn
    omega
  · cases h

/-- What it is compiled to. -/
def addTwiceCode : Bool → ANF.Exp
  | true => .primVal 101 (.int 3) (.primVal 105 (.int 4) (.prim 107 0 [101, 105] (.prim 109 0 [101, 107] (.halt 109))))
  | false => .primVal 103 (.int 3) (.primVal 111 (.int 4) (.prim 112 0 [103, 111] (.prim 110 0 [103, 112] (.halt 110))))

theorem addTwice_code (direct : Bool) : (compile direct natTypes addMode.arity 100 (ANF.Pipe.makeOptions direct 0 5 8)
    (fun _ => none) addTwice).map (fun r => r.1) = some (addTwiceCode direct) := by
  revert direct; decide +kernel

/-- Compiled and linked with the collector and prim_int63.c, it computes 10. -/
example (direct : Bool) : ∃ e' c' M, compile direct natTypes addMode.arity 100 (ANF.Pipe.makeOptions direct 0 5 8) (fun _ => none)
      addTwice = some (e', c') ∧ compileC ⟨2, 5, table (CGen.opEnv (.u .add)), c'.cenv⟩ 1 (wrapInFun e') = some M ∧
    ∃ n, runC (CGen.arena.world63 c'.cenv (topDefs e') (CGen.opEnv (.u .add))) M n 0 (CGen.arena.start 1024) = .abort ∨
      ∃ c th, runC (CGen.arena.world63 c'.cenv (topDefs e') (CGen.opEnv (.u .add))) M n 0 (CGen.arena.start 1024) = .ret c th ∧
        VRep CGen.arena.heapI c'.cenv (topDefs e') th.mem th.alloc th.limit (.prim (.int 10)) c := by
  obtain ⟨⟨e', c'⟩, h1, h2⟩ := Option.map_eq_some_iff.1 (addTwice_code direct)
  cases h2
  have ha : (addTwiceCode direct).All (CallFeat fun _ => 0) := by cases direct <;> simp [addTwiceCode, ANF.Exp.All, CallFeat]
  have hf : (addTwiceCode direct).All FewFeat := by cases direct <;> simp [addTwiceCode, ANF.Exp.All, FewFeat]
  have hC : CfgOk ⟨2, 5, table (CGen.opEnv (.u .add)), c'.cenv⟩ c'.cenv 100 := ⟨rfl, (by decide : 5 ≤ 100)⟩
  obtain ⟨M, hM⟩ := C46_c_total_partial addTwice_source addTwice_c h1 hC ha (by
    cases direct <;> simp [addTwiceCode, ANF.Exp.All, PrimFeat, table, CGen.opEnv]) 1
  refine ⟨_, c', M, h1, hM, ?_⟩
  exact (C58_int63_partial addTwice_source addTwice_c h1 hC rfl hf
    (CGen.arena_fits _ (by cases direct <;> simp [addTwiceCode, topDefs, ANF.Defs.names])) CGen.arena_nursery hM add_safe rfl
    (fun _ _ h => h) 0).1 _ addTwice_value

/-- The Wasm backend accepts it too. -/
theorem addTwice_wasm (direct : Bool) : ((compile direct natTypes addMode.arity 100 (ANF.Pipe.makeOptions direct 0 5 8)
    (fun _ => none) addTwice).bind fun r => Wasm.transProg r.2.cenv (fun p => if p = 0 then some .add else none) (Wasm.topFun r.1)).isSome =
      true := by
  revert direct; decide +kernel

/-- The compiled module computes 10, in every engine. -/
example (direct : Bool) : ∃ e' c' funcs, compile direct natTypes addMode.arity 100 (ANF.Pipe.makeOptions direct 0 5 8) (fun _ => none)
      addTwice = some (e', c') ∧
    Wasm.transProg c'.cenv (fun p => if p = 0 then some .add else none) (Wasm.topFun e') = some funcs ∧
    ∀ (E : Wasm.Env) (m0 : Wasm.Mem), Wasm.Instance E funcs →
    ∃ main fns s', funcs = main :: fns ∧ main.params = 0 ∧ Wasm.Runs E main.body (Wasm.initSt m0 main) (.ret s') ∧
      (Wasm.OutOfMem E s' ∨ ∃ B, Wasm.Result c'.cenv B s' (.prim (.int 10))) := by
  obtain ⟨funcs, h⟩ := Option.isSome_iff_exists.1 (addTwice_wasm direct)
  obtain ⟨⟨e', c'⟩, h1, h2⟩ := Option.bind_eq_some_iff.1 h
  refine ⟨e', c', funcs, h1, h2, fun E m0 hE => ?_⟩
  refine C58_wasm addTwice_source ⟨⟨trivial, fun n h => ?_⟩, trivial, trivial, fun n h => ?_⟩ h1
    (anfOps_ok (T := natTypes) rfl fun _ _ h => h) ?_ h2 hE m0 addTwice_value
  · cases h; decide
  · cases h; decide
  · intro p op ps v hp hv
    obtain ⟨d, hd, rfl⟩ := Option.map_eq_some_iff.1 hv
    obtain ⟨op', ns, r, a1, a2, a3, a4, a5, _⟩ := add_safe p ps d hd
    simp only [CGen.opEnv] at a1
    split at a1
    · rename_i h0
      cases a1
      simp only [h0, if_true, Option.some.injEq] at hp
      subst hp
      exact ⟨ns, r, a2, a4, a5⟩
    · cases a1

/-- A program that compares two machine integers with an operation that is not there is stuck. -/
example : Fails addMode (.app (.prim 1) (.pval (.int 3))) := ⟨0, rfl⟩

end E2E
