import Verif.Wasm.ModTyped
import Verif.Wasm.GenDemo

/-!
# C59: every module the Wasm backend emits is valid, instantiates and exports what the host needs

`transModule` is the model of the backend, `Module.Valid`, `instantiate`, `indirect` and `lookupExport` are the rules of
the WebAssembly specification. No hypothesis about the program is needed: the backend itself refuses what it cannot
translate.
-/

namespace Wasm
open Instr

section
variable {names : ANF.Var → List Char} {cenv : CEnv} {penv : ANF.Tag → Option Primop} {e : ANF.Exp} {m : Module}

theorem transModule_inv (h : transModule names cenv penv e = some m) : ∃ B e' fns xs, e = .fn B e' ∧
    transProg cenv penv e = some fns ∧ funExports names (varMap 1 B.names) 0 B = some xs ∧
    m = { types := funTypes maxFunctionArgs, funcs := fns.map modFunc, tables := [⟨fns.length, none⟩],
          mems := [⟨1, some maxMemPages⟩], globals := modGlobals, elems := tableElems fns.length 0,
          exports := ⟨mainName, .func 0⟩ :: (xs ++ dataExports) } := by
  simp only [transModule, Option.bind_eq_bind, Option.bind_eq_some_iff] at h
  obtain ⟨fns, h1, h⟩ := h
  split at h
  · rename_i B e'
    simp only [Option.bind_eq_some_iff, Option.some.injEq] at h
    obtain ⟨xs, h2, rfl⟩ := h
    exact ⟨B, e', fns, xs, rfl, h1, h2, rfl⟩
  · simp at h

/-- C59: the module exists exactly when the functions can be translated, whatever the names of the functions are. -/
theorem C59_module_iff (names : ANF.Var → List Char) :
    (∃ m, transModule names cenv penv e = some m) ↔ ∃ fns, transProg cenv penv e = some fns := by
  constructor
  · rintro ⟨m, h⟩
    obtain ⟨_, _, fns, _, _, h1, _⟩ := transModule_inv h
    exact ⟨fns, h1⟩
  · rintro ⟨fns, h⟩
    obtain ⟨B, e', rfl, _⟩ := transProg_spec h
    obtain ⟨xs, hx⟩ := funExports_some (names := names) (B := B) (fenv := varMap 1 B.names) 0 (fun f hf => varMap_isSome hf)
    simp only [transModule, h, hx, Option.bind_eq_bind, Option.bind_some, Option.some.injEq]
    exact ⟨_, rfl⟩

/-- C59: every emitted module passes validation. -/
theorem C59_valid (h : transModule names cenv penv e = some m) : m.Valid := by
  obtain ⟨B, e', fns, xs, rfl, h1, h2, rfl⟩ := transModule_inv h
  obtain ⟨B', e'', he, hlen, hmax, _, hall⟩ := transProg_spec h1
  cases he
  obtain ⟨hx, hnd, _⟩ := funExports_spec h2
  have hbound : fns.length < 2 ^ 32 := by rw [hlen]; have : maxNumFunctions < 2 ^ 32 - 2 := by decide
                                          omega
  refine ⟨?_, ?_, ?_, by simp, ?_, ?_, ?_, ?_⟩
  · intro f hf
    obtain ⟨g, hg, rfl⟩ := List.mem_map.1 hf
    obtain ⟨hp, ht⟩ := hall g hg
    refine ⟨_, funTypes_get hp, ht _ ⟨rfl, by simp [Module.ctx], by simp [Module.ctx], rfl, ?_, rfl⟩⟩
    simp [Module.ctx, modFunc, List.replicate_append_replicate]
  · intro t ht
    simp only [List.mem_singleton] at ht
    subst ht
    exact ⟨Nat.le_sub_one_of_lt hbound, by simp⟩
  · intro t ht
    simp only [List.mem_singleton] at ht
    subst ht
    exact ⟨by decide, fun k hk => by cases hk; decide⟩
  · intro g hg
    simp only [modGlobals, List.mem_cons, List.not_mem_nil, or_false] at hg
    rcases hg with rfl | rfl | rfl | rfl | rfl | rfl | rfl | rfl <;> exact ⟨_, rfl, rfl, by simp [Val.Fits]⟩
  · intro el hel
    obtain ⟨h0, i, hi, ho, hin⟩ := tableElems_mem hel
    refine ⟨by simp [h0], ⟨_, ho, rfl, Nat.mod_lt _ (by decide)⟩, fun j hj => ?_⟩
    rw [hin] at hj
    simp only [List.mem_singleton] at hj
    subst hj
    simpa using hi
  · intro x hxm
    rcases List.mem_cons.1 hxm with rfl | hxm
    · show 0 < (fns.map modFunc).length
      simp [hlen]
    · rcases List.mem_append.1 hxm with hxm | hxm
      · obtain ⟨f, j, _, _, k, hk, hd⟩ := hx x hxm
        rw [hd]
        show k < (fns.map modFunc).length
        have := (varMap_range hk).2
        rw [names_length] at this
        simp [hlen]
        omega
      · simp only [dataExports, List.mem_cons, List.not_mem_nil, or_false] at hxm
        rcases hxm with rfl | rfl | rfl | rfl <;> simp [Module.ExportValid, modGlobals, globOutOfMem, globMemPtr, globResult]
  · have hus : ∀ n ∈ xs.map (·.name), n.head? = some '_' := by
      intro n hn
      obtain ⟨x, hxm, rfl⟩ := List.mem_map.1 hn
      obtain ⟨f, j, _, hn, _⟩ := hx x hxm
      rw [hn]
      exact sanitize_head _ _
    have hd : ∀ n ∈ mainName :: dataExports.map (·.name), n.head? ≠ some '_' := by decide
    have hdn : (mainName :: dataExports.map (·.name)).Nodup := by decide
    simp only [List.map_cons, List.map_append, List.nodup_cons, List.mem_append, not_or]
    rw [List.nodup_cons] at hdn
    refine ⟨⟨fun hm => hd _ (by simp) (hus _ hm), hdn.1⟩, List.nodup_append.2 ⟨hnd, hdn.2, ?_⟩⟩
    rintro a ha _ hb rfl
    exact hd a (List.mem_cons_of_mem _ hb) (hus a ha)

/-- C59: the module instantiates without a trap, and a call of its exported main function starts in the state of the
theorems about execution (C29, C30): one page of memory, zeroed globals, the functions of the program in their order. -/
theorem C59_instantiates (h : transModule names cenv penv e = some m) :
    ∃ I main fns, instantiate m = some I ∧ transProg cenv penv e = some (main :: fns) ∧
      (∀ growOk, Instance (m.env growOk) (main :: fns)) ∧ I.start main = initSt (fun _ => 0) main ∧ main.params = 0 := by
  obtain ⟨B, e', fns, xs, rfl, h1, h2, rfl⟩ := transModule_inv h
  obtain ⟨B', e'', he, hlen, hmax, ⟨main, fs, rfl, hm0⟩, hall⟩ := transProg_spec h1
  cases he
  have hbound : 0 + (main :: fs).length < 2 ^ 32 := by
    rw [hlen]; have : maxNumFunctions < 2 ^ 32 - 2 := by decide
    omega
  have hr := runElems_table (main :: fs).length 0 hbound
  have hg : modGlobals.mapM (fun g => constVal g.init) = some [.i32 0, .i32 0, .i32 0, .i32 0, .i64 0, .i64 0, .i64 0, .i64 0] := rfl
  refine ⟨⟨[(List.range (0 + (main :: fs).length)).map some], [.i32 0, .i32 0, .i32 0, .i32 0, .i64 0, .i64 0, .i64 0, .i64 0],
    [(1, fun _ => 0)]⟩, main, fs, ?_, h1, fun growOk => ⟨?_, rfl⟩, ?_, hm0⟩
  · simp only [instantiate, hg, Option.bind_eq_bind, Option.bind_some, List.map_cons, List.map_nil]
    simp only [List.range_zero, List.map_nil, List.nil_append] at hr
    rw [hr]
    rfl
  · simp only [Module.env, List.map_map]
    conv => rhs; rw [← List.map_id (main :: fs)]
    refine List.map_congr_left fun f hf => ?_
    simp [modFunc, funTypes_get (hall f hf).1]
  · simp only [Inst.start, initSt]
    congr 1
    funext i
    match i with
    | 0 | 1 | 2 | 3 | 4 | 5 | 6 | 7 => rfl
    | i + 8 => simp

/-- C59: in the instance, an indirect call with `n` arguments reaches the function whose index is on the stack, provided
that function takes `n` arguments, and traps otherwise. -/
theorem C59_indirect (h : transModule names cenv penv e = some m) {I : Inst} (hI : instantiate m = some I)
    {fns : List Func} (hf : transProg cenv penv e = some fns) {n : Nat} (hn : n ≤ maxFunctionArgs) (i g : Nat) :
    indirect m I n i = some g ↔ g = i ∧ ∃ fn, fns[i]? = some fn ∧ fn.params = n := by
  obtain ⟨B, e', fns', xs, rfl, h1, h2, rfl⟩ := transModule_inv h
  rw [hf] at h1
  cases h1
  obtain ⟨B', e'', he, hlen, hmax, _, hall⟩ := transProg_spec hf
  have hbound : 0 + fns.length < 2 ^ 32 := by
    rw [hlen]; have : maxNumFunctions < 2 ^ 32 - 2 := by decide
    omega
  have hr := runElems_table fns.length 0 hbound
  simp only [List.range_zero, List.map_nil, List.nil_append, Nat.zero_add] at hr
  have hg : modGlobals.mapM (fun g => constVal g.init) = some [.i32 0, .i32 0, .i32 0, .i32 0, .i64 0, .i64 0, .i64 0, .i64 0] := rfl
  simp only [instantiate, hg, Option.bind_eq_bind, Option.bind_some, List.map_cons, List.map_nil, hr, Option.some.injEq] at hI
  subst hI
  simp only [indirect, Option.bind_eq_bind, List.getElem?_cons_zero, Option.bind_some, List.getElem?_map, funTypes_get hn]
  by_cases hi : i < fns.length
  · have hp := (hall fns[i] (List.getElem_mem hi)).1
    simp only [List.getElem?_range hi, Option.map_some, Option.bind_some, List.getElem?_eq_getElem hi, modFunc, funTypes_get hp]
    constructor
    · intro hs
      split at hs
      · rename_i heq
        simp only [Option.some.injEq] at hs
        simp only [FuncType.mk.injEq, and_true] at heq
        refine ⟨hs.symm, _, rfl, ?_⟩
        have := congrArg List.length heq
        simpa using this
      · simp at hs
    · rintro ⟨rfl, fn, hfn, rfl⟩
      cases hfn
      simp
  · have : (List.range fns.length)[i]? = none := by simp; omega
    simp only [this, Option.map_none, Option.bind_none, reduceCtorEq, false_iff]
    rintro ⟨rfl, fn, hfn, _⟩
    rw [List.getElem?_eq_none (by omega)] at hfn
    cases hfn

theorem lookupExport_mem {m : Module} (hn : (m.exports.map (·.name)).Nodup) {n : List Char} {d : ExportDesc}
    (h : ⟨n, d⟩ ∈ m.exports) : lookupExport m n = some d := by
  unfold lookupExport
  generalize m.exports = l at hn h
  induction l with
  | nil => simp at h
  | cons x l ih =>
    simp only [List.map_cons, List.nodup_cons] at hn
    rcases List.mem_cons.1 h with rfl | h
    · simp
    · have hne : x.name ≠ n := fun he => hn.1 (List.mem_map.2 ⟨_, h, he.symm⟩)
      simp only [List.find?_cons, hne, decide_false]
      exact ih hn.2 h

/-- C59: the host finds the main function, the result, the out-of-memory flag, the allocation pointer and the memory
under their documented names, whatever the functions of the program are called. -/
theorem C59_exports (h : transModule names cenv penv e = some m) :
    lookupExport m "main_function".toList = some (.func 0) ∧ lookupExport m "result".toList = some (.global globResult) ∧
    lookupExport m "out_of_mem".toList = some (.global globOutOfMem) ∧
    lookupExport m "mem_ptr".toList = some (.global globMemPtr) ∧ lookupExport m "memory".toList = some (.mem 0) := by
  have hv := (C59_valid h).names
  obtain ⟨B, e', fns, xs, rfl, h1, h2, rfl⟩ := transModule_inv h
  have hd : ∀ x ∈ dataExports, x ∈ (⟨mainName, .func 0⟩ :: (xs ++ dataExports) : List Export) :=
    fun x hx => List.mem_cons_of_mem _ (List.mem_append_right _ hx)
  exact ⟨lookupExport_mem hv (.head _), lookupExport_mem hv (hd _ (.tail _ (.tail _ (.head _)))), lookupExport_mem hv (hd _ (.head _)),
    lookupExport_mem hv (hd _ (.tail _ (.head _))), lookupExport_mem hv (hd _ (.tail _ (.tail _ (.tail _ (.head _)))))⟩

/-- C59: if the functions of the program have different names, then the `i`-th one is exported, under a name that starts with
its number, as function `i + 1` of the module, the function its calls reach. -/
theorem C59_function_exports {B : ANF.Defs} {e' : ANF.Exp} (h : transModule names cenv penv (.fn B e') = some m) (hB : B.names.Nodup) {i : Nat}
    {f : ANF.Var} (hf : B.names[i]? = some f) :
    ∃ n, lookupExport m (['_'] ++ (toString i).toList ++ ['_', '_'] ++ n) = some (.func (i + 1)) ∧ n.length = (names f).length ∧ '.' ∉ n := by
  have hv := (C59_valid h).names
  obtain ⟨B', e'', fns, xs, he, h1, h2, rfl⟩ := transModule_inv h
  cases he
  obtain ⟨_, _, hx⟩ := funExports_spec h2
  obtain ⟨k, hk, hm⟩ := hx i f hf
  rw [varMap_nodup hB hf] at hk
  cases hk
  refine ⟨(names f).map fun b => if b = '.' then '_' else b, lookupExport_mem hv ?_, by simp, ?_⟩
  · refine List.mem_cons_of_mem _ (List.mem_append_left _ ?_)
    rw [Nat.zero_add] at hm
    simpa [sanitize, Nat.toString_eq_ofList_toDigits, Nat.add_comm] using hm
  · intro hc
    obtain ⟨b, _, hb⟩ := List.mem_map.1 hc
    split at hb
    · cases hb
    · next hne => exact hne hb

end

/-! ## The statements are about real modules -/

/-- The demo program (a recursive function, constructors, projections, calls, an integer primitive) has a module. -/
theorem demo_wholeModule : ∃ m, transModule (fun _ => "f.x".toList) demoSig.cenv demoPrims (.fn demoDefs demoMain) = some m :=
  (C59_module_iff _).2 (Option.isSome_iff_exists.1 (by decide +kernel))

example : ∃ m, transModule (fun _ => "f.x".toList) demoSig.cenv demoPrims (.fn demoDefs demoMain) = some m ∧ m.Valid ∧
    lookupExport m "_0__f_x".toList = some (.func 1) := by
  obtain ⟨m, h⟩ := demo_wholeModule
  refine ⟨m, h, C59_valid h, ?_⟩
  have hv := (C59_valid h).names
  obtain ⟨B', e'', fns, xs, he, h1, h2, rfl⟩ := transModule_inv h
  cases he
  cases h2
  exact lookupExport_mem hv (.tail _ (.head _))

/-! ## The specification rejects wrong modules -/

/-- A context with one table, one memory, an immutable and a mutable global, one local. -/
def badCtx : VCtx := ⟨[⟨[.t32], []⟩], [⟨1, none⟩], [⟨1, none⟩], [(false, .t32), (true, .t64)], [.t32], [[]], []⟩

/-- An operand of the wrong type. -/
example (v : Nat) : ¬ Typed badCtx [localGet 0, const (.i64 v), store .t32 0] [] [] := by
  intro h
  cases h with
  | localGet h1 h => cases h with
    | const _ h => cases h

/-- A result left on the stack. -/
example : ¬ Typed badCtx [localGet 0] [] [] := by
  intro h
  cases h with
  | localGet h1 h => cases h

/-- A local that does not exist, an immutable global, a type index out of range. -/
example : ¬ Typed badCtx [localGet 1, globalSet 1] [] [] ∧ ¬ Typed badCtx [localGet 0, globalSet 0] [] [] ∧
    ¬ Typed badCtx [localGet 0, localGet 0, callIndirect 1] [] [] := by
  refine ⟨fun h => ?_, fun h => ?_, fun h => ?_⟩
  · cases h with | localGet h1 _ => simp [badCtx] at h1
  · cases h with | localGet _ h => cases h with | globalSet h1 _ => simp [badCtx] at h1
  · cases h with | localGet _ h => cases h with | localGet _ h =>
      generalize hst : (_ :: _ : List Ty) = st at h
      cases h with | callIndirect _ h1 _ => simp [badCtx] at h1

/-- A branch of a conditional without the declared result. -/
example : ¬ Typed badCtx [localGet 0, ifte [.t32] [localGet 0] [], localSet 0] [] [] := by
  intro h
  cases h with
  | localGet _ h => cases h with | ifte _ h _ => cases h

end Wasm
