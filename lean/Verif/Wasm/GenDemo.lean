import Verif.Wasm.GenProps

/-! # A program meeting the hypotheses of the Wasm backend theorems -/

namespace Wasm

/-- A type with constructors `1` (no argument) and `2` (one argument) that share the ordinal 0, and a pair `3`; primitive 9 is
63-bit addition. -/
def demoSig : ANF.Sig where
  cenv := fun t =>
    if t = 1 then some ⟨none, none, 7, 0, 0⟩ else if t = 2 then some ⟨none, none, 7, 1, 0⟩
    else if t = 3 then some ⟨none, none, 8, 2, 0⟩ else none
  prims := fun p ps => match p, ps with
    | 9, [.int a, .int b] => some (.prim (.int (Uint63.add a b)))
    | _, _ => none

/-- The primitives the backend knows. -/
def demoPrims : ANF.Tag → Option Primop := fun p => if p = 9 then some .add else none

/-- `fix f n = match n with O => n | S m => S (f m)`. -/
def demoDefs : ANF.Defs :=
  .cons 10 3 [11] (.case 11 (.cons 1 (.halt 11) (.cons 2 (.proj 12 2 0 11 (.letapp 13 10 3 [12]
    (.constr 14 2 [13] (.halt 14)))) .nil))) .nil

/-- `(f 1, 5 + 7)`. -/
def demoMain : ANF.Exp :=
  .constr 20 1 [] (.constr 21 2 [20] (.primVal 22 (.int 5) (.primVal 23 (.int 7) (.prim 24 9 [22, 23]
    (.letapp 25 10 3 [21] (.constr 26 3 [25, 24] (.halt 26)))))))

theorem demo_ords : OrdOk demoSig.cenv := by
  intro t t' i i' h h' hty har ho
  simp only [demoSig] at h h'
  split at h
  · cases h
    split at h'
    · omega
    · split at h'
      · cases h'; simp at har
      · split at h'
        · cases h'; simp at hty
        · cases h'
  · split at h
    · cases h
      split at h'
      · cases h'; simp at har
      · split at h'
        · omega
        · split at h'
          · cases h'; simp at hty
          · cases h'
    · split at h
      · cases h
        split at h'
        · cases h'; simp at hty
        · split at h'
          · cases h'; simp at hty
          · split at h'
            · omega
            · cases h'
      · cases h

theorem demo_prims : PrimsOk demoSig demoPrims := by
  intro p op ps v h1 h2
  simp only [demoPrims] at h1
  split at h1
  swap
  · cases h1
  cases h1
  rename_i hp
  simp only [demoSig] at h2
  split at h2
  · cases h2
    rename_i a b
    refine ⟨[a, b], _, rfl, rfl, ?_, rfl⟩
    exact Nat.mod_lt _ (by decide)
  · cases h2

theorem demo_input : WasmInput demoSig demoPrims demoDefs demoMain where
  nodup := by decide
  fits := by simp [FitsE, FitsD, FitsB, demoDefs, demoMain, demoSig]
  ords := demo_ords
  prims := demo_prims

/-- The module of the demo. -/
def demoModule : List Func := (transProg demoSig.cenv demoPrims (.fn demoDefs demoMain)).getD []

theorem demo_module : transProg demoSig.cenv demoPrims (.fn demoDefs demoMain) = some demoModule := by
  have h : (transProg demoSig.cenv demoPrims (.fn demoDefs demoMain)).isSome = true := by decide +kernel
  rw [demoModule]
  rcases hp : transProg demoSig.cenv demoPrims (.fn demoDefs demoMain) with _ | fs
  · rw [hp] at h; cases h
  · rfl

theorem demo_returns : ANF.Returns demoSig ANF.emp (.fn demoDefs demoMain)
    (.constr 3 [.constr 2 [.constr 1 []], .prim (.int 12)]) := ⟨2, rfl⟩

/-- An engine that always extends the memory. -/
def demoEngine : Env := ⟨demoModule, maxMemPages, fun _ => true⟩

theorem demo_instance : Instance demoEngine demoModule := ⟨rfl, rfl⟩

/-- All the hypotheses of `C29_result` hold for the demo. -/
example (m0 : Mem) : ∃ main fns s', demoModule = main :: fns ∧ main.params = 0 ∧ Runs demoEngine main.body (initSt m0 main) (.ret s') ∧
    (OutOfMem demoEngine s' ∨ Result demoSig.cenv demoDefs s' (.constr 3 [.constr 2 [.constr 1 []], .prim (.int 12)])) :=
  C29_result demo_input demo_module demo_instance m0 demo_returns

/-- With this engine the module does not run out of memory: the run itself, and the exported result. -/
example : (match demoModule with
    | main :: _ => match exec demoEngine 500 main.body (initSt (fun _ => 0) main) with
      | .ret s => s.globals globOutOfMem == .i32 0 && s.globals globResult == .i32 40 && loadN s.mem 40 4 == 0 &&
          loadN s.mem 44 4 == 32 && loadN s.mem 32 4 == 0 && loadN s.mem 36 4 == 1 && loadN s.mem 48 4 == 24 && loadN s.mem 24 8 == 12
      | _ => false
    | [] => false) = true := by decide +kernel

/-- An engine that never extends the memory, with a module that starts with the memory it needs: the first allocation needs a
free page, so the flag is set. -/
example : (match demoModule with
    | main :: _ => match exec ⟨demoModule, maxMemPages, fun _ => false⟩ 500 main.body (initSt (fun _ => 0) main) with
      | .ret s => s.globals globOutOfMem == .i32 1
      | _ => false
    | [] => false) = true := by decide +kernel

theorem demo_not_wrong : ¬ ANF.GoesWrong demoSig ANF.emp (.fn demoDefs demoMain) := by
  rintro ⟨n, hn⟩
  obtain ⟨k, hk⟩ := demo_returns
  rcases Nat.le_total n k with h | h
  · have := ANF.run_mono (S := demoSig) (ρ := ANF.emp) (e := .fn demoDefs demoMain) h (by rw [hn]; trivial)
    rw [hn, hk] at this; cases this
  · have := ANF.run_mono (S := demoSig) (ρ := ANF.emp) (e := .fn demoDefs demoMain) h (by rw [hk]; trivial)
    rw [hn, hk] at this; cases this

/-- The hypotheses of `C30_no_trap` hold for the demo. -/
example (m0 : Mem) (n : Nat) : ∀ main fns, demoModule = main :: fns → exec demoEngine n main.body (initSt m0 main) ≠ .trap := by
  intro main fns h
  exact C30_no_trap demo_input (h ▸ demo_module) (h ▸ demo_instance) m0 demo_not_wrong n

/-- Without the test of the remaining room a store does trap: a block built at the end of the memory. -/
example : (match exec demoEngine 50 (((storeConstr demoSig.cenv (fun _ => some 0) (fun _ => none) 2 [20]).getD []))
      ⟨fun _ => 0, 1, fun i => if i = globMemPtr then .i32 65532 else .i32 0, [.i32 1], []⟩ with
    | .trap => true | _ => false) = true := by decide +kernel

/-- The restriction check tells a program with too many arguments from one within the limits. -/
example : checkE demoSig.cenv (.fn demoDefs demoMain) = true ∧
    checkE demoSig.cenv (.constr 5 1 [] (.app 4 3 (List.replicate 101 5))) = false ∧
    checkE demoSig.cenv (.constr 5 1 [] (.app 4 3 (List.replicate 100 5))) = true := by decide +kernel

end Wasm
