import Verif.Wasm.PrimPropsWide

/-!
# The hypotheses of the C09 theorems are met

A memory of one page with the integers `2^63 - 1`, `12345` and `7` at the addresses 0, 8 and 16, three local variables
pointing to them, and the allocation pointer at 24.
-/

namespace Wasm

def demoMem : Mem := storeN (storeN (storeN (fun _ => 0) 0 8 (2 ^ 63 - 1)) 8 8 12345) 16 8 7

def demoSt : St where
  mem := demoMem
  pages := 1
  globals := fun i => if i < 4 then .i32 (if i = 0 then 24 else 0) else .i64 0
  locals := [.i32 0, .i32 8, .i32 16]
  stack := []

def demoEnv : Env := ⟨[], 30000, fun _ => true⟩

theorem demo_ready : Ready demoSt 24 := ⟨rfl, rfl, by decide, by decide⟩
theorem demo_arg0 : Arg demoSt 24 0 (2 ^ 63 - 1) := ⟨by decide, 0, rfl, by decide, by decide +kernel⟩
theorem demo_arg1 : Arg demoSt 24 1 12345 := ⟨by decide, 8, rfl, by decide, by decide +kernel⟩
theorem demo_arg2 : Arg demoSt 24 2 7 := ⟨by decide, 16, rfl, by decide, by decide +kernel⟩

example : ∃ is, translatePrimop .add [0, 1] = some is ∧ Computes demoEnv is demoSt 24 (IsInt · · · · 12344) :=
  C09_add demo_ready demo_arg0 demo_arg1

example : ∃ is r, translatePrimop .head0 [1] = some is ∧ Uint63.IsHead0 12345 r ∧ Computes demoEnv is demoSt 24 (IsInt · · · · r) :=
  C09_head0 demo_ready demo_arg1

example : ∃ is, translatePrimop .addc [0, 1] = some is ∧ Computes demoEnv is demoSt 24 (IsCarry · · · · (.C1 12344)) :=
  C09_addc demo_ready demo_arg0 demo_arg1

example : ∃ is, translatePrimop .mulc [0, 1] = some is ∧
    Computes demoEnv is demoSt 24 (IsPair · · · · (12344, 9223372036854763463)) :=
  C09_mulc demo_ready demo_arg0 demo_arg1

example : ∃ is, translatePrimop .diveucl21 [2, 0, 1] = some is ∧
    Computes demoEnv is demoSt 24 (IsPair · · · · (5977073818941936, 6543)) :=
  C09_diveucl21 demo_ready demo_arg2 demo_arg0 demo_arg1

end Wasm
