import Verif.CGen.HostModel
import Verif.Runtime.GmpModel

/-!
# Case distinction on large natural numbers

`z_nat_case` (runtime/certirocq_gmp.c), which is called by compiled code and calls compiled functions with `closure_call` (runtime/gc_stack.c).

Simplifications: numbers that GMP has allocated are a map from words to integers; the word that `malloc` gives is a parameter.
-/

namespace CGen

open ANF (Var)
open Gmp (GInt)

/-- `closure_call` (runtime/gc_stack.c:558-567): `f = clo->func; env = clo->env; return f(tinfo, env, arg)`. -/
def closureFun : CFun where
  name := 0
  params := [callClo, callArg]
  rootSize := 0
  body := .seq (.set callCode (.field callClo 0)) (.seq (.set callEnv (.field callClo 1))
    (.seq (.call callTmp (.temp callCode) [.temp callEnv, .temp callArg]) (.ret (.temp callTmp))))

/-- A `gmp_int`: `Is_long`, or `MPZ_val` of the block (certirocq_gmp.c:20). -/
def gmpRead (mpz : Nat → Option Int) (mem : Nat → Option CVal) : CVal → Option GInt
  | .int w => some (.long w)
  | .ptr p => match mem p with
    | some (.raw q) => (mpz q).map .big
    | _ => none
  | _ => none

/-- A value, the numbers of GMP and the thread, or no value. -/
inductive PRes
  | ok (c : CVal) (mpz : Nat → Option Int) (h : Th)
  | abort
  | ub

/-- `mk_gmp_int` (certirocq_gmp.c:55-78) of the number at `q`: two words, header `No_scan_tag | (1 << 10)`. -/
def mkGmp (W : World) (mpz : Nat → Option Int) (q : Nat) (h : Th) : PRes :=
  match reserve W 2 h with
  | .ok h' => match storeAll h'.alloc [.int 1275, .raw q] h' with
    | some h'' => .ok (.ptr (h'.alloc + 1)) mpz { h'' with alloc := h'.alloc + 2 }
    | none => .ub
  | .abort => .abort
  | .ub => .ub

/-- `z_nat_pred` (certirocq_gmp.c:143-152); `gmp_nat_pred` (135-141) puts a number that is not zero at `q`. -/
def natPredC (W : World) (mpz : Nat → Option Int) (q : Nat) (g : GInt) (h : Th) : PRes :=
  match Gmp.natPred g with
  | .long w => .ok (.int w) mpz h
  | .big z => mkGmp W (fun a => if a = q then some z else mpz a) q h

/-- `z_nat_case` (certirocq_gmp.c:154-164); `z_nat_case_untyped_erasure` (166-176) is the same with an argument that is not used. -/
def natCase (W : World) (call : Nat → Var → List CVal → Th → Out) (mpz : Nat → Option Int) (q d : Nat) (discr zero succ : CVal) (h : Th) : Out :=
  match gmpRead mpz h.mem discr with
  | none => .ub
  | some g => if Gmp.isZero g = true then enter W call closureFun d [zero, discr] h
    else match natPredC W mpz q g h with
      | .ok c _ h' => enter W call closureFun d [succ, c] h'
      | .abort => .abort
      | .ub => .ub

end CGen
