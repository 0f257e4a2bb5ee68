import Verif.Runtime.AllocModel
import Verif.Proc.Model
import Verif.Bnd.Model

/-!
# Messages of programs

plugin/RocqMsgFFI.v declares four functions by which a Gallina program shows messages or stops with an error.  Compiled into an executable they are those of
runtime/rocq_c_ffi.c; in a program loaded by `CertiRocq Eval` those of runtime/rocq_ffi.c, which call back into the plugin (plugin/certirocq.ml:197-216).

Simplifications: the C library's buffer for the standard output is left out (it is written at the latest when the program ends, before its error output is closed, and C72
orders nothing between the two outputs); in `Eval` the messages reach the user with their level (the display of debug messages can be turned off in Rocq).
-/

namespace Msg

open Proc (Act)

/-- The four functions (RocqMsgFFI.v:4-7). -/
inductive Kind
  | info
  | notice
  | debug
  | error
  deriving DecidableEq

/-- `fputs` (C11 7.21.7.4): the bytes up to the first zero; `none` if there is none in the buffer (undefined behaviour). -/
def fputs (w : Char → Act) : List Nat → Option (List Act)
  | [] => none
  | b :: bs => if b = 0 then some [] else (fputs w bs).map (w (Char.ofNat b) :: ·)

/-- `puts` (C11 7.21.7.9): to the standard output, with a newline. -/
def puts (bs : List Nat) : Option (List Act) := (fputs .out bs).map (· ++ [.out '\n'])

/-- What a call of one of the functions does to the channels, and the value it returns; `none` for the value: the process has exited with status 1. -/
structure Effect where
  acts : List Act
  value : Option Nat

/-- `rocq_msg_info` (rocq_c_ffi.c:36-41), `rocq_user_error` (43-48), `rocq_msg_debug` (50-55), `rocq_msg_notice` (57-62), for the string at `p`. -/
def call (malloc : Nat → Option (List Nat)) (m : Nat → Nat) (fuel : Nat) (k : Kind) (p : Nat) : Option Effect :=
  (RT.stringOfCoqString malloc m fuel p).bind fun str => match k with
    | .info => (puts str).map fun a => ⟨a, some 1⟩
    | .error => (fputs .err str).map fun a => ⟨a, none⟩
    | .debug => (fputs .out str).map fun a => ⟨a, some 1⟩
    | .notice => (fputs .out str).map fun a => ⟨a, some 1⟩

/-- The calls of a program one after the other, with the memory at each of them: what it does, and its status.  After the program the driver writes a line with the
time it took, and returns 0 (runtime/certirocq_run_main.c:22-33); `time` is this line, without its newline. -/
def run (time : List Char) (malloc : Nat → Option (List Nat)) : List (Kind × (Nat → Nat) × Nat × Nat) → Option (List Act × Nat)
  | [] => some ((time ++ ['\n']).map .out, 0)
  | (k, m, fuel, p) :: cs => match call malloc m fuel k p with
    | none => none
    | some ⟨a, none⟩ => some (a, 1)
    | some ⟨a, some _⟩ => (run time malloc cs).map fun r => (a ++ r.1, r.2)

/-- The calls in a program run by `CertiRocq Eval` (rocq_ffi.c:3-61, certirocq.ml:197-216): the callbacks get the Rocq string itself, which has the
representation of OCaml, and convert it; the error is an exception, which leaves the program. -/
def eval (junk : Nat → Nat) : List (Kind × List Nat) → Option (List (Kind × List Nat))
  | [] => some []
  | (k, s) :: cs => (Bnd.camlString junk s).bind fun t => match k with
    | .error => some [(.error, t)]
    | k => (eval junk cs).map ((k, t) :: ·)

end Msg
