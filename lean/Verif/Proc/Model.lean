import Mathlib.Data.List.Basic
import Mathlib.Tactic.Common

/-!
# Running programs from the plugin

`CertiRocq Run` runs the compiled program, and `CertiRocq Eval` runs the C compiler, as a process with three pipes
(plugin/certirocq.ml:431-476, 578-593).  The two sides run at the same time; pipes hold a bounded number of bytes, and a process that writes to a
full pipe waits.

Simplifications: bytes are written one by one (a longer `write` to a pipe waits in between in the same way); the buffer of an OCaml channel is
not bounded (`input_line` collects longer lines from several buffers); the name of the program in front of each message is left out.
-/

namespace Proc

/-- What a process does with its three channels.  `read` stands for reading from the standard input. -/
inductive Act
  | out (c : Char)
  | err (c : Char)
  | read
  deriving DecidableEq

/-- What the reading side is waiting for: `read_line` (certirocq.ml:436-440, 578-582) asks for a line of the standard output; only when
this is at its end it asks for a line of the error output.  `done`: both are at their end. -/
inductive Phase
  | out
  | err
  | done
  deriving DecidableEq

/-- What the user sees (certirocq.ml:584-592): a notice, a warning, or (`execute`, 465-476) an error with a status. -/
inductive Shown
  | notice (l : List Char)
  | warning (l : List Char)
  | failed (n : Nat)
  deriving DecidableEq

/-- The state of the two processes: what the program has still to do, its status once it has ended, the two pipes, the buffers of the two channels,
and what has been read so far (`Feedback`, or the two buffers of `execute`). -/
structure St where
  acts : List Act
  exited : Option Nat
  po : List Char
  pe : List Char
  bo : List Char
  be : List Char
  phase : Phase
  shown : List Shown

/-- `Unix.open_process_full` (certirocq.ml:585, 451). -/
def start (p : List Act) : St := ⟨p, none, [], [], [], [], .out, []⟩

/-- A line at the start of a buffer and what follows it (OCaml's `input_line`). -/
def cut : List Char → Option (List Char × List Char)
  | [] => none
  | c :: cs => if c = '\n' then some ([], cs) else (cut cs).map fun x => (c :: x.1, x.2)

/-- One step of the program or of the loop (certirocq.ml:587-592, 456-461).  `cap` is the capacity of a pipe, `code` the status with which the program ends.
Nothing is written to the standard input, and it is closed after the loop only, so that a program that reads from it waits: `read` has no step. -/
inductive Step (cap code : Nat) : St → St → Prop
  | out (s c as) : s.acts = .out c :: as → s.po.length < cap → Step cap code s { s with acts := as, po := s.po ++ [c] }
  | err (s c as) : s.acts = .err c :: as → s.pe.length < cap → Step cap code s { s with acts := as, pe := s.pe ++ [c] }
  | exit (s) : s.acts = [] → s.exited = none → Step cap code s { s with exited := some code }
  /-- `input_line` takes some bytes from the pipe, if there is no line in the buffer. -/
  | fillOut (s k) : s.phase = .out → cut s.bo = none → 0 < k → k ≤ s.po.length →
      Step cap code s { s with bo := s.bo ++ s.po.take k, po := s.po.drop k }
  | lineOut (s l r) : s.phase = .out → cut s.bo = some (l, r) → Step cap code s { s with bo := r, shown := s.shown ++ [.notice l] }
  /-- The end of the output without a newline. -/
  | lastOut (s) : s.phase = .out → cut s.bo = none → s.bo ≠ [] → s.po = [] → s.exited.isSome →
      Step cap code s { s with bo := [], shown := s.shown ++ [.notice s.bo] }
  /-- `End_of_file`: from now on the error output is read. -/
  | eofOut (s) : s.phase = .out → s.bo = [] → s.po = [] → s.exited.isSome → Step cap code s { s with phase := .err }
  | fillErr (s k) : s.phase = .err → cut s.be = none → 0 < k → k ≤ s.pe.length →
      Step cap code s { s with be := s.be ++ s.pe.take k, pe := s.pe.drop k }
  | lineErr (s l r) : s.phase = .err → cut s.be = some (l, r) → Step cap code s { s with be := r, shown := s.shown ++ [.warning l] }
  | lastErr (s) : s.phase = .err → cut s.be = none → s.be ≠ [] → s.pe = [] → s.exited.isSome →
      Step cap code s { s with be := [], shown := s.shown ++ [.warning s.be] }
  | eofErr (s) : s.phase = .err → s.be = [] → s.pe = [] → s.exited.isSome → Step cap code s { s with phase := .done }

/-- `n` steps. -/
inductive Steps (cap code : Nat) : Nat → St → St → Prop
  | refl (s) : Steps cap code 0 s s
  | tail (n s t u) : Steps cap code n s t → Step cap code t u → Steps cap code (n + 1) s u

/-- `push_line` (certirocq.ml:442-444) for all lines of one kind. -/
def pushLines : List (List Char) → List Char
  | [] => []
  | l :: ls => l ++ '\n' :: pushLines ls

/-- The lines of the standard output. -/
def notices : List Shown → List (List Char)
  | [] => []
  | .notice l :: r => l :: notices r
  | _ :: r => notices r

/-- The lines of the error output. -/
def warnings : List Shown → List (List Char)
  | [] => []
  | .warning l :: r => l :: warnings r
  | _ :: r => warnings r

/-- The result of `execute` (certirocq.ml:448-476) in a final state: the two outputs, or the status. -/
def executeResult (s : St) : Option (Except Nat (List Char × List Char)) :=
  match s.phase, s.exited with
  | .done, some 0 => some (.ok (pushLines (notices s.shown), pushLines (warnings s.shown)))
  | .done, some n => some (.error n)
  | _, _ => none

/-- What the user sees after `run_program` (certirocq.ml:584-593): the status is ignored (593). -/
def runResult (s : St) : Option (List Shown) :=
  match s.phase with
  | .done => some s.shown
  | _ => none

end Proc
