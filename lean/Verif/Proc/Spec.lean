import Verif.Proc.Model

/-!
# What running a program should show

Independent of how it is read: the lines of what the program writes.
-/

namespace Proc

/-- What the program writes to the standard output. -/
def outs (p : List Act) : List Char := p.filterMap fun a => match a with | .out c => some c | _ => none

/-- What the program writes to the error output. -/
def errs (p : List Act) : List Char := p.filterMap fun a => match a with | .err c => some c | _ => none

/-- The lines of a text; a newline ends a line, and the last line may lack one. -/
def lines : List Char → List (List Char)
  | [] => []
  | c :: cs => if c = '\n' then [] :: lines cs else match lines cs with
    | [] => [[c]]
    | l :: ls => (c :: l) :: ls

/-- A text ends with a newline, if it is not empty. -/
def ended (t : List Char) : List Char := if t = [] ∨ t.getLast? = some '\n' then t else t ++ ['\n']

/-- The program does not ask for input. -/
def NoInput (p : List Act) : Prop := Act.read ∉ p

/-- What should be shown of the outputs: each line of the standard output as a notice, each line of the error output as a warning. -/
def expected (p : List Act) : List Shown := (lines (outs p)).map .notice ++ (lines (errs p)).map .warning

end Proc
