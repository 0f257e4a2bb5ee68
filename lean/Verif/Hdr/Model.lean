import Mathlib.Data.List.Basic
import Mathlib.Tactic.Common

/-!
# Headers and C files as the C compiler reads them

The files that the plugin writes around a program (plugin/static/printClight.ml:359-377, plugin/certirocq.ml:412-420, 478-500), the headers of the runtime they
include, and the part of the C preprocessor they rely on: `#include` and include guards.

Simplifications: what a file declares is one piece of text each (`Txt`); conditionals other than include guards are left out; runtime/m.h, which
config.h includes inside of its guard, is counted with it; a character stands for a byte; names of programs contain no slash but in `guardOf`; the headers that
the user asks for (`imports`) are left out.
-/

namespace Hdr

/-- Names of files and macros. -/
abbrev Str := List Char

/-- What a file declares besides what it includes: runtime/config.h, runtime/values.h, runtime/gc_stack.h (or gc.h), the header of a program and its C file. -/
inductive Txt
  | config
  | values
  | gc
  | prog (p : Str)
  | defs (p : Str)
  deriving DecidableEq

/-- A line: `#include` with quotes or angle brackets, or text. -/
inductive Line
  | quote (n : Str)
  | angle (n : Str)
  | text (t : Txt)

/-- A file: what precedes the guard, the guard (`#ifndef g`, `#define g`, ..., `#endif`), and what it protects. -/
structure File where
  pre : List Line
  guard : Str
  body : List Line

/-- `[a-zA-Z0-9]` of printClight.ml:360. -/
def alnum (c : Char) : Bool := ('a' ≤ c ∧ c ≤ 'z') ∨ ('A' ≤ c ∧ c ≤ 'Z') ∨ ('0' ≤ c ∧ c ≤ '9')

/-- OCaml's `Char.uppercase_ascii`. -/
def upper (c : Char) : Char := if 'a' ≤ c ∧ c ≤ 'z' then Char.ofNat (c.toNat - 32) else c

/-- `guardify` (printClight.ml:359-360). -/
def guardify (s : Str) : Str := s.map fun c => upper (if alnum c then c else '_')

/-- What follows the last slash (`List.hd (List.rev (String.split_on_char '/' dest))`, printClight.ml:368). -/
def lastPart : Str → Str
  | [] => []
  | c :: s => if '/' ∈ s then lastPart s else if c = '/' then s else c :: s

/-- `guard_name` (printClight.ml:368). -/
def guardOf (dest : Str) : Str := guardify (lastPart dest)

/-- The names of the runtime's headers (runtime/gc_stack.h, gc.h, values.h, config.h) and of their guards. -/
def nStack : Str := ['g', 'c', '_', 's', 't', 'a', 'c', 'k', '.', 'h']
def nGc : Str := ['g', 'c', '.', 'h']
def nValues : Str := ['v', 'a', 'l', 'u', 'e', 's', '.', 'h']
def nConfig : Str := ['c', 'o', 'n', 'f', 'i', 'g', '.', 'h']
def gStack : Str := ['C', 'E', 'R', 'T', 'I', 'R', 'O', 'C', 'Q', '_', 'G', 'C', '_', 'S', 'T', 'A', 'C', 'K', '_', 'H']
def gGc : Str := ['C', 'E', 'R', 'T', 'I', 'R', 'O', 'C', 'Q', '_', 'G', 'C', '_', 'H']
def gValues : Str := ['V', 'A', 'L', 'U', 'E', 'S', '_', 'H']
def gConfig : Str := ['C', 'O', 'N', 'F', 'I', 'G', '_', 'H']

/-- The header of the runtime (certirocq.ml:481). -/
def rtHeader (cps : Bool) : Str := if cps then nGc else nStack

/-- The header of a program and its C file (certirocq.ml:496, 495). -/
def hName (p : Str) : Str := p ++ ['.', 'h']
def cName (p : Str) : Str := p ++ ['.', 'c']

/-- `print_dest_names_imports` (printClight.ml:362-377) for the header of a program (certirocq.ml:500). -/
def headerFile (cps : Bool) (p : Str) : File := ⟨[], guardOf (hName p), [.angle (rtHeader cps), .text (.prog p)]⟩

/-- The same for its C file (certirocq.ml:499). -/
def cFile (cps : Bool) (p : Str) : File := ⟨[], guardOf (cName p), [.angle (rtHeader cps), .quote (hName p), .text (.defs p)]⟩

/-- Where files are: in the directory of the programs or in that of the runtime. -/
inductive Dir
  | build
  | rt

/-- The files: headers of the programs `ps`; runtime/gc_stack.h:1-4, 197, runtime/gc.h:1-4, 160, runtime/values.h:16-19, 224, runtime/config.h:16-19, 148. -/
def files (cps : Bool) (ps : List Str) : Dir → Str → Option File
  | .build, n => (ps.find? fun p => hName p = n).map (headerFile cps)
  | .rt, n =>
    if n = nStack then some ⟨[], gStack, [.quote nValues, .text .gc]⟩
    else if n = nGc then some ⟨[.quote nValues], gGc, [.text .gc]⟩
    else if n = nValues then some ⟨[], gValues, [.quote nConfig, .text .values]⟩
    else if n = nConfig then some ⟨[], gConfig, [.text .config]⟩
    else none

/-- A file by its directory and name. -/
abbrev FS := Dir → Str → Option File

/-- The search for `#include <n>`: the directories of `-I` in the order of the command (certirocq.ml:612-615). -/
def findAngle (fs : FS) (n : Str) : Option (Dir × File) :=
  match fs .build n with
  | some f => some (.build, f)
  | none => (fs .rt n).map fun f => (.rt, f)

/-- The search for `#include "n"`: the directory of the including file first. -/
def findQuote (fs : FS) (d : Dir) (n : Str) : Option (Dir × File) :=
  match fs d n with
  | some f => some (d, f)
  | none => findAngle fs n

/-- A macro name that the preprocessor accepts: it does not begin with a digit (the other characters are right in all names used here). -/
def macroOk : Str → Bool
  | [] => false
  | c :: _ => !('0' ≤ c ∧ c ≤ '9')

/-- The text of some lines and the macros defined behind them; `inc` reads an included file. -/
def ppLines (inc : List Str → Dir × File → Option (List Txt × List Str)) (fs : FS) (d : Dir) : List Line → List Str → Option (List Txt × List Str)
  | [], m => some ([], m)
  | .text t :: r, m => (ppLines inc fs d r m).map fun x => (t :: x.1, x.2)
  | .angle n :: r, m => match findAngle fs n with
    | none => none
    | some f => match inc m f with
      | none => none
      | some (o, m') => (ppLines inc fs d r m').map fun x => (o ++ x.1, x.2)
  | .quote n :: r, m => match findQuote fs d n with
    | none => none
    | some f => match inc m f with
      | none => none
      | some (o, m') => (ppLines inc fs d r m').map fun x => (o ++ x.1, x.2)

/-- A file: its guard must be a name; what it protects is left out if the guard is defined. -/
def ppWith (inc : List Str → Dir × File → Option (List Txt × List Str)) (fs : FS) (m : List Str) (f : Dir × File) : Option (List Txt × List Str) :=
  match ppLines inc fs f.1 f.2.pre m with
  | none => none
  | some (o, m') =>
    if macroOk f.2.guard = false then none
    else if f.2.guard ∈ m' then some (o, m')
    else (ppLines inc fs f.1 f.2.body (f.2.guard :: m')).map fun x => (o ++ x.1, x.2)

/-- A file, with at most `n` files included in each other. -/
def ppFile (fs : FS) : Nat → List Str → Dir × File → Option (List Txt × List Str)
  | 0, _, _ => none
  | n + 1, m, f => ppWith (ppFile fs n) fs m f

/-- A file of the user that includes the headers `l` of programs, and the C file of a program.  200 is the limit of GCC for the nesting. -/
def userText (cps : Bool) (ps l : List Str) : Option (List Txt) :=
  (ppLines (ppFile (files cps ps) 200) (files cps ps) .build (l.map fun p => .quote (hName p)) []).map (·.1)
def cText (cps : Bool) (ps : List Str) (p : Str) : Option (List Txt) := (ppFile (files cps ps) 201 [] (.build, cFile cps p)).map (·.1)

end Hdr
