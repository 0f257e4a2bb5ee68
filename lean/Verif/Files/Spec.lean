import Verif.Files.Model

/-!
# What file names and command lines mean

The meaning of a path, of a command line and of the arguments of a C compiler, after their manuals; independent of the plugin.
-/

namespace Files

/-- The components of a path; empty ones and `.` do not count. -/
def compsAux : Str → Str → List Str
  | w, [] => if w = [] ∨ w = ['.'] then [] else [w]
  | w, c :: cs => if c = '/' then (if w = [] ∨ w = ['.'] then [] else [w]) ++ compsAux [] cs else compsAux (w ++ [c]) cs

/-- The components of a path. -/
def comps (p : Str) : List Str := compsAux [] p

/-- The file a path stands for, in directory `cwd`. -/
def resolve (cwd : List Str) (p : Str) : List Str := if p.head? = some '/' then comps p else cwd ++ comps p

/-- A character without special meaning for the shell (those of portable file names, a few more, and all that are not ASCII). -/
def plain (c : Char) : Bool :=
  c.isAlphanum || (c == '_') || (c == '.') || (c == '/') || (c == '-') || (c == '+') || (c == ',') || (c == '=') || (c == ':') || (c == '@') || (c == '%') || (128 ≤ c.toNat)

/-- The words of a command line, for lines of plain characters, blanks and single quotes; `none`: an open quote, or other characters. -/
def shAux : Option Str → Bool → Str → Option (List Str)
  | w, false, [] => some w.toList
  | _, true, [] => none
  | w, false, c :: cs =>
    if c = ' ' then (shAux none false cs).map (w.toList ++ ·)
    else if c = '\'' then shAux (some (w.getD [])) true cs
    else if plain c then shAux (some (w.getD [] ++ [c])) false cs
    else none
  | w, true, c :: cs => if c = '\'' then shAux w false cs else shAux (some (w.getD [] ++ [c])) true cs

/-- The words of a command line. -/
def sh (s : Str) : Option (List Str) := shAux none false s

/-- The file a C compiler writes, given its arguments. -/
def ccOutput : List Str → Option Str
  | [] => none
  | [_] => none
  | a :: b :: r => if a = "-o".toList then some b else if a = "-I".toList ∨ a = "-L".toList then ccOutput r else ccOutput (b :: r)

/-- The files a C compiler reads, given its arguments: those that are not options. -/
def ccInputs : List Str → List Str
  | [] => []
  | [a] => if a.head? = some '-' then [] else [a]
  | a :: b :: r =>
    if a = "-o".toList ∨ a = "-I".toList ∨ a = "-L".toList then ccInputs r
    else if a.head? = some '-' then ccInputs (b :: r)
    else a :: ccInputs (b :: r)

/-- A word: plain, not empty, and no option. -/
structure Word (w : Str) : Prop where
  plain : ∀ c ∈ w, plain c = true
  ne : w ≠ []
  file : w.head? ≠ some '-'

/-- The file named by options: in directory `d`, called `s`. -/
def placed (cwd : List Str) (d s : Str) : List Str := resolve cwd d ++ comps s

/-- The last argument of a kind counts. -/
def lastOf {α : Type} (f : Arg → Option α) (d : α) (l : List Arg) : α := (l.reverse.findSome? f).getD d

end Files
