import Verif.Hdr.Model

/-!
# What the user expects of headers
-/

namespace Hdr

/-- What must be declared above a text for it to compile: values.h uses the types of config.h, the collector's header the type `value`, and programs
`value` and `struct thread_info`. -/
def needs : Txt → List Txt
  | .config => []
  | .values => [.config]
  | .gc => [.config, .values]
  | .prog _ => [.config, .values, .gc]
  | .defs _ => [.config, .values, .gc]

/-- A text that compiles: nothing is declared twice, and everything needed is above. -/
structure Compiles (o : List Txt) : Prop where
  once : o.Nodup
  above : ∀ a t b, o = a ++ t :: b → ∀ n ∈ needs t, n ∈ a

/-- Headers of programs can be included in any file, in any order and number, and declare their programs. -/
def HeadersWork (cps : Bool) (ps : List Str) : Prop :=
  ∀ l : List Str, (∀ p ∈ l, p ∈ ps) → ∃ o, userText cps ps l = some o ∧ Compiles o ∧ ∀ p, Txt.prog p ∈ o ↔ p ∈ l

/-- A C file compiles and defines its program. -/
def CFileWorks (cps : Bool) (ps : List Str) (p : Str) : Prop := ∃ o, cText cps ps p = some o ∧ Compiles o ∧ Txt.defs p ∈ o

/-- `gc` and `gc_stack`. -/
def bGc : Str := ['g', 'c']
def bStack : Str := ['g', 'c', '_', 's', 't', 'a', 'c', 'k']

/-- The macros of the headers of the runtime. -/
def taken (cps : Bool) : List Str :=
  [gConfig, gValues, if cps then gGc else gStack]

/-- The name of the runtime's header, without `.h`. -/
def rtName (cps : Bool) : Str := if cps then bGc else bStack

/-- Names of programs that get on with the runtime and with each other: none is that of the runtime's header, and the guards of their headers are
C names, not those of the runtime, and different. -/
structure Apart (cps : Bool) (ps : List Str) : Prop where
  rt : rtName cps ∉ ps
  ident : ∀ p ∈ ps, macroOk (guardOf (hName p)) = true
  free : ∀ p ∈ ps, guardOf (hName p) ∉ taken cps
  apart : ∀ p ∈ ps, ∀ q ∈ ps, guardOf (hName p) = guardOf (hName q) → p = q

end Hdr
