import Mathlib.Data.List.Basic
import Mathlib.Tactic.Common

/-!
# The files and commands of the plugin

plugin/certirocq.ml:220-317 (options), 428-429, 478-513, 517-548 (files), 584-645 (`CertiRocq Run`), 801-892 (`CertiRocq Eval`), 945-1036.

Simplifications: whether a directory exists is left out (`check_build_dir`, 260-269); options that name no file are left out, but for
`-cps`, `-args` and `-O`.
-/

namespace Files

/-- Names of files. -/
abbrev Str := List Char

/-- `command_args` (certirocq.ml:220-236). -/
inductive Arg
  | cps
  | opt (n : Nat)
  | args (n : Nat)
  | buildDir (s : Str)
  | ext (s : Str)
  | toplevel (s : Str)
  | filename (s : Str)

/-- `options` (certirocq.ml:238-258). -/
structure Opts where
  cps : Bool
  olevel : Nat
  args : Nat
  buildDir : Str
  filename : Str
  ext : Str
  toplevel : Str

/-- `check_build_dir` (certirocq.ml:260-269) for a directory that exists. -/
def checkBuildDir (d : Str) : Str := if d = [] then ['.'] else d

/-- `default_options` (certirocq.ml:271-291); `d` is the directory set by the option `CertiRocq Build Directory`. -/
def defaultOptions (d : Option Str) : Opts :=
  ⟨false, 1, 5, (d.map checkBuildDir).getD ['.'], [], [], ['b', 'o', 'd', 'y']⟩

/-- A step of `make_options` (certirocq.ml:294-314). -/
def setArg (o : Opts) : Arg → Opts
  | .cps => { o with cps := true }
  | .opt n => { o with olevel := n }
  | .args n => { o with args := n }
  | .buildDir s => { o with buildDir := checkBuildDir s }
  | .ext s => { o with ext := s }
  | .toplevel s => { o with toplevel := s }
  | .filename s => { o with filename := s }

/-- `make_options` (certirocq.ml:293-317). -/
def makeOptions (d : Option Str) (l : List Arg) (fname : Str) : Opts := l.foldl setArg { defaultOptions d with filename := fname }

/-- OCaml's `Filename.concat`. -/
def concat (d s : Str) : Str := if d = [] ∨ d.getLast? = some '/' then d ++ s else d ++ '/' :: s

/-- `make_fname` (certirocq.ml:428-429). -/
def makeFname (o : Opts) (s : Str) : Str := concat o.buildDir s

/-- The C file and the header of `compile` (certirocq.ml:493-500). -/
def cFile (o : Opts) : Str := makeFname o (o.filename ++ o.ext ++ ['.', 'c'])
def hFile (o : Opts) : Str := makeFname o (o.filename ++ o.ext ++ ['.', 'h'])

/-- The file of `Show IR` (certirocq.ml:954-957). -/
def irFile (o : Opts) : Str := makeFname o o.filename ++ o.ext ++ ['.', 'i', 'r']

/-- The C file of `Generate Glue` (certirocq.ml:533-540, `standalone`). -/
def glueFile (o : Opts) : Str := makeFname o (o.filename ++ ['.', 'c'])

/-- The file of `Compile Wasm` (certirocq.ml:981-984). -/
def wasmFile (o : Opts) : Str := o.filename ++ o.ext ++ ['.', 'w', 'a', 's', 'm']

/-- The C file of `FFI` (certirocq.ml:1027-1031); `name` is the name of the type. -/
def ffiFile (name : Str) (o : Opts) : Str := ['f', 'f', 'i', '.'] ++ name ++ o.ext ++ ['.', 'c']

/-- `name` in `compile_C` (certirocq.ml:607-609). -/
def runName (o : Opts) : Str := makeFname o (o.filename ++ o.ext)

/-- The path run by `run_program` (certirocq.ml:585). -/
def execPath (o : Opts) : Str := '.' :: '/' :: runName o

/-- The C file that `write_c_driver` completes and that is compiled (certirocq.ml:807-818, 844-855). -/
def evalDriver (o : Opts) : Str := makeFname o (o.filename ++ ['.', 'c'])

/-- Pieces of a format separated by blanks, and `String.concat " "`. -/
def unwords : List Str → Str
  | [] => []
  | [w] => w
  | w :: ws => w ++ ' ' :: unwords ws

/-- The command that compiles the C file (certirocq.ml:612-615); `cc` is the compiler, `rt` the directory of the runtime. -/
def ccCmd (cc rt : Str) (o : Opts) : Str :=
  unwords [cc, "-fPIC".toList, "-Wno-everything".toList, "-O2".toList, "-fomit-frame-pointer".toList, "-g".toList, "-I".toList, o.buildDir, "-I".toList, rt,
    "-c".toList, "-o".toList, runName o ++ ['.', 'o'], runName o ++ ['.', 'c']]

/-- The command that links (certirocq.ml:635-638); `objs` are the objects of the runtime, among them gc_stack.o and certirocq_run_main.o (616-631), and of the
files to include. -/
def linkCmd (cc rt gc : Str) (objs : List Str) (o : Opts) : Str :=
  unwords ([cc, "-fPIC".toList, "-Wno-everything".toList, "-g".toList, "-L".toList, o.buildDir, "-L".toList, rt, "-o".toList, runName o, gc, runName o ++ ['.', 'o']] ++ objs)

/-- The function that the program defines (`toplevel_name`, certirocq.ml:359), and the one that runtime/certirocq_run_main.c:6, 22 calls. -/
def definedMain (o : Opts) : Str := o.toplevel
def calledMain : Str := ['b', 'o', 'd', 'y']

/-- The runtime. -/
inductive Runtime
  | gc
  | gcStack
  deriving DecidableEq

/-- The header included by the C file (certirocq.ml:481), and the object that is linked (certirocq.ml:631). -/
def headerOf (o : Opts) : Runtime := if o.cps then .gc else .gcStack
def linkedRuntime (_ : Opts) : Runtime := .gcStack

end Files
