import Verif.CPrint.Model

/-!
# The names in C files: LambdaANF_to_Clight_stack.v, Codegen/toplevel.v, plugin/static/printClight.ml and camlrocq.ml

The table `string_of_atom` is global and keeps the names of programs compiled earlier in the same session: `finalTable` is the table of
the first program, `sessionTable` that of a later one.
-/

namespace CPrint

/-- `name_env`: `none` for an identifier that is not in the table, `some none` for `nAnon`. -/
abbrev NEnv := Nat → Option (Option Name)

/-- `M.set`. -/
def NEnv.set (m : NEnv) (x : Nat) (n : Name) : NEnv := fun y => if y = x then some (some n) else m y

/-- `ensure_unique` (LambdaANF_to_Clight_stack.v:1366-1371). -/
def ensureUnique (m : NEnv) : NEnv := fun x => (m x).map fun n => n.map (· ++ '_' :: Nat.toDigits 10 x)

/-- `update_name_env_fun_info` (LambdaANF_to_Clight_stack.v:1208-1215): the name of the table of a function. -/
def NEnv.addInfo (m : NEnv) (f inf : Nat) : NEnv := match m f with
  | none => m.set inf (Nat.toDigits 10 f ++ "_info".toList)
  | some none => m.set inf ('x' :: Nat.toDigits 10 f ++ "_info".toList)
  | some (some s) => m.set inf (s ++ "_info".toList)

/-- `inf_vars` (LambdaANF_to_Clight_stack.v:1339-1360) with the identifiers of Codegen/toplevel.v:9-33; `compile` is given
`rootIdent` for `rootFld` (toplevel.v:66). -/
def infVars (body : Name) : List (Nat × Name) :=
  [(82, "is_ptr".toList), (26, "args".toList), (28, "alloc".toList), (92, "nalloc".toList), (29, "limit".toList),
    (80, "garbage_collect".toList), (81, "main".toList), (90, body), (31, "thread_info".toList), (91, "tinfo".toList),
    (95, "heap".toList), (83, "arg".toList), (97, "num_args".toList), (78, "stack_frame".toList), (79, "frame".toList),
    (84, "roots".toList), (86, "fp".toList), (87, "next".toList), (84, "root".toList), (89, "prev".toList),
    (93, "result".toList)]

/-- A sequence of `M.set`. -/
def NEnv.setAll (m : NEnv) (l : List (Nat × Name)) : NEnv := l.foldl (fun m p => m.set p.1 p.2) m

/-- The names `compile` returns (LambdaANF_to_Clight_stack.v:1363-1364, 1487-1491). -/
def compileNames (body : Name) (m : NEnv) : NEnv := ((ensureUnique m).setAll (infVars body)).set 20 "make_tinfo".toList

/-- `add_prim_names` (Codegen/toplevel.v:38-39). -/
def addPrimNames (prims : List (Name × Nat)) (m : NEnv) : NEnv := m.setAll (prims.map fun p => (p.2, p.1))

/-- `remove_primes` (printClight.ml:340-346). -/
def removePrimes (s : Name) : Name := (s.map fun c => if c = '\'' then 'p' else c).map fun c => if c = '.' then 'd' else c

/-- `string_of_atom` after `add_name` (printClight.ml:330-338) for all names. -/
def atomTable (m : NEnv) : Nat → Option Name := fun x => match m x with
  | some (some s) => some (removePrimes s)
  | _ => none

/-- `extern_atom` (camlrocq.ml:377-382). -/
def externAtom (t : Nat → Option Name) (x : Nat) : Name := (t x).getD ('x' :: Nat.toDigits 10 x)

/-- `temp_name` (printClight.ml:34-38). -/
def tempAtom (t : Nat → Option Name) (x : Nat) : Name := '$' :: (t x).getD (Nat.toDigits 10 x)

/-- The table used when the program is printed. -/
def finalTable (body : Name) (prims : List (Name × Nat)) (m : NEnv) : Nat → Option Name :=
  atomTable (addPrimNames prims (compileNames body m))

/-- `string_of_atom` when it had the entries `t` before: `Hashtbl.add` hides older entries, and nothing is added for `nAnon`
(printClight.ml:330-338). -/
def atomTableAfter (t : Nat → Option Name) (m : NEnv) : Nat → Option Name := fun x => match m x with
  | some (some s) => some (removePrimes s)
  | _ => t x

/-- The table used for a program compiled later in a session. -/
def sessionTable (t : Nat → Option Name) (body : Name) (prims : List (Name × Nat)) (m : NEnv) : Nat → Option Name :=
  atomTableAfter t (addPrimNames prims (compileNames body m))

end CPrint
