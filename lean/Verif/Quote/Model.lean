/-!
# Quoted programs given to compiled programs (`bootstrap/certirocqc/certirocqc_plugin_wrapper.ml`, `bootstrap/certirocqchk/certirocqchk_plugin_wrapper.ml`)

OCaml programs drop the proof fields of records that have one other field; compiled programs do not. The two files put these fields back into quoted programs before
they call the compiled program. They are the same but for the literals (lines 80-82 of the first one).

Simplifications: names, numbers, universe instances and other parts without such records are numbers; OCaml's exceptions are `none`.
-/

namespace Quote

/-- OCaml values in the place of sets and universes: a value of OCaml's own, an integer, a block with tag 0 and two fields. -/
inductive Ob
  | raw (n : Nat)
  | int (n : Nat)
  | pair (a b : Ob)
  deriving DecidableEq

/-- `Sort.t` with `Coq_sProp`, `Coq_sSProp` and `Coq_sType`. -/
inductive Srt
  | sprop
  | ssprop
  | stype (u : Ob)
  deriving DecidableEq

mutual
/-- `Ast0.term`; `atom` stands for `tRel`, `tVar`, `tConst`, `tInd` and `tConstruct`. -/
inductive Tm
  | atom (n : Nat)
  | evar (k : Nat) (l : Tms)
  | sort (u : Srt)
  | cast (t : Tm) (k : Nat) (t' : Tm)
  | prod (na : Nat) (t t' : Tm)
  | lam (na : Nat) (t t' : Tm)
  | letin (na : Nat) (t b t' : Tm)
  | app (t : Tm) (l : Tms)
  | case (ci : Nat) (pinst : Nat) (pparams : Tms) (pcontext : Nat) (preturn : Tm) (c : Tm) (brs : Brs)
  | proj (p : Nat) (t : Tm)
  | fix (l : Dfs) (i : Nat)
  | cofix (l : Dfs) (i : Nat)
  | int (i : Nat)
  | float (f : Nat)
  | str (s : Nat)
  | array (u : Nat) (v : Tms) (d ty : Tm)
/-- Lists of terms. -/
inductive Tms
  | nil
  | cons (t : Tm) (l : Tms)
/-- Branches: `bcontext` and `bbody`. -/
inductive Brs
  | nil
  | cons (ctx : Nat) (t : Tm) (l : Brs)
/-- Definitions: `dname`, `dtype`, `dbody`, `rarg`. -/
inductive Dfs
  | nil
  | cons (na : Nat) (ty body : Tm) (rarg : Nat) (l : Dfs)
end

/-- `context_decl`. -/
structure Decl where
  name : Nat
  body : Option Tm
  type : Tm
/-- `constructor_body`. -/
structure Ctor where
  name : Nat
  args : List Decl
  indices : List Tm
  type : Tm
  arity : Nat
/-- `projection_body`. -/
structure Proj where
  name : Nat
  relevance : Nat
  type : Tm
/-- `one_inductive_body`. -/
structure Body where
  name : Nat
  indices : List Decl
  sort : Srt
  type : Tm
  kelim : Nat
  ctors : List Ctor
  projs : List Proj
  relevance : Nat
/-- `universes_decl`. -/
inductive UDecl
  | mono
  | poly (names : Nat) (set : Ob)
/-- `global_decl` with its name. -/
inductive Glob
  | const (kn : Nat) (type : Tm) (body : Option Tm) (univ : UDecl) (relevance : Nat)
  | ind (kn : Nat) (finite npars : Nat) (params : List Decl) (bodies : List Body) (univ : UDecl) (variance : Nat)
/-- `Ast0.Env.program`. -/
structure Prog where
  levels : Ob
  cstrs : Ob
  decls : List Glob
  retro : Nat
  term : Tm

/-- `fix_set` (certirocqc_plugin_wrapper.ml:35-41). -/
def fixSet (u : Ob) : Ob := .pair u (.int 1)

/-- `fix_universe` (certirocqc_plugin_wrapper.ml:43-62). -/
def fixUniverse : Srt → Srt
  | .sprop => .sprop
  | .ssprop => .ssprop
  | .stype neues => .stype (.pair (.pair neues (.int 1)) (.int 1))

mutual
/-- `fix_term` (certirocqc_plugin_wrapper.ml:64-90; certirocqchk_plugin_wrapper.ml:64-87 if `chk`, without the lines for literals). -/
def fixTerm (chk : Bool) : Tm → Option Tm
  | .atom n => some (.atom n)
  | .evar k l => do some (.evar k (← fixTerms chk l))
  | .sort u => some (.sort (fixUniverse u))
  | .cast t k t' => do some (.cast (← fixTerm chk t) k (← fixTerm chk t'))
  | .prod na t t' => do some (.prod na (← fixTerm chk t) (← fixTerm chk t'))
  | .lam na t t' => do some (.lam na (← fixTerm chk t) (← fixTerm chk t'))
  | .letin na t b t' => do some (.letin na (← fixTerm chk t) (← fixTerm chk b) (← fixTerm chk t'))
  | .app t l => do some (.app (← fixTerm chk t) (← fixTerms chk l))
  | .case ci pi ps pc r c brs => do some (.case ci pi (← fixTerms chk ps) pc (← fixTerm chk r) (← fixTerm chk c) (← fixBranches chk brs))
  | .proj p t => do some (.proj p (← fixTerm chk t))
  | .fix l i => do some (.fix (← fixDefs chk l) i)
  | .cofix l i => do some (.cofix (← fixDefs chk l) i)
  | .int i => if chk then none else some (.int i)
  | .float f => if chk then none else some (.float f)
  | .str s => if chk then none else some (.str s)
  | .array u v d ty => do some (.array u (← fixTerms chk v) (← fixTerm chk d) (← fixTerm chk ty))
/-- `map aux`. -/
def fixTerms (chk : Bool) : Tms → Option Tms
  | .nil => some .nil
  | .cons t l => do some (.cons (← fixTerm chk t) (← fixTerms chk l))
/-- `map aux_branch` (certirocqc_plugin_wrapper.ml:86-87). -/
def fixBranches (chk : Bool) : Brs → Option Brs
  | .nil => some .nil
  | .cons c t l => do some (.cons c (← fixTerm chk t) (← fixBranches chk l))
/-- `map aux_def` (certirocqc_plugin_wrapper.ml:88-89). -/
def fixDefs (chk : Bool) : Dfs → Option Dfs
  | .nil => some .nil
  | .cons na ty b r l => do some (.cons na (← fixTerm chk ty) (← fixTerm chk b) r (← fixDefs chk l))
end

/-- `option_map fix_term` (certirocqc_plugin_wrapper.ml:92-95). -/
def fixOption (chk : Bool) : Option Tm → Option (Option Tm)
  | none => some none
  | some t => do some (some (← fixTerm chk t))

/-- `List.map`, with exceptions. -/
def mapL {α : Type} (f : α → Option α) : List α → Option (List α)
  | [] => some []
  | x :: l => do some ((← f x) :: (← mapL f l))

/-- `fix_rel_context` (certirocqc_plugin_wrapper.ml:97-102). -/
def fixDecl (chk : Bool) (d : Decl) : Option Decl := do some ⟨d.name, ← fixOption chk d.body, ← fixTerm chk d.type⟩
def fixContext (chk : Bool) (l : List Decl) : Option (List Decl) := mapL (fixDecl chk) l

/-- `fix_universes_decl` (certirocqc_plugin_wrapper.ml:104-106). -/
def fixUDecl : UDecl → UDecl
  | .mono => .mono
  | .poly names set => .poly names (fixSet set)

/-- `fix_constructor` (certirocqc_plugin_wrapper.ml:113-117). -/
def fixCtor (chk : Bool) (c : Ctor) : Option Ctor := do
  some ⟨c.name, ← fixContext chk c.args, ← mapL (fixTerm chk) c.indices, ← fixTerm chk c.type, c.arity⟩

/-- `fix_projection` (certirocqc_plugin_wrapper.ml:119-120). -/
def fixProj (chk : Bool) (p : Proj) : Option Proj := do some ⟨p.name, p.relevance, ← fixTerm chk p.type⟩

/-- `fix_ind_body` (certirocqc_plugin_wrapper.ml:122-127). -/
def fixBody (chk : Bool) (b : Body) : Option Body := do
  some ⟨b.name, ← fixContext chk b.indices, fixUniverse b.sort, ← fixTerm chk b.type, b.kelim, ← mapL (fixCtor chk) b.ctors, ← mapL (fixProj chk) b.projs,
    b.relevance⟩

/-- `fix_decl` (certirocqc_plugin_wrapper.ml:129-139). -/
def fixGlob (chk : Bool) : Glob → Option Glob
  | .const kn ty b u r => do some (.const kn (← fixTerm chk ty) (← fixOption chk b) (fixUDecl u) r)
  | .ind kn f n ps bs u v => do some (.ind kn f n (← fixContext chk ps) (← mapL (fixBody chk) bs) (fixUDecl u) v)

/-- `fix_quoted_program` (certirocqc_plugin_wrapper.ml:108-109, 141-148). -/
def fixProgram (chk : Bool) (p : Prog) : Option Prog := do
  let term ← fixTerm chk p.term
  let decls ← mapL (fixGlob chk) p.decls
  some ⟨fixSet p.levels, fixSet p.cstrs, decls, p.retro, term⟩

end Quote
