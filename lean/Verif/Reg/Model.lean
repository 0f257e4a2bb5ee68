import Verif.Src.Link
import Verif.CPrint.NameModel

/-!
# Constants realised by C functions

Models the commands `CertiRocq Register` and `Extract Constants` (plugin/g_certirocq.mlg, plugin/certirocq.ml), the numbering of
primitives (theories/Compiler/pipeline.v) and the tables made from them (LambdaANF/toplevel.v, Codegen/toplevel.v).

Simplifications: the type of a constant is kept as far as it decides the number of arguments; loading a library is the list of
registrations in it; the headers to include are left out.
-/

namespace Reg

open Mut (Name Environ Entry Term)

/-- `primitive` (common/Pipeline_utils.v:19-23); the plugin's `prim` (certirocq.ml:80). -/
structure Prim where
  name : Name
  target : CPrint.Name
  arity : Nat
  alloc : Bool
  deriving DecidableEq

/-- The type of a constant: a product, a let, a defined constant with its body, or anything else. -/
inductive Ty
  | prod (t : Ty)
  | letin (t : Ty)
  | defined (t : Ty)
  | other

/-- `Context.Rel.nhyps` of the context of `Term.decompose_prod_decls` (g_certirocq.mlg:79-81): products are counted, lets are
passed, nothing is unfolded. -/
def Ty.nhyps : Ty → Nat
  | .prod t => t.nhyps + 1
  | .letin t => t.nhyps
  | .defined _ => 0
  | .other => 0

/-- `interp_extract_cnst` (g_certirocq.mlg:70-83). -/
def interp (c : Name) (ty : Ty) (target : CPrint.Name) (arity : Option Nat) (alloc : Bool) : Prim :=
  ⟨c, target, arity.getD ty.nhyps, alloc⟩

/-- `cache_registers` (certirocq.ml:86-88) for the commands of a session, the oldest first. -/
def globals (session : List (List Prim)) : List Prim := session.foldl (fun g ps => ps ++ g) []

/-- `get_global_prims () @ opts.prims` (certirocq.ml:358): all primitives of a compilation. -/
def allPrims (session : List (List Prim)) (clause : List Prim) : List Prim := globals session ++ clause

/-- `pick_prim_ident` (pipeline.v:26-34). -/
def pick (id : Nat) : List Prim → List (Prim × Nat) × Nat
  | [] => ([], id)
  | pr :: prs =>
    let (prs', id') := pick (id + 1) prs
    ((pr, id) :: prs', id')

/-- `next_id` (pipeline.v:82). -/
def firstId : Nat := 100

/-- `register_prims` (pipeline.v:36-38) as `pipeline` calls it (pipeline.v:86-88). -/
def registered (session : List (List Prim)) (clause : List Prim) : List (Prim × Nat) × Nat := pick firstId (allPrims session clause)

/-- What `find_prim` looks at (LambdaBoxMut_to_LambdaBoxLocal.v:34-38). -/
def linkTable (l : List (Prim × Nat)) : List (Name × Nat) := l.map fun x => (x.1.name, x.2)

/-- `make_prim_env` (LambdaANF/toplevel.v:53-54). -/
def primEnv (l : List (Prim × Nat)) : Nat → Option Prim :=
  l.foldl (fun m x => fun p => if p = x.2 then some x.1 else m p) fun _ => none

/-- `prim.(prim_arity)` of the primitive (LambdaBoxLocal_to_LambdaANF.v:323-327, 723-727). -/
def arityOf (l : List (Prim × Nat)) (p : Nat) : Option Nat := (primEnv l p).map (·.arity)

/-- `prim_alloc` of the primitive (LambdaANF_to_Clight_stack.v:1015-1044). -/
def allocOf (l : List (Prim × Nat)) (p : Nat) : Option Bool := (primEnv l p).map (·.alloc)

/-- What `add_prim_names` looks at (Codegen/toplevel.v:37-38). -/
def nameTable (l : List (Prim × Nat)) : List (CPrint.Name × Nat) := l.map fun x => (x.1.target, x.2)

/-- `envClass` (common/AstCommon.v:257-260): a definition, or a type with its number of parameters and the sizes of its bodies;
an axiom is a type without parameters and bodies. -/
inductive Decl
  | trm (t : Term)
  | typ (params : Nat) (bodies : List Nat)

/-- A declaration as linking sees it (LambdaBoxMut_to_LambdaBoxLocal.v:122-128). -/
def Decl.entry : Decl → Entry
  | .trm t => .trm t
  | .typ _ _ => .typ

/-- The environment as linking sees it. -/
def environ (p : List (Name × Decl)) : Environ := p.map fun x => (x.1, x.2.entry)

/-- `find_axioms` (pipeline.v:48-59). -/
def findAxioms (l : List (Prim × Nat)) : List Name → List (Name × Decl) → List Name
  | acc, [] => acc
  | acc, (kn, d) :: p => match d with
    | .trm _ => findAxioms l acc p
    | .typ 0 [] => if (l.find? fun x => kn == x.1.name).isSome then findAxioms l acc p else findAxioms l (kn :: acc) p
    | .typ _ _ => findAxioms l acc p

/-- `check_axioms` (pipeline.v:61-66): true if compilation goes on. -/
def checkAxioms (l : List (Prim × Nat)) (p : List (Name × Decl)) : Bool := (findAxioms l [] p).isEmpty

end Reg
