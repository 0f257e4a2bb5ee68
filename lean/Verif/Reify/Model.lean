import Verif.CGen.Clight

/-!
# Reading results back: `CertiRocq Eval`

The function `reify` of plugin/certirocq.ml, which turns the value returned by the compiled program into a Rocq term.  Simplifications: the
arguments of constructors do not depend on each other (types are inductive types applied to types, and primitive types), universes are left
out; terms and types have inductive types by number.
-/

namespace Reify

open CGen (CVal)

/-- Types, as `check_reifyable` (plugin/certirocq.ml:680-692) tells them apart: an inductive type applied to parameters and indices, a primitive type,
or another type (`other`: functions, sorts); `param` refers to a parameter in a declaration. -/
inductive Ty
  | ind (i : Nat) (args : List Ty)
  | param (k : Nat)
  | int
  | float
  | str
  | array
  | other
  deriving Repr

mutual
/-- Parameters replaced: the instantiation of constructors in `get_constructors env indfam` (plugin/certirocq.ml:757-758). -/
def Ty.subst (ps : List Ty) : Ty → Ty
  | .ind i args => .ind i (Ty.substs ps args)
  | .param k => ps.getD k .other
  | t => t
/-- The same for lists. -/
def Ty.substs (ps : List Ty) : List Ty → List Ty
  | [] => []
  | t :: ts => t.subst ps :: Ty.substs ps ts
end

/-- A declaration in `cs_args`: an argument of a constructor, or a `let` among them. -/
structure Decl where
  isLet : Bool
  ty : Ty

/-- An inductive type: `npars` (`inductive_params`, plugin/certirocq.ml:755) and for each constructor `cs_args`. -/
structure IDecl where
  npars : Nat
  ctors : List (List Decl)

/-- Inductive types by number. -/
abbrev Env := Nat → Option IDecl

/-- `inductives_mapping` (plugin/certirocq.ml:109-110), without the names: for an inductive type a list of constructors. -/
abbrev Mapping := List (Nat × List Nat)

/-- `Constr.t`, as far as it is built: a constructor (counted from 0) applied to parameters and arguments, or a primitive constant. -/
inductive Term
  | con (i c : Nat) (ps : List Ty) (ts : List Term)
  | int (n : Nat)
  | float (b : Nat)
  | str (s : List Nat)

/-- Outcomes: a term, the anomaly of `ill_formed` (694-703), another error, out of time, memory read that does not hold what is expected. -/
inductive Res (α : Type)
  | ok (a : α)
  | illFormed
  | error
  | oot
  | ub

/-- Sequencing of outcomes. -/
def Res.bind {α β : Type} : Res α → (α → Res β) → Res β
  | .ok a, f => f a
  | .illFormed, _ => .illFormed
  | .error, _ => .error
  | .oot, _ => .oot
  | .ub, _ => .ub

/-- The loop of `find_nth_constant` and `find_nth_non_constant` (660-678): `i` the position, `k` the number of constructors with `p` before. -/
def findAux (p : List Decl → Bool) (n : Int) : List (List Decl) → Nat → Nat → Option Nat
  | [], _, _ => none
  | c :: cs, i, k => if p c = true then if (k : Int) = n then some i else findAux p n cs (i + 1) (k + 1) else findAux p n cs (i + 1) k

/-- `find_nth_constant` (660-668). -/
def findNthConstant (n : Int) (cs : List (List Decl)) : Option Nat := findAux (fun c => c.isEmpty) n cs 0 0

/-- `find_nth_non_constant` (670-678). -/
def findNthNonConstant (n : Int) (cs : List (List Decl)) : Option Nat := findAux (fun c => !c.isEmpty) n cs 0 0

/-- `apply_reordering` (723-731); `none`: an index is out of bounds (`Invalid_argument`, which is not caught). -/
def applyReordering (i : Nat) (im : Mapping) (cs : List (List Decl)) : Option (List (List Decl)) :=
  match im.lookup i with
  | some tags => tags.mapM fun c => cs[c]?
  | none => some cs

/-- `find_reverse_mapping` (733-741); `index0` raises `Not_found`, which is caught. -/
def findReverse (i : Nat) (im : Mapping) (c : Nat) : Nat :=
  match im.lookup i with
  | some tags => if c ∈ tags then tags.idxOf c else c
  | none => c

/-- The arguments of a block at `p` (768-774): the declarations that are no `let` (`smash_rel_context`) with the fields. -/
def reifyArgs (f : Ty → CVal → Res Term) (mem : Nat → Option CVal) : List Decl → Nat → Res (List Term)
  | [], _ => .ok []
  | d :: ds, p => match mem p with
    | some v => (f d.ty v).bind fun t => (reifyArgs f mem ds (p + 1)).bind fun ts => .ok (t :: ts)
    | none => .ub

/-- The bytes of a word, lowest first. -/
def bytesOf (w : Nat) : List Nat :=
  [w % 256, w / 2 ^ 8 % 256, w / 2 ^ 16 % 256, w / 2 ^ 24 % 256, w / 2 ^ 32 % 256, w / 2 ^ 40 % 256, w / 2 ^ 48 % 256, w / 2 ^ 56 % 256]

/-- The words of a block. -/
def readWords (mem : Nat → Option CVal) : Nat → Nat → Option (List Nat)
  | 0, _ => some []
  | n + 1, p => match mem p with
    | some (.raw w) => (readWords mem n (p + 1)).map (w :: ·)
    | _ => none

/-- An OCaml string: the last byte of the block says how many of the bytes before it do not belong to the string
(`caml_string_length`; `Obj.magic` in line 794). -/
def stringOf (ws : List Nat) : List Nat :=
  let bs := ws.flatMap bytesOf
  bs.take (bs.length - 1 - bs.getLastD 0)

/-- `reify` (743-796). `Obj.is_block` is the lowest bit of the word; `get_boxed_ordinal` (runtime/get_ordinal.c:9-12) reads the header,
`(Obj.magic v : int)` shifts the word. The debug messages and `Control.check_for_interrupt` are left out. -/
def reify (im : Mapping) (E : Env) (mem : Nat → Option CVal) : Nat → Ty → CVal → Res Term
  | 0, _, _ => .oot
  | n + 1, .ind i args, v => match E i with
    | none => .error
    | some D =>
      let ps := args.take D.npars
      match applyReordering i im (D.ctors.map fun c => c.map fun d => ⟨d.isLet, d.ty.subst ps⟩) with
      | none => .error
      | some cs => match v with
        | .ptr p => match mem (p - 1) with
          | some (.int h) => match findNthNonConstant (h % 256) cs with
            | none => .illFormed
            | some j => match cs[j]? with
              | none => .error
              | some c => (reifyArgs (reify im E mem n) mem (c.filter fun d => !d.isLet) p).bind fun ts =>
                  .ok (.con i (findReverse i im j) ps ts)
          | _ => .ub
        | .int z => if z % 2 = 1 then match findNthConstant (z / 2) cs with
            | none => .illFormed
            | some j => .ok (.con i (findReverse i im j) ps [])
          else .ub
        | _ => .ub
  | _ + 1, .int, .int z => if z % 2 = 1 then .ok (.int (z / 2 % 2 ^ 63).toNat) else .ub
  | _ + 1, .float, .ptr p => match mem p with
    | some (.raw b) => .ok (.float b)
    | _ => .ub
  | _ + 1, .str, .ptr p => match mem (p - 1) with
    | some (.int h) => match readWords mem (h / 1024).toNat p with
      | some ws => .ok (.str (stringOf ws))
      | none => .ub
    | _ => .ub
  | _ + 1, .int, _ => .ub
  | _ + 1, .float, _ => .ub
  | _ + 1, .str, _ => .ub
  | _ + 1, _, _ => .error

end Reify
