import Verif.Reify.Model
import Verif.Conv.Top

/-!
# Reading results back: specification
-/

namespace Reify

/-- The number of arguments of a constructor. -/
def nargs (c : List Decl) : Nat := (c.filter fun d => !d.isLet).length

/-- `Inst ps ty ty'`: the type `ty'` is `ty` with the parameters `ps`. -/
inductive Inst (ps : List Ty) : Ty → Ty → Prop
  | param {k : Nat} {t : Ty} : ps[k]? = some t → Inst ps (.param k) t
  | ind {i : Nat} {as bs : List Ty} : as.length = bs.length → (∀ (k : Nat) a b, as[k]? = some a → bs[k]? = some b → Inst ps a b) → Inst ps (.ind i as) (.ind i bs)
  | int : Inst ps .int .int
  | float : Inst ps .float .float
  | str : Inst ps .str .str
  | array : Inst ps .array .array
  | other : Inst ps .other .other

/-- Terms in normal form of a type: constructors applied to the parameters of the type and to arguments of the declared types. -/
inductive HasTy (E : Env) : Term → Ty → Prop
  | con {i c : Nat} {D : IDecl} {ds : List Decl} {args : List Ty} {ts : List Term} : E i = some D → D.ctors[c]? = some ds → ts.length = nargs ds →
      (∀ (k : Nat) t d, ts[k]? = some t → (ds.filter fun d => !d.isLet)[k]? = some d → HasTy E t (d.ty.subst (args.take D.npars))) →
      HasTy E (.con i c (args.take D.npars) ts) (.ind i args)
  | int {n : Nat} : n < 2 ^ 63 → HasTy E (.int n) .int
  | float {b : Nat} : HasTy E (.float b) .float
  | str {s : List Nat} : (∀ c ∈ s, c < 256) → HasTy E (.str s) .str

/-- The position of constructor `c` of type `i` in compiled programs: an `Extract Inductives` mapping lists the constructors in their new order
(erasure, MetaRocq's reordering of constructors; outside the repository). -/
def position (im : Mapping) (i c : Nat) : Nat :=
  match im.lookup i with
  | some tags => tags.idxOf c
  | none => c

mutual
/-- What is computed for a term in normal form: erasure drops the parameters of constructors, and replaces proofs (values of the types in
`prop`). -/
def erase (prop : Nat → Bool) (im : Mapping) : Term → Src.Data
  | .con i c _ ts => if prop i = true then .box else .con i (position im i c) (erases prop im ts)
  | .int n => .prim (.int n)
  | .float b => .prim (.float b)
  | .str s => .prim (.str s)
/-- The same for lists. -/
def erases (prop : Nat → Bool) (im : Mapping) : List Term → List Src.Data
  | [] => []
  | t :: ts => erase prop im t :: erases prop im ts
end

/-- The program is compiled with the constructors of the types of `E`, in the order of the mapping. -/
def Agrees (E : Env) (im : Mapping) (T : Conv.Types) : Prop :=
  ∀ i D, E i = some D → ∃ tys t, (((T.name i).1, tys) ∈ T.decls ∧ tys[(T.name i).2]? = some t) ∧ t.ctors.length = D.ctors.length ∧
    ∀ (c : Nat) ds, D.ctors[c]? = some ds → ∃ k, t.ctors[position im i c]? = some k ∧ k.arity = nargs ds

/-- No constructor has `let`s for its only arguments. -/
def IDecl.Plain (D : IDecl) : Prop := ∀ c ∈ D.ctors, nargs c = 0 → c = []

/-- A mapping for a type with `n` constructors: each is listed once. -/
def Reorders (tags : List Nat) (n : Nat) : Prop := tags.Perm (List.range n)

/-- A mapping that is its own inverse. -/
def SelfInverse (tags : List Nat) : Prop := ∀ (j k : Nat), tags[j]? = some k → tags[k]? = some j

end Reify
