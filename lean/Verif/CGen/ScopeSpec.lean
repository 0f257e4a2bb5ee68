import Verif.CGen.TextFits
import Verif.CGen.TextProps

/-!
# What C asks of the names in a file

Every temporary, variable and function that is used is declared, and none is declared twice in the same place.
-/

namespace CGen.Text

open ANF
open CPrint (CE CS LS CTy CFn Name)

/-- All temporaries of an expression satisfy `t`, all variables and functions `v`. -/
def Within (t v : Name → Prop) : CE → Prop
  | .var x => v x
  | .temp x => t x
  | .deref e => Within t v e
  | .field e _ => Within t v e
  | .cint _ _ => True
  | .clong _ _ => True
  | .unop _ e => Within t v e
  | .addrof e => Within t v e
  | .binop _ a b => Within t v a ∧ Within t v b
  | .cast e _ => Within t v e
  | .sizeof _ => True
  | .alignof _ => True

mutual
/-- The same for statements. -/
def WithinS (t v : Name → Prop) : CS → Prop
  | .skip => True
  | .assign a b => Within t v a ∧ Within t v b
  | .set x e => t x ∧ Within t v e
  | .call r f as => (∀ x, r = some x → t x) ∧ Within t v f ∧ ∀ a ∈ as, Within t v a
  | .seq a b => WithinS t v a ∧ WithinS t v b
  | .ite e a b => Within t v e ∧ WithinS t v a ∧ WithinS t v b
  | .switch e ls => Within t v e ∧ WithinL t v ls
  | .brk => True
  | .ret none => True
  | .ret (some e) => Within t v e
/-- The same for the cases of a `switch`. -/
def WithinL (t v : Name → Prop) : LS → Prop
  | .nil => True
  | .cons _ s ls => WithinS t v s ∧ WithinL t v ls
end

/-- A function whose names are in order; `g`: the names declared outside. -/
structure FnScoped (g : Name → Prop) (f : CFn) : Prop where
  temps : ((f.params ++ f.temps).map (·.1)).Nodup
  vars : (f.vars.map (·.1)).Nodup
  hides : ∀ x ∈ f.vars.map (·.1), ¬ g x
  body : WithinS (· ∈ (f.params ++ f.temps).map (·.1)) (fun x => x ∈ f.vars.map (·.1) ∨ g x) f.body

/-- A file whose names are in order; `g`: the names declared in the headers. -/
structure FileScoped (g : Name → Prop) (fs : List CFn) : Prop where
  names : (fs.map (·.name)).Nodup
  outside : ∀ f ∈ fs, ¬ g f.name
  fns : ∀ f ∈ fs, FnScoped (fun x => x ∈ fs.map (·.name) ∨ g x) f

mutual
/-- Only variables that are not functions are taken apart; tail calls only where they are allowed (`tail`). -/
def PlainE (fns : List Var) (tail : Bool) : Exp → Prop
  | .constr _ _ _ e => PlainE fns tail e
  | .case x bs => x ∉ fns ∧ PlainBs fns tail bs
  | .proj _ _ _ y e => y ∉ fns ∧ PlainE fns tail e
  | .letapp _ _ _ _ e => PlainE fns tail e
  | .fn B e => PlainB fns B ∧ PlainE fns tail e
  | .app _ _ _ => tail = true
  | .primVal _ _ e => PlainE fns tail e
  | .prim _ _ _ e => PlainE fns tail e
  | .halt _ => True
/-- The same for branches. -/
def PlainBs (fns : List Var) (tail : Bool) : Brs → Prop
  | .nil => True
  | .cons _ e bs => PlainE fns tail e ∧ PlainBs fns tail bs
/-- The same for functions, which may make tail calls. -/
def PlainB (fns : List Var) : Defs → Prop
  | .nil => True
  | .cons _ _ _ e B => PlainE fns true e ∧ PlainB fns B
end

end CGen.Text
