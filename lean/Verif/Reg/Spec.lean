import Verif.Reg.Model

/-!
# What a user expects of realised constants
-/

namespace Reg

open Mut (Name Term)

/-- The first entry of a list for a constant. -/
def FirstIn (l : List Prim) (c : Name) (r : Prim) : Prop := ∃ a b, l = a ++ r :: b ∧ r.name = c ∧ ∀ x ∈ a, x.name ≠ c

/-- No entry of a list is for the constant. -/
def Absent (l : List Prim) (c : Name) : Prop := ∀ x ∈ l, x.name ≠ c

/-- The last command of a session that registers the constant does so as `r`. -/
def Latest (session : List (List Prim)) (c : Name) (r : Prim) : Prop :=
  ∃ before l after, session = before ++ l :: after ∧ FirstIn l c r ∧ ∀ l' ∈ after, Absent l' c

/-- How a constant is realised: as the session says, and otherwise as the command that compiles says. -/
def Realised (session : List (List Prim)) (clause : List Prim) (c : Name) (r : Prim) : Prop :=
  Latest session c r ∨ (∀ l ∈ session, Absent l c) ∧ FirstIn clause c r

/-- What one expects: the command that compiles decides, and otherwise the session. -/
def Expected (session : List (List Prim)) (clause : List Prim) (c : Name) (r : Prim) : Prop :=
  FirstIn clause c r ∨ Absent clause c ∧ Latest session c r

/-- The number of arguments a value of the type takes. -/
def Ty.args : Ty → Nat
  | .prod t => t.args + 1
  | .letin t => t.args
  | .defined t => t.args
  | .other => 0

/-- A type whose products are in sight. -/
def Ty.Plain : Ty → Prop
  | .prod t => t.Plain
  | .letin t => t.Plain
  | .defined t => t.args = 0
  | .other => True

/-- The constant has a definition or is an axiom. -/
def Declared (p : List (Name × Decl)) (c : Name) : Prop := ∃ d, (c, d) ∈ p ∧ ((∃ t, d = .trm t) ∨ d = .typ 0 [])

/-- Names are distinct, and definitions refer to earlier constants and axioms (`crctEnv`, LambdaBoxMut/program.v:121-126, which has
no axioms). -/
def Wf : List (Name × Decl) → Prop
  | [] => True
  | (c, .trm t) :: p => Wf p ∧ (∀ d, (c, d) ∉ p) ∧ t.crct (Declared p) 0
  | (c, .typ _ _) :: p => Wf p ∧ ∀ d, (c, d) ∉ p

end Reg
