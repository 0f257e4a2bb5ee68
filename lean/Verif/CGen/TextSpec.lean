import Verif.CGen.TextMeaning

/-!
# Running the functions read from a C file
-/

namespace CGen.Text

open ANF
open CPrint (CTy CFn Name)

/-- Leaving a function: it must return a value. -/
def leave : CGen.Out → CGen.Out
  | .ret c h => .ret c h
  | .oot => .oot
  | .abort => .abort
  | _ => .ub

/-- The outcome of a statement. -/
def outOf : Option (CPrint.Out Den × St) → CGen.Out
  | none => .ub
  | some (_, .oot) => .oot
  | some (_, .abort) => .abort
  | some (o, .run l h) => match o with
    | .normal => .norm l h
    | .brk => .brk l h
    | .ret none => .ub
    | .ret (some d) => match d.rv l h with
      | some (.v c) => .ret c h
      | _ => .ub

/-- The temporaries with these names. -/
noncomputable def decodeAll (N : Names) : List (Name × CTy) → Option (List Var)
  | [] => some []
  | p :: ps => match N.dtmp p.1, decodeAll N ps with
    | some x, some xs => some (x :: xs)
    | _, _ => none

/-- The number of words of the array of roots among the variables of a function. -/
def rootsOf (N : Names) : List (Name × CTy) → Option Nat
  | [] => none
  | p :: ps => match p.2 with
    | .arr _ n => if p.1 = N.ext 84 then some n else rootsOf N ps
    | _ => rootsOf N ps

/-- Calls a function read from the file, at depth `d`: the first parameter is the thread information, the others are words; the
variables are uninitialised. -/
noncomputable def enterT (N : Names) (prims : Tag → Option Bool) (W : World) (call : Nat → Var → List CVal → Th → CGen.Out) (G : CFn)
    (d : Nat) (cs : List CVal) (h : Th) : CGen.Out :=
  match decodeAll N G.params, rootsOf N G.vars with
  | some (91 :: xs), some size =>
    if cs.length = xs.length then
      leave (outOf (G.body.exec (meaning ⟨N, prims, W, call, d⟩)
        (.run ⟨bindParams xs cs, 0, 0, false⟩ (h.setFrame d ⟨size, 0, none, fun _ => none⟩))))
    else .ub
  | _, _ => .ub

/-- The function with a name. -/
def findT (n : Name) : List CFn → Option CFn
  | [] => none
  | G :: P => if G.name = n then some G else findT n P

/-- Calls a function by its name; at most `n` nested calls. -/
noncomputable def callT (N : Names) (prims : Tag → Option Bool) (W : World) (P : List CFn) : Nat → Nat → Var → List CVal → Th → CGen.Out
  | 0, _, _, _, _ => .oot
  | n + 1, d, f, cs, h => match findT (N.ext f) P with
    | some G => enterT N prims W (callT N prims W P n) G d cs h
    | none => .ub

/-- Runs a program whose functions, beginning with the main one, have been read from the file. -/
noncomputable def runT (N : Names) (prims : Tag → Option Bool) (W : World) (fs : List CFn) (n d : Nat) (h : Th) : CGen.Out :=
  match fs with
  | G :: P => enterT N prims W (callT N prims W P n) G d [] h
  | [] => .ub

end CGen.Text
