import Verif.CGen.Clight
import Verif.CGen.TextModel
import Verif.CPrint.Spec

/-!
# What the expressions and assignments of the C file mean

A meaning, in the sense of CPrint/Spec.lean, for the C text of a compiled program: what variables, `*`, `.`, `&`, arithmetic, casts,
assignments and calls do to the memory, the thread information and the stack frames of CGen/Clight.lean.  It is written for C
expressions of any form, not for the forms the compiler emits; what C leaves undefined, or what does not occur, is `none`.

Simplifications as in CGen/Clight.lean: integers are not truncated, memory is word addressed.
-/

namespace CGen.Text

open ANF
open CPrint (CE CS LS CTy CTys CFn Name Meaning)

/-- Values of C expressions: words, pointers to words of the heap, of the argument array and of the roots of this activation, the thread
information, frames, the collector, primitives. -/
inductive RV
  | v (c : CVal)
  | heap (a : Int)
  | args (i : Int)
  | root (i : Int)
  | tinfo
  | frame (f : Option Nat)
  | gc
  | prim (p : Tag)

/-- Objects: temporaries, words, the two structures and their fields. -/
inductive LV
  | temp (x : Var)
  | mem (a : Int)
  | arg (i : Int)
  | root (i : Int)
  | tinfo
  | frame
  | tfield (f : Var)
  | ffield (f : Var)

/-- What an expression stands for: its value and the object it names.  (`par` is the branch taken by a program that has already stopped,
where nothing is done any more; `!` must exchange the branches.) -/
structure Den where
  rv : Loc → Th → Option RV
  lv : Loc → Th → Option LV
  par : Bool

/-- The surroundings of an activation: names, primitives, collector, calls, depth. -/
structure Env where
  N : Names
  prims : Tag → Option Bool
  W : World
  call : Nat → Var → List CVal → Th → CGen.Out
  me : Nat

/-- States: running, out of time, aborted. -/
inductive St
  | run (l : Loc) (h : Th)
  | oot
  | abort

open Classical in
/-- The identifier with this name. -/
noncomputable def Names.dext (N : Names) (n : Name) : Option Var := if h : ∃ x, N.ext x = n then some h.choose else none

open Classical in
/-- The temporary with this name. -/
noncomputable def Names.dtmp (N : Names) (n : Name) : Option Var := if h : ∃ x, N.tmp x = n then some h.choose else none

variable (E : Env)

/-- The contents of an object. -/
def load (l : Loc) (h : Th) : LV → Option RV
  | .temp x => if x = 28 then some (.heap l.alloc) else if x = 29 then some (.heap l.limit)
      else if x = 26 then (if l.argsSet then some (.args 0) else none) else if x = 91 then some .tinfo else (l.temps x).map .v
  | .mem a => if 0 ≤ a then (h.mem a.toNat).map .v else none
  | .arg i => if 0 ≤ i ∧ i.toNat < maxArgs then (h.args i.toNat).map .v else none
  | .root i => if 0 ≤ i ∧ i.toNat < (h.frames E.me).size then ((h.frames E.me).roots i.toNat).map .v else none
  | .tfield f => if f = 28 then some (.heap h.alloc) else if f = 29 then some (.heap h.limit)
      else if f = 26 then some (.args 0) else if f = 86 then some (.frame h.fp) else if f = 92 then some (.v (.int h.nalloc)) else none
  | .ffield f => if f = 87 then some (.root (h.frames E.me).next) else if f = 84 then some (.root 0)
      else if f = 89 then some (.frame (h.frames E.me).prev) else none
  | _ => none

/-- Assignment to an object. -/
def store (l : Loc) (h : Th) : LV → RV → Option (Loc × Th)
  | .temp x, r => if x = 28 then (match r with
        | .heap a => if 0 ≤ a then some ({ l with alloc := a.toNat }, h) else none
        | _ => none)
      else if x = 29 then (match r with
        | .heap a => if 0 ≤ a then some ({ l with limit := a.toNat }, h) else none
        | _ => none)
      else if x = 26 then (match r with
        | .args i => if i = 0 then some ({ l with argsSet := true }, h) else none
        | _ => none)
      else if x = 91 then none
      else match r with
        | .v c => some (l.setT x c, h)
        | _ => none
  | .mem a, .v c => if 0 ≤ a ∧ h.alloc ≤ a.toNat ∧ a.toNat < h.limit then some (l, { h with mem := setMem h.mem a.toNat c }) else none
  | .arg i, .v c => if 0 ≤ i ∧ i.toNat < maxArgs then some (l, { h with args := setArr h.args i.toNat c }) else none
  | .root i, .v c => if 0 ≤ i ∧ i.toNat < (h.frames E.me).size then
      some (l, h.setFrame E.me { h.frames E.me with roots := setArr (h.frames E.me).roots i.toNat c }) else none
  | .tfield f, .heap a => if 0 ≤ a then (if f = 28 then some (l, { h with alloc := a.toNat })
      else if f = 29 then some (l, { h with limit := a.toNat }) else none) else none
  | .tfield f, .frame o => if f = 86 then some (l, { h with fp := o }) else none
  | .tfield f, .v (.int z) => if f = 92 ∧ 0 ≤ z then some (l, { h with nalloc := z.toNat }) else none
  | .ffield f, .root i => if f = 87 ∧ 0 ≤ i then some (l, h.setFrame E.me { h.frames E.me with next := i.toNat })
      else if f = 84 ∧ i = 0 then some (l, h) else none
  | .ffield f, .frame o => if f = 89 then some (l, h.setFrame E.me { h.frames E.me with prev := o }) else none
  | _, _ => none

/-- An expression that is a value. -/
def Den.ofRV (f : Loc → Th → Option RV) : Den := ⟨f, fun _ _ => none, true⟩

/-- An expression that names an object. -/
def Den.ofLV (f : Loc → Th → Option LV) : Den := ⟨fun l h => (f l h).bind (load E l h), f, true⟩

/-- A variable: the frame, the roots (an array: a pointer to its first word), the collector, a primitive, a function. -/
noncomputable def varD (n : Name) : Den := match E.N.dext n with
  | none => .ofRV fun _ _ => none
  | some x => if x = 79 then .ofLV E fun _ _ => some .frame
    else .ofRV fun _ _ => if x = 84 then some (.root 0) else if x = 80 then some .gc
      else if (E.prims x).isSome then some (.prim x) else some (.v (.fn x))

/-- A temporary. -/
noncomputable def tempD (n : Name) : Den := .ofLV E fun _ _ => (E.N.dtmp n).map .temp

/-- `*`. -/
def derefD (d : Den) : Den := .ofLV E fun l h => match d.rv l h with
  | some (.heap a) => some (.mem a)
  | some (.args i) => some (.arg i)
  | some (.root i) => some (.root i)
  | some .tinfo => some .tinfo
  | _ => none

/-- `.`. -/
noncomputable def fieldD (d : Den) (f : Name) : Den := .ofLV E fun l h => match d.lv l h, E.N.dext f with
  | some .tinfo, some x => some (.tfield x)
  | some .frame, some x => some (.ffield x)
  | _, _ => none

/-- The value of a constant of `w` bits. -/
def constVal (w n : Nat) (uns : Bool) : Int := if uns then n else if n < 2 ^ (w - 1) then n else (n : Int) - 2 ^ w

/-- `&`. -/
def addrofD (d : Den) : Den := .ofRV fun l h => match d.lv l h with
  | some .frame => some (.frame (some E.me))
  | _ => none

/-- Unary operations. -/
def unopV : CPrint.UnOp → RV → Option RV
  | .neg, .v (.int z) => some (.v (.int (-z)))
  | .notbool, .v (.int z) => some (.v (.int (if z = 0 then 1 else 0)))
  | .notint, .v (.int z) => some (.v (.int (-z - 1)))
  | _, _ => none

/-- Unary operations. -/
def unopD (o : CPrint.UnOp) (d : Den) : Den where
  rv l h := (d.rv l h).bind (unopV o)
  lv _ _ := none
  par := if o = .notbool then !d.par else true

/-- `&` of an integer and a mask of low bits. -/
def maskOf (z m : Int) : Option Int := if 0 ≤ m ∧ 2 ^ (m.toNat + 1).log2 = m.toNat + 1 then some (z % (m + 1)) else none

/-- Binary operations: of integers, of a pointer and an integer, of two pointers; the lowest bits of a pointer are 0. -/
def binopV : CPrint.BinOp → RV → RV → Option RV
  | .add, .v (.int a), .v (.int b) => some (.v (.int (a + b)))
  | .add, .heap a, .v (.int b) => some (.heap (a + b))
  | .add, .args a, .v (.int b) => some (.args (a + b))
  | .add, .root a, .v (.int b) => some (.root (a + b))
  | .sub, .v (.int a), .v (.int b) => some (.v (.int (a - b)))
  | .sub, .heap a, .heap b => some (.v (.int (a - b)))
  | .and, .v (.int a), .v (.int b) => (maskOf a b).map fun z => .v (.int z)
  | .and, .v (.ptr _), .v (.int b) => if b = 1 then some (.v (.int 0)) else none
  | .shr, .v (.int a), .v (.int b) => if 0 ≤ b then some (.v (.int (a / 2 ^ b.toNat))) else none
  | .eq, .v (.int a), .v (.int b) => some (.v (.int (if a = b then 1 else 0)))
  | .le, .v (.int a), .v (.int b) => some (.v (.int (if a ≤ b then 1 else 0)))
  | _, _, _ => none

/-- Binary operations. -/
def binopD (o : CPrint.BinOp) (a b : Den) : Den := .ofRV fun l h => match a.rv l h, b.rv l h with
  | some x, some y => binopV o x y
  | _, _ => none

/-- Casts: a word to a pointer to words and back; to pointers to functions. -/
def castV : CTy → RV → Option RV
  | .ptr (.base .value), .v (.ptr a) => some (.heap a)
  | .base .value, .heap a => if 0 ≤ a then some (.v (.ptr a.toNat)) else none
  | .ptr (.fn _ _ _), r => some r
  | .fn _ _ _, r => some r
  | _, _ => none

/-- Casts. -/
def castD (d : Den) (t : CTy) : Den := .ofRV fun l h => (d.rv l h).bind (castV t)

/-- Whether a condition holds. -/
def truthV : Option RV → Option Bool
  | some (.v (.int z)) => some (decide (z ≠ 0))
  | _ => none

/-- Assignment. -/
def assignD (a b : Den) : St → Option St
  | .run l h => match a.lv l h, b.rv l h with
    | some o, some r => (store E l h o r).map fun p => .run p.1 p.2
    | _, _ => none
  | s => some s

/-- The words among the values of arguments. -/
def words : List RV → Option (List CVal)
  | [] => some []
  | .v c :: rs => (words rs).map (c :: ·)
  | _ => none

/-- The values of arguments. -/
def evalAll (l : Loc) (h : Th) : List Den → Option (List RV)
  | [] => some []
  | d :: ds => match d.rv l h, evalAll l h ds with
    | some r, some rs => some (r :: rs)
    | _, _ => none

/-- The end of a call: the result is assigned. -/
noncomputable def afterD (r : Option Name) (l : Loc) : CGen.Out → Option St
  | .ret c h => match r with
    | none => some (.run l h)
    | some n => match E.N.dtmp n with
      | some x => (store E l h (.temp x) (.v c)).map fun p => .run p.1 p.2
      | none => none
  | .oot => some .oot
  | .abort => some .abort
  | _ => none

/-- A call: of the collector with the thread information, of a function of the program with the thread information and words, of a
primitive. -/
noncomputable def callD (r : Option Name) (f : Den) (args : List Den) : St → Option St
  | .run l h => match f.rv l h, evalAll l h args with
    | some .gc, some [.tinfo] => match r, E.W.gc h with
      | none, .ok h' => some (.run l h')
      | none, .abort => some .abort
      | _, _ => none
    | some (.v (.fn g)), some (.tinfo :: rs) => match words rs with
      | some cs => afterD E r l (E.call (E.me + 1) g cs h)
      | none => none
    | some (.prim p), some rs => match E.prims p with
      | some false => match words rs with
        | some cs => match E.W.prim p cs h.mem with
          | some c => afterD E r l (.ret c h)
          | none => none
        | none => none
      | some true => match rs with
        | .tinfo :: rs => match words rs with
          | some cs => afterD E r l (E.W.primT p cs h)
          | none => none
        | _ => none
      | none => none
    | _, _ => none
  | s => some s

/-- The meaning of C text. -/
@[reducible] noncomputable def meaning : Meaning where
  D := Den
  St := St
  var := varD E
  temp := tempD E
  deref := derefD E
  field := fieldD E
  cint n u := .ofRV fun _ _ => some (.v (.int (constVal 32 n u)))
  clong n u := .ofRV fun _ _ => some (.v (.int (constVal 64 n u)))
  unop := unopD
  addrof := addrofD E
  binop := binopD
  cast := castD
  sizeof _ := .ofRV fun _ _ => none
  alignof _ := .ofRV fun _ _ => none
  truth d σ := match σ with
    | .run l h => truthV (d.rv l h)
    | _ => some d.par
  index d σ := match σ with
    | .run l h => match d.rv l h with
      | some (.v (.int z)) => some z
      | _ => none
    | _ => some 0
  assign := assignD E
  set x d := assignD E (tempD E x) d
  call := callD E
  negInt n h1 h2 := by
    have h3 : 2 ^ 32 - n < 2 ^ 31 := by omega
    have h4 : ¬ n < 2 ^ 31 := by omega
    simp only [unopD, Den.ofRV, constVal, h3, h4, Option.bind_some, unopV, if_true, if_false, Bool.false_eq_true]
    simp [Nat.cast_sub (Nat.le_of_lt h2)]
  negLong n h1 h2 := by
    have h3 : 2 ^ 64 - n < 2 ^ 63 := by omega
    have h4 : ¬ n < 2 ^ 63 := by omega
    simp only [unopD, Den.ofRV, constVal, h3, h4, Option.bind_some, unopV, if_true, if_false, Bool.false_eq_true]
    simp [Nat.cast_sub (Nat.le_of_lt h2)]
  not d σ := by
    cases σ with
    | run l h =>
      simp only [unopD]
      cases d.rv l h with
      | none => rfl
      | some r =>
        cases r with
        | v c =>
          cases c with
          | int z => by_cases hz : z = 0 <;> simp [truthV, unopV, hz]
          | _ => rfl
        | _ => rfl
    | oot => simp [unopD]
    | abort => simp [unopD]
  fnCast d as va r := rfl
  assignTemp x d σ := rfl

end CGen.Text
