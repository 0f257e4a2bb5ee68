import Verif.ANF.Syntax

/-!
# LambdaBoxMut: terms, global environments, weak call-by-value evaluation

Models theories/LambdaBoxMut/{compile,term,wcbvEval}.v and the environments of theories/common/AstCommon.v.

Simplifications: binder names are dropped (a branch keeps the number of names it binds); inductive types and global
names are numbers; the string of `TWrong` and the messages of the exception monad are dropped, so `exception` is
`Option`; the recursive-argument number of a fixpoint definition, which no evaluation rule reads, is dropped; the
`ecTyp` entries of an environment keep only the fact that they are not terms.
-/

namespace Mut

/-- `kername`. -/
abbrev Name := Nat

mutual
/-- `Term` (compile.v:35-48). -/
inductive Term
  | rel (n : Nat)
  | proof
  | lam (t : Term)
  | letin (t u : Term)
  | app (t u : Term)
  | const (c : Name)
  | con (i : Nat) (n : Nat) (ts : Terms)
  | case (i : Nat) (t : Term) (bs : Brs)
  | fix (ds : Defs) (n : Nat)
  | prim (p : ANF.PVal)
  | wrong
/-- `Terms` (compile.v:49-51). -/
inductive Terms
  | nil
  | cons (t : Term) (ts : Terms)
/-- `Brs` (compile.v:52-54). -/
inductive Brs
  | nil
  | cons (m : Nat) (t : Term) (bs : Brs)
/-- `Defs` (compile.v:55-57). -/
inductive Defs
  | nil
  | cons (t : Term) (ds : Defs)
end

deriving instance DecidableEq for Term, Terms, Brs, Defs

/-- Induction along an argument list. -/
theorem Terms.ind {P : Terms → Prop} (h0 : P .nil) (h1 : ∀ e es, P es → P (.cons e es)) : ∀ es, P es
  | .nil => h0
  | .cons e es => h1 e es (Terms.ind h0 h1 es)

/-- Induction along a list of definitions. -/
theorem Defs.ind {P : Defs → Prop} (h0 : P .nil) (h1 : ∀ e es, P es → P (.cons e es)) : ∀ es, P es
  | .nil => h0
  | .cons e es => h1 e es (Defs.ind h0 h1 es)

/-- Induction along a branch list. -/
theorem Brs.ind {P : Brs → Prop} (h0 : P .nil) (h1 : ∀ n e es, P es → P (.cons n e es)) : ∀ es, P es
  | .nil => h0
  | .cons n e es => h1 n e es (Brs.ind h0 h1 es)

/-- `tlength` (compile.v:75-79). -/
def Terms.len : Terms → Nat
  | .nil => 0
  | .cons _ ts => ts.len + 1

/-- `dlength` (compile.v:224-228). -/
def Defs.len : Defs → Nat
  | .nil => 0
  | .cons _ ds => ds.len + 1

/-- `dnthBody` (term.v:1277-1289). -/
def Defs.nth : Nat → Defs → Option Term
  | _, .nil => none
  | 0, .cons t _ => some t
  | n + 1, .cons _ ds => Defs.nth n ds

/-- `bnth` (term.v:1320-1327). -/
def Brs.nth : Nat → Brs → Option (Nat × Term)
  | _, .nil => none
  | 0, .cons m t _ => some (m, t)
  | n + 1, .cons _ _ bs => Brs.nth n bs

mutual
/-- `instantiate` (term.v:2499-2515). -/
def inst (a : Term) : Nat → Term → Term
  | n, .rel m => if n = m then a else if m < n then .rel m else .rel (m - 1)
  | _, .proof => .proof
  | n, .lam t => .lam (inst a (n + 1) t)
  | n, .letin t u => .letin (inst a n t) (inst a (n + 1) u)
  | n, .app t u => .app (inst a n t) (inst a n u)
  | _, .const c => .const c
  | n, .con i m ts => .con i m (insts a n ts)
  | n, .case i t bs => .case i (inst a n t) (instB a n bs)
  | n, .fix ds m => .fix (instD a (n + ds.len) ds) m
  | _, .prim p => .prim p
  | _, .wrong => .wrong
/-- `instantiates` (term.v:2516-2520). -/
def insts (a : Term) : Nat → Terms → Terms
  | _, .nil => .nil
  | n, .cons t ts => .cons (inst a n t) (insts a n ts)
/-- `instantiateBrs` (term.v:2521-2525). -/
def instB (a : Term) : Nat → Brs → Brs
  | _, .nil => .nil
  | n, .cons m t bs => .cons m (inst a (m + n) t) (instB a n bs)
/-- `instantiateDefs` (term.v:2526-2531). -/
def instD (a : Term) : Nat → Defs → Defs
  | _, .nil => .nil
  | n, .cons t ds => .cons (inst a n t) (instD a n ds)
end

/-- `instantiatel` (term.v:3496-3500). -/
def instl : Terms → Nat → Term → Term
  | .nil, _, t => t
  | .cons a s, k, t => instl s k (inst a (s.len + k) t)

/-- `whCaseStep` (term.v:3696-3703). -/
def caseStep (n : Nat) (ts : Terms) (bs : Brs) : Option Term :=
  match bs.nth n with
  | some (m, t) => if m = ts.len then some (instl ts 0 t) else none
  | none => none

/-- `list_to_zero` (common/RandyPrelude.v:377-381). -/
def listToZero : Nat → List Nat
  | 0 => []
  | n + 1 => n :: listToZero n

/-- `whFixStep` (term.v:3771-3780). -/
def fixStep (ds : Defs) (m : Nat) : Option Term :=
  match ds.nth m with
  | some b => some ((listToZero ds.len).foldl (fun b k => inst (.fix ds k) 0 b) b)
  | none => none

/-- `envClass` (common/AstCommon.v:257-262): a constant with its body, or an inductive type. -/
inductive Entry
  | trm (t : Term)
  | typ

/-- `environ` (common/AstCommon.v:265). -/
abbrev Environ := List (Name × Entry)

/-- `lookup` (common/AstCommon.v:277-282). -/
def lookup (c : Name) : Environ → Option Entry
  | [] => none
  | (d, e) :: p => if c = d then some e else lookup c p

/-- `lookupDfn` (common/AstCommon.v:284-288). -/
def lookupDfn (c : Name) (p : Environ) : Option Term :=
  match lookup c p with
  | some (.trm t) => some t
  | _ => none

/-- The heads that make an application a redex or an error: `isLambda`, `isFix`, `isConstruct`, `TProof`, `isPrim`
(the side condition of `wAppCong`, wcbvEval.v:55-58). -/
def Term.head : Term → Bool
  | .lam _ => true
  | .fix _ _ => true
  | .con _ _ _ => true
  | .proof => true
  | .prim _ => true
  | _ => false

mutual
/-- `WcbvEval` (wcbvEval.v:22-64). -/
inductive Wcbv (p : Environ) : Term → Term → Prop
  | lam (t) : Wcbv p (.lam t) (.lam t)
  | proof : Wcbv p .proof .proof
  | prim (v) : Wcbv p (.prim v) (.prim v)
  | appProof {f a a'} : Wcbv p f .proof → Wcbv p a a' → Wcbv p (.app f a) .proof
  | con {i r ts ts'} : Wcbvs p ts ts' → Wcbv p (.con i r ts) (.con i r ts')
  | fix (ds m) : Wcbv p (.fix ds m) (.fix ds m)
  | const {c t s} : lookupDfn c p = some t → Wcbv p t s → Wcbv p (.const c) s
  | appLam {f b a a' s} : Wcbv p f (.lam b) → Wcbv p a a' → Wcbv p (inst a' 0 b) s → Wcbv p (.app f a) s
  | letin {d d' b s} : Wcbv p d d' → Wcbv p (inst d' 0 b) s → Wcbv p (.letin d b) s
  | appFix {ds m f a a' x s} : Wcbv p f (.fix ds m) → fixStep ds m = some x → Wcbv p a a' → Wcbv p (.app x a') s →
      Wcbv p (.app f a) s
  | appCong {f f' a a'} : Wcbv p f f' → f'.head = false → Wcbv p a a' → Wcbv p (.app f a) (.app f' a')
  | case {t i n ts bs c s} : Wcbv p t (.con i n ts) → caseStep n ts bs = some c → Wcbv p c s →
      Wcbv p (.case i t bs) s
/-- `WcbvEvals` (wcbvEval.v:65-69). -/
inductive Wcbvs (p : Environ) : Terms → Terms → Prop
  | nil : Wcbvs p .nil .nil
  | cons {t t' ts ts'} : Wcbv p t t' → Wcbvs p ts ts' → Wcbvs p (.cons t ts) (.cons t' ts')
end

mutual
/-- `wcbvEval` (wcbvEval.v:305-383). -/
def wcbvN (p : Environ) : Nat → Term → Option Term
  | 0, _ => none
  | n + 1, t => match t with
    | .const c => match lookup c p with
      | some (.trm t) => wcbvN p n t
      | some .typ => none
      | none => none
    | .app f a => match wcbvN p n f with
      | none => none
      | some .proof => match wcbvN p n a with
        | none => none
        | some _ => some .proof
      | some (.fix ds m) => match fixStep ds m with
        | none => none
        | some x => match wcbvN p n a with
          | none => none
          | some b => wcbvN p n (.app x b)
      | some (.lam b) => match wcbvN p n a with
        | none => none
        | some a' => wcbvN p n (inst a' 0 b)
      | some (.con _ _ _) => none
      | some (.prim _) => none
      | some u => match wcbvN p n a with
        | none => none
        | some b => some (.app u b)
    | .case i t bs => match wcbvN p n t with
      | none => none
      | some (.con j r ts) => match caseStep r ts bs with
        | none => none
        | some c => if i = j then wcbvN p n c else none
      | some _ => none
    | .letin d b => match wcbvN p n d with
      | some d' => wcbvN p n (inst d' 0 b)
      | none => none
    | .con i r ts => match wcbvsN p n ts with
      | some ts' => some (.con i r ts')
      | none => none
    | .proof => some .proof
    | .prim v => some (.prim v)
    | .lam t => some (.lam t)
    | .fix ds m => some (.fix ds m)
    | .rel _ => none
    | .wrong => none
/-- `wcbvEvals` (wcbvEval.v:384-395). -/
def wcbvsN (p : Environ) : Nat → Terms → Option Terms
  | 0, _ => none
  | n + 1, ts => match ts with
    | .nil => some .nil
    | .cons t ts => match wcbvN p n t, wcbvsN p n ts with
      | some v, some vs => some (.cons v vs)
      | _, _ => none
end

end Mut
