import Verif.Src.Mut
import Verif.Src.Local

/-!
# From LambdaBoxMut to LambdaBoxLocal: constants become nested lets

Models theories/LambdaBoxLocal/LambdaBoxMut_to_LambdaBoxLocal.v.
-/

namespace Src

open Mut (Term Terms Name Environ Entry)

/-- `env` (LambdaBoxMut_to_LambdaBoxLocal.v:27). -/
abbrev LEnv := List (Name × Exp)

/-- `cst_offset` (:29-33). -/
def cstOffset : LEnv → Name → Nat
  | [], _ => 0
  | (c, _) :: tl, s => if s = c then 0 else 1 + cstOffset tl s

/-- `find_prim` (:35-39). -/
def findPrim : List (Name × Nat) → Name → Option Nat
  | [], _ => none
  | (c, p) :: ps, n => if n = c then some p else findPrim ps n

mutual
/-- `trans` (:82-111). -/
def trans (E : LEnv) (P : List (Name × Nat)) : Nat → Term → Exp
  | _, .wrong => .prf
  | _, .proof => .prf
  | _, .rel n => .var n
  | k, .lam t => .lam (trans E P (1 + k) t)
  | k, .letin t u => .letin (trans E P k t) (trans E P (1 + k) u)
  | k, .app t u => .app (trans E P k t) (trans E P k u)
  | k, .const s => match findPrim P s with
    | some p => .prim p
    | none => .var (cstOffset E s + k)
  | k, .con i c ts => .con (i, c) (transs E P k ts)
  | k, .case i t bs => .mtch (trans E P k t) (transB E P i k 0 bs)
  | k, .fix ds n => .fix (transD E P (ds.len + k) ds) n
  | _, .prim p => .pval p
/-- `trans_args` (:64-65). -/
def transs (E : LEnv) (P : List (Name × Nat)) : Nat → Terms → Exps
  | _, .nil => .nil
  | k, .cons t ts => .cons (trans E P k t) (transs E P k ts)
/-- `trans_brs` (:66-72): the branches are numbered from `n`. -/
def transB (E : LEnv) (P : List (Name × Nat)) (i : Nat) : Nat → Nat → Mut.Brs → Brs
  | _, _, .nil => .nil
  | k, n, .cons m t bs => .cons (i, n) m (trans E P (k + m) t) (transB E P i k (n + 1) bs)
/-- `trans_fixes` (:73-78). -/
def transD (E : LEnv) (P : List (Name × Nat)) : Nat → Mut.Defs → Fns
  | _, .nil => .nil
  | k, .cons t ds => .cons (trans E P k t) (transD E P k ds)
end

/-- `translate_entry` (:122-128). -/
def translateEntry (P : List (Name × Nat)) (x : Name × Entry) (acc : LEnv) : LEnv :=
  match x with
  | (s, .trm t) => (s, trans acc P 0 t) :: acc
  | (_, .typ) => acc

/-- `translate_env` (:138-142). -/
def translateEnv (P : List (Name × Nat)) (p : Environ) : LEnv := p.foldr (translateEntry P) []

/-- `mkLets` (:155-156). -/
def mkLets (E : LEnv) (t : Exp) : Exp := E.foldl (fun acc x => .letin x.2 acc) t

/-- `translate_program` (:159-163). -/
def translateProgram (P : List (Name × Nat)) (p : Environ) (t : Term) : Exp :=
  let E := translateEnv P p
  mkLets E (trans E P 0 t)

end Src

namespace Mut

mutual
/-- `crctTerm` (LambdaBoxMut/program.v:96-120): no free variable at or above `n`, every constant is one of `D`,
fixpoint bodies are lambdas, no error term.  The conditions on declared inductive types are left out. -/
def Term.crct (D : Name → Prop) : Nat → Term → Prop
  | n, .rel m => m < n
  | _, .proof => True
  | n, .lam t => t.crct D (1 + n)
  | n, .letin t u => t.crct D n ∧ u.crct D (1 + n)
  | n, .app t u => t.crct D n ∧ u.crct D n
  | _, .const c => D c
  | n, .con _ _ ts => ts.crct D n
  | n, .case _ t bs => t.crct D n ∧ bs.crct D n
  | n, .fix ds m => m < ds.len ∧ ds.crct D (ds.len + n)
  | _, .prim _ => True
  | _, .wrong => False
/-- `crctTerms` (program.v:127-131). -/
def Terms.crct (D : Name → Prop) : Nat → Terms → Prop
  | _, .nil => True
  | n, .cons t ts => t.crct D n ∧ ts.crct D n
/-- `crctBs` (program.v:132-135). -/
def Brs.crct (D : Name → Prop) : Nat → Brs → Prop
  | _, .nil => True
  | n, .cons m t bs => t.crct D (m + n) ∧ bs.crct D n
/-- `crctDs` (program.v:136-140). -/
def Defs.crct (D : Name → Prop) : Nat → Defs → Prop
  | _, .nil => True
  | n, .cons t ds => t.crct D n ∧ (∃ b, t = .lam b) ∧ ds.crct D n
end

/-- The constants an environment defines. -/
def Defined (p : Environ) (c : Name) : Prop := ∃ t, lookupDfn c p = some t

/-- `crctEnv` (program.v:121-126): names are distinct, and a body refers only to earlier constants. -/
def CrctEnv : Environ → Prop
  | [] => True
  | (c, .trm t) :: p => CrctEnv p ∧ lookup c p = none ∧ t.crct (Defined p) 0
  | (c, .typ) :: p => CrctEnv p ∧ lookup c p = none

end Mut
