import Verif.ANF.Syntax

/-!
# LambdaBoxLocal: syntax, substitution, evaluation

Models theories/LambdaBoxLocal/expression.v: de Bruijn expressions, `sbst`, the relation `eval` and the fuelled
interpreter `eval_n`.

Simplifications: names of binders are dropped (no function modelled here looks at them); an inductive type is a number;
`N` and `nat` are `Nat`.
-/

namespace Src

/-- `dcon` (expression.v:57): inductive type and constructor number. -/
abbrev Dcon := Nat × Nat

mutual
/-- `exp` (expression.v:61-71); the name arguments are dropped. -/
inductive Exp
  | var (i : Nat)
  | lam (e : Exp)
  | app (e₁ e₂ : Exp)
  | con (d : Dcon) (es : Exps)
  | mtch (e : Exp) (bs : Brs)
  | letin (e₁ e₂ : Exp)
  | fix (fs : Fns) (k : Nat)
  | prf
  | pval (p : ANF.PVal)
  | prim (p : Nat)
/-- `exps` (expression.v:72-74). -/
inductive Exps
  | nil
  | cons (e : Exp) (es : Exps)
/-- `efnlst` (expression.v:75-77). -/
inductive Fns
  | nil
  | cons (e : Exp) (fs : Fns)
/-- `branches_e` (expression.v:78-83); a branch records its constructor and the number of variables it binds. -/
inductive Brs
  | nil
  | cons (d : Dcon) (n : Nat) (e : Exp) (bs : Brs)
end

deriving instance DecidableEq for Exp, Exps, Fns, Brs

/-- Induction along an argument list. -/
theorem Exps.ind {P : Exps → Prop} (h0 : P .nil) (h1 : ∀ e es, P es → P (.cons e es)) : ∀ es, P es
  | .nil => h0
  | .cons e es => h1 e es (Exps.ind h0 h1 es)

/-- Induction along a list of recursive functions. -/
theorem Fns.ind {P : Fns → Prop} (h0 : P .nil) (h1 : ∀ e es, P es → P (.cons e es)) : ∀ es, P es
  | .nil => h0
  | .cons e es => h1 e es (Fns.ind h0 h1 es)

/-- Induction along a branch list. -/
theorem Brs.ind {P : Brs → Prop} (h0 : P .nil) (h1 : ∀ d n e es, P es → P (.cons d n e es)) : ∀ es, P es
  | .nil => h0
  | .cons d n e es => h1 d n e es (Brs.ind h0 h1 es)

/-- `exps_length` (expression.v:105-109). -/
def Exps.len : Exps → Nat
  | .nil => 0
  | .cons _ es => es.len + 1

/-- `exps_as_list` (expression.v:1521-1525). -/
def Exps.list : Exps → List Exp
  | .nil => []
  | .cons e es => e :: es.list

/-- `efnlst_length`, `efnlength` (expression.v:111-115, 531-535). -/
def Fns.len : Fns → Nat
  | .nil => 0
  | .cons _ fs => fs.len + 1

/-- `enthopt` (expression.v:118-123). -/
def Fns.nth : Nat → Fns → Option Exp
  | 0, .cons e _ => some e
  | n + 1, .cons _ fs => Fns.nth n fs
  | _, .nil => none

mutual
/-- `sbst` (expression.v:331-344): substitution of a closed expression. -/
def sbst (v : Exp) : Nat → Exp → Exp
  | k, .var i => if i < k then .var i else if i = k then v else .var (i - 1)
  | k, .lam e => .lam (sbst v (k + 1) e)
  | k, .app e₁ e₂ => .app (sbst v k e₁) (sbst v k e₂)
  | k, .con d es => .con d (sbsts v k es)
  | k, .mtch e bs => .mtch (sbst v k e) (sbstB v k bs)
  | k, .letin e₁ e₂ => .letin (sbst v k e₁) (sbst v (k + 1) e₂)
  | k, .fix fs j => .fix (sbstF v (fs.len + k) fs) j
  | _, .prf => .prf
  | _, .pval p => .pval p
  | _, .prim p => .prim p
/-- `sbsts` (expression.v:345-349). -/
def sbsts (v : Exp) : Nat → Exps → Exps
  | _, .nil => .nil
  | k, .cons e es => .cons (sbst v k e) (sbsts v k es)
/-- `sbst_efnlst` (expression.v:350-354). -/
def sbstF (v : Exp) : Nat → Fns → Fns
  | _, .nil => .nil
  | k, .cons e fs => .cons (sbst v k e) (sbstF v k fs)
/-- `sbst_branches` (expression.v:355-360). -/
def sbstB (v : Exp) : Nat → Brs → Brs
  | _, .nil => .nil
  | k, .cons d n e bs => .cons d n (sbst v (n + k) e) (sbstB v k bs)
end

/-- `sbst_list` (expression.v:515-519). -/
def sbstList (e : Exp) : Exps → Exp
  | .nil => e
  | .cons v vs => sbst v 0 (sbstList e vs)

/-- `find_branch` (expression.v:523-529). -/
def findBranch (d : Dcon) (m : Nat) : Brs → Option Exp
  | .nil => none
  | .cons d' n e bs => if d = d' then (if n = m then some e else none) else findBranch d m bs

/-- `list_to_zero` (common/RandyPrelude.v:377-381). -/
def listToZero : Nat → List Nat
  | 0 => []
  | n + 1 => n :: listToZero n

/-- `sbst_fix` (expression.v:549-553). -/
def sbstFix (fs : Fns) (e : Exp) : Exp :=
  (listToZero fs.len).foldl (fun e k => sbst (.fix fs k) 0 e) e

mutual
/-- `eval` (expression.v:556-587). -/
inductive Eval : Exp → Exp → Prop
  | lam (e) : Eval (.lam e) (.lam e)
  | app {e₁ e₁' e₂ v₂ v} : Eval e₁ (.lam e₁') → Eval e₂ v₂ → Eval (sbst v₂ 0 e₁') v → Eval (.app e₁ e₂) v
  | con {d es vs} : Evals es vs → Eval (.con d es) (.con d vs)
  | letin {e₁ v₁ e₂ v₂} : Eval e₁ v₁ → Eval (sbst v₁ 0 e₂) v₂ → Eval (.letin e₁ e₂) v₂
  | mtch {e bs d vs e' v} : Eval e (.con d vs) → findBranch d vs.len bs = some e' → Eval (sbstList e' vs) v →
      Eval (.mtch e bs) v
  | fix (fs k) : Eval (.fix fs k) (.fix fs k)
  | fixApp {e fs n e₂ v₂ e' v} : Eval e (.fix fs n) → Eval e₂ v₂ → Fns.nth n fs = some e' →
      Eval (.app (sbstFix fs e') v₂) v → Eval (.app e e₂) v
  | prfApp {f a a'} : Eval f .prf → Eval a a' → Eval (.app f a) .prf
  | prf : Eval .prf .prf
  | pval (p) : Eval (.pval p) (.pval p)
/-- `evals` (expression.v:588-593). -/
inductive Evals : Exps → Exps → Prop
  | nil : Evals .nil .nil
  | cons {e es v vs} : Eval e v → Evals es vs → Evals (.cons e es) (.cons v vs)
end

mutual
/-- `eval_n` (expression.v:682-737). -/
def evalN : Nat → Exp → Option Exp
  | 0, _ => none
  | n + 1, e => match e with
    | .lam d => some (.lam d)
    | .fix fs k => some (.fix fs k)
    | .prf => some .prf
    | .con d es => match evalsN n es with
      | none => none
      | some vs => some (.con d vs)
    | .app e₁ e₂ => match evalN n e₁ with
      | some (.lam e₁') => match evalN n e₂ with
        | none => none
        | some v => evalN n (sbst v 0 e₁')
      | some (.fix fs k) => match evalN n e₂ with
        | none => none
        | some v => match Fns.nth k fs with
          | some e' => evalN n (.app (sbstFix fs e') v)
          | none => none
      | some .prf => match evalN n e₂ with
        | none => none
        | some _ => some .prf
      | _ => none
    | .letin e₁ e₂ => match evalN n e₁ with
      | none => none
      | some v => evalN n (sbst v 0 e₂)
    | .mtch e bs => match evalN n e with
      | some (.con d vs) => match findBranch d vs.len bs with
        | none => none
        | some e' => evalN n (sbstList e' vs)
      | _ => none
    | .pval p => some (.pval p)
    | .var _ => none
    | .prim _ => none
/-- `evals_n` (expression.v:738-750). -/
def evalsN : Nat → Exps → Option Exps
  | 0, _ => none
  | n + 1, es => match es with
    | .nil => some .nil
    | .cons e es => match evalN n e, evalsN n es with
      | some v, some vs => some (.cons v vs)
      | _, _ => none
end

mutual
/-- `exp_wf` (expression.v:135-156), as a function: no free variable at or above `i`, fixpoint bodies are lambdas. -/
def Exp.wf : Nat → Exp → Prop
  | i, .var j => j < i
  | i, .lam e => e.wf (1 + i)
  | i, .app e₁ e₂ => e₁.wf i ∧ e₂.wf i
  | i, .con _ es => es.wf i
  | i, .mtch e bs => e.wf i ∧ bs.wf i
  | i, .letin e₁ e₂ => e₁.wf i ∧ e₂.wf (1 + i)
  | i, .fix fs k => k < fs.len ∧ fs.wf (fs.len + i)
  | _, .prf => True
  | _, .pval _ => True
  | _, .prim _ => False
/-- `exps_wf` (expression.v:157-160). -/
def Exps.wf : Nat → Exps → Prop
  | _, .nil => True
  | i, .cons e es => e.wf i ∧ es.wf i
/-- `efnlst_wf` (expression.v:161-165). -/
def Fns.wf : Nat → Fns → Prop
  | _, .nil => True
  | i, .cons e fs => e.wf i ∧ (∃ b, e = .lam b) ∧ fs.wf i
/-- `branches_wf` (expression.v:166-170). -/
def Brs.wf : Nat → Brs → Prop
  | _, .nil => True
  | i, .cons _ n e bs => e.wf (n + i) ∧ bs.wf i
end

/-- First-order data: constructor trees over primitives and erased proofs. -/
inductive Data
  | con (i n : Nat) (ds : List Data)
  | prim (p : ANF.PVal)
  | box

mutual
/-- `exp_wf` with primitive operations, for which expression.v has no rule: those with a known arity are well formed. -/
def Exp.wfp (ar : Nat → Option Nat) : Nat → Exp → Prop
  | i, .var j => j < i
  | i, .lam e => e.wfp ar (1 + i)
  | i, .app e₁ e₂ => e₁.wfp ar i ∧ e₂.wfp ar i
  | i, .con _ es => es.wfp ar i
  | i, .mtch e bs => e.wfp ar i ∧ bs.wfp ar i
  | i, .letin e₁ e₂ => e₁.wfp ar i ∧ e₂.wfp ar (1 + i)
  | i, .fix fs k => k < fs.len ∧ fs.wfp ar (fs.len + i)
  | _, .prf => True
  | _, .pval _ => True
  | _, .prim p => ∃ n, ar p = some n
/-- The same for argument lists. -/
def Exps.wfp (ar : Nat → Option Nat) : Nat → Exps → Prop
  | _, .nil => True
  | i, .cons e es => e.wfp ar i ∧ es.wfp ar i
/-- The same for recursive functions. -/
def Fns.wfp (ar : Nat → Option Nat) : Nat → Fns → Prop
  | _, .nil => True
  | i, .cons e fs => e.wfp ar i ∧ (∃ b, e = .lam b) ∧ fs.wfp ar i
/-- The same for branches. -/
def Brs.wfp (ar : Nat → Option Nat) : Nat → Brs → Prop
  | _, .nil => True
  | i, .cons _ n e bs => e.wfp ar (n + i) ∧ bs.wfp ar i
end

mutual
theorem Exp.wf.p {ar : Nat → Option Nat} : ∀ {e : Exp} {i : Nat}, e.wf i → e.wfp ar i
  | .var _, _, h => h
  | .lam e, _, h => Exp.wf.p (e := e) h
  | .app e₁ e₂, _, h => ⟨Exp.wf.p (e := e₁) h.1, Exp.wf.p (e := e₂) h.2⟩
  | .con _ es, _, h => Exps.wf.p (es := es) h
  | .mtch e bs, _, h => ⟨Exp.wf.p (e := e) h.1, Brs.wf.p (bs := bs) h.2⟩
  | .letin e₁ e₂, _, h => ⟨Exp.wf.p (e := e₁) h.1, Exp.wf.p (e := e₂) h.2⟩
  | .fix fs _, _, h => ⟨h.1, Fns.wf.p (fs := fs) h.2⟩
  | .prf, _, _ => trivial
  | .pval _, _, _ => trivial
  | .prim _, _, h => h.elim
theorem Exps.wf.p {ar : Nat → Option Nat} : ∀ {es : Exps} {i : Nat}, es.wf i → es.wfp ar i
  | .nil, _, _ => trivial
  | .cons e es, _, h => ⟨Exp.wf.p (e := e) h.1, Exps.wf.p (es := es) h.2⟩
theorem Fns.wf.p {ar : Nat → Option Nat} : ∀ {fs : Fns} {i : Nat}, fs.wf i → fs.wfp ar i
  | .nil, _, _ => trivial
  | .cons e fs, _, h => ⟨Exp.wf.p (e := e) h.1, h.2.1, Fns.wf.p (fs := fs) h.2.2⟩
theorem Brs.wf.p {ar : Nat → Option Nat} : ∀ {bs : Brs} {i : Nat}, bs.wf i → bs.wfp ar i
  | .nil, _, _ => trivial
  | .cons _ _ e bs, _, h => ⟨Exp.wf.p (e := e) h.1, Brs.wf.p (bs := bs) h.2⟩
end

end Src
