import Verif.ANF.InlModel
import Verif.ANF.Util
import Verif.ANF.UncModel

/-!
# Shrink reduction

Models theories/LambdaANF/shrink_cps.v:16-80 and 545-1431 (the pass; its termination lemmas are theorems here) and
`rename_all_ns` (rename.v:107-128).

Simplifications: renamings (`r_map`), censuses (`c_map`) and the set of inlined functions (`b_map`) are the functions
they denote (`apply_r`, `get_c`, `get_b`); the map of known values (`ctx_map`) is an association list whose newest
entry counts; the recursion of `contract`, which the source justifies by the measure `term_sub_inl_size`, takes an
explicit fuel, and `contract_total` proves that the measure is enough fuel.
-/

namespace ANF
namespace Shr
open Ll (put)
open Inl (Ctx inlineLet sets)

/-- `svalue` (shrink_cps.v:19-21). -/
inductive SVal
  | con (t : Tag) (ys : List Var)
  | fn (t : Tag) (xs : List Var) (e : Exp)

/-- `ctx_map` (shrink_cps.v:24). -/
abbrev Sub := List (Var × SVal)

/-- `M.get` on a `ctx_map`. -/
def Sub.get (x : Var) : Sub → Option SVal
  | [] => none
  | (y, v) :: s => if y = x then some v else Sub.get x s

/-- `c_map` through `get_c` (shrink_cps.v:31, 50). -/
abbrev Count := Var → Nat

mutual
/-- `term_size` (shrink_cps.v:57-70). -/
def tsize : Exp → Nat
  | .constr _ _ _ e => 1 + tsize e
  | .case _ bs => 1 + tsizeB bs
  | .proj _ _ _ _ e => 1 + tsize e
  | .letapp _ _ _ _ e => 1 + tsize e
  | .app _ _ _ => 1
  | .primVal _ _ e => 1 + tsize e
  | .prim _ _ _ e => 1 + tsize e
  | .fn B e => 1 + tsizeD B + tsize e
  | .halt _ => 1
/-- The branches in `term_size` (shrink_cps.v:60-62). -/
def tsizeB : Brs → Nat
  | .nil => 0
  | .cons _ e bs => tsizeB bs + tsize e
/-- `funs_size` (shrink_cps.v:71-75). -/
def tsizeD : Defs → Nat
  | .nil => 1
  | .cons _ _ _ e B => 1 + tsizeD B + tsize e
end

/-- `sub_inl_size` (shrink_cps.v:77-84, 113-130): the bodies of the known functions that are not inlined yet. -/
def subSize (im : Var → Bool) : Sub → Nat
  | [] => 0
  | (_, .con _ _) :: s => subSize im s
  | (f, .fn _ _ e) :: s => (if im f then 0 else tsize e) + subSize im s

/-- `update_census_list` (shrink_cps.v:545-551). -/
def censusL (σ : Var → Var) (δ : Nat → Nat) : List Var → Count → Count
  | [], c => c
  | y :: ys, c => censusL σ δ ys (put c (σ y) (δ (c (σ y))))

mutual
/-- `update_census` (shrink_cps.v:555-583). -/
def census (σ : Var → Var) (δ : Nat → Nat) : Exp → Count → Count
  | .constr _ _ ys e, c => census σ δ e (censusL σ δ ys c)
  | .primVal _ _ e, c => census σ δ e c
  | .prim _ _ ys e, c => census σ δ e (censusL σ δ ys c)
  | .case v bs, c => censusB σ δ bs (censusL σ δ [v] c)
  | .proj _ _ _ y e, c => census σ δ e (censusL σ δ [y] c)
  | .letapp _ f _ ys e, c => census σ δ e (censusL σ δ (f :: ys) c)
  | .fn B e, c => census σ δ e (censusD σ δ B c)
  | .app f _ ys, c => censusL σ δ (f :: ys) c
  | .halt v, c => censusL σ δ [v] c
/-- The `fold_right` over the branches (shrink_cps.v:566-568). -/
def censusB (σ : Var → Var) (δ : Nat → Nat) : Brs → Count → Count
  | .nil, c => c
  | .cons _ e bs, c => census σ δ e (censusB σ δ bs c)
/-- `update_census_f` (shrink_cps.v:584-589). -/
def censusD (σ : Var → Var) (δ : Nat → Nat) : Defs → Count → Count
  | .nil, c => c
  | .cons _ _ _ e B, c => censusD σ δ B (census σ δ e c)
end

/-- `init_census` (shrink_cps.v:592). -/
def initCensus (e : Exp) : Count := census id (· + 1) e fun _ => 0

/-- `dec_census` (shrink_cps.v:593). -/
def decE (σ : Var → Var) (e : Exp) (c : Count) : Count := census σ (· - 1) e c

/-- `dec_census_list` (shrink_cps.v:594). -/
def decL (σ : Var → Var) (ys : List Var) (c : Count) : Count := censusL σ (· - 1) ys c

/-- `dec_census_all_case` (shrink_cps.v:597-603). -/
def decAll (σ : Var → Var) : Brs → Count → Count
  | .nil, c => c
  | .cons _ e bs, c => decE σ e (decAll σ bs c)

/-- `dec_census_case` (shrink_cps.v:606-615). -/
def decCase (σ : Var → Var) (t : Tag) : Brs → Count → Count
  | .nil, c => c
  | .cons k e bs, c => if k = t then decAll σ bs c else decE σ e (decCase σ t bs c)

/-- `update_count_inlined` (shrink_cps.v:618-625). -/
def countInl : List Var → List Var → Count → Count
  | y :: ys, x :: xs, c => countInl ys xs (put (put c x 0) y (c y + c x - 1))
  | _, _, c => c

/-- `update_count_letapp` (shrink_cps.v:627-634). -/
def countLet (x' x : Var) (c : Count) : Count := if x = x' then c else put (put c x 0) x' (c x + c x' - 1)

mutual
/-- `rename_all_ns` (rename.v:107-123): renames uses, not binders. -/
def ren (δ : Var → Var) : Exp → Exp
  | .constr x t ys e => .constr x t (ys.map δ) (ren δ e)
  | .primVal x p e => .primVal x p (ren δ e)
  | .prim x p ys e => .prim x p (ys.map δ) (ren δ e)
  | .proj x t n y e => .proj x t n (δ y) (ren δ e)
  | .letapp x f t ys e => .letapp x (δ f) t (ys.map δ) (ren δ e)
  | .case v bs => .case (δ v) (renB δ bs)
  | .fn B e => .fn (renD δ B) (ren δ e)
  | .app f t ys => .app (δ f) t (ys.map δ)
  | .halt v => .halt (δ v)
/-- The branches in `rename_all_ns` (rename.v:114-116). -/
def renB (δ : Var → Var) : Brs → Brs
  | .nil => .nil
  | .cons t e bs => .cons t (ren δ e) (renB δ bs)
/-- `rename_all_fun_ns` (rename.v:124-128). -/
def renD (δ : Var → Var) : Defs → Defs
  | .nil => .nil
  | .cons f t xs e B => .cons f t xs (ren δ e) (renD δ B)
end

/-- `precontractfun` (shrink_cps.v:652-665): drops the functions that are not used and records the others. -/
def preFun (σ : Var → Var) : Count → Sub → Defs → Defs × Count × Sub
  | c, s, .nil => (.nil, c, s)
  | c, s, .cons f t xs e B =>
    if c f = 0 then preFun σ (decE σ e c) s B
    else
      let r := preFun σ c s B
      (.cons f t xs e r.1, r.2.1, (f, .fn t xs e) :: r.2.2)

/-- The results of the pass: term, number of steps, census, inlined functions (`shrinkT`, shrink_cps.v:649). -/
structure Out (α : Type) where
  out : α
  steps : Nat
  count : Count
  im : Var → Bool

/-- `contract` at a smaller measure. -/
abbrev Rec := (Var → Var) → Count → Exp → Sub → (Var → Bool) → Option (Out Exp)

/-- `contractcases` (shrink_cps.v:759-778). -/
def conCases (rec : Rec) (σ : Var → Var) (s : Sub) : Count → (Var → Bool) → Brs → Option (Out Brs)
  | c, im, .nil => some ⟨.nil, 0, c, im⟩
  | c, im, .cons t e bs =>
    match rec σ c e s im with
    | none => none
    | some r => match conCases rec σ s r.count r.im bs with
      | none => none
      | some q => some ⟨.cons t r.out q.out, r.steps + q.steps, q.count, q.im⟩

/-- `postcontractfun` (shrink_cps.v:823-855): inlined functions and functions that are dead by now are dropped, the
bodies of the others are contracted. -/
def postFun (rec : Rec) (σ : Var → Var) (s : Sub) : Count → (Var → Bool) → Defs → Option (Out Defs)
  | c, im, .nil => some ⟨.nil, 0, c, im⟩
  | c, im, .cons f t xs e B =>
    if im f then postFun rec σ s c im B
    else if c f = 0 then postFun rec σ s (decE σ e c) im B
    else match rec σ c e s im with
      | none => none
      | some r => match postFun rec σ s r.count r.im B with
        | none => none
        | some q => some ⟨.cons f t xs r.out q.out, r.steps + q.steps, q.count, q.im⟩

/-- `incr_steps` (shrink_cps.v:872-876). -/
def Out.incr (r : Out Exp) : Out Exp := { r with steps := r.steps + 1 }

/-- The empty-bundle test after `postcontractfun` (shrink_cps.v:1042-1046). -/
def mkFn (B : Defs) (e : Exp) : Exp :=
  match B with
  | .nil => e
  | B => .fn B e

/-- The function a call can be replaced by: used once, known, with the tag and number of arguments of the call and not
inlined yet (shrink_cps.v:949-957, 1053-1058). -/
def inlinable (c : Count) (s : Sub) (im : Var → Bool) (f' : Var) (t : Tag) (n : Nat) : Option (List Var × Exp) :=
  if c f' = 1 then
    match Sub.get f' s with
    | some (.fn t' xs m) => if t' = t ∧ n = xs.length ∧ im f' = false then some (xs, m) else none
    | _ => none
  else none

/-- `contract` (shrink_cps.v:878-1071).  The source's steps counter of `postcontractfun` starts from an argument that
is always 0. -/
def contract : Nat → Rec
  | 0, _, _, _, _, _ => none
  | n + 1, σ, c, e, s, im =>
    match e with
    | .halt v => some ⟨.halt (σ v), 0, c, im⟩
    | .constr x t ys e =>
      if c x = 0 then (contract n σ (decL σ ys c) e s im).map Out.incr
      else (contract n σ c e ((x, .con t ys) :: s) im).map fun r =>
        if r.count x = 0 then ⟨r.out, r.steps + 1, decL σ ys r.count, r.im⟩
        else ⟨.constr x t (ys.map σ) r.out, r.steps, r.count, r.im⟩
    | .proj v t i y e =>
      if c v = 0 then (contract n σ (decL σ [y] c) e s im).map Out.incr
      else
        let y' := σ y
        let keep := (contract n σ c e s im).map fun r =>
          if r.count v = 0 then ⟨r.out, r.steps + 1, decL σ [y] r.count, r.im⟩
          else ⟨.proj v t i y' r.out, r.steps, r.count, r.im⟩
        match Sub.get y' s with
        | some (.con _ ys) => match ys[i]? with
          | some yn =>
            let yn' := σ yn
            let c' := put c y' (c y' - 1)
            let c'' := put (put c' yn' (c v + c yn')) v 0
            (contract n (put σ v yn') c'' e s im).map Out.incr
          | none => keep
        | _ => keep
    | .letapp x f t ys e =>
      let f' := σ f
      let ys' := ys.map σ
      let keep := (contract n σ c e s im).map fun r => ⟨.letapp x f' t ys' r.out, r.steps, r.count, r.im⟩
      match inlinable c s im f' t ys.length with
      | some (xs, m) => match inlineLet m x with
        | some (C, x') =>
          let σ' := sets xs ys' σ
          let c' := countLet (σ' x') x (countInl ys' xs (put c f' 0))
          (contract n σ' c' (C.plug (ren (put id x x') e)) s (put im f' true)).map Out.incr
        | none => keep
      | none => keep
    | .primVal x p e => (contract n σ c e s im).map fun r => ⟨.primVal x p r.out, r.steps, r.count, r.im⟩
    | .prim x p ys e => (contract n σ c e s im).map fun r => ⟨.prim x p (ys.map σ) r.out, r.steps, r.count, r.im⟩
    | .case v bs =>
      let v' := σ v
      let keep := (conCases (contract n) σ s c im bs).map fun r => ⟨.case v' r.out, r.steps, r.count, r.im⟩
      match Sub.get v' s with
      | some (.con t _) => match findTag t bs with
        | some k => (contract n σ (decCase σ t bs (decL σ [v] c)) k s im).map Out.incr
        | none => keep
      | _ => keep
    | .fn B e =>
      let p := preFun σ c s B
      match contract n σ p.2.1 e p.2.2 im with
      | none => none
      | some r => match postFun (contract n) σ s r.count r.im p.1 with
        | none => none
        | some q => some ⟨mkFn q.out r.out, r.steps + q.steps + (if q.out = .nil then 1 else 0), q.count, q.im⟩
    | .app f t ys =>
      let f' := σ f
      let ys' := ys.map σ
      match inlinable c s im f' t ys.length with
      | some (xs, m) => (contract n (sets xs ys' σ) (countInl ys' xs (put c f' 0)) m s (put im f' true)).map Out.incr
      | none => some ⟨.app f' t ys', 0, c, im⟩

/-- The wrapper of `shrink_top` (shrink_cps.v:1397-1403). -/
def wrap (e : Exp) : Exp := .fn (.cons (Unc.maxVar e + 1) 1 (elements e.fv) e .nil) (.halt (Unc.maxVar e + 1))

/-- The fuel that the measure `term_sub_inl_size` gives. -/
def fuel (e : Exp) : Nat := tsize (wrap e) + 1

/-- `shrink_top` (shrink_cps.v:1396-1411); `none` is running out of fuel. -/
def shrinkTop (e : Exp) : Option (Exp × Nat) :=
  (contract (fuel e) id (initCensus (wrap e)) (wrap e) [] fun _ => false).map fun r =>
    match r.out with
    | .fn (.cons _ _ _ e' .nil) _ => (e', r.steps)
    | e' => (e', r.steps)

/-- `shrink_n_times'` (shrink_cps.v:1414-1421): the census is not taken again between the passes. -/
def shrinkTimes' : Nat → Exp → Count → Option (Exp × Count)
  | 0, e, c => some (e, c)
  | n + 1, e, c =>
    match contract (tsize e + 1) id c e [] fun _ => false with
    | none => none
    | some r => shrinkTimes' n r.out r.count

/-- `shrink_n_times` (shrink_cps.v:1424-1427). -/
def shrinkTimes (e : Exp) (n : Nat) : Option Exp := (shrinkTimes' n e (initCensus e)).map (·.1)

/-- `inline_loop_aux` (inline.v:232-244). -/
def inlineLoop {St : Type} (H : Inl.Heur St) (maxVar : Var) (d : Nat) (s : St) : Nat → Exp → Comp → Option (Exp × Comp)
  | 0, e, c => some (e, c)
  | n + 1, e, c =>
    let r := Inl.inlineTop' H maxVar d s e c
    match shrinkTop r.1 with
    | none => none
    | some (e', _) => if r.2.2 then inlineLoop H maxVar d s n e' r.2.1 else some (e', r.2.1)

/-- `inline_shrink_loop` (inline.v:435-436) runs `inline_loop` (inline.v:246), which has fuel 1000. -/
def inlineShrinkLoop (maxVar : Var) (bound d : Nat) (e : Exp) (c : Comp) : Option (Exp × Comp) :=
  inlineLoop (Inl.inlineSmall bound) maxVar d (fun _ => false) 1000 e c

end Shr
end ANF
