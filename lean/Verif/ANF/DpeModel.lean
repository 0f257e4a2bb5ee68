import Verif.ANF.Sem

/-!
# Dead parameter elimination: model of theories/LambdaANF/dead_param_elim.v

Simplifications: variable sets (`PS.t`) are finite sets; the compilation state is reduced to the next function tag (the
function-tag environment and the log do not influence the result); the state monad of `eliminate_*` never fails and
does not change the state, so those functions are pure.
-/

namespace ANF

/-- `live_fun` (dead_param_elim.v:20): the parameters of a function found live so far. -/
abbrev LiveFun := Var → Option (List Bool)

/-- `live_args` (28-35). -/
def liveArgs {α : Type} : List α → List Bool → List α
  | [], [] => []
  | y :: ys, b :: bs => if b then y :: liveArgs ys bs else liveArgs ys bs
  | ys, _ => ys

/-- `init_live_fun_aux`, with `get_bool_false` (38-58). -/
def initLive (m : LiveFun) : Defs → LiveFun
  | .cons f _ xs _ B => initLive (fun g => if g = f then some (xs.map fun _ => false) else m g) B
  | .nil => m

/-- `remove_escaping` (62-66). -/
def removeEsc (L : LiveFun) (f : Var) : LiveFun := fun g => if g = f then none else L g

/-- `remove_escapings` (68-69). -/
def removeEscs (L : LiveFun) (fs : List Var) : LiveFun := fs.foldl removeEsc L

mutual
/-- `escaping_fun_exp` (71-83). -/
def escE : Exp → LiveFun → LiveFun
  | .app _ _ ys, L => removeEscs L ys
  | .constr _ _ ys e, L => escE e (removeEscs L ys)
  | .proj _ _ _ y e, L => escE e (removeEsc L y)
  | .letapp _ _ _ ys e, L => escE e (removeEscs L ys)
  | .case _ bs, L => escBs bs L
  | .halt x, L => removeEsc L x
  | .fn B e, L => escE e (escB B L)
  | .primVal _ _ e, L => escE e L
  | .prim _ _ ys e, L => escE e (removeEscs L ys)
/-- The `fold_left` of line 78. -/
def escBs : Brs → LiveFun → LiveFun
  | .nil, L => L
  | .cons _ e bs, L => escBs bs (escE e L)
/-- `escaping_fun_fundefs` (84-90). -/
def escB : Defs → LiveFun → LiveFun
  | .nil, L => L
  | .cons _ _ _ e B, L => escB B (escE e L)
end

/-- `add_fun_vars` (94-100). -/
def addFunVars (L : LiveFun) (f : Var) (xs : List Var) (s : Finset Var) : Finset Var :=
  match L f with
  | some bs => s ∪ (liveArgs xs bs).toFinset
  | none => s ∪ xs.toFinset

mutual
/-- `live_expr` (103-122). -/
def liveE (L : LiveFun) : Exp → Finset Var → Finset Var
  | .constr _ _ ys e, s => liveE L e (s ∪ ys.toFinset)
  | .proj _ _ _ y e, s => liveE L e (insert y s)
  | .letapp _ f _ ys e, s => liveE L e (addFunVars L f ys (insert f s))
  | .case x bs, s => insert x (liveBs L bs s)
  | .halt x, s => insert x s
  | .app f _ ys, s => addFunVars L f ys (insert f s)
  | .fn _ _, s => s
  | .primVal _ _ e, s => liveE L e s
  | .prim _ _ ys e, s => liveE L e (s ∪ ys.toFinset)
/-- The `fold_left` of line 114. -/
def liveBs (L : LiveFun) : Brs → Finset Var → Finset Var
  | .nil, s => s
  | .cons _ e bs, s => liveBs L bs (liveE L e s)
end

/-- `update_bs` (124-133). -/
def updateBs (s : Finset Var) : List Var → List Bool → List Bool × Bool
  | x :: xs, b :: bs =>
    let (bs', d) := updateBs s xs bs
    if b then (b :: bs', d) else (decide (x ∈ s) :: bs', (b != decide (x ∈ s)) || d)
  | _, bs => (bs, false)

/-- `update_live_fun` (135-142). -/
def updateLive (L : LiveFun) (f : Var) (xs : List Var) (s : Finset Var) : LiveFun × Bool :=
  match L f with
  | some bs =>
    let (bs', diff) := updateBs s xs bs
    if diff then (fun g => if g = f then some bs' else L g, diff) else (L, diff)
  | none => (L, false)

/-- `live` (146-153). -/
def live : Defs → LiveFun → Bool → LiveFun × Bool
  | .cons f _ xs e B, L, diff =>
    let (L', d) := updateLive L f xs (liveE L e ∅)
    live B L' (d || diff)
  | .nil, L, diff => (L, diff)

/-- `find_live_helper` (158-164). -/
def findLiveHelper (B : Defs) : LiveFun → Nat → LiveFun
  | L, 0 => L
  | L, n + 1 =>
    let (L', diff) := live B L false
    if diff then findLiveHelper B L' n else L'

/-- `num_vars` (166-170). -/
def numVars : Defs → Nat → Nat
  | .cons _ _ xs _ B, n => numVars B (n + xs.length)
  | .nil, n => n

/-- `find_live` (173-182) on `Efun B e`. -/
def findLive (B : Defs) (e : Exp) : LiveFun :=
  findLiveHelper B (escE e (escB B (initLive (fun _ => none) B))) (numVars B 0 + 1)

mutual
/-- `make_arityMap` (203-217); the key `of_succ_nat (length xs)` is the length itself. -/
def arityE : Exp → (Nat → Option Tag) → Nat → Option Tag
  | .constr _ _ _ e, m => arityE e m
  | .case _ bs, m => arityBs bs m
  | .proj _ _ _ _ e, m => arityE e m
  | .letapp _ _ ft xs e, m => arityE e (fun k => if k = xs.length then some ft else m k)
  | .fn B e, m => arityE e (arityB B m)
  | .app _ ft xs, m => fun k => if k = xs.length then some ft else m k
  | .primVal _ _ e, m => arityE e m
  | .prim _ _ _ e, m => arityE e m
  | .halt _, m => m
/-- Line 207. -/
def arityBs : Brs → (Nat → Option Tag) → Nat → Option Tag
  | .nil, m => m
  | .cons _ e bs, m => arityBs bs (arityE e m)
/-- `make_arityMap_fundefs` (218-224). -/
def arityB : Defs → (Nat → Option Tag) → Nat → Option Tag
  | .nil, m => m
  | .cons _ ft xs e B, m => arityB B (arityE e (fun k => if k = xs.length then some ft else m k))
end

/-- `create_fun_tag`, with `make_ftag` (229-251): the new tag of every function whose parameters change; `c` is the next
unused function tag. -/
def createFunTag (L : LiveFun) (m : Nat → Option Tag) : Defs → Tag → (Var → Option Tag) → (Var → Option Tag) × Tag
  | .cons f _ ys _ B, c, fmap => match L f with
    | some bs => match m (liveArgs ys bs).length with
      | some t => createFunTag L m B c (fun g => if g = f then some t else fmap g)
      | none => createFunTag L m B (c + 1) (fun g => if g = f then some c else fmap g)
    | none => createFunTag L m B c fmap
  | .nil, c, fmap => (fmap, c)

mutual
/-- `is_hoisted_exp` (271-283). -/
def isHoistedE : Exp → Bool
  | .constr _ _ _ e => isHoistedE e
  | .proj _ _ _ _ e => isHoistedE e
  | .letapp _ _ _ _ e => isHoistedE e
  | .primVal _ _ e => isHoistedE e
  | .prim _ _ _ e => isHoistedE e
  | .case _ bs => isHoistedBs bs
  | .fn _ _ => false
  | .app _ _ _ => true
  | .halt _ => true
/-- Line 279. -/
def isHoistedBs : Brs → Bool
  | .nil => true
  | .cons _ e bs => isHoistedE e && isHoistedBs bs
end

/-- `is_hoisted_fundefs` (285-290). -/
def isHoistedB : Defs → Bool
  | .nil => true
  | .cons _ _ _ e B => isHoistedE e && isHoistedB B

/-- `is_hoisted` (292-296). -/
def isHoisted : Exp → Bool
  | .fn B e => isHoistedB B && isHoistedE e
  | e => isHoistedE e

/-- `get_fun_tag` (304-308). -/
def getFunTag (fmap : Var → Option Tag) (f : Var) : Tag := (fmap f).getD 1

mutual
/-- `eliminate_expr` (312-364). -/
def elimE (fmap : Var → Option Tag) (L : LiveFun) : Exp → Exp
  | .constr x t ys e => .constr x t ys (elimE fmap L e)
  | .proj x t m y e => .proj x t m y (elimE fmap L e)
  | .letapp x f ft ys e => match L f with
    | some bs => .letapp x f (getFunTag fmap f) (liveArgs ys bs) (elimE fmap L e)
    | none => .letapp x f ft ys (elimE fmap L e)
  | .case x bs => .case x (elimBs fmap L bs)
  | .halt x => .halt x
  | .fn B e => .fn B e
  | .primVal x p e => .primVal x p (elimE fmap L e)
  | .prim x p ys e => .prim x p ys (elimE fmap L e)
  | .app f ft ys => match L f with
    | some bs => .app f (getFunTag fmap f) (liveArgs ys bs)
    | none => .app f ft ys
/-- Lines 340-348. -/
def elimBs (fmap : Var → Option Tag) (L : LiveFun) : Brs → Brs
  | .nil => .nil
  | .cons t e bs => .cons t (elimE fmap L e) (elimBs fmap L bs)
end

/-- `eliminate_fundefs` (366-387). -/
def elimB (fmap : Var → Option Tag) (L : LiveFun) : Defs → Defs
  | .cons f ft ys e B => match L f with
    | some bs => .cons f (getFunTag fmap f) (liveArgs ys bs) (elimE fmap L e) (elimB fmap L B)
    | none => .cons f ft ys (elimE fmap L e) (elimB fmap L B)
  | .nil => .nil

/-- `DPE` (394-416); `c` is the next unused function tag. -/
def dpe (e : Exp) (c : Tag) : Exp :=
  if isHoisted e then
    match e with
    | .fn B e' =>
      let L := findLive B e'
      let m := arityE e (fun _ => none)
      let fmap := (createFunTag L m B c (fun _ => none)).1
      .fn (elimB fmap L B) (elimE fmap L e')
    | e => e
  else e

end ANF
