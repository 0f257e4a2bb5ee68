import Verif.ANF.LlModel

/-!
# Inlining

Models theories/LambdaANF/inline.v:15-236 (the pass), 239-420 (heuristics) and inline_letapp.v:14-53.

Simplifications: a renaming (`r_map`) is the function it denotes (`apply_r`, rename.v:17-21); the tables of pretty names
are dropped; the monad's state is the counter of variables and the flag that is set when a function was inlined.
-/

namespace ANF
namespace Inl
open Ll (put)

/-- Evaluation contexts (`exp_ctx`, ctx.v:15-28), without `Ecase_c` and `Efun2_c`, which inlining does not build. -/
inductive Ctx
  | hole
  | constr (x : Var) (t : Tag) (ys : List Var) (C : Ctx)
  | proj (x : Var) (t : Tag) (n : Nat) (y : Var) (C : Ctx)
  | primVal (x : Var) (p : PVal) (C : Ctx)
  | prim (x : Var) (p : Tag) (ys : List Var) (C : Ctx)
  | letapp (x : Var) (f : Var) (ft : Tag) (ys : List Var) (C : Ctx)
  | fn (B : Defs) (C : Ctx)

/-- `app_ctx_f` (ctx.v:69-81). -/
def Ctx.plug : Ctx → Exp → Exp
  | .hole, e => e
  | .constr x t ys C, e => .constr x t ys (C.plug e)
  | .proj x t n y C, e => .proj x t n y (C.plug e)
  | .primVal x p C, e => .primVal x p (C.plug e)
  | .prim x p ys C, e => .prim x p ys (C.plug e)
  | .letapp x f ft ys C, e => .letapp x f ft ys (C.plug e)
  | .fn B C, e => .fn B (C.plug e)

/-- `inline_letapp` (inline_letapp.v:14-53): the context that computes the result of a straight-line term and the
variable that holds it. -/
def inlineLet : Exp → Var → Option (Ctx × Var)
  | .constr x t ys e, z => (inlineLet e z).map fun r => (.constr x t ys r.1, r.2)
  | .case _ _, _ => none
  | .proj x t n y e, z => (inlineLet e z).map fun r => (.proj x t n y r.1, r.2)
  | .letapp x f ft ys e, z => (inlineLet e z).map fun r => (.letapp x f ft ys r.1, r.2)
  | .fn B e, z => (inlineLet e z).map fun r => (.fn B r.1, r.2)
  | .app f ft ys, z => some (.letapp z f ft ys .hole, z)
  | .primVal x p e, z => (inlineLet e z).map fun r => (.primVal x p r.1, r.2)
  | .prim x p ys e, z => (inlineLet e z).map fun r => (.prim x p ys r.1, r.2)
  | .halt x, _ => some (.hole, x)

/-- `fun_map` (inline.v:27). -/
abbrev FM := Var → Option (Tag × List Var × Exp)

/-- `add_fundefs` (inline.v:56-60). -/
def addDefs : Defs → FM → FM
  | .nil, fm => fm
  | .cons f t xs e B, fm => put (addDefs B fm) f (some (t, xs, e))

/-- `set_list (combine xs ys) sig` (map_util.v:164). -/
def sets : List Var → List Var → (Var → Var) → Var → Var
  | x :: xs, y :: ys, σ => put (sets xs ys σ) x y
  | _, _, σ => σ

/-- `InlineHeuristic` (inline.v:18-25). -/
structure Heur (St : Type) where
  funDef : Defs → (Var → Var) → St → St × St
  inFun : Var → Tag → List Var → Exp → (Var → Var) → St → St
  app : Var → Tag → List Var → St → St × Bool
  letApp : Var → Tag → List Var → St → St × St × Bool

/-- The state of the monad (state.v `next_var`; `inline_state`, inline.v:29-31). -/
structure IS where
  next : Var
  click : Bool

/-- `get_fresh_name` (inline.v:45-47): the name is the old `next`. -/
def IS.bump (s : IS) : IS := { s with next := s.next + 1 }

/-- `get_fresh_names` (inline.v:49-51): the names are `next`, `next + 1`, … -/
def IS.bumps (s : IS) (n : Nat) : IS := { s with next := s.next + n }

/-- The first component of `split_fuel` (inline.v:76-78). -/
def fuel1 (d : Nat) : Nat := d / 2

/-- The second component of `split_fuel` (inline.v:76-78). -/
def fuel2 (d : Nat) : Nat := d / 2 + d % 2

/-- The inliner with one level of depth less. -/
abbrev Rec (St : Type) := Option (Nat → Exp → (Var → Var) → FM → St → IS → Exp × IS)

section
variable {St : Type} (H : Heur St) (rec : Rec St) (j : Nat)

mutual
/-- `inline_exp_aux` (inline.v:88-186). -/
def inlE : Exp → (Var → Var) → FM → St → IS → Exp × IS
  | .constr x t ys e, σ, fm, s, i =>
    let r := inlE e (put σ x i.next) fm s i.bump
    (.constr i.next t (ys.map σ) r.1, r.2)
  | .case x bs, σ, fm, s, i =>
    let r := inlB bs σ fm s i
    (.case (σ x) r.1, r.2)
  | .proj x t n y e, σ, fm, s, i =>
    let r := inlE e (put σ x i.next) fm s i.bump
    (.proj i.next t n (σ y) r.1, r.2)
  | .letapp x f t ys ec, σ, fm, s, i =>
    let u := H.letApp f t (ys.map σ) s
    let keep (i : IS) : Exp × IS :=
      let r := inlE ec (put σ x i.next) fm u.1 i.bump
      (.letapp i.next (σ f) t (ys.map σ) r.1, r.2)
    match u.2.2, fm f, rec, j with
    | true, some (_, xs, e), some rec, j' + 1 =>
      if xs.length = ys.length then
        let r := rec (fuel1 j') e (sets xs (ys.map σ) σ) (put fm f none) u.1 i.bump
        match inlineLet r.1 i.next with
        | some (C, z) =>
          let q := rec (fuel2 j') ec (put σ x z) fm u.2.1 { r.2 with click := true }
          (C.plug q.1, q.2)
        | none => keep r.2
      else keep i
    | _, _, _, _ => keep i
  | .fn B e, σ, fm, s, i =>
    let fm' := addDefs B fm
    let u := H.funDef B σ s
    let σ' := sets B.names (List.range' i.next B.names.length) σ
    let r := inlD B σ σ' fm' u.1 (i.bumps B.names.length)
    let q := inlE e σ' fm' u.2 r.2
    (.fn r.1 q.1, q.2)
  | .app f t ys, σ, fm, s, i =>
    let u := H.app f t (ys.map σ) s
    match u.2, fm f, rec, j with
    | true, some (_, xs, e), some rec, j' + 1 =>
      if xs.length = ys.length then
        rec j' e (sets xs (ys.map σ) σ) (put fm f none) u.1 { i with click := true }
      else (.app (σ f) t (ys.map σ), i)
    | _, _, _, _ => (.app (σ f) t (ys.map σ), i)
  | .primVal x p e, σ, fm, s, i =>
    let r := inlE e (put σ x i.next) fm s i.bump
    (.primVal i.next p r.1, r.2)
  | .prim x p ys e, σ, fm, s, i =>
    let r := inlE e (put σ x i.next) fm s i.bump
    (.prim i.next p (ys.map σ) r.1, r.2)
  | .halt x, σ, _, _, i => (.halt (σ x), i)
/-- `beta_list` (inline.v:97-104). -/
def inlB : Brs → (Var → Var) → FM → St → IS → Brs × IS
  | .nil, _, _, _, i => (.nil, i)
  | .cons t e bs, σ, fm, s, i =>
    let r := inlE e σ fm s i
    let q := inlB bs σ fm s r.2
    (.cons t r.1 q.1, q.2)
/-- `inline_exp_fds` (inline.v:146-157); the first renaming is the one outside the bundle. -/
def inlD : Defs → (Var → Var) → (Var → Var) → FM → St → IS → Defs × IS
  | .nil, _, _, _, _, i => (.nil, i)
  | .cons f t xs e B, σ, σ', fm, s, i =>
    let r := inlE e (sets xs (List.range' i.next xs.length) σ') (put fm f none) (H.inFun f t xs e σ s) (i.bumps xs.length)
    let q := inlD B σ σ' fm s r.2
    (.cons (σ' f) t (List.range' i.next xs.length) r.1 q.1, q.2)
end

end

/-- `inline_exp` (inline.v:86-188): at most `d` nested inlinings. -/
def inlExp {St : Type} (H : Heur St) : Nat → Nat → Exp → (Var → Var) → FM → St → IS → Exp × IS
  | 0, j => inlE H none j
  | d + 1, j => inlE H (some (inlExp H d)) j

/-- `restart_names` (inline.v:203-215): the counter restarts above the free and the reserved variables. -/
def restart (maxVar : Var) (e : Exp) (c : Comp) : Comp :=
  { c with next := max (e.fv.sup id) maxVar + 1 }

/-- `inline_top'` (inline.v:219-222). -/
def inlineTop' {St : Type} (H : Heur St) (maxVar : Var) (d : Nat) (s : St) (e : Exp) (c : Comp) : Exp × Comp × Bool :=
  let c := restart maxVar e c
  let r := inlExp H d d e id (fun _ => none) s ⟨c.next, false⟩
  (r.1, { c with next := r.2.next }, r.2.click)

/-- `inline_top` (inline.v:224-226). -/
def inlineTop {St : Type} (H : Heur St) (maxVar : Var) (d : Nat) (s : St) (e : Exp) (c : Comp) : Exp × Comp :=
  let r := inlineTop' H maxVar d s e c
  (r.1, r.2.1)

/-! ## Heuristics -/

/-- `CombineInlineHeuristic` (inline.v:258-283). -/
def combine {S₁ S₂ : Type} (deci : Bool → Bool → Bool) (H₁ : Heur S₁) (H₂ : Heur S₂) : Heur (S₁ × S₂) where
  funDef B σ s :=
    let a := H₁.funDef B σ s.1
    let b := H₂.funDef B σ s.2
    ((a.1, b.1), (a.2, b.2))
  inFun f t xs e σ s := (H₁.inFun f t xs e σ s.1, H₂.inFun f t xs e σ s.2)
  app f t ys s :=
    let a := H₁.app f t ys s.1
    let b := H₂.app f t ys s.2
    ((a.1, b.1), deci a.2 b.2)
  letApp f t ys s :=
    let a := H₁.letApp f t ys s.1
    let b := H₂.letApp f t ys s.2
    ((a.1, b.1), (a.2.1, b.2.1), deci a.2.2 b.2.2)

mutual
/-- `term_size` (shrink_cps.v:54-67). -/
def sizeE : Exp → Nat
  | .constr _ _ _ e => 1 + sizeE e
  | .case _ bs => 1 + sizeB bs
  | .proj _ _ _ _ e => 1 + sizeE e
  | .letapp _ _ _ _ e => 1 + sizeE e
  | .app _ _ _ => 1
  | .primVal _ _ e => 1 + sizeE e
  | .prim _ _ _ e => 1 + sizeE e
  | .fn B e => 1 + sizeD B + sizeE e
  | .halt _ => 1
/-- The branches of a match (shrink_cps.v:57-59). -/
def sizeB : Brs → Nat
  | .nil => 0
  | .cons _ e bs => sizeB bs + sizeE e
/-- `funs_size` (shrink_cps.v:68-72). -/
def sizeD : Defs → Nat
  | .nil => 1
  | .cons _ _ _ e B => 1 + sizeD B + sizeE e
end

mutual
/-- `do_inline` (inline.v:298-310). -/
def doInline (f : Var) : Exp → Bool
  | .constr _ _ _ e => doInline f e
  | .case _ _ => false
  | .proj _ _ _ _ e => doInline f e
  | .letapp _ f' _ _ e => f != f' && doInline f e
  | .app f' _ _ => f != f'
  | .primVal _ _ e => doInline f e
  | .prim _ _ _ e => doInline f e
  | .fn B e => doInlineD f B && doInline f e
  | .halt _ => true
/-- `forall_fundefs (do_inline f)` (inline.v:285-292). -/
def doInlineD (f : Var) : Defs → Bool
  | .nil => true
  | .cons _ _ _ e B => doInline f e && doInlineD f B
end

/-- The marking of small functions (inline.v:317-323). -/
def markSmall (bound : Nat) : Defs → (Var → Bool) → Var → Bool
  | .nil, s => s
  | .cons f _ _ e B, s => markSmall bound B (if sizeE e < bound ∧ doInline f e = true then put s f true else s)

/-- `InlineSmall` (inline.v:313-337); a map of booleans is its set of true entries. -/
def inlineSmall (bound : Nat) : Heur (Var → Bool) where
  funDef B _ s := (markSmall bound B s, markSmall bound B s)
  inFun f _ _ _ _ s := put s f false
  app f _ _ s := if s f then (put s f false, true) else (s, false)
  letApp f _ _ s := if s f then (put s f false, s, true) else (s, s, false)

/-- `InlinedUncurriedMarked` (inline.v:341-358); the marks are those of uncurrying (`inline_map`, state.v). -/
def inlineMarked : Heur (Var → Option Nat) where
  funDef _ _ s := (s, s)
  inFun _ _ _ _ _ s := s
  app f _ _ s := (s, s f == some 1 || s f == some 2)
  letApp f _ _ s := (s, s, s f == some 1 || s f == some 2)

/-- `InlineSmallOrUncurried` (inline.v:440-441). -/
def inlineSmallOrMarked (bound : Nat) : Heur ((Var → Bool) × (Var → Option Nat)) :=
  combine (· || ·) (inlineSmall bound) inlineMarked

/-- `inline_uncurry` (inline.v:443-445), given the marks. -/
def inlineUncurry (maxVar : Var) (bound d : Nat) (marks : Var → Option Nat) (e : Exp) (c : Comp) : Exp × Comp :=
  inlineTop (inlineSmallOrMarked bound) maxVar d (fun _ => false, marks) e c

/-- `is_wrapper` (inline.v:454-465). -/
def wrapped : Exp → Option Var
  | .constr _ _ _ e => wrapped e
  | .proj _ _ _ _ e => wrapped e
  | .primVal _ _ e => wrapped e
  | .prim _ _ _ e => wrapped e
  | .app g _ _ => some g
  | _ => none

/-- `InineLifted` (inline.v:472-487). -/
def inlineLifted : Heur (Var → Bool) where
  funDef _ _ s := (s, s)
  inFun f _ _ e _ s := put (match wrapped e with | some g => put s g true | none => s) f false
  app f _ _ s := (s, s f)
  letApp f _ _ s := (s, s, s f)

/-- `InlineNone` (inline.v:495-500): only renames. -/
def inlineNone : Heur Unit where
  funDef _ _ _ := ((), ())
  inFun _ _ _ _ _ _ := ()
  app _ _ _ _ := ((), false)
  letApp _ _ _ _ := ((), (), false)

end Inl
end ANF
