import Verif.ANF.UncModel
import Verif.ANF.InlModel
import Verif.ANF.ShrModel
import Verif.ANF.LlModel
import Verif.ANF.CcModel
import Verif.ANF.HoistModel
import Verif.ANF.DpeModel

/-!
# The optimising pipeline

Models `anf_pipeline`, `run_anf_pipeline` and `make_anf_options` (theories/LambdaANF/toplevel.v:126-266).

Simplifications: timing, pretty names, the log, and the table of arities of function tags are dropped; the marks which
uncurrying leaves for the inliner are an argument `marks` (theorems quantify over them); the reserved variable `next_var`
of the section is an argument `reserved`.
-/

namespace ANF
namespace Pipe

/-- `anf_options` (toplevel.v:126-137). -/
structure Opts where
  cps : Bool
  lift : Bool
  args : Nat
  noPush : Nat
  inlWrappers : Bool
  inlKnown : Bool
  inlBefore : Bool
  inlAfter : Bool
  dpe : Bool

/-- The flags of `make_anf_options` (toplevel.v:235-253): `inl_wrappers`, `inl_known`, `no_push`, `inl_before`,
`inl_after`. -/
def flags : Nat → Bool × Bool × Nat × Bool × Bool
  | 1 => (false, false, 1, true, true)
  | 2 => (true, true, 1, true, true)
  | 3 => (true, false, 0, true, true)
  | 4 => (true, false, 2, true, true)
  | 5 => (true, false, 10, true, true)
  | 6 => (true, false, 1, false, true)
  | 7 => (true, false, 1, true, false)
  | 8 => (true, false, 1, false, false)
  | 9 => (true, false, 1000, true, true)
  | _ => (true, false, 1, true, true)

/-- `make_anf_options` (toplevel.v:235-266); `direct`, `o_level`, `c_args` and `anf_conf` are the user's options. -/
def makeOptions (direct : Bool) (oLevel cArgs anfConf : Nat) : Opts :=
  let (inlWrappers, inlKnown, noPush, inlBefore, inlAfter) := flags anfConf
  { cps := !direct, lift := 1 ≤ oLevel, args := if anfConf = 9 then 1000 else cArgs, noPush, inlWrappers, inlKnown, inlBefore, inlAfter,
    dpe := true }

/-- `anf_trans` (toplevel.v:143). -/
abbrev Pass := Exp → Comp → Option (Exp × Comp)

/-- `bind` of `MonadState` (toplevel.v:146-155). -/
def Pass.andThen (p q : Pass) : Pass := fun e c => (p e c).bind fun r => q r.1 r.2

/-- `if b then p else id_trans` (toplevel.v:158). -/
def Pass.when (b : Bool) (p : Pass) : Pass := fun e c => if b then p e c else some (e, c)

/-- `shrink_err` (shrink_cps.v:1431). -/
def shrink : Pass := fun e c => (Shr.shrinkTop e).map fun r => (r.1, c)

/-- `closure_conversion_hoist` (hoisting.v:97-101). -/
def closureHoist : Pass := fun e c => let r := closureConversion e c; some (hoist r.1, r.2)

/-- `DPE` (dead_param_elim.v:394-416) with the counter of function tags. -/
def deadParams : Pass := fun e c =>
  some (ANF.dpe e c.ftag, { c with ftag := match e with
    | .fn B k => if isHoisted e then (createFunTag (findLive B k) (arityE e (fun _ => none)) B c.ftag (fun _ => none)).2 else c.ftag
    | _ => c.ftag })

/-- The passes before closure conversion (toplevel.v:170-180). -/
def front (o : Opts) (reserved : Var) (marks : Var → Option Nat) : Pass :=
  shrink.andThen <|
  Pass.andThen (Unc.uncurryTop o.cps) <|
  Pass.andThen (fun e c => some (Inl.inlineUncurry reserved 10 100 marks e c)) <|
  Pass.andThen (Pass.when o.inlBefore (Shr.inlineShrinkLoop reserved 10 100)) <|
  Pass.andThen (Pass.when o.lift (Ll.lambdaLift o.args o.noPush o.inlWrappers)) shrink

/-- The passes after closure conversion (toplevel.v:182-193). -/
def back (o : Opts) (reserved : Var) : Pass :=
  shrink.andThen <|
  Pass.andThen (Pass.when o.inlAfter (Shr.inlineShrinkLoop reserved 10 100)) <|
  Pass.andThen (Pass.when o.dpe deadParams) <|
  shrink.andThen <|
  Pass.when o.inlKnown (fun e c => some (Inl.inlineTop Inl.inlineLifted reserved 1000 (fun _ => false) e c))

/-- `anf_pipeline` (toplevel.v:169-193). -/
def anfPipeline (o : Opts) (reserved : Var) (marks : Var → Option Nat) : Pass :=
  (front o reserved marks).andThen (closureHoist.andThen (back o reserved))

/-- The state `run_anf_pipeline` starts from (toplevel.v:195-203): the counter of variables restarts above the program.
`ftag` is the next function tag. -/
def initial (e : Exp) (ctag itag ftag : Tag) (cenv : Ctor.PMap Ctor.Info) : Comp := ⟨Unc.maxVar e + 1, ctag, itag, ftag, cenv⟩

end Pipe
end ANF
