import Verif.ANF.Sem
import Mathlib.Data.Finset.Lattice.Fold

/-! # The compiler state shared by the LambdaANF transformations: theories/LambdaANF/state.v -/

namespace ANF

/-- `comp_data` (state.v:25-34) without the tables of pretty names, function tags' arities, inlining marks and log:
they do not influence the terms produced. -/
structure Comp where
  next : Var
  ctag : Tag
  itag : Tag
  ftag : Tag
  cenv : Ctor.PMap Ctor.Info

/-- The state after `get_name`, `get_named`, `get_named_str` (state.v:45-50, 82-98): the fresh variable is the old
`next`. -/
def Comp.bump (s : Comp) : Comp := { s with next := s.next + 1 }

/-- The state after `make_record_ctor_tag n` (state.v:101-112): the fresh tag is the old `ctag`. -/
def Comp.record (s : Comp) (n : Nat) : Comp :=
  { s with ctag := s.ctag + 1, itag := s.itag + 1, cenv := s.cenv.set s.ctag ⟨none, none, s.itag, n, 0⟩ }

/-- `PS.elements` (lib/set_util.v; MSetRBT): the members of a finite set in increasing order.  (The order of the code's
sets is the one of positives as bit strings; only that each member is listed once matters.) -/
def elements (s : Finset Var) : List Var := (List.range (s.sup id + 1)).filter (· ∈ s)

end ANF
