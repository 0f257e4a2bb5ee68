import Verif.ANF.HoistLemmas
import Verif.ANF.SemProps

/-! # C37: hoisting flattens functions and preserves results -/

namespace ANF

/-- C37: the output of hoisting has at most one bundle, at the top, and no function definitions inside — for every
term. -/
theorem C37_flat (e : Exp) : Hoisted (hoist e) := hoist_hoisted e

/-- C37: for every program with distinct binders whose functions
refer to nothing but functions from outside, the hoisted program returns a value that
looks the same and diverges if the original does; first-order results are equal. -/
theorem C37_preserves (S : Sig) {e : Exp} (hn : e.bv.Nodup) (hc : e.FnsClosed (fnE e)) : Preserves S e S (hoist e) :=
  preserves_of_lockstep (R := HRel (accE e .nil)) (fun _ _ h => h.obs) (hoist_lockstep S hn hc)

/-- C37: same, for a first-order result. -/
theorem C37_data (S : Sig) {e : Exp} (hn : e.bv.Nodup) (hc : e.FnsClosed (fnE e)) {d : FO}
    (h : Returns S emp e d.toVal) : Returns S emp (hoist e) d.toVal := (C37_preserves S hn hc).data h

/-- C37: hoisting moves definitions without losing or duplicating any: the function names of the output are those of
the input, and so are all binders. -/
theorem C37_binders (e : Exp) : (hoist e).bv.Perm e.bv := hoist_bv e

/-- C37: hoisting leaves no new free variables, so a closed program stays closed. -/
theorem C37_closed {e : Exp} (hc : e.FnsClosed (fnE e)) : (hoist e).fv ⊆ e.fv := hoist_fv hc

/-- C37: the closedness hypothesis is needed.  A function using a variable of its surroundings is broken by hoisting:
`let x = C1 in let f y = x in f x` returns a constructor, its hoisted form goes wrong. -/
theorem C37_open_refuted : ∃ e : Exp, e.bv.Nodup ∧ e.fv = ∅ ∧ (∃ v, Returns demoSig emp e v) ∧
    GoesWrong demoSig emp (hoist e) :=
  ⟨.constr 1 1 [] (.fn (.cons 2 3 [3] (.halt 1) .nil) (.app 2 3 [1])), by decide, by decide,
    ⟨.constr 1 [], 1, rfl⟩, 1, rfl⟩

/-- A program with functions nested in a function and in a branch. -/
def hoistDemo : Exp :=
  .fn (.cons 10 3 [11] (.fn (.cons 12 3 [13] (.halt 13) .nil) (.letapp 14 12 3 [11] (.constr 15 2 [14] (.halt 15)))) .nil)
    (.constr 20 1 [] (.case 20 (.cons 1 (.fn (.cons 16 3 [17] (.constr 18 2 [17] (.halt 18)) .nil)
      (.letapp 21 10 3 [20] (.app 16 3 [21]))) (.cons 2 (.halt 20) .nil))))

example : hoistDemo.bv.Nodup ∧ hoistDemo.FnsClosed (fnE hoistDemo) ∧ ¬ Hoisted hoistDemo ∧
    (∃ n, run demoSig n emp hoistDemo = .val (.constr 2 [.constr 2 [.constr 1 []]])) :=
  ⟨by decide, by simp only [hoistDemo, Defs.FnsClosed, Exp.FnsClosed, Brs.FnsClosed]; decide,
    by simp [hoistDemo, Hoisted, Defs.NoFn, Exp.NoFn], 2, rfl⟩

example : run demoSig 2 emp (hoist hoistDemo) = .val (.constr 2 [.constr 2 [.constr 1 []]]) := rfl

end ANF
