import Verif.ANF.LlBind
import Verif.ANF.SemProps

/-!
# C40, C43: lambda lifting
-/

namespace ANF
open Ll

/-- Programs lambda lifting is run on: closed, with distinct binders that are below the counter. -/
structure LlInput (e : Exp) (c : Comp) : Prop where
  closed : e.fv = ∅
  nodup : e.bv.Nodup
  below : ∀ x ∈ e.bv, x < c.next

theorem LlInput.gen {e c} (h : LlInput e c) (maxArgs maxPush : Nat) (dec : List Var → Finset Var → Bool) :
    ∃ e' c', llE maxArgs maxPush dec e ∅ id (fun _ => none) ∅ c = some (e', c') ∧
      LE c.next c.next ∅ (fun _ => none) id e e' ∧ c.next ≤ c'.next :=
  genE e ⟨by simp [h.closed], h.nodup, fun x hx => ⟨by simp, h.below x hx⟩⟩
    ⟨le_rfl, fun _ => .inl rfl, by simp, by simp [kn]⟩ (by intro f; simp [kn])

/-- C40: whatever the decision which calls go to the lifted functions, and whatever the limits on arguments and pushes,
lifting keeps the meaning. -/
theorem C40_any_decision (S : Sig) {maxArgs maxPush : Nat} {dec : List Var → Finset Var → Bool} {e e' : Exp} {c c' : Comp}
    (hi : LlInput e c) (h : llE maxArgs maxPush dec e ∅ id (fun _ => none) ∅ c = some (e', c')) : Preserves S e S e' := by
  obtain ⟨e₁, c₁, h1, h2, _⟩ := hi.gen maxArgs maxPush dec
  rw [h] at h1; cases h1
  exact preserves_of_LE h2 le_rfl

/-- C40: the pass returns a program that computes a value that looks the same, and that diverges if the program does. -/
theorem C40_preserves (S : Sig) {maxArgs maxPush : Nat} {inl : Bool} {e e' : Exp} {c c' : Comp} (hi : LlInput e c)
    (h : lambdaLift maxArgs maxPush inl e c = some (e', c')) : Preserves S e S e' :=
  C40_any_decision S hi h

/-- C40: programs that return first-order data return the same data. -/
theorem C40_data (S : Sig) {maxArgs maxPush : Nat} {inl : Bool} {e e' : Exp} {c c' : Comp} (hi : LlInput e c)
    (h : lambdaLift maxArgs maxPush inl e c = some (e', c')) {d : FO} (hr : Returns S emp e d.toVal) :
    Returns S emp e' d.toVal :=
  (C40_preserves S hi h).data hr

/-- C40: the internal errors of the pass are unreachable. -/
theorem C40_total {maxArgs maxPush : Nat} {inl : Bool} {e : Exp} {c : Comp} (hi : LlInput e c) :
    (lambdaLift maxArgs maxPush inl e c).isSome := by
  obtain ⟨e', c', h, _⟩ := hi.gen maxArgs maxPush (if inl then liftAll else liftConservative)
  rw [lambdaLift, h]; rfl

/-- C40, in part: lifting adds at most the configured number of parameters to a function.  The claim that the total stays
within the limit is false: see `C40_limit_refuted`. -/
theorem C40_limit_partial {maxArgs maxPush : Nat} {inl : Bool} {e e' : Exp} {c c' : Comp} {K : Nat}
    (hK : ∀ n ∈ e.arities, n ≤ K) (h : lambdaLift maxArgs maxPush inl e c = some (e', c')) :
    ∀ n ∈ e'.arities, n ≤ K + maxArgs :=
  arE e hK (by simp) h

/-- A function `10` of two parameters that uses the variable `20`. -/
def limitDemo : Exp :=
  .constr 20 1 [] (.fn (.cons 10 3 [11, 12] (.constr 13 2 [20] (.halt 13)) .nil) (.app 10 3 [20, 20]))

/-- The state before the pass. -/
def llDemoState : Comp := ⟨100, 200, 300, 400, demoSig.cenv⟩

/-- C40: the limit on parameters is not respected: `fundefs_max_params` forgets the maximum it has computed, so a function
that already has as many parameters as the limit allows still gets another one. -/
theorem C40_limit_refuted : ∃ (maxArgs maxPush : Nat) (e e' : Exp) (c c' : Comp), LlInput e c ∧
    lambdaLift maxArgs maxPush true e c = some (e', c') ∧ (∀ n ∈ e.arities, n ≤ maxArgs) ∧ ∃ n ∈ e'.arities, maxArgs < n :=
  ⟨2, 1, limitDemo, _, llDemoState, _, ⟨by decide, by decide, by decide⟩, rfl, by decide, by decide⟩

/-- C43: after lambda lifting every binder is one of the program or new, each is bound at most once; no variable becomes
free; the same tags are matched on; and only the counters of variables and function tags change. -/
theorem C43_lambda_lift {maxArgs maxPush : Nat} {inl : Bool} {e e' : Exp} {c c' : Comp} (hi : LlInput e c)
    (h : lambdaLift maxArgs maxPush inl e c = some (e', c')) :
    (∀ x, e'.bv.count x ≤ e.bv.count x + if c.next ≤ x ∧ x < c'.next then 1 else 0) ∧ e'.bv.Nodup ∧
    (∀ x ∈ e'.bv, x < c'.next) ∧ e'.fv = ∅ ∧ e'.caseTags = e.caseTags ∧ c.next ≤ c'.next := by
  have hg := bindE e hi.nodup h
  obtain ⟨e₁, c₁, h1, h2, h3⟩ := hi.gen maxArgs maxPush (if inl then liftAll else liftConservative)
  rw [lambdaLift] at h
  rw [h] at h1; cases h1
  refine ⟨hg.2, hg.nodup hi.nodup hi.below, ?_, ?_, h2.caseTags, h3⟩
  · intro x hx
    rcases hg.mem hx with h | h
    · exact (hi.below x h).trans_le h3
    · exact h.2
  · refine Finset.eq_empty_of_forall_notMem fun z hz => ?_
    rcases h2.free ⟨le_rfl, fun _ => .inl rfl, by simp, by simp⟩ z hz with ⟨y, hy, _⟩ | ⟨f, _, _, _, hf, _⟩
    · simp at hy
    · cases hf

/-! ## The statements are about real programs -/

/-- Two functions `10` and `12`, the first calling the second, which uses `20`; `10` escapes as an argument of `14`. -/
def llDemo : Exp :=
  .constr 20 1 [] (.fn (.cons 10 3 [11] (.app 12 3 [11]) (.cons 12 3 [13] (.constr 15 2 [20] (.halt 15)) .nil))
    (.fn (.cons 14 3 [16, 17] (.letapp 18 16 3 [17] (.constr 19 2 [18] (.halt 19))) .nil)
      (.letapp 21 10 3 [20] (.app 14 3 [10, 21]))))

example : LlInput llDemo llDemoState := ⟨by decide, by decide, by decide⟩

example : Returns demoSig emp llDemo (FO.con 2 [.con 2 [.con 1 []]]).toVal := ⟨5, rfl⟩

/-- The functions are lifted, with wrappers for the escaping uses. -/
example : (lambdaLift 5 1 true llDemo llDemoState).map (·.1.arities) = some [2, 1, 1, 2, 1, 1, 1, 1, 2, 2, 2] := by
  decide +kernel

/-- With no room for arguments the first bundle is left alone and the second, which is closed, is lifted. -/
example : (lambdaLift 0 1 false llDemo llDemoState).map (·.1.arities) = some [1, 1, 2, 2, 2] := by decide +kernel

end ANF
