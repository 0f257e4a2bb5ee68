import Verif.ANF.UncBind
import Verif.ANF.SemProps

/-!
# C38, C43: uncurrying
-/

namespace ANF
open Unc

/-- C38: whenever uncurrying succeeds, the result returns a value that looks the same and diverges if the program does.
Nothing is assumed of the program: neither distinct binders nor closedness. -/
theorem C38_preserves (S : Sig) {cps : Bool} {e e' : Exp} {c c' : Comp} (h : uncurryTop cps e c = some (e', c')) :
    Preserves S e S e' := by
  unfold uncurryTop at h
  split at h
  · next hm =>
    simp only [Option.some.injEq, Prod.mk.injEq] at h
    obtain ⟨rfl, -⟩ := h
    exact chain_preserves S (uncE_chain cps e ⟨c.next, c.ftag, fun _ => none, fun _ => false⟩ (below_maxVar hm))
  · cases h

/-- C38: programs that return first-order data return the same data. -/
theorem C38_data (S : Sig) {cps : Bool} {e e' : Exp} {c c' : Comp} (h : uncurryTop cps e c = some (e', c')) {d : FO}
    (hr : Returns S emp e d.toVal) : Returns S emp e' d.toVal :=
  (C38_preserves S h).data hr

/-- C38: the pass succeeds exactly when the counter is above every variable of the program (and above one). -/
theorem C38_total {cps : Bool} {e : Exp} {c : Comp} :
    (uncurryTop cps e c).isSome ↔ (∀ x ∈ e.fv, x < c.next) ∧ (∀ x ∈ e.bv, x < c.next) ∧ 1 < c.next := by
  unfold uncurryTop
  constructor
  · intro h
    split at h
    · next hm =>
      exact ⟨(below_maxVar hm).1, (below_maxVar hm).2, lt_of_le_of_lt (le_max_right _ _) hm⟩
    · cases h
  · rintro ⟨h1, h2, h3⟩
    rw [if_pos]
    · rfl
    · refine max_lt ?_ h3
      rw [Finset.sup_lt_iff (lt_trans (show (⊥ : Nat) < 1 by decide) h3)]
      intro x hx
      rw [Finset.mem_union, List.mem_toFinset] at hx
      exact hx.elim (h1 x) (h2 x)

/-- C43: the binders after uncurrying are those of the program and, once each, the variables from the old counter up to
the new one; distinct binders stay distinct; no free variable appears; the same tags are matched on; only the counters
for variables and function tags change, and they grow. -/
theorem C43_uncurry {cps : Bool} {e e' : Exp} {c c' : Comp} (h : uncurryTop cps e c = some (e', c')) :
    (∀ x, e'.bv.count x = e.bv.count x + if c.next ≤ x ∧ x < c'.next then 1 else 0) ∧
    (e.bv.Nodup → e'.bv.Nodup) ∧ (∀ x ∈ e'.bv, x < c'.next) ∧ e'.fv ⊆ e.fv ∧ e'.caseTags = e.caseTags ∧
    c.next ≤ c'.next ∧ c'.cenv = c.cenv ∧ c'.ctag = c.ctag ∧ c'.itag = c.itag := by
  unfold uncurryTop at h
  split at h
  · next hm =>
    simp only [Option.some.injEq, Prod.mk.injEq] at h
    obtain ⟨rfl, rfl⟩ := h
    have hb := below_maxVar hm
    have ha := uncE_adds cps e ⟨c.next, c.ftag, fun _ => none, fun _ => false⟩
    have hc := uncE_chain cps e ⟨c.next, c.ftag, fun _ => none, fun _ => false⟩ hb
    exact ⟨ha.2, fun hn => ha.nodup hn hb.2, (ChainE.stop' hc).2, fun x hx => chain_fv hc x hx,
      uncE_caseTags cps e _, ha.1, rfl, rfl, rfl⟩
  · cases h

/-! ## The statements are about real programs -/

/-- A curried function of three arguments that returns its second, fully and partially applied. -/
def uncDemo : Exp :=
  .fn (.cons 10 3 [11] (.fn (.cons 12 3 [13] (.fn (.cons 14 3 [15] (.constr 16 2 [13] (.halt 16)) .nil) (.halt 14)) .nil)
      (.halt 12)) .nil)
    (.constr 20 1 [] (.letapp 21 10 3 [20] (.letapp 22 21 3 [20] (.letapp 23 22 3 [20] (.letapp 24 21 3 [23]
      (.letapp 25 24 3 [20] (.halt 25)))))))

/-- The state before uncurrying. -/
def uncDemoState : Comp := ⟨100, 200, 300, 400, demoSig.cenv⟩

/-- The function becomes three: two wrappers and one that takes all arguments at once. -/
example : (uncurryTop false uncDemo uncDemoState).map (fun p => (p.1.bv.length, p.2.next)) = some (20, 107) := by decide

example : Returns demoSig emp uncDemo (FO.con 2 [.con 2 [.con 1 []]]).toVal := ⟨6, rfl⟩

example : ∃ e' c', uncurryTop false uncDemo uncDemoState = some (e', c') ∧ e' ≠ uncDemo ∧
    ∃ n, run demoSig n emp e' = .val (.constr 2 [.constr 2 [.constr 1 []]]) := ⟨_, _, rfl, by decide, 9, rfl⟩

/-- A curried function in continuation-passing style: `10` takes a continuation and an argument and passes the
function `12` to its continuation. -/
def uncCpsDemo : Exp :=
  .fn (.cons 10 3 [11, 13] (.fn (.cons 12 3 [14, 15] (.constr 16 2 [13] (.app 14 2 [16])) .nil) (.app 11 2 [12])) .nil)
    (.constr 20 1 [] (.fn (.cons 30 2 [31] (.fn (.cons 32 2 [33] (.halt 33) .nil) (.app 31 3 [32, 20])) .nil)
      (.app 10 3 [30, 20])))

example : Returns demoSig emp uncCpsDemo (FO.con 2 [.con 1 []]).toVal := ⟨4, rfl⟩

example : ∃ e' c', uncurryTop true uncCpsDemo uncDemoState = some (e', c') ∧ e' ≠ uncCpsDemo ∧ e'.bv.length = 16 ∧
    ∃ n, run demoSig n emp e' = .val (.constr 2 [.constr 1 []]) := ⟨_, _, rfl, by decide, by decide, 5, rfl⟩

end ANF
