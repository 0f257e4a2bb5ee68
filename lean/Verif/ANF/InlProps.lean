import Verif.ANF.InlGen
import Verif.ANF.SemProps

/-!
# C39, C43: inlining
-/

namespace ANF
open Inl

theorem inl_start {e : Exp} (hc : e.fv = ∅) (hb : e.bv.Nodup) : Good (fun _ => none) e where
  nodup := hb
  disj := by simp [hc]
  body h := by cases h
  pair _ h := by cases h

theorem inl_gen {St : Type} (H : Heur St) (maxVar : Var) (d : Nat) (s : St) {e : Exp} (c : Comp) (hc : e.fv = ∅) (hb : e.bv.Nodup) :
    GenR d (fun _ => none) id e (restart maxVar e c).next (inlineTop H maxVar d s e c).1 (inlineTop H maxVar d s e c).2.next :=
  gen_ok H d d e id (fun _ => none) s ⟨(restart maxVar e c).next, false⟩ (inl_start hc hb) (by
    intro y hy
    rcases hy with hy | ⟨_, _, _, _, h, _⟩
    · simp [hc] at hy
    · cases h)

/-- C39: whatever the heuristic says, and however deep it inlines, inlining keeps the meaning of a closed program with
distinct binders. -/
theorem C39_any_heuristic {St : Type} (S : Sig) (H : Heur St) (maxVar : Var) (d : Nat) (s : St) {e : Exp} (c : Comp)
    (hc : e.fv = ∅) (hb : e.bv.Nodup) : Preserves S e S (inlineTop H maxVar d s e c).1 :=
  preserves_of_RE (inl_gen H maxVar d s c hc hb).rel hb hc

/-- C39: programs that return first-order data return the same data. -/
theorem C39_data {St : Type} (S : Sig) (H : Heur St) (maxVar : Var) (d : Nat) (s : St) {e : Exp} (c : Comp)
    (hc : e.fv = ∅) (hb : e.bv.Nodup) {v : FO} (hr : Returns S emp e v.toVal) :
    Returns S emp (inlineTop H maxVar d s e c).1 v.toVal :=
  (C39_any_heuristic S H maxVar d s c hc hb).data hr

/-- C39: the pass after uncurrying, for any marks left by uncurrying. -/
theorem C39_uncurry (S : Sig) (maxVar : Var) (bound d : Nat) (marks : Var → Option Nat) {e : Exp} (c : Comp)
    (hc : e.fv = ∅) (hb : e.bv.Nodup) : Preserves S e S (inlineUncurry maxVar bound d marks e c).1 :=
  C39_any_heuristic S _ maxVar d _ c hc hb

/-- C39: the pass at the end of the pipeline, which inlines wrappers of lifted functions. -/
theorem C39_lifted (S : Sig) (maxVar : Var) (d : Nat) {e : Exp} (c : Comp) (hc : e.fv = ∅) (hb : e.bv.Nodup) :
    Preserves S e S (inlineTop inlineLifted maxVar d (fun _ => false) e c).1 :=
  C39_any_heuristic S _ maxVar d _ c hc hb

/-- C43: inlining renames every binder, copies included, to a different new one above the reserved names; no variable
becomes free, and no tag is matched on that was not. -/
theorem C43_inline {St : Type} (H : Heur St) (maxVar : Var) (d : Nat) (s : St) {e : Exp} (c : Comp)
    (hc : e.fv = ∅) (hb : e.bv.Nodup) :
    (inlineTop H maxVar d s e c).1.bv.Nodup ∧
    (∀ x ∈ (inlineTop H maxVar d s e c).1.bv, maxVar < x ∧ x < (inlineTop H maxVar d s e c).2.next) ∧
    (inlineTop H maxVar d s e c).1.fv = ∅ ∧
    (∀ t ∈ (inlineTop H maxVar d s e c).1.caseTags, t ∈ e.caseTags) := by
  have h := inl_gen H maxVar d s c hc hb
  refine ⟨h.nodup, fun x hx => ⟨?_, h.lt x hx⟩, ?_, ?_⟩
  · have := h.rel.bv x hx
    simp only [restart, hc, Finset.sup_empty] at this
    exact lt_of_lt_of_le (by simp) this
  · refine Finset.eq_empty_of_forall_notMem fun z hz => ?_
    obtain ⟨y, hy, _⟩ := h.rel.fv z hz
    rcases hy with hy | ⟨_, _, _, _, h, _⟩
    · simp [hc] at hy
    · cases h
  · exact h.rel.caseTags (T := (· ∈ e.caseTags)) (by intro _ _ _ _ h; cases h) fun t ht => ht

/-! ## The statements are about real programs -/

/-- A function `10` used in a let and in tail position, whose body calls the second function of the bundle, `12`. -/
def inlDemo : Exp :=
  .constr 20 1 [] (.fn (.cons 10 3 [11] (.constr 14 2 [11] (.app 12 3 [14])) (.cons 12 3 [13] (.constr 15 2 [13] (.halt 15)) .nil))
    (.letapp 21 10 3 [20] (.app 10 3 [21])))

/-- The state before the pass. -/
def inlDemoState : Comp := ⟨100, 200, 300, 400, demoSig.cenv⟩

example : inlDemo.fv = ∅ ∧ inlDemo.bv.Nodup := ⟨by decide, by decide⟩

example : Returns demoSig emp inlDemo (FO.con 2 [.con 2 [.con 2 [.con 2 [.con 1 []]]]]).toVal := ⟨5, rfl⟩

/-- Everything is inlined: the calls of both functions are replaced by their bodies. -/
example : (inlineTop (inlineSmall 10) 50 20 (fun _ => false) inlDemo inlDemoState).1.bv.length = 12 ∧ inlDemo.bv.length = 8 := by
  decide +kernel

/-- Only marked functions are inlined: the let-bound and the tail call of `10`. -/
example : (inlineUncurry 50 0 20 (fun x => if x = 10 then some 1 else none) inlDemo inlDemoState).1.bv.length = 10 := by
  decide +kernel

end ANF
