import Verif.ANF.CcWf
import Verif.ANF.HoistProps

/-! # C36: closure conversion produces closed functions and preserves results -/

namespace ANF
open Ctor (PMap cloTag)

/-- The constructor environment after a pass. -/
def Sig.after (S : Sig) (s : Comp) : Sig := ⟨s.cenv, S.prims⟩

/-- What the pipeline guarantees about the input: closed, distinct binders, a state whose next variable and next tag are
fresh, and no `match` on the closure tag. -/
structure CcInput (e : Exp) (s : Comp) : Prop where
  closed : e.fv = ∅
  nodup : e.bv.Nodup
  vars : ∀ x ∈ e.bv, x < s.next
  tags : ∀ t ∈ e.caseTags, t < s.ctag ∧ t ≠ cloTag

theorem CcInput.map {e : Exp} {s : Comp} (h : CcInput e s) :
    (fun x => if x ∈ e.fv then some VInfo.bound else none) = PMap.empty := by
  funext x; rw [h.closed]; simp [PMap.empty]

/-- C36: for every closed program with distinct binders, the converted program returns a value that looks the same
(a function is represented by a closure record) and diverges if the original does. -/
theorem C36_preserves (S : Sig) {e : Exp} {s : Comp} (h : CcInput e s) (hS : S.cenv = s.cenv) :
    Preserves S e (S.after (closureConversion e s).2) (closureConversion e s).1 := by
  refine preserves_of_lockstep (R := Cc.CRel s.next (fun t => t < s.ctag ∧ t ≠ cloTag)) (fun _ _ h => h.obs)
    (fun n => ?_)
  refine Cc.run_sim (S := S) (S' := S.after (closureConversion e s).2) ?_ rfl n e emp emp _
    ⟨(fun x => if x ∈ e.fv then some VInfo.bound else none), (fun _ => false), 1, s.next, s.bump, rfl,
      ⟨h.nodup, ?_, ?_, h.tags⟩, ⟨Nat.le_refl _, Nat.lt_succ_self _, ?_⟩, ?_⟩
  · intro t ht
    have hle := Cc.ccE_le e (fun x => if x ∈ e.fv then some VInfo.bound else none) (fun _ => false) 1 s.next s.bump
    show addClosureTag _ t = S.cenv t
    unfold addClosureTag
    rw [Cc.pset_other ht.2, hS, hle.cenv t ht.1]
    rfl
  · intro x hx; exact ⟨h.vars x hx, rfl⟩
  · rw [h.closed]; intro x hx; cases hx
  · intro x env hx
    rw [h.closed] at hx; simp at hx
  · rw [h.closed]; intro x hx; cases hx

/-- C36: first-order results are equal. -/
theorem C36_data (S : Sig) {e : Exp} {s : Comp} (h : CcInput e s) (hS : S.cenv = s.cenv) {d : FO}
    (hr : Returns S emp e d.toVal) : Returns (S.after (closureConversion e s).2) emp (closureConversion e s).1 d.toVal :=
  (C36_preserves S h hS).data hr

theorem cc_good {e : Exp} {s : Comp} (h : CcInput e s) :
    Cc.Good e PMap.empty s.next (fnE e) (s.next + 1) (closureConversion e s).2.next (closureConversion e s).1 := by
  have := Cc.ccE_good (fnE e) e (fun x => if x ∈ e.fv then some VInfo.bound else none) (fun _ => false) 1 s.next s.bump h.nodup
    (fun x hx => by have := h.vars x hx; have : s.bump.next = s.next + 1 := rfl; vomega)
    (fun x hx => by cases hx) (fun x hx => by cases hx) (fun x hx => hx)
  rw [h.map] at this
  have he : (fun x => if x ∈ e.fv then some VInfo.bound else none) = PMap.empty := h.map
  unfold closureConversion
  dsimp only
  rw [he]
  exact this

/-- C36: in the converted program no function refers to a variable of its surroundings, only to functions of the
program, which are the functions of the source. -/
theorem C36_closed {e : Exp} {s : Comp} (h : CcInput e s) :
    (closureConversion e s).1.FnsClosed (fnE (closureConversion e s).1) ∧
      fnE (closureConversion e s).1 = fnE e := by
  have hg := cc_good h
  exact ⟨by rw [hg.fns]; exact hg.closed, hg.fns⟩

/-- C36: the converted program is closed, its binders are distinct and below the next fresh variable, and it matches on
the same tags. -/
theorem C36_wellformed {e : Exp} {s : Comp} (h : CcInput e s) :
    (closureConversion e s).1.fv = ∅ ∧ (closureConversion e s).1.bv.Nodup ∧
      (∀ x ∈ (closureConversion e s).1.bv, x < (closureConversion e s).2.next) ∧
      (closureConversion e s).1.caseTags = e.caseTags := by
  have hg := cc_good h
  refine ⟨?_, hg.bv.nodup, ?_, hg.tags⟩
  · rw [Finset.eq_empty_iff_forall_notMem]
    intro y hy
    obtain ⟨x, hx, _⟩ := hg.fv y hy
    rw [h.closed] at hx; cases hx
  · intro x hx
    have hle : s.bump.next ≤ (closureConversion e s).2.next :=
      (Cc.ccE_le e (fun x => if x ∈ e.fv then some VInfo.bound else none) (fun _ => false) 1 s.next s.bump).next
    have : s.bump.next = s.next + 1 := rfl
    rcases hg.bv.mem x hx with h' | h'
    · have := h.vars x h'; vomega
    · exact h'.2

/-- C36 and C37 together, as in the pipeline (closure_conversion_hoist): every closed program becomes a flat, closed
program with the same behaviour. -/
theorem C36_hoist (S : Sig) {e : Exp} {s : Comp} (h : CcInput e s) (hS : S.cenv = s.cenv) :
    Preserves S e (S.after (closureConversion e s).2) (hoist (closureConversion e s).1) ∧
      Hoisted (hoist (closureConversion e s).1) ∧ (hoist (closureConversion e s).1).fv = ∅ ∧
      (hoist (closureConversion e s).1).bv.Nodup := by
  obtain ⟨w1, w2, _, _⟩ := C36_wellformed h
  have hc := (C36_closed h).1
  refine ⟨(C36_preserves S h hS).trans (C37_preserves _ w2 hc), C37_flat _, ?_, ?_⟩
  · have := C37_closed hc
    rw [w1] at this
    exact Finset.subset_empty.mp this
  · exact (C37_binders _).nodup_iff.mpr w2

/-- A program with a closed function, used by an open one which also refers to itself and to an outer variable, and a
function returned as a value. -/
def ccDemo : Exp :=
  .fn (.cons 10 3 [11] (.constr 12 2 [11] (.halt 12)) .nil)
    (.constr 20 1 [] (.fn (.cons 21 3 [22] (.case 22 (.cons 1 (.app 10 3 [20]) (.cons 2 (.proj 23 2 0 22
      (.letapp 24 21 3 [23] (.letapp 26 10 3 [24] (.halt 26)))) .nil))) .nil)
      (.constr 27 2 [20] (.app 21 3 [27]))))

/-- The state before closure conversion. -/
def ccDemoState : Comp := ⟨100, 200, 300, 400, demoSig.cenv⟩

example : CcInput ccDemo ccDemoState := ⟨by decide, by decide, by decide, by decide⟩

example : (∃ n, run demoSig n emp ccDemo = .val (.constr 2 [.constr 2 [.constr 1 []]])) ∧
    ∃ n, run (demoSig.after (closureConversion ccDemo ccDemoState).2) n emp (hoist (closureConversion ccDemo ccDemoState).1)
      = .val (.constr 2 [.constr 2 [.constr 1 []]]) := ⟨⟨4, rfl⟩, 4, rfl⟩

/-- C36: what is shown is needed: an open function whose environment is not built goes wrong once hoisted
(see `C37_open_refuted`), so the source program above cannot be hoisted directly. -/
example : ¬ ccDemo.FnsClosed (fnE ccDemo) := by
  simp only [ccDemo, Exp.FnsClosed, Defs.FnsClosed, Brs.FnsClosed]; decide

end ANF
