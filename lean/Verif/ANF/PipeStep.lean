import Verif.ANF.PipeModel
import Verif.ANF.DpeWf
import Verif.ANF.UncProps
import Verif.ANF.InlProps
import Verif.ANF.ShrCps
import Verif.ANF.LlProps
import Verif.ANF.CcProps

/-!
# The optimising pipeline: each pass
-/

namespace ANF
namespace Pipe
open Ctor (PMap cloTag cloIndTag)

/-- Closed, with distinct binders below the counter. -/
structure Wf (e : Exp) (c : Comp) : Prop where
  closed : e.fv = ∅
  nodup : e.bv.Nodup
  below : ∀ x ∈ e.bv, x < c.next

/-- All binders, and those to come, are above `r`. -/
def Above (r : Var) (e : Exp) (c : Comp) : Prop := r < c.next ∧ ∀ x ∈ e.bv, r < x

/-- What a pass that makes no constructors does; `r` is the last reserved variable; `h`: it keeps hoisted programs hoisted. -/
structure Step (r : Var) (h : Prop) (e : Exp) (c : Comp) (e' : Exp) (c' : Comp) : Prop where
  wf : Wf e' c'
  pres : ∀ S, Preserves S e S e'
  same : Ll.Same c c'
  feats : ∀ P : Feat → Prop, (∀ t n, P (.call t n)) → e.All P → e'.All P
  hoisted : h → Hoisted e → Hoisted e'
  above : Above r e c → Above r e' c'

theorem Step.refl {r h e c} (w : Wf e c) : Step r h e c e c :=
  ⟨w, fun S => .refl S e, ⟨rfl, rfl, rfl⟩, fun _ _ h => h, fun _ h => h, fun h => h⟩

theorem Step.trans {r h e c e' c' e'' c''} (a : Step r h e c e' c') (b : Step r h e' c' e'' c'') : Step r h e c e'' c'' :=
  ⟨b.wf, fun S => (a.pres S).trans (b.pres S), a.same.trans b.same, fun P hP he => b.feats P hP (a.feats P hP he),
    fun hh he => b.hoisted hh (a.hoisted hh he), fun h => b.above (a.above h)⟩

/-- A pass that succeeds on well-formed programs. -/
def Sound (r : Var) (h : Prop) (p : Pass) : Prop := ∀ e c, Wf e c → ∃ e' c', p e c = some (e', c') ∧ Step r h e c e' c'

theorem Sound.andThen {r h p q} (hp : Sound r h p) (hq : Sound r h q) : Sound r h (p.andThen q) := by
  intro e c w
  obtain ⟨e₁, c₁, h1, s1⟩ := hp e c w
  obtain ⟨e₂, c₂, h2, s2⟩ := hq e₁ c₁ s1.wf
  exact ⟨e₂, c₂, by rw [Pass.andThen, h1]; exact h2, s1.trans s2⟩

theorem Sound.when {r h p} (b : Bool) (hp : b = true → Sound r h p) : Sound r h (Pass.when b p) := by
  intro e c w
  cases b with
  | true => exact hp rfl e c w
  | false => exact ⟨e, c, rfl, .refl w⟩

theorem shrink_sound (r : Var) (h : Prop) : Sound r h shrink := by
  intro e c w
  obtain ⟨e', n, h1, ⟨d, hs⟩, hn, hsub, _⟩ := Shr.shrink_spec w.closed w.nodup
  obtain ⟨s1, s2, s3, s4⟩ := C43_shrink w.closed w.nodup h1
  have hT : ∀ P, Shr.FactsAll (fun _ => none) P := by intro P _ _ _ _ _ h; cases h
  refine ⟨e', c, by rw [shrink, h1]; rfl, ⟨s3, s1, fun x hx => w.below x (s2 x hx)⟩, fun S => ?_, ⟨rfl, rfl, rfl⟩,
    fun P _ he => hs.all hn (hT P) he, fun _ he => hs.hoisted hn (hT _) he, fun h => ⟨h.1, fun x hx => h.2 x (s2 x hx)⟩⟩
  obtain ⟨e₁, n₁, h₁, p⟩ := C41_shrink S w.closed w.nodup
  rw [h1] at h₁; cases h₁
  exact p

/-- The first pass, also on a program in continuation-passing style. -/
theorem first_step (r : Var) {e : Exp} {c : Comp} (hc : e.fv = ∅) (hb : e.bv.Nodup ∨ Shr.WholeCps e) (hlt : ∀ x ∈ e.bv, x < c.next) :
    ∃ e', shrink e c = some (e', c) ∧ Step r False e c e' c := by
  obtain ⟨e', n, h1, ⟨d, hs⟩, hn, hsub⟩ : ∃ e' n, Shr.shrinkTop e = some (e', n) ∧ (∃ d, Shr.SE d (fun _ => none) id e e') ∧
      e'.bv.Nodup ∧ ∀ y ∈ e'.bv, y ∈ e.bv := by
    rcases hb with hb | ⟨f, k, x, t, m, rfl, h1, h2⟩
    · obtain ⟨e', n, h1, h2, h3, h4, _⟩ := Shr.shrink_spec hc hb
      exact ⟨e', n, h1, h2, h3, h4⟩
    · obtain ⟨e', n, h1, h2, h3, h4, _⟩ := Shr.shrink_whole (t := t) h1 h2
      exact ⟨e', n, h1, h2, h3, h4⟩
  have hT : ∀ P, Shr.FactsAll (fun _ => none) P := by intro P _ _ _ _ _ h; cases h
  have hf : e'.fv = ∅ := Finset.eq_empty_of_forall_notMem fun y hy => by
    rcases hs.free hn y hy with ⟨z, hz, _⟩ | ⟨_, _, h, _⟩
    · simp [hc] at hz
    · cases h
  exact ⟨e', by rw [shrink, h1]; rfl, ⟨hf, hn, fun x hx => hlt x (hsub x hx)⟩, fun S => Shr.preserves_of_SE hs hc hf, ⟨rfl, rfl, rfl⟩,
    fun P _ he => hs.all hn (hT P) he, False.elim, fun h => ⟨h.1, fun x hx => h.2 x (hsub x hx)⟩⟩

theorem inline_step (h : Prop) {St : Type} (H : Inl.Heur St) (maxVar : Var) (d : Nat) (s : St) {e : Exp} {c : Comp} (w : Wf e c) :
    Step maxVar h e c (Inl.inlineTop H maxVar d s e c).1 (Inl.inlineTop H maxVar d s e c).2 ∧
      Above maxVar (Inl.inlineTop H maxVar d s e c).1 (Inl.inlineTop H maxVar d s e c).2 := by
  obtain ⟨i1, i2, i3, _⟩ := C43_inline H maxVar d s c w.closed w.nodup
  have g := inl_gen H maxVar d s c w.closed w.nodup
  have ha : Above maxVar (Inl.inlineTop H maxVar d s e c).1 (Inl.inlineTop H maxVar d s e c).2 :=
    ⟨lt_of_lt_of_le (Nat.lt_succ_of_le (le_max_right _ _)) g.le, fun x hx => (i2 x hx).1⟩
  refine ⟨?_, ha⟩
  exact ⟨⟨i3, i1, fun x hx => (i2 x hx).2⟩, fun S => C39_any_heuristic S H maxVar d s c w.closed w.nodup, ⟨rfl, rfl, rfl⟩,
    fun P _ he => g.rel.all .none he, fun _ he => g.rel.hoisted he, fun _ => ha⟩

theorem inline_sound (h : Prop) {St : Type} (H : Inl.Heur St) (maxVar : Var) (d : Nat) (s : St) :
    Sound maxVar h (fun e c => some (Inl.inlineTop H maxVar d s e c)) := fun _ _ w => ⟨_, _, rfl, (inline_step h H maxVar d s w).1⟩

theorem loop_sound (h : Prop) {St : Type} (H : Inl.Heur St) (maxVar : Var) (d : Nat) (s : St) : ∀ n : Nat, Sound maxVar h (Shr.inlineLoop H maxVar d s n)
  | 0 => fun e c w => ⟨e, c, rfl, .refl w⟩
  | n + 1 => fun e c w => by
    have h1 := (inline_step h H maxVar d s w).1
    obtain ⟨e₂, c₂, h2, s2⟩ := shrink_sound maxVar h _ _ h1.wf
    rw [shrink] at h2
    obtain ⟨⟨e₃, k⟩, h3, h4⟩ := Option.map_eq_some_iff.mp h2
    simp only [Prod.mk.injEq] at h4
    obtain ⟨rfl, rfl⟩ := h4
    have e1 : (Inl.inlineTop' H maxVar d s e c).1 = (Inl.inlineTop H maxVar d s e c).1 := rfl
    have e2 : (Inl.inlineTop' H maxVar d s e c).2.1 = (Inl.inlineTop H maxVar d s e c).2 := rfl
    rw [Shr.inlineLoop]
    simp only [e1, e2, h3]
    split
    · obtain ⟨e', c', r1, r2⟩ := loop_sound h H maxVar d s n _ _ s2.wf
      exact ⟨e', c', r1, (h1.trans s2).trans r2⟩
    · exact ⟨_, _, rfl, h1.trans s2⟩

theorem inlineShrinkLoop_sound (h : Prop) (maxVar : Var) (bound d : Nat) : Sound maxVar h (Shr.inlineShrinkLoop maxVar bound d) :=
  loop_sound h _ maxVar d _ 1000

theorem uncurry_step (r : Var) {cps : Bool} {e : Exp} {c : Comp} (w : Wf e c) (h1 : 1 < c.next) :
    ∃ e' c', Unc.uncurryTop cps e c = some (e', c') ∧ Step r False e c e' c' := by
  obtain ⟨⟨e', c'⟩, h⟩ := Option.isSome_iff_exists.mp (C38_total (cps := cps).mpr ⟨by simp [w.closed], w.below, h1⟩)
  obtain ⟨u1, u2, u3, u4, u5, u6, u7, u8, u9⟩ := C43_uncurry h
  refine ⟨e', c', h, ⟨Finset.subset_empty.mp (by rw [← w.closed]; exact u4), u2 w.nodup, u3⟩, fun S => C38_preserves S h, ⟨u7, u8, u9⟩,
    fun P hP he => ?_, False.elim, fun ha => ⟨lt_of_lt_of_le ha.1 u6, fun x hx => ?_⟩⟩
  rotate_left
  · have h1 := u1 x
    have h2 := List.count_pos_iff.mpr hx
    split at h1
    · next h3 => exact lt_of_lt_of_le ha.1 h3.1
    · exact ha.2 x (List.count_pos_iff.mp (by omega))
  unfold Unc.uncurryTop at h
  split at h
  · cases h
    exact Unc.uncE_all hP cps e _ he
  · cases h

theorem lift_sound (r : Var) (args push : Nat) (inl : Bool) : Sound r False (Ll.lambdaLift args push inl) := by
  intro e c w
  have hi : LlInput e c := ⟨w.closed, w.nodup, w.below⟩
  obtain ⟨⟨e', c'⟩, h⟩ := Option.isSome_iff_exists.mp (C40_total (maxArgs := args) (maxPush := push) (inl := inl) hi)
  obtain ⟨l1, l2, l3, l4, l5, l6⟩ := C43_lambda_lift hi h
  have ha := fun P (hP : ∀ t n, P (.call t n)) he => Ll.llE_all (P := P) hP e he h
  exact ⟨e', c', h, ⟨l4, l2, l3⟩, fun S => C40_preserves S hi h, (ha (fun _ => True) (fun _ _ => trivial) (Exp.all_true e)).2,
    fun P hP he => (ha P hP he).1, False.elim, fun hr => ⟨lt_of_lt_of_le hr.1 l6, fun x hx => by
      have h1 := l1 x
      have h2 := List.count_pos_iff.mpr hx
      split at h1
      · next h3 => exact lt_of_lt_of_le hr.1 h3.1
      · exact hr.2 x (List.count_pos_iff.mp (by omega))⟩⟩

theorem dead_sound (r : Var) (h : Prop) : Sound r h deadParams := by
  intro e c w
  obtain ⟨d1, d2, d3⟩ := C43_dpe c.ftag w.nodup
  exact ⟨_, _, rfl, ⟨Finset.subset_empty.mp (by rw [← w.closed]; exact d2), d1.nodup w.nodup, fun x hx => w.below x (d1.subset hx)⟩,
    fun S => C42_preserves S c.ftag w.nodup, ⟨rfl, rfl, rfl⟩, fun P hP he => dpe_all hP _ he, fun _ he => dpe_hoisted _ he,
    fun h => ⟨h.1, fun x hx => h.2 x (d1.subset hx)⟩⟩

/-- The passes before closure conversion. -/
theorem front_step (o : Opts) (reserved : Var) (marks : Var → Option Nat) {e : Exp} {c : Comp} (hc : e.fv = ∅)
    (hb : e.bv.Nodup ∨ Shr.WholeCps e) (hlt : ∀ x ∈ e.bv, x < c.next) (h1 : 1 < c.next) :
    ∃ e' c', front o reserved marks e c = some (e', c') ∧ Step reserved False e c e' c' ∧ Above reserved e' c' := by
  obtain ⟨e₁, h2, s2⟩ := first_step reserved hc hb hlt
  obtain ⟨e₂, c₂, h3, s3⟩ := uncurry_step reserved (cps := o.cps) s2.wf h1
  obtain ⟨si, ha⟩ := inline_step False (Inl.inlineSmallOrMarked 10) reserved 100 (fun _ => false, marks) s3.wf
  obtain ⟨e₃, c₃, h4, s4⟩ := Sound.andThen (Sound.when o.inlBefore fun _ => inlineShrinkLoop_sound False reserved 10 100)
      (Sound.andThen (.when o.lift fun _ => lift_sound reserved o.args o.noPush o.inlWrappers) (shrink_sound reserved False)) _ _ si.wf
  refine ⟨e₃, c₃, ?_, ((s2.trans s3).trans si).trans s4, s4.above ha⟩
  rw [front, Pass.andThen, h2]
  show Pass.andThen _ _ _ _ = _
  rw [Pass.andThen, h3]
  exact h4

/-- The passes after it. -/
theorem back_sound (o : Opts) (reserved : Var) (h : Prop) : Sound reserved h (back o reserved) :=
  (shrink_sound reserved h).andThen (Sound.andThen (.when o.inlAfter fun _ => inlineShrinkLoop_sound h reserved 10 100)
    (Sound.andThen (.when o.dpe fun _ => dead_sound reserved h) ((shrink_sound reserved h).andThen
      (.when o.inlKnown fun _ => inline_sound h _ reserved 1000 _))))

end Pipe
end ANF
