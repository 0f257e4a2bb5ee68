import Verif.ANF.PipeStep

/-!
# C46: the optimising pipeline
-/

namespace ANF
open Ctor (PMap cloTag cloIndTag)
open Pipe

/-- What the conversions to LambdaANF guarantee: a closed program with distinct binders (but for the repetition in the result
of CPS conversion), a state whose next variable and
constructor tag are fresh, and no `match` on the closure tag. -/
structure PipeInput (e : Exp) (c : Comp) : Prop where
  closed : e.fv = ∅
  binders : e.bv.Nodup ∨ Shr.WholeCps e
  below : ∀ x ∈ e.bv, x < c.next
  next : 1 < c.next
  tags : ∀ t ∈ e.caseTags, t < c.ctag ∧ t ≠ cloTag

/-- The pipeline in three parts. -/
theorem pipe_spec (o : Opts) (reserved : Var) (marks : Var → Option Nat) {e : Exp} {c : Comp} (h : PipeInput e c) :
    ∃ e₁ c₁ e' c', anfPipeline o reserved marks e c = some (e', c') ∧ Step reserved False e c e₁ c₁ ∧ CcInput e₁ c₁ ∧
      Above reserved e₁ c₁ ∧ Step reserved True (hoist (closureConversion e₁ c₁).1) (closureConversion e₁ c₁).2 e' c' := by
  obtain ⟨e₁, c₁, h1, s1, ha⟩ := front_step o reserved marks h.closed h.binders h.below h.next
  have hi : CcInput e₁ c₁ := ⟨s1.wf.closed, s1.wf.nodup, s1.wf.below, fun t ht => by
    have ha := s1.feats (TagsIn fun t => t < c.ctag ∧ t ≠ cloTag) (fun _ _ => trivial) (Exp.all_of_tags h.tags)
    have := Exp.all_tags ha t ht
    rw [s1.same.2.1]; exact this⟩
  obtain ⟨_, _, w3, _⟩ := C36_wellformed hi
  obtain ⟨_, hh, hf, hn⟩ := C36_hoist ⟨c₁.cenv, fun _ _ => none⟩ hi rfl
  obtain ⟨e', c', h2, s2⟩ := back_sound o reserved True _ (closureConversion e₁ c₁).2 ⟨hf, hn, fun x hx => w3 x ((C37_binders _).subset hx)⟩
  refine ⟨e₁, c₁, e', c', ?_, s1, hi, ha, s2⟩
  rw [anfPipeline, Pass.andThen, h1]
  exact h2

/-- C46: with any options and any marks left for the inliner, the pipeline succeeds on every such program.  The result is
closed, has distinct binders below the next variable, and all its functions are defined at the top. -/
theorem C46_total (o : Opts) (reserved : Var) (marks : Var → Option Nat) {e : Exp} {c : Comp} (h : PipeInput e c) :
    ∃ e' c', anfPipeline o reserved marks e c = some (e', c') ∧ Hoisted e' ∧ e'.fv = ∅ ∧ e'.bv.Nodup ∧ ∀ x ∈ e'.bv, x < c'.next := by
  obtain ⟨e₁, c₁, e', c', hp, _, hi, _, s⟩ := pipe_spec o reserved marks h
  have hh := (C36_hoist ⟨c₁.cenv, fun _ _ => none⟩ hi rfl).2.1
  exact ⟨e', c', hp, s.hoisted trivial hh, s.wf.closed, s.wf.nodup, s.wf.below⟩

/-- C46: the optimised program returns a value that looks the same as the program's, and diverges if the program does. -/
theorem C46_preserves (S : Sig) {o : Opts} {reserved : Var} {marks : Var → Option Nat} {e e' : Exp} {c c' : Comp} (h : PipeInput e c)
    (hS : S.cenv = c.cenv) (hp : anfPipeline o reserved marks e c = some (e', c')) : Preserves S e (S.after c') e' := by
  obtain ⟨e₁, c₁, e₂, c₂, hp', s1, hi, _, s2⟩ := pipe_spec o reserved marks h
  rw [hp] at hp'; cases hp'
  have h1 := (s1.pres S).trans (C36_hoist S hi (by rw [hS, s1.same.1])).1
  have h2 := h1.trans (s2.pres _)
  have : S.after (closureConversion e₁ c₁).2 = S.after c' := by simp only [Sig.after, s2.same.1]
  rwa [this] at h2

/-- C46: programs that return first-order data return the same data after optimisation. -/
theorem C46_data (S : Sig) {o : Opts} {reserved : Var} {marks : Var → Option Nat} {e e' : Exp} {c c' : Comp} (h : PipeInput e c)
    (hS : S.cenv = c.cenv) (hp : anfPipeline o reserved marks e c = some (e', c')) {d : FO} (hr : Returns S emp e d.toVal) :
    Returns (S.after c') emp e' d.toVal :=
  (C46_preserves S h hS hp).data hr

/-- C46, C49: in the optimised program all binders are above the reserved variables, whatever the binders of the program were. -/
theorem C46_above {o : Opts} {reserved : Var} {marks : Var → Option Nat} {e e' : Exp} {c c' : Comp} (h : PipeInput e c)
    (hp : anfPipeline o reserved marks e c = some (e', c')) : ∀ x ∈ e'.bv, reserved < x := by
  obtain ⟨e₁, c₁, e₂, c₂, hp', s1, hi, ha, s2⟩ := pipe_spec o reserved marks h
  rw [hp] at hp'; cases hp'
  have hle : c₁.bump.next ≤ (closureConversion e₁ c₁).2.next :=
    (Cc.ccE_le e₁ (fun x => if x ∈ e₁.fv then some VInfo.bound else none) (fun _ => false) 1 c₁.next c₁.bump).next
  have hb : c₁.bump.next = c₁.next + 1 := rfl
  have h1 := ha.1
  refine (s2.above ⟨by vomega, fun x hx => ?_⟩).2
  rcases (cc_good hi).bv.mem x ((C37_binders _).subset hx) with h' | h'
  · exact ha.2 x h'
  · have := h'.1; vomega

/-- What holds of the constructor environment and the next tags, and is kept by each new record of closure conversion, holds
after the pipeline once the closure tag has been described. -/
theorem pipe_env {o : Opts} {reserved : Var} {marks : Var → Option Nat} {e e' : Exp} {c c' : Comp} (h : PipeInput e c)
    (hp : anfPipeline o reserved marks e c = some (e', c')) {I : PMap Ctor.Info → Tag → Tag → Prop}
    (hrec : ∀ ce ct it n, I ce ct it → I (ce.set ct ⟨none, none, it, n, 0⟩) (ct + 1) (it + 1)) (h0 : I c.cenv c.ctag c.itag) :
    ∃ ce, c'.cenv = addClosureTag ce ∧ I ce c'.ctag c'.itag := by
  obtain ⟨e₁, c₁, e₂, c₂, hp', s1, hi, _, s2⟩ := pipe_spec o reserved marks h
  rw [hp] at hp'; cases hp'
  have h1 : I c₁.cenv c₁.ctag c₁.itag := by rw [s1.same.1, s1.same.2.1, s1.same.2.2]; exact h0
  have h2 := Cc.ccE_state (I := fun s => I s.cenv s.ctag s.itag) (fun _ h => h) (fun s n h => hrec _ _ _ _ h) e₁
    (fun x => if x ∈ e₁.fv then some VInfo.bound else none) (fun _ => false) 1 c₁.next c₁.bump h1
  refine ⟨_, s2.same.1, ?_⟩
  rw [s2.same.2.1, s2.same.2.2]
  exact h2

/-- C46: the pipeline keeps the description of the constructors of the program, and describes closures as pairs. -/
theorem C46_constructors {o : Opts} {reserved : Var} {marks : Var → Option Nat} {e e' : Exp} {c c' : Comp} (h : PipeInput e c)
    (hp : anfPipeline o reserved marks e c = some (e', c')) :
    (∀ t, t < c.ctag → t ≠ cloTag → c'.cenv t = c.cenv t) ∧ c'.cenv cloTag = some ⟨none, none, cloIndTag, 2, 0⟩ ∧ c.ctag ≤ c'.ctag := by
  obtain ⟨ce, h1, h2, h3⟩ := pipe_env h hp (I := fun ce ct _ => c.ctag ≤ ct ∧ ∀ t, t < c.ctag → ce t = c.cenv t)
    (fun ce ct it n hi => ⟨Nat.le_succ_of_le hi.1, fun t ht => by
      rw [Cc.pset_other (ne_of_lt (lt_of_lt_of_le ht hi.1))]; exact hi.2 t ht⟩) ⟨le_refl _, fun _ _ => rfl⟩
  refine ⟨fun t ht hne => ?_, ?_, h2⟩
  · rw [h1, addClosureTag, Cc.pset_other hne]; exact h3 t ht
  · rw [h1, addClosureTag, Cc.pset_self]

/-- The features of the optimised program, given those of the program: `P` holds of the instructions of the program, `Q` of
those of the result. -/
theorem pipe_all {o : Opts} {reserved : Var} {marks : Var → Option Nat} {e e' : Exp} {c c' : Comp} (h : PipeInput e c) (hclo : cloTag < c.ctag)
    (hp : anfPipeline o reserved marks e c = some (e', c')) {P Q : Feat → Prop} (hP : ∀ t n, P (.call t n)) (hQ : ∀ t n, Q (.call t n))
    (hPQ : Cc.Over P Q) (hb : Q .bundle) (hc : Q (.con cloTag 2)) (he : ∀ t i, c.ctag ≤ t → c'.cenv t = some i → Q (.con t i.arity))
    (hall : e.All P) : e'.All Q := by
  obtain ⟨e₁, c₁, e₂, c₂, hp', s1, hi, _, s2⟩ := pipe_spec o reserved marks h
  rw [hp] at hp'; cases hp'
  refine s2.feats Q hQ (hoist_all hb (Cc.cc_all hPQ (s1.feats P hP hall) (by rw [s1.same.2.1]; exact hclo) hc fun t i h1 h2 => ?_))
  exact he t i (by rw [← s1.same.2.1]; exact h1) (by rw [s2.same.1]; exact h2)

/-! ## The statements are about real programs -/

/-- A curried function `10` which builds a block from its two arguments and from `20`; it is called twice. -/
def pipeDemo : Exp :=
  .constr 20 1 [] (.fn (.cons 10 3 [11] (.fn (.cons 12 3 [13] (.constr 14 2 [11, 13, 20] (.halt 14)) .nil) (.halt 12)) .nil)
    (.letapp 21 10 3 [20] (.letapp 22 21 3 [20] (.case 22 (.cons 1 (.halt 20)
      (.cons 2 (.proj 23 2 0 22 (.letapp 24 10 3 [22] (.app 24 3 [23]))) .nil))))))

/-- The state the pipeline starts from. -/
def pipeStart : Comp := initial pipeDemo 100 100 4 demoSig.cenv

theorem pipeDemo_input : PipeInput pipeDemo pipeStart :=
  ⟨by decide +kernel, .inl (by decide +kernel), by decide +kernel, by decide +kernel, by decide +kernel⟩

/-- The program returns `2(2(1, 1, 1), 1, 1)`. -/
example : Returns demoSig emp pipeDemo (FO.con 2 [.con 2 [.con 1 [], .con 1 [], .con 1 []], .con 1 [], .con 1 []]).toVal := ⟨9, rfl⟩

/-- So does the result of the pipeline, at either optimisation level and with every configuration. -/
example (oLevel cArgs anfConf : Nat) : ∃ e' c', anfPipeline (makeOptions true oLevel cArgs anfConf) 1 (fun _ => none) pipeDemo pipeStart = some (e', c') ∧
    Returns (demoSig.after c') emp e'
      (FO.con 2 [.con 2 [.con 1 [], .con 1 [], .con 1 []], .con 1 [], .con 1 []]).toVal := by
  obtain ⟨e', c', h, _⟩ := C46_total (makeOptions true oLevel cArgs anfConf) 1 (fun _ => none) pipeDemo_input
  exact ⟨e', c', h, C46_data demoSig pipeDemo_input rfl h ⟨9, rfl⟩⟩

/-- A smaller program: `10` is called twice on known arguments. -/
def pipeSmall : Exp :=
  .constr 20 1 [] (.fn (.cons 10 3 [11] (.constr 14 2 [11, 20] (.halt 14)) .nil) (.letapp 21 10 3 [20] (.app 10 3 [21])))

/-- Both calls are inlined, and neither the function nor its closure is left. -/
example : ((anfPipeline (makeOptions true 0 5 1) 1 (fun _ => none) pipeSmall (initial pipeSmall 100 100 4 (fun _ => none))).map
    fun r => (r.1.bv, Inl.sizeE r.1)) = some ([2, 3, 4], 4) := by decide +kernel

end ANF
