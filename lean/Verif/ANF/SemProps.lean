import Verif.ANF.SemLemmas

/-!
# C44: the LambdaANF semantics is deterministic and monotone in fuel

Stated about the big-step relation of eval.v (`Bfuel`) and about the interpreter `run`.
-/

namespace ANF

variable {S : Sig}

/-- C44: a finished run determines the value, the fuel it needs and the trace. -/
theorem C44_deterministic {ρ : Env} {e : Exp} {c1 c2 o1 o2 : Nat} {v1 v2 : Val}
    (h1 : Bfuel S ρ e c1 (.res v1) o1) (h2 : Bfuel S ρ e c2 (.res v2) o2) : v1 = v2 ∧ c1 = c2 ∧ o1 = o2 :=
  bfuel_det c1 c1 (Nat.le_refl _) h1 h2

/-- C44: a run that finishes with fuel `c` is out of time with every smaller fuel and with no larger one. -/
theorem C44_finished_iff {ρ : Env} {e : Exp} {c o : Nat} {v : Val} (h : Bfuel S ρ e c (.res v) o) (c' : Nat) :
    (∃ o', Bfuel S ρ e c' .oot o') ↔ c' < c := by
  constructor
  · rintro ⟨o', h'⟩; exact bfuel_oot_lt c c (Nat.le_refl _) h h'
  · intro hlt; obtain ⟨o', _, h'⟩ := bfuel_lt c c (Nat.le_refl _) h hlt; exact ⟨o', h'⟩

/-- C44: a program out of time at one bound is out of time at every smaller one, having done no more work. -/
theorem C44_oot_smaller {ρ : Env} {e : Exp} {c c' o : Nat} (h : Bfuel S ρ e c .oot o) (hlt : c' < c) :
    ∃ o', o' ≤ o ∧ Bfuel S ρ e c' .oot o' := bfuel_lt c c (Nat.le_refl _) h hlt

/-- C44: the interpreter's finished answers do not change with a larger bound. -/
theorem C44_monotone {ρ : Env} {e : Exp} {n m : Nat} (h : n ≤ m) (hd : run S n ρ e ≠ .oot) :
    run S m ρ e = run S n ρ e := by
  refine run_mono h ?_
  revert hd
  cases run S n ρ e <;> intro hd
  · trivial
  · exact (hd rfl).elim
  · trivial

/-- C44: the interpreter returns a value exactly when the relation does. -/
theorem C44_interpreter_value {ρ : Env} {e : Exp} {v : Val} :
    (∃ n, run S n ρ e = .val v) ↔ ∃ c o, Bfuel S ρ e c (.res v) o := by
  constructor
  · rintro ⟨n, h⟩; exact run_sound n _ _ _ h
  · rintro ⟨c, o, h⟩; exact bfuel_run c c (Nat.le_refl _) h

/-- C44: the interpreter is out of time at every bound exactly when the relation is at every fuel. -/
theorem C44_interpreter_divergence {ρ : Env} {e : Exp} :
    (∀ n, run S n ρ e = .oot) ↔ ∀ c, ∃ o, Bfuel S ρ e c .oot o := by
  constructor
  · intro h c; exact bfuel_of_diverges c c (Nat.le_refl _) h
  · intro h n
    rcases hr : run S n ρ e with v | _ | _
    · obtain ⟨c, o, hb⟩ := run_sound n _ _ _ hr
      obtain ⟨o', h'⟩ := h c
      exact absurd (bfuel_oot_lt c c (Nat.le_refl _) hb h') (Nat.lt_irrefl _)
    · rfl
    · obtain ⟨c0, h0⟩ := wrong_bound n hr
      obtain ⟨o', h'⟩ := h c0
      exact absurd (h0 _ _ h') (Nat.lt_irrefl _)

/-- C44: every program returns a unique value, diverges, or goes wrong, and these exclude each other. -/
theorem C44_trichotomy (ρ : Env) (e : Exp) :
    ((∃ v, Returns S ρ e v) ∨ Diverges S ρ e ∨ GoesWrong S ρ e) ∧
      (∀ v v', Returns S ρ e v → Returns S ρ e v' → v = v') ∧
      (∀ v, Returns S ρ e v → ¬ Diverges S ρ e ∧ ¬ GoesWrong S ρ e) ∧ (Diverges S ρ e → ¬ GoesWrong S ρ e) := by
  refine ⟨?_, ?_, ?_, ?_⟩
  · by_cases h1 : ∃ v, Returns S ρ e v
    · exact .inl h1
    · by_cases h2 : GoesWrong S ρ e
      · exact .inr (.inr h2)
      · exact .inr (.inl (oot_of_never (fun v hv => h1 ⟨v, hv⟩) h2))
  · rintro v v' ⟨n, h⟩ ⟨m, h'⟩
    have a := run_step h (Nat.le_max_left n m)
    have b := run_step h' (Nat.le_max_right n m)
    rw [a] at b; cases b; rfl
  · rintro v ⟨n, h⟩
    refine ⟨fun hd => ?_, ?_⟩
    · rw [hd n] at h; cases h
    · rintro ⟨m, h'⟩
      have a := run_step h (Nat.le_max_left n m)
      rw [run_mono (Nat.le_max_right n m) (by rw [h']; trivial), h'] at a
      cases a
  · rintro hd ⟨m, h'⟩
    rw [hd m] at h'; cases h'

/-! ## The statements are about real programs -/

/-- A signature with one type of two constructors: `1` (nullary) and `2` (one argument), and no primitives. -/
def demoSig : Sig where
  cenv := fun t => if t = 1 ∨ t = 2 then some ⟨none, none, 7, t - 1, t - 1⟩ else none
  prims := fun _ _ => none

/-- `let fix f n = match n with O => n | S m => S (f m)` applied to 2: `letapp` recursion. -/
def demoProg : Exp :=
  .fn (.cons 10 3 [11] (.case 11 (.cons 1 (.halt 11) (.cons 2 (.proj 12 2 0 11 (.letapp 13 10 3 [12]
    (.constr 14 2 [13] (.halt 14)))) .nil))) .nil)
    (.constr 20 1 [] (.constr 21 2 [20] (.constr 22 2 [21] (.app 10 3 [22]))))

/-- `let fix f n = f n` applied to 0. -/
def demoLoop : Exp :=
  .fn (.cons 10 3 [11] (.app 10 3 [11]) .nil) (.constr 20 1 [] (.app 10 3 [20]))

example : run demoSig 3 emp demoProg = .val (.constr 2 [.constr 2 [.constr 1 []]]) := by rfl
example : run demoSig 2 emp demoProg = .oot := by rfl
example : GoesWrong demoSig emp (.halt 3) := ⟨0, rfl⟩
example : Diverges demoSig emp demoLoop := by
  intro n
  unfold demoLoop
  rw [run_fn, run_constr rfl]
  have key : ∀ (n : Nat) (ρ ρ' : Env) (v : Val), ρ 10 = some (.fn ρ' (.cons 10 3 [11] (.app 10 3 [11]) .nil) 10) →
      ρ 20 = some v ∨ ρ 11 = some v → ∀ y, ρ y = some v → y ≠ 10 → run demoSig n ρ (.app 10 3 [y]) = .oot := by
    intro n
    induction n with
    | zero =>
      intro ρ ρ' v h _ y hy _
      simp only [run, evalE, callee, h, getList, hy, findDef, if_true, setLists, Option.map]
    | succ n ih =>
      intro ρ ρ' v h _ y hy _
      rw [run_app (callee_eq h (vs := [v]) (by simp only [getList, hy]) (by simp only [findDef, if_true]; rfl) rfl)]
      exact ih _ ρ' v (by simp [Env.set, defFuns]) (.inr (by simp [Env.set])) 11 (by simp [Env.set]) (by decide)
  exact key n _ emp (.constr 1 []) rfl (.inl rfl) 20 rfl (by decide)

end ANF
