import Verif.Proc.Lemmas

/-!
# C72: running a program shows its output, and ends

For all programs, all capacities of pipes and all interleavings of the program with the plugin.
-/

namespace Proc

/-- **C72** (partial: programs that write no more to the error output than a pipe holds, and read no input).  However the two processes are
interleaved, the plugin never waits forever, the number of steps is bounded, and at the end each line of the output was shown, in order. -/
theorem C72_run_partial {cap code : Nat} {p : List Act} (hcap : 0 < cap) (hi : NoInput p) (he : (errs p).length ≤ cap) {n : Nat} {s : St}
    (h : Steps cap code n (start p) s) :
    n ≤ 3 * p.length + 3 ∧ ((∃ t, Step cap code s t) ∨ runResult s = some (expected p)) := by
  refine ⟨?_, ?_⟩
  · have := measure_steps h
    simp [measure, start] at this; omega
  · by_cases hd : s.phase = .done
    · right
      simp [runResult, hd, ((inv_steps h).done hd).2.2]
    · exact .inl (progress hcap hi he (inv_steps h) hd)

/-- Whatever was shown at the end is right, without hypotheses on the program. -/
theorem C72_shown {cap code n : Nat} {p : List Act} {s : St} (h : Steps cap code n (start p) s) {r : List Shown} (hr : runResult s = some r) :
    r = expected p := by
  unfold runResult at hr
  split at hr
  · rename_i hd
    rw [← Option.some.inj hr]
    exact ((inv_steps h).done hd).2.2
  · simp at hr

/-- **C72** exactly which programs come to an end: those that read no input and write no more to the error output than a pipe holds. -/
theorem C72_completes_iff {cap code : Nat} {p : List Act} (hcap : 0 < cap) :
    (∃ n s, Steps cap code n (start p) s ∧ (runResult s).isSome) ↔ NoInput p ∧ (errs p).length ≤ cap := by
  constructor
  · rintro ⟨n, s, h, hr⟩
    have hd : s.phase = .done := by
      unfold runResult at hr
      split at hr
      · assumption
      · simp at hr
    have I := inv_steps h
    obtain ⟨hx, hl, -⟩ := I.done hd
    obtain ⟨pre, hpre, hp⟩ := I.suffix
    rw [(I.ended hx).1, List.append_nil] at hp
    exact ⟨by rw [NoInput, hp]; exact hpre, hl⟩
  · rintro ⟨hi, he⟩
    obtain ⟨m, t, h, hd⟩ := completes (code := code) hcap hi he (.refl (start p))
    exact ⟨m, t, h, by simp [runResult, hd]⟩

/-- **C72 refuted**: a program that writes more to the error output than a pipe holds is never finished (the plugin waits for the standard
output, the program for the pipe), whatever the capacity; it does finish when its error output is read meanwhile, since it does nothing else. -/
theorem C72_deadlock_refuted {cap code : Nat} (hcap : 0 < cap) :
    ∃ p, NoInput p ∧ ∀ n s, Steps cap code n (start p) s → runResult s = none := by
  refine ⟨List.replicate (cap + 1) (.err 'x'), by simp [NoInput], ?_⟩
  intro n s h
  by_contra hr
  have := ((C72_completes_iff (code := code) hcap).1 ⟨n, s, h, by
    cases hh : runResult s with
    | none => exact absurd hh hr
    | some r => rfl⟩).2
  rw [show errs (List.replicate (cap + 1) (.err 'x')) = List.replicate (cap + 1) 'x' by
    simp [errs]] at this
  simp at this
  omega

/-- **C72 refuted**: a program that reads its input waits forever, since the plugin closes the other end only afterwards. -/
theorem C72_input_refuted {cap code : Nat} (hcap : 0 < cap) : ∀ n s, Steps cap code n (start [.read]) s → runResult s = none := by
  intro n s h
  by_contra hr
  have := ((C72_completes_iff (code := code) hcap).1 ⟨n, s, h, by
    cases hh : runResult s with
    | none => exact absurd hh hr
    | some r => rfl⟩).1
  simp [NoInput] at this

/-- **C72 refuted** for `CertiRocq Run`: that a program failed (it crashed, or exited with a status) is never shown. -/
theorem C72_status_refuted {cap code n : Nat} {p : List Act} {s : St} (h : Steps cap code n (start p) s) {r : List Shown}
    (hr : runResult s = some r) (k : Nat) : Shown.failed k ∉ r := by
  rw [C72_shown h hr, expected]
  simp

/-- **C72** for the C compiler run by `CertiRocq Eval` (`execute`): if it comes to an end, the outputs are returned (with a newline at the end),
or the error with the status of the compiler. -/
theorem C72_execute {cap code n : Nat} {p : List Act} {s : St} (h : Steps cap code n (start p) s)
    {r : Except Nat (List Char × List Char)} (hr : executeResult s = some r) :
    r = if code = 0 then .ok (ended (outs p), ended (errs p)) else .error code := by
  have I := inv_steps h
  unfold executeResult at hr
  split at hr
  · rename_i hd hx
    have e := (I.ended (by simp [hx])).2
    rw [hx] at e
    simp only [Option.some.injEq] at e
    rw [← Option.some.inj hr, ← e, if_pos rfl, (I.done hd).2.2, expected, notices_expected, warnings_expected, pushLines_lines, pushLines_lines]
  · rename_i m hm hd hx
    have e := (I.ended (by simp [hx])).2
    rw [hx] at e
    simp only [Option.some.injEq] at e
    have h0 : code ≠ 0 := by rintro rfl; exact hm e
    rw [← Option.some.inj hr, if_neg h0, e]
  · simp at hr

/-- `execute` has a result whenever the loop comes to its end. -/
theorem C72_execute_total {cap code n : Nat} {p : List Act} {s : St} (h : Steps cap code n (start p) s) :
    (executeResult s).isSome ↔ (runResult s).isSome := by
  have I := inv_steps h
  cases hd : s.phase with
  | out => simp [executeResult, runResult, hd]
  | err => simp [executeResult, runResult, hd]
  | done =>
    have hx := (I.ended (I.done hd).1).2
    cases code <;> simp [executeResult, runResult, hd, hx]

/-- The hypotheses are met, and both kinds of lines are shown. -/
example : NoInput [.out 'a', .err 'b', .out '\n', .out 'c', .err '\n'] ∧
    (errs [.out 'a', .err 'b', .out '\n', .out 'c', .err '\n']).length ≤ 4096 ∧
    expected [.out 'a', .err 'b', .out '\n', .out 'c', .err '\n'] = [.notice ['a'], .notice ['c'], .warning ['b']] := by
  refine ⟨by simp [NoInput], by decide, by decide⟩

/-- There are executions to the end. -/
example : ∃ n s, Steps 2 1 n (start [.out 'a', .err 'b', .out '\n', .out 'c', .err '\n']) s ∧ (runResult s).isSome :=
  (C72_completes_iff (by decide)).2 ⟨by simp [NoInput], by decide⟩

end Proc
