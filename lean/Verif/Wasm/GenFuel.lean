import Verif.Wasm.SemLemmas

/-! # Running out of fuel, and runs that end by returning -/

namespace Wasm

theorem exec_fuel_le (E : Env) {n k : Nat} (hk : n ≤ k) {is : List Instr} {s : St} (h : exec E k is s = .fuel) :
    exec E n is s = .fuel := by
  by_contra h'
  rw [exec_mono_le E hk h'] at h
  exact h' h

/-- Two runs of the same code agree unless one has no fuel left. -/
theorem exec_agree (E : Env) (n m : Nat) {is : List Instr} {s : St} (h : exec E n is s ≠ .fuel) :
    exec E m is s = .fuel ∨ exec E m is s = exec E n is s := by
  by_cases hm : exec E m is s = .fuel
  · exact .inl hm
  · right
    rw [← exec_mono_le E (Nat.le_max_left n m) h, ← exec_mono_le E (Nat.le_max_right n m) hm]

/-- If what follows runs out of fuel, so does the whole. -/
theorem exec_append_fuel (E : Env) : ∀ (n : Nat) (as : List Instr) (s s' : St), exec E n as s = .ok s' →
    ∀ (bs : List Instr) (m : Nat), exec E m bs s' = .fuel → exec E m (as ++ bs) s = .fuel := by
  intro n
  induction n with
  | zero => intro as s s' h; cases h
  | succ n ih =>
    intro as s s' h bs m h'
    cases as with
    | nil => cases h; exact h'
    | cons i as =>
      rw [List.cons_append]
      cases m with
      | zero => rfl
      | succ m =>
      have h'' := exec_fuel_le E (Nat.le_succ m) h'
      cases i
      case ifte k a b =>
        rw [exec_ite] at h ⊢
        rcases hst : s.stack with _ | ⟨v, st⟩
        · simp [hst] at h
        rcases v with c | c
        · simp only [hst] at h ⊢
          have h1 : exec E n (if c = 0 then b else a) { s with stack := [] } ≠ .fuel := by
            intro e; rw [e] at h; cases h
          rcases exec_agree E n m h1 with h3 | h3
          · rw [h3]
          rw [h3]
          rcases h2 : exec E n (if c = 0 then b else a) { s with stack := [] } with s' | ⟨_ | j, s'⟩ | s' | _ | _
          · simp only [h2] at h ⊢; exact ih _ _ _ h _ _ h''
          · simp only [h2] at h ⊢; exact ih _ _ _ h _ _ h''
          all_goals simp [h2] at h
        · simp [hst] at h
      case loop body =>
        rw [exec_loop] at h ⊢
        have h1 : exec E n body { s with stack := [] } ≠ .fuel := by
          intro e; rw [e] at h; cases h
        rcases exec_agree E n m h1 with h3 | h3
        · rw [h3]
        rw [h3]
        rcases h2 : exec E n body { s with stack := [] } with s' | ⟨_ | j, s'⟩ | s' | _ | _
        · simp only [h2] at h ⊢; exact ih _ _ _ h _ _ h''
        · simp only [h2] at h ⊢; exact ih (.loop body :: as) _ _ h _ _ h''
        all_goals simp [h2] at h
      case br => simp [exec] at h
      case ret => simp [exec] at h
      case unreachable => simp [exec] at h
      case callIndirect k =>
        rw [exec_call] at h ⊢
        rcases hst : s.stack with _ | ⟨v, st⟩
        · simp [hst] at h
        rcases v with f | f
        · simp only [hst] at h ⊢
          rcases hf : E.funcs[f]? with _ | fn
          · simp [hf] at h
          rcases hp : popArgs k st with _ | ⟨args, st'⟩
          · simp [hf, hp] at h
          simp only [hf, hp] at h ⊢
          by_cases hk : fn.params = k
          · simp only [hk, if_true] at h ⊢
            have h1 : exec E n fn.body { s with locals := args ++ List.replicate fn.locals (.i32 0), stack := [] } ≠ .fuel := by
              intro e; rw [e] at h; cases h
            rcases exec_agree E n m h1 with h3 | h3
            · rw [h3]
            rw [h3]
            rcases h2 : exec E n fn.body { s with locals := args ++ List.replicate fn.locals (.i32 0), stack := [] } with s' | ⟨j, s'⟩ | s' | _ | _
            · simp only [h2] at h ⊢; exact ih _ _ _ h _ _ h''
            · simp [h2] at h
            · simp only [h2] at h ⊢; exact ih _ _ _ h _ _ h''
            all_goals simp [h2] at h
          · simp [hk] at h
        · simp [hst] at h
      case returnCallIndirect k =>
        exfalso
        rw [exec_tailcall] at h
        split at h
        · split at h
          · split at h
            · split at h <;> first | cases h | (rename_i hx _ _; simp_all)
            · cases h
          · cases h
        · cases h
      all_goals
        rw [exec_simple rfl] at h ⊢
        split at h
        · rename_i h1
          try simp only [h1]
          exact ih _ _ _ h _ _ h''
        · cases h

/-- Either the code returns in a state satisfying `Q`, or `F` holds and `n` units of fuel are not enough to finish. -/
def Ends (E : Env) (n : Nat) (is : List Instr) (s : St) (Q : St → Prop) (F : Prop) : Prop :=
  (∃ s', Runs E is s (.ret s') ∧ Q s') ∨ (F ∧ exec E n is s = .fuel)

variable {E : Env} {n : Nat} {Q : St → Prop} {F : Prop}

theorem Ends.append {as bs : List Instr} {s s1 : St} (h : Runs E as s (.ok s1)) (h' : Ends E n bs s1 Q F) :
    Ends E n (as ++ bs) s Q F := by
  rcases h' with ⟨s', h1, h2⟩ | ⟨h1, h2⟩
  · exact .inl ⟨s', h.append h1, h2⟩
  · obtain ⟨_, k, hk⟩ := h
    exact .inr ⟨h1, exec_append_fuel E k as s s1 hk bs n h2⟩

theorem Ends.ite {k : List Ty} {c : Nat} {a b is : List Instr} {s : St} {st : List Val} (hst : s.stack = .i32 c :: st)
    (h : Ends E n (if c = 0 then b else a) { s with stack := [] } Q F) : Ends E n (.ifte k a b :: is) s Q F := by
  rcases h with ⟨s', h1, h2⟩ | ⟨h1, h2⟩
  · exact .inl ⟨s', Runs.ite_ret hst h1, h2⟩
  · refine .inr ⟨h1, ?_⟩
    cases n with
    | zero => rfl
    | succ n =>
      rw [exec_ite]
      simp only [hst]
      rw [exec_fuel_le E (Nat.le_succ n) h2]

theorem Ends.tailcall {k f : Nat} {is : List Instr} {s : St} {st args st' : List Val} {fn : Func}
    (hst : s.stack = .i32 f :: st) (hf : E.funcs[f]? = some fn) (hp : popArgs k st = some (args, st'))
    (hk : fn.params = k)
    (h : Ends E n fn.body { s with locals := args ++ List.replicate fn.locals (.i32 0), stack := [] } Q F) :
    Ends E (n + 1) (.returnCallIndirect k :: is) s Q F := by
  rcases h with ⟨s', h1, h2⟩ | ⟨h1, h2⟩
  · exact .inl ⟨s', Runs.tailcall hst hf hp hk h1, h2⟩
  · refine .inr ⟨h1, ?_⟩
    rw [exec_tailcall]
    simp only [hst, hf, hp, hk, if_true]
    rw [h2]

/-- A call followed by code. -/
theorem Ends.call {k f : Nat} {is : List Instr} {s : St} {st args st' : List Val} {fn : Func} {Q' : St → Prop} {F' : Prop}
    (hst : s.stack = .i32 f :: st) (hf : E.funcs[f]? = some fn) (hp : popArgs k st = some (args, st'))
    (hk : fn.params = k)
    (h : Ends E n fn.body { s with locals := args ++ List.replicate fn.locals (.i32 0), stack := [] } Q' F')
    (hF : F' → F)
    (h' : ∀ s', Q' s' → Ends E (n + 1) is { s' with locals := s.locals, stack := st' } Q F) :
    Ends E (n + 1) (.callIndirect k :: is) s Q F := by
  rcases h with ⟨s', h1, h2⟩ | ⟨h1, h2⟩
  · rcases h' s' h2 with ⟨s'', h3, h4⟩ | ⟨h3, h4⟩
    · exact .inl ⟨s'', Runs.call hst hf hp hk h1 h3, h4⟩
    · refine .inr ⟨h3, ?_⟩
      rw [exec_call]
      simp only [hst, hf, hp, hk, if_true]
      obtain ⟨_, j, hj⟩ := h1
      rcases exec_agree E j n (is := fn.body)
        (s := { s with locals := args ++ List.replicate fn.locals (.i32 0), stack := [] }) (by rw [hj]; simp) with h5 | h5
      · rw [h5]
      · rw [h5, hj]
        exact exec_fuel_le E (Nat.le_succ n) h4
  · refine .inr ⟨hF h1, ?_⟩
    rw [exec_call]
    simp only [hst, hf, hp, hk, if_true]
    rw [h2]

theorem Ends.mono {is : List Instr} {s : St} {Q' : St → Prop} {F' : Prop} (h : Ends E n is s Q F) (hQ : ∀ s', Q s' → Q' s')
    (hF : F → F') : Ends E n is s Q' F' := by
  rcases h with ⟨s', h1, h2⟩ | ⟨h1, h2⟩
  · exact .inl ⟨s', h1, hQ _ h2⟩
  · exact .inr ⟨hF h1, h2⟩

end Wasm
