import Verif.Wasm.Sem
import Mathlib.Tactic.Ring

/-! # Facts about the Wasm semantics: fuel, sequencing, memory -/

namespace Wasm

/-- Instructions handled by `step`. -/
def Instr.simple : Instr → Bool
  | .ifte .. | .loop .. | .br .. | .ret | .unreachable | .callIndirect .. | .returnCallIndirect .. => false
  | _ => true

theorem exec_simple {E : Env} {i : Instr} (hi : i.simple = true) (n : Nat) (is : List Instr) (s : St) :
    exec E (n + 1) (i :: is) s = match step E i s with | some s' => exec E n is s' | none => .trap := by
  cases i <;> first | rfl | (simp [Instr.simple] at hi)

theorem exec_ite (E : Env) (n : Nat) (k : List Ty) (a b is : List Instr) (s : St) :
    exec E (n + 1) (.ifte k a b :: is) s =
      match s.stack with
      | .i32 c :: st =>
        match exec E n (if c = 0 then b else a) { s with stack := [] } with
        | .ok s' => exec E n is { s' with stack := s'.stack ++ st }
        | .br 0 s' => exec E n is { s' with stack := s'.stack.take k.length ++ st }
        | .br (j + 1) s' => .br j s'
        | o => o
      | _ => .trap := rfl

theorem exec_loop (E : Env) (n : Nat) (body is : List Instr) (s : St) :
    exec E (n + 1) (.loop body :: is) s =
      match exec E n body { s with stack := [] } with
      | .ok s' => exec E n is { s' with stack := s'.stack ++ s.stack }
      | .br 0 s' => exec E n (.loop body :: is) { s' with stack := s.stack }
      | .br (j + 1) s' => .br j s'
      | o => o := rfl

theorem exec_call (E : Env) (n k : Nat) (is : List Instr) (s : St) :
    exec E (n + 1) (.callIndirect k :: is) s =
      match s.stack with
      | .i32 f :: st =>
        match E.funcs[f]?, popArgs k st with
        | some fn, some (args, st') =>
          if fn.params = k then
            match exec E n fn.body { s with locals := args ++ List.replicate fn.locals (.i32 0), stack := [] } with
            | .ok s' => exec E n is { s' with locals := s.locals, stack := st' }
            | .ret s' => exec E n is { s' with locals := s.locals, stack := st' }
            | .br _ _ => .trap
            | o => o
          else .trap
        | _, _ => .trap
      | _ => .trap := rfl

theorem exec_tailcall (E : Env) (n k : Nat) (is : List Instr) (s : St) :
    exec E (n + 1) (.returnCallIndirect k :: is) s =
      match s.stack with
      | .i32 f :: st =>
        match E.funcs[f]?, popArgs k st with
        | some fn, some (args, _) =>
          if fn.params = k then
            match exec E n fn.body { s with locals := args ++ List.replicate fn.locals (.i32 0), stack := [] } with
            | .ok s' => .ret s'
            | .ret s' => .ret s'
            | .br _ _ => .trap
            | o => o
          else .trap
        | _, _ => .trap
      | _ => .trap := rfl

/-- More fuel does not change an outcome. -/
theorem exec_mono (E : Env) : ∀ (n : Nat) (is : List Instr) (s : St), exec E n is s ≠ .fuel →
    exec E (n + 1) is s = exec E n is s := by
  intro n
  induction n with
  | zero => intro is s h; exact absurd rfl h
  | succ n ih =>
    intro is s h
    cases is with
    | nil => rfl
    | cons i is =>
      cases i
      case ifte k a b =>
        rw [exec_ite] at h
        rw [exec_ite, exec_ite]
        rcases hst : s.stack with _ | ⟨v, st⟩
        · simp
        rcases v with c | c
        · simp only [hst] at h ⊢
          have h1 : exec E n (if c = 0 then b else a) { s with stack := [] } ≠ .fuel := by
            intro e; rw [e] at h; exact h rfl
          rw [ih _ _ h1]
          rcases h2 : exec E n (if c = 0 then b else a) { s with stack := [] } with s' | ⟨_ | j, s'⟩ | s' | _ | _
          · simp only [h2] at h ⊢; exact ih _ _ h
          · simp only [h2] at h ⊢; exact ih _ _ h
          all_goals rfl
        · rfl
      case loop body =>
        rw [exec_loop] at h
        rw [exec_loop, exec_loop]
        have h1 : exec E n body { s with stack := [] } ≠ .fuel := by
          intro e; rw [e] at h; exact h rfl
        rw [ih _ _ h1]
        rcases h2 : exec E n body { s with stack := [] } with s' | ⟨_ | j, s'⟩ | s' | _ | _
        · simp only [h2] at h ⊢; exact ih _ _ h
        · simp only [h2] at h ⊢; exact ih _ _ h
        all_goals rfl
      case br => rfl
      case ret => rfl
      case unreachable => rfl
      case callIndirect k =>
        rw [exec_call] at h
        rw [exec_call, exec_call]
        rcases hst : s.stack with _ | ⟨v, st⟩
        · simp
        rcases v with f | f
        · simp only [hst] at h ⊢
          rcases hf : E.funcs[f]? with _ | fn
          · rfl
          rcases hp : popArgs k st with _ | ⟨args, st'⟩
          · rfl
          simp only [hf, hp] at h ⊢
          by_cases hk : fn.params = k
          · simp only [hk, if_true] at h ⊢
            have h1 : exec E n fn.body { s with locals := args ++ List.replicate fn.locals (.i32 0), stack := [] } ≠ .fuel := by
              intro e; rw [e] at h; exact h rfl
            rw [ih _ _ h1]
            rcases h2 : exec E n fn.body { s with locals := args ++ List.replicate fn.locals (.i32 0), stack := [] } with s' | ⟨j, s'⟩ | s' | _ | _
            · simp only [h2] at h ⊢; exact ih _ _ h
            · rfl
            · simp only [h2] at h ⊢; exact ih _ _ h
            all_goals rfl
          · simp only [hk, if_false]
        · rfl
      case returnCallIndirect k =>
        rw [exec_tailcall] at h
        rw [exec_tailcall, exec_tailcall]
        rcases hst : s.stack with _ | ⟨v, st⟩
        · simp
        rcases v with f | f
        · simp only [hst] at h ⊢
          rcases hf : E.funcs[f]? with _ | fn
          · rfl
          rcases hp : popArgs k st with _ | ⟨args, st'⟩
          · rfl
          simp only [hf, hp] at h ⊢
          by_cases hk : fn.params = k
          · simp only [hk, if_true] at h ⊢
            have h1 : exec E n fn.body { s with locals := args ++ List.replicate fn.locals (.i32 0), stack := [] } ≠ .fuel := by
              intro e; rw [e] at h; exact h rfl
            rw [ih _ _ h1]
          · simp only [hk, if_false]
        · rfl
      all_goals
        rw [exec_simple rfl] at h
        rw [exec_simple rfl, exec_simple rfl]
        split
        · rename_i s' hs'
          simp only [hs'] at h
          exact ih _ _ h
        · rfl

theorem exec_mono_le (E : Env) {n k : Nat} (hk : n ≤ k) {is : List Instr} {s : St} (h : exec E n is s ≠ .fuel) :
    exec E k is s = exec E n is s := by
  induction hk with
  | refl => rfl
  | step _ ih => rw [exec_mono E _ _ _ (by rw [ih]; exact h), ih]

/-- The outcome of a terminating run is unique. -/
theorem Runs.unique {E : Env} {is : List Instr} {s : St} {o o' : Out} (h : Runs E is s o) (h' : Runs E is s o') : o = o' := by
  obtain ⟨h0, n, hn⟩ := h
  obtain ⟨h0', n', hn'⟩ := h'
  rw [← hn, ← hn', ← exec_mono_le E (Nat.le_max_left n n') (by rw [hn]; exact h0),
    ← exec_mono_le E (Nat.le_max_right n n') (by rw [hn']; exact h0')]

theorem Runs.nil (E : Env) (s : St) : Runs E [] s (.ok s) := ⟨by simp, 1, rfl⟩

/-- A simple instruction followed by a terminating run. -/
theorem Runs.simple {E : Env} {i : Instr} (hi : i.simple = true) {is : List Instr} {s s' : St} {o : Out}
    (h : step E i s = some s') (h' : Runs E is s' o) : Runs E (i :: is) s o := by
  obtain ⟨h0, n, hn⟩ := h'
  refine ⟨h0, n + 1, ?_⟩
  rw [exec_simple hi, h]; exact hn

/-- A conditional whose branch falls through. -/
theorem Runs.ite {E : Env} {k : List Ty} {a b is : List Instr} {s s' : St} {c : Nat} {st : List Val} {o : Out}
    (hst : s.stack = .i32 c :: st) (h : Runs E (if c = 0 then b else a) { s with stack := [] } (.ok s'))
    (h' : Runs E is { s' with stack := s'.stack ++ st } o) : Runs E (.ifte k a b :: is) s o := by
  obtain ⟨_, n, hn⟩ := h
  obtain ⟨h0, n', hn'⟩ := h'
  refine ⟨h0, max n n' + 1, ?_⟩
  rw [exec]
  simp only [hst]
  rw [exec_mono_le E (Nat.le_max_left n n') (by rw [hn]; simp), hn]
  simp only
  rw [exec_mono_le E (Nat.le_max_right n n') (by rw [hn']; exact h0), hn']

/-- A conditional whose branch leaves the block by `return`. -/
theorem Runs.ite_ret {E : Env} {k : List Ty} {a b is : List Instr} {s s' : St} {c : Nat} {st : List Val}
    (hst : s.stack = .i32 c :: st) (h : Runs E (if c = 0 then b else a) { s with stack := [] } (.ret s')) :
    Runs E (.ifte k a b :: is) s (.ret s') := by
  obtain ⟨_, n, hn⟩ := h
  refine ⟨by simp, n + 1, ?_⟩
  rw [exec]
  simp only [hst]
  rw [hn]

/-- A conditional whose branch traps. -/
theorem Runs.ite_trap {E : Env} {k : List Ty} {a b is : List Instr} {s : St} {c : Nat} {st : List Val}
    (hst : s.stack = .i32 c :: st) (h : Runs E (if c = 0 then b else a) { s with stack := [] } .trap) :
    Runs E (.ifte k a b :: is) s .trap := by
  obtain ⟨_, n, hn⟩ := h
  refine ⟨by simp, n + 1, ?_⟩
  rw [exec]
  simp only [hst]
  rw [hn]

/-- A conditional whose branch jumps out of the conditional to an outer block. -/
theorem Runs.ite_br {E : Env} {k : List Ty} {j : Nat} {a b is : List Instr} {s s' : St} {c : Nat} {st : List Val}
    (hst : s.stack = .i32 c :: st) (h : Runs E (if c = 0 then b else a) { s with stack := [] } (.br (j + 1) s')) :
    Runs E (.ifte k a b :: is) s (.br j s') := by
  obtain ⟨_, n, hn⟩ := h
  refine ⟨by simp, n + 1, ?_⟩
  rw [exec]
  simp only [hst]
  rw [hn]

theorem Runs.br (E : Env) (k : Nat) (is : List Instr) (s : St) : Runs E (.br k :: is) s (.br k s) := ⟨by simp, 1, rfl⟩

theorem Runs.ret (E : Env) (is : List Instr) (s : St) : Runs E (.ret :: is) s (.ret s) := ⟨by simp, 1, rfl⟩

theorem Runs.unreachable (E : Env) (is : List Instr) (s : St) : Runs E (.unreachable :: is) s .trap := ⟨by simp, 1, rfl⟩

/-- A loop body that falls through ends the loop. -/
theorem Runs.loop_done {E : Env} {body is : List Instr} {s s' : St} {o : Out}
    (h : Runs E body { s with stack := [] } (.ok s'))
    (h' : Runs E is { s' with stack := s'.stack ++ s.stack } o) : Runs E (.loop body :: is) s o := by
  obtain ⟨_, n, hn⟩ := h
  obtain ⟨h0, n', hn'⟩ := h'
  refine ⟨h0, max n n' + 1, ?_⟩
  rw [exec]
  rw [exec_mono_le E (Nat.le_max_left n n') (by rw [hn]; simp), hn]
  simp only
  rw [exec_mono_le E (Nat.le_max_right n n') (by rw [hn']; exact h0), hn']

/-- A loop body that branches to the loop restarts it. -/
theorem Runs.loop_again {E : Env} {body is : List Instr} {s s' : St} {o : Out}
    (h : Runs E body { s with stack := [] } (.br 0 s'))
    (h' : Runs E (.loop body :: is) { s' with stack := s.stack } o) : Runs E (.loop body :: is) s o := by
  obtain ⟨_, n, hn⟩ := h
  obtain ⟨h0, n', hn'⟩ := h'
  refine ⟨h0, max n n' + 1, ?_⟩
  rw [exec]
  rw [exec_mono_le E (Nat.le_max_left n n') (by rw [hn]; simp), hn]
  simp only
  rw [exec_mono_le E (Nat.le_max_right n n') (by rw [hn']; exact h0), hn']

/-- Calls that come back. -/
theorem Runs.call {E : Env} {k f : Nat} {is : List Instr} {s s' : St} {st args st' : List Val} {fn : Func} {o : Out}
    (hst : s.stack = .i32 f :: st) (hf : E.funcs[f]? = some fn) (hp : popArgs k st = some (args, st'))
    (hk : fn.params = k)
    (h : Runs E fn.body { s with locals := args ++ List.replicate fn.locals (.i32 0), stack := [] } (.ret s'))
    (h' : Runs E is { s' with locals := s.locals, stack := st' } o) : Runs E (.callIndirect k :: is) s o := by
  obtain ⟨_, n, hn⟩ := h
  obtain ⟨h0, n', hn'⟩ := h'
  refine ⟨h0, max n n' + 1, ?_⟩
  rw [exec]
  simp only [hst, hf, hp, hk, if_true]
  rw [exec_mono_le E (Nat.le_max_left n n') (by rw [hn]; simp), hn]
  simp only
  rw [exec_mono_le E (Nat.le_max_right n n') (by rw [hn']; exact h0), hn']

/-- Tail calls that return. -/
theorem Runs.tailcall {E : Env} {k f : Nat} {is : List Instr} {s s' : St} {st args st' : List Val} {fn : Func}
    (hst : s.stack = .i32 f :: st) (hf : E.funcs[f]? = some fn) (hp : popArgs k st = some (args, st'))
    (hk : fn.params = k)
    (h : Runs E fn.body { s with locals := args ++ List.replicate fn.locals (.i32 0), stack := [] } (.ret s')) :
    Runs E (.returnCallIndirect k :: is) s (.ret s') := by
  obtain ⟨_, n, hn⟩ := h
  refine ⟨by simp, n + 1, ?_⟩
  rw [exec]
  simp only [hst, hf, hp, hk, if_true]
  rw [hn]

/-- Sequencing. -/
theorem exec_append (E : Env) : ∀ (n : Nat) (as : List Instr) (s s' : St), exec E n as s = .ok s' →
    ∀ (bs : List Instr) (n' : Nat), exec E n' bs s' ≠ .fuel → exec E (n + n') (as ++ bs) s = exec E n' bs s' := by
  intro n
  induction n with
  | zero => intro as s s' h; cases h
  | succ n ih =>
    intro as s s' h bs n' h'
    cases as with
    | nil =>
      cases h
      exact exec_mono_le E (by omega) h'
    | cons i as =>
      rw [List.cons_append, Nat.add_right_comm]
      cases i
      case ifte k a b =>
        rw [exec_ite] at h ⊢
        rcases hst : s.stack with _ | ⟨v, st⟩
        · simp [hst] at h
        rcases v with c | c
        · simp only [hst] at h ⊢
          have h1 : exec E n (if c = 0 then b else a) { s with stack := [] } ≠ .fuel := by
            intro e; rw [e] at h; cases h
          rw [exec_mono_le E (Nat.le_add_right n n') h1]
          rcases h2 : exec E n (if c = 0 then b else a) { s with stack := [] } with s' | ⟨_ | j, s'⟩ | s' | _ | _
          · simp only [h2] at h ⊢; exact ih _ _ _ h _ _ h'
          · simp only [h2] at h ⊢; exact ih _ _ _ h _ _ h'
          all_goals simp [h2] at h
        · simp [hst] at h
      case loop body =>
        rw [exec_loop] at h ⊢
        have h1 : exec E n body { s with stack := [] } ≠ .fuel := by
          intro e; rw [e] at h; cases h
        rw [exec_mono_le E (Nat.le_add_right n n') h1]
        rcases h2 : exec E n body { s with stack := [] } with s' | ⟨_ | j, s'⟩ | s' | _ | _
        · simp only [h2] at h ⊢; exact ih _ _ _ h _ _ h'
        · simp only [h2] at h ⊢; exact ih (.loop body :: as) _ _ h _ _ h'
        all_goals simp [h2] at h
      case br => simp [exec] at h
      case ret => simp [exec] at h
      case unreachable => simp [exec] at h
      case callIndirect k =>
        rw [exec_call] at h ⊢
        rcases hst : s.stack with _ | ⟨v, st⟩
        · simp [hst] at h
        rcases v with f | f
        · simp only [hst] at h ⊢
          rcases hf : E.funcs[f]? with _ | fn
          · simp [hf] at h
          rcases hp : popArgs k st with _ | ⟨args, st'⟩
          · simp [hf, hp] at h
          simp only [hf, hp] at h ⊢
          by_cases hk : fn.params = k
          · simp only [hk, if_true] at h ⊢
            have h1 : exec E n fn.body { s with locals := args ++ List.replicate fn.locals (.i32 0), stack := [] } ≠ .fuel := by
              intro e; rw [e] at h; cases h
            rw [exec_mono_le E (Nat.le_add_right n n') h1]
            rcases h2 : exec E n fn.body { s with locals := args ++ List.replicate fn.locals (.i32 0), stack := [] } with s' | ⟨j, s'⟩ | s' | _ | _
            · simp only [h2] at h ⊢; exact ih _ _ _ h _ _ h'
            · simp [h2] at h
            · simp only [h2] at h ⊢; exact ih _ _ _ h _ _ h'
            all_goals simp [h2] at h
          · simp [hk] at h
        · simp [hst] at h
      case returnCallIndirect k =>
        exfalso
        rw [exec_tailcall] at h
        split at h
        · split at h
          · split at h
            · split at h <;> first | cases h | (rename_i hx _ _; simp_all)
            · cases h
          · cases h
        · cases h
      all_goals
        rw [exec_simple rfl] at h ⊢
        split at h
        · rename_i h1
          try simp only [h1]
          exact ih _ _ _ h _ _ h'
        · cases h

theorem Runs.append {E : Env} {as bs : List Instr} {s s' : St} {o : Out} (h : Runs E as s (.ok s'))
    (h' : Runs E bs s' o) : Runs E (as ++ bs) s o := by
  obtain ⟨_, n, hn⟩ := h
  obtain ⟨h0, n', hn'⟩ := h'
  refine ⟨h0, n + n', ?_⟩
  rw [exec_append E n as s s' hn bs n' (by rw [hn']; exact h0), hn']

/-- Straight-line code. -/
def steps (E : Env) : List Instr → St → Option St
  | [], s => some s
  | i :: is, s => (step E i s).bind (steps E is)

theorem Runs.steps {E : Env} {is bs : List Instr} {s s' : St} {o : Out} (hs : is.all Instr.simple = true)
    (h : Wasm.steps E is s = some s') (h' : Runs E bs s' o) : Runs E (is ++ bs) s o := by
  induction is generalizing s with
  | nil => cases h; exact h'
  | cons i is ih =>
    rw [List.all_cons, Bool.and_eq_true] at hs
    rw [Wasm.steps] at h
    rcases h1 : step E i s with _ | s1
    · rw [h1] at h; cases h
    · rw [h1] at h
      exact Runs.simple hs.1 h1 (ih hs.2 h)

theorem Runs.straight {E : Env} {is : List Instr} {s s' : St} (hs : is.all Instr.simple = true)
    (h : Wasm.steps E is s = some s') : Runs E is s (.ok s') := by
  have := Runs.steps (bs := []) hs h (Runs.nil E s')
  rwa [List.append_nil] at this

/-! ## Memory -/

theorem loadN_congr {m m' : Mem} : ∀ (n a : Nat), (∀ b, a ≤ b → b < a + n → m b = m' b) → loadN m a n = loadN m' a n
  | 0, _, _ => rfl
  | n + 1, a, h => by
    rw [loadN, loadN, h a (by omega) (by omega), loadN_congr n (a + 1) (fun b h1 h2 => h b (by omega) (by omega))]

theorem loadN_store_disjoint (m : Mem) (a n v b k : Nat) (h : b + k ≤ a ∨ a + n ≤ b) :
    loadN (storeN m a n v) b k = loadN m b k := by
  apply loadN_congr
  intro c h1 h2
  rw [storeN, if_neg (by omega)]

theorem loadN_bytes (f : Nat → Nat) (v : Nat) : ∀ (n a : Nat), (∀ b, a ≤ b → b < a + n → f b = v / 256 ^ (b - a) % 256) →
    loadN f a n = v % 256 ^ n := by
  intro n
  induction n generalizing v with
  | zero => intro a _; simp [loadN, Nat.mod_one]
  | succ n ih =>
    intro a h
    rw [loadN, h a (by omega) (by omega), ih (v / 256) (a + 1)]
    · rw [Nat.sub_self, pow_zero, Nat.div_one, pow_succ, Nat.mul_comm (256 ^ n) 256, Nat.mod_mul]
    · intro b h1 h2
      rw [h b (by omega) (by omega), Nat.div_div_eq_div_mul, show b - a = (b - (a + 1)) + 1 by omega, pow_succ, Nat.mul_comm]

theorem loadN_store_same (m : Mem) (a n v : Nat) (h : v < 256 ^ n) : loadN (storeN m a n v) a n = v := by
  rw [loadN_bytes (storeN m a n v) v n a, Nat.mod_eq_of_lt h]
  intro b h1 h2
  rw [storeN, if_pos ⟨h1, h2⟩]

theorem loadN4_store (m : Mem) (a v : Nat) (h : v < 2 ^ 32) : loadN (storeN m a 4 v) a 4 = v :=
  loadN_store_same m a 4 v (by omega)

theorem loadN8_store (m : Mem) (a v : Nat) (h : v < 2 ^ 64) : loadN (storeN m a 8 v) a 8 = v :=
  loadN_store_same m a 8 v (by omega)

end Wasm
