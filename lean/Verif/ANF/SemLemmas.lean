import Verif.ANF.Sem

/-! # LambdaANF: lemmas about the semantics -/

namespace ANF

variable {S : Sig}

/-- `r` is finished: not out of time. -/
def Res.Done : Res → Prop
  | .oot => False
  | _ => True

/-- `call'` refines `call`: finished results are kept. -/
def CallLe (call call' : Env → Exp → Res) : Prop := ∀ ρ e, (call ρ e).Done → call' ρ e = call ρ e

mutual
theorem evalE_mono {call call'} (h : CallLe call call') : ∀ e ρ, (evalE S call e ρ).Done →
    evalE S call' e ρ = evalE S call e ρ
  | .constr x t ys e, ρ => by
    simp only [evalE]
    cases getList ρ ys with
    | none => intro _; rfl
    | some vs => exact evalE_mono h e _
  | .case y bs, ρ => by
    simp only [evalE]
    rcases ρ y with _ | ⟨t, vs⟩ | ⟨⟩ | ⟨⟩ <;> try (intro _; rfl)
    dsimp only
    split
    · exact evalB_mono h t bs ρ
    · intro _; rfl
  | .proj x t n y e, ρ => by
    simp only [evalE]
    rcases ρ y with _ | ⟨t', vs⟩ | ⟨⟩ | ⟨⟩ <;> try (intro _; rfl)
    dsimp only
    split
    · cases vs[n]? with
      | none => intro _; rfl
      | some v => exact evalE_mono h e _
    · intro _; rfl
  | .letapp x f ft ys e, ρ => by
    simp only [evalE]
    rcases callee ρ f ft ys with _ | ⟨ρ', eb⟩
    · intro _; rfl
    · dsimp only
      intro hd
      have hc : (call ρ' eb).Done := by
        revert hd
        cases call ρ' eb <;> simp [Res.Done]
      rw [h ρ' eb hc]
      revert hd
      cases call ρ' eb with
      | val v => exact evalE_mono h e _
      | oot => intro h; exact h.elim
      | stuck => intro _; rfl
  | .fn B e, ρ => by simp only [evalE]; exact evalE_mono h e _
  | .app f ft ys, ρ => by
    simp only [evalE]
    rcases callee ρ f ft ys with _ | ⟨ρ', eb⟩
    · intro _; rfl
    · exact h ρ' eb
  | .primVal x p e, ρ => by simp only [evalE]; exact evalE_mono h e _
  | .prim x p ys e, ρ => by
    simp only [evalE]
    cases getList ρ ys with
    | none => intro _; rfl
    | some vs =>
      dsimp only
      cases S.op p vs with
      | none => intro _; rfl
      | some v => exact evalE_mono h e _
  | .halt x, ρ => by intro _; simp only [evalE]
theorem evalB_mono {call call'} (h : CallLe call call') : ∀ t bs ρ, (evalB S call t bs ρ).Done →
    evalB S call' t bs ρ = evalB S call t bs ρ
  | t, .nil, ρ => by intro _; simp only [evalB]
  | t, .cons t' e bs, ρ => by
    simp only [evalB]
    split
    · exact evalE_mono h e ρ
    · exact evalB_mono h t bs ρ
end

theorem run_callLe : ∀ n, CallLe (run S n) (run S (n + 1))
  | 0, ρ, e => fun hd => evalE_mono (call := fun _ _ => .oot) (fun _ _ h => False.elim h) e ρ hd
  | n + 1, ρ, e => fun hd => evalE_mono (run_callLe n) e ρ hd

theorem run_mono {n m : Nat} (hnm : n ≤ m) {ρ e} (hd : (run S n ρ e).Done) : run S m ρ e = run S n ρ e := by
  induction hnm with
  | refl => rfl
  | step h ih => rw [← ih]; apply run_callLe; rw [ih]; exact hd

/-- Calls as seen by the interpreter at level `n`. -/
def callAt (S : Sig) : Nat → Env → Exp → Res
  | 0 => fun _ _ => .oot
  | n + 1 => run S n

theorem run_callAt (n : Nat) (ρ : Env) (e : Exp) : run S n ρ e = evalE S (callAt S n) e ρ := by
  cases n <;> rfl

theorem evalB_findTag {call} (t : Tag) : ∀ bs ρ, evalB S call t bs ρ = match findTag t bs with
    | some e => evalE S call e ρ
    | none => .stuck
  | .nil, ρ => by simp only [evalB, findTag]
  | .cons t' e bs, ρ => by
    simp only [evalB, findTag]
    split
    · rfl
    · exact evalB_findTag t bs ρ

/-! ## Determinism of the relation -/

theorem bfuel_det : ∀ (n c1 : Nat), c1 ≤ n → ∀ {ρ e v1 o1}, Bfuel S ρ e c1 (.res v1) o1 →
    ∀ {c2 v2 o2}, Bfuel S ρ e c2 (.res v2) o2 → v1 = v2 ∧ c1 = c2 ∧ o1 = o2 := by
  intro n
  induction n with
  | zero => intro c1 hc ρ e v1 o1 h1; cases h1; omega
  | succ n ih =>
    intro c1 hc ρ e v1 o1 h1 c2 v2 o2 h2
    cases h1 with | run h1 => cases h2 with | run h2 =>
    suffices h : v1 = v2 ∧ _ = _ ∧ _ = _ from ⟨h.1, congrArg (· + 1) h.2.1, congrArg (· + 1) h.2.2⟩
    cases h1 with
    | constr a b => cases h2 with | constr a' b' => rw [a] at a'; cases a'; exact ih _ (by omega) b b'
    | proj a b c => cases h2 with | proj a' b' c' =>
        rw [a] at a'; cases a'; rw [b] at b'; cases b'; exact ih _ (by omega) c c'
    | case a b c d => cases h2 with | case a' b' c' d' =>
        rw [a] at a'; cases a'; rw [c] at c'; cases c'; exact ih _ (by omega) d d'
    | app a b c d e => cases h2 with | app a' b' c' d' e' =>
        rw [a] at a'; cases a'; rw [b] at b'; cases b'; rw [c] at c'; cases c'; rw [d] at d'; cases d'
        exact ih _ (by omega) e e'
    | letapp a b c d e f => cases h2 with | letapp a' b' c' d' e' f' =>
        rw [a] at a'; cases a'; rw [b] at b'; cases b'; rw [c] at c'; cases c'; rw [d] at d'; cases d'
        obtain ⟨rfl, rfl, rfl⟩ := ih _ (by omega) e e'
        obtain ⟨rfl, rfl, rfl⟩ := ih _ (by omega) f f'
        exact ⟨rfl, rfl, rfl⟩
    | fn a => cases h2 with | fn a' => exact ih _ (by omega) a a'
    | primVal a => cases h2 with | primVal a' => exact ih _ (by omega) a a'
    | prim a b c => cases h2 with | prim a' b' c' =>
        rw [a] at a'; cases a'; rw [b] at b'; cases b'; exact ih _ (by omega) c c'
    | halt a => cases h2 with | halt a' => rw [a] at a'; cases a'; exact ⟨rfl, rfl, rfl⟩

/-- A run out of time has less fuel than a finished run costs. -/
theorem bfuel_oot_lt : ∀ (n c1 : Nat), c1 ≤ n → ∀ {ρ e v1 o1}, Bfuel S ρ e c1 (.res v1) o1 →
    ∀ {c2 o2}, Bfuel S ρ e c2 .oot o2 → c2 < c1 := by
  intro n
  induction n with
  | zero => intro c1 hc ρ e v1 o1 h1; cases h1; omega
  | succ n ih =>
    intro c1 hc ρ e v1 o1 h1 c2 o2 h2
    cases h1 with | run h1 =>
    cases h2 with
    | oot h => omega
    | run h2 =>
    suffices h : _ < _ from Nat.succ_lt_succ h
    cases h1 with
    | constr a b => cases h2 with | constr a' b' => rw [a] at a'; cases a'; exact ih _ (by omega) b b'
    | proj a b c => cases h2 with | proj a' b' c' =>
        rw [a] at a'; cases a'; rw [b] at b'; cases b'; exact ih _ (by omega) c c'
    | case a b c d => cases h2 with | case a' b' c' d' =>
        rw [a] at a'; cases a'; rw [c] at c'; cases c'; exact ih _ (by omega) d d'
    | app a b c d e => cases h2 with | app a' b' c' d' e' =>
        rw [a] at a'; cases a'; rw [b] at b'; cases b'; rw [c] at c'; cases c'; rw [d] at d'; cases d'
        exact ih _ (by omega) e e'
    | letapp a b c d e f => cases h2 with
      | letapp a' b' c' d' e' f' =>
        rw [a] at a'; cases a'; rw [b] at b'; cases b'; rw [c] at c'; cases c'; rw [d] at d'; cases d'
        obtain ⟨rfl, rfl, rfl⟩ := bfuel_det n _ (by omega) e e'
        have := ih _ (by omega) f f'
        omega
      | letappOot a' b' c' d' e' =>
        rw [a] at a'; cases a'; rw [b] at b'; cases b'; rw [c] at c'; cases c'; rw [d] at d'; cases d'
        have := ih _ (by omega) e e'
        omega
    | fn a => cases h2 with | fn a' => exact ih _ (by omega) a a'
    | primVal a => cases h2 with | primVal a' => exact ih _ (by omega) a a'
    | prim a b c => cases h2 with | prim a' b' c' =>
        rw [a] at a'; cases a'; rw [b] at b'; cases b'; exact ih _ (by omega) c c'
    | halt a => cases h2

/-- A run with cost `c` (finished or not) is out of time at every smaller fuel. -/
theorem bfuel_lt : ∀ (n c : Nat), c ≤ n → ∀ {ρ e r o}, Bfuel S ρ e c r o → ∀ {c'}, c' < c →
    ∃ o', o' ≤ o ∧ Bfuel S ρ e c' .oot o' := by
  intro n
  induction n with
  | zero => intro c hc ρ e r o h c' h'; omega
  | succ n ih =>
    intro c hc ρ e r o h c' h'
    cases h with
    | oot h => omega
    | @run _ _ c _ o h =>
    cases c' with
    | zero => exact ⟨0, by omega, .oot (by omega)⟩
    | succ c' =>
    replace h' : c' < c := by omega
    replace hc : c ≤ n := by omega
    suffices hh : ∃ o', o' ≤ o ∧ Bstep S ρ e c' .oot o' by
      obtain ⟨o', l, hh⟩ := hh
      exact ⟨o' + 1, by omega, .run hh⟩
    cases h with
    | constr a b => obtain ⟨o', l, h⟩ := ih _ hc b h'; exact ⟨o', l, .constr a h⟩
    | proj a b c => obtain ⟨o', l, h⟩ := ih _ hc c h'; exact ⟨o', l, .proj a b h⟩
    | case a b c d => obtain ⟨o', l, h⟩ := ih _ hc d h'; exact ⟨o', l, .case a b c h⟩
    | app a b c d e => obtain ⟨o', l, h⟩ := ih _ hc e h'; exact ⟨o', l, .app a b c d h⟩
    | @letapp _ _ _ _ _ _ _ _ _ _ _ _ _ _ _ c1 c2 o1 o2 a b c d e f =>
      by_cases h1 : c' < c1
      · obtain ⟨o', l, h⟩ := ih _ (by omega) e h1; exact ⟨o', by omega, .letappOot a b c d h⟩
      · obtain ⟨o', l, h⟩ := ih _ (by omega) f (c' := c' - c1) (by omega)
        refine ⟨o1 + o', by omega, ?_⟩
        have := Bstep.letapp a b c d e h
        rwa [show c1 + (c' - c1) = c' by omega] at this
    | letappOot a b c d e => obtain ⟨o', l, h⟩ := ih _ hc e h'; exact ⟨o', l, .letappOot a b c d h⟩
    | fn a => obtain ⟨o', l, h⟩ := ih _ hc a h'; exact ⟨o', l, .fn h⟩
    | primVal a => obtain ⟨o', l, h⟩ := ih _ hc a h'; exact ⟨o', l, .primVal h⟩
    | prim a b c => obtain ⟨o', l, h⟩ := ih _ hc c h'; exact ⟨o', l, .prim a b h⟩
    | halt a => omega

/-! ## The interpreter agrees with the relation -/

theorem callee_some {ρ f ft ys ρ'' e} (h : callee ρ f ft ys = some (ρ'', e)) : ∃ ρ' B f' vs xs,
    ρ f = some (.fn ρ' B f') ∧ getList ρ ys = some vs ∧ findDef f' B = some (ft, xs, e) ∧
      setLists xs vs (defFuns B B ρ' ρ') = some ρ'' := by
  unfold callee at h
  rcases hf : ρ f with _ | ⟨⟩ | ⟨ρ', B, f'⟩ | ⟨⟩ <;> simp only [hf] at h <;> try (cases h)
  rcases hy : getList ρ ys with _ | vs <;> simp only [hy] at h
  · cases h
  rcases hd : findDef f' B with _ | ⟨ft', xs, e'⟩ <;> simp only [hd] at h
  · cases h
  split at h
  · next ht =>
    subst ht
    rcases hs : setLists xs vs (defFuns B B ρ' ρ') with _ | ρ3 <;> simp only [hs] at h
    · cases h
    · cases h; exact ⟨ρ', B, f', vs, xs, rfl, rfl, hd, hs⟩
  · cases h

theorem callee_eq {ρ f ft ys ρ' B f' vs xs e ρ''} (a : ρ f = some (.fn ρ' B f')) (b : getList ρ ys = some vs)
    (c : findDef f' B = some (ft, xs, e)) (d : setLists xs vs (defFuns B B ρ' ρ') = some ρ'') :
    callee ρ f ft ys = some (ρ'', e) := by
  simp only [callee, a, b, c, d, if_true, Option.map]

/-- Level-wise soundness: if calls answered by `call` are right, so is the interpreter. -/
theorem evalE_sound {call} (hcall : ∀ ρ e v, call ρ e = .val v → ∃ c o, Bfuel S ρ e c (.res v) o) (v : Val) :
    ∀ e ρ, evalE S call e ρ = .val v → ∃ c o, Bfuel S ρ e c (.res v) o
  | .constr x t ys e, ρ => by
    simp only [evalE]
    rcases hg : getList ρ ys with _ | vs
    · intro h; cases h
    · intro h
      obtain ⟨c, o, hb⟩ := evalE_sound hcall v e _ h
      exact ⟨_, _, .run (.constr hg hb)⟩
  | .case y bs, ρ => by
    simp only [evalE]
    rcases hy : ρ y with _ | ⟨t, vs⟩ | ⟨⟩ | ⟨⟩ <;> try (intro h; cases h)
    dsimp only
    split
    · next hc =>
      intro h
      obtain ⟨e, hf, c, o, hb⟩ := evalB_sound hcall v t bs ρ h
      exact ⟨_, _, .run (.case hy hc hf hb)⟩
    · intro h; cases h
  | .proj x t n y e, ρ => by
    simp only [evalE]
    rcases hy : ρ y with _ | ⟨t', vs⟩ | ⟨⟩ | ⟨⟩ <;> try (intro h; cases h)
    dsimp only
    split
    · next ht =>
      subst ht
      rcases hn : vs[n]? with _ | w
      · intro h; cases h
      · intro h
        obtain ⟨c, o, hb⟩ := evalE_sound hcall v e _ h
        exact ⟨_, _, .run (.proj hy hn hb)⟩
    · intro h; cases h
  | .letapp x f ft ys e, ρ => by
    simp only [evalE]
    rcases hc : callee ρ f ft ys with _ | ⟨ρ', eb⟩
    · intro h; cases h
    · dsimp only
      rcases hr : call ρ' eb with w | _ | _
      · intro h
        obtain ⟨ρ1, B, f', vs, xs, a, b, c, d⟩ := callee_some hc
        obtain ⟨c1, o1, h1⟩ := hcall _ _ _ hr
        obtain ⟨c2, o2, h2⟩ := evalE_sound hcall v e _ h
        exact ⟨_, _, .run (.letapp a b c d h1 h2)⟩
      · intro h; cases h
      · intro h; cases h
  | .fn B e, ρ => by
    simp only [evalE]
    intro h
    obtain ⟨c, o, hb⟩ := evalE_sound hcall v e _ h
    exact ⟨_, _, .run (.fn hb)⟩
  | .app f ft ys, ρ => by
    simp only [evalE]
    rcases hc : callee ρ f ft ys with _ | ⟨ρ', eb⟩
    · intro h; cases h
    · intro h
      obtain ⟨ρ1, B, f', vs, xs, a, b, c, d⟩ := callee_some hc
      obtain ⟨c1, o1, h1⟩ := hcall _ _ _ h
      exact ⟨_, _, .run (.app a b c d h1)⟩
  | .primVal x p e, ρ => by
    simp only [evalE]
    intro h
    obtain ⟨c, o, hb⟩ := evalE_sound hcall v e _ h
    exact ⟨_, _, .run (.primVal hb)⟩
  | .prim x p ys e, ρ => by
    simp only [evalE]
    rcases hg : getList ρ ys with _ | vs
    · intro h; cases h
    · dsimp only
      rcases ho : S.op p vs with _ | w
      · intro h; cases h
      · intro h
        obtain ⟨c, o, hb⟩ := evalE_sound hcall v e _ h
        exact ⟨_, _, .run (.prim hg ho hb)⟩
  | .halt x, ρ => by
    simp only [evalE]
    rcases hx : ρ x with _ | w
    · intro h; cases h
    · intro h; cases h; exact ⟨_, _, .run (.halt hx)⟩
where
  evalB_sound {call} (hcall : ∀ ρ e v, call ρ e = .val v → ∃ c o, Bfuel S ρ e c (.res v) o) (v : Val) (t : Tag) :
      ∀ bs ρ, evalB S call t bs ρ = .val v → ∃ e, findTag t bs = some e ∧ ∃ c o, Bfuel S ρ e c (.res v) o
    | .nil, ρ => by simp only [evalB]; intro h; cases h
    | .cons t' e bs, ρ => by
      simp only [evalB, findTag]
      split
      · intro h; exact ⟨e, rfl, evalE_sound hcall v e ρ h⟩
      · exact evalB_sound hcall v t bs ρ

theorem run_sound : ∀ n ρ e v, run S n ρ e = .val v → ∃ c o, Bfuel S ρ e c (.res v) o
  | 0, ρ, e, v => evalE_sound (fun _ _ _ h => by cases h) v e ρ
  | n + 1, ρ, e, v => evalE_sound (run_sound n) v e ρ

theorem run_step {ρ e n v} (h : run S n ρ e = .val v) {m} (hm : n ≤ m) : run S m ρ e = .val v := by
  rw [run_mono hm, h]; rw [h]; trivial

theorem evalE_step {ρ e n v} (h : run S n ρ e = .val v) {m} (hm : n ≤ m) : evalE S (callAt S m) e ρ = .val v := by
  rw [← run_callAt]; exact run_step h hm

theorem bfuel_run : ∀ (n c : Nat), c ≤ n → ∀ {ρ e v o}, Bfuel S ρ e c (.res v) o → ∃ n, run S n ρ e = .val v := by
  intro n
  induction n with
  | zero => intro c hc ρ e v o h; cases h; omega
  | succ n ih =>
    intro c hc ρ e v o h
    cases h with | @run _ _ c _ o h =>
    replace hc : c ≤ n := by omega
    cases h with
    | constr a b => obtain ⟨n, h⟩ := ih _ hc b
                    exact ⟨n, by rw [run_callAt] at h ⊢; simpa only [evalE, a] using h⟩
    | proj a b c => obtain ⟨n, h⟩ := ih _ hc c
                    exact ⟨n, by rw [run_callAt] at h ⊢; simpa only [evalE, a, b, if_true] using h⟩
    | case a b c d => obtain ⟨n, h⟩ := ih _ hc d
                      exact ⟨n, by rw [run_callAt] at h ⊢
                                   simpa only [evalE, a, b, c, if_true, evalB_findTag] using h⟩
    | app a b c d e => obtain ⟨n, h⟩ := ih _ hc e
                       exact ⟨n + 1, by simpa only [run, evalE, callee_eq a b c d] using h⟩
    | letapp a b c d e f =>
      obtain ⟨n, h⟩ := ih _ (by omega) e
      obtain ⟨m, h'⟩ := ih _ (by omega) f
      refine ⟨max n m + 1, ?_⟩
      simp only [run, evalE, callee_eq a b c d, run_step h (Nat.le_max_left n m)]
      exact run_step (m := max n m + 1) h' (by omega)
    | fn a => obtain ⟨n, h⟩ := ih _ hc a
              exact ⟨n, by rw [run_callAt] at h ⊢; simpa only [evalE] using h⟩
    | primVal a => obtain ⟨n, h⟩ := ih _ hc a
                   exact ⟨n, by rw [run_callAt] at h ⊢; simpa only [evalE] using h⟩
    | prim a b c => obtain ⟨n, h⟩ := ih _ hc c
                    exact ⟨n, by rw [run_callAt] at h ⊢; simpa only [evalE, a, b] using h⟩
    | halt a => exact ⟨0, by simp only [run, evalE, a]⟩

/-- The interpreter at any level, on a call: one level down. -/
theorem run_app {n ρ f ft ys ρ' eb} (h : callee ρ f ft ys = some (ρ', eb)) :
    run S (n + 1) ρ (.app f ft ys) = run S n ρ' eb := by simp only [run, evalE, h]

theorem run_letapp {n ρ x f ft ys e ρ' eb} (h : callee ρ f ft ys = some (ρ', eb)) :
    run S (n + 1) ρ (.letapp x f ft ys e) = match run S n ρ' eb with
      | .val v => run S (n + 1) (ρ.set x v) e
      | .oot => .oot
      | .stuck => .stuck := by simp only [run, evalE, h]; cases run S n ρ' eb <;> rfl

theorem run_constr {n ρ x t ys e vs} (h : getList ρ ys = some vs) :
    run S n ρ (.constr x t ys e) = run S n (ρ.set x (.constr t vs)) e := by simp only [run_callAt, evalE, h]
theorem run_proj {n ρ x t i y e vs v} (h : ρ y = some (.constr t vs)) (h' : vs[i]? = some v) :
    run S n ρ (.proj x t i y e) = run S n (ρ.set x v) e := by simp only [run_callAt, evalE, h, h', if_true]
theorem run_case {n ρ y bs t vs e} (h : ρ y = some (.constr t vs)) (hc : consistent S.cenv t bs.tags = true)
    (h' : findTag t bs = some e) : run S n ρ (.case y bs) = run S n ρ e := by
  simp only [run_callAt, evalE, h, hc, if_true, evalB_findTag, h']
theorem run_fn {n ρ B e} : run S n ρ (.fn B e) = run S n (defFuns B B ρ ρ) e := by simp only [run_callAt, evalE]
theorem run_primVal {n ρ x p e} : run S n ρ (.primVal x p e) = run S n (ρ.set x (.prim p)) e := by
  simp only [run_callAt, evalE]
theorem run_prim {n ρ x p ys e vs v} (h : getList ρ ys = some vs) (h' : S.op p vs = some v) :
    run S n ρ (.prim x p ys e) = run S n (ρ.set x v) e := by simp only [run_callAt, evalE, h, h']

theorem oot_of_never {ρ e} (h1 : ∀ v, ¬ Returns S ρ e v) (h2 : ¬ GoesWrong S ρ e) : Diverges S ρ e := by
  intro n
  rcases h : run S n ρ e with v | _ | _
  · exact (h1 v ⟨n, h⟩).elim
  · rfl
  · exact (h2 ⟨n, h⟩).elim

/-- A diverging program is out of time at every fuel. -/
theorem bfuel_of_diverges : ∀ (m c : Nat), c ≤ m → ∀ {ρ e}, Diverges S ρ e → ∃ o, Bfuel S ρ e c .oot o := by
  intro m
  induction m with
  | zero => intro c hc ρ e _; exact ⟨0, .oot (by omega)⟩
  | succ m ih =>
    intro c hc ρ e h
    cases c with
    | zero => exact ⟨0, .oot (by omega)⟩
    | succ c =>
    replace hc : c ≤ m := by omega
    suffices hh : ∃ o, Bstep S ρ e c .oot o by obtain ⟨o, hh⟩ := hh; exact ⟨_, .run hh⟩
    cases e with
    | constr x t ys e =>
      rcases hg : getList ρ ys with _ | vs
      · have := h 0; simp only [run, evalE, hg] at this; cases this
      · obtain ⟨o, hb⟩ := ih c hc (ρ := ρ.set x (.constr t vs)) (e := e) (fun n => by rw [← h n, run_constr hg])
        exact ⟨o, .constr hg hb⟩
    | case y bs =>
      have h0 := h 0
      simp only [run, evalE] at h0
      rcases hy : ρ y with _ | ⟨t, vs⟩ | ⟨⟩ | ⟨⟩ <;> simp only [hy] at h0 <;> try (cases h0)
      split at h0
      · next hcons =>
        rcases hf : findTag t bs with _ | e
        · simp only [evalB_findTag, hf] at h0; cases h0
        · obtain ⟨o, hb⟩ := ih c hc (ρ := ρ) (e := e) (fun n => by rw [← h n, run_case hy hcons hf])
          exact ⟨o, .case hy hcons hf hb⟩
      · cases h0
    | proj x t i y e =>
      have h0 := h 0
      simp only [run, evalE] at h0
      rcases hy : ρ y with _ | ⟨t', vs⟩ | ⟨⟩ | ⟨⟩ <;> simp only [hy] at h0 <;> try (cases h0)
      split at h0
      · next ht =>
        subst ht
        rcases hn : vs[i]? with _ | v
        · simp only [hn] at h0; cases h0
        · obtain ⟨o, hb⟩ := ih c hc (ρ := ρ.set x v) (e := e) (fun n => by rw [← h n, run_proj hy hn])
          exact ⟨o, .proj hy hn hb⟩
      · cases h0
    | letapp x f ft ys e =>
      rcases hcl : callee ρ f ft ys with _ | ⟨ρ', eb⟩
      · have := h 0; simp only [run, evalE, hcl] at this; cases this
      · obtain ⟨ρ1, B, f', vs, xs, a, b, hd, d⟩ := callee_some hcl
        by_cases hr : ∃ n v, run S n ρ' eb = .val v
        · obtain ⟨n, v, hr⟩ := hr
          have hdiv : Diverges S (ρ.set x v) e := by
            intro k
            have hk := h (max n k + 1)
            rw [run_letapp hcl, run_step hr (Nat.le_max_left n k)] at hk
            rcases hq : run S k (ρ.set x v) e with w | _ | _
            · dsimp only at hk; rw [run_step hq (by omega)] at hk; cases hk
            · rfl
            · dsimp only at hk; rw [run_mono (n := k) (by omega) (by rw [hq]; trivial), hq] at hk; cases hk
          obtain ⟨c1, o1, hb1⟩ := run_sound n _ _ _ hr
          by_cases hlt : c1 ≤ c
          · obtain ⟨o2, hb2⟩ := ih (c - c1) (by omega) hdiv
            have := Bstep.letapp a b hd d hb1 hb2
            rw [show c1 + (c - c1) = c by omega] at this
            exact ⟨_, this⟩
          · obtain ⟨o', _, hb⟩ := bfuel_lt c1 c1 (Nat.le_refl _) hb1 (c' := c) (by omega)
            exact ⟨_, .letappOot a b hd d hb⟩
        · have hdiv : Diverges S ρ' eb := by
            intro k
            have hk := h (k + 1)
            rw [run_letapp hcl] at hk
            rcases hq : run S k ρ' eb with w | _ | _
            · exact (hr ⟨k, w, hq⟩).elim
            · rfl
            · simp only [hq] at hk; cases hk
          obtain ⟨o, hb⟩ := ih c hc hdiv
          exact ⟨_, .letappOot a b hd d hb⟩
    | fn B e =>
      obtain ⟨o, hb⟩ := ih c hc (ρ := defFuns B B ρ ρ) (e := e) (fun n => by rw [← h n, run_fn])
      exact ⟨o, .fn hb⟩
    | app f ft ys =>
      rcases hcl : callee ρ f ft ys with _ | ⟨ρ', eb⟩
      · have := h 0; simp only [run, evalE, hcl] at this; cases this
      · obtain ⟨ρ1, B, f', vs, xs, a, b, hd, d⟩ := callee_some hcl
        obtain ⟨o, hb⟩ := ih c hc (ρ := ρ') (e := eb) (fun n => by rw [← h (n + 1), run_app hcl])
        exact ⟨o, .app a b hd d hb⟩
    | primVal x p e =>
      obtain ⟨o, hb⟩ := ih c hc (ρ := ρ.set x (.prim p)) (e := e) (fun n => by rw [← h n, run_primVal])
      exact ⟨o, .primVal hb⟩
    | prim x p ys e =>
      have h0 := h 0
      simp only [run, evalE] at h0
      rcases hg : getList ρ ys with _ | vs <;> simp only [hg] at h0
      · cases h0
      · rcases ho : S.op p vs with _ | v <;> simp only [ho] at h0
        · cases h0
        · obtain ⟨o, hb⟩ := ih c hc (ρ := ρ.set x v) (e := e) (fun n => by rw [← h n, run_prim hg ho])
          exact ⟨o, .prim hg ho hb⟩
    | halt x =>
      have h0 := h 0
      simp only [run, evalE] at h0
      split at h0 <;> cases h0

/-- The interpreter finds every run that is out of time with more fuel than calls: a stuck program is not out of time
at large fuels. -/
theorem wrong_bound : ∀ (n : Nat) {ρ e}, run S n ρ e = .stuck → ∃ c0, ∀ c o, Bfuel S ρ e c .oot o → c < c0 := by
  have key : ∀ (call : Env → Exp → Res) (_ : ∀ ρ e, call ρ e = .stuck → ∃ c0, ∀ c o, Bfuel S ρ e c .oot o → c < c0)
      (_ : ∀ ρ e v, call ρ e = .val v → ∃ c o, Bfuel S ρ e c (.res v) o)
      (_ : ∀ ρ e, call ρ e = .stuck → ∀ c v o, ¬ Bfuel S ρ e c (.res v) o),
      (∀ e ρ, evalE S call e ρ = .stuck → ∃ c0, ∀ c o, Bfuel S ρ e c .oot o → c < c0) := by
    intro call hs hv hns
    have aux : ∀ k, ∀ e, sizeOf e ≤ k → ∀ ρ, evalE S call e ρ = .stuck →
        ∃ c0, ∀ c o, Bfuel S ρ e c .oot o → c < c0 := by
      intro k
      induction k with
      | zero => intro e he; cases e <;> simp at he
      | succ k ih =>
        intro e he ρ h
        suffices hh : ∃ c0, ∀ c o, Bstep S ρ e c .oot o → c < c0 by
          obtain ⟨c0, hh⟩ := hh
          refine ⟨c0 + 1, ?_⟩
          intro c o hb
          cases hb with
          | oot h => omega
          | run hb => have := hh _ _ hb; omega
        cases e with
        | constr x t ys e =>
          simp only [evalE] at h
          rcases hg : getList ρ ys with _ | vs <;> simp only [hg] at h
          · refine ⟨0, fun c o hb => ?_⟩
            cases hb with | constr a b => rw [hg] at a; cases a
          · obtain ⟨c0, h0⟩ := ih e (by simp at he; omega) _ h
            refine ⟨c0, fun c o hb => ?_⟩
            cases hb with | constr a b => rw [hg] at a; cases a; exact h0 _ _ b
        | case y bs =>
          simp only [evalE] at h
          rcases hy : ρ y with _ | ⟨t, vs⟩ | ⟨⟩ | ⟨⟩ <;> simp only [hy] at h
          case some.constr =>
            split at h
            · rw [evalB_findTag] at h
              rcases hf : findTag t bs with _ | e <;> simp only [hf] at h
              · refine ⟨0, fun c o hb => ?_⟩
                cases hb with | case a b c' d => rw [hy] at a; cases a; rw [hf] at c'; cases c'
              · have hlt : sizeOf e ≤ k := by
                  have : ∀ bs, findTag t bs = some e → sizeOf e < sizeOf bs := by
                    intro bs
                    induction bs using Brs.rec (motive_1 := fun _ => True) (motive_3 := fun _ => True) with
                    | nil => intro h; cases h
                    | cons t' e' bs _ ih =>
                      intro h; simp only [findTag] at h
                      split at h
                      · cases h; simp; omega
                      · have := ih h; simp; omega
                    | _ => trivial
                  have := this bs hf
                  simp at he; omega
                obtain ⟨c0, h0⟩ := ih e hlt _ h
                refine ⟨c0, fun c o hb => ?_⟩
                cases hb with | case a b c' d => rw [hy] at a; cases a; rw [hf] at c'; cases c'; exact h0 _ _ d
            · next hc =>
              refine ⟨0, fun c o hb => ?_⟩
              cases hb with | case a b c' d => rw [hy] at a; cases a; exact (hc b).elim
          all_goals
            refine ⟨0, fun c o hb => ?_⟩
            cases hb with | case a b c' d => rw [hy] at a; cases a
        | proj x t i y e =>
          simp only [evalE] at h
          rcases hy : ρ y with _ | ⟨t', vs⟩ | ⟨⟩ | ⟨⟩ <;> simp only [hy] at h
          case some.constr =>
            split at h
            · next ht =>
              subst ht
              rcases hn : vs[i]? with _ | v <;> simp only [hn] at h
              · refine ⟨0, fun c o hb => ?_⟩
                cases hb with | proj a b c' => rw [hy] at a; cases a; rw [hn] at b; cases b
              · obtain ⟨c0, h0⟩ := ih e (by simp at he; omega) _ h
                refine ⟨c0, fun c o hb => ?_⟩
                cases hb with | proj a b c' => rw [hy] at a; cases a; rw [hn] at b; cases b; exact h0 _ _ c'
            · next ht =>
              refine ⟨0, fun c o hb => ?_⟩
              cases hb with | proj a b c' => rw [hy] at a; cases a; exact (ht rfl).elim
          all_goals
            refine ⟨0, fun c o hb => ?_⟩
            cases hb with | proj a b c' => rw [hy] at a; cases a
        | letapp x f ft ys e =>
          simp only [evalE] at h
          rcases hcl : callee ρ f ft ys with _ | ⟨ρ', eb⟩ <;> simp only [hcl] at h
          · refine ⟨0, fun c o hb => ?_⟩
            cases hb with
            | letapp a b c d _ _ => rw [callee_eq a b c d] at hcl; cases hcl
            | letappOot a b c d _ => rw [callee_eq a b c d] at hcl; cases hcl
          · rcases hr : call ρ' eb with v | _ | _ <;> simp only [hr] at h
            · obtain ⟨c0, h0⟩ := ih e (by simp at he; omega) _ h
              obtain ⟨c1, o1, hb1⟩ := hv _ _ _ hr
              refine ⟨c1 + c0, fun c o hb => ?_⟩
              cases hb with
              | letapp a b c d b1 b2 =>
                rw [callee_eq a b c d] at hcl; cases hcl
                obtain ⟨rfl, rfl, rfl⟩ := bfuel_det _ _ (Nat.le_refl _) hb1 b1
                have := h0 _ _ b2
                omega
              | letappOot a b c d b1 =>
                rw [callee_eq a b c d] at hcl; cases hcl
                have := bfuel_oot_lt _ _ (Nat.le_refl _) hb1 b1
                omega
            · cases h
            · obtain ⟨c0, h0⟩ := hs _ _ hr
              refine ⟨c0, fun c o hb => ?_⟩
              cases hb with
              | @letapp _ _ _ _ _ _ _ _ _ _ _ _ _ _ _ c1 c2 o1 o2 a b c d b1 b2 =>
                rw [callee_eq a b c d] at hcl; cases hcl
                exact (hns _ _ hr _ _ _ b1).elim
              | letappOot a b c d b1 =>
                rw [callee_eq a b c d] at hcl; cases hcl
                exact h0 _ _ b1
        | fn B e =>
          simp only [evalE] at h
          obtain ⟨c0, h0⟩ := ih e (by simp at he; omega) _ h
          refine ⟨c0, fun c o hb => ?_⟩
          cases hb with | fn a => exact h0 _ _ a
        | app f ft ys =>
          simp only [evalE] at h
          rcases hcl : callee ρ f ft ys with _ | ⟨ρ', eb⟩ <;> simp only [hcl] at h
          · refine ⟨0, fun c o hb => ?_⟩
            cases hb with | app a b c d _ => rw [callee_eq a b c d] at hcl; cases hcl
          · obtain ⟨c0, h0⟩ := hs _ _ h
            refine ⟨c0, fun c o hb => ?_⟩
            cases hb with | app a b c d b1 => rw [callee_eq a b c d] at hcl; cases hcl; exact h0 _ _ b1
        | primVal x p e =>
          simp only [evalE] at h
          obtain ⟨c0, h0⟩ := ih e (by simp at he; omega) _ h
          refine ⟨c0, fun c o hb => ?_⟩
          cases hb with | primVal a => exact h0 _ _ a
        | prim x p ys e =>
          simp only [evalE] at h
          rcases hg : getList ρ ys with _ | vs <;> simp only [hg] at h
          · refine ⟨0, fun c o hb => ?_⟩
            cases hb with | prim a b c' => rw [hg] at a; cases a
          · rcases ho : S.op p vs with _ | v <;> simp only [ho] at h
            · refine ⟨0, fun c o hb => ?_⟩
              cases hb with | prim a b c' => rw [hg] at a; cases a; rw [ho] at b; cases b
            · obtain ⟨c0, h0⟩ := ih e (by simp at he; omega) _ h
              refine ⟨c0, fun c o hb => ?_⟩
              cases hb with | prim a b c' => rw [hg] at a; cases a; rw [ho] at b; cases b; exact h0 _ _ c'
        | halt x =>
          refine ⟨0, fun c o hb => ?_⟩
          cases hb
    intro e ρ
    exact aux _ e (Nat.le_refl _) ρ
  intro n
  induction n with
  | zero => intro ρ e h; exact key _ (fun _ _ h => by cases h) (fun _ _ _ h => by cases h) (fun _ _ h => by cases h) e ρ h
  | succ n ih =>
    intro ρ e h
    refine key _ (fun _ _ h => ih h) (run_sound n) ?_ e ρ h
    intro ρ e h c v o hb
    obtain ⟨m, hm⟩ := bfuel_run _ _ (Nat.le_refl _) hb
    rcases Nat.le_total n m with hl | hl
    · rw [run_mono hl (by rw [h]; trivial), h] at hm; cases hm
    · rw [run_step hm hl] at h; cases h

end ANF
