import Verif.Conv.EnvSem

/-!
# The environment semantics agrees with the substitution semantics

`evalR` is the interpreter `eval_n` of expression.v with "out of fuel" and "stuck" told apart.  Closures are compared
with the expressions they stand for (`SVal.unload`).
-/

namespace Src

/-! ## Three outcomes for the substitution semantics -/

/-- Result of evaluating an expression. -/
inductive ERes
  | val (v : Exp)
  | oot
  | stuck

/-- Result of evaluating an argument list. -/
inductive ERess
  | vals (vs : Exps)
  | oot
  | stuck

mutual
/-- `eval_n` (expression.v:682-737) with the failures told apart.  With `bx = false`, applying an erased proof is
stuck.  An argument is evaluated before its function is inspected. -/
def evalR (bx : Bool) : Nat → Exp → ERes
  | 0, _ => .oot
  | n + 1, e => match e with
    | .lam d => .val (.lam d)
    | .fix fs k => .val (.fix fs k)
    | .prf => .val .prf
    | .con d es => match evalsR bx n es with
      | .vals vs => .val (.con d vs)
      | .oot => .oot
      | .stuck => .stuck
    | .app e₁ e₂ => match evalR bx n e₁ with
      | .val f => match evalR bx n e₂ with
        | .val v => match f with
          | .lam b => evalR bx n (sbst v 0 b)
          | .fix fs k => match Fns.nth k fs with
            | some e' => evalR bx n (.app (sbstFix fs e') v)
            | none => .stuck
          | .prf => if bx then .val .prf else .stuck
          | _ => .stuck
        | .oot => .oot
        | .stuck => .stuck
      | .oot => .oot
      | .stuck => .stuck
    | .letin e₁ e₂ => match evalR bx n e₁ with
      | .val v => evalR bx n (sbst v 0 e₂)
      | .oot => .oot
      | .stuck => .stuck
    | .mtch e bs => match evalR bx n e with
      | .val (.con d vs) => match findBranch d vs.len bs with
        | some e' => evalR bx n (sbstList e' vs)
        | none => .stuck
      | .val _ => .stuck
      | .oot => .oot
      | .stuck => .stuck
    | .pval p => .val (.pval p)
    | .var _ => .stuck
    | .prim _ => .stuck
/-- The same for argument lists. -/
def evalsR (bx : Bool) : Nat → Exps → ERess
  | 0, _ => .oot
  | n + 1, es => match es with
    | .nil => .vals .nil
    | .cons e es => match evalR bx n e with
      | .val v => match evalsR bx n es with
        | .vals vs => .vals (.cons v vs)
        | .oot => .oot
        | .stuck => .stuck
      | .oot => .oot
      | .stuck => .stuck
end

/-- The program never stops. -/
def Diverges (bx : Bool) (e : Exp) : Prop := ∀ n, evalR bx n e = .oot

/-- The program stops without a value. -/
def Stuck (bx : Bool) (e : Exp) : Prop := ∃ n, evalR bx n e = .stuck

theorem evalR_succ {bx} : ∀ n, (∀ e, evalR bx n e ≠ .oot → evalR bx (n + 1) e = evalR bx n e) ∧
    ∀ es, evalsR bx n es ≠ .oot → evalsR bx (n + 1) es = evalsR bx n es
  | 0 => ⟨fun e h => absurd rfl h, fun e h => absurd rfl h⟩
  | n + 1 => by
    obtain ⟨ih, ihs⟩ := evalR_succ (bx := bx) n
    constructor
    · intro e h
      cases e with
      | lam | fix | prf | pval | var | prim => rfl
      | con d es =>
        rw [evalR] at h; rw [evalR, evalR]
        cases he : evalsR bx n es with
        | oot => simp [he] at h
        | vals vs => rw [ihs es (by simp [he]), he]
        | stuck => rw [ihs es (by simp [he]), he]
      | app e₁ e₂ =>
        rw [evalR] at h; rw [evalR, evalR]
        cases h1 : evalR bx n e₁ with
        | oot => simp [h1] at h
        | stuck => rw [ih e₁ (by simp [h1]), h1]
        | val f =>
          rw [ih e₁ (by simp [h1]), h1]
          rw [h1] at h
          dsimp only at h ⊢
          cases h2 : evalR bx n e₂ with
          | oot => simp [h2] at h
          | stuck => rw [ih e₂ (by simp [h2]), h2]
          | val v =>
            rw [ih e₂ (by simp [h2]), h2]
            rw [h2] at h
            dsimp only at h ⊢
            cases f with
            | lam b => exact ih _ h
            | fix fs k =>
              dsimp only at h ⊢
              cases hn : Fns.nth k fs with
              | none => rfl
              | some e' => rw [hn] at h; exact ih _ h
            | _ => rfl
      | letin e₁ e₂ =>
        rw [evalR] at h; rw [evalR, evalR]
        cases h1 : evalR bx n e₁ with
        | oot => simp [h1] at h
        | stuck => rw [ih e₁ (by simp [h1]), h1]
        | val v => rw [ih e₁ (by simp [h1]), h1]; rw [h1] at h; exact ih _ h
      | mtch e bs =>
        rw [evalR] at h; rw [evalR, evalR]
        cases h1 : evalR bx n e with
        | oot => simp [h1] at h
        | stuck => rw [ih e (by simp [h1]), h1]
        | val v =>
          rw [ih e (by simp [h1]), h1]
          rw [h1] at h
          cases v with
          | con d vs =>
            dsimp only at h ⊢
            cases hf : findBranch d vs.len bs with
            | none => rfl
            | some e' => rw [hf] at h; exact ih _ h
          | _ => rfl
    · intro es h
      cases es with
      | nil => rfl
      | cons e es =>
        rw [evalsR] at h; rw [evalsR, evalsR]
        cases h1 : evalR bx n e with
        | oot => simp [h1] at h
        | stuck => rw [ih e (by simp [h1]), h1]
        | val v =>
          rw [ih e (by simp [h1]), h1]
          rw [h1] at h
          dsimp only at h ⊢
          cases h2 : evalsR bx n es with
          | oot => simp [h2] at h
          | stuck => rw [ihs es (by simp [h2]), h2]
          | vals vs => rw [ihs es (by simp [h2]), h2]

theorem evalR_mono {bx n m e} (hnm : n ≤ m) (h : evalR bx n e ≠ .oot) : evalR bx m e = evalR bx n e := by
  induction m, hnm using Nat.le_induction with
  | base => rfl
  | succ m _ ih => rw [(evalR_succ m).1 e (by rw [ih]; exact h), ih]

theorem evalsR_mono {bx n m e} (hnm : n ≤ m) (h : evalsR bx n e ≠ .oot) : evalsR bx m e = evalsR bx n e := by
  induction m, hnm using Nat.le_induction with
  | base => rfl
  | succ m _ ih => rw [(evalR_succ m).2 e (by rw [ih]; exact h), ih]

/-- The values are those of `eval_n`. -/
theorem evalR_evalN : ∀ n, (∀ e v, evalR true n e = .val v ↔ evalN n e = some v) ∧
    ∀ es vs, evalsR true n es = .vals vs ↔ evalsN n es = some vs
  | 0 => ⟨fun e v => by simp [evalR, evalN], fun es vs => by simp [evalsR, evalsN]⟩
  | n + 1 => by
    obtain ⟨ih, ihs⟩ := evalR_evalN n
    have h1 : ∀ e, (∃ v, evalR true n e = .val v ∧ evalN n e = some v) ∨
        ((evalR true n e = .oot ∨ evalR true n e = .stuck) ∧ evalN n e = none) := by
      intro e
      cases h : evalR true n e with
      | val v => exact .inl ⟨v, rfl, (ih e v).1 h⟩
      | oot =>
        refine .inr ⟨.inl rfl, ?_⟩
        cases h' : evalN n e with
        | none => rfl
        | some v => rw [(ih e v).2 h'] at h; cases h
      | stuck =>
        refine .inr ⟨.inr rfl, ?_⟩
        cases h' : evalN n e with
        | none => rfl
        | some v => rw [(ih e v).2 h'] at h; cases h
    have h2 : ∀ es, (∃ v, evalsR true n es = .vals v ∧ evalsN n es = some v) ∨
        ((evalsR true n es = .oot ∨ evalsR true n es = .stuck) ∧ evalsN n es = none) := by
      intro e
      cases h : evalsR true n e with
      | vals v => exact .inl ⟨v, rfl, (ihs e v).1 h⟩
      | oot =>
        refine .inr ⟨.inl rfl, ?_⟩
        cases h' : evalsN n e with
        | none => rfl
        | some v => rw [(ihs e v).2 h'] at h; cases h
      | stuck =>
        refine .inr ⟨.inr rfl, ?_⟩
        cases h' : evalsN n e with
        | none => rfl
        | some v => rw [(ihs e v).2 h'] at h; cases h
    constructor
    · intro e v
      cases e with
      | lam | fix | prf | pval | var | prim => simp [evalR, evalN]
      | con d es =>
        simp only [evalR, evalN]
        rcases h2 es with ⟨vs, a, b⟩ | ⟨a | a, b⟩ <;> simp [a, b]
      | app e₁ e₂ =>
        simp only [evalR, evalN]
        rcases h1 e₁ with ⟨f, a, b⟩ | ⟨a | a, b⟩ <;> simp only [a, b] <;> try simp
        rcases h1 e₂ with ⟨w, c, d⟩ | ⟨c | c, d⟩ <;> simp only [c, d]
        · cases f with
          | lam b => simp only; exact ih _ _
          | fix fs k =>
            simp only
            cases Fns.nth k fs with
            | none => simp
            | some e' => exact ih _ _
          | prf => simp
          | _ => simp
        · cases f <;> simp
        · cases f <;> simp
      | letin e₁ e₂ =>
        simp only [evalR, evalN]
        rcases h1 e₁ with ⟨f, a, b⟩ | ⟨a | a, b⟩ <;> simp only [a, b] <;> try simp
        exact ih _ _
      | mtch e bs =>
        simp only [evalR, evalN]
        rcases h1 e with ⟨f, a, b⟩ | ⟨a | a, b⟩ <;> simp only [a, b] <;> try simp
        cases f with
        | con d vs =>
          simp only
          cases findBranch d vs.len bs with
          | none => simp
          | some e' => exact ih _ _
        | _ => simp
    · intro es vs
      cases es with
      | nil => simp [evalsR, evalsN]
      | cons e es =>
        simp only [evalsR, evalsN]
        rcases h1 e with ⟨w, a, b⟩ | ⟨a | a, b⟩ <;> simp only [a, b] <;>
          rcases h2 es with ⟨ws, c, d⟩ | ⟨c | c, d⟩ <;> simp [c, d]

/-- The three-outcome interpreter returns exactly the values of the relation. -/
theorem Eval.iffR {e v} : Eval e v ↔ ∃ n, evalR true n e = .val v := by
  rw [Eval.iffN]
  exact ⟨fun ⟨n, h⟩ => ⟨n, ((evalR_evalN n).1 e v).2 h⟩, fun ⟨n, h⟩ => ⟨n, ((evalR_evalN n).1 e v).1 h⟩⟩

/-- Forbidding the application of erased proofs only makes programs get stuck. -/
theorem evalR_bx : ∀ n, (∀ e, evalR false n e = .stuck ∨ evalR true n e = evalR false n e) ∧
    ∀ es, evalsR false n es = .stuck ∨ evalsR true n es = evalsR false n es
  | 0 => ⟨fun _ => .inr rfl, fun _ => .inr rfl⟩
  | n + 1 => by
    obtain ⟨ih, ihs⟩ := evalR_bx n
    constructor
    · intro e
      cases e with
      | lam | fix | prf | pval | var | prim => exact .inr rfl
      | con d es =>
        simp only [evalR]
        rcases ihs es with h | h
        · exact .inl (by rw [h])
        · exact .inr (by rw [h])
      | app e₁ e₂ =>
        simp only [evalR]
        rcases ih e₁ with h | h
        · exact .inl (by rw [h])
        rw [h]
        cases evalR false n e₁ with
        | oot => exact .inr rfl
        | stuck => exact .inr rfl
        | val f =>
          dsimp only
          rcases ih e₂ with h2 | h2
          · exact .inl (by rw [h2])
          rw [h2]
          cases evalR false n e₂ with
          | oot => exact .inr rfl
          | stuck => exact .inr rfl
          | val v =>
            cases f with
            | lam b => exact ih _
            | fix fs k =>
              dsimp only
              cases Fns.nth k fs with
              | none => exact .inr rfl
              | some e' => exact ih _
            | prf => exact .inl rfl
            | _ => exact .inr rfl
      | letin e₁ e₂ =>
        simp only [evalR]
        rcases ih e₁ with h | h
        · exact .inl (by rw [h])
        rw [h]
        cases evalR false n e₁ with
        | oot => exact .inr rfl
        | stuck => exact .inr rfl
        | val f => exact ih _
      | mtch e bs =>
        simp only [evalR]
        rcases ih e with h | h
        · exact .inl (by rw [h])
        rw [h]
        cases evalR false n e with
        | oot => exact .inr rfl
        | stuck => exact .inr rfl
        | val f =>
          cases f with
          | con d vs =>
            dsimp only
            cases findBranch d vs.len bs with
            | none => exact .inr rfl
            | some e' => exact ih _
          | _ => exact .inr rfl
    · intro es
      cases es with
      | nil => exact .inr rfl
      | cons e es =>
        simp only [evalsR]
        rcases ih e with h | h
        · exact .inl (by rw [h])
        rw [h]
        cases evalR false n e with
        | oot => exact .inr rfl
        | stuck => exact .inr rfl
        | val f =>
          dsimp only
          rcases ihs es with h2 | h2
          · exact .inl (by rw [h2])
          · exact .inr (by rw [h2])

/-! ## Rules for finished evaluations -/

/-- `e` finishes with `r`. -/
def Fin (bx : Bool) (e : Exp) (r : ERes) : Prop := r ≠ .oot ∧ ∃ n, evalR bx n e = r
/-- The same for argument lists. -/
def Fins (bx : Bool) (e : Exps) (r : ERess) : Prop := r ≠ .oot ∧ ∃ n, evalsR bx n e = r

theorem Fin.at {bx e r} (h : Fin bx e r) : ∃ n, ∀ m, n ≤ m → evalR bx m e = r := by
  obtain ⟨h0, n, h⟩ := h
  exact ⟨n, fun m hm => by rw [evalR_mono hm (by rw [h]; exact h0), h]⟩

theorem Fins.at {bx e r} (h : Fins bx e r) : ∃ n, ∀ m, n ≤ m → evalsR bx m e = r := by
  obtain ⟨h0, n, h⟩ := h
  exact ⟨n, fun m hm => by rw [evalsR_mono hm (by rw [h]; exact h0), h]⟩

/-- The result of an application of evaluated terms. -/
theorem Fin.app {bx e₁ e₂ f v r} (h₁ : Fin bx e₁ (.val f)) (h₂ : Fin bx e₂ (.val v))
    (h : match f with
      | .lam b => Fin bx (sbst v 0 b) r
      | .fix fs k => match Fns.nth k fs with
        | some e' => Fin bx (.app (sbstFix fs e') v) r
        | none => r = .stuck
      | .prf => r = if bx then .val .prf else .stuck
      | _ => r = .stuck) : Fin bx (.app e₁ e₂) r := by
  obtain ⟨n₁, h₁⟩ := h₁.at
  obtain ⟨n₂, h₂⟩ := h₂.at
  cases f with
  | lam b =>
    simp only at h
    obtain ⟨n₃, h₃⟩ := h.at
    refine ⟨h.1, max n₁ (max n₂ n₃) + 1, ?_⟩
    simp only [evalR]
    rw [h₁ _ (by omega), h₂ _ (by omega)]
    exact h₃ _ (by omega)
  | fix fs k =>
    simp only at h
    cases hn : Fns.nth k fs with
    | none =>
      simp only [hn] at h
      subst h
      refine ⟨by simp, max n₁ n₂ + 1, ?_⟩
      simp only [evalR]
      rw [h₁ _ (by omega), h₂ _ (by omega)]
      simp only [hn]
    | some e' =>
      simp only [hn] at h
      obtain ⟨n₃, h₃⟩ := h.at
      refine ⟨h.1, max n₁ (max n₂ n₃) + 1, ?_⟩
      simp only [evalR]
      rw [h₁ _ (by omega), h₂ _ (by omega)]
      simp only [hn]
      exact h₃ _ (by omega)
  | _ =>
    simp only at h
    subst h
    refine ⟨by cases bx <;> simp, max n₁ n₂ + 1, ?_⟩
    simp only [evalR]
    rw [h₁ _ (by omega), h₂ _ (by omega)]

theorem Fin.app_stuck₁ {bx e₁ e₂} (h : Fin bx e₁ .stuck) : Fin bx (.app e₁ e₂) .stuck := by
  obtain ⟨n, h⟩ := h.at
  refine ⟨by simp, n + 1, ?_⟩
  simp only [evalR]; rw [h _ (by omega)]

theorem Fin.app_stuck₂ {bx e₁ e₂ f} (h₁ : Fin bx e₁ (.val f)) (h : Fin bx e₂ .stuck) : Fin bx (.app e₁ e₂) .stuck := by
  obtain ⟨n₁, h₁⟩ := h₁.at
  obtain ⟨n, h⟩ := h.at
  refine ⟨by simp, max n n₁ + 1, ?_⟩
  simp only [evalR]; rw [h₁ _ (by omega), h _ (by omega)]

theorem Fin.letin {bx e₁ e₂ v r} (h₁ : Fin bx e₁ (.val v)) (h : Fin bx (sbst v 0 e₂) r) : Fin bx (.letin e₁ e₂) r := by
  obtain ⟨n₁, h₁⟩ := h₁.at
  obtain ⟨n, h'⟩ := h.at
  refine ⟨h.1, max n n₁ + 1, ?_⟩
  simp only [evalR]; rw [h₁ _ (by omega)]; exact h' _ (by omega)

theorem Fin.letin_stuck {bx e₁ e₂} (h : Fin bx e₁ .stuck) : Fin bx (.letin e₁ e₂) .stuck := by
  obtain ⟨n, h⟩ := h.at
  refine ⟨by simp, n + 1, ?_⟩
  simp only [evalR]; rw [h _ (by omega)]

theorem Fin.mtch_stuck {bx e bs} (h : Fin bx e .stuck) : Fin bx (.mtch e bs) .stuck := by
  obtain ⟨n, h⟩ := h.at
  refine ⟨by simp, n + 1, ?_⟩
  simp only [evalR]; rw [h _ (by omega)]

theorem Fin.mtch {bx e bs v r} (h₁ : Fin bx e (.val v))
    (h : match v with
      | .con d vs => match findBranch d vs.len bs with
        | some e' => Fin bx (sbstList e' vs) r
        | none => r = .stuck
      | _ => r = .stuck) : Fin bx (.mtch e bs) r := by
  obtain ⟨n₁, h₁⟩ := h₁.at
  cases v with
  | con d vs =>
    simp only at h
    cases hf : findBranch d vs.len bs with
    | none =>
      simp only [hf] at h
      subst h
      refine ⟨by simp, n₁ + 1, ?_⟩
      simp only [evalR]
      rw [h₁ _ (by omega)]
      simp only [hf]
    | some e' =>
      simp only [hf] at h
      obtain ⟨n₃, h₃⟩ := h.at
      refine ⟨h.1, max n₁ n₃ + 1, ?_⟩
      simp only [evalR]
      rw [h₁ _ (by omega)]
      simp only [hf]
      exact h₃ _ (by omega)
  | _ =>
    simp only at h
    subst h
    refine ⟨by simp, n₁ + 1, ?_⟩
    simp only [evalR]
    rw [h₁ _ (by omega)]

theorem Fin.con {bx d es vs} (h : Fins bx es (.vals vs)) : Fin bx (.con d es) (.val (.con d vs)) := by
  obtain ⟨n, h⟩ := h.at
  refine ⟨by simp, n + 1, ?_⟩
  simp only [evalR]; rw [h _ (by omega)]

theorem Fin.con_stuck {bx d es} (h : Fins bx es .stuck) : Fin bx (.con d es) .stuck := by
  obtain ⟨n, h⟩ := h.at
  refine ⟨by simp, n + 1, ?_⟩
  simp only [evalR]; rw [h _ (by omega)]

theorem Fins.cons {bx e es v vs} (h₁ : Fin bx e (.val v)) (h : Fins bx es (.vals vs)) :
    Fins bx (.cons e es) (.vals (.cons v vs)) := by
  obtain ⟨n₁, h₁⟩ := h₁.at
  obtain ⟨n, h⟩ := h.at
  refine ⟨by simp, max n n₁ + 1, ?_⟩
  simp only [evalsR]; rw [h₁ _ (by omega), h _ (by omega)]

theorem Fins.cons_stuck₁ {bx e es} (h : Fin bx e .stuck) : Fins bx (.cons e es) .stuck := by
  obtain ⟨n, h⟩ := h.at
  refine ⟨by simp, n + 1, ?_⟩
  simp only [evalsR]; rw [h _ (by omega)]

theorem Fins.cons_stuck₂ {bx e es v} (h₁ : Fin bx e (.val v)) (h : Fins bx es .stuck) : Fins bx (.cons e es) .stuck := by
  obtain ⟨n₁, h₁⟩ := h₁.at
  obtain ⟨n, h⟩ := h.at
  refine ⟨by simp, max n n₁ + 1, ?_⟩
  simp only [evalsR]; rw [h₁ _ (by omega), h _ (by omega)]

/-! ## The expression a value stands for -/

/-- Argument list from a list. -/
def Exps.ofList : List Exp → Exps
  | [] => .nil
  | e :: es => .cons e (Exps.ofList es)

mutual
/-- The expression a value stands for. -/
def SVal.unload : SVal → Exp
  | .con d vs => .con d (Exps.ofList (SVal.unloads vs))
  | .clos ρ e => .lam (msub (SVal.unloads ρ) 1 e)
  | .fixc ρ fs n => .fix (msubF (SVal.unloads ρ) fs.len fs) n
  | .prf => .prf
  | .prim p => .pval p
  | .pap p _ vs => (SVal.unloads vs).foldl .app (.prim p)
/-- The same for lists. -/
def SVal.unloads : List SVal → List Exp
  | [] => []
  | v :: vs => v.unload :: SVal.unloads vs
end

mutual
/-- Closures carry an environment for all free variables (`well_formed_val`, fuel_sem.v:~235); there are no primitive
operations. -/
def SVal.wf : SVal → Prop
  | .con _ vs => SVal.wfs vs
  | .clos ρ e => SVal.wfs ρ ∧ e.wf (ρ.length + 1)
  | .fixc ρ fs n => SVal.wfs ρ ∧ n < fs.len ∧ fs.wf (fs.len + ρ.length)
  | .prf => True
  | .prim _ => True
  | .pap _ _ _ => False
/-- The same for lists. -/
def SVal.wfs : List SVal → Prop
  | [] => True
  | v :: vs => v.wf ∧ SVal.wfs vs
end

theorem unloads_eq : ∀ vs, SVal.unloads vs = vs.map SVal.unload
  | [] => rfl
  | v :: vs => by simp [SVal.unloads, unloads_eq vs]

theorem wfs_iff : ∀ {vs}, SVal.wfs vs ↔ ∀ v ∈ vs, v.wf
  | [] => by simp [SVal.wfs]
  | v :: vs => by simp [SVal.wfs, wfs_iff (vs := vs)]

@[simp] theorem Exps.list_ofList : ∀ es, (Exps.ofList es).list = es
  | [] => rfl
  | e :: es => by simp [Exps.ofList, Exps.list, Exps.list_ofList es]

@[simp] theorem Exps.len_ofList : ∀ es, (Exps.ofList es).len = es.length
  | [] => rfl
  | e :: es => by simp [Exps.ofList, Exps.len, Exps.len_ofList es]

theorem Exps.wf_ofList {i} : ∀ {es}, (∀ e ∈ es, e.wf i) → (Exps.ofList es).wf i
  | [], _ => by simp [Exps.ofList, Exps.wf]
  | e :: es, h => by
    simp only [Exps.ofList, Exps.wf]
    exact ⟨h e (by simp), Exps.wf_ofList (fun x hx => h x (by simp [hx]))⟩

theorem msubF_nth (vs k) (fs : Fns) : ∀ n, Fns.nth n (msubF vs k fs) = (Fns.nth n fs).map (msub vs k) := by
  induction fs using Fns.ind with
  | h0 => intro n; cases n <;> rfl
  | h1 e fs ih => intro n; cases n with
    | zero => rfl
    | succ n => simp [msubF, Fns.nth, ih]

theorem msubB_find (vs k d m) (bs : Brs) : findBranch d m (msubB vs k bs) = (findBranch d m bs).map (msub vs (m + k)) := by
  induction bs using Brs.ind with
  | h0 => rfl
  | h1 d' n e bs ih =>
    simp only [msubB, findBranch]
    split
    · split
      · rename_i h; subst h; rfl
      · rfl
    · exact ih

mutual
theorem unload_wf : ∀ {v : SVal}, v.wf → v.unload.wf 0
  | .con d vs, h => by
    simp only [SVal.wf] at h
    simp only [SVal.unload, Exp.wf]
    exact Exps.wf_ofList (unloads_closed h)
  | .clos ρ e, h => by
    simp only [SVal.wf] at h
    simp only [SVal.unload, Exp.wf]
    refine msub_wf (unloads_closed h.1) e ?_
    have := h.2
    rw [unloads_eq, List.length_map]; rwa [Nat.add_comm] at this
  | .fixc ρ fs n, h => by
    simp only [SVal.wf] at h
    simp only [SVal.unload, Exp.wf, msubF_len]
    refine ⟨h.2.1, msubF_wf (unloads_closed h.1) fs ?_⟩
    rw [unloads_eq, List.length_map]; exact h.2.2
  | .prf, _ => by simp [SVal.unload, Exp.wf]
  | .prim p, _ => by simp [SVal.unload, Exp.wf]
  | .pap _ _ _, h => by simp [SVal.wf] at h
theorem unloads_closed : ∀ {vs : List SVal}, SVal.wfs vs → Closed (SVal.unloads vs)
  | [], _ => by simp [SVal.unloads, Closed]
  | v :: vs, h => by
    simp only [SVal.wfs] at h
    intro e he
    simp only [SVal.unloads, List.mem_cons] at he
    rcases he with rfl | he
    · exact unload_wf h.1
    · exact unloads_closed h.2 e he
end

/-- Two substitutions in a row. -/
theorem msub_msub {vs : List Exp} (hv : Closed vs) (e : Exp) : ∀ (ws : List Exp) (k : Nat), Closed ws →
    msub ws k (msub vs (ws.length + k) e) = msub (ws ++ vs) k e
  | [], k, _ => by simp [msub_nil]
  | w :: ws, k, hw => by
    have hws : Closed ws := fun x hx => hw x (by simp [hx])
    have ih := msub_msub hv e ws (k + 1) hws
    rw [← sbst_msub hws, List.length_cons, show ws.length + 1 + k = ws.length + (k + 1) by omega, ih,
      sbst_msub (by intro x hx; rcases List.mem_append.1 hx with h | h; exacts [hws x h, hv x h])]
    rfl

theorem recEnv_wf {fs ρ} (h : SVal.wfs ρ) (hf : fs.wf (fs.len + ρ.length)) : SVal.wfs (recEnv fs ρ) := by
  rw [wfs_iff] at h ⊢
  intro v hv
  simp only [recEnv, List.mem_append, List.mem_map] at hv
  rcases hv with ⟨n, hn, rfl⟩ | hv
  · exact ⟨wfs_iff.2 h, mem_listToZero hn, hf⟩
  · exact h v hv

theorem recEnv_length (fs ρ) : (recEnv fs ρ).length = fs.len + ρ.length := by
  simp [recEnv, length_listToZero]

/-- Unfolding a recursive closure. -/
theorem sbstFix_unload {fs ρ e} (h : SVal.wfs ρ) (hf : fs.wf (fs.len + ρ.length)) :
    sbstFix (msubF (SVal.unloads ρ) fs.len fs) (msub (SVal.unloads ρ) fs.len e) = msub (SVal.unloads (recEnv fs ρ)) 0 e := by
  have hwf : (msubF (SVal.unloads ρ) fs.len fs).wf fs.len := by
    refine msubF_wf (unloads_closed h) fs ?_
    rw [unloads_eq, List.length_map]; exact hf
  rw [sbstFix_msub (by simpa using hwf), msubF_len]
  have hl : ((listToZero fs.len).map (fun k => Exp.fix (msubF (SVal.unloads ρ) fs.len fs) k)).length = fs.len := by
    simp [length_listToZero]
  have := msub_msub (unloads_closed h) e ((listToZero fs.len).map (fun k => Exp.fix (msubF (SVal.unloads ρ) fs.len fs) k)) 0
    (by
      intro x hx
      simp only [List.mem_map] at hx
      obtain ⟨n, hn, rfl⟩ := hx
      simp only [Exp.wf, msubF_len, Nat.add_zero]
      exact ⟨mem_listToZero hn, hwf⟩)
  rw [hl, Nat.add_zero] at this
  rw [this]
  congr 1
  simp only [recEnv, unloads_eq, List.map_append, List.map_map]
  congr 1
  apply List.map_congr_left
  intro n _
  simp [SVal.unload, unloads_eq]

/-! ## From environments to substitution -/

/-- A finished run corresponds to a finished substitution run. -/
def Corr (bx : Bool) (t : Exp) : SRes → Prop
  | .val v => v.wf ∧ Fin bx t (.val v.unload)
  | .oot => True
  | .stuck => Fin bx t .stuck

/-- The same for lists. -/
def Corrs (bx : Bool) (t : Exps) : SRess → Prop
  | .vals vs => SVal.wfs vs ∧ Fins bx t (.vals (Exps.ofList (SVal.unloads vs)))
  | .oot => True
  | .stuck => Fins bx t .stuck

/-- Calls correspond. -/
def CallCorr (bx : Bool) (sc : List SVal → Exp → SRes) : Prop :=
  ∀ ρ e, SVal.wfs ρ → e.wf ρ.length → Corr bx (msub (SVal.unloads ρ) 0 e) (sc ρ e)

mutual
/-- Values evaluate to themselves. -/
theorem fin_unload (bx) : ∀ v : SVal, v.wf → Fin bx v.unload (.val v.unload)
  | .con d vs, h => by simp only [SVal.unload]; exact .con (fins_unload bx vs h)
  | .clos ρ e, _ => ⟨by simp, 1, rfl⟩
  | .fixc ρ fs n, _ => ⟨by simp, 1, rfl⟩
  | .prf, _ => ⟨by simp, 1, rfl⟩
  | .prim p, _ => ⟨by simp, 1, rfl⟩
  | .pap _ _ _, h => h.elim
theorem fins_unload (bx) : ∀ vs : List SVal, SVal.wfs vs → Fins bx (Exps.ofList (SVal.unloads vs)) (.vals (Exps.ofList (SVal.unloads vs)))
  | [], _ => ⟨by simp, 1, rfl⟩
  | v :: vs, h => by simp only [SVal.unloads, Exps.ofList]; exact .cons (fin_unload bx v h.1) (fins_unload bx vs h.2)
end

theorem wfs_append {vs ws} (h : SVal.wfs vs) (h' : SVal.wfs ws) : SVal.wfs (vs ++ ws) := by
  rw [wfs_iff] at *
  intro v hv; rcases List.mem_append.1 hv with hv | hv
  · exact h v hv
  · exact h' v hv

theorem wfs_reverse {vs} (h : SVal.wfs vs) : SVal.wfs vs.reverse := by
  rw [wfs_iff] at *; intro v hv; exact h v (by simpa using hv)

theorem wfs_get {ρ : List SVal} {i : Nat} {v} (h : SVal.wfs ρ) (hv : ρ[i]? = some v) : v.wf :=
  wfs_iff.1 h v (List.mem_of_getElem? hv)

@[simp] theorem length_unloads (vs) : (SVal.unloads vs).length = vs.length := by simp [unloads_eq]

/-- The body of a branch under substitution. -/
theorem sbstList_unload {vs ρ e} (hv : SVal.wfs vs) (hρ : SVal.wfs ρ) :
    sbstList (msub (SVal.unloads ρ) vs.length e) (Exps.ofList (SVal.unloads vs)) =
      msub (SVal.unloads (vs.reverse ++ ρ)) 0 e := by
  rw [sbstList_msub (Exps.wf_ofList (unloads_closed hv)), Exps.list_ofList]
  have hc : Closed (SVal.unloads vs).reverse := fun x hx => unloads_closed hv x (by simpa using hx)
  have := msub_msub (unloads_closed hρ) e (SVal.unloads vs).reverse 0 hc
  simp only [List.length_reverse, length_unloads, Nat.add_zero] at this
  rw [this]
  simp [unloads_eq]

theorem apply_corr {bx sc} (hc : CallCorr bx sc) {t₁ t₂ f v} (hf : f.wf) (h₁ : Fin bx t₁ (.val f.unload)) (hv : v.wf)
    (h₂ : Fin bx t₂ (.val v.unload)) : Corr bx (.app t₁ t₂) (sapply bx sc f v) := by
  have fin_of : ∀ {r}, (∀ t', (match r with
      | SRes.val u => u.wf ∧ Fin bx t' (.val u.unload)
      | .oot => True
      | .stuck => Fin bx t' .stuck) = Corr bx t' r) := by intro r t'; cases r <;> rfl
  cases f with
  | con d vs => exact Fin.app h₁ h₂ (by simp [SVal.unload])
  | prim p => exact Fin.app h₁ h₂ (by simp [SVal.unload])
  | pap _ _ _ => exact hf.elim
  | prf =>
    simp only [sapply]
    cases bx with
    | true => exact ⟨trivial, Fin.app h₁ h₂ (by simp [SVal.unload])⟩
    | false => exact Fin.app h₁ h₂ (by simp [SVal.unload])
  | clos ρ e =>
    simp only [SVal.wf] at hf
    simp only [sapply]
    have := hc (v :: ρ) e ⟨hv, hf.1⟩ (by simpa using hf.2)
    have hs : sbst v.unload 0 (msub (SVal.unloads ρ) 1 e) = msub (SVal.unloads (v :: ρ)) 0 e :=
      sbst_msub (unloads_closed hf.1) e 0
    revert this
    cases sc (v :: ρ) e with
    | oot => intro _; trivial
    | stuck => intro h; exact Fin.app h₁ h₂ (by simp only [SVal.unload]; rw [hs]; exact h)
    | val u => intro h; exact ⟨h.1, Fin.app h₁ h₂ (by simp only [SVal.unload]; rw [hs]; exact h.2)⟩
  | fixc ρ fs n =>
    simp only [SVal.wf] at hf
    obtain ⟨e', hn⟩ := Fns.nth_lt.1 hf.2.1
    obtain ⟨hw, b, rfl⟩ := Fns.nth_wf hf.2.2 hn
    simp only [sapply, hn]
    have hwr : SVal.wfs (recEnv fs ρ) := recEnv_wf hf.1 hf.2.2
    have hb : b.wf ((v :: recEnv fs ρ).length) := by
      simp only [Exp.wf] at hw
      simp only [List.length_cons, recEnv_length]
      rwa [Nat.add_comm] at hw
    have := hc (v :: recEnv fs ρ) b ⟨hv, hwr⟩ hb
    have hs : sbst v.unload 0 (msub (SVal.unloads (recEnv fs ρ)) 1 b) = msub (SVal.unloads (v :: recEnv fs ρ)) 0 b :=
      sbst_msub (unloads_closed hwr) b 0
    have key : ∀ r, Fin bx (msub (SVal.unloads (v :: recEnv fs ρ)) 0 b) r → Fin bx (.app t₁ t₂) r := by
      intro r h
      refine Fin.app h₁ h₂ ?_
      simp only [SVal.unload, msubF_nth, hn, Option.map_some]
      rw [sbstFix_unload hf.1 hf.2.2]
      simp only [msub]
      refine Fin.app (f := .lam (msub (SVal.unloads (recEnv fs ρ)) 1 b)) ⟨by simp, 1, rfl⟩ (fin_unload bx v hv) ?_
      simp only
      rw [hs]; exact h
    revert this
    cases sc (v :: recEnv fs ρ) b with
    | oot => intro _; trivial
    | stuck => intro h; exact key _ h
    | val u => intro h; exact ⟨h.1, key _ h.2⟩

mutual
theorem seval_corr {bx sc} (hc : CallCorr bx sc) : ∀ (e : Exp) (ρ : List SVal), SVal.wfs ρ → e.wf ρ.length →
    Corr bx (msub (SVal.unloads ρ) 0 e) (seval bx sc e ρ)
  | .var i, ρ, hρ, hw => by
    simp only [Exp.wf] at hw
    simp only [seval, List.getElem?_eq_getElem hw]
    have hv : ρ[i]? = some ρ[i] := List.getElem?_eq_getElem hw
    refine ⟨wfs_get hρ hv, ?_⟩
    have : msub (SVal.unloads ρ) 0 (.var i) = ρ[i].unload := by
      simp [msub, unloads_eq, hw]
    rw [this]; exact fin_unload bx _ (wfs_get hρ hv)
  | .lam e, ρ, hρ, hw => by
    simp only [Exp.wf] at hw
    simp only [seval]
    exact ⟨⟨hρ, by rwa [Nat.add_comm] at hw⟩, by simp, 1, rfl⟩
  | .app e₁ e₂, ρ, hρ, hw => by
    simp only [Exp.wf] at hw
    have h1 := seval_corr hc e₁ ρ hρ hw.1
    have h2 := seval_corr hc e₂ ρ hρ hw.2
    simp only [seval, msub]
    revert h1
    cases seval bx sc e₁ ρ with
    | oot => intro _; trivial
    | stuck => intro h; exact .app_stuck₁ h
    | val f =>
      intro h1
      simp only
      revert h2
      cases seval bx sc e₂ ρ with
      | oot => intro _; trivial
      | stuck => intro h2; exact .app_stuck₂ h1.2 h2
      | val v => intro h2; exact apply_corr hc h1.1 h1.2 h2.1 h2.2
  | .con d es, ρ, hρ, hw => by
    simp only [Exp.wf] at hw
    have h := sevals_corr hc es ρ hρ hw
    simp only [seval, msub]
    revert h
    cases sevals bx sc es ρ with
    | oot => intro _; trivial
    | stuck => intro h; exact .con_stuck h
    | vals vs => intro h; exact ⟨h.1, .con h.2⟩
  | .mtch e bs, ρ, hρ, hw => by
    simp only [Exp.wf] at hw
    have h := seval_corr hc e ρ hρ hw.1
    simp only [seval, msub]
    revert h
    cases seval bx sc e ρ with
    | oot => intro _; trivial
    | stuck => intro h; exact .mtch_stuck h
    | val v =>
      intro h
      cases v with
      | con d vs =>
        simp only [sbranch]
        have hv : SVal.wfs vs := h.1
        cases hf : findBranch d vs.length bs with
        | none =>
          refine Fin.mtch h.2 ?_
          simp [SVal.unload, msubB_find, hf]
        | some e' =>
          simp only
          have hwb := findBranch_wf hw.2 hf
          have := hc (vs.reverse ++ ρ) e' (wfs_append (wfs_reverse hv) hρ) (by simpa using hwb)
          have key : ∀ r, Fin bx (msub (SVal.unloads (vs.reverse ++ ρ)) 0 e') r →
              Fin bx (.mtch (msub (SVal.unloads ρ) 0 e) (msubB (SVal.unloads ρ) 0 bs)) r := by
            intro r hr
            refine Fin.mtch h.2 ?_
            simp only [SVal.unload, Exps.len_ofList, length_unloads, msubB_find, hf, Option.map_some, Nat.add_zero]
            rw [sbstList_unload hv hρ]; exact hr
          revert this
          cases sc (vs.reverse ++ ρ) e' with
          | oot => intro _; trivial
          | stuck => intro h; exact key _ h
          | val u => intro h; exact ⟨h.1, key _ h.2⟩
      | pap _ _ _ => exact h.1.elim
      | _ => exact Fin.mtch h.2 (by simp [SVal.unload])
  | .letin e₁ e₂, ρ, hρ, hw => by
    simp only [Exp.wf] at hw
    have h1 := seval_corr hc e₁ ρ hρ hw.1
    simp only [seval, msub]
    revert h1
    cases seval bx sc e₁ ρ with
    | oot => intro _; trivial
    | stuck => intro h; exact .letin_stuck h
    | val v =>
      intro h1
      simp only
      have h2 := seval_corr hc e₂ (v :: ρ) ⟨h1.1, hρ⟩ (by rw [List.length_cons, Nat.add_comm]; exact hw.2)
      have hs : sbst v.unload 0 (msub (SVal.unloads ρ) 1 e₂) = msub (SVal.unloads (v :: ρ)) 0 e₂ :=
        sbst_msub (unloads_closed hρ) e₂ 0
      have key : ∀ r, Fin bx (msub (SVal.unloads (v :: ρ)) 0 e₂) r →
          Fin bx (.letin (msub (SVal.unloads ρ) 0 e₁) (msub (SVal.unloads ρ) 1 e₂)) r := by
        intro r hr; exact .letin h1.2 (by rw [hs]; exact hr)
      revert h2
      cases seval bx sc e₂ (v :: ρ) with
      | oot => intro _; trivial
      | stuck => intro h; exact key _ h
      | val u => intro h; exact ⟨h.1, key _ h.2⟩
  | .fix fs n, ρ, hρ, hw => by
    simp only [Exp.wf] at hw
    simp only [seval]
    refine ⟨⟨hρ, hw⟩, by simp, 1, ?_⟩
    simp [msub, evalR, SVal.unload]
  | .prf, ρ, hρ, hw => ⟨trivial, by simp, 1, rfl⟩
  | .pval p, ρ, hρ, hw => ⟨trivial, by simp, 1, rfl⟩
  | .prim p, ρ, hρ, hw => by simp [Exp.wf] at hw
theorem sevals_corr {bx sc} (hc : CallCorr bx sc) : ∀ (es : Exps) (ρ : List SVal), SVal.wfs ρ → es.wf ρ.length →
    Corrs bx (msubs (SVal.unloads ρ) 0 es) (sevals bx sc es ρ)
  | .nil, ρ, hρ, hw => ⟨trivial, by simp, 1, rfl⟩
  | .cons e es, ρ, hρ, hw => by
    simp only [Exps.wf] at hw
    have h1 := seval_corr hc e ρ hρ hw.1
    have h2 := sevals_corr hc es ρ hρ hw.2
    simp only [sevals, msubs]
    revert h1
    cases seval bx sc e ρ with
    | oot => intro _; trivial
    | stuck => intro h; exact .cons_stuck₁ h
    | val f =>
      intro h1
      simp only
      revert h2
      cases sevals bx sc es ρ with
      | oot => intro _; trivial
      | stuck => intro h2; exact .cons_stuck₂ h1.2 h2
      | vals vs => intro h2; exact ⟨⟨h1.1, h2.1⟩, .cons h1.2 h2.2⟩
end

theorem scall_corr (bx) : ∀ n, CallCorr bx (scall bx n)
  | 0 => fun _ _ _ _ => trivial
  | n + 1 => fun ρ e hρ he => by
    show Corr bx _ (srun bx n ρ e)
    rw [srun_scall]
    exact seval_corr (scall_corr bx n) e ρ hρ he

/-- A finished run of the environment interpreter is a finished run of the substitution semantics. -/
theorem srun_corr (bx n) {e} (he : e.wf 0) : Corr bx e (srun bx n [] e) := by
  rw [srun_scall]
  have := seval_corr (scall_corr bx n) e [] trivial he
  rwa [SVal.unloads, msub_nil] at this

/-! ## From substitution to environments -/

mutual
theorem seval_mono {bx sc sc'} (h : ∀ ρ e, sc ρ e ≠ .oot → sc' ρ e = sc ρ e) : ∀ (e : Exp) (ρ : List SVal),
    seval bx sc e ρ ≠ .oot → seval bx sc' e ρ = seval bx sc e ρ
  | .var i, ρ => fun _ => rfl
  | .lam e, ρ => fun _ => rfl
  | .app e₁ e₂, ρ => by
    have h1 := seval_mono (bx := bx) h e₁ ρ
    have h2 := seval_mono (bx := bx) h e₂ ρ
    simp only [seval]
    revert h1
    cases seval bx sc e₁ ρ with
    | oot => intro _ hn; simp at hn
    | stuck => intro h1 _; rw [h1 (by simp)]
    | val f =>
      intro h1; rw [h1 (by simp)]; simp only
      revert h2
      cases seval bx sc e₂ ρ with
      | oot => intro _ hn; simp at hn
      | stuck => intro h2 _; rw [h2 (by simp)]
      | val v =>
        intro h2; rw [h2 (by simp)]; simp only
        cases f with
        | clos ρ' b => exact h _ _
        | fixc ρ' fs n =>
          simp only [sapply]
          cases Fns.nth n fs with
          | none => intro _; rfl
          | some e' => cases e' with
            | lam b => exact h _ _
            | _ => intro _; rfl
        | pap p n vs =>
          have h0 := h [] .prf
          simp only [sapply, nest]
          revert h0
          cases sc [] .prf with
          | oot => intro _ hn; exact absurd rfl hn
          | _ => intro h0 _; rw [h0 (by simp)]
        | _ => intro _; rfl
  | .con d es, ρ => by
    have h1 := sevals_mono (bx := bx) h es ρ
    simp only [seval]
    revert h1
    cases sevals bx sc es ρ with
    | oot => intro _ hn; simp at hn
    | stuck => intro h1 _; rw [h1 (by simp)]
    | vals f => intro h1 _; rw [h1 (by simp)]
  | .mtch e bs, ρ => by
    have h1 := seval_mono (bx := bx) h e ρ
    simp only [seval]
    revert h1
    cases seval bx sc e ρ with
    | oot => intro _ hn; simp at hn
    | stuck => intro h1 _; rw [h1 (by simp)]
    | val v =>
      intro h1; rw [h1 (by simp)]; simp only
      cases v with
      | con d vs =>
        simp only [sbranch]
        cases findBranch d vs.length bs with
        | none => intro _; rfl
        | some e' => exact h _ _
      | _ => intro _; rfl
  | .letin e₁ e₂, ρ => by
    have h1 := seval_mono (bx := bx) h e₁ ρ
    simp only [seval]
    revert h1
    cases seval bx sc e₁ ρ with
    | oot => intro _ hn; simp at hn
    | stuck => intro h1 _; rw [h1 (by simp)]
    | val v => intro h1; rw [h1 (by simp)]; exact seval_mono h e₂ (v :: ρ)
  | .fix fs n, ρ => fun _ => rfl
  | .prf, ρ => fun _ => rfl
  | .pval p, ρ => fun _ => rfl
  | .prim p, ρ => fun _ => rfl
theorem sevals_mono {bx sc sc'} (h : ∀ ρ e, sc ρ e ≠ .oot → sc' ρ e = sc ρ e) : ∀ (es : Exps) (ρ : List SVal),
    sevals bx sc es ρ ≠ .oot → sevals bx sc' es ρ = sevals bx sc es ρ
  | .nil, ρ => fun _ => rfl
  | .cons e es, ρ => by
    have h1 := seval_mono (bx := bx) h e ρ
    have h2 := sevals_mono (bx := bx) h es ρ
    simp only [sevals]
    revert h1
    cases seval bx sc e ρ with
    | oot => intro _ hn; simp at hn
    | stuck => intro h1 _; rw [h1 (by simp)]
    | val f =>
      intro h1; rw [h1 (by simp)]; simp only
      revert h2
      cases sevals bx sc es ρ with
      | oot => intro _ hn; simp at hn
      | stuck => intro h2 _; rw [h2 (by simp)]
      | vals v => intro h2 _; rw [h2 (by simp)]
end

theorem scall_succ (bx) : ∀ n ρ e, scall bx n ρ e ≠ .oot → scall bx (n + 1) ρ e = scall bx n ρ e
  | 0, ρ, e => fun h => absurd rfl h
  | n + 1, ρ, e => by
    show srun bx n ρ e ≠ .oot → srun bx (n + 1) ρ e = srun bx n ρ e
    rw [srun_scall, srun_scall]
    exact seval_mono (scall_succ bx n) e ρ

theorem srun_mono {bx n m ρ e} (hnm : n ≤ m) (h : srun bx n ρ e ≠ .oot) : srun bx m ρ e = srun bx n ρ e := by
  induction m, hnm using Nat.le_induction with
  | base => rfl
  | succ m _ ih => rw [← ih]; rw [← ih] at h; exact scall_succ bx (m + 1) ρ e h

/-- Arguments at level `n`. -/
def sruns (bx : Bool) (n : Nat) (ρ : List SVal) (es : Exps) : SRess := sevals bx (scall bx n) es ρ

theorem sruns_mono {bx n m ρ es} (hnm : n ≤ m) (h : sruns bx n ρ es ≠ .oot) : sruns bx m ρ es = sruns bx n ρ es := by
  induction m, hnm using Nat.le_induction with
  | base => rfl
  | succ m _ ih => rw [← ih]; rw [← ih] at h; exact sevals_mono (scall_succ bx m) es ρ h

theorem srun_corr_env (bx n) {ρ e} (hρ : SVal.wfs ρ) (he : e.wf ρ.length) :
    Corr bx (msub (SVal.unloads ρ) 0 e) (srun bx n ρ e) := by
  rw [srun_scall]; exact seval_corr (scall_corr bx n) e ρ hρ he

theorem sruns_corr_env (bx n) {ρ es} (hρ : SVal.wfs ρ) (he : es.wf ρ.length) :
    Corrs bx (msubs (SVal.unloads ρ) 0 es) (sruns bx n ρ es) := sevals_corr (scall_corr bx n) es ρ hρ he

theorem Fin.det {bx e r n} (h : Fin bx e r) (hn : evalR bx n e ≠ .oot) : evalR bx n e = r := by
  obtain ⟨k, hk⟩ := h.at
  rw [← hk (max n k) (by omega), evalR_mono (Nat.le_max_left n k) hn]

theorem Fins.det {bx e r n} (h : Fins bx e r) (hn : evalsR bx n e ≠ .oot) : evalsR bx n e = r := by
  obtain ⟨k, hk⟩ := h.at
  rw [← hk (max n k) (by omega), evalsR_mono (Nat.le_max_left n k) hn]

/-- Where the substitution semantics finishes, the environment interpreter finishes. -/
theorem srun_finishes {bx} : ∀ m, (∀ ρ e, SVal.wfs ρ → e.wf ρ.length → evalR bx m (msub (SVal.unloads ρ) 0 e) ≠ .oot →
      srun bx m ρ e ≠ .oot) ∧
    ∀ ρ es, SVal.wfs ρ → es.wf ρ.length → evalsR bx m (msubs (SVal.unloads ρ) 0 es) ≠ .oot → sruns bx m ρ es ≠ .oot := by
  intro m
  induction m using Nat.strong_induction_on with
  | _ m ih =>
  cases m with
  | zero => exact ⟨fun ρ e _ _ h => absurd rfl h, fun ρ e _ _ h => absurd rfl h⟩
  | succ m =>
    have ihe := (ih m (by omega)).1
    have ihs := (ih m (by omega)).2
    have lift : ∀ {ρ e}, srun bx m ρ e ≠ .oot → srun bx (m + 1) ρ e = srun bx m ρ e :=
      fun h => srun_mono (by omega) h
    constructor
    · intro ρ e hρ hw h
      cases e with
      | var i =>
        simp only [Exp.wf] at hw
        simp [srun, seval, hw]
      | lam b => simp [srun, seval]
      | fix fs n => simp [srun, seval]
      | prf => simp [srun, seval]
      | pval p => simp [srun, seval]
      | prim p => simp [srun, seval]
      | con d es =>
        simp only [Exp.wf] at hw
        simp only [msub, evalR] at h
        have h0 : evalsR bx m (msubs (SVal.unloads ρ) 0 es) ≠ .oot := by intro hh; rw [hh] at h; simp at h
        have h1 := ihs ρ es hρ hw h0
        have h2 : sevals bx (srun bx m) es ρ ≠ .oot := by
          show sruns bx (m + 1) ρ es ≠ .oot
          rw [sruns_mono (by omega) h1]; exact h1
        simp only [srun, seval]
        cases hh : sevals bx (srun bx m) es ρ with
        | oot => exact absurd hh h2
        | _ => simp
      | app e₁ e₂ =>
        simp only [Exp.wf] at hw
        simp only [msub, evalR] at h
        have n1 : evalR bx m (msub (SVal.unloads ρ) 0 e₁) ≠ .oot := by intro hh; rw [hh] at h; simp at h
        have s1 := ihe ρ e₁ hρ hw.1 n1
        have c1 := srun_corr_env bx m hρ hw.1
        have l1 := lift s1
        simp only [srun] at l1
        simp only [srun, seval]
        rw [l1]
        cases hr1 : srun bx m ρ e₁ with
        | oot => exact absurd hr1 s1
        | stuck => simp
        | val f =>
          rw [hr1] at c1
          rw [c1.2.det n1] at h
          simp only at h ⊢
          have n2 : evalR bx m (msub (SVal.unloads ρ) 0 e₂) ≠ .oot := by intro hh; rw [hh] at h; simp at h
          have s2 := ihe ρ e₂ hρ hw.2 n2
          have c2 := srun_corr_env bx m hρ hw.2
          have l2 := lift s2
          simp only [srun] at l2
          rw [l2]
          cases hr2 : srun bx m ρ e₂ with
          | oot => exact absurd hr2 s2
          | stuck => simp
          | val v =>
            rw [hr2] at c2
            rw [c2.2.det n2] at h
            simp only at h ⊢
            have hf := c1.1
            cases f with
            | clos ρ' b =>
              simp only [SVal.wf] at hf
              simp only [SVal.unload] at h
              rw [sbst_msub (unloads_closed hf.1) b 0] at h
              simp only [sapply]
              exact ihe (v :: ρ') b ⟨c2.1, hf.1⟩ (by simpa using hf.2) h
            | fixc ρ' fs n =>
              simp only [SVal.wf] at hf
              obtain ⟨e', hn⟩ := Fns.nth_lt.1 hf.2.1
              obtain ⟨hwb, b, rfl⟩ := Fns.nth_wf hf.2.2 hn
              have hwr : SVal.wfs (recEnv fs ρ') := recEnv_wf hf.1 hf.2.2
              have hb : b.wf ((v :: recEnv fs ρ').length) := by
                simp only [Exp.wf] at hwb
                simp only [List.length_cons, recEnv_length]
                rwa [Nat.add_comm] at hwb
              simp only [SVal.unload, msubF_nth, hn, Option.map_some] at h
              rw [sbstFix_unload hf.1 hf.2.2] at h
              simp only [msub] at h
              cases m with
              | zero => exact absurd rfl h
              | succ m =>
                simp only [evalR] at h
                have hl : evalR bx m (.lam (msub (SVal.unloads (recEnv fs ρ')) 1 b)) ≠ .oot := by
                  intro hh; simp [hh] at h
                rw [Fin.det (r := .val (.lam (msub (SVal.unloads (recEnv fs ρ')) 1 b))) ⟨by simp, 1, rfl⟩ hl] at h
                simp only at h
                have hv : evalR bx m v.unload ≠ .oot := by intro hh; simp [hh] at h
                rw [(fin_unload bx v c2.1).det hv] at h
                simp only at h
                rw [sbst_msub (unloads_closed hwr) b 0] at h
                simp only [sapply, hn]
                have := (ih m (by omega)).1 (v :: recEnv fs ρ') b ⟨c2.1, hwr⟩ hb h
                rw [srun_mono (by omega : m ≤ m + 1) this]; exact this
            | prf => simp only [sapply]; cases bx <;> simp
            | pap _ _ _ => exact hf.elim
            | _ => simp [sapply]
      | letin e₁ e₂ =>
        simp only [Exp.wf] at hw
        simp only [msub, evalR] at h
        have n1 : evalR bx m (msub (SVal.unloads ρ) 0 e₁) ≠ .oot := by intro hh; rw [hh] at h; simp at h
        have s1 := ihe ρ e₁ hρ hw.1 n1
        have c1 := srun_corr_env bx m hρ hw.1
        have l1 := lift s1
        simp only [srun] at l1
        simp only [srun, seval]
        rw [l1]
        cases hr1 : srun bx m ρ e₁ with
        | oot => exact absurd hr1 s1
        | stuck => simp
        | val v =>
          rw [hr1] at c1
          rw [c1.2.det n1] at h
          simp only at h ⊢
          rw [sbst_msub (unloads_closed hρ) e₂ 0] at h
          have s2 := ihe (v :: ρ) e₂ ⟨c1.1, hρ⟩ (by rw [List.length_cons, Nat.add_comm]; exact hw.2) h
          have l2 := lift s2
          simp only [srun] at l2
          rw [l2]; exact s2
      | mtch e bs =>
        simp only [Exp.wf] at hw
        simp only [msub, evalR] at h
        have n1 : evalR bx m (msub (SVal.unloads ρ) 0 e) ≠ .oot := by intro hh; rw [hh] at h; simp at h
        have s1 := ihe ρ e hρ hw.1 n1
        have c1 := srun_corr_env bx m hρ hw.1
        have l1 := lift s1
        simp only [srun] at l1
        simp only [srun, seval]
        rw [l1]
        cases hr1 : srun bx m ρ e with
        | oot => exact absurd hr1 s1
        | stuck => simp
        | val v =>
          rw [hr1] at c1
          rw [c1.2.det n1] at h
          simp only at h ⊢
          cases v with
          | con d vs =>
            simp only [sbranch]
            simp only [SVal.unload, Exps.len_ofList, length_unloads, msubB_find] at h
            have hv : SVal.wfs vs := c1.1
            cases hf : findBranch d vs.length bs with
            | none => simp
            | some e' =>
              simp only [hf, Option.map_some, Nat.add_zero] at h ⊢
              rw [sbstList_unload hv hρ] at h
              exact ihe (vs.reverse ++ ρ) e' (wfs_append (wfs_reverse hv) hρ)
                (by simpa using findBranch_wf hw.2 hf) h
          | _ => simp [sbranch]
    · intro ρ es hρ hw h
      cases es with
      | nil => simp [sruns, sevals]
      | cons e es =>
        simp only [Exps.wf] at hw
        simp only [msubs, evalsR] at h
        have n1 : evalR bx m (msub (SVal.unloads ρ) 0 e) ≠ .oot := by intro hh; rw [hh] at h; simp at h
        have s1 := ihe ρ e hρ hw.1 n1
        have c1 := srun_corr_env bx m hρ hw.1
        have l1 := lift s1
        simp only [srun] at l1
        simp only [sruns, scall, sevals]
        rw [l1]
        cases hr1 : srun bx m ρ e with
        | oot => exact absurd hr1 s1
        | stuck => simp
        | val v =>
          rw [hr1] at c1
          rw [c1.2.det n1] at h
          simp only at h ⊢
          have n2 : evalsR bx m (msubs (SVal.unloads ρ) 0 es) ≠ .oot := by intro hh; rw [hh] at h; simp at h
          have s2 := ihs ρ es hρ hw.2 n2
          have l2 := sruns_mono (by omega : m ≤ m + 1) s2
          simp only [sruns, scall] at l2
          rw [l2]
          change sruns bx m ρ es ≠ _ at s2
          revert s2
          show sruns bx m ρ es ≠ .oot → (match sruns bx m ρ es with
            | .vals vs => SRess.vals (v :: vs)
            | .oot => .oot
            | .stuck => .stuck) ≠ .oot
          cases sruns bx m ρ es with
          | oot => intro h; exact absurd rfl h
          | stuck => simp
          | vals vs => simp

/-- Values: both semantics return the same. -/
theorem val_iff {bx e w} (he : e.wf 0) :
    (∃ n, evalR bx n e = .val w) ↔ ∃ n v, srun bx n [] e = .val v ∧ v.unload = w := by
  constructor
  · rintro ⟨n, h⟩
    have := (srun_finishes (bx := bx) n).1 [] e trivial he (by rw [SVal.unloads, msub_nil, h]; simp)
    have hc := srun_corr bx n he
    revert this hc
    cases hr : srun bx n [] e with
    | oot => intro h; exact absurd rfl h
    | stuck =>
      intro _ hc
      rw [hc.det (n := n) (by rw [h]; simp)] at h; cases h
    | val v =>
      intro _ hc
      rw [hc.2.det (n := n) (by rw [h]; simp)] at h
      injection h with h
      exact ⟨n, v, hr, h⟩
  · rintro ⟨n, v, h, rfl⟩
    have hc := srun_corr bx n he
    rw [h] at hc
    exact hc.2.2

theorem diverges_iff {bx e} (he : e.wf 0) : Diverges bx e ↔ ∀ n, srun bx n [] e = .oot := by
  constructor
  · intro h n
    have hc := srun_corr bx n he
    revert hc
    cases hr : srun bx n [] e with
    | oot => intro _; rfl
    | stuck => rintro ⟨_, m, hm⟩; rw [h m] at hm; cases hm
    | val v => rintro ⟨_, _, m, hm⟩; rw [h m] at hm; cases hm
  · intro h n
    by_contra hn
    exact (srun_finishes (bx := bx) n).1 [] e trivial he (by rw [SVal.unloads, msub_nil]; exact hn) (h n)

theorem stuck_iff {bx e} (he : e.wf 0) : Stuck bx e ↔ ∃ n, srun bx n [] e = .stuck := by
  constructor
  · rintro ⟨n, h⟩
    have := (srun_finishes (bx := bx) n).1 [] e trivial he (by rw [SVal.unloads, msub_nil, h]; simp)
    have hc := srun_corr bx n he
    revert this hc
    cases hr : srun bx n [] e with
    | oot => intro h; exact absurd rfl h
    | stuck => intro _ _; exact ⟨n, hr⟩
    | val v =>
      intro _ hc
      rw [hc.2.det (n := n) (by rw [h]; simp)] at h; cases h
  · rintro ⟨n, h⟩
    have hc := srun_corr bx n he
    rw [h] at hc
    exact hc.2

end Src
