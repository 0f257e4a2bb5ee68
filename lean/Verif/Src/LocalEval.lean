import Verif.Src.Local

/-!
# The relation `Eval` and the interpreter `evalN` agree
-/

namespace Src

theorem evalN_succ : ∀ n, (∀ e v, evalN n e = some v → evalN (n + 1) e = some v) ∧
    (∀ es vs, evalsN n es = some vs → evalsN (n + 1) es = some vs) := by
  intro n
  induction n with
  | zero => exact ⟨fun e v h => by simp [evalN] at h, fun e v h => by simp [evalsN] at h⟩
  | succ n ih =>
    obtain ⟨ih, ihs⟩ := ih
    refine ⟨fun e v h => ?_, fun es vs h => ?_⟩
    · unfold evalN at h ⊢
      cases e with
      | con d es =>
        simp only at h ⊢
        split at h
        · simp at h
        · rename_i vs hv; rw [ihs _ _ hv]; exact h
      | app e₁ e₂ =>
        simp only at h ⊢
        split at h
        · rename_i b hb; rw [ih _ _ hb]; simp only at h ⊢
          split at h
          · simp at h
          · rename_i a ha; rw [ih _ _ ha]; exact ih _ _ h
        · rename_i b hb; rw [ih _ _ hb]; simp only at h ⊢
          split at h
          · simp at h
          · rename_i a ha; rw [ih _ _ ha]; simp only at h ⊢
            split at h
            · rename_i e' he; exact ih _ _ h
            · simp at h
        · rename_i hb; rw [ih _ _ hb]; simp only at h ⊢
          split at h
          · simp at h
          · rename_i a ha; rw [ih _ _ ha]; exact h
        · simp at h
      | letin e₁ e₂ =>
        simp only at h ⊢
        split at h
        · simp at h
        · rename_i vs hv; rw [ih _ _ hv]; exact ih _ _ h
      | mtch e bs =>
        simp only at h ⊢
        split at h
        · rename_i d vs hv; rw [ih _ _ hv]; simp only at h ⊢
          split at h
          · simp at h
          · exact ih _ _ h
        · simp at h
      | _ => simpa using h
    · unfold evalsN at h ⊢
      cases es with
      | nil => simpa using h
      | cons e es =>
        simp only at h ⊢
        split at h
        · rename_i v vs h1 h2; rw [ih _ _ h1, ihs _ _ h2]; exact h
        · simp at h

theorem evalN_mono {n m : Nat} {e v} (hnm : n ≤ m) (h : evalN n e = some v) : evalN m e = some v := by
  induction m, hnm using Nat.le_induction with
  | base => exact h
  | succ m _ ih => exact (evalN_succ m).1 _ _ ih

theorem evalsN_mono {n m : Nat} {e v} (hnm : n ≤ m) (h : evalsN n e = some v) : evalsN m e = some v := by
  induction m, hnm using Nat.le_induction with
  | base => exact h
  | succ m _ ih => exact (evalN_succ m).2 _ _ ih

theorem evalN_sound : ∀ n, (∀ e v, evalN n e = some v → Eval e v) ∧ (∀ es vs, evalsN n es = some vs → Evals es vs) := by
  intro n
  induction n with
  | zero => exact ⟨fun e v h => by simp [evalN] at h, fun e v h => by simp [evalsN] at h⟩
  | succ n ih =>
    obtain ⟨ih, ihs⟩ := ih
    refine ⟨fun e v h => ?_, fun es vs h => ?_⟩
    · unfold evalN at h
      cases e with
      | con d es =>
        simp only at h
        split at h
        · simp at h
        · rename_i vs hv; cases h; exact .con (ihs _ _ hv)
      | app e₁ e₂ =>
        simp only at h
        split at h
        · rename_i b hb
          split at h
          · simp at h
          · rename_i a ha; exact .app (ih _ _ hb) (ih _ _ ha) (ih _ _ h)
        · rename_i b hb
          split at h
          · simp at h
          · rename_i a ha
            split at h
            · rename_i e' he; exact .fixApp (ih _ _ hb) (ih _ _ ha) he (ih _ _ h)
            · simp at h
        · rename_i hb
          split at h
          · simp at h
          · rename_i a ha; cases h; exact .prfApp (ih _ _ hb) (ih _ _ ha)
        · simp at h
      | letin e₁ e₂ =>
        simp only at h
        split at h
        · simp at h
        · rename_i vs hv; exact .letin (ih _ _ hv) (ih _ _ h)
      | mtch e bs =>
        simp only at h
        split at h
        · rename_i d vs hv
          split at h
          · simp at h
          · rename_i e' he; exact .mtch (ih _ _ hv) he (ih _ _ h)
        · simp at h
      | lam e => simp only [Option.some.injEq] at h; subst h; exact .lam _
      | fix fs k => simp only [Option.some.injEq] at h; subst h; exact .fix _ _
      | prf => simp only [Option.some.injEq] at h; subst h; exact .prf
      | pval p => simp only [Option.some.injEq] at h; subst h; exact .pval _
      | var i => simp at h
      | prim i => simp at h
    · unfold evalsN at h
      cases es with
      | nil => simp only [Option.some.injEq] at h; subst h; exact .nil
      | cons e es =>
        simp only at h
        split at h
        · rename_i v vs h1 h2; simp only [Option.some.injEq] at h; subst h; exact .cons (ih _ _ h1) (ihs _ _ h2)
        · simp at h

theorem Eval.toN {e v} (h : Eval e v) : ∃ n, evalN n e = some v := by
  refine Eval.rec (motive_1 := fun e v _ => ∃ n, evalN n e = some v) (motive_2 := fun es vs _ => ∃ n, evalsN n es = some vs)
    ?_ ?_ ?_ ?_ ?_ ?_ ?_ ?_ ?_ ?_ ?_ ?_ h
  · intro e; exact ⟨1, rfl⟩
  · rintro e₁ e₁' e₂ v₂ v _ _ _ ⟨n₁, h₁⟩ ⟨n₂, h₂⟩ ⟨n₃, h₃⟩
    refine ⟨max n₁ (max n₂ n₃) + 1, ?_⟩
    simp [evalN, evalN_mono (m := max n₁ (max n₂ n₃)) (by omega) h₁, evalN_mono (m := max n₁ (max n₂ n₃)) (by omega) h₂,
      evalN_mono (m := max n₁ (max n₂ n₃)) (by omega) h₃]
  · rintro d es vs _ ⟨n, hn⟩
    exact ⟨n + 1, by simp [evalN, hn]⟩
  · rintro e₁ v₁ e₂ v₂ _ _ ⟨n₁, h₁⟩ ⟨n₂, h₂⟩
    refine ⟨max n₁ n₂ + 1, ?_⟩
    simp [evalN, evalN_mono (m := max n₁ n₂) (by omega) h₁, evalN_mono (m := max n₁ n₂) (by omega) h₂]
  · rintro e bs d vs e' v _ hf _ ⟨n₁, h₁⟩ ⟨n₂, h₂⟩
    refine ⟨max n₁ n₂ + 1, ?_⟩
    simp [evalN, evalN_mono (m := max n₁ n₂) (by omega) h₁, hf, evalN_mono (m := max n₁ n₂) (by omega) h₂]
  · intro fs k; exact ⟨1, rfl⟩
  · rintro e fs k e₂ v₂ e' v _ _ hf _ ⟨n₁, h₁⟩ ⟨n₂, h₂⟩ ⟨n₃, h₃⟩
    refine ⟨max n₁ (max n₂ n₃) + 1, ?_⟩
    simp [evalN, evalN_mono (m := max n₁ (max n₂ n₃)) (by omega) h₁, evalN_mono (m := max n₁ (max n₂ n₃)) (by omega) h₂,
      hf, evalN_mono (m := max n₁ (max n₂ n₃)) (by omega) h₃]
  · rintro f a a' _ _ ⟨n₁, h₁⟩ ⟨n₂, h₂⟩
    refine ⟨max n₁ n₂ + 1, ?_⟩
    simp [evalN, evalN_mono (m := max n₁ n₂) (by omega) h₁, evalN_mono (m := max n₁ n₂) (by omega) h₂]
  · exact ⟨1, rfl⟩
  · intro p; exact ⟨1, rfl⟩
  · exact ⟨1, rfl⟩
  · rintro e es v vs _ _ ⟨n₁, h₁⟩ ⟨n₂, h₂⟩
    refine ⟨max n₁ n₂ + 1, ?_⟩
    simp [evalsN, evalN_mono (m := max n₁ n₂) (by omega) h₁, evalsN_mono (m := max n₁ n₂) (by omega) h₂]

theorem Evals.toN {e v} (h : Evals e v) : ∃ n, evalsN n e = some v := by
  induction e using Exps.ind generalizing v with
  | h0 => cases h; exact ⟨1, rfl⟩
  | h1 e es ih =>
    cases h with
    | cons h1 h2 =>
      obtain ⟨n₁, h₁⟩ := h1.toN
      obtain ⟨n₂, h₂⟩ := ih h2
      refine ⟨max n₁ n₂ + 1, ?_⟩
      simp [evalsN, evalN_mono (m := max n₁ n₂) (by omega) h₁, evalsN_mono (m := max n₁ n₂) (by omega) h₂]

theorem Eval.iffN {e v} : Eval e v ↔ ∃ n, evalN n e = some v :=
  ⟨Eval.toN, fun ⟨n, h⟩ => (evalN_sound n).1 _ _ h⟩

theorem Eval.det {e v w} (h₁ : Eval e v) (h₂ : Eval e w) : v = w := by
  obtain ⟨n, hn⟩ := h₁.toN
  obtain ⟨m, hm⟩ := h₂.toN
  have a := evalN_mono (Nat.le_max_left n m) hn
  have b := evalN_mono (Nat.le_max_right n m) hm
  rw [a] at b; exact Option.some.inj b

theorem Evals.det {e v w} (h₁ : Evals e v) (h₂ : Evals e w) : v = w := by
  obtain ⟨n, hn⟩ := h₁.toN
  obtain ⟨m, hm⟩ := h₂.toN
  have a := evalsN_mono (Nat.le_max_left n m) hn
  have b := evalsN_mono (Nat.le_max_right n m) hm
  rw [a] at b; exact Option.some.inj b

/-- Results evaluate to themselves. -/
theorem Eval.idem {e v} (h : Eval e v) : Eval v v := by
  refine Eval.rec (motive_1 := fun e v _ => Eval v v) (motive_2 := fun es vs _ => Evals vs vs)
    ?_ ?_ ?_ ?_ ?_ ?_ ?_ ?_ ?_ ?_ ?_ ?_ h
  · intro e; exact .lam _
  · intros; assumption
  · intro d es vs _ h; exact .con h
  · intros; assumption
  · intros; assumption
  · intros; exact .fix _ _
  · intros; assumption
  · intros; exact .prf
  · exact .prf
  · intro; exact .pval _
  · exact .nil
  · intro _ _ _ _ _ _ h1 h2; exact .cons h1 h2

end Src
