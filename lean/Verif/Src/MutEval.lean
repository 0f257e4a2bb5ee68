import Verif.Src.Mut

/-!
# The relation `Wcbv` and the evaluator `wcbvN` agree

theories/LambdaBoxMut/wcbvEval.v leaves one direction (`wcbvEval_WcbvEval`) admitted; it is proved here.
-/

namespace Mut

variable {p : Environ}

theorem lookupDfn_some {c t} : lookupDfn c p = some t ↔ lookup c p = some (.trm t) := by
  unfold lookupDfn
  split
  · rename_i t' h; rw [h]; simp
  · rename_i h; constructor
    · simp
    · intro h'; exact absurd h' (h t)

theorem wcbvN_succ : ∀ n, (∀ e v, wcbvN p n e = some v → wcbvN p (n + 1) e = some v) ∧
    (∀ es vs, wcbvsN p n es = some vs → wcbvsN p (n + 1) es = some vs) := by
  intro n
  induction n with
  | zero => exact ⟨fun e v h => by simp [wcbvN] at h, fun e v h => by simp [wcbvsN] at h⟩
  | succ n ih =>
    obtain ⟨ih, ihs⟩ := ih
    refine ⟨fun e v h => ?_, fun es vs h => ?_⟩
    · unfold wcbvN at h ⊢
      cases e with
      | const c =>
        simp only at h ⊢
        split at h
        · exact ih _ _ h
        · simp at h
        · simp at h
      | con i r ts =>
        simp only at h ⊢
        split at h
        · rename_i vs hv; rw [ihs _ _ hv]; exact h
        · simp at h
      | app f a =>
        simp only at h ⊢
        cases hf : wcbvN p n f with
        | none => rw [hf] at h; simp at h
        | some f' =>
          rw [hf] at h; rw [ih _ _ hf]
          cases ha : wcbvN p n a with
          | none => rw [ha] at h; cases f' <;> simp at h <;> (split at h <;> simp at h)
          | some a' =>
            rw [ha] at h; rw [ih _ _ ha]
            cases f' with
            | lam b => exact ih _ _ h
            | fix ds m =>
              simp only at h ⊢
              split at h
              · simp at h
              · exact ih _ _ h
            | _ => exact h
      | case i t bs =>
        simp only at h ⊢
        cases ht : wcbvN p n t with
        | none => rw [ht] at h; simp at h
        | some t' =>
          rw [ht] at h; rw [ih _ _ ht]
          cases t' with
          | con j r ts =>
            simp only at h ⊢
            split at h
            · simp at h
            · split at h
              · rename_i hij; rw [if_pos hij]; exact ih _ _ h
              · simp at h
          | _ => exact h
      | letin d b =>
        simp only at h ⊢
        split at h
        · rename_i vs hv; rw [ih _ _ hv]; exact ih _ _ h
        · simp at h
      | _ => simpa using h
    · unfold wcbvsN at h ⊢
      cases es with
      | nil => simpa using h
      | cons e es =>
        simp only at h ⊢
        split at h
        · rename_i v vs h1 h2; rw [ih _ _ h1, ihs _ _ h2]; exact h
        · simp at h

theorem wcbvN_mono {n m : Nat} {e v} (hnm : n ≤ m) (h : wcbvN p n e = some v) : wcbvN p m e = some v := by
  induction m, hnm using Nat.le_induction with
  | base => exact h
  | succ m _ ih => exact (wcbvN_succ m).1 _ _ ih

theorem wcbvsN_mono {n m : Nat} {e v} (hnm : n ≤ m) (h : wcbvsN p n e = some v) : wcbvsN p m e = some v := by
  induction m, hnm using Nat.le_induction with
  | base => exact h
  | succ m _ ih => exact (wcbvN_succ m).2 _ _ ih

theorem wcbvN_sound : ∀ n, (∀ e v, wcbvN p n e = some v → Wcbv p e v) ∧
    (∀ es vs, wcbvsN p n es = some vs → Wcbvs p es vs) := by
  intro n
  induction n with
  | zero => exact ⟨fun e v h => by simp [wcbvN] at h, fun e v h => by simp [wcbvsN] at h⟩
  | succ n ih =>
    obtain ⟨ih, ihs⟩ := ih
    refine ⟨fun e v h => ?_, fun es vs h => ?_⟩
    · unfold wcbvN at h
      cases e with
      | const c =>
        simp only at h
        split at h
        · rename_i t ht; exact .const (lookupDfn_some.2 ht) (ih _ _ h)
        · simp at h
        · simp at h
      | con i r ts =>
        simp only at h
        split at h
        · rename_i vs hv; cases h; exact .con (ihs _ _ hv)
        · simp at h
      | app f a =>
        simp only at h
        cases hf : wcbvN p n f with
        | none => rw [hf] at h; simp at h
        | some f' =>
          rw [hf] at h
          cases ha : wcbvN p n a with
          | none => rw [ha] at h; cases f' <;> simp at h <;> (split at h <;> simp at h)
          | some a' =>
            rw [ha] at h
            cases f' with
            | lam b => exact .appLam (ih _ _ hf) (ih _ _ ha) (ih _ _ h)
            | fix ds m =>
              simp only at h
              split at h
              · simp at h
              · rename_i x hx; exact .appFix (ih _ _ hf) hx (ih _ _ ha) (ih _ _ h)
            | proof => cases h; exact .appProof (ih _ _ hf) (ih _ _ ha)
            | con i r ts => simp at h
            | prim v => simp at h
            | _ => cases h; exact .appCong (ih _ _ hf) rfl (ih _ _ ha)
      | case i t bs =>
        simp only at h
        cases ht : wcbvN p n t with
        | none => rw [ht] at h; simp at h
        | some t' =>
          rw [ht] at h
          cases t' with
          | con j r ts =>
            simp only at h
            split at h
            · simp at h
            · rename_i c hc
              split at h
              · rename_i hij; subst hij; exact .case (ih _ _ ht) hc (ih _ _ h)
              · simp at h
          | _ => simp at h
      | letin d b =>
        simp only at h
        split at h
        · rename_i vs hv; exact .letin (ih _ _ hv) (ih _ _ h)
        · simp at h
      | proof => cases h; exact .proof
      | prim v => cases h; exact .prim _
      | lam t => cases h; exact .lam _
      | fix ds m => cases h; exact .fix _ _
      | rel i => simp at h
      | wrong => simp at h
    · unfold wcbvsN at h
      cases es with
      | nil => cases h; exact .nil
      | cons e es =>
        simp only at h
        split at h
        · rename_i v vs h1 h2; simp only [Option.some.injEq] at h; subst h; exact .cons (ih _ _ h1) (ihs _ _ h2)
        · simp at h

theorem Wcbv.toN_aux {e v} (h : Wcbv p e v) : ∃ n, wcbvN p n e = some v := by
  refine Wcbv.rec (motive_1 := fun e v _ => ∃ n, wcbvN p n e = some v)
    (motive_2 := fun es vs _ => ∃ n, wcbvsN p n es = some vs) ?_ ?_ ?_ ?_ ?_ ?_ ?_ ?_ ?_ ?_ ?_ ?_ ?_ ?_ h
  · intro e; exact ⟨1, rfl⟩
  · exact ⟨1, rfl⟩
  · intro v; exact ⟨1, rfl⟩
  · rintro f a a' _ _ ⟨n₁, h₁⟩ ⟨n₂, h₂⟩
    refine ⟨max n₁ n₂ + 1, ?_⟩
    simp [wcbvN, wcbvN_mono (m := max n₁ n₂) (by omega) h₁, wcbvN_mono (m := max n₁ n₂) (by omega) h₂]
  · rintro i r ts ts' _ ⟨n, hn⟩
    exact ⟨n + 1, by simp [wcbvN, hn]⟩
  · intro ds m; exact ⟨1, rfl⟩
  · rintro c t s hl _ ⟨n, hn⟩
    exact ⟨n + 1, by simp [wcbvN, lookupDfn_some.1 hl, hn]⟩
  · rintro f b a a' s _ _ _ ⟨n₁, h₁⟩ ⟨n₂, h₂⟩ ⟨n₃, h₃⟩
    refine ⟨max n₁ (max n₂ n₃) + 1, ?_⟩
    simp [wcbvN, wcbvN_mono (m := max n₁ (max n₂ n₃)) (by omega) h₁, wcbvN_mono (m := max n₁ (max n₂ n₃)) (by omega) h₂,
      wcbvN_mono (m := max n₁ (max n₂ n₃)) (by omega) h₃]
  · rintro d d' b s _ _ ⟨n₁, h₁⟩ ⟨n₂, h₂⟩
    refine ⟨max n₁ n₂ + 1, ?_⟩
    simp [wcbvN, wcbvN_mono (m := max n₁ n₂) (by omega) h₁, wcbvN_mono (m := max n₁ n₂) (by omega) h₂]
  · rintro ds m f a a' x s _ hx _ _ ⟨n₁, h₁⟩ ⟨n₂, h₂⟩ ⟨n₃, h₃⟩
    refine ⟨max n₁ (max n₂ n₃) + 1, ?_⟩
    simp [wcbvN, wcbvN_mono (m := max n₁ (max n₂ n₃)) (by omega) h₁, wcbvN_mono (m := max n₁ (max n₂ n₃)) (by omega) h₂,
      hx, wcbvN_mono (m := max n₁ (max n₂ n₃)) (by omega) h₃]
  · rintro f f' a a' _ hh _ ⟨n₁, h₁⟩ ⟨n₂, h₂⟩
    refine ⟨max n₁ n₂ + 1, ?_⟩
    cases f' <;> simp [Term.head] at hh <;>
      simp [wcbvN, wcbvN_mono (m := max n₁ n₂) (by omega) h₁, wcbvN_mono (m := max n₁ n₂) (by omega) h₂]
  · rintro t i n ts bs c s _ hc _ ⟨n₁, h₁⟩ ⟨n₂, h₂⟩
    refine ⟨max n₁ n₂ + 1, ?_⟩
    simp [wcbvN, wcbvN_mono (m := max n₁ n₂) (by omega) h₁, hc, wcbvN_mono (m := max n₁ n₂) (by omega) h₂]
  · exact ⟨1, rfl⟩
  · rintro e es v vs _ _ ⟨n₁, h₁⟩ ⟨n₂, h₂⟩
    refine ⟨max n₁ n₂ + 1, ?_⟩
    simp [wcbvsN, wcbvN_mono (m := max n₁ n₂) (by omega) h₁, wcbvsN_mono (m := max n₁ n₂) (by omega) h₂]

theorem Wcbv.iffN {e v} : Wcbv p e v ↔ ∃ n, wcbvN p n e = some v :=
  ⟨Wcbv.toN_aux, fun ⟨n, h⟩ => (wcbvN_sound n).1 _ _ h⟩

theorem Wcbv.det {e v w} (h₁ : Wcbv p e v) (h₂ : Wcbv p e w) : v = w := by
  obtain ⟨n, hn⟩ := Wcbv.iffN.1 h₁
  obtain ⟨m, hm⟩ := Wcbv.iffN.1 h₂
  have a := wcbvN_mono (Nat.le_max_left n m) hn
  have b := wcbvN_mono (Nat.le_max_right n m) hm
  rw [a] at b; exact Option.some.inj b

/-- What evaluation can return: a lambda, a fixpoint, the proof, a primitive value or a constructor with such
arguments.  In particular the congruence rule for applications never fires. -/
theorem Wcbv.value {e v} (h : Wcbv p e v) : v.head = true ∧ Wcbv p v v := by
  refine Wcbv.rec (motive_1 := fun e v _ => v.head = true ∧ Wcbv p v v)
    (motive_2 := fun es vs _ => Wcbvs p vs vs) ?_ ?_ ?_ ?_ ?_ ?_ ?_ ?_ ?_ ?_ ?_ ?_ ?_ ?_ h
  · intro e; exact ⟨rfl, .lam _⟩
  · exact ⟨rfl, .proof⟩
  · intro v; exact ⟨rfl, .prim _⟩
  · intros; exact ⟨rfl, .proof⟩
  · intro i r ts ts' _ h; exact ⟨rfl, .con h⟩
  · intros; exact ⟨rfl, .fix _ _⟩
  · intros; assumption
  · intros; assumption
  · intros; assumption
  · intros; assumption
  · intro f f' a a' _ hh _ h1 _; rw [h1.1] at hh; simp at hh
  · intros; assumption
  · exact .nil
  · intro _ _ _ _ _ _ h1 h2; exact .cons h1.2 h2

end Mut
