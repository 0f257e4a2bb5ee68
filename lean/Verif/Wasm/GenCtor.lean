import Verif.Wasm.GenSpec
import Verif.Ctor.Lemmas

/-!
# The constructor environment of the compiler meets the assumption of the Wasm backend

`convert_env` (C45) numbers constructors with and without arguments separately; that is `OrdOk`. The assumption under which
the backend is verified in the repository (`cenv_restricted`, LambdaANF_to_Wasm_restrictions.v:152-159) is stronger, and does
not hold for the natural numbers.
-/

namespace Wasm

/-- What holds of the constructor environment while the types of a program are processed. -/
structure OrdInv (ice : Ctor.Env) : Prop where
  ord : OrdOk ice.ce
  tag : ∀ t i, ice.ce t = some i → t < ice.ncT ∧ i.indTag < ice.niT

theorem OrdInv.step {ice : Ctor.Env} (h : OrdInv ice) (x : Ctor.Flat) : OrdInv (Ctor.stepTy ice x) := by
  obtain ⟨s1, s2, s3, s4, _⟩ := Ctor.stepTy_eq ice x
  have key : ∀ t i, (Ctor.stepTy ice x).ce t = some i → ice.ce t = some i ∧ t < ice.ncT ∨
      ∃ j c, x.2.2.ctors[j]? = some c ∧ t = ice.ncT + j ∧ i.indTag = ice.niT ∧ i.arity = c.arity ∧
        i.ordinal = Ctor.specOrdinal x.2.2.ctors j := by
    intro t i ht
    by_cases hlt : t < ice.ncT
    · left; rw [s3 t (.inl hlt)] at ht; exact ⟨ht, hlt⟩
    by_cases hge : ice.ncT + x.2.2.ctors.length ≤ t
    · rw [s3 t (.inr hge)] at ht; exact absurd (h.tag t i ht).1 (by omega)
    · right
      have hj : x.2.2.ctors[t - ice.ncT]? = some (x.2.2.ctors[t - ice.ncT]'(by omega)) := List.getElem?_eq_getElem (by omega)
      have := s4 _ _ hj
      rw [show ice.ncT + (t - ice.ncT) = t by omega, ht] at this
      cases this
      exact ⟨_, _, hj, by omega, rfl, rfl, rfl⟩
  refine ⟨?_, ?_⟩
  · intro t t' i i' ht ht' e1 e2 e3
    rcases key t i ht with h1 | ⟨j, c, h1, a1, a2, a3, a4⟩ <;> rcases key t' i' ht' with h1' | ⟨j', c', h1', b1, b2, b3, b4⟩
    · exact h.ord t t' i i' h1.1 h1'.1 e1 e2 e3
    · have := (h.tag t i h1.1).2; omega
    · have := (h.tag t' i' h1'.1).2; omega
    · rw [a3, b3] at e2
      have : j = j' := by
        rcases Nat.lt_trichotomy j j' with hlt | heq | hgt
        · have := Ctor.specOrdinal_strict x.2.2.ctors j j' c c' h1 h1' e2 hlt; omega
        · exact heq
        · have := Ctor.specOrdinal_strict x.2.2.ctors j' j c' c h1' h1 e2.symm hgt; omega
      omega
  · intro t i ht
    rw [s1, s2]
    rcases key t i ht with h1 | ⟨j, c, h1, a1, a2, _, _⟩
    · have := h.tag t i h1.1; omega
    · have := (List.getElem?_eq_some_iff.1 h1).1; omega

theorem OrdInv.fold : ∀ (fl : List Ctor.Flat) (ice : Ctor.Env), OrdInv ice → OrdInv (fl.foldl Ctor.stepTy ice)
  | [], _, h => h
  | x :: fl, ice, h => by
    simp only [List.foldl_cons]
    exact OrdInv.fold fl _ (h.step x)

/-- The ordinals the compiler assigns tell constructors apart as the Wasm backend needs, for any declared types. -/
theorem C29_ordinals (dt di : Nat) (g : List (Ctor.Kername × List Ctor.Ityp)) : OrdOk (Ctor.convertEnv dt di g).ce := by
  unfold Ctor.convertEnv
  simp only [Ctor.convertEnv'_fold]
  refine (OrdInv.fold _ _ ?_).ord
  have key : ∀ t i, (Ctor.PMap.set dt { name := none, indName := none, indTag := di, arity := 0, ordinal := 0 }
      (Ctor.PMap.empty : Ctor.PMap Ctor.Info)) t = some i →
      t = dt ∧ i = ({ name := none, indName := none, indTag := di, arity := 0, ordinal := 0 } : Ctor.Info) := by
    intro t i h
    unfold Ctor.PMap.set at h
    split at h
    · rename_i e; cases h; exact ⟨e, rfl⟩
    · cases h
  refine ⟨?_, ?_⟩
  · intro t t' i i' ht ht' _ _ _
    rw [(key t i ht).1, (key t' i' ht').1]
  · intro t i ht; obtain ⟨rfl, rfl⟩ := key t i ht; exact ⟨Nat.lt_succ_self _, Nat.lt_succ_self _⟩

/-- Adding a constructor that is alone in its type, as closure conversion does for closures and environments. -/
theorem C29_ordinals_record {cenv : CEnv} (h : OrdOk cenv) {t : Nat} {i : Ctor.Info}
    (hfresh : ∀ u j, cenv u = some j → j.indTag ≠ i.indTag) : OrdOk (Ctor.PMap.set t i cenv) := by
  intro u u' j j' hj hj' h1 h2 h3
  unfold Ctor.PMap.set at hj hj'
  split at hj <;> split at hj'
  · omega
  · cases hj; exact absurd h1.symm (hfresh u' j' hj')
  · cases hj'; exact absurd h1 (hfresh u j hj)
  · exact h u u' j j' hj hj' h1 h2 h3

/-- The assumption made on constructor environments by the correctness proof in the repository
(`cenv_restricted`, LambdaANF_to_Wasm_restrictions.v:152-159). -/
def CenvRestricted (cenv : CEnv) : Prop :=
  ∀ t i, cenv t = some i → ∀ t', t ≠ t' →
    (i.arity = 0 → ¬ ∃ i', cenv t' = some i' ∧ i'.indTag = i.indTag ∧ i'.arity = 0 ∧ i'.ordinal = i.ordinal) ∧
    (0 < i.arity → ¬ ∃ i', cenv t' = some i' ∧ i'.indTag = i.indTag ∧ i'.ordinal = i.ordinal)

/-- A block declaring the natural numbers. -/
def natDecl : List (Ctor.Kername × List Ctor.Ityp) :=
  [(⟨.file [['D']], ['n']⟩, [⟨['n'], [⟨['O'], 0⟩, ⟨['S'], 1⟩]⟩])]

/-- It does not hold of the environment the compiler builds for the natural numbers. -/
theorem C29_repository_assumption_refuted : ¬ CenvRestricted (Ctor.convertEnv 99 99 natDecl).ce := by
  intro h
  exact (h 101 ⟨some ['S'], some ['n'], 100, 1, 0⟩ (by decide +kernel) 100 (by decide)).2 (by decide)
    ⟨⟨some ['O'], some ['n'], 100, 0, 0⟩, by decide +kernel, rfl, rfl⟩

/-- It does imply the condition used here. -/
theorem CenvRestricted.ordOk {cenv : CEnv} (h : CenvRestricted cenv) : OrdOk cenv := by
  intro t t' i i' h1 h2 h3 h4 h5
  by_contra hne
  rcases Nat.eq_zero_or_pos i.arity with h0 | h0
  · exact (h t i h1 t' hne).1 h0 ⟨i', h2, h3.symm, h4.mp h0, h5.symm⟩
  · exact (h t i h1 t' hne).2 h0 ⟨i', h2, h3.symm, h5.symm⟩

end Wasm
