import Verif.Conv.Agree

/-!
# LambdaBoxLocal: evaluation of programs with primitive operations

A big-step relation, stated without the interpreter of EnvSem.lean, and the proof that the interpreter computes it.
-/

namespace Src

mutual
/-- `Big Q ρ e v`: in the environment `ρ` the term `e` evaluates to `v`.  The rules of `eval_env_step` (fuel_sem.v:150-252)
without fuel; `more` and `done` are for primitive operations, which fuel_sem.v does not have: an operation of arity `n`
takes its arguments one at a time and then computes. -/
inductive Big (Q : Mode) : List SVal → Exp → SVal → Prop
  | var {ρ i v} : ρ[i]? = some v → Big Q ρ (.var i) v
  | lam {ρ e} : Big Q ρ (.lam e) (.clos ρ e)
  | app {ρ e₁ e₂ f v w} : Big Q ρ e₁ f → Big Q ρ e₂ v → BigApp Q f v w → Big Q ρ (.app e₁ e₂) w
  | con {ρ d es vs} : Bigs Q ρ es vs → Big Q ρ (.con d es) (.con d vs)
  | mtch {ρ e bs d vs b w} : Big Q ρ e (.con d vs) → findBranch d vs.length bs = some b → Big Q (vs.reverse ++ ρ) b w →
      Big Q ρ (.mtch e bs) w
  | letin {ρ e₁ e₂ v w} : Big Q ρ e₁ v → Big Q (v :: ρ) e₂ w → Big Q ρ (.letin e₁ e₂) w
  | fix {ρ fs n} : Big Q ρ (.fix fs n) (.fixc ρ fs n)
  | prf {ρ} : Big Q ρ .prf .prf
  | pval {ρ p} : Big Q ρ (.pval p) (.prim p)
  | constant {ρ p d} : Q.arity p = some 0 → Q.op p [] = some d → Big Q ρ (.prim p) d.toSVal
  | prim {ρ p n} : Q.arity p = some (n + 1) → Big Q ρ (.prim p) (.pap p n [])
/-- Argument lists. -/
inductive Bigs (Q : Mode) : List SVal → Exps → List SVal → Prop
  | nil {ρ} : Bigs Q ρ .nil []
  | cons {ρ e es v vs} : Big Q ρ e v → Bigs Q ρ es vs → Bigs Q ρ (.cons e es) (v :: vs)
/-- Application of a value to a value. -/
inductive BigApp (Q : Mode) : SVal → SVal → SVal → Prop
  | clos {ρ e v w} : Big Q (v :: ρ) e w → BigApp Q (.clos ρ e) v w
  | fixc {ρ fs n e v w} : fs.nth n = some (.lam e) → Big Q (v :: recEnv fs ρ) e w → BigApp Q (.fixc ρ fs n) v w
  | prf {v} : Q.bx = true → BigApp Q .prf v .prf
  | more {p n vs v} : BigApp Q (.pap p (n + 1) vs) v (.pap p n (vs ++ [v]))
  | done {p vs v ps d} : vs ++ [v] = ps.map .prim → Q.op p ps = some d → BigApp Q (.pap p 0 vs) v d.toSVal
end

theorem asPrims_map : ∀ ps : List ANF.PVal, asPrims (ps.map .prim) = some ps
  | [] => rfl
  | p :: ps => by simp [asPrims, asPrims_map ps]

theorem map_asPrims : ∀ {vs : List SVal} {ps}, asPrims vs = some ps → vs = ps.map .prim
  | [], ps, h => by cases h; rfl
  | v :: vs, ps, h => by
    cases v <;> simp [asPrims] at h
    obtain ⟨qs, h1, rfl⟩ := h
    rw [map_asPrims h1]; rfl

theorem spap_big {Q : Mode} {p n vs v w} (h : spap Q p n (vs ++ [v]) = .val w) : BigApp Q (.pap p n vs) v w := by
  cases n with
  | succ n => cases h; exact .more
  | zero =>
    simp only [spap, sprim] at h
    split at h
    · rename_i ps hp
      split at h
      · rename_i d hd; cases h; exact .done (map_asPrims hp) hd
      · cases h
    · cases h

theorem nest_val {call r v} (h : nest call r = .val v) : r = .val v := by
  unfold nest at h
  split at h
  · cases h
  · exact h

section
variable {Q : Mode}

theorem sapply_big {sc : List SVal → Exp → SRes} (hc : ∀ ρ e v, sc ρ e = .val v → Big Q ρ e v) {f v w}
    (h : sapply Q sc f v = .val w) : BigApp Q f v w := by
  cases f with
  | clos ρ e => exact .clos (hc _ _ _ h)
  | fixc ρ fs n =>
    simp only [sapply] at h
    split at h
    · rename_i e he; exact .fixc he (hc _ _ _ h)
    · cases h
  | prf =>
    simp only [sapply] at h
    split at h
    · rename_i hb; cases h; exact .prf hb
    · cases h
  | pap p n vs => exact spap_big (nest_val h)
  | con d vs => cases h
  | prim p => cases h

mutual
theorem seval_big {sc : List SVal → Exp → SRes} (hc : ∀ ρ e v, sc ρ e = .val v → Big Q ρ e v) :
    ∀ (e : Exp) {ρ v}, seval Q sc e ρ = .val v → Big Q ρ e v
  | .var i, ρ, v, h => by
    simp only [seval] at h
    split at h <;> cases h
    rename_i hv; exact .var hv
  | .lam e, ρ, v, h => by cases h; exact .lam
  | .app e₁ e₂, ρ, v, h => by
    simp only [seval] at h
    split at h <;> try cases h
    rename_i f h1
    split at h <;> try cases h
    rename_i a h2
    exact .app (seval_big hc e₁ h1) (seval_big hc e₂ h2) (sapply_big hc h)
  | .con d es, ρ, v, h => by
    simp only [seval] at h
    split at h <;> cases h
    rename_i vs h1
    exact .con (sevals_big hc es h1)
  | .mtch e bs, ρ, v, h => by
    simp only [seval] at h
    split at h <;> try cases h
    rename_i u h1
    cases u with
    | con d vs =>
      simp only [sbranch] at h
      split at h
      · rename_i b hb; exact .mtch (seval_big hc e h1) hb (hc _ _ _ h)
      · cases h
    | _ => cases h
  | .letin e₁ e₂, ρ, v, h => by
    simp only [seval] at h
    split at h <;> try cases h
    rename_i u h1
    exact .letin (seval_big hc e₁ h1) (seval_big hc e₂ h)
  | .fix fs n, ρ, v, h => by cases h; exact .fix
  | .prf, ρ, v, h => by cases h; exact .prf
  | .pval p, ρ, v, h => by cases h; exact .pval
  | .prim p, ρ, v, h => by
    simp only [seval] at h
    split at h <;> try cases h
    rename_i n hn
    cases n with
    | succ n => cases h; exact .prim hn
    | zero =>
      simp only [spap, sprim, asPrims] at h
      split at h <;> cases h
      rename_i d hd; exact .constant hn hd
theorem sevals_big {sc : List SVal → Exp → SRes} (hc : ∀ ρ e v, sc ρ e = .val v → Big Q ρ e v) :
    ∀ (es : Exps) {ρ vs}, sevals Q sc es ρ = .vals vs → Bigs Q ρ es vs
  | .nil, ρ, vs, h => by cases h; exact .nil
  | .cons e es, ρ, vs, h => by
    simp only [sevals] at h
    split at h <;> try cases h
    rename_i v h1
    split at h <;> cases h
    rename_i ws h2
    exact .cons (seval_big hc e h1) (sevals_big hc es h2)
end

theorem srun_big : ∀ (n : Nat) {ρ e v}, srun Q n ρ e = .val v → Big Q ρ e v
  | 0, ρ, e, v, h => seval_big (fun _ _ _ h => by cases h) e h
  | n + 1, ρ, e, v, h => seval_big (fun _ _ _ h => srun_big n h) e h

/-- The same application at all greater depths. -/
theorem sapply_mono {f v w n m} (hnm : n ≤ m) (h : sapply Q (scall Q n) f v = .val w) : sapply Q (scall Q m) f v = .val w := by
  have hc : ∀ ρ e u, scall Q n ρ e = .val u → scall Q m ρ e = .val u := by
    intro ρ e u hu
    cases n with
    | zero => cases hu
    | succ n =>
      cases m with
      | zero => omega
      | succ m => exact (srun_mono (by omega : n ≤ m) (by show scall Q (n + 1) ρ e ≠ _; rw [hu]; simp)).trans hu
  cases f with
  | clos ρ e => exact hc _ _ _ h
  | fixc ρ fs i =>
    simp only [sapply] at h ⊢
    split at h
    · rename_i e he; exact hc _ _ _ h
    · cases h
  | prf => exact h
  | pap p i vs =>
    have h1 := nest_val h
    cases n with
    | zero => simp [sapply, nest, scall] at h
    | succ n =>
      cases m with
      | zero => omega
      | succ m =>
        have : scall Q (m + 1) [] .prf = .val .prf := by show srun Q m [] .prf = _; rw [srun_scall]; rfl
        simp only [sapply, nest, this, h1]
  | con d vs => cases h
  | prim p => cases h

mutual
theorem Big.run : ∀ {ρ e v}, Big Q ρ e v → ∃ n, ∀ m, n ≤ m → srun Q m ρ e = .val v
  | _, _, _, .var h => ⟨0, fun m _ => by simp [srun_scall, seval, h]⟩
  | _, _, _, .lam => ⟨0, fun m _ => by simp [srun_scall, seval]⟩
  | _, _, _, .app (e₁ := e₁) (e₂ := e₂) (f := f) (v := v) h1 h2 h3 => by
    obtain ⟨n1, k1⟩ := h1.run
    obtain ⟨n2, k2⟩ := h2.run
    obtain ⟨n3, k3⟩ := h3.run
    refine ⟨max n1 (max n2 n3), fun m hm => ?_⟩
    have a := k1 m (by omega); have b := k2 m (by omega); have c := k3 m (by omega)
    rw [srun_scall] at a b ⊢
    simp only [seval, a, b, c]
  | _, _, _, .con h => by
    obtain ⟨n, k⟩ := h.run
    exact ⟨n, fun m hm => by rw [srun_scall]; simp only [seval, k m hm]⟩
  | _, _, _, .mtch h1 h2 h3 => by
    obtain ⟨n1, k1⟩ := h1.run
    obtain ⟨n3, k3⟩ := h3.run
    refine ⟨max n1 n3 + 1, fun m hm => ?_⟩
    cases m with
    | zero => omega
    | succ m =>
      have a := k1 (m + 1) (by omega); have c := k3 m (by omega)
      rw [srun_scall] at a ⊢
      simp only [seval, a, sbranch, h2]
      exact c
  | _, _, _, .letin h1 h2 => by
    obtain ⟨n1, k1⟩ := h1.run
    obtain ⟨n2, k2⟩ := h2.run
    refine ⟨max n1 n2, fun m hm => ?_⟩
    have a := k1 m (by omega); have b := k2 m (by omega)
    rw [srun_scall] at a b ⊢
    simp only [seval, a, b]
  | _, _, _, .fix => ⟨0, fun m _ => by simp [srun_scall, seval]⟩
  | _, _, _, .prf => ⟨0, fun m _ => by simp [srun_scall, seval]⟩
  | _, _, _, .pval => ⟨0, fun m _ => by simp [srun_scall, seval]⟩
  | _, _, _, .constant h1 h2 => ⟨0, fun m _ => by simp [srun_scall, seval, h1, spap, sprim, asPrims, h2]⟩
  | _, _, _, .prim h1 => ⟨0, fun m _ => by simp [srun_scall, seval, h1, spap]⟩
theorem Bigs.run : ∀ {ρ es vs}, Bigs Q ρ es vs → ∃ n, ∀ m, n ≤ m → sevals Q (scall Q m) es ρ = .vals vs
  | _, _, _, .nil => ⟨0, fun m _ => rfl⟩
  | _, _, _, .cons h1 h2 => by
    obtain ⟨n1, k1⟩ := h1.run
    obtain ⟨n2, k2⟩ := h2.run
    refine ⟨max n1 n2, fun m hm => ?_⟩
    have a := k1 m (by omega); have b := k2 m (by omega)
    rw [srun_scall] at a
    simp only [sevals, a, b]
theorem BigApp.run : ∀ {f v w}, BigApp Q f v w → ∃ n, ∀ m, n ≤ m → sapply Q (scall Q m) f v = .val w
  | _, _, _, .clos h => by
    obtain ⟨n, k⟩ := h.run
    exact ⟨n + 1, fun m hm => sapply_mono hm (k n (Nat.le_refl _))⟩
  | _, _, _, .fixc h1 h => by
    obtain ⟨n, k⟩ := h.run
    refine ⟨n + 1, fun m hm => sapply_mono hm ?_⟩
    simp only [sapply, h1]
    exact k n (Nat.le_refl _)
  | _, _, _, .prf h => ⟨0, fun m _ => by simp [sapply, h]⟩
  | _, _, _, .more (p := p) (n := i) (vs := vs) (v := v) => by
    refine ⟨1, fun m hm => sapply_mono hm ?_⟩
    have : scall Q 1 [] .prf = .val .prf := rfl
    simp only [sapply, nest, this, spap]
  | _, _, _, .done h1 h2 => by
    refine ⟨1, fun m hm => sapply_mono hm ?_⟩
    have : scall Q 1 [] .prf = .val .prf := rfl
    simp only [sapply, nest, this, spap, sprim, h1, asPrims_map, h2]
end

/-- The interpreter computes exactly the values of the relation. -/
theorem big_iff {ρ e v} : Big Q ρ e v ↔ ∃ n, srun Q n ρ e = .val v :=
  ⟨fun h => let ⟨n, k⟩ := h.run; ⟨n, k n (Nat.le_refl _)⟩, fun ⟨n, h⟩ => srun_big n h⟩

end

/-- The program evaluates to data. -/
def Yields (Q : Mode) (e : Exp) (d : Data) : Prop := Big Q [] e d.toSVal
/-- The program evaluates to some value. -/
def Finishes (Q : Mode) (e : Exp) : Prop := ∃ v, Big Q [] e v
/-- The program runs forever. -/
def Loops (Q : Mode) (e : Exp) : Prop := ∀ n, srun Q n [] e = .oot
/-- The program is stuck: it applies something that is no function, has no branch for a value, or a primitive operation is
not defined for its arguments. -/
def Fails (Q : Mode) (e : Exp) : Prop := ∃ n, srun Q n [] e = .stuck

end Src
