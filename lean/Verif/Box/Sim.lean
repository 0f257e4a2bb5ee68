import Verif.Box.Subst

/-!
# The conversion commutes with substitution, preserves well-formedness and simulates evaluation
-/

namespace Box

open Mut (Name inst insts instB instD instl Wcbv Wcbvs Defined CrctEnv)

variable {D : Name → Prop} {I : Inds} {E : Ctx}

@[simp] theorem compileD_len (ds) : (compileD ds).len = ds.len := by
  induction ds using Defs.ind with
  | h0 => rfl
  | h1 e es ih => simp [compileD, Mut.Defs.len, Defs.len, ih]

@[simp] theorem compiles_len (ds) : (compiles ds).len = ds.len := by
  induction ds using Terms.ind with
  | h0 => rfl
  | h1 e es ih => simp [compiles, Mut.Terms.len, Terms.len, ih]

@[simp] theorem Terms.length_list (ts : Terms) : ts.list.length = ts.len := by
  induction ts using Terms.ind with
  | h0 => rfl
  | h1 e es ih => simp [Terms.list, Terms.len, ih]

@[simp] theorem csubstD_len (a k ds) : (csubstD a k ds).len = ds.len := by
  induction ds using Defs.ind with
  | h0 => rfl
  | h1 e es ih => simp [csubstD, Defs.len, ih]

@[simp] theorem csubstB_len (a k ds) : (csubstB a k ds).len = ds.len := by
  induction ds using Brs.ind with
  | h0 => rfl
  | h1 m e es ih => simp [csubstB, Brs.len, ih]

@[simp] theorem csubsts_len (a k ds) : (csubsts a k ds).len = ds.len := by
  induction ds using Terms.ind with
  | h0 => rfl
  | h1 e es ih => simp [csubsts, Terms.len, ih]

mutual
theorem compile_csubst {a : Term} (ha : (compile a).crct D 0) : ∀ (t : Term) (k : Nat),
    compile (csubst a k t) = inst (compile a) k (compile t)
  | .rel n, k => by
    simp only [csubst, compile, inst]
    by_cases h : n = k
    · subst h; simp
    · rw [if_neg h, if_neg (Ne.symm h)]; split <;> rfl
  | .box, _ => rfl
  | .var, _ => rfl
  | .evar, _ => rfl
  | .lam t, k => by simp only [csubst, compile, inst]; rw [compile_csubst ha t]
  | .letin t u, k => by simp only [csubst, compile, inst]; rw [compile_csubst ha t, compile_csubst ha u]
  | .app t u, k => by simp only [csubst, compile, inst]; rw [compile_csubst ha t, compile_csubst ha u]
  | .const c, _ => rfl
  | .con i n ts, k => by simp only [csubst, compile, inst]; rw [compiles_csubsts ha ts]
  | .case i p t bs, k => by simp only [csubst, compile, inst]; rw [compile_csubst ha t, compileB_csubstB ha bs]
  | .proj t, k => rfl
  | .fix ds n, k => by
    simp only [csubst, compile, inst, compileD_len]; rw [compileD_csubstD ha ds, Nat.add_comm k]
  | .cofix ds n, k => rfl
  | .prim p, _ => rfl
  | .array ts, k => rfl
  | .lazy t, k => by simp only [csubst, compile, inst]; rw [compile_csubst ha t, inst_lift ha _ (Nat.zero_le _)]
  | .force t, k => by simp only [csubst, compile, inst]; rw [compile_csubst ha t]
theorem compiles_csubsts {a : Term} (ha : (compile a).crct D 0) : ∀ (t : Terms) (k : Nat),
    compiles (csubsts a k t) = insts (compile a) k (compiles t)
  | .nil, _ => rfl
  | .cons t ts, k => by simp only [csubsts, compiles, insts]; rw [compile_csubst ha t, compiles_csubsts ha ts]
theorem compileB_csubstB {a : Term} (ha : (compile a).crct D 0) : ∀ (t : Brs) (k : Nat),
    compileB (csubstB a k t) = instB (compile a) k (compileB t)
  | .nil, _ => rfl
  | .cons m t ts, k => by simp only [csubstB, compileB, instB]; rw [compile_csubst ha t, compileB_csubstB ha ts]
theorem compileD_csubstD {a : Term} (ha : (compile a).crct D 0) : ∀ (t : Defs) (k : Nat),
    compileD (csubstD a k t) = instD (compile a) k (compileD t)
  | .nil, _ => rfl
  | .cons t ts, k => by simp only [csubstD, compileD, instD]; rw [compile_csubst ha t, compileD_csubstD ha ts]
end

/-! ## Well-formedness -/

theorem lookup_compile : ∀ (E : Ctx) (c : Name), Mut.lookup c (compileCtx E) = (lookup c E).map compileDecl
  | [], _ => rfl
  | (d, e) :: E, c => by simp only [compileCtx, Mut.lookup, lookup, lookup_compile E c]; split <;> rfl

theorem lookupDfn_compile {c : Name} {t : Term} (h : lookup c E = some (.constant (some t))) :
    Mut.lookupDfn c (compileCtx E) = some (compile t) := by
  simp [Mut.lookupDfn, lookup_compile, h, compileDecl]

theorem lookupDfn_compile_inv {c : Name} {s : Mut.Term} (h : Mut.lookupDfn c (compileCtx E) = some s) :
    ∃ t, lookup c E = some (.constant (some t)) ∧ s = compile t := by
  simp only [Mut.lookupDfn, lookup_compile] at h
  cases hl : lookup c E with
  | none => simp [hl] at h
  | some d => cases d with
    | inductives => simp [hl, compileDecl] at h
    | constant b => cases b with
      | none => simp [hl, compileDecl] at h
      | some t => simp [hl, compileDecl] at h; exact ⟨t, rfl, h.symm⟩

mutual
theorem compile_crct : ∀ (t : Term) {k : Nat}, t.wf I E k → (compile t).crct (Defined (compileCtx E)) k
  | .rel n, k, h => by simpa [Term.wf, compile, Mut.Term.crct] using h
  | .box, _, _ => by simp [compile, Mut.Term.crct]
  | .var, _, h => by simp [Term.wf] at h
  | .evar, _, h => by simp [Term.wf] at h
  | .lam t, k, h => by
    simp only [Term.wf] at h; simp only [compile, Mut.Term.crct, Nat.add_comm 1]; exact compile_crct t h
  | .letin t u, k, h => by
    simp only [Term.wf] at h; simp only [compile, Mut.Term.crct, Nat.add_comm 1]
    exact ⟨compile_crct t h.1, compile_crct u h.2⟩
  | .app t u, k, h => by
    simp only [Term.wf] at h; simp only [compile, Mut.Term.crct]; exact ⟨compile_crct t h.1, compile_crct u h.2⟩
  | .const c, _, h => by
    simp only [Term.wf] at h; simp only [compile, Mut.Term.crct]
    obtain ⟨t, h⟩ := h; exact ⟨_, lookupDfn_compile h⟩
  | .con i n ts, k, h => by simp only [Term.wf] at h; simp only [compile, Mut.Term.crct]; exact compiles_crct ts h.2
  | .case i p t bs, k, h => by
    simp only [Term.wf] at h; simp only [compile, Mut.Term.crct]; exact ⟨compile_crct t h.2.1, compileB_crct bs h.2.2⟩
  | .proj t, k, h => by simp [Term.wf] at h
  | .fix ds n, k, h => by
    simp only [Term.wf] at h; simp only [compile, Mut.Term.crct, compileD_len]; exact ⟨h.1, compileD_crct ds h.2⟩
  | .cofix ds n, k, h => by simp [Term.wf] at h
  | .prim p, _, _ => by simp [compile, Mut.Term.crct]
  | .array ts, k, h => by simp [Term.wf] at h
  | .lazy t, k, h => by
    simp only [Term.wf] at h; simp only [compile, Mut.Term.crct, Nat.add_comm 1]; exact lift_crct _ (compile_crct t h)
  | .force t, k, h => by
    simp only [Term.wf] at h; simp only [compile, Mut.Term.crct]; exact ⟨compile_crct t h, trivial⟩
theorem compiles_crct : ∀ (t : Terms) {k : Nat}, t.wf I E k → (compiles t).crct (Defined (compileCtx E)) k
  | .nil, _, _ => by simp [compiles, Mut.Terms.crct]
  | .cons t ts, k, h => by
    simp only [Terms.wf] at h; simp only [compiles, Mut.Terms.crct]; exact ⟨compile_crct t h.1, compiles_crct ts h.2⟩
theorem compileB_crct : ∀ (t : Brs) {k : Nat}, t.wf I E k → (compileB t).crct (Defined (compileCtx E)) k
  | .nil, _, _ => by simp [compileB, Mut.Brs.crct]
  | .cons m t ts, k, h => by
    simp only [Brs.wf] at h; simp only [compileB, Mut.Brs.crct]; exact ⟨compile_crct t h.1, compileB_crct ts h.2⟩
theorem compileD_crct : ∀ (t : Defs) {k : Nat}, t.wf I E k → (compileD t).crct (Defined (compileCtx E)) k
  | .nil, _, _ => by simp [compileD, Mut.Defs.crct]
  | .cons t ts, k, h => by
    simp only [Defs.wf] at h; simp only [compileD, Mut.Defs.crct]
    refine ⟨compile_crct t h.1, ?_, compileD_crct ts h.2.2⟩
    obtain ⟨b, rfl⟩ := h.2.1; exact ⟨_, rfl⟩
end

theorem compileCtx_crct : ∀ {E : Ctx}, WfCtx I E → CrctEnv (compileCtx E)
  | [], _ => trivial
  | (c, .constant (some t)) :: E, h => by
    simp only [WfCtx] at h
    exact ⟨compileCtx_crct h.1, by simp [lookup_compile, h.2.1], compile_crct t h.2.2⟩
  | (c, .constant none) :: E, h => by simp [WfCtx] at h
  | (c, .inductives) :: E, h => by
    simp only [WfCtx] at h
    exact ⟨compileCtx_crct h.1, by simp [lookup_compile, h.2]⟩

mutual
theorem Term.wf_mono : ∀ (t : Term) {i k : Nat}, t.wf I E i → i ≤ k → t.wf I E k
  | .rel n, i, k, h, hk => by simp only [Term.wf] at h ⊢; omega
  | .box, _, _, _, _ => by simp [Term.wf]
  | .var, _, _, h, _ => by simp [Term.wf] at h
  | .evar, _, _, h, _ => by simp [Term.wf] at h
  | .lam t, i, k, h, hk => by simp only [Term.wf] at h ⊢; exact t.wf_mono h (by omega)
  | .letin t u, i, k, h, hk => by simp only [Term.wf] at h ⊢; exact ⟨t.wf_mono h.1 hk, u.wf_mono h.2 (by omega)⟩
  | .app t u, i, k, h, hk => by simp only [Term.wf] at h ⊢; exact ⟨t.wf_mono h.1 hk, u.wf_mono h.2 hk⟩
  | .const c, _, _, h, _ => by simpa [Term.wf] using h
  | .con i n ts, _, k, h, hk => by simp only [Term.wf] at h ⊢; exact ⟨h.1, ts.wf_mono h.2 hk⟩
  | .case i p t bs, _, k, h, hk => by
    simp only [Term.wf] at h ⊢; exact ⟨h.1, t.wf_mono h.2.1 hk, bs.wf_mono h.2.2 hk⟩
  | .proj t, _, _, h, _ => by simp [Term.wf] at h
  | .fix ds n, i, k, h, hk => by simp only [Term.wf] at h ⊢; exact ⟨h.1, ds.wf_mono h.2 (by omega)⟩
  | .cofix ds n, _, _, h, _ => by simp [Term.wf] at h
  | .prim p, _, _, _, _ => by simp [Term.wf]
  | .array ts, _, _, h, _ => by simp [Term.wf] at h
  | .lazy t, i, k, h, hk => by simp only [Term.wf] at h ⊢; exact t.wf_mono h hk
  | .force t, i, k, h, hk => by simp only [Term.wf] at h ⊢; exact t.wf_mono h hk
theorem Terms.wf_mono : ∀ (t : Terms) {i k : Nat}, t.wf I E i → i ≤ k → t.wf I E k
  | .nil, _, _, _, _ => by simp [Terms.wf]
  | .cons t ts, i, k, h, hk => by simp only [Terms.wf] at h ⊢; exact ⟨t.wf_mono h.1 hk, ts.wf_mono h.2 hk⟩
theorem Brs.wf_mono : ∀ (t : Brs) {i k : Nat}, t.wf I E i → i ≤ k → t.wf I E k
  | .nil, _, _, _, _ => by simp [Brs.wf]
  | .cons m t ts, i, k, h, hk => by simp only [Brs.wf] at h ⊢; exact ⟨t.wf_mono h.1 (by omega), ts.wf_mono h.2 hk⟩
theorem Defs.wf_mono : ∀ (t : Defs) {i k : Nat}, t.wf I E i → i ≤ k → t.wf I E k
  | .nil, _, _, _, _ => by simp [Defs.wf]
  | .cons t ts, i, k, h, hk => by simp only [Defs.wf] at h ⊢; exact ⟨t.wf_mono h.1 hk, h.2.1, ts.wf_mono h.2.2 hk⟩
end

mutual
theorem csubst_wf {a : Term} (ha : a.wf I E 0) : ∀ (t : Term) {k i : Nat}, t.wf I E (i + 1) → k ≤ i → (csubst a k t).wf I E i
  | .rel n, k, i, h, hk => by
    simp only [Term.wf] at h; simp only [csubst]
    split
    · exact a.wf_mono ha (by omega)
    · split <;> (simp only [Term.wf]; omega)
  | .box, _, _, _, _ => by simp [csubst, Term.wf]
  | .var, _, _, h, _ => by simp [Term.wf] at h
  | .evar, _, _, h, _ => by simp [Term.wf] at h
  | .lam t, k, i, h, hk => by simp only [csubst, Term.wf] at h ⊢; exact csubst_wf ha t h (by omega)
  | .letin t u, k, i, h, hk => by
    simp only [csubst, Term.wf] at h ⊢; exact ⟨csubst_wf ha t h.1 hk, csubst_wf ha u h.2 (by omega)⟩
  | .app t u, k, i, h, hk => by
    simp only [csubst, Term.wf] at h ⊢; exact ⟨csubst_wf ha t h.1 hk, csubst_wf ha u h.2 hk⟩
  | .const c, _, _, h, _ => by simpa [csubst, Term.wf] using h
  | .con j n ts, k, i, h, hk => by
    simp only [csubst, Term.wf, csubsts_len] at h ⊢; exact ⟨h.1, csubsts_wf ha ts h.2 hk⟩
  | .case j p t bs, k, i, h, hk => by
    simp only [csubst, Term.wf, csubstB_len] at h ⊢; exact ⟨h.1, csubst_wf ha t h.2.1 hk, csubstB_wf ha bs h.2.2 hk⟩
  | .proj t, _, _, h, _ => by simp [Term.wf] at h
  | .fix ds n, k, i, h, hk => by
    simp only [csubst, Term.wf, csubstD_len] at h ⊢; exact ⟨h.1, csubstD_wf ha ds h.2 (by omega)⟩
  | .cofix ds n, _, _, h, _ => by simp [Term.wf] at h
  | .prim p, _, _, _, _ => by simp [csubst, Term.wf]
  | .array ts, _, _, h, _ => by simp [Term.wf] at h
  | .lazy t, k, i, h, hk => by simp only [csubst, Term.wf] at h ⊢; exact csubst_wf ha t h hk
  | .force t, k, i, h, hk => by simp only [csubst, Term.wf] at h ⊢; exact csubst_wf ha t h hk
theorem csubsts_wf {a : Term} (ha : a.wf I E 0) : ∀ (t : Terms) {k i : Nat}, t.wf I E (i + 1) → k ≤ i →
    (csubsts a k t).wf I E i
  | .nil, _, _, _, _ => by simp [csubsts, Terms.wf]
  | .cons t ts, k, i, h, hk => by
    simp only [csubsts, Terms.wf] at h ⊢; exact ⟨csubst_wf ha t h.1 hk, csubsts_wf ha ts h.2 hk⟩
theorem csubstB_wf {a : Term} (ha : a.wf I E 0) : ∀ (t : Brs) {k i : Nat}, t.wf I E (i + 1) → k ≤ i →
    (csubstB a k t).wf I E i
  | .nil, _, _, _, _ => by simp [csubstB, Brs.wf]
  | .cons m t ts, k, i, h, hk => by
    simp only [csubstB, Brs.wf] at h ⊢; exact ⟨csubst_wf ha t h.1 (by omega), csubstB_wf ha ts h.2 hk⟩
theorem csubstD_wf {a : Term} (ha : a.wf I E 0) : ∀ (t : Defs) {k i : Nat}, t.wf I E (i + 1) → k ≤ i →
    (csubstD a k t).wf I E i
  | .nil, _, _, _, _ => by simp [csubstD, Defs.wf]
  | .cons t ts, k, i, h, hk => by
    simp only [csubstD, Defs.wf] at h ⊢
    refine ⟨csubst_wf ha t h.1 hk, ?_, csubstD_wf ha ts h.2.2 hk⟩
    obtain ⟨b, rfl⟩ := h.2.1; exact ⟨_, rfl⟩
end

theorem substl_wf : ∀ (l : List Term) (b : Term), (∀ t ∈ l, t.wf I E 0) → b.wf I E l.length → (substl l b).wf I E 0
  | [], b, _, h => by simpa [substl] using h
  | t :: l, b, hl, h => by
    refine substl_wf l _ (fun t ht => hl t (List.mem_cons_of_mem _ ht)) ?_
    exact csubst_wf (hl t (List.mem_cons_self ..)) b (by simpa using h) (Nat.zero_le _)

theorem Terms.wf_list {ts : Terms} {k} (h : ts.wf I E k) : ∀ t ∈ ts.list, t.wf I E k := by
  induction ts using Terms.ind with
  | h0 => intro t ht; simp [Terms.list] at ht
  | h1 e es ih =>
    simp only [Terms.wf] at h
    intro t ht
    rcases List.mem_cons.1 ht with rfl | ht
    · exact h.1
    · exact ih h.2 t ht

theorem Brs.nth_wf : ∀ {bs : Brs} {n m : Nat} {t k}, bs.wf I E k → bs.nth n = some (m, t) → t.wf I E (m + k) := by
  intro bs
  induction bs using Brs.ind with
  | h0 => intro n m t k _ h; cases n <;> simp [Brs.nth] at h
  | h1 m' t' bs ih =>
    intro n m t k hc h
    simp only [Brs.wf] at hc
    cases n with
    | zero => simp only [Brs.nth, Option.some.injEq, Prod.mk.injEq] at h; obtain ⟨rfl, rfl⟩ := h; exact hc.1
    | succ n => exact ih hc.2 h

theorem Defs.nth_wf : ∀ {ds : Defs} {n : Nat} {t k}, ds.wf I E k → ds.nth n = some t → t.wf I E k := by
  intro bs
  induction bs using Defs.ind with
  | h0 => intro n t k _ h; cases n <;> simp [Defs.nth] at h
  | h1 t' bs ih =>
    intro n t k hc h
    simp only [Defs.wf] at hc
    cases n with
    | zero => simp only [Defs.nth, Option.some.injEq] at h; subst h; exact hc.1
    | succ n => exact ih hc.2.2 h

theorem mem_fixSubst {ds : Defs} {t : Term} : ∀ {n}, t ∈ fixSubst ds n → ∃ m, m < n ∧ t = .fix ds m
  | 0, h => by simp [fixSubst] at h
  | n + 1, h => by
    simp only [fixSubst, List.mem_cons] at h
    rcases h with rfl | h
    · exact ⟨n, by omega, rfl⟩
    · obtain ⟨m, hm, e⟩ := mem_fixSubst h; exact ⟨m, by omega, e⟩

@[simp] theorem length_fixSubst (ds : Defs) (n) : (fixSubst ds n).length = n := by
  induction n with
  | zero => rfl
  | succ n ih => simp [fixSubst, ih]

theorem unfoldFix_wf {ds : Defs} {n x} (hd : ds.wf I E ds.len) (h : unfoldFix ds n = some x) : x.wf I E 0 := by
  simp only [unfoldFix, Option.map_eq_some_iff] at h
  obtain ⟨b, hb, rfl⟩ := h
  refine substl_wf _ _ (fun t ht => ?_) (by rw [length_fixSubst]; exact Defs.nth_wf hd hb)
  obtain ⟨m, hm, rfl⟩ := mem_fixSubst ht
  exact ⟨hm, by simpa using hd⟩

theorem iota_wf {pars ts m b} (hts : Terms.wf I E 0 ts) (hb : b.wf I E m) (hm : (ts.list.drop pars).length = m) :
    (iota pars ts b).wf I E 0 := by
  refine substl_wf _ _ (fun t ht => Terms.wf_list hts t (List.mem_of_mem_drop (List.mem_reverse.1 ht))) ?_
  rw [List.length_reverse, hm]; exact hb

mutual
theorem Term.wf_weaken {E' : Ctx} (hE : ∀ c t, lookup c E = some (.constant (some t)) → ∃ t, lookup c E' = some (.constant (some t))) :
    ∀ (t : Term) {k : Nat}, t.wf I E k → t.wf I E' k
  | .rel n, k, h => by simpa [Term.wf] using h
  | .box, _, _ => by simp [Term.wf]
  | .var, _, h => by simp [Term.wf] at h
  | .evar, _, h => by simp [Term.wf] at h
  | .lam t, k, h => by simp only [Term.wf] at h ⊢; exact t.wf_weaken hE h
  | .letin t u, k, h => by simp only [Term.wf] at h ⊢; exact ⟨t.wf_weaken hE h.1, u.wf_weaken hE h.2⟩
  | .app t u, k, h => by simp only [Term.wf] at h ⊢; exact ⟨t.wf_weaken hE h.1, u.wf_weaken hE h.2⟩
  | .const c, _, h => by simp only [Term.wf] at h ⊢; obtain ⟨t, h⟩ := h; exact hE c t h
  | .con i n ts, k, h => by simp only [Term.wf] at h ⊢; exact ⟨h.1, ts.wf_weaken hE h.2⟩
  | .case i p t bs, k, h => by simp only [Term.wf] at h ⊢; exact ⟨h.1, t.wf_weaken hE h.2.1, bs.wf_weaken hE h.2.2⟩
  | .proj t, _, h => by simp [Term.wf] at h
  | .fix ds n, k, h => by simp only [Term.wf] at h ⊢; exact ⟨h.1, ds.wf_weaken hE h.2⟩
  | .cofix ds n, _, h => by simp [Term.wf] at h
  | .prim p, _, _ => by simp [Term.wf]
  | .array ts, _, h => by simp [Term.wf] at h
  | .lazy t, k, h => by simp only [Term.wf] at h ⊢; exact t.wf_weaken hE h
  | .force t, k, h => by simp only [Term.wf] at h ⊢; exact t.wf_weaken hE h
theorem Terms.wf_weaken {E' : Ctx} (hE : ∀ c t, lookup c E = some (.constant (some t)) → ∃ t, lookup c E' = some (.constant (some t))) :
    ∀ (t : Terms) {k : Nat}, t.wf I E k → t.wf I E' k
  | .nil, _, _ => by simp [Terms.wf]
  | .cons t ts, k, h => by simp only [Terms.wf] at h ⊢; exact ⟨t.wf_weaken hE h.1, ts.wf_weaken hE h.2⟩
theorem Brs.wf_weaken {E' : Ctx} (hE : ∀ c t, lookup c E = some (.constant (some t)) → ∃ t, lookup c E' = some (.constant (some t))) :
    ∀ (t : Brs) {k : Nat}, t.wf I E k → t.wf I E' k
  | .nil, _, _ => by simp [Brs.wf]
  | .cons m t ts, k, h => by simp only [Brs.wf] at h ⊢; exact ⟨t.wf_weaken hE h.1, ts.wf_weaken hE h.2⟩
theorem Defs.wf_weaken {E' : Ctx} (hE : ∀ c t, lookup c E = some (.constant (some t)) → ∃ t, lookup c E' = some (.constant (some t))) :
    ∀ (t : Defs) {k : Nat}, t.wf I E k → t.wf I E' k
  | .nil, _, _ => by simp [Defs.wf]
  | .cons t ts, k, h => by simp only [Defs.wf] at h ⊢; exact ⟨t.wf_weaken hE h.1, h.2.1, ts.wf_weaken hE h.2.2⟩
end

theorem lookup_cons_of {c d : Name} {e x} (hd : lookup d E = none) (h : lookup c E = some x) :
    lookup c ((d, e) :: E) = some x := by
  have : c ≠ d := by rintro rfl; rw [hd] at h; cases h
  simp [lookup, this, h]

theorem WfCtx.body : ∀ {E : Ctx}, WfCtx I E → ∀ {c t}, lookup c E = some (.constant (some t)) → t.wf I E 0
  | [], _, c, t, h => by simp [lookup] at h
  | (d, .constant (some u)) :: E, hE, c, t, h => by
    simp only [WfCtx] at hE
    have hw : ∀ c t, lookup c E = some (.constant (some t)) → ∃ t, lookup c ((d, .constant (some u)) :: E) = some (.constant (some t)) :=
      fun c t h => ⟨t, lookup_cons_of hE.2.1 h⟩
    simp only [lookup] at h
    split at h
    · simp only [Option.some.injEq, Decl.constant.injEq] at h; subst h; exact u.wf_weaken hw hE.2.2
    · exact t.wf_weaken hw (hE.1.body h)
  | (d, .constant none) :: E, hE, _, _, _ => by simp [WfCtx] at hE
  | (d, .inductives) :: E, hE, c, t, h => by
    simp only [WfCtx] at hE
    simp only [lookup] at h
    split at h
    · simp at h
    · exact t.wf_weaken (fun c t h => ⟨t, lookup_cons_of hE.2 h⟩) (hE.1.body h)

/-! ## Branches and fixpoints -/

theorem compileB_nth : ∀ (bs : Brs) (n : Nat), (compileB bs).nth n = (bs.nth n).map (fun x => (x.1, compile x.2)) := by
  intro bs
  induction bs using Brs.ind with
  | h0 => intro n; cases n <;> rfl
  | h1 m t bs ih => intro n; cases n with
    | zero => rfl
    | succ n => simpa [compileB, Mut.Brs.nth, Brs.nth] using ih n

theorem compileD_nth : ∀ (ds : Defs) (n : Nat), (compileD ds).nth n = (ds.nth n).map compile := by
  intro bs
  induction bs using Defs.ind with
  | h0 => intro n; cases n <;> rfl
  | h1 t bs ih => intro n; cases n with
    | zero => rfl
    | succ n => simpa [compileD, Mut.Defs.nth, Defs.nth] using ih n

/-- Substituting the reversed argument list one variable at a time is the simultaneous substitution of LambdaBoxMut. -/
theorem compile_substl_rev : ∀ (ts : Terms) (b : Term), (compiles ts).crct D 0 →
    compile (substl ts.list.reverse b) = instl (compiles ts) 0 (compile b) := by
  intro ts
  induction ts using Terms.ind with
  | h0 => intro b _; rfl
  | h1 a s ih =>
    intro b h
    simp only [compiles, Mut.Terms.crct] at h
    have : substl (Terms.cons a s).list.reverse b = csubst a 0 (substl s.list.reverse b) := by
      simp [Terms.list, substl, List.foldl_append]
    rw [this, compile_csubst h.1, ih b h.2, inst_instl h.1 _ h.2]
    simp [compiles, instl]

theorem compile_substl_fix {ds : Defs} (hd : ∀ m, m < ds.len → (compile (.fix ds m)).crct D 0) : ∀ (n : Nat) (b : Term), n ≤ ds.len →
    compile (substl (fixSubst ds n) b) = (Mut.listToZero n).foldl (fun b k => inst (.fix (compileD ds) k) 0 b) (compile b)
  | 0, b, _ => rfl
  | n + 1, b, hn => by
    have : substl (fixSubst ds (n + 1)) b = substl (fixSubst ds n) (csubst (.fix ds n) 0 b) := rfl
    rw [this, compile_substl_fix hd n _ (by omega), compile_csubst (hd n (by omega))]
    rfl

theorem compile_fixStep {ds : Defs} {n : Nat} (hd : (compileD ds).crct D ds.len) :
    Mut.fixStep (compileD ds) n = (unfoldFix ds n).map compile := by
  unfold Mut.fixStep unfoldFix
  rw [compileD_nth]
  cases hn : ds.nth n with
  | none => rfl
  | some b =>
    simp only [Option.map_some, compileD_len]
    rw [compile_substl_fix (D := D) (fun m hm => ?_) _ _ (Nat.le_refl _)]
    simp only [compile, Mut.Term.crct, compileD_len]; exact ⟨hm, hd⟩

theorem head_compile {t : Term} (h : t.headed = false) : (compile t).head = false := by
  cases t <;> simp_all [Term.headed, Term.headed.applied, compile, Mut.Term.head]

/-! ## Simulation -/

theorem lookupCtor_pars (hI : NoPars I) {i n p pars a} (h : lookupCtor I i n = some (p, pars, a)) : pars = 0 := by
  unfold lookupCtor at h
  split at h
  · rename_i d hd
    simp only [Option.map_eq_some_iff, Prod.mk.injEq] at h
    obtain ⟨_, _, _, h, _⟩ := h
    rw [← h]; exact hI _ _ hd
  · simp at h

theorem Eval.sim (hI : NoPars I) (hE : WfCtx I E) {t v} (h : Eval I E t v) :
    t.wf I E 0 → v.wf I E 0 ∧ Wcbv (compileCtx E) (compile t) (compile v) := by
  refine Eval.rec (motive_1 := fun t v _ => t.wf I E 0 → v.wf I E 0 ∧ Wcbv (compileCtx E) (compile t) (compile v))
    (motive_2 := fun t v _ => t.wf I E 0 → v.wf I E 0 ∧ v.len = t.len ∧ Wcbvs (compileCtx E) (compiles t) (compiles v))
    ?_ ?_ ?_ ?_ ?_ ?_ ?_ ?_ ?_ ?_ ?_ ?_ ?_ ?_ ?_ ?_ h
  · intro f a a' _ _ h1 h2 hw
    simp only [Term.wf] at hw
    exact ⟨trivial, .appProof (h1 hw.1).2 (h2 hw.2).2⟩
  · intro f b a a' v _ _ _ h1 h2 h3 hw
    simp only [Term.wf] at hw
    obtain ⟨w1, s1⟩ := h1 hw.1
    obtain ⟨w2, s2⟩ := h2 hw.2
    simp only [Term.wf] at w1
    obtain ⟨w3, s3⟩ := h3 (csubst_wf w2 b w1 (Nat.zero_le _))
    rw [compile_csubst (compile_crct _ w2)] at s3
    exact ⟨w3, .appLam s1 s2 s3⟩
  · intro d d' b v _ _ h1 h2 hw
    simp only [Term.wf] at hw
    obtain ⟨w1, s1⟩ := h1 hw.1
    obtain ⟨w2, s2⟩ := h2 (csubst_wf w1 b hw.2 (Nat.zero_le _))
    rw [compile_csubst (compile_crct _ w1)] at s2
    exact ⟨w2, .letin s1 s2⟩
  · intro i p t n ts bs pars k m b v _ hc hb hl hm _ h1 h2 hw
    simp only [Term.wf] at hw
    obtain ⟨w1, s1⟩ := h1 hw.2.1
    simp only [Term.wf] at w1
    have hbw : b.wf I E m := by simpa using Brs.nth_wf hw.2.2 hb
    obtain ⟨w2, s2⟩ := h2 (iota_wf w1.2 hbw hm)
    obtain rfl := lookupCtor_pars hI hc
    simp only [Box.iota, List.drop_zero, Terms.length_list] at s2 hm
    rw [compile_substl_rev _ _ (compiles_crct _ w1.2)] at s2
    refine ⟨w2, .case s1 ?_ s2⟩
    simp [Mut.caseStep, compileB_nth, hb, hm]
  · intro f ds n x a a' v _ hx _ _ h1 h2 h3 hw
    simp only [Term.wf] at hw
    obtain ⟨w1, s1⟩ := h1 hw.1
    obtain ⟨w2, s2⟩ := h2 hw.2
    simp only [Term.wf, Nat.add_zero] at w1
    obtain ⟨w3, s3⟩ := h3 ⟨unfoldFix_wf w1.2 hx, w2⟩
    refine ⟨w3, .appFix s1 ?_ s2 s3⟩
    rw [compile_fixStep (compileD_crct _ w1.2), hx]; rfl
  · intro c t v hl _ h1 _
    obtain ⟨w1, s1⟩ := h1 (hE.body hl)
    exact ⟨w1, .const (lookupDfn_compile hl) s1⟩
  · intro i n ts ts' p pars k hc hl _ h1 hw
    simp only [Term.wf] at hw
    obtain ⟨w1, hlen, s1⟩ := h1 hw.2
    exact ⟨⟨⟨p, pars, k, hc, by omega⟩, w1⟩, .con s1⟩
  · intro f f' a a' _ hh _ h1 h2 hw
    simp only [Term.wf] at hw
    obtain ⟨w1, s1⟩ := h1 hw.1
    obtain ⟨w2, s2⟩ := h2 hw.2
    exact ⟨⟨w1, w2⟩, .appCong s1 (head_compile hh) s2⟩
  · intro p _; exact ⟨trivial, .prim _⟩
  · intro t u v _ _ h1 h2 hw
    simp only [Term.wf] at hw
    obtain ⟨w1, s1⟩ := h1 hw
    simp only [Term.wf] at w1
    obtain ⟨w2, s2⟩ := h2 w1
    refine ⟨w2, .appLam s1 .proof ?_⟩
    rw [inst_lift_same]; exact s2
  · intro _; exact ⟨trivial, .proof⟩
  · intro t hw; exact ⟨hw, .lam _⟩
  · intro ds n hw; exact ⟨hw, .fix _ _⟩
  · intro t hw; exact ⟨hw, .lam _⟩
  · intro _; exact ⟨trivial, rfl, .nil⟩
  · intro t t' ts ts' _ _ h1 h2 hw
    simp only [Terms.wf] at hw
    obtain ⟨w1, s1⟩ := h1 hw.1
    obtain ⟨w2, hl, s2⟩ := h2 hw.2
    exact ⟨⟨w1, w2⟩, by simp [Terms.len, hl], .cons s1 s2⟩

end Box
